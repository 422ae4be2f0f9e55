import Verif.Mqtt.Props
/-!
# What accepted packets look like (C48)
-/
namespace Verif.Mqtt
open Verif

/-- `Q` holds for every value `p` gives. -/
def Post {α : Type} (p : P α) (Q : α → Prop) : Prop := ∀ e pos a pos', p e pos = .ok (a, pos') → Q a

theorem Post.bind {α β : Type} {p : P α} {f : α → P β} {R : α → Prop} {Q : β → Prop} (h1 : Post p R)
    (h2 : ∀ a, R a → Post (f a) Q) : Post (p >>= f) Q := by
  intro e pos b pos' h
  obtain ⟨a, p1, e1, e2⟩ := bind_eq_ok h
  exact h2 a (h1 _ _ _ _ e1) _ _ _ _ e2

theorem Post.any {α β : Type} {p : P α} {f : α → P β} {Q : β → Prop} (h2 : ∀ a, Post (f a) Q) : Post (p >>= f) Q :=
  Post.bind (R := fun _ => True) (fun _ _ _ _ _ => trivial) fun a _ => h2 a

theorem Post.require {β : Type} {c : Bool} {f : Unit → P β} {Q : β → Prop} (h : c = true → Post (f ()) Q) :
    Post (Mqtt.require c >>= f) Q :=
  Post.bind (R := fun _ => c = true) (fun _ _ _ _ h => (require_ok h).1) fun _ hc => h hc

theorem Post.pure {α : Type} {a : α} {Q : α → Prop} (h : Q a) : Post (pure a : P α) Q := by
  intro e pos b pos' hb; cases hb; exact h

theorem Post.soft {α : Type} {Q : α → Prop} : Post (Mqtt.soft : P α) Q := by intro e pos b pos' h; cases h

theorem post_u16 : Post u16 (· < 65536) := by
  intro e pos a pos' h
  rw [u16_eq] at h
  split at h
  · cases h
    have := e.buf[pos].toNat_lt
    have := e.buf[pos + 1].toNat_lt
    omega
  · cases h

theorem post_packetId : Post packetId Spec.PacketId :=
  post_u16.bind fun n hn => Post.require fun h => Post.pure ⟨by have := of_decide_eq_true h; omega, hn⟩

theorem post_takeN (n : Nat) : Post (takeN n) (·.length = n) := by
  intro e pos a pos' h
  rw [takeN_eq] at h
  split at h
  · cases h; rw [List.length_take, List.length_drop]; omega
  · cases h

theorem post_blob : Post blob (·.length ≤ 65535) :=
  post_u16.bind fun n hn => Post.any fun _ => Post.any fun _ => Post.require fun _ => by
    intro e pos a pos' h
    have := post_takeN n e pos a pos' h
    omega

theorem post_utf8 (m : Nat) : Post (utf8 m) (fun s => m ≤ s.length ∧ Spec.Str s) :=
  post_blob.bind fun s hs => Post.require fun h1 => Post.require fun h2 =>
    Post.pure ⟨of_decide_eq_true h1, (utf8Ok_iff s).mp h2, hs⟩

theorem post_propertiesIfV5 (v : Nat) : Post (propertiesIfV5 v) (fun ps => v < 5 → ps = []) := by
  unfold propertiesIfV5
  split
  · intro e pos a pos' _ h; omega
  · exact Post.pure fun _ => rfl

theorem validateName_str (s : Bytes) : Topic.validateName s = true →
    s ≠ [] ∧ (0x23 : UInt8) ∉ Spec.beforeNul s ∧ (0x2B : UInt8) ∉ Spec.beforeNul s := by
  intro h
  have e : Topic.validateName s = Topic.validateNameWithEnd s := by
    unfold Topic.validateName Topic.validateNameWithEnd; split <;> rfl
  rw [e, Topic.validateNameWithEnd_iff] at h
  exact ⟨h.1, h.2.2⟩

theorem post_connectHeader : Post connectHeader (fun x =>
    (x.1 = 3 ∨ x.1 = 4 ∨ x.1 = 5) ∧ x.2.2.1 < 65536 ∧ (x.1 < 5 → x.2.2.2 = []) ∧
    Spec.bits x.2.1.toNat 0 1 = 0 ∧ Spec.bits x.2.1.toNat 3 2 ≤ 2 ∧
    (Spec.bits x.2.1.toNat 2 1 = 0 → Spec.bits x.2.1.toNat 3 2 = 0 ∧ Spec.bits x.2.1.toNat 5 1 = 0) ∧
    (x.1 < 5 → Spec.bits x.2.1.toNat 6 1 = 1 → Spec.bits x.2.1.toNat 7 1 = 1)) := by
  unfold connectHeader
  refine Post.any fun _ => Post.require fun _ => Post.any fun _ => Post.any fun ver => ?_
  split
  · exact Post.soft
  · rename_i name hn
    refine Post.require fun _ => Post.any fun flags => ?_
    dsimp only
    simp only [flagBits_eq]
    refine Post.require fun h1 => Post.require fun h2 => Post.require fun h3 => Post.require fun h4 => ?_
    refine post_u16.bind fun ka hka => (post_propertiesIfV5 _).bind fun ps hps => Post.pure ?_
    simp only [decide_eq_true_eq] at h1 h2 h3 h4
    refine ⟨?_, hka, hps, h1, h4, fun h => ?_, fun h5 h6 => ?_⟩
    · unfold versionName at hn
      split at hn
      · left; assumption
      · split at hn
        · right; assumption
        · cases hn
    · rcases h2 with h2 | h2
      · exact absurd h h2
      · exact h2
    · rcases h3 with h3 | h3
      · omega
      · rcases bits1_cases flags.toNat 7 with h | h
        · exact absurd ⟨h6, h⟩ h3
        · exact h

theorem post_connectWill (v : Nat) (flags : UInt8) : Post (connectWill v flags) (fun will =>
    (will.isSome ↔ Spec.bits flags.toNat 2 1 = 1) ∧
    ∀ w, will = some w → Spec.Name w.topic ∧ w.msg.length ≤ 65535 ∧ (v < 5 → w.props = [])) := by
  unfold connectWill
  rw [flagBits_eq]
  split
  · rename_i h
    refine (post_propertiesIfV5 v).bind fun ps hps => (post_utf8 1).bind fun topic ht => ?_
    refine Post.require fun hv => post_blob.bind fun msg hm => Post.pure ⟨?_, ?_⟩
    · rcases bits1_cases flags.toNat 2 with h' | h'
      · exact absurd h' h
      · simp [h']
    · rintro w hw
      cases hw
      exact ⟨⟨ht.2, validateName_str _ hv⟩, hm, hps⟩
  · rename_i h
    refine Post.pure ⟨?_, by simp⟩
    simp at h
    simp [h]

theorem post_connectString (present : Bool) : Post (connectString present) (fun s =>
    (s.isSome ↔ present = true) ∧ ∀ x, s = some x → x ≠ [] ∧ Spec.Str x) := by
  unfold connectString
  cases present with
  | false => exact Post.pure ⟨by simp, by simp⟩
  | true =>
    refine Post.any fun _ => Post.require fun _ => (post_utf8 1).bind fun s hs => Post.pure ⟨by simp, ?_⟩
    rintro x hx
    cases hx
    exact ⟨by intro h; rw [h] at hs; simp at hs, hs.2⟩

theorem post_parseConnect (ver : Nat) : Post parseConnect (Spec.Accepted ver) := by
  unfold parseConnect
  refine post_connectHeader.bind fun x hx => ?_
  obtain ⟨v, flags, ka, ps⟩ := x
  refine Post.any fun _ => (post_utf8 0).bind fun cid hcid => (post_connectWill v flags).bind fun will hw => ?_
  refine (post_connectString _).bind fun user hu => (post_connectString _).bind fun pass hp => ?_
  refine Post.any fun _ => Post.pure ?_
  obtain ⟨a1, a2, a3, a4, a5, a6, a7⟩ := hx
  have fb : ∀ s, (decide (flagBits flags.toNat s 1 ≠ 0) = true) ↔ Spec.bits flags.toNat s 1 = 1 := by
    intro s
    rw [flagBits_eq]
    rcases bits1_cases flags.toNat s with h | h <;> simp [h]
  rw [fb] at hu hp
  exact ⟨a1, a2, hcid.2, a3, a4, a5, a6, a7, hw.1, hu.1, hp.1, hw.2, hu.2, hp.2⟩

theorem checkReason_post (v : Nat) (cls : Reason → Bool) (r : UInt8) : Post (checkReason v cls r) (fun a =>
    ∃ x, (if v ≥ 5 then reasonGetV5 r else reasonGetV31 r.toNat) = some x ∧ cls x = true ∧ a = x.v5) := by
  unfold checkReason
  split
  · exact Post.soft
  · rename_i x hx
    split
    · exact Post.pure ⟨x, hx, by assumption, rfl⟩
    · exact Post.soft

theorem reason_mem {r : UInt8} {x : Reason} (h : reasonGetV5 r = some x) : x ∈ reasonMap := List.mem_of_find?_eq_some h
theorem reason_mem31 {n : Nat} {x : Reason} (h : reasonGetV31 n = some x) :
    x ∈ reasonMap.takeWhile (fun x => x.v31 ≤ 5) := List.mem_of_find?_eq_some h

theorem post_parseConnack {ver : Nat} (hv : ver = 3 ∨ ver = 4 ∨ ver = 5) :
    Post (parseConnack ver) (Spec.Accepted ver) := by
  unfold parseConnack
  refine Post.any fun flags => Post.require fun hf => Post.any fun r => (checkReason_post _ _ _).bind fun reason hr => ?_
  refine (post_propertiesIfV5 ver).bind fun ps hps => Post.any fun _ => Post.any fun _ => Post.pure ⟨?_, ?_, hps⟩
  · simp only [flagBits_eq, decide_eq_true_eq] at hf
    unfold Spec.bits at hf
    have := flags.toNat_lt
    omega
  · obtain ⟨x, h1, h2, rfl⟩ := hr
    unfold Spec.ConnackReason
    by_cases h5 : ver = 5
    · rw [if_pos (by omega)] at h1
      rw [if_pos h5]
      have key : ∀ x ∈ reasonMap, x.connack = true → x.v5 ∈ ([0x00, 0x80, 0x81, 0x82, 0x83, 0x84, 0x85, 0x86, 0x87, 0x88,
        0x89, 0x8A, 0x8C, 0x90, 0x95, 0x97, 0x99, 0x9A, 0x9B, 0x9C, 0x9D, 0x9F] : List UInt8) := by decide +kernel
      exact key x (reason_mem h1) h2
    · rw [if_neg (by omega)] at h1
      rw [if_neg h5]
      have key : ∀ x ∈ reasonMap.takeWhile (fun x => x.v31 ≤ 5), x.connack = true →
        x.v5 ∈ ([0x00, 0x84, 0x85, 0x86, 0x87, 0x88] : List UInt8) := by decide +kernel
      exact key x (reason_mem31 h1) h2

theorem post_parsePublish {ver flags : Nat} (hf : flags < 16) : Post (parsePublish ver flags) (Spec.Accepted ver) := by
  unfold parsePublish
  simp only [flagBits_eq]
  refine Post.require fun h1 => Post.require fun h2 => (post_utf8 1).bind fun topic ht => Post.require fun hv => ?_
  refine Post.bind (R := fun id => if Spec.bits flags 1 2 = 0 then id = 0 else Spec.PacketId id) ?_ fun id hid => ?_
  · unfold publishId
    rw [flagBits_eq]
    by_cases h0 : Spec.bits flags 1 2 = 0
    · simp only [h0, if_true]
      rw [if_neg (by omega)]
      exact Post.pure rfl
    · simp only [h0, if_false]
      rw [if_pos (by omega)]
      exact post_packetId
  · refine (post_propertiesIfV5 ver).bind fun ps hps => Post.any fun _ => Post.any fun _ => Post.pure ?_
    simp only [decide_eq_true_eq] at h1 h2
    refine ⟨hf, h1, fun h => ?_, ⟨ht.2, validateName_str _ hv⟩, hid, hps⟩
    exact Classical.byContradiction fun hc => h2 ⟨h, hc⟩

theorem post_parseAck {ver ty : Nat} (h4 : 4 ≤ ty) (h7 : ty ≤ 7) : Post (parseAck ver ty) (Spec.Accepted ver) := by
  unfold parseAck
  have zero : Spec.AckReason ty 0 := by unfold Spec.AckReason; split <;> decide
  refine post_packetId.bind fun id hid => Post.any fun e => ?_
  split
  · exact Post.any fun _ => Post.any fun _ => Post.pure ⟨h4, h7, hid, fun _ => ⟨rfl, rfl⟩, Or.inl zero⟩
  · split
    · rename_i h5
      refine Post.any fun r => (checkReason_post _ _ _).bind fun reason hr => Post.any fun ps => ?_
      refine Post.any fun _ => Post.any fun _ => Post.any fun _ => Post.pure ⟨h4, h7, hid, fun h => by omega, ?_⟩
      obtain ⟨x, h1, h2, rfl⟩ := hr
      rw [if_pos h5] at h1
      unfold Spec.AckReason
      have key : ∀ x ∈ reasonMap, (x.pubackPubrec = true → x.v5 ∈ ([0x00, 0x10, 0x80, 0x83, 0x87, 0x90, 0x91, 0x97, 0x99] :
        List UInt8) ∨ x.v5 = 0x92) ∧ (x.pubrelPubcomp = true → x.v5 ∈ ([0x00, 0x92] : List UInt8)) := by decide +kernel
      have := key x (reason_mem h1)
      split at h2
      · rw [if_pos ‹_›]; exact this.1 h2
      · rw [if_neg ‹_›]; exact Or.inl (this.2 h2)
    · exact Post.any fun _ => Post.any fun _ => Post.any fun _ =>
        Post.pure ⟨h4, h7, hid, fun _ => ⟨rfl, rfl⟩, Or.inl zero⟩

theorem cstr_no_nul {s : Bytes} (h : Topic.cstr s = s) : (0 : UInt8) ∉ s := by
  intro h0
  rw [← h] at h0
  have := List.all_takeWhile (p := fun x : UInt8 => decide (x ≠ 0)) (l := s)
  rw [List.all_eq_true] at this
  simpa using this _ h0

theorem post_parseFilter {ver : Nat} (hv : ver = 3 ∨ ver = 4 ∨ ver = 5) (hasO : Bool) :
    Post (parseFilter ver hasO) (Spec.SubOk ver) := by
  unfold parseFilter
  refine (post_utf8 1).bind fun f hf => Post.require fun hc => Post.any fun o => ?_
  dsimp only
  refine Post.require fun h1 => Post.require fun _ => Post.require fun h3 => Post.require fun h4 => ?_
  have hnul : (0 : UInt8) ∉ f := cstr_no_nul (of_decide_eq_true hc)
  have hne : f ≠ [] := by intro h; rw [h] at hf; simp at hf
  cases hn : Subscription.new f (flagBits o.toNat 4 2) (flagBits o.toNat 3 1) (flagBits o.toNat 2 1)
    (flagBits o.toNat 0 2) with
  | none => intro e pos b pos' h; cases h
  | some s =>
    refine Post.pure ?_
    unfold Subscription.new at hn
    split at hn
    · cases hn
    · rename_i hnn
      split at hn
      · cases hn
      · cases hn
        have hfv := (Topic.filterValidateName_iff f hnul).mp h4
        refine ⟨⟨⟨hnul, hfv.2.1, hfv.1⟩, hne, hfv.2.2⟩, of_decide_eq_true h1, by simp only; omega, by simp only; omega,
          by simp only; omega, fun h5 => ?_⟩
        rw [if_neg (by omega)] at h3
        exact (of_decide_eq_true h3).1

theorem addUnique_acc {acc : Subscription.Coll} {s : Subscription.Sub} {Q : Subscription.Sub → Prop}
    (h : (∀ x ∈ acc, Q x) ∧ (acc.map (·.filter)).Nodup) (hs : Q s) {r : Subscription.AddRes} {acc' : Subscription.Coll}
    (ha : Subscription.addUnique acc s true = (r, acc')) (hr : r ≠ .refused) :
    (∀ x ∈ acc', Q x) ∧ (acc'.map (·.filter)).Nodup ∧ acc' ≠ [] := by
  unfold Subscription.addUnique at ha
  split at ha
  · cases ha; exact ⟨by simpa using hs, by simp, by simp⟩
  · cases hrf : Subscription.replaceFirst s acc with
    | none =>
      rw [hrf] at ha
      simp only at ha
      split at ha
      · cases ha; exact absurd rfl hr
      · simp only [if_true] at ha
        cases ha
        refine ⟨?_, ?_, by simp⟩
        · intro x hx
          rcases List.mem_append.mp hx with hx | hx
          · exact h.1 x hx
          · rcases List.mem_singleton.mp hx with rfl; exact hs
        · rw [List.map_append, List.nodup_append]
          refine ⟨h.2, by simp, ?_⟩
          intro a ha b hb
          obtain ⟨x, hx, rfl⟩ := List.mem_map.mp ha
          simp at hb
          subst hb
          exact Subscription.replaceFirst_none.mp hrf x hx
    | some c =>
      rw [hrf] at ha
      cases ha
      obtain ⟨pre, x, post, e1, e2, _, e4⟩ := Subscription.replaceFirst_some hrf
      subst e1 e4
      refine ⟨?_, ?_, by simp⟩
      · intro y hy
        rcases List.mem_append.mp hy with hy | hy
        · exact h.1 y (by simp [hy])
        · rcases List.mem_cons.mp hy with rfl | hy
          · exact hs
          · exact h.1 y (by simp [hy])
      · rw [Subscription.filters_replace pre post x s e2]; exact h.2

theorem post_filterLoop {ver : Nat} (hv : ver = 3 ∨ ver = 4 ∨ ver = 5) (hasO : Bool) : ∀ (fuel : Nat) (acc : Subscription.Coll),
    (∀ x ∈ acc, Spec.SubOk ver x) ∧ (acc.map (·.filter)).Nodup →
    Post (filterLoop ver hasO fuel acc) (fun r => (∀ x ∈ r, Spec.SubOk ver x) ∧ (r.map (·.filter)).Nodup ∧ (acc ≠ [] → r ≠ []))
  | 0, acc, h => Post.pure ⟨h.1, h.2, id⟩
  | fuel + 1, acc, h => by
    unfold filterLoop
    refine Post.any fun e => ?_
    split
    · exact Post.pure ⟨h.1, h.2, id⟩
    · refine (post_parseFilter hv hasO).bind fun s hs => ?_
      cases ha : Subscription.addUnique acc s true with
      | mk r acc' =>
        cases r with
        | refused => exact Post.soft
        | ok =>
          have := addUnique_acc h hs ha (by simp)
          intro e pos a pos' hh
          have h2 := post_filterLoop hv hasO fuel acc' ⟨this.1, this.2.1⟩ e pos a pos' hh
          exact ⟨h2.1, h2.2.1, fun _ => h2.2.2 this.2.2⟩
        | replaced =>
          have := addUnique_acc h hs ha (by simp)
          intro e pos a pos' hh
          have h2 := post_filterLoop hv hasO fuel acc' ⟨this.1, this.2.1⟩ e pos a pos' hh
          exact ⟨h2.1, h2.2.1, fun _ => h2.2.2 this.2.2⟩

theorem filterLoop_ne_nil {ver : Nat} (hv : ver = 3 ∨ ver = 4 ∨ ver = 5) (hasO : Bool) {fuel : Nat} {e : Env}
    {pos pos' : Nat} {r : Subscription.Coll} (hf : 0 < fuel) (hp : pos < e.target)
    (h : filterLoop ver hasO fuel [] e pos = .ok (r, pos')) : r ≠ [] := by
  obtain ⟨f, rfl⟩ : ∃ f, fuel = f + 1 := ⟨fuel - 1, by omega⟩
  unfold filterLoop at h
  rw [bind_ok (a := false) (pos' := pos) (by unfold targetEnd; simp; omega)] at h
  simp only [Bool.false_eq_true, if_false] at h
  obtain ⟨s, p1, h1, h2⟩ := bind_eq_ok h
  have hs := post_parseFilter hv hasO _ _ _ _ h1
  have ha : Subscription.addUnique [] s true = (.ok, [s]) := rfl
  rw [ha] at h2
  exact (post_filterLoop hv hasO f [s] ⟨by simpa using hs, by simp⟩ _ _ _ _ h2).2.2 (by simp)

theorem post_parseSubUsub {ver : Nat} (hv : ver = 3 ∨ ver = 4 ∨ ver = 5) (hasO : Bool) :
    Post (parseSubUsub ver hasO) (Spec.Accepted ver) := by
  unfold parseSubUsub
  refine post_packetId.bind fun id hid => (post_propertiesIfV5 ver).bind fun ps hps => Post.any fun _ => ?_
  intro e pos a pos' h
  obtain ⟨en, p1, h1, h⟩ := bind_eq_ok h
  obtain ⟨_, p2, h2, h⟩ := bind_eq_ok h
  obtain ⟨q, p3, h3, h⟩ := bind_eq_ok h
  obtain ⟨t, p4, h4, h⟩ := bind_eq_ok h
  obtain ⟨r, p5, h5, h⟩ := bind_eq_ok h
  obtain ⟨_, p6, h6, h⟩ := bind_eq_ok h
  cases h
  cases h1
  obtain ⟨h2, rfl⟩ := require_ok h2
  cases h3
  cases h4
  simp at h2
  have hne := filterLoop_ne_nil hv hasO (by omega) (by omega) h5
  have hp := post_filterLoop hv hasO _ [] ⟨by simp, by simp⟩ _ _ _ _ h5
  cases hasO with
  | true => exact ⟨hid, hps, hne, hp.1, hp.2.1⟩
  | false => exact ⟨hid, hps, hne, hp.1, hp.2.1⟩

theorem checkAck_suback {ver : Nat} (hv : ver = 3 ∨ ver = 4 ∨ ver = 5) {a : UInt8} (h : checkAck ver true a = true) :
    Spec.SubackReason ver a := by
  unfold Spec.SubackReason
  revert a
  rcases hv with rfl | rfl | rfl
  · apply all256; decide +kernel
  · apply all256; decide +kernel
  · apply all256; decide +kernel

theorem checkAck_unsuback {a : UInt8} (h : checkAck 5 false a = true) : Spec.UnsubackReason a := by
  unfold Spec.UnsubackReason
  revert a
  apply all256; decide +kernel

theorem post_ackLoop' (v : Nat) (s : Bool) : ∀ (n : Nat) (acc : Bytes), (∀ a ∈ acc, checkAck v s a = true) →
    Post (ackLoop' v s n acc) (fun r => (∀ a ∈ r, checkAck v s a = true) ∧ r.length = acc.length + n)
  | 0, acc, h => Post.pure ⟨h, rfl⟩
  | n + 1, acc, h => by
    refine Post.any fun a => Post.require fun hc => ?_
    have := post_ackLoop' v s n (acc ++ [a]) (by
      intro x hx
      rcases List.mem_append.mp hx with hx | hx
      · exact h x hx
      · rcases List.mem_singleton.mp hx with rfl; exact hc)
    intro e pos r pos' hh
    have := this e pos r pos' hh
    refine ⟨this.1, ?_⟩
    have h2 := this.2
    rw [List.length_append] at h2
    simp at h2
    omega

theorem post_parseSubackUnsuback {ver : Nat} (hv : ver = 3 ∨ ver = 4 ∨ ver = 5) (s : Bool) :
    Post (parseSubackUnsuback ver s) (Spec.Accepted ver) := by
  rw [parseSubackUnsuback_eq]
  refine post_packetId.bind fun id hid => (post_propertiesIfV5 ver).bind fun ps hps => Post.any fun _ => ?_
  split
  · rename_i h
    simp only [Bool.and_eq_true, decide_eq_true_eq] at h
    refine Post.any fun _ => Post.pure ⟨hid, hps, ?_⟩
    rw [if_neg (by omega)]
  · rename_i h
    refine Post.any fun pos => Post.any fun t => Post.require fun h0 => Post.any fun _ => ?_
    refine (post_ackLoop' ver s _ [] (by simp)).bind fun acks ha => Post.any fun _ => Post.pure ?_
    have hne : acks ≠ [] := by
      intro hn
      have := of_decide_eq_true h0
      rw [hn] at ha
      simp at ha
      omega
    cases s with
    | true => exact ⟨hid, hps, hne, fun a h => checkAck_suback hv (ha.1 a h)⟩
    | false =>
      simp at h
      have h5 : ver = 5 := by omega
      refine ⟨hid, hps, ?_⟩
      rw [if_pos h5]
      subst h5
      exact ⟨hne, fun a h => checkAck_unsuback (ha.1 a h)⟩

theorem post_parseDisconnect (ver : Nat) : Post (parseDisconnect ver) (Spec.Accepted ver) := by
  unfold parseDisconnect
  refine Post.any fun vpos => Post.any fun t => ?_
  split
  · exact Post.require fun _ => Post.pure fun _ => ⟨rfl, rfl⟩
  · rename_i h
    have hacc : ∀ r ps, Spec.Accepted ver (.disconnect r ps) := fun r ps h5 => absurd h5 h
    split
    · exact Post.pure (hacc _ _)
    · refine Post.any fun r => ?_
      split
      · exact Post.pure (hacc _ _)
      · exact Post.any fun _ => Post.any fun _ => Post.any fun _ => Post.pure (hacc _ _)

theorem post_parseBody {ver : Nat} (hv : ver = 3 ∨ ver = 4 ∨ ver = 5) {ty flags : Nat} (h0 : ty ≠ 0) (hf : flags < 16) :
    Post (parseBody (some ver) ty flags) (Spec.Accepted ver) := by
  unfold parseBody
  split
  · exact post_parseConnect ver
  · split
    · exact Post.soft
    · simp only
      split
      · exact post_parseConnack hv
      · split
        · exact post_parsePublish hf
        · split
          · exact post_parseAck (by omega) (by omega)
          · repeat' split
            all_goals first
              | exact post_parseSubUsub hv _ | exact post_parseSubackUnsuback hv _ | exact post_parseDisconnect ver
              | exact Post.any fun _ => Post.any fun _ => Post.pure trivial

theorem fixedHeader_ok {buf : Bytes} {x : Fixed} (h : fixedHeader buf = .ok x) :
    x.ty ≠ 0 ∧ x.flags < 16 ∧ x.target ≤ 268435460 := by
  unfold fixedHeader at h
  split at h
  · cases h
  · cases buf with
    | nil => cases h
    | cons t b =>
      dsimp only at h
      split at h
      · cases h
      · split at h
        · cases h
        · cases hv : varint ⟨t :: b, 0⟩ 1 with
          | ok y =>
            rw [hv] at h
            cases h
            obtain ⟨n, p⟩ := y
            have h1 := vint_decode_max _ _ _ _ hv
            have h2 := varintLoop_ok_bounds _ _ _ _ _ _ _ hv
            refine ⟨by assumption, by simp only; omega, by simp only; omega⟩
          | _ => rw [hv] at h; cases h

/-- **C48** (part) Every packet the parser accepts is well-formed in the sense of `Spec.Accepted`
and of bounded size. Missing for full strength: see `publish_nul_topic_accepted`. -/
theorem parsePacket_accepted_partial (ver : Nat) (hv : ver = 3 ∨ ver = 4 ∨ ver = 5) (buf : Bytes) (p : Packet) (n : Nat)
    (h : parsePacket (some ver) buf = .ok (p, n)) : Spec.Accepted ver p ∧ n ≤ 268435460 := by
  unfold parsePacket at h
  cases hf : fixedHeader buf with
  | ok x =>
    rw [hf] at h
    simp only [Res.bind] at h
    obtain ⟨h1, h2, h3⟩ := fixedHeader_ok hf
    cases hb : parseBody (some ver) x.ty x.flags ⟨buf, x.target⟩ x.vpos with
    | ok y =>
      rw [hb] at h
      cases h
      exact ⟨post_parseBody hv h1 h2 _ _ y.1 y.2 hb, h3⟩
    | _ => rw [hb] at h; cases h
  | _ => rw [hf] at h; cases h

/-- **C48** A connection's first packet, parsed before the version is known, is CONNECT. -/
theorem parsePacket_first_accepted (buf : Bytes) (p : Packet) (n : Nat) (h : parsePacket none buf = .ok (p, n)) :
    p.ty = 1 ∧ ∀ ver, Spec.Accepted ver p := by
  unfold parsePacket at h
  cases hf : fixedHeader buf with
  | ok x =>
    rw [hf] at h
    simp only [Res.bind] at h
    cases hb : parseBody none x.ty x.flags ⟨buf, x.target⟩ x.vpos with
    | ok y =>
      rw [hb] at h
      cases h
      unfold parseBody at hb
      split at hb
      · refine ⟨?_, fun ver => post_parseConnect ver _ _ y.1 y.2 hb⟩
        have : Post parseConnect (fun p => p.ty = 1) := by
          unfold parseConnect
          refine Post.any fun x => ?_
          obtain ⟨v, flags, ka, ps⟩ := x
          exact Post.any fun _ => Post.any fun _ => Post.any fun _ => Post.any fun _ => Post.any fun _ =>
            Post.any fun _ => Post.pure rfl
        exact this _ _ y.1 y.2 hb
      · split at hb <;> cases hb
    | _ => rw [hb] at h; cases h
  | _ => rw [hf] at h; cases h

/-- **C48** fails at full strength: a topic name with an embedded NUL byte, which MQTT forbids, and
with wildcard characters after it is accepted. -/
theorem publish_nul_topic_accepted :
    parsePacket (some 4) [0x30, 0x05, 0x00, 0x03, 0x61, 0x00, 0x23] = .ok (.publish 0 [0x61, 0x00, 0x23] 0 [] [], 7) ∧
    ¬ Spec.TopicName [0x61, 0x00, 0x23] := by
  refine ⟨by decide +kernel, fun h => ?_⟩
  exact absurd h.1.1 (by decide)

-- a SUBSCRIBE packet which is accepted, and ones which are refused: QoS 3, bad filter, packet id 0
example : parsePacket (some 4) [0x82, 0x06, 0x00, 0x01, 0x00, 0x01, 0x61, 0x02] =
    .ok (.subscribe 1 [] [⟨[0x61], 0, 0, 0, 2⟩], 8) := by decide +kernel
example : parsePacket (some 4) [0x82, 0x06, 0x00, 0x01, 0x00, 0x01, 0x61, 0x03] = .soft := by decide +kernel
example : parsePacket (some 4) [0x82, 0x07, 0x00, 0x01, 0x00, 0x02, 0x61, 0x23, 0x00] = .soft := by decide +kernel
example : parsePacket (some 4) [0x82, 0x06, 0x00, 0x00, 0x00, 0x01, 0x61, 0x02] = .soft := by decide +kernel

end Verif.Mqtt
