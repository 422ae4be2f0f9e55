import Verif.Mqtt.Enc
import Verif.Subscription.Props
/-!
# Parsing of assembled packets, lemmas
-/
namespace Verif.Mqtt
open Verif

theorem flagBits_eq (f s w : Nat) : flagBits f s w = Spec.bits f s w := by
  unfold flagBits Spec.bits; rw [Nat.shiftRight_eq_div_pow]

theorem bits1_cases (f s : Nat) : Spec.bits f s 1 = 0 ∨ Spec.bits f s 1 = 1 := by
  unfold Spec.bits; omega

/-- `p` reads `b` as `a` when it is the last part of the packet. -/
def EncEnd {α : Type} (p : P α) (b : Bytes) (a : α) : Prop := ∀ pos t, pos + b.length = t → EncAt p b a pos t

theorem encAt_endHeader {pos t : Nat} (h : pos ≤ t) : EncAt endHeader [] () pos t := by
  unfold endHeader
  exact (encAt_getPos _ _).bind0 ((encAt_getTarget _ _).bind0 (encAt_require (by simpa using h) _ _))

theorem encAt_verifyEnd {pos t : Nat} (h : t ≤ pos) : EncAt verifyEnd [] () pos t := by
  unfold verifyEnd
  exact (encAt_targetEnd _ _).bind0 (encAt_require (by simp; omega) _ _)

theorem validateName_of {s : Bytes} (h : Spec.TopicName s) : Topic.validateName s = true :=
  (Topic.validateName_iff s h.1.1).mpr ⟨h.2.1, h.1.2.1, h.2.2⟩

theorem filterValidateName_of {s : Bytes} (h : Spec.TopicFilter s) : Topic.filterValidateName s = true :=
  (Topic.filterValidateName_iff s h.1.1).mpr ⟨h.1.2.2, h.1.2.1, h.2.2⟩

theorem length_pos_of_ne {s : Bytes} (h : s ≠ []) : 1 ≤ s.length := List.length_pos_iff.mpr h

/-! ### CONNECT -/

theorem connectName : ∀ v, v = 3 ∨ v = 4 ∨ v = 5 → ∃ n, versionName v = some n ∧
    Asm.rawLen n = some (Asm.u16 n.length ++ n) ∧ n.length ≤ 6 ∧ (Topic.cstr n).map toUpper = n ∧
    (UInt8.ofNat v).toNat = v := by
  rintro v (rfl | rfl | rfl)
  · exact ⟨_, rfl, by decide, by decide, by decide, by decide⟩
  · exact ⟨_, rfl, by decide, by decide, by decide, by decide⟩
  · exact ⟨_, rfl, by decide, by decide, by decide, by decide⟩

theorem encAt_connectHeader {ver : Nat} (hv : ver = 3 ∨ ver = 4 ∨ ver = 5) {flags : UInt8} {will : Option Will}
    {user pass : Option Bytes} (hc : Spec.ConnectOk ver flags will user pass) {ka : Nat} (hka : ka < 65536)
    {ps : List Property} {pb : Bytes}
    (hpb : ∀ pos t, pos + pb.length ≤ t → EncAt (propertiesIfV5 ver) pb ps pos t)
    {n : Bytes} (hn : versionName ver = some n) :
    ∀ pos t, pos + 2 + n.length + 1 + 1 + 2 + pb.length ≤ t →
      EncAt connectHeader (Asm.u16 n.length ++ (n ++ (Asm.u8 ver ++ ([flags] ++ (Asm.u16 ka ++ pb)))))
        (ver, flags, ka, ps) pos t := by
  intro pos t ht
  obtain ⟨n', e1, _, e3, e4, e5⟩ := connectName ver hv
  rw [hn] at e1
  cases e1
  unfold connectHeader
  refine (encAt_u16 n.length (by omega) pos t).bind ?_
  refine (encAt_require (by simpa using e3) _ _).bind0 ?_
  refine (encAt_takeN n _ _).bind ?_
  refine (encAt_u8 (UInt8.ofNat ver) _ _).bind ?_
  simp only [e5, hn]
  refine (encAt_require (by simp [e4]) _ _).bind0 ?_
  refine (encAt_u8 flags _ _).bind ?_
  simp only [flagBits_eq]
  refine (encAt_require (by simpa using hc.reserved) _ _).bind0 ?_
  refine (encAt_require ?_ _ _).bind0 ?_
  · have := hc.noWill
    simp only [decide_eq_true_eq]
    by_cases h : Spec.bits flags.toNat 2 1 = 0
    · exact Or.inr (this h)
    · exact Or.inl h
  refine (encAt_require ?_ _ _).bind0 ?_
  · have := hc.passUser
    simp only [decide_eq_true_eq]
    by_cases h : ver ≥ 5
    · exact Or.inl h
    · refine Or.inr ?_
      rintro ⟨h1, h2⟩
      have := this (by omega) h1
      omega
  refine (encAt_require (by simpa using hc.willQos) _ _).bind0 ?_
  refine (encAt_u16 ka hka _ _).bind ?_
  have := (hpb (pos + (Asm.u16 n.length).length + n.length + 1 + 1 + 2) t
    (by simp [Asm.u16]; omega)).map (fun p => (ver, flags, ka, p))
  simpa [Asm.u16] using this

theorem encAt_connectWill {ver : Nat} (hv : ver ≤ 5) {flags : UInt8} {will : Option Will}
    {user pass : Option Bytes} (hc : Spec.ConnectOk ver flags will user pass)
    (hnb : ∀ w, will = some w → ∀ p ∈ w.props, ¬ Spec.IsBinary p) :
    ∃ b, Asm.willPart ver flags will = some b ∧
      ∀ pos t, pos + b.length ≤ t → EncAt (connectWill ver flags) b will pos t := by
  unfold connectWill Asm.willPart
  rw [flagBits_eq]
  by_cases h : Spec.bits flags.toNat 2 1 = 0
  · have hw : will = none := by
      have := hc.will_iff
      rw [h] at this
      cases will with
      | none => rfl
      | some w => simp at this
    rw [if_neg (by simpa using h)]
    refine ⟨[], rfl, fun pos t _ => ?_⟩
    rw [if_neg (by simpa using h), hw]
    exact encAt_pure _ _ _
  · have h1 : Spec.bits flags.toNat 2 1 = 1 := by rcases bits1_cases flags.toNat 2 with h' | h' <;> omega
    obtain ⟨w, hw⟩ := Option.isSome_iff_exists.mp (hc.will_iff.mpr h1)
    obtain ⟨k1, k2, k3, k4⟩ := hc.will_ok w hw
    obtain ⟨pb, p1, p2⟩ := encAt_propsFor hv k1 (hnb w hw)
    subst hw
    rw [if_pos h]
    refine ⟨pb ++ ((Asm.u16 w.topic.length ++ w.topic) ++ (Asm.u16 w.msg.length ++ w.msg)), ?_, ?_⟩
    · simp [p1, rawLen_eq k2.2.1 k2.1.2.2, rawLen_eq k3 k4]
    · intro pos t ht
      simp [Asm.u16] at ht
      rw [if_pos h]
      refine (p2 pos t (by omega)).bind ?_
      refine (encAt_utf8 k2.1 (length_pos_of_ne k2.2.1) (by omega)).bind ?_
      refine (encAt_require (validateName_of k2) _ _).bind0 ?_
      exact (encAt_blob k4 (by simp [Asm.u16]; omega)).map (fun m => some (⟨w.props, w.topic, m⟩ : Will))

theorem encAt_connectString {present : Bool} {s : Option Bytes} (h1 : s.isSome ↔ present = true)
    (h2 : ∀ x, s = some x → x ≠ [] ∧ Spec.Text x) :
    ∃ b, Asm.optString present s = some b ∧ ∀ pos t, pos + b.length ≤ t → EncAt (connectString present) b s pos t := by
  unfold Asm.optString connectString
  cases s with
  | none =>
    have : present = false := by simpa using h1
    subst this
    exact ⟨[], rfl, fun pos t _ => encAt_pure _ _ _⟩
  | some x =>
    have : present = true := by simpa using h1
    subst this
    obtain ⟨k1, k2⟩ := h2 x rfl
    refine ⟨Asm.u16 x.length ++ x, rawLen_eq k1 k2.2.2, fun pos t ht => ?_⟩
    simp [Asm.u16] at ht
    refine (encAt_targetEnd _ _).bind0 ((encAt_require (by simp; omega) _ _).bind0 ?_)
    exact (encAt_utf8 k2 (length_pos_of_ne k1) (by omega)).map some

theorem body_connect {ver : Nat} (hv : ver = 3 ∨ ver = 4 ∨ ver = 5) {flags : UInt8} {ka : Nat}
    {ps : List Property} {cid : Bytes} {will : Option Will} {user pass : Option Bytes}
    (h : Spec.Sendable ver (.connect ver flags ka ps cid will user pass))
    (hnb : ∀ p ∈ Spec.allProps (.connect ver flags ka ps cid will user pass), ¬ Spec.IsBinary p) :
    ∃ b, Asm.connect ver flags ka ps cid will user pass = some b ∧
      EncEnd parseConnect b (.connect ver flags ka ps cid will user pass) := by
  obtain ⟨_, hc, hka, hps, hcid⟩ := h
  have hv5 : ver ≤ 5 := by omega
  obtain ⟨n, n1, n2, n3, n4, n5⟩ := connectName ver hv
  obtain ⟨pb, p1, p2⟩ := encAt_propsFor hv5 hps (fun p hp => hnb p (by simp [Spec.allProps, hp]))
  obtain ⟨wb, w1, w2⟩ := encAt_connectWill hv5 hc (fun w hw p hp => hnb p (by simp [Spec.allProps, hw, hp]))
  have fb : ∀ s, (decide (flagBits flags.toNat s 1 ≠ 0) = true) ↔ Spec.bits flags.toNat s 1 = 1 := by
    intro s
    rw [flagBits_eq]
    rcases bits1_cases flags.toNat s with h | h <;> simp [h]
  obtain ⟨ub, u1, u2⟩ := encAt_connectString (present := decide (flagBits flags.toNat 7 1 ≠ 0)) (s := user)
    (by rw [fb, ← hc.user_iff]) hc.user_ok
  obtain ⟨qb, q1, q2⟩ := encAt_connectString (present := decide (flagBits flags.toNat 6 1 ≠ 0)) (s := pass)
    (by rw [fb, ← hc.pass_iff]) hc.pass_ok
  have c1 : Asm.clientId cid = some (Asm.u16 cid.length ++ cid) := by
    unfold Asm.clientId
    by_cases h : cid = []
    · simp [h]
    · rw [if_neg h, rawLen_eq h hcid.2.2]
  refine ⟨(Asm.u16 n.length ++ (n ++ (Asm.u8 ver ++ ([flags] ++ (Asm.u16 ka ++ pb))))) ++
    ((Asm.u16 cid.length ++ cid) ++ (wb ++ (ub ++ qb))), ?_, ?_⟩
  · unfold Asm.connect
    rw [n1, c1, w1, u1, q1, p1]
    simp [n2]
  · intro pos t ht
    simp [Asm.u16, Asm.u8] at ht
    unfold parseConnect
    refine (encAt_connectHeader hv hc hka p2 n1 pos t (by omega)).bind ?_
    refine (encAt_endHeader (by simp [Asm.u16, Asm.u8]; omega)).bind0 ?_
    refine (encAt_utf8 hcid (by omega) (by simp [Asm.u16, Asm.u8]; omega)).bind ?_
    refine (w2 _ _ (by simp [Asm.u16, Asm.u8]; omega)).bind ?_
    refine (u2 _ _ (by simp [Asm.u16, Asm.u8]; omega)).bind ?_
    have := (q2 (pos + ((Asm.u16 n.length ++ (n ++ (Asm.u8 ver ++ ([flags] ++ (Asm.u16 ka ++ pb)))))).length +
      (Asm.u16 cid.length ++ cid).length + wb.length + ub.length) t (by simp [Asm.u16, Asm.u8]; omega)).bind
      (f := fun p => verifyEnd >>= fun _ => pure (Packet.connect ver flags ka ps cid will user p))
      ((encAt_verifyEnd (by simp [Asm.u16, Asm.u8]; omega)).bind0 (encAt_pure _ _ _))
    rwa [List.append_nil] at this

/-! ### Reason codes -/

theorem any_some {α : Type} {o : Option α} {f : α → Bool} (h : o.any f = true) : ∃ x, o = some x ∧ f x = true := by
  cases o with
  | none => simp at h
  | some x => exact ⟨x, rfl, by simpa using h⟩

theorem connack_reason_ok {r : UInt8} (h : Spec.ConnackReason 5 r) :
    ∃ x, reasonGetV5 r = some x ∧ x.connack = true ∧ x.v5 = r := by
  have : ∀ r ∈ ([0x00, 0x80, 0x81, 0x82, 0x83, 0x84, 0x85, 0x86, 0x87, 0x88, 0x89, 0x8A, 0x8C,
    0x90, 0x95, 0x97, 0x99, 0x9A, 0x9B, 0x9C, 0x9D, 0x9F] : List UInt8),
    ((reasonGetV5 r).any fun x => x.connack && (x.v5 == r)) = true := by decide +kernel
  obtain ⟨x, h1, h2⟩ := any_some (this r (by simpa only [Spec.ConnackReason, if_pos] using h))
  simp at h2
  exact ⟨x, h1, h2.1, h2.2⟩

theorem connack_reason_old {ver : Nat} (hv : ver ≠ 5) {r : UInt8} (h : Spec.ConnackReason ver r) :
    ∃ n x, translateFromV5 r = some n ∧ n ≤ 5 ∧ (UInt8.ofNat n).toNat = n ∧ reasonGetV31 n = some x ∧
      x.connack = true ∧ x.v5 = r := by
  have : ∀ r ∈ ([0x00, 0x84, 0x85, 0x86, 0x87, 0x88] : List UInt8),
    ((translateFromV5 r).any fun n => decide (n ≤ 5) && decide ((UInt8.ofNat n).toNat = n) &&
      (reasonGetV31 n).any fun x => x.connack && (x.v5 == r)) = true := by decide +kernel
  obtain ⟨n, h1, h2⟩ := any_some (this r (by simpa only [Spec.ConnackReason, if_neg hv] using h))
  simp only [Bool.and_eq_true, decide_eq_true_eq] at h2
  obtain ⟨x, h3, h4⟩ := any_some h2.2
  simp at h4
  exact ⟨n, x, h1, h2.1.1, h2.1.2, h3, h4.1, h4.2⟩

theorem ack_reason_ok {ty : Nat} {r : UInt8} (h : Spec.AckReason ty r) :
    ∃ x, reasonGetV5 r = some x ∧ (if ty ≤ 5 then x.pubackPubrec else x.pubrelPubcomp) = true ∧ x.v5 = r := by
  unfold Spec.AckReason at h
  by_cases ht : ty ≤ 5
  · rw [if_pos ht] at h
    have : ∀ r ∈ ([0x00, 0x10, 0x80, 0x83, 0x87, 0x90, 0x91, 0x97, 0x99] : List UInt8),
      ((reasonGetV5 r).any fun x => x.pubackPubrec && (x.v5 == r)) = true := by decide +kernel
    obtain ⟨x, h1, h2⟩ := any_some (this r h)
    simp at h2
    exact ⟨x, h1, by rw [if_pos ht]; exact h2.1, h2.2⟩
  · rw [if_neg ht] at h
    have : ∀ r ∈ ([0x00, 0x92] : List UInt8),
      ((reasonGetV5 r).any fun x => x.pubrelPubcomp && (x.v5 == r)) = true := by decide +kernel
    obtain ⟨x, h1, h2⟩ := any_some (this r h)
    simp at h2
    exact ⟨x, h1, by rw [if_neg ht]; exact h2.1, h2.2⟩

theorem suback_reason_ok {ver : Nat} (hv : ver ≤ 5) {r : UInt8} (h : Spec.SubackReason ver r) :
    checkAck ver true r = true ∧ Asm.ackByte ver r = r := by
  unfold Spec.SubackReason at h
  by_cases h5 : ver = 5
  · subst h5
    rw [if_pos rfl] at h
    have : ∀ r ∈ ([0x00, 0x01, 0x02, 0x80, 0x83, 0x87, 0x8F, 0x91, 0x97, 0x9E, 0xA1, 0xA2] : List UInt8),
      checkAck 5 true r = true := by decide +kernel
    exact ⟨this r h, by simp [Asm.ackByte]⟩
  · rw [if_neg h5] at h
    have : ∀ r ∈ ([0x00, 0x01, 0x02, 0x80] : List UInt8), ∀ v : Fin 5, 
      checkAck v true r = true ∧ Asm.ackByte v r = r := by decide +kernel
    exact this r h ⟨ver, by omega⟩

theorem unsuback_reason_ok {r : UInt8} (h : Spec.UnsubackReason r) : checkAck 5 false r = true := by
  have : ∀ r ∈ ([0x00, 0x11, 0x80, 0x83, 0x87, 0x8F, 0x91] : List UInt8), checkAck 5 false r = true := by
    decide +kernel
  exact this r h

/-! ### CONNACK, PUBLISH, acknowledgements -/

theorem encAt_checkReason {v : Nat} {cls : Reason → Bool} {r : UInt8} {x : Reason}
    (h : (if v ≥ 5 then reasonGetV5 r else reasonGetV31 r.toNat) = some x) (hc : cls x = true) (pos t : Nat) :
    EncAt (checkReason v cls r) [] x.v5 pos t := by
  unfold checkReason
  simp only [h, hc, if_true]
  exact encAt_pure _ _ _

theorem body_connack {ver : Nat} (hv : ver ≤ 5) {flags reason : UInt8} {ps : List Property}
    (h : Spec.Sendable ver (.connack flags reason ps)) (hnb : ∀ p ∈ ps, ¬ Spec.IsBinary p) :
    ∃ b, Asm.body ver (.connack flags reason ps) = some b ∧
      EncEnd (parseConnack ver) b (.connack flags reason ps) := by
  obtain ⟨hf, hr, hps⟩ := h
  have hfl : flagBits flags.toNat 1 7 = 0 := by
    rw [flagBits_eq]; unfold Spec.bits; omega
  by_cases h5 : ver = 5
  · subst h5
    obtain ⟨pb, p1, p2⟩ := encAt_propsFor (Nat.le_refl 5) hps hnb
    obtain ⟨x, x1, x2, x3⟩ := connack_reason_ok hr
    refine ⟨[flags] ++ ([reason] ++ pb), ?_, ?_⟩
    · unfold Asm.body; dsimp only
      rw [if_pos (by omega)]
      unfold Asm.propsIfV5 at p1
      rw [if_pos (by omega)] at p1
      simp [p1]
    · intro pos t ht
      simp at ht
      unfold parseConnack
      refine (encAt_u8 flags _ _).bind ((encAt_require (by simpa using hfl) _ _).bind0 ?_)
      refine (encAt_u8 reason _ _).bind ?_
      refine (encAt_checkReason (x := x) (by simpa using x1) x2 _ _).bind0 ?_
      have := (p2 (pos + 1 + 1) t (by omega)).bind (f := fun p => endHeader >>= fun _ => verifyEnd >>= fun _ =>
        pure (Packet.connack flags x.v5 p)) ((encAt_endHeader (by omega)).bind0
          ((encAt_verifyEnd (by omega)).bind0 (encAt_pure _ _ _)))
      rw [List.append_nil, x3] at this
      simpa [x3] using this
  · obtain ⟨n, x, n1, n2, n3, n4, x2, x3⟩ := connack_reason_old h5 hr
    have hps' : ps = [] := by simpa [Spec.PropsFor, h5] using hps
    subst hps'
    refine ⟨[flags] ++ [UInt8.ofNat n], ?_, ?_⟩
    · unfold Asm.body; dsimp only
      rw [if_neg (by omega), n1]
      simp only
      rw [if_neg (by omega)]; rfl
    · intro pos t ht
      simp at ht
      unfold parseConnack
      refine (encAt_u8 flags _ _).bind ((encAt_require (by simpa using hfl) _ _).bind0 ?_)
      have := (encAt_u8 (UInt8.ofNat n) (pos + 1) t).bind (f := fun r => checkReason ver (·.connack) r >>= fun reason =>
        propertiesIfV5 ver >>= fun props => endHeader >>= fun _ => verifyEnd >>= fun _ =>
        pure (Packet.connack flags reason props)) (b2 := []) (c := .connack flags reason []) (by
          refine (encAt_checkReason (x := x) (by rw [if_neg (by omega), n3]; exact n4) x2 _ _).bind0 ?_
          rw [x3]
          unfold propertiesIfV5
          rw [if_neg (by omega)]
          refine (encAt_pure _ _ _).bind0 ?_
          exact (encAt_endHeader (by simp; omega)).bind0
            ((encAt_verifyEnd (by simp; omega)).bind0 (encAt_pure _ _ _)))
      rwa [List.append_nil] at this

theorem encAt_publishPayload (pl : Bytes) {pos t : Nat} (h : pos + pl.length = t) :
    EncAt publishPayload pl pl pos t := by
  refine ⟨?_, ?_⟩
  · intro pre rest hp
    rw [publishPayload_eq]
    simp only
    by_cases h0 : pl = []
    · subst h0
      simp at h
      rw [if_pos (by omega)]; rfl
    · have := length_pos_of_ne h0
      rw [if_neg (by omega), if_pos (by simp only [List.length_append]; omega)]
      subst hp
      have e : t - pre.length = pl.length := by omega
      rw [e]
      simp [h]
  · intro pre got more hp hb hm
    have h1 := length_pos_of_ne hm
    have h2 : pl.length = got.length + more.length := by rw [hb, List.length_append]
    rw [publishPayload_eq]
    simp only
    rw [if_neg (by omega), if_neg (by simp only [List.length_append]; omega)]

theorem body_publish {ver : Nat} (hv : ver ≤ 5) {flags : Nat} {topic : Bytes} {id : Nat} {ps : List Property}
    {pl : Bytes} (h : Spec.Sendable ver (.publish flags topic id ps pl)) (hnb : ∀ p ∈ ps, ¬ Spec.IsBinary p) :
    ∃ b, Asm.body ver (.publish flags topic id ps pl) = some b ∧
      EncEnd (parsePublish ver flags) (b ++ pl) (.publish flags topic id ps pl) := by
  obtain ⟨hf, hq, hd, ht, hid, hps⟩ := h
  obtain ⟨pb, p1, p2⟩ := encAt_propsFor hv hps hnb
  have hidp : ∃ ib, (if flagBits flags 1 2 > 0 then Asm.u16 id else []) = ib ∧
      ∀ pos t, EncAt (publishId flags) ib id pos t := by
    unfold publishId
    rw [flagBits_eq]
    by_cases h0 : Spec.bits flags 1 2 = 0
    · rw [if_pos h0] at hid
      subst hid
      rw [if_neg (by omega)]
      refine ⟨[], rfl, fun pos t => ?_⟩
      rw [if_neg (by omega)]
      exact encAt_pure _ _ _
    · rw [if_neg h0] at hid
      rw [if_pos (by omega)]
      refine ⟨_, rfl, fun pos t => ?_⟩
      rw [if_pos (by omega)]
      exact encAt_packetId id hid.1 hid.2 _ _
  obtain ⟨ib, i1, i2⟩ := hidp
  refine ⟨(Asm.u16 topic.length ++ topic) ++ (ib ++ pb), ?_, ?_⟩
  · unfold Asm.body; dsimp only
    simp [rawLen_eq ht.2.1 ht.1.2.2, p1, i1]
  · intro pos t hlen
    rw [List.append_assoc]
    simp only [List.append_assoc, List.length_append] at hlen
    unfold parsePublish
    refine (encAt_require (by rw [flagBits_eq]; simpa using hq) _ _).bind0 ?_
    refine (encAt_require (by
      simp only [flagBits_eq, decide_eq_true_eq]
      rintro ⟨h1, h2⟩; exact h2 (hd h1)) _ _).bind0 ?_
    refine (encAt_utf8 ht.1 (length_pos_of_ne ht.2.1) (by simp [Asm.u16] at hlen; omega)).bind ?_
    refine (encAt_require (validateName_of ht) _ _).bind0 ?_
    rw [List.append_assoc]
    refine (i2 _ _).bind ?_
    refine (p2 _ _ (by simp only [List.length_append]; omega)).bind ?_
    refine (encAt_endHeader (by simp only [List.length_append]; omega)).bind0 ?_
    exact (encAt_publishPayload pl (by simp only [List.length_append]; omega)).map _

theorem body_ack {ver : Nat} (hv : ver ≤ 5) {ty id : Nat} {reason : UInt8} {ps : List Property}
    (h : Spec.Sendable ver (.ack ty id reason ps)) (hnb : ∀ p ∈ ps, ¬ Spec.IsBinary p) :
    ∃ b, Asm.body ver (.ack ty id reason ps) = some b ∧ EncEnd (parseAck ver ty) b (.ack ty id reason ps) := by
  obtain ⟨h4, h7, hid, hps, hr⟩ := h
  unfold Asm.body; dsimp only
  by_cases h5 : ver = 5
  · subst h5
    rw [if_pos rfl] at hr
    obtain ⟨pb, p1, p2⟩ := encAt_propsFor (Nat.le_refl 5) hps hnb
    simp only [Asm.propsIfV5, propertiesIfV5, ge_iff_le, Nat.le_refl, if_true] at p1 p2
    obtain ⟨x, x1, x2, x3⟩ := ack_reason_ok hr
    refine ⟨Asm.u16 id ++ ([reason] ++ pb), by simp [p1], ?_⟩
    intro pos t ht
    simp [Asm.u16] at ht
    unfold parseAck
    refine (encAt_packetId id hid.1 hid.2 _ _).bind ?_
    refine (encAt_targetEnd _ _).bind0 ?_
    have e1 : ¬ pos + (Asm.u16 id).length + 1 > t := by simp [Asm.u16]; omega
    simp only [e1, decide_false, Bool.false_eq_true, if_false]
    rw [if_pos (by omega)]
    refine (encAt_u8 reason _ _).bind ?_
    refine (encAt_checkReason (x := x) (by simpa using x1) x2 _ _).bind0 ?_
    have e : pos + (Asm.u16 id).length + [reason].length + pb.length = t := by simp [Asm.u16]; omega
    have := (p2 (pos + (Asm.u16 id).length + [reason].length) t (by omega)).bind
      (f := fun p => verifyEnd >>= fun _ => endHeader >>= fun _ => verifyEnd >>= fun _ =>
        pure (Packet.ack ty id x.v5 p)) ((encAt_verifyEnd (by omega)).bind0 ((encAt_endHeader (by omega)).bind0
          ((encAt_verifyEnd (by omega)).bind0 (encAt_pure _ _ _))))
    rw [List.append_nil] at this
    rw [← x3]
    exact this
  · rw [if_neg h5] at hr
    have hps' : ps = [] := by simpa [Spec.PropsFor, h5] using hps
    subst hps' hr
    rw [if_neg (by omega)]
    refine ⟨Asm.u16 id, rfl, ?_⟩
    intro pos t ht
    unfold parseAck
    have := (encAt_packetId id hid.1 hid.2 pos t).bind (f := fun id => targetEnd >>= fun e =>
      if e = true then endHeader >>= fun _ => verifyEnd >>= fun _ => pure (Packet.ack ty id 0 [])
      else if ver ≥ 5 then u8 >>= fun r =>
        checkReason ver (fun x => if ty ≤ 5 then x.pubackPubrec else x.pubrelPubcomp) r >>= fun reason =>
        properties >>= fun props => verifyEnd >>= fun _ => endHeader >>= fun _ => verifyEnd >>= fun _ =>
        pure (Packet.ack ty id reason props)
      else verifyEnd >>= fun _ => endHeader >>= fun _ => verifyEnd >>= fun _ => pure (Packet.ack ty id 0 []))
      (b2 := []) (c := Packet.ack ty id 0 []) (by
        refine (encAt_targetEnd _ _).bind0 ?_
        rw [if_pos (by simp; omega)]
        exact (encAt_endHeader (by omega)).bind0 ((encAt_verifyEnd (by omega)).bind0 (encAt_pure _ _ _)))
    rwa [List.append_nil] at this

/-! ### SUBSCRIBE and UNSUBSCRIBE -/

theorem options_byte : ∀ q r : Fin 3, ∀ f, (UInt8.ofNat (q.val + r.val * 16)).toNat = f →
    flagBits f 0 2 = q ∧ flagBits f 2 1 = 0 ∧ flagBits f 3 1 = 0 ∧ flagBits f 4 2 = r ∧ flagBits f 6 2 = 0 := by
  have : ∀ q r : Fin 3, flagBits (UInt8.ofNat (q.val + r.val * 16)).toNat 0 2 = q ∧
    flagBits (UInt8.ofNat (q.val + r.val * 16)).toNat 2 1 = 0 ∧
    flagBits (UInt8.ofNat (q.val + r.val * 16)).toNat 3 1 = 0 ∧
    flagBits (UInt8.ofNat (q.val + r.val * 16)).toNat 4 2 = r ∧
    flagBits (UInt8.ofNat (q.val + r.val * 16)).toNat 6 2 = 0 := by decide +kernel
  intro q r f hf; subst hf; exact this q r

/-- Everything before and after the creation of the subscription, for any permitted options byte. -/
theorem encAt_filterPrefix {α : Type} {ver : Nat} {hasO : Bool} {f : Bytes} (hf : Spec.TopicFilter f) {o : UInt8}
    {ob : Bytes} (hob : ∀ pos t, EncAt (filterOptions hasO) ob o pos t) {k : Bytes → UInt8 → P α} {r : α} {pos t : Nat}
    (ht : pos + 2 + f.length ≤ t)
    (hk : EncAt (k f o) [] r (pos + (Asm.u16 f.length ++ f).length + ob.length) t) :
    EncAt (utf8 1 >>= fun filter => require (decide (Topic.cstr filter = filter)) >>= fun _ =>
      filterOptions hasO >>= k filter) ((Asm.u16 f.length ++ f) ++ ob) r pos t := by
  refine (encAt_utf8 hf.1 (length_pos_of_ne hf.2.1) ht).bind ?_
  refine (encAt_require (by simpa using Topic.cstr_of_no_nul hf.1.1) _ _).bind0 ?_
  have := (hob (pos + (Asm.u16 f.length ++ f).length) t).bind hk
  rwa [List.append_nil] at this

theorem encAt_parseFilter {ver : Nat} (hv : ver ≤ 5) {hasO : Bool} {s : Subscription.Sub} (hs : Spec.SubOk ver s)
    (hno : hasO = false → s.qos = 0 ∧ s.retain = 0) :
    ∃ b, Asm.sub ver hasO s = some b ∧ 0 < b.length ∧
      ∀ pos t, pos + b.length ≤ t → EncAt (parseFilter ver hasO) b s pos t := by
  obtain ⟨hf, hq, hn, hr, hret, hold⟩ := hs
  have hflags : (if ver ≥ 5 then s.qos + s.nl * 4 + s.rap * 8 + s.retain * 16 else s.qos) = s.qos + s.retain * 16 := by
    split
    · rw [hn, hr]; omega
    · have := hold (by omega); omega
  refine ⟨(Asm.u16 s.filter.length ++ s.filter) ++ (if hasO then [UInt8.ofNat (s.qos + s.retain * 16)] else []), ?_, ?_, ?_⟩
  · unfold Asm.sub
    rw [if_neg (by omega), rawLen_eq hf.2.1 hf.1.2.2, hflags]
    simp only [Option.bind_eq_bind, Option.bind_some]
    rfl
  · simp [Asm.u16]
  · intro pos t ht
    have h2 : pos + 2 + s.filter.length ≤ t := by
      have e : (Asm.u16 s.filter.length).length = 2 := rfl
      rw [List.length_append, List.length_append, e] at ht
      omega
    have hopt : ∃ o : UInt8, (∀ pos t, EncAt (filterOptions hasO)
        (if hasO then [UInt8.ofNat (s.qos + s.retain * 16)] else []) o pos t) ∧
        o = UInt8.ofNat (s.qos + s.retain * 16) := by
      refine ⟨_, ?_, rfl⟩
      intro pos t
      unfold filterOptions
      cases hasO with
      | true => exact encAt_u8 _ _ _
      | false =>
        obtain ⟨h1, h2⟩ := hno rfl
        simp only [Bool.false_eq_true, if_false, h1, h2]
        exact encAt_pure _ _ _
    obtain ⟨o, ho, hoe⟩ := hopt
    obtain ⟨b1, b2, b3, b4, b5⟩ := options_byte ⟨s.qos, by omega⟩ ⟨s.retain, by omega⟩ o.toNat (by rw [hoe])
    unfold parseFilter
    refine encAt_filterPrefix (ver := ver) hf ho h2 ?_
    simp only [b1, b2, b3, b4, b5]
    refine (encAt_require (by simpa using hq) _ _).bind0 ?_
    refine (encAt_require (by simp) _ _).bind0 ?_
    refine (encAt_require ?_ _ _).bind0 ?_
    · split
      · simpa using hret
      · simpa using hold (by omega)
    refine (encAt_require (filterValidateName_of hf) _ _).bind0 ?_
    rw [new_some rfl rfl hret (filterValidateName_of hf) hf.2.1]
    have : (⟨s.filter, s.retain, 0, 0, s.qos⟩ : Subscription.Sub) = s := by
      obtain ⟨a, b, c, d, e⟩ := s; simp at hn hr; subst hn hr; rfl
    simp only [this]
    exact encAt_pure _ _ _

theorem addUnique_fresh {acc : Subscription.Coll} {s : Subscription.Sub} (h : ∀ x ∈ acc, x.filter ≠ s.filter)
    (hl : acc.length < 65536) : Subscription.addUnique acc s true = (.ok, acc ++ [s]) := by
  unfold Subscription.addUnique
  have hm : Subscription.collMax = 65536 := by unfold Subscription.collMax; rfl
  by_cases h0 : acc = []
  · simp [h0]
  · rw [if_neg h0, Subscription.replaceFirst_none.mpr h]
    simp only
    simp only [if_true]
    rw [if_neg (by omega)]

theorem encAt_filterLoop {ver : Nat} (hv : ver ≤ 5) {hasO : Bool} (t : Nat) : ∀ (ss acc : Subscription.Coll) (pos fuel : Nat),
    (∀ s ∈ ss, Spec.SubOk ver s ∧ (hasO = false → s.qos = 0 ∧ s.retain = 0)) →
    ((acc ++ ss).map (·.filter)).Nodup → acc.length + ss.length ≤ 65536 →
    ∃ b, Asm.subs ver hasO ss = some b ∧ (ss ≠ [] → 0 < b.length) ∧
      (pos + b.length = t → b.length ≤ fuel → EncAt (filterLoop ver hasO fuel acc) b (acc ++ ss) pos t)
  | [], acc, pos, fuel, _, _, _ => by
    refine ⟨[], rfl, fun h => absurd rfl h, fun hp _ => ?_⟩
    rw [List.append_nil]
    cases fuel with
    | zero => exact encAt_pure _ _ _
    | succ fuel =>
      unfold filterLoop
      refine (encAt_targetEnd _ _).bind0 ?_
      simp only [List.length_nil] at hp
      rw [if_pos (by simp; omega)]
      exact encAt_pure _ _ _
  | s :: ss, acc, pos, fuel, h, hnd, hl => by
    obtain ⟨sb, s1, s2, s3⟩ := encAt_parseFilter hv (h s (by simp)).1 (h s (by simp)).2
    obtain ⟨b, b1, _, b2⟩ := encAt_filterLoop hv (hasO := hasO) t ss (acc ++ [s]) (pos + sb.length) (fuel - 1)
      (fun q hq => h q (by simp [hq])) (by simpa using hnd) (by simp at hl ⊢; omega)
    refine ⟨sb ++ b, by simp [Asm.subs, s1, b1], fun _ => by simp; omega, ?_⟩
    intro hp hf
    rw [List.length_append] at hp hf
    obtain ⟨f, rfl⟩ : ∃ f, fuel = f + 1 := ⟨fuel - 1, by omega⟩
    unfold filterLoop
    refine (encAt_targetEnd _ _).bind0 ?_
    rw [if_neg (by simp; omega)]
    refine (s3 pos t (by omega)).bind ?_
    have hfresh : ∀ x ∈ acc, x.filter ≠ s.filter := by
      intro x hx he
      rw [List.map_append, List.nodup_append] at hnd
      exact hnd.2.2 x.filter (List.mem_map.mpr ⟨x, hx, rfl⟩) s.filter (by simp) he
    rw [addUnique_fresh hfresh (by simp at hl; omega)]
    have := b2 (by omega) (by omega)
    simpa using this

theorem body_subUsub {ver : Nat} (hv : ver ≤ 5) {hasO : Bool} {id : Nat} {ps : List Property} {ss : Subscription.Coll}
    (hid : Spec.PacketId id) (hps : Spec.PropsFor ver ps) (hnb : ∀ p ∈ ps, ¬ Spec.IsBinary p) (h0 : ss ≠ [])
    (hss : ∀ s ∈ ss, Spec.SubOk ver s ∧ (hasO = false → s.qos = 0 ∧ s.retain = 0))
    (hnd : (ss.map (·.filter)).Nodup) (hl : ss.length ≤ 65536) :
    ∃ b, Asm.subUsub ver hasO id ps ss = some b ∧
      EncEnd (parseSubUsub ver hasO) b (if hasO then .subscribe id ps ss else .unsubscribe id ps ss) := by
  obtain ⟨pb, p1, p2⟩ := encAt_propsFor hv hps hnb
  obtain ⟨b, b1, b2, _⟩ := encAt_filterLoop hv (hasO := hasO) 0 ss [] 0 0 hss (by simpa using hnd) (by simpa using hl)
  refine ⟨Asm.u16 id ++ (pb ++ b), ?_, ?_⟩
  · unfold Asm.subUsub
    simp [p1, h0, b1]
  · intro pos t ht
    simp only [List.length_append] at ht
    have hb := b2 h0
    unfold parseSubUsub
    refine (encAt_packetId id hid.1 hid.2 _ _).bind ?_
    refine (p2 _ _ (by omega)).bind ?_
    refine (encAt_endHeader (by omega)).bind0 ?_
    refine (encAt_targetEnd _ _).bind0 ?_
    refine (encAt_require (by simp; omega) _ _).bind0 ?_
    refine (encAt_getPos _ _).bind0 ((encAt_getTarget _ _).bind0 ?_)
    obtain ⟨b', e1, _, e2⟩ := encAt_filterLoop hv (hasO := hasO) t ss [] (pos + (Asm.u16 id).length + pb.length)
      (t - (pos + (Asm.u16 id).length + pb.length)) hss (by simpa using hnd) (by simpa using hl)
    rw [b1] at e1
    cases e1
    have := (e2 (by omega) (by omega)).bind (f := fun subs => verifyEnd >>= fun _ =>
      pure (if hasO = true then Packet.subscribe id ps subs else Packet.unsubscribe id ps subs))
      ((encAt_verifyEnd (by omega)).bind0 (encAt_pure _ _ _))
    rw [List.append_nil] at this
    exact this

/-! ### SUBACK and UNSUBACK -/

theorem encAt_waitFull {α : Type} {f : P α} {b : Bytes} {a : α} {pos t : Nat} (h : EncAt f b a pos t)
    (ht : pos + b.length = t) : EncAt (waitFull >>= fun _ => f) b a pos t := by
  refine ⟨?_, ?_⟩
  · intro pre rest hp
    rw [bind_ok (a := ()) (pos' := pos) (by unfold waitFull; rw [if_pos (by simp only [List.length_append]; omega)])]
    exact h.full pre rest hp
  · intro pre got more hp hb hm
    have h1 := length_pos_of_ne hm
    have h2 : b.length = got.length + more.length := by rw [hb, List.length_append]
    simp only [bind_def, P.bind, waitFull]
    rw [if_neg (by simp only [List.length_append]; omega)]

theorem encAt_ackLoop' (v : Nat) (s : Bool) : ∀ (acks acc : Bytes) (pos t : Nat), (∀ a ∈ acks, checkAck v s a = true) →
    EncAt (ackLoop' v s acks.length acc) acks (acc ++ acks) pos t
  | [], acc, _, _, _ => by rw [List.append_nil]; exact encAt_pure _ _ _
  | a :: acks, acc, pos, t, h => by
    show EncAt (u8 >>= fun a => require (checkAck v s a) >>= fun _ => ackLoop' v s acks.length (acc ++ [a])) _ _ _ _
    refine (encAt_u8 a _ _).bind (b2 := acks) ?_
    refine (encAt_require (h a (by simp)) _ _).bind0 ?_
    have := encAt_ackLoop' v s acks (acc ++ [a]) (pos + 1) t (fun x hx => h x (by simp [hx]))
    simpa using this

theorem body_acks {ver : Nat} (hv : ver ≤ 5) {isS : Bool} {id : Nat} {ps : List Property} {acks : Bytes}
    (hid : Spec.PacketId id) (hps : Spec.PropsFor ver ps) (hnb : ∀ p ∈ ps, ¬ Spec.IsBinary p) (h0 : acks ≠ [])
    (ha : ∀ a ∈ acks, checkAck ver isS a = true) (hs : isS = true ∨ ver = 5) :
    ∃ pb, Asm.propsIfV5 ver ps = some pb ∧ EncEnd (parseSubackUnsuback ver isS) (Asm.u16 id ++ (pb ++ acks))
      (if isS then .suback id ps acks else .unsuback id ps acks) := by
  obtain ⟨pb, p1, p2⟩ := encAt_propsFor hv hps hnb
  refine ⟨pb, p1, ?_⟩
  intro pos t ht
  simp only [List.length_append] at ht
  have hl := length_pos_of_ne h0
  rw [parseSubackUnsuback_eq]
  refine (encAt_packetId id hid.1 hid.2 _ _).bind ?_
  refine (p2 _ _ (by omega)).bind ?_
  refine (encAt_endHeader (by omega)).bind0 ?_
  rw [if_neg (by rcases hs with h | h <;> simp [h])]
  refine (encAt_getPos _ _).bind0 ((encAt_getTarget _ _).bind0 ?_)
  refine (encAt_require (by simp; omega) _ _).bind0 ?_
  refine encAt_waitFull ?_ (by omega)
  have e : t - (pos + (Asm.u16 id).length + pb.length) = acks.length := by omega
  rw [e]
  have := (encAt_ackLoop' ver isS acks [] (pos + (Asm.u16 id).length + pb.length) t ha).bind
    (f := fun acks => verifyEnd >>= fun _ =>
      pure (if isS = true then Packet.suback id ps acks else Packet.unsuback id ps acks))
    ((encAt_verifyEnd (by omega)).bind0 (encAt_pure _ _ _))
  rw [List.append_nil] at this
  exact this

theorem map_ackByte {ver : Nat} {acks : Bytes} (h : ∀ a ∈ acks, Asm.ackByte ver a = a) :
    acks.map (Asm.ackByte ver) = acks := by
  induction acks with
  | nil => rfl
  | cons a as ih => simp [h a (by simp), ih fun x hx => h x (by simp [hx])]

/-! ### All packets -/

theorem nil_end {α : Type} {p : P α} {a : α} (h : ∀ pos, EncAt p [] a pos pos) : EncEnd p [] a := by
  intro pos t ht; simp at ht; subst ht; exact h pos

theorem body_roundtrip {ver : Nat} (hv : ver = 3 ∨ ver = 4 ∨ ver = 5) {p : Packet} (h : Spec.Sendable ver p)
    (hnb : ∀ q ∈ Spec.allProps p, ¬ Spec.IsBinary q) :
    ∃ b, Asm.body ver p = some b ∧ EncEnd (parseBody (some ver) p.ty (Asm.typeFlags p)) (b ++ Asm.payload p) p ∧
      (p.ty = 1 → EncEnd (parseBody none p.ty (Asm.typeFlags p)) (b ++ Asm.payload p) p) := by
  have hv5 : ver ≤ 5 := by omega
  cases p with
  | connect v flags ka ps cid will user pass =>
    have hv' := h.1
    subst hv'
    obtain ⟨b, h1, h2⟩ := body_connect hv h hnb
    refine ⟨b, h1, ?_, ?_⟩
    · simpa [Asm.payload, parseBody, Packet.ty] using h2
    · intro _; simpa [Asm.payload, parseBody, Packet.ty] using h2
  | connack flags reason ps =>
    obtain ⟨b, h1, h2⟩ := body_connack hv5 h hnb
    exact ⟨b, h1, by simpa [Asm.payload, parseBody, Packet.ty] using h2, by simp [Packet.ty]⟩
  | publish flags topic id ps pl =>
    obtain ⟨b, h1, h2⟩ := body_publish hv5 h hnb
    exact ⟨b, h1, by simpa [Asm.payload, parseBody, Packet.ty, Asm.typeFlags] using h2, by simp [Packet.ty]⟩
  | ack ty id reason ps =>
    obtain ⟨b, h1, h2⟩ := body_ack hv5 h hnb
    obtain ⟨h4, h7, _⟩ := h
    refine ⟨b, h1, ?_, by simp [Packet.ty]; omega⟩
    have e : ∀ fl, parseBody (some ver) ty fl = parseAck ver ty := by
      intro fl
      unfold parseBody
      rw [if_neg (by omega), if_neg (by omega)]
      simp only
      rw [if_neg (by omega), if_neg (by omega), if_pos h7]
    show EncEnd (parseBody (some ver) ty _) (b ++ []) _
    rw [e, List.append_nil]
    exact h2
  | subscribe id ps ss =>
    obtain ⟨hid, hps, h0, hss, hnd, hl⟩ := h
    obtain ⟨b, h1, h2⟩ := body_subUsub hv5 (hasO := true) hid hps hnb h0 (fun s hs => ⟨hss s hs, by simp⟩) hnd hl
    exact ⟨b, h1, by simpa [Asm.payload, parseBody, Packet.ty] using h2, by simp [Packet.ty]⟩
  | unsubscribe id ps ss =>
    obtain ⟨hid, hps, h0, hss, hnd, hl⟩ := h
    obtain ⟨b, h1, h2⟩ := body_subUsub hv5 (hasO := false) hid hps hnb h0
      (fun s hs => ⟨(hss s hs).1, fun _ => (hss s hs).2⟩) hnd hl
    exact ⟨b, h1, by simpa [Asm.payload, parseBody, Packet.ty] using h2, by simp [Packet.ty]⟩
  | suback id ps acks =>
    obtain ⟨hid, hps, h0, ha⟩ := h
    obtain ⟨pb, p1, p2⟩ := body_acks hv5 (isS := true) hid hps hnb h0 (fun a h => (suback_reason_ok hv5 (ha a h)).1) (Or.inl rfl)
    refine ⟨Asm.u16 id ++ (pb ++ acks), ?_, by simpa [Asm.payload, parseBody, Packet.ty] using p2, by simp [Packet.ty]⟩
    simp [Asm.body, p1, h0, map_ackByte fun a h => (suback_reason_ok hv5 (ha a h)).2]
  | unsuback id ps acks =>
    obtain ⟨hid, hps, ha⟩ := h
    by_cases h5 : ver = 5
    · subst h5
      rw [if_pos rfl] at ha
      obtain ⟨pb, p1, p2⟩ := body_acks (Nat.le_refl 5) (isS := false) hid hps hnb ha.1
        (fun a h => unsuback_reason_ok (ha.2 a h)) (Or.inr rfl)
      refine ⟨Asm.u16 id ++ (pb ++ acks), ?_, by simpa [Asm.payload, parseBody, Packet.ty] using p2, by simp [Packet.ty]⟩
      simp [Asm.propsIfV5] at p1
      simp [Asm.body, p1, ha.1, map_ackByte (ver := 5) (acks := acks) fun a h => by simp [Asm.ackByte]]
    · rw [if_neg h5] at ha
      subst ha
      have hps' : ps = [] := by simpa [Spec.PropsFor, h5] using hps
      subst hps'
      refine ⟨Asm.u16 id, by simp [Asm.body]; omega, ?_, by simp [Packet.ty]⟩
      intro pos t ht
      simp only [Asm.payload, List.append_nil, parseBody, Packet.ty] at ht ⊢
      have : EncAt (parseSubackUnsuback ver false) (Asm.u16 id) (.unsuback id [] []) pos t := by
        rw [parseSubackUnsuback_eq]
        have := (encAt_packetId id hid.1 hid.2 pos t).bind (f := fun id => propertiesIfV5 ver >>= fun props => endHeader >>= fun _ =>
          if (!false && decide (ver < 5)) = true then verifyEnd >>= fun _ => pure (Packet.unsuback id props [])
          else getPos >>= fun pos => getTarget >>= fun target => require (decide (target - pos ≠ 0)) >>= fun _ =>
            waitFull >>= fun _ => ackLoop' ver false (target - pos) [] >>= fun acks => verifyEnd >>= fun _ =>
              pure (if false = true then Packet.suback id props acks else .unsuback id props acks))
          (b2 := []) (c := Packet.unsuback id [] []) (by
            unfold propertiesIfV5
            rw [if_neg (by omega)]
            refine (encAt_pure _ _ _).bind0 ?_
            refine (encAt_endHeader (by omega)).bind0 ?_
            rw [if_pos (by simp; omega)]
            exact (encAt_verifyEnd (by omega)).bind0 (encAt_pure _ _ _))
        rwa [List.append_nil] at this
      simpa using this
  | pingreq =>
    refine ⟨[], rfl, nil_end fun pos => ?_, by simp [Packet.ty]⟩
    simp only [parseBody, Packet.ty]
    exact (encAt_verifyEnd (by omega)).bind0 ((encAt_endHeader (by omega)).bind0 (encAt_pure _ _ _))
  | pingresp =>
    refine ⟨[], rfl, nil_end fun pos => ?_, by simp [Packet.ty]⟩
    simp only [parseBody, Packet.ty]
    exact (encAt_verifyEnd (by omega)).bind0 ((encAt_endHeader (by omega)).bind0 (encAt_pure _ _ _))
  | disconnect reason ps =>
    obtain ⟨hps, hr⟩ := h
    subst hps
    by_cases h5 : ver = 5
    · subst h5
      refine ⟨[reason, 0], rfl, ?_, by simp [Packet.ty]⟩
      intro pos t ht
      simp only [Asm.payload, List.append_nil, parseBody, Packet.ty] at ht ⊢
      simp at ht
      show EncAt (parseDisconnect 5) _ _ _ _
      unfold parseDisconnect
      refine (encAt_getPos _ _).bind0 ((encAt_getTarget _ _).bind0 ?_)
      rw [if_neg (by omega), if_neg (by omega)]
      refine (encAt_u8 reason _ _).bind (b2 := [0]) ?_
      rw [if_neg (by omega)]
      obtain ⟨b, b1, b2⟩ := encAt_properties (ps := []) ⟨by simp, by simp⟩ (by simp)
      have hb : b = [0] := by
        have : Asm.props [] = some [0] := by decide
        rw [this] at b1; cases b1; rfl
      subst hb
      have := (b2 (pos + 1) t (by simp; omega)).bind (f := fun props => endHeader >>= fun _ => verifyEnd >>= fun _ =>
        pure (Packet.disconnect reason props)) ((encAt_endHeader (by simp; omega)).bind0
          ((encAt_verifyEnd (by simp; omega)).bind0 (encAt_pure _ _ _)))
      rwa [List.append_nil] at this
    · have hr := hr h5
      subst hr
      refine ⟨[], by simp [Asm.body]; omega, nil_end fun pos => ?_, by simp [Packet.ty]⟩
      simp only [parseBody, Packet.ty]
      show EncAt (parseDisconnect ver) _ _ _ _
      unfold parseDisconnect
      refine (encAt_getPos _ _).bind0 ((encAt_getTarget _ _).bind0 ?_)
      rw [if_pos (by omega)]
      exact (encAt_require (by simp) _ _).bind0 (encAt_pure _ _ _)

end Verif.Mqtt
