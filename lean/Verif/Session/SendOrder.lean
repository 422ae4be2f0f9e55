import Verif.Session.FlightProps
/-!
# The order of first transmissions

Helper lemmas for the properties of the sending side.
-/
namespace Verif.Session
open Verif Spec

/-- The message may still be sent for the first time. -/
def Pending (h : List Ev) (q : Pub) : Prop := ¬ WasSent q.key h ∧ q.pubrec = false ∧ q.complete = false

/-- `k'` comes after `k`. -/
def After (l : List Nat) (k k' : Nat) : Prop := ∃ a b, l = a ++ k :: b ∧ k' ∈ b

structure Ordered (h : List Ev) (v : List Pub) : Prop where
  sub : (v.map (·.key)).Sublist (queuedKeys h)
  att : ∀ q ∈ v, q.attempted ∧ q.pubrec = false → WasSent q.key h
  ord : ∀ q ∈ v, Pending h q → ∀ k, After (queuedKeys h) q.key k → ¬ WasSent k h
  known : ∀ k, WasSent k h → k ∈ queuedKeys h
  first : AtEach FirstInOrder h

theorem wasSent_append {k : Nat} {a b : List Ev} : WasSent k (a ++ b) ↔ WasSent k a ∨ WasSent k b := by
  constructor
  · rintro ⟨t, r, hm, e⟩
    rcases List.mem_append.mp hm with hm | hm
    · exact .inl ⟨t, r, hm, e⟩
    · exact .inr ⟨t, r, hm, e⟩
  · rintro (⟨t, r, hm, e⟩ | ⟨t, r, hm, e⟩)
    · exact ⟨t, r, by simp [hm], e⟩
    · exact ⟨t, r, by simp [hm], e⟩

theorem wasSent_none {k : Nat} {es : List Ev} (h : ∀ e ∈ es, ∀ t r, e ≠ .sent t (.publish r)) : ¬ WasSent k es := by
  rintro ⟨t, r, hm, _⟩
  exact h _ hm t r rfl

theorem queuedKeys_none {es : List Ev} (h : ∀ e ∈ es, ∀ p, e ≠ .queued p) : queuedKeys es = [] := by
  induction es with
  | nil => rfl
  | cons e es ih =>
    have := ih fun x hx => h x (by simp [hx])
    cases e with
    | queued p => exact absurd rfl (h _ (by simp) p)
    | _ => exact this

/-- Events which are neither transmissions nor queueing. -/
theorem Ordered.quiet {h es : List Ev} {v : List Pub} (ho : Ordered h v) (h1 : ∀ e ∈ es, ∀ t r, e ≠ .sent t (.publish r))
    (h2 : ∀ e ∈ es, ∀ p, e ≠ .queued p) : Ordered (h ++ es) v := by
  have hk : queuedKeys (h ++ es) = queuedKeys h := by rw [queuedKeys_append, queuedKeys_none h2, List.append_nil]
  have hw : ∀ k, WasSent k (h ++ es) ↔ WasSent k h := fun k => by
    rw [wasSent_append]
    exact ⟨fun h => h.elim id fun h => absurd h (wasSent_none h1), .inl⟩
  refine ⟨by rw [hk]; exact ho.sub, fun q hq ha => (hw _).mpr (ho.att q hq ha), ?_, fun k h => by rw [hk]; exact ho.known k ((hw k).mp h), ?_⟩
  · intro q hq hp k ha
    rw [hk] at ha
    rw [hw]
    exact ho.ord q hq ⟨fun h => hp.1 ((hw _).mpr h), hp.2⟩ k ha
  · refine atEach_append ho.first fun e1 x e2 he => ?_
    cases x with
    | sent t w =>
      cases w with
      | publish r => exact absurd rfl (h1 _ (by rw [he]; simp) t r)
      | _ => trivial
    | _ => trivial

/-- Messages change without becoming pending. -/
theorem Ordered.map {h : List Ev} {v : List Pub} (ho : Ordered h v) (f : Pub → Pub)
    (hf : ∀ q ∈ v, (f q).key = q.key ∧ ((f q).attempted ∧ (f q).pubrec = false → q.attempted ∧ q.pubrec = false) ∧ (Pending h (f q) → Pending h q)) : Ordered h (v.map f) := by
  refine ⟨?_, ?_, ?_, ho.known, ho.first⟩
  · rw [map_keys f v fun q hq => (hf q hq).1]; exact ho.sub
  · intro q' hq' ha
    obtain ⟨q, hq, rfl⟩ := List.mem_map.mp hq'
    rw [(hf q hq).1]
    exact ho.att q hq ((hf q hq).2.1 ha)
  · intro q' hq' hp k hk
    obtain ⟨q, hq, rfl⟩ := List.mem_map.mp hq'
    rw [(hf q hq).1] at hk
    exact ho.ord q hq ((hf q hq).2.2 hp) k hk

theorem Ordered.replace {h : List Ev} {v1 v2 : List Pub} {p q : Pub} (ho : Ordered h (v1 ++ p :: v2)) (hk : q.key = p.key)
    (ha : q.attempted ∧ q.pubrec = false → p.attempted ∧ p.pubrec = false) (hp : Pending h q → Pending h p) : Ordered h (v1 ++ q :: v2) := by
  refine ⟨?_, ?_, ?_, ho.known, ho.first⟩
  · have := ho.sub; simpa [hk] using this
  · intro z hz hza
    rcases List.mem_append.mp hz with hz | hz
    · exact ho.att z (by simp [hz]) hza
    · rcases List.mem_cons.mp hz with rfl | hz
      · rw [hk]; exact ho.att p (by simp) (ha hza)
      · exact ho.att z (by simp [hz]) hza
  · intro z hz hzp k hkk
    rcases List.mem_append.mp hz with hz | hz
    · exact ho.ord z (by simp [hz]) hzp k hkk
    · rcases List.mem_cons.mp hz with rfl | hz
      · rw [hk] at hkk; exact ho.ord p (by simp) (hp hzp) k hkk
      · exact ho.ord z (by simp [hz]) hzp k hkk

theorem Ordered.sublist {h : List Ev} {v w : List Pub} (ho : Ordered h v) (hs : w.Sublist v) : Ordered h w :=
  ⟨(hs.map _).trans ho.sub, fun q hq => ho.att q (hs.subset hq), fun q hq => ho.ord q (hs.subset hq), ho.known, ho.first⟩

theorem mem_queued {h : List Ev} {k : Nat} (hk : k ∈ queuedKeys h) : ∃ p, .queued p ∈ h ∧ p.key = k := by
  induction h with
  | nil => cases hk
  | cons e h ih =>
    cases e with
    | queued p =>
      rcases List.mem_cons.mp hk with rfl | hk
      · exact ⟨p, by simp, rfl⟩
      · obtain ⟨p', h1, h2⟩ := ih hk; exact ⟨p', by simp [h1], h2⟩
    | _ =>
      obtain ⟨p', h1, h2⟩ := ih hk; exact ⟨p', by simp [h1], h2⟩

/-- What is after a key in the list of a history without repetitions. -/
theorem after_unique {l : List Nat} (hn : l.Nodup) {a b : List Nat} {k k' : Nat} (he : l = a ++ k :: b) (ha : After l k k') : k' ∈ b := by
  obtain ⟨a', b', h1, h2⟩ := ha
  have : a' = a ∧ b' = b := by
    rw [he] at h1 hn
    clear he
    induction a generalizing a' with
    | nil =>
      cases a' with
      | nil => simp only [List.nil_append, List.cons.injEq, true_and] at h1; exact ⟨rfl, h1.symm⟩
      | cons x a' =>
        simp only [List.nil_append, List.cons_append, List.cons.injEq] at h1
        simp only [List.nil_append, List.nodup_cons] at hn
        exact absurd (by rw [h1.2]; simp) hn.1
    | cons y a ih =>
      cases a' with
      | nil =>
        simp only [List.nil_append, List.cons_append, List.cons.injEq] at h1
        simp only [List.cons_append, List.nodup_cons] at hn
        exact absurd (by rw [h1.1]; simp) hn.1
      | cons x a' =>
        simp only [List.cons_append, List.cons.injEq] at h1
        simp only [List.cons_append, List.nodup_cons] at hn
        obtain ⟨e1, e2⟩ := ih hn.2 a' h1.2
        exact ⟨by rw [e1, h1.1], e2⟩
  rw [← this.2]; exact h2

/-- In a sublist the order is the same. -/
theorem sublist_after {v l : List Nat} (hs : v.Sublist l) (hn : l.Nodup) {a b : List Nat} {k k' : Nat} (he : v = a ++ k :: b) (hk : k' ∈ v)
    (ha : After l k k') : k' ∈ b := by
  subst he
  rcases List.mem_append.mp hk with h | h
  · exfalso
    -- `k'` is before `k` in `l`
    obtain ⟨a1, a2, rfl⟩ := List.append_of_mem h
    obtain ⟨l1, l2, e1, hs1, hs2⟩ := List.append_sublist_iff.mp hs
    have h1 : k' ∈ l1 := hs1.subset (by simp)
    have h2 : k ∈ l2 := hs2.subset (by simp)
    obtain ⟨x, y, rfl⟩ := List.append_of_mem h2
    have h3 := after_unique (a := l1 ++ x) (b := y) hn (by rw [e1]; simp) ha
    rw [e1] at hn
    exact (List.nodup_append.mp hn).2.2 k' h1 k' (by simp [h3]) rfl
  · rcases List.mem_cons.mp h with rfl | h
    · exfalso
      obtain ⟨x, y, e, hm⟩ := ha
      rw [e] at hn
      exact (List.nodup_cons.mp (List.nodup_append.mp hn).2.1).1 hm
    · exact h


theorem queuedKeys_split {h : List Ev} {a b : List Ev} {p : Pub} (he : h = a ++ .queued p :: b) {q : Pub} (hq : .queued q ∈ b) :
    After (queuedKeys h) p.key q.key := ⟨queuedKeys a, queuedKeys b, by rw [he, queuedKeys_append]; rfl, mem_queuedKeys hq⟩

/-- A message is sent; nothing before it in the queue is pending. -/
theorem Ordered.sent {h : List Ev} {v1 v2 : List Pub} {p q r : Pub} (ho : Ordered h (v1 ++ p :: v2)) (hn : (queuedKeys h).Nodup)
    (h1 : p.pubrec = false) (h2 : p.complete = false) (hv1 : ∀ z ∈ v1, ¬ Pending h z) (hr : r.key = p.key) (hq : q.key = p.key) (now : Nat) :
    Ordered (h ++ [.sent now (.publish r)]) (v1 ++ q :: v2) := by
  have hk : queuedKeys (h ++ [.sent now (.publish r)]) = queuedKeys h := by rw [queuedKeys_append]; exact List.append_nil _
  have hw : ∀ k, WasSent k (h ++ [.sent now (.publish r)]) ↔ WasSent k h ∨ k = r.key := by
    intro k
    rw [wasSent_append]
    constructor
    · rintro (h | ⟨t, x, hm, e⟩)
      · exact .inl h
      · simp only [List.mem_singleton, Ev.sent.injEq, Wire.publish.injEq] at hm
        rw [hm.2] at e; exact .inr e.symm
    · rintro (h | rfl)
      · exact .inl h
      · exact .inr ⟨now, r, by simp, rfl⟩
  have hsub := ho.sub
  rw [List.map_append, List.map_cons] at hsub
  have hkn : ∀ k, WasSent k (h ++ [.sent now (.publish r)]) → k ∈ queuedKeys (h ++ [.sent now (.publish r)]) := by
    intro k h
    rw [hk]
    rcases (hw k).mp h with h | rfl
    · exact ho.known k h
    · rw [hr]; exact ho.sub.subset (by simp)
  refine ⟨?_, ?_, ?_, hkn, atEach_snoc ho.first ?_⟩
  · rw [hk, List.map_append, List.map_cons, hq]; exact hsub
  · intro z hz hza
    rw [hw]
    rcases List.mem_append.mp hz with hz | hz
    · exact .inl (ho.att z (by simp [hz]) hza)
    · rcases List.mem_cons.mp hz with rfl | hz
      · exact .inr (by rw [hq, hr])
      · exact .inl (ho.att z (by simp [hz]) hza)
  · intro z hz hzp k hkk
    rw [hk] at hkk
    have hzh : Pending h z := ⟨fun hs => hzp.1 ((hw _).mpr (.inl hs)), hzp.2⟩
    have hzk : z.key ≠ r.key := fun e => hzp.1 ((hw _).mpr (.inr e))
    have hz2 : z ∈ v2 := by
      rcases List.mem_append.mp hz with hz | hz
      · exact absurd hzh (hv1 z hz)
      · rcases List.mem_cons.mp hz with rfl | hz
        · exact absurd (by rw [hq, hr]) hzk
        · exact hz
    rw [hw]
    rintro (hs | rfl)
    · exact ho.ord z (by simp [hz2]) hzh k hkk hs
    · obtain ⟨x, y, rfl⟩ := List.append_of_mem hz2
      have hm := sublist_after hsub hn (a := v1.map (·.key) ++ p.key :: x.map (·.key)) (b := y.map (·.key)) (k := z.key) (k' := r.key) (by simp) (by simp [hr]) hkk
      have hnd := hn.sublist hsub
      rw [List.map_append, List.map_cons] at hnd
      have := (List.nodup_cons.mp (List.nodup_append.mp hnd).2.1).1
      rw [hr] at hm
      exact this (by simp only [List.mem_append, List.mem_cons]; exact .inr (.inr hm))
  · intro hns a p' b q' he hpk hqm
    have := ho.ord p (by simp) ⟨by rw [← hr]; exact hns, h1, h2⟩ q'.key (by
      rw [← hr, ← hpk]; exact queuedKeys_split he hqm)
    exact this

/-- What holds between the entries of a pass. -/
def Lined (h : List Ev) (now : Nat) (s : Session) (l : List Item) (c : Ctx) : Prop :=
  Ordered (h ++ c.sent.map (.sent now)) (pubsOf l) ∧ ∀ q ∈ pubsOf l, Plain s.broker q ∧ q.pubrec = q.pubrel

theorem plain_flags {b : Bool} {p q : Pub} (h : SameFlags p q) (hp : Plain b p ∧ p.pubrec = p.pubrel) : Plain b q ∧ q.pubrec = q.pubrel := by
  unfold Plain Pub.flagsOk
  rw [h.pubrec, h.pubrel, h.puback, h.pubcomp, h.qos, h.expiry]
  exact hp

theorem full_mono (s : Session) {n k : Nat} (h : s.full n = true) (hk : n ≤ k) : s.full k = true := by
  unfold Session.full at h ⊢
  simp only [Bool.or_eq_true, decide_eq_true_eq, Bool.and_eq_true, bne_iff_ne] at h ⊢
  omega

theorem queuedKeys_sent (h : List Ev) (now : Nat) (l : List Wire) : queuedKeys (h ++ l.map (.sent now)) = queuedKeys h := by
  rw [queuedKeys_append, queuedKeys_none (es := l.map _), List.append_nil]
  intro e he p e'
  obtain ⟨x, _, rfl⟩ := List.mem_map.mp he
  cases e'

theorem complete_ready (s : Session) (now : Nat) (id : BitVec 16) (p : Pub) (hc : p.complete = false) : (p.ready s now id).complete = false := by
  unfold Pub.complete at hc ⊢
  obtain ⟨f1, f2, f3, f4, f5, f6, _⟩ := ready_fields s now id p
  rw [f1, f3, f6]
  by_cases h0 : p.qos = 0
  · have h1 : p.lastAttempt = 0 := by simpa [h0] using hc
    have : (p.ready s now id).lastAttempt = 0 := by
      unfold Pub.ready Pub.retryReset
      rw [if_neg (by simp [h1])]; exact h1
    simp [h0, this]
  · have : (p.qos == 0) = false := by simpa using h0
    rw [this] at hc ⊢
    simpa using hc

theorem counts_ready {s : Session} {now : Nat} {id : BitVec 16} {p : Pub} (hok : ItemOk (.pub p)) (hc : p.complete = false) (hf : p.flagsOk) :
    (p.ready s now id).counts = p.cnt := by
  obtain ⟨f1, f2, f3, f4, f5, f6, f7, f8, f9, f10, f11, f12, f13⟩ := ready_fields s now id p
  have hpc : p.pubcomp = false := by
    cases h : p.pubcomp with
    | false => rfl
    | true => have := hf.2 h; simp [Pub.complete, this, h] at hc
  unfold Pub.counts Pub.cnt
  rw [f1, f2, f4, f6, f7, hok.1, hok.2.2.1, hpc, hc]
  by_cases h0 : p.qos = 0
  · simp [h0]
  · have : 0 < p.qos := by omega
    simp [h0, this]

theorem lined_step (h : List Ev) (hnd : (queuedKeys h).Nodup) (s : Session) (now : Nat) (hnow : 0 < now) (tx : Nat → Tx) (htx : ∀ n, tx n ≠ .err)
    (done : List Item) (x : Item) (todo : List Item) (c : Ctx) (a : Act) (y : Item) (c' : Ctx) (hg : Good (idsOf done) (x :: todo) c.pool c.grace)
    (hJ : Lined h now s (done ++ x :: todo) c) (hfull : ∀ z ∈ pubsOf done, Pending (h ++ c.sent.map (.sent now)) z → s.full c.incomplete = true)
    (he : sendItem s now tx x c = some (a, y, c')) :
    Lined h now s ((done ++ if a.give then [] else [y]) ++ todo) c' ∧
    (a.stop = false → ∀ z ∈ pubsOf (done ++ if a.give then [] else [y]), Pending (h ++ c'.sent.map (.sent now)) z → s.full c'.incomplete = true) := by
  cases x with
  | sub q =>
    obtain ⟨a', q', c'', he', hstep⟩ := sendSub_cases s now tx q c hg.inv
    simp only [sendItem, he', Option.map_some, Option.some.injEq, Prod.mk.injEq] at he
    obtain ⟨rfl, rfl, rfl⟩ := he
    have hv : pubsOf ((done ++ if a'.give then [] else [Item.sub q']) ++ todo) = pubsOf (done ++ .sub q :: todo) := by
      split <;> simp [pubsOf_append, pubsOf]
    have hv2 : pubsOf (done ++ if a'.give then [] else [Item.sub q']) = pubsOf done := by
      split <;> simp [pubsOf_append, pubsOf]
    unfold Lined
    rw [hv, hv2]
    obtain ⟨h1, h2⟩ := hJ
    cases hstep with
    | complete => exact ⟨⟨h1, h2⟩, fun _ => hfull⟩
    | noId => exact ⟨⟨h1, h2⟩, fun _ => hfull⟩
    | idle => exact ⟨⟨h1, h2⟩, fun _ => hfull⟩
    | failed _ _ ht => exact absurd ht (htx _)
    | sent =>
      refine ⟨⟨?_, h2⟩, fun _ z hz hp => hfull z hz ⟨fun hs => hp.1 ?_, hp.2⟩⟩
      · rw [List.map_append, ← List.append_assoc]
        exact h1.quiet (by simp) (by simp)
      · rw [List.map_append, ← List.append_assoc, wasSent_append]; exact .inl hs
  | pub p =>
    obtain ⟨a', q, c'', he', hstep⟩ := sendPub_cases s now tx p c hg.inv fun h0 => hg.live_head (x := .pub p) h0
    simp only [sendItem, he', Option.map_some, Option.some.injEq, Prod.mk.injEq] at he
    obtain ⟨rfl, rfl, rfl⟩ := he
    have hv0 : pubsOf (done ++ .pub p :: todo) = pubsOf done ++ p :: pubsOf todo := by simp [pubsOf_append, pubsOf]
    have hv : pubsOf ((done ++ if a'.give then [] else [Item.pub q]) ++ todo) = pubsOf done ++ ((if a'.give then [] else [q]) ++ pubsOf todo) := by
      split <;> simp [pubsOf_append, pubsOf]
    have hv2 : pubsOf (done ++ if a'.give then [] else [Item.pub q]) = pubsOf done ++ (if a'.give then [] else [q]) := by
      split <;> simp [pubsOf_append, pubsOf]
    unfold Lined at hJ ⊢
    rw [hv0] at hJ
    rw [hv, hv2]
    obtain ⟨h1, h3⟩ := hJ
    have hxok : ItemOk (.pub p) := hg.items _ List.mem_cons_self
    have k1 := hstep.keeps.1
    obtain ⟨⟨hpf, hpe, hpr, hpc⟩, hpair⟩ := h3 p (by simp)
    have hq3 := plain_flags k1 (h3 p (by simp))
    have hsame : (∀ q', (Plain s.broker q' ∧ q'.pubrec = q'.pubrel) → ∀ z ∈ pubsOf done ++ q' :: pubsOf todo, Plain s.broker z ∧ z.pubrec = z.pubrel) ∧
        ∀ z ∈ pubsOf done ++ pubsOf todo, Plain s.broker z ∧ z.pubrec = z.pubrel := by
      refine ⟨fun q' hq' z hz => ?_, fun z hz => ?_⟩
      · rcases List.mem_append.mp hz with hz | hz
        · exact h3 z (by simp [hz])
        · rcases List.mem_cons.mp hz with rfl | hz
          · exact hq'
          · exact h3 z (by simp [hz])
      · rcases List.mem_append.mp hz with hz | hz
        · exact h3 z (by simp [hz])
        · exact h3 z (by simp [hz])
    have hsubl : (pubsOf done ++ pubsOf todo).Sublist (pubsOf done ++ p :: pubsOf todo) := List.Sublist.append (List.Sublist.refl _) (List.sublist_cons_self _ _)
    have hcount : ∀ id, p.complete = false → (processPub s now c.incomplete (p.ready s now id)).2.2 = c.incomplete + (if p.cnt then 1 else 0) := fun id hc =>
      (count_ready hxok hc hpf hpe).1
    have hmono : ∀ id, p.complete = false → s.full c.incomplete = true → s.full (processPub s now c.incomplete (p.ready s now id)).2.2 = true := fun id hc hf =>
      full_mono s hf (by rw [hcount id hc]; omega)
    -- nothing before is pending when the message is sent
    have hfirst : ∀ id, p.complete = false → ¬ (p.ready s now id).held s now c.incomplete → ∀ z ∈ pubsOf done, ¬ Pending (h ++ c.sent.map (.sent now)) z := by
      intro id hc hh z hz hp
      refine hh (.inr (.inr (.inr (.inr (.inr ⟨by rw [(ready_fields s now id p).2.1]; exact hxok.1, full_mono s (hfull z hz hp) ?_⟩)))))
      split <;> omega
    cases hstep with
    | complete hc => exact ⟨⟨h1.sublist hsubl, hsame.2⟩, fun _ => by simpa using hfull⟩
    | noId hc hid hno =>
      have e : ({ p with lastAttempt := 0 } : Pub) = p := by
        have := (hxok.2.2.2 hid).1
        cases p; simp only at this; subst this; rfl
      rw [e]
      exact ⟨⟨h1, h3⟩, fun h => by cases h⟩
    | @idle id pool hc hgot hh =>
      have hat := ready_attempted s now id p
      obtain ⟨f1, f2, f3, f4, f5, f6, f7, f8, f9, f10, f11, f12, f13⟩ := ready_fields s now id p
      refine ⟨⟨h1.replace f8 (fun h => ⟨hat.mp h.1, by rw [← f4]; exact h.2⟩) fun hp => ⟨by rw [← f8]; exact hp.1, by rw [← f4]; exact hp.2.1, hc⟩, hsame.1 _ hq3⟩, fun _ z hz hp => ?_⟩
      rw [if_neg (show ¬ false = true by simp)] at hz
      rcases List.mem_append.mp hz with hz | hz
      · exact hmono id hc (hfull z hz hp)
      · simp only [List.mem_singleton] at hz
        subst hz
        have hrc := complete_ready s now id p hc
        rcases hh with h | ⟨hb, h⟩ | h | h | h | ⟨_, h⟩
        · exact absurd (h1.att p (by simp) ⟨hat.mp (.inl h), by rw [← f4]; exact hp.2.1⟩) (by rw [← f8]; exact hp.1)
        · unfold Pub.expired at h; rw [f13, hpe hb] at h; cases h
        · rw [f3] at h; have := hpf.1 h; simp [Pub.complete, this, h] at hc
        · rw [f6] at h; have := hpf.2 h; simp [Pub.complete, this, h] at hc
        · exfalso
          by_cases h0 : p.qos = 0
          · unfold Pub.toSend at h
            rw [if_pos ⟨.inl (by rw [f1]; exact h0), by rw [f2]; exact hxok.1⟩] at h
            cases h
          · have hid : id ≠ 0 := (got_ids hg hgot).1
            rcases toSend_some (q := p.ready s now id) (ready_ok hid hxok 0).1 hrc (by rw [f4, f5]; exact hpair) (by rw [f1]; exact h0) with h' | ⟨_, _, h'⟩
            · rw [h'] at h; cases h
            · rw [h'] at h; cases h
        · have hct := hcount id hc
          have hcnt : (p.ready s now id).counts = p.cnt := counts_ready hxok hc hpf
          rw [hcnt] at h
          dsimp only
          rw [hct]
          split at h <;> rename_i hx <;> simp only [hx, if_true, if_false, Bool.false_eq_true, Nat.add_zero] <;> exact h
    | failed _ _ _ _ ht => exact absurd ht (htx _)
    | @sent id pool w hc hgot hh hw ht =>
      obtain ⟨f1, f2, f3, f4, f5, f6, f7, f8, f9, f10, f11, f12, f13⟩ := ready_fields s now id p
      have hw1 : (p.ready s now id).toSend.1 = some w := by rw [hw]
      have hnone := hfirst id hc hh
      rcases toSend_wire hw1 with rfl | ⟨k, rfl⟩
      · have hr : p.pubrec = false := by
          by_cases h2 : p.qos = 2
          · have := (toSend_publish hw1).2 (by rw [f1]; exact h2)
            rw [f4] at this; exact this
          · cases hr : p.pubrec with
            | false => rfl
            | true => exact absurd (hpr hr) h2
        rw [List.map_append, ← List.append_assoc]
        refine ⟨⟨h1.sent (q := { p.ready s now id with lastAttempt := now }) (by rw [queuedKeys_sent]; exact hnd) hr hc hnone f8 f8 now, hsame.1 _ hq3⟩, fun _ z hz hp => ?_⟩
        rw [if_neg (show ¬ false = true by simp)] at hz
        exfalso
        rcases List.mem_append.mp hz with hz | hz
        · exact hnone z hz ⟨fun hs => hp.1 (by rw [wasSent_append]; exact .inl hs), hp.2⟩
        · simp only [List.mem_singleton] at hz
          subst hz
          exact hp.1 ⟨now, p.ready s now id, by simp, rfl⟩
      · -- a PUBREL
        rw [List.map_append, ← List.append_assoc]
        have hq1 := h1.quiet (es := [.sent now (.ack k)]) (by simp) (by simp)
        have hrec : p.pubrec = true := by
          cases hr : p.pubrec with
          | true => rfl
          | false =>
            exfalso
            by_cases h0 : p.qos = 0
            · unfold Pub.toSend at hw1
              rw [if_pos ⟨.inl (by rw [f1]; exact h0), by rw [f2]; exact hxok.1⟩] at hw1
              cases hw1
            · have hid : id ≠ 0 := (got_ids hg hgot).1
              rcases toSend_some (q := p.ready s now id) (ready_ok hid hxok 0).1 (complete_ready s now id p hc) (by rw [f4, f5]; exact hpair) (by rw [f1]; exact h0) with h' | ⟨_, h', _⟩
              · rw [h'] at hw1; cases hw1
              · rw [f4, hr] at h'; cases h'
        have hq2 : Ordered (h ++ c.sent.map (.sent now) ++ [.sent now (.ack k)]) (pubsOf done ++ { p.ready s now id with lastAttempt := now } :: pubsOf todo) :=
          hq1.replace f8 (fun h => by have := h.2; rw [show ({ p.ready s now id with lastAttempt := now } : Pub).pubrec = p.pubrec from f4, hrec] at this; cases this)
            (fun h => by have := h.2.1; rw [show ({ p.ready s now id with lastAttempt := now } : Pub).pubrec = p.pubrec from f4, hrec] at this; cases this)
        refine ⟨⟨hq2, hsame.1 _ hq3⟩, fun _ z hz hp => ?_⟩
        rw [if_neg (show ¬ false = true by simp)] at hz
        exfalso
        rcases List.mem_append.mp hz with hz | hz
        · exact hnone z hz ⟨fun hs => hp.1 (by rw [wasSent_append]; exact .inl hs), hp.2⟩
        · simp only [List.mem_singleton] at hz
          subst hz
          have := hp.2.1
          rw [show ({ p.ready s now id with lastAttempt := now } : Pub).pubrec = p.pubrec from f4, hrec] at this; cases this
    | @gone id pool w pool' hc hgot hh hw ht hr =>
      obtain ⟨f1, f2, f3, f4, f5, f6, f7, f8, f9, f10, f11, f12, f13⟩ := ready_fields s now id p
      have hdel := toSend_del (p.ready s now id) (by rw [hw])
      have hw1 : (p.ready s now id).toSend.1 = some w := by rw [hw]
      rw [hdel.2.2, Option.some.injEq] at hw1
      subst hw1
      have hnone := hfirst id hc hh
      have hr : p.pubrec = false := by
        cases hr : p.pubrec with
        | false => rfl
        | true => have := hpr hr; rw [f1, this] at hdel; exact absurd hdel.1 (by decide)
      rw [List.map_append, ← List.append_assoc]
      refine ⟨⟨((h1.sent (by rw [queuedKeys_sent]; exact hnd) hr hc hnone f8 rfl now)).sublist hsubl, hsame.2⟩, fun _ z hz hp => ?_⟩
      exfalso
      simp only [if_true, List.append_nil] at hz
      exact hnone z hz ⟨fun hs => hp.1 (by rw [wasSent_append]; exact .inl hs), hp.2⟩

/-- A message is handed to the session. -/
theorem Ordered.queue {h : List Ev} {v : List Pub} (ho : Ordered h v) (p : Pub) (hn : (queuedKeys (h ++ [.queued p])).Nodup) :
    Ordered (h ++ [.queued p]) (v ++ [fresh p]) := by
  have hk : queuedKeys (h ++ [.queued p]) = queuedKeys h ++ [p.key] := by rw [queuedKeys_append]; rfl
  have hw : ∀ k, WasSent k (h ++ [.queued p]) ↔ WasSent k h := fun k => by
    rw [wasSent_append]
    exact ⟨fun h => h.elim id fun h => absurd h (wasSent_none (by simp)), .inl⟩
  rw [hk] at hn
  have hnew : ¬ WasSent p.key h := fun hs => by
    have := (List.nodup_append.mp hn).2.2 p.key (ho.known _ hs) p.key (by simp)
    exact this rfl
  refine ⟨?_, ?_, ?_, fun k h => by rw [hk]; exact List.mem_append.mpr (.inl (ho.known k ((hw k).mp h))), atEach_snoc ho.first trivial⟩
  · rw [hk, List.map_append]
    exact ho.sub.append (List.Sublist.refl _)
  · intro q hq ha
    rw [hw]
    rcases List.mem_append.mp hq with hq | hq
    · exact ho.att q hq ha
    · simp only [List.mem_singleton] at hq
      rw [hq] at ha
      exact absurd ha.1 (fresh_quiet p)
  · intro q hq hp k hkk
    rw [hw]
    rw [hk] at hkk
    rcases List.mem_append.mp hq with hq | hq
    · have hqm : q.key ∈ queuedKeys h := ho.sub.subset (List.mem_map_of_mem hq)
      obtain ⟨a, b, hab⟩ := List.append_of_mem hqm
      have := after_unique hn (a := a) (b := b ++ [p.key]) (k := q.key) (by rw [hab]; simp) hkk
      rcases List.mem_append.mp this with h' | h'
      · exact ho.ord q hq ⟨fun hs => hp.1 ((hw _).mpr hs), hp.2⟩ k ⟨a, b, hab, h'⟩
      · simp only [List.mem_singleton] at h'
        rw [h']; exact hnew
    · simp only [List.mem_singleton] at hq
      rw [hq] at hkk
      have := after_unique hn (a := queuedKeys h) (b := []) (k := p.key) rfl hkk
      cases this

/-- Conditions on the operations: no retained messages, no cleaning, no failing transmissions; in a broker, messages which do not expire. -/
def Calm (b : Bool) : Op → Prop
  | .queue p => b = true → p.expiry = 0
  | .retained _ => False
  | .pass _ tx => ∀ n, tx n ≠ .err
  | .init _ _ _ _ c => c = false
  | _ => True

structure Line (h : List Ev) (s : Session) : Prop where
  ordered : Ordered h (pubsOf s.toRemote)
  delayed : s.delayed = []
  plain : ∀ q ∈ pubsOf s.toRemote, Plain s.broker q

theorem ackOnP_complete {b : Bool} (a : Ack) (q : Pub) (hok : ItemOk (.pub q)) (hp : Plain b q) (h2 : (ackOnP a q).pubrec = false)
    (h3 : (ackOnP a q).complete = false) : q.pubrec = false ∧ q.complete = false := by
  obtain ⟨a1, a2, a3, a4, a5, a6, a7, a8, a9⟩ := ackOnP_spec a q hok.1 hok.2.1
  have hq : (ackOnP a q).qos = q.qos := by rw [a1]
  have hl : (ackOnP a q).lastAttempt = q.lastAttempt := by rw [a1]
  refine ⟨?_, ?_⟩
  · cases hr : q.pubrec with
    | false => rfl
    | true => rw [a4 hr] at h2; cases h2
  · cases hc : q.complete with
    | false => rfl
    | true =>
      exfalso
      have h12 : q.qos = 0 ∨ q.qos = 1 ∨ q.qos = 2 := by have := hok.2.1; omega
      rcases h12 with h12 | h12 | h12
      · have : q.lastAttempt ≠ 0 := by simpa [Pub.complete, h12] using hc
        simp [Pub.complete, hq, h12, hl, this] at h3
      · have hpa : q.puback = true := by simpa [Pub.complete, h12] using hc
        have := (ackOnP_back a q).1 hpa
        simp [Pub.complete, hq, h12, this] at h3
      · have hpa : q.pubcomp = true := by simpa [Pub.complete, h12] using hc
        rw [a4 (hp.2.2.2 hpa)] at h2; cases h2

theorem Ordered.ack {h : List Ev} {v : List Pub} {b : Bool} (ho : Ordered h v) (a : Ack) (hok : ∀ q ∈ v, ItemOk (.pub q)) (hp : ∀ q ∈ v, Plain b q) :
    Ordered h (v.map (ackOnP a)) := by
  refine ho.map _ fun q hq => ?_
  obtain ⟨a1, a2, a3, a4, a5, a6, a7, a8, a9⟩ := ackOnP_spec a q (hok q hq).1 (hok q hq).2.1
  have hkey : (ackOnP a q).key = q.key := by rw [a1]
  refine ⟨hkey, fun h => ⟨(ackOnP_cnt a q (hok q hq) (hp q hq)).2.1.mp h.1, ?_⟩, fun hpp => ⟨by rw [← hkey]; exact hpp.1, ackOnP_complete a q (hok q hq) (hp q hq) hpp.2.1 hpp.2.2⟩⟩
  cases hr : q.pubrec with
  | false => rfl
  | true => rw [a4 hr] at h; cases h.2

theorem Line.step {h : List Ev} {s s' : Session} {op : Op} {o : Out} (hi : Inv s) (hv : Valid s.broker op) (hR : Calm s.broker op)
    (he : step s op = some (s', o)) (hpair : Paired h s) (hn : (queuedKeys (h ++ events op o)).Nodup) (hf : Line h s) : Line (h ++ events op o) s' := by
  have hok := view_ok hi
  obtain ⟨ho, hd, hplain⟩ := hf
  have hn0 : (queuedKeys h).Nodup := by rw [queuedKeys_append] at hn; exact (List.nodup_append.mp hn).1
  have hstep := step_send s op hi hv s' o he
  cases hstep with
  | @queue p hq =>
    refine ⟨?_, hd, ?_⟩
    · dsimp only
      rw [pubsOf_append]
      exact ho.queue p hn
    · intro q hm
      simp only [pubsOf_append, pubsOf, List.mem_append, List.mem_singleton] at hm
      rcases hm with h | rfl
      · exact hplain q h
      · exact fresh_plain _ p hR
  | @queueSub key unsub =>
    have : pubsOf (s.toRemote ++ [.sub { key := key, unsub := unsub }]) = pubsOf s.toRemote := by simp [pubsOf_append, pubsOf]
    refine ⟨?_, hd, ?_⟩
    · dsimp only; rw [this]; simpa [events] using ho
    · dsimp only; rw [this]; exact hplain
  | @retained p hq => exact hR.elim
  | @publish now p v tx _ l =>
    refine ⟨ho.quiet ?_ ?_, hd, hplain⟩ <;> intro e he <;> simp only [events, List.mem_cons, List.mem_append, List.mem_map] at he <;>
      rcases he with rfl | ⟨_, _, rfl⟩ | ⟨_, _, rfl⟩ <;> simp
  | @rel a v5 tx _ l ha hk =>
    refine ⟨ho.quiet ?_ ?_, hd, hplain⟩ <;> intro e he <;> simp only [events, List.mem_cons, List.mem_append, List.mem_map] at he <;>
      rcases he with rfl | ⟨_, _, rfl⟩ | ⟨_, _, rfl⟩ <;> simp
  | @ack a v5 tx _ l ha hk hl =>
    have hok0 : ∀ q ∈ pubsOf s.toRemote, ItemOk (.pub q) := fun q hq => hok q (by simp [Session.view, hq])
    have gen : ∀ (b : Ack) (v : List Pub), b.id ≠ 0 → (∀ q ∈ v, ItemOk (.pub q)) → (∀ q ∈ v, Plain s.broker q) →
        (∀ q ∈ v.map (ackOnP b), ItemOk (.pub q)) ∧ ∀ q ∈ v.map (ackOnP b), Plain s.broker q := by
      intro b v hb h1 h2
      refine ⟨?_, ?_⟩
      · intro q' hq'
        obtain ⟨q, hq, rfl⟩ := List.mem_map.mp hq'
        have := (ackOn_ok b hb (.pub q) (h1 q hq)).2
        rwa [ackOn_pub] at this
      · intro q' hq'
        obtain ⟨q, hq, rfl⟩ := List.mem_map.mp hq'
        exact ackOnP_plain _ b q (h1 q hq) (h2 q hq)
    obtain ⟨g2, g3⟩ := gen a _ ha hok0 hplain
    have g1 := ho.ack a hok0 hplain
    have fin : Ordered h (pubsOf l) ∧ ∀ q ∈ pubsOf l, Plain s.broker q := by
      rcases hl with ⟨rfl, _⟩ | ⟨hkr, r, rfl⟩
      · rw [pubsOf_ack]; exact ⟨g1, g3⟩
      · rw [pubsOf_ack, pubsOf_ack]
        exact ⟨g1.ack { kind := .pubrel, id := a.id, reason := r } g2 g3, (gen { kind := .pubrel, id := a.id, reason := r } _ ha g2 g3).2⟩
    refine ⟨fin.1.quiet ?_ ?_, hd, fin.2⟩ <;> intro e he <;> simp only [events, List.mem_cons, List.mem_append, List.mem_map] at he <;>
      rcases he with rfl | ⟨_, _, rfl⟩ | ⟨_, _, rfl⟩ <;> simp
  | @pass now tx _ l c e _ w2 hnow hp h1 h2 h3 h4 h5 h6 h7 h8 h9 h10 =>
    rw [hd, List.map_nil, List.append_nil] at hp
    have hg : Good [] s.toRemote s.pool s.grace := by have := delayed_good hi; simpa [hd] using this
    obtain ⟨d, t, k1, k2⟩ := pass_steps2 s now hnow tx
      (fun done todo c => Lined h now s (done ++ todo) c ∧ ∀ z ∈ pubsOf done, Pending (h ++ c.sent.map (.sent now)) z → s.full c.incomplete = true)
      (fun done todo c => Lined h now s (done ++ todo) c)
      (fun _ _ _ h => h.1)
      (fun done x todo c a y c' g1 g2 g3 g4 _ => by
        obtain ⟨r1, r2⟩ := lined_step h hn0 s now hnow tx hR done x todo c a y c' g1 g3.1 g3.2 g4
        exact ⟨r1, fun hs => ⟨r1, r2 hs⟩⟩)
      s.toRemote [] { pool := s.pool, grace := s.grace, incomplete := 0, sent := [] } l c e
      (by simpa [idsOf] using hg) (by simp) (by
        refine ⟨⟨?_, ?_⟩, by simp [pubsOf]⟩
        · simpa using ho
        · intro q hq
          rw [List.nil_append] at hq
          exact ⟨hplain q hq, (hpair q (by simp [Session.view, hq])).2.1⟩) hp
    rw [← k1, List.nil_append] at k2
    obtain ⟨r1, r2⟩ := k2
    have e1 : h ++ events (.pass now tx) o = (h ++ c.sent.map (Ev.sent now)) ++ w2.map (Ev.sent now) := by simp [events, h9]
    refine ⟨?_, h2, ?_⟩
    · rw [h1, e1]
      refine r1.quiet ?_ ?_ <;> intro e he <;> obtain ⟨x, hx, rfl⟩ := List.mem_map.mp he
      · obtain ⟨id, rfl⟩ := h10 x hx
        simp
      · simp
    · rw [h3, h1]; exact fun q hq => (r2 q hq).1
  | tick => exact ⟨by simpa [events] using ho, hd, hplain⟩
  | keep => exact ⟨by simpa [events] using ho, hd, hplain⟩
  | clean => cases hR

end Verif.Session
