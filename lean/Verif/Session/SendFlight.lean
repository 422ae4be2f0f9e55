import Verif.Session.SendProps
/-!
# The number of messages in flight

Helper lemmas for the properties of the sending side.
-/
namespace Verif.Session
open Verif Spec

/-- Like `run_inv`, with a condition on the operations. -/
theorem run_inv2 (R : Op → Prop) (P : List Ev → Session → Prop)
    (hstep : ∀ h s op s' o, Inv s → Valid s.broker op → R op → step s op = some (s', o) → P h s → P (h ++ events op o) s') :
    ∀ (ops : List Op) (s : Session) (h : List Ev), Inv s → (∀ op ∈ ops, Valid s.broker op) → (∀ op ∈ ops, R op) → P h s →
      ∀ s' outs, run s ops = some (s', outs) → P (h ++ trace ops outs) s' := by
  intro ops
  induction ops with
  | nil =>
    intro s h hi _ _ hP s' outs hr
    simp only [run, Option.some.injEq, Prod.mk.injEq] at hr
    obtain ⟨rfl, rfl⟩ := hr
    simpa [trace] using hP
  | cons op ops ih =>
    intro s h hi hv hR hP s' outs hr
    rw [run] at hr
    cases he : step s op with
    | none => rw [he] at hr; cases hr
    | some r =>
      obtain ⟨s1, o⟩ := r
      rw [he] at hr
      dsimp only at hr
      cases hr1 : run s1 ops with
      | none => rw [hr1] at hr; cases hr
      | some r =>
        obtain ⟨s2, rs⟩ := r
        rw [hr1] at hr
        simp only [Option.map_some, Option.some.injEq, Prod.mk.injEq] at hr
        obtain ⟨rfl, rfl⟩ := hr
        have h1 := hstep h s op s1 o hi (hv op (by simp)) (hR op (by simp)) he hP
        rcases step_inv s op hi (hv op (by simp)) with ⟨_, hb⟩ | ⟨s1', o', e, hi', hb, _⟩
        · rw [he] at hb; cases hb
        · rw [he] at e
          cases e
          have := ih s1 _ hi' (fun x hx => by rw [hb]; exact hv x (by simp [hx])) (fun x hx => hR x (by simp [hx])) h1 _ _ hr1
          simpa [trace] using this

/-- What holds before the first entry and is kept by each entry as long as the pass goes on gives what holds at the end. -/
theorem pass_steps2 (s : Session) (now : Nat) (hnow : 0 < now) (tx : Nat → Tx) (J K : List Item → List Item → Ctx → Prop)
    (hJK : ∀ done todo c, J done todo c → K done todo c)
    (hstep : ∀ done x todo c a y c', Good (idsOf done) (x :: todo) c.pool c.grace → (∀ z ∈ done, ItemOk z) → J done (x :: todo) c →
      sendItem s now tx x c = some (a, y, c') → Good (idsOf done) (if a.give then todo else y :: todo) c'.pool c'.grace →
      K (done ++ if a.give then [] else [y]) todo c' ∧ (a.stop = false → J (done ++ if a.give then [] else [y]) todo c')) :
    ∀ todo done c l' c' e, Good (idsOf done) todo c.pool c.grace → (∀ z ∈ done, ItemOk z) → J done todo c →
      pass (sendItem s now tx) todo c = some (l', c', e) → ∃ d t, done ++ l' = d ++ t ∧ K d t c' := by
  intro todo
  induction todo with
  | nil =>
    intro done c l' c' e _ _ hJ hp
    simp only [pass, Option.some.injEq, Prod.mk.injEq] at hp
    obtain ⟨rfl, rfl, rfl⟩ := hp
    exact ⟨done, [], rfl, hJK _ _ _ hJ⟩
  | cons x todo ih =>
    intro done c l' c' e hg hok hJ hp
    obtain ⟨a, y, c1, he, hae, hg1⟩ := sendItem_good s now hnow tx (idsOf done) x todo c hg
    obtain ⟨hK1, hJ1⟩ := hstep done x todo c a y c1 hg hok hJ he hg1
    rw [pass, he] at hp
    dsimp only at hp
    have hfin : done ++ (if a.give then todo else y :: todo) = (done ++ if a.give then [] else [y]) ++ todo := by
      split <;> simp
    split at hp
    · next herr =>
      cases hp
      have hgive := hae herr
      rw [hgive] at hK1 hfin
      exact ⟨_, _, hfin, hK1⟩
    · split at hp
      · cases hp
        exact ⟨_, _, hfin, hK1⟩
      · next hst =>
        have hJ1 := hJ1 (by simpa using hst)
        cases hrec : pass (sendItem s now tx) todo c1 with
        | none => rw [hrec] at hp; cases hp
        | some r =>
          obtain ⟨l2, c2, e2⟩ := r
          rw [hrec] at hp
          simp only [Option.map_some, Option.some.injEq, Prod.mk.injEq] at hp
          obtain ⟨rfl, rfl, rfl⟩ := hp
          have hgd : Good (idsOf (done ++ if a.give then [] else [y])) todo c1.pool c1.grace := by
            by_cases hgive : a.give = true
            · rw [if_pos hgive] at hg1 ⊢; simpa using hg1
            · rw [if_neg hgive] at hg1 ⊢
              rw [idsOf_append]; exact ((good_cons _ _ _ _ _).mp hg1).2
          have hok1 : ∀ z ∈ done ++ (if a.give then [] else [y]), ItemOk z := by
            intro z hz
            rcases List.mem_append.mp hz with hz | hz
            · exact hok z hz
            · by_cases hgive : a.give = true
              · rw [if_pos hgive] at hz; simp at hz
              · rw [if_neg hgive] at hz hg1
                simp only [List.mem_singleton] at hz
                rw [hz]; exact hg1.items y List.mem_cons_self
          obtain ⟨d, t, h1, h2⟩ := ih _ c1 l2 c2 e2 hgd hok1 hJ1 hrec
          refine ⟨d, t, ?_, h2⟩
          rw [← h1]
          split <;> simp

/-- The message counts as being in flight once it is sent. -/
def Pub.cnt (q : Pub) : Bool := decide (q.qos ≠ 0) && !q.pubrec && !q.complete

def cntNum (v : List Pub) : Nat := (v.filter Pub.cnt).length

theorem cntNum_append (a b : List Pub) : cntNum (a ++ b) = cntNum a + cntNum b := by simp [cntNum]

theorem cntNum_cons (q : Pub) (v : List Pub) : cntNum (q :: v) = (if q.cnt then 1 else 0) + cntNum v := by
  unfold cntNum
  rw [List.filter_cons]
  split <;> simp_all <;> omega

/-- The limits allow `n` messages in flight. -/
def Room (m rm n : Nat) : Prop := n < m ∧ (rm = 0 ∨ n < rm)

theorem Room.mono {m rm n k : Nat} (h : Room m rm n) (hk : k ≤ n) : Room m rm k := ⟨by have := h.1; omega, by rcases h.2 with h | h <;> omega⟩

/-- Messages which were sent are at the front. -/
def Pos (m rm : Nat) (v : List Pub) : Prop := ∀ v1 q v2, v = v1 ++ q :: v2 → q.cnt = true → q.attempted → Room m rm (cntNum v1 + 1)

theorem Pos.fresh {m rm : Nat} {v d : List Pub} (h : Pos m rm v) (hd : ∀ q ∈ d, ¬ q.attempted) : Pos m rm (v ++ d) := by
  intro v1 q v2 he hc ha
  rcases split_append he with ⟨k, hk⟩ | ⟨e1, hk, _⟩
  · exact h v1 q k hk hc ha
  · exact absurd ha (hd q (by rw [hk]; simp))

theorem Pos.map {m rm : Nat} {v : List Pub} (h : Pos m rm v) (f : Pub → Pub) (hf : ∀ q ∈ v, ((f q).cnt = true → q.cnt = true) ∧ ((f q).attempted → q.attempted)) :
    Pos m rm (v.map f) := by
  intro v1 q v2 he hc ha
  obtain ⟨u1, u2, rfl, h1, h2⟩ := List.map_eq_append_iff.mp he
  obtain ⟨p, u3, rfl, h3, h4⟩ := List.map_eq_cons_iff.mp h2
  subst h1 h3
  have hp := hf p (by simp)
  refine (h u1 p u3 rfl (hp.1 hc) (hp.2 ha)).mono ?_
  have : cntNum (u1.map f) ≤ cntNum u1 := by
    have hf1 : ∀ q ∈ u1, (f q).cnt = true → q.cnt = true := fun q hq => (hf q (by simp [hq])).1
    clear he h h2 hc ha h4 hf hp
    induction u1 with
    | nil => simp
    | cons x u ih =>
      rw [List.map_cons, cntNum_cons, cntNum_cons]
      have h1 := ih fun q hq => hf1 q (by simp [hq])
      have h2 := hf1 x (by simp)
      by_cases hx : (f x).cnt = true
      · rw [if_pos hx, if_pos (h2 hx)]; omega
      · rw [if_neg hx]; omega
  omega

theorem Pos.remove {m rm : Nat} {v1 v2 : List Pub} {p : Pub} (h : Pos m rm (v1 ++ p :: v2)) : Pos m rm (v1 ++ v2) := by
  intro u1 q u2 he hc ha
  rcases split_append he with ⟨k, rfl⟩ | ⟨e1, rfl, rfl⟩
  · exact h u1 q (k ++ p :: v2) (by simp) hc ha
  · refine (h (v1 ++ p :: e1) q u2 (by simp) hc ha).mono ?_
    rw [cntNum_append, cntNum_append, cntNum_cons]; omega

theorem Pos.replace {m rm : Nat} {v1 v2 : List Pub} {p q : Pub} (h : Pos m rm (v1 ++ p :: v2)) (hc : q.cnt = p.cnt)
    (ha : q.cnt = true → q.attempted → p.attempted ∨ Room m rm (cntNum v1 + 1)) : Pos m rm (v1 ++ q :: v2) := by
  intro u1 z u2 he hz hza
  rcases split_append he with ⟨k, rfl⟩ | ⟨e1, h1, rfl⟩
  · exact h u1 z (k ++ p :: v2) (by simp) hz hza
  · cases e1 with
    | nil =>
      simp only [List.nil_append, List.cons.injEq] at h1
      obtain ⟨rfl, rfl⟩ := h1
      rw [List.append_nil]
      rcases ha hz hza with h' | h'
      · exact h v1 p v2 rfl (by rw [← hc]; exact hz) h'
      · exact h'
    | cons y e1 =>
      simp only [List.cons_append, List.cons.injEq] at h1
      obtain ⟨rfl, rfl⟩ := h1
      have := h (v1 ++ p :: e1) z u2 (by simp) hz hza
      rw [cntNum_append, cntNum_cons] at this ⊢
      rw [hc]; exact this

/-- Every message in flight is in the queue. -/
structure Flying (h : List Ev) (v : List Pub) : Prop where
  nodup : (inFlight h).Nodup
  entry : ∀ id ∈ inFlight h, ∃ q ∈ v, q.id = id ∧ q.cnt = true ∧ q.attempted

theorem inFlight_snoc (h : List Ev) (e : Ev) : inFlight (h ++ [e]) = flightStep (inFlight h) e := by simp [inFlight]

theorem Flying.quiet1 {h : List Ev} {v : List Pub} (hf : Flying h v) {e : Ev} (he : flightStep (inFlight h) e = inFlight h) : Flying (h ++ [e]) v := by
  have := inFlight_snoc h e
  refine ⟨by rw [this, he]; exact hf.nodup, ?_⟩
  rw [this, he]; exact hf.entry

theorem Flying.quiet {v : List Pub} : ∀ (es h : List Ev), Flying h v → (∀ e ∈ es, ∀ l, flightStep l e = l) → Flying (h ++ es) v := by
  intro es
  induction es with
  | nil => intro h hf _; simpa using hf
  | cons e es ih =>
    intro h hf he
    have := ih (h ++ [e]) (hf.quiet1 (he e (by simp) _)) fun x hx => he x (by simp [hx])
    simpa using this

/-- The messages in flight are not more than the limits allow. -/
theorem Flying.bound {h : List Ev} {v : List Pub} {m rm : Nat} (hf : Flying h v) (hp : Pos m rm v) :
    inFlight h = [] ∨ Room m rm (inFlight h).length := by
  have hA : ∀ v : List Pub, Pos m rm v → (v.filter fun q => q.cnt && decide (q.lastAttempt ≠ 0 ∨ q.dup = true)).length = 0 ∨
      Room m rm (v.filter fun q => q.cnt && decide (q.lastAttempt ≠ 0 ∨ q.dup = true)).length := by
    intro v hp
    -- the last one
    generalize hA : (v.filter fun q => q.cnt && decide (q.lastAttempt ≠ 0 ∨ q.dup = true)) = A
    rcases List.eq_nil_or_concat A with rfl | ⟨A', q, rfl⟩
    · exact .inl rfl
    · right
      rw [List.concat_eq_append, List.filter_eq_append_iff] at hA
      obtain ⟨v1, v2, rfl, h1, h2⟩ := hA
      obtain ⟨w1, w2, hw, hw1, hw2, hw3⟩ := List.filter_eq_cons_iff.mp h2
      simp only [Bool.and_eq_true, decide_eq_true_eq] at hw2
      have := hp (v1 ++ w1) q w2 (by rw [hw]; simp) hw2.1 hw2.2
      refine this.mono ?_
      rw [List.concat_eq_append, List.length_append, ← h1]
      have : (v1.filter fun q => q.cnt && decide (q.lastAttempt ≠ 0 ∨ q.dup = true)).length ≤ cntNum v1 := by
        unfold cntNum
        rw [← List.countP_eq_length_filter, ← List.countP_eq_length_filter]
        exact List.countP_mono_left fun x _ hx => by simp only [Bool.and_eq_true] at hx; exact hx.1
      rw [cntNum_append]
      simp only [List.length_singleton]; omega
  have hlen : (inFlight h).length ≤ (v.filter fun q => q.cnt && decide (q.lastAttempt ≠ 0 ∨ q.dup = true)).length := by
    have hsub : ∀ n ∈ (inFlight h).map (·.toNat), n ∈ (v.filter fun q => q.cnt && decide (q.lastAttempt ≠ 0 ∨ q.dup = true)).map (·.id.toNat) := by
      intro n hn
      obtain ⟨id, hid, rfl⟩ := List.mem_map.mp hn
      obtain ⟨q, hq, h1, h2, h3⟩ := hf.entry id hid
      refine List.mem_map.mpr ⟨q, List.mem_filter.mpr ⟨hq, ?_⟩, by rw [h1]⟩
      simp only [Bool.and_eq_true, decide_eq_true_eq]
      exact ⟨h2, h3⟩
    have hnd : ((inFlight h).map (·.toNat)).Nodup := by
      rw [List.nodup_iff_pairwise_ne, List.pairwise_map]
      exact (List.nodup_iff_pairwise_ne.mp hf.nodup).imp fun hab e => hab (BitVec.eq_of_toNat_eq e)
    have := Slot.nodup_subset_length hnd hsub
    simpa using this
  rcases hA v hp with h0 | h0
  · exact .inl (List.eq_nil_of_length_eq_zero (by omega))
  · exact .inr (h0.mono hlen)


theorem Flying.replace {h : List Ev} {v1 v2 : List Pub} {p q : Pub} (hf : Flying h (v1 ++ p :: v2)) (hid : p.id ≠ 0 → q.id = p.id)
    (hc : q.cnt = p.cnt) (ha : p.attempted → q.attempted) (h0 : p.id = 0 → ¬ p.attempted) : Flying h (v1 ++ q :: v2) := by
  refine ⟨hf.nodup, fun id hi => ?_⟩
  obtain ⟨z, hz, e1, e2, e3⟩ := hf.entry id hi
  rcases List.mem_append.mp hz with hz | hz
  · exact ⟨z, by simp [hz], e1, e2, e3⟩
  · rcases List.mem_cons.mp hz with rfl | hz
    · exact ⟨q, by simp, (hid fun e => h0 e e3).trans e1, by rw [hc]; exact e2, ha e3⟩
    · exact ⟨z, by simp [hz], e1, e2, e3⟩

theorem Flying.remove {h : List Ev} {v1 v2 : List Pub} {p : Pub} (hf : Flying h (v1 ++ p :: v2)) (hc : p.cnt = false) : Flying h (v1 ++ v2) := by
  refine ⟨hf.nodup, fun id hi => ?_⟩
  obtain ⟨z, hz, e1, e2, e3⟩ := hf.entry id hi
  rcases List.mem_append.mp hz with hz | hz
  · exact ⟨z, by simp [hz], e1, e2, e3⟩
  · rcases List.mem_cons.mp hz with rfl | hz
    · rw [hc] at e2; cases e2
    · exact ⟨z, by simp [hz], e1, e2, e3⟩

theorem Flying.sent {h : List Ev} {v : List Pub} (hf : Flying h v) (now : Nat) (r : Pub)
    (hr : r.qos ≠ 0 → ∃ q ∈ v, q.id = r.id ∧ q.cnt = true ∧ q.attempted) : Flying (h ++ [.sent now (.publish r)]) v := by
  by_cases hc : r.qos = 0 ∨ r.id ∈ inFlight h
  · exact hf.quiet1 (by rw [flightStep, if_pos hc])
  · have e : inFlight (h ++ [.sent now (.publish r)]) = inFlight h ++ [r.id] := by rw [inFlight_snoc, flightStep, if_neg hc]
    refine ⟨?_, ?_⟩
    · rw [e, List.nodup_append]
      refine ⟨hf.nodup, by simp, ?_⟩
      rintro a ha b hb rfl
      simp only [List.mem_singleton] at hb
      exact hc (.inr (hb ▸ ha))
    · rw [e]
      intro id hi
      rcases List.mem_append.mp hi with hi | hi
      · exact hf.entry id hi
      · rw [List.mem_singleton.mp hi]; exact hr fun h => hc (.inl h)

theorem cnt_flags {p q : Pub} (h : SameFlags p q) : q.cnt = p.cnt := by
  unfold Pub.cnt Pub.complete
  rw [h.qos, h.pubrec, h.puback, h.pubcomp]
  by_cases h0 : p.qos = 0
  · simp [h0]
  · have : (p.qos == 0) = false := by simpa using h0
    rw [this]; simp

/-- The count goes up by one for a message which counts, and it is only sent if the limits allow. -/
theorem count_ready {s : Session} {now n : Nat} {id : BitVec 16} {p : Pub} (hok : ItemOk (.pub p)) (hc : p.complete = false) (hf : p.flagsOk)
    (hexp : s.broker = true → p.expiry = 0) :
    (processPub s now n (p.ready s now id)).2.2 = n + (if p.cnt then 1 else 0) ∧
    (¬ (p.ready s now id).held s now n → p.cnt = true → Room s.maxInFlight s.receiveMax (n + 1)) := by
  obtain ⟨f1, f2, f3, f4, f5, f6, f7, f8, f9, f10, f11, f12, f13⟩ := ready_fields s now id p
  have hpa : p.puback = false := by
    cases h : p.puback with
    | false => rfl
    | true => have := hf.1 h; simp [Pub.complete, this, h] at hc
  have hpc : p.pubcomp = false := by
    cases h : p.pubcomp with
    | false => rfl
    | true => have := hf.2 h; simp [Pub.complete, this, h] at hc
  have hcnt : (p.ready s now id).counts = p.cnt := by
    unfold Pub.counts Pub.cnt
    rw [f1, f2, f4, f6, f7, hok.1, hok.2.2.1, hpc, hc]
    by_cases h0 : p.qos = 0
    · simp [h0]
    · have : 0 < p.qos := by omega
      simp [h0, this]
  have hb : (s.broker && (p.ready s now id).expired now) = false := by
    cases hbr : s.broker with
    | false => rfl
    | true => unfold Pub.expired; rw [f13, hexp hbr]; rfl
  have hn : (if (p.ready s now id).counts then n + 1 else n) = n + (if p.cnt then 1 else 0) := by rw [hcnt]; split <;> simp
  refine ⟨?_, ?_⟩
  · unfold processPub
    rw [hb, if_neg (by simp), f3, f6, hpa, hpc, if_neg (by simp)]
    dsimp only
    rw [hn]
    generalize n + (if p.cnt then 1 else 0) = k
    split <;> rfl
  · intro hh hp
    have : ¬ s.full (n + 1) = true := by
      intro h
      refine hh (.inr (.inr (.inr (.inr (.inr ⟨by rw [f2]; exact hok.1, ?_⟩)))))
      rw [hn, if_pos hp]; exact h
    unfold Session.full at this
    simp only [Bool.or_eq_true, decide_eq_true_eq, Bool.and_eq_true, bne_iff_ne] at this
    unfold Room
    omega

theorem ready_attempted (s : Session) (now : Nat) (id : BitVec 16) (p : Pub) : (p.ready s now id).attempted ↔ p.attempted := by
  unfold Pub.ready Pub.retryReset Pub.attempted
  dsimp only
  split
  · next h => simp [h.1]
  · exact Iff.rfl

/-- What holds of each message. -/
def Plain (b : Bool) (q : Pub) : Prop := q.flagsOk ∧ (b = true → q.expiry = 0) ∧ (q.pubrec = true → q.qos = 2) ∧ (q.pubcomp = true → q.pubrec = true)

/-- What holds between the entries of a pass. -/
def Air (h : List Ev) (now : Nat) (s : Session) (l : List Item) (c : Ctx) : Prop :=
  Pos s.maxInFlight s.receiveMax (pubsOf l) ∧ Flying (h ++ c.sent.map (.sent now)) (pubsOf l) ∧
    ∀ q ∈ pubsOf l, Plain s.broker q

theorem air_step (h : List Ev) (s : Session) (now : Nat) (hnow : 0 < now) (tx : Nat → Tx) (done : List Item) (x : Item)
    (todo : List Item) (c : Ctx) (a : Act) (y : Item) (c' : Ctx) (hg : Good (idsOf done) (x :: todo) c.pool c.grace)
    (hJ : Air h now s (done ++ x :: todo) c) (hn : c.incomplete = cntNum (pubsOf done))
    (he : sendItem s now tx x c = some (a, y, c')) :
    Air h now s ((done ++ if a.give then [] else [y]) ++ todo) c' ∧
    (a.stop = false → c'.incomplete = cntNum (pubsOf (done ++ if a.give then [] else [y]))) := by
  cases x with
  | sub q =>
    obtain ⟨a', q', c'', he', hstep⟩ := sendSub_cases s now tx q c hg.inv
    simp only [sendItem, he', Option.map_some, Option.some.injEq, Prod.mk.injEq] at he
    obtain ⟨rfl, rfl, rfl⟩ := he
    have hv : pubsOf ((done ++ if a'.give then [] else [Item.sub q']) ++ todo) = pubsOf (done ++ .sub q :: todo) := by
      split <;> simp [pubsOf_append, pubsOf]
    have hv2 : pubsOf (done ++ if a'.give then [] else [Item.sub q']) = pubsOf done := by
      split <;> simp [pubsOf_append, pubsOf]
    unfold Air
    rw [hv, hv2]
    obtain ⟨h1, h2, h3⟩ := hJ
    cases hstep with
    | complete => exact ⟨⟨h1, h2, h3⟩, fun _ => hn⟩
    | noId => exact ⟨⟨h1, h2, h3⟩, fun _ => hn⟩
    | idle => exact ⟨⟨h1, h2, h3⟩, fun _ => hn⟩
    | failed => exact ⟨⟨h1, h2, h3⟩, fun _ => hn⟩
    | sent =>
      refine ⟨⟨h1, ?_, h3⟩, fun _ => hn⟩
      rw [List.map_append, ← List.append_assoc]
      exact h2.quiet1 rfl
  | pub p =>
    obtain ⟨a', q, c'', he', hstep⟩ := sendPub_cases s now tx p c hg.inv fun h0 => hg.live_head (x := .pub p) h0
    simp only [sendItem, he', Option.map_some, Option.some.injEq, Prod.mk.injEq] at he
    obtain ⟨rfl, rfl, rfl⟩ := he
    have hv0 : pubsOf (done ++ .pub p :: todo) = pubsOf done ++ p :: pubsOf todo := by simp [pubsOf_append, pubsOf]
    have hv : pubsOf ((done ++ if a'.give then [] else [Item.pub q]) ++ todo) = pubsOf done ++ ((if a'.give then [] else [q]) ++ pubsOf todo) := by
      split <;> simp [pubsOf_append, pubsOf]
    have hv2 : pubsOf (done ++ if a'.give then [] else [Item.pub q]) = pubsOf done ++ (if a'.give then [] else [q]) := by
      split <;> simp [pubsOf_append, pubsOf]
    unfold Air at hJ ⊢
    rw [hv0] at hJ
    rw [hv, hv2]
    obtain ⟨h1, h2, h3⟩ := hJ
    have hxok : ItemOk (.pub p) := hg.items _ List.mem_cons_self
    have h0 : p.id = 0 → ¬ p.attempted := not_attempted hxok
    obtain ⟨k1, k2, _, _, _, _⟩ := hstep.keeps
    obtain ⟨hpf, hpe, hpr, hpc⟩ := h3 p (by simp)
    have hsame : (∀ q', Plain s.broker q' → ∀ z ∈ pubsOf done ++ q' :: pubsOf todo, Plain s.broker z) ∧
        ∀ z ∈ pubsOf done ++ pubsOf todo, Plain s.broker z := by
      refine ⟨fun q' hq' z hz => ?_, fun z hz => ?_⟩
      · rcases List.mem_append.mp hz with hz | hz
        · exact h3 z (by simp [hz])
        · rcases List.mem_cons.mp hz with rfl | hz
          · exact hq'
          · exact h3 z (by simp [hz])
      · rcases List.mem_append.mp hz with hz | hz
        · exact h3 z (by simp [hz])
        · exact h3 z (by simp [hz])
    have hready : ∀ id t, Plain s.broker { p.ready s now id with lastAttempt := t } := by
      intro id t
      obtain ⟨f1, f2, f3, f4, f5, f6, f7, f8, f9, f10, f11, f12, f13⟩ := ready_fields s now id p
      unfold Plain Pub.flagsOk
      dsimp only
      rw [f1, f3, f4, f6, f13]
      exact ⟨hpf, hpe, hpr, hpc⟩
    have hcn := cnt_flags k1
    have hone : ∀ z : Pub, cntNum [z] = if z.cnt then 1 else 0 := fun z => by rw [cntNum_cons]; rfl
    cases hstep with
    | complete hc =>
      have hcf : p.cnt = false := by simp [Pub.cnt, hc]
      exact ⟨⟨h1.remove, h2.remove hcf, hsame.2⟩, fun _ => by simpa using hn⟩
    | noId hc hid hno =>
      have e : ({ p with lastAttempt := 0 } : Pub) = p := by
        have := (hxok.2.2.2 hid).1
        cases p; simp only at this; subst this; rfl
      rw [e]
      exact ⟨⟨h1, h2, h3⟩, fun h => by cases h⟩
    | @idle id pool hc hgot hh =>
      have hat := ready_attempted s now id p
      refine ⟨⟨h1.replace hcn fun _ ha => .inl (hat.mp ha), h2.replace k2 hcn hat.mpr h0, hsame.1 _ ?_⟩, fun _ => ?_⟩
      · have := hready id (p.ready s now id).lastAttempt
        exact this
      · dsimp only
        rw [(count_ready hxok hc hpf hpe).1, if_neg (show ¬ false = true by simp), cntNum_append, hone, hcn, hn]
    | @failed id pool w hc hgot hh hw htx =>
      refine ⟨⟨h1.replace hcn fun hz _ => .inr ?_, h2.replace k2 hcn (fun _ => .inl (show now ≠ 0 by omega)) h0, hsame.1 _ (hready id now)⟩, fun h => by cases h⟩
      rw [← hn]
      exact (count_ready hxok hc hpf hpe).2 hh (hcn ▸ hz)
    | @sent id pool w hc hgot hh hw htx =>
      have hatt : ({ p.ready s now id with lastAttempt := now } : Pub).attempted := .inl (show now ≠ 0 by omega)
      have hfl := h2.replace k2 hcn (fun _ => hatt) h0
      refine ⟨⟨h1.replace hcn fun hz _ => .inr ?_, ?_, hsame.1 _ (hready id now)⟩, fun _ => ?_⟩
      · rw [← hn]
        exact (count_ready hxok hc hpf hpe).2 hh (hcn ▸ hz)
      · rw [List.map_append, ← List.append_assoc]
        have hw1 : (p.ready s now id).toSend.1 = some w := by rw [hw]
        rcases toSend_wire hw1 with rfl | ⟨k, rfl⟩
        · refine hfl.sent now _ fun hq => ⟨{ p.ready s now id with lastAttempt := now }, by simp, rfl, ?_, hatt⟩
          rw [hcn]
          have hq' : p.qos ≠ 0 := by rw [← (ready_fields s now id p).1]; exact hq
          have hr : p.pubrec = false := by
            by_cases h2 : p.qos = 2
            · have := (toSend_publish hw1).2 (by rw [(ready_fields s now id p).1]; exact h2)
              rw [(ready_fields s now id p).2.2.2.1] at this; exact this
            · cases hr : p.pubrec with
              | false => rfl
              | true => exact absurd (hpr hr) h2
          simp [Pub.cnt, hq', hr, hc]
        · exact hfl.quiet1 rfl
      · dsimp only
        rw [(count_ready hxok hc hpf hpe).1, if_neg (show ¬ false = true by simp), cntNum_append, hone, hcn, hn]
    | @gone id pool w pool' hc hgot hh hw htx hr =>
      have hdel := toSend_del (p.ready s now id) (by rw [hw])
      have hw1 : (p.ready s now id).toSend.1 = some w := by rw [hw]
      rw [hdel.2.2, Option.some.injEq] at hw1
      subst hw1
      have hq0 : p.qos = 0 := by rw [← (ready_fields s now id p).1]; exact hdel.1
      have hcf : p.cnt = false := by simp [Pub.cnt, hq0]
      refine ⟨⟨h1.remove, ?_, hsame.2⟩, fun _ => ?_⟩
      · rw [List.map_append, ← List.append_assoc]
        exact (h2.remove hcf).sent now _ fun hq => absurd hdel.1 hq
      · dsimp only
        rw [(count_ready hxok hc hpf hpe).1, hcf]
        simpa using hn

/-! ## All operations -/

/-- The limits stay the same, and messages which a broker queues have no expiry time. -/
def Steady (b : Bool) (m rm : Nat) : Op → Prop
  | .init m' rm' _ _ _ => m' = m ∧ rm' = rm
  | .queue p => b = true → p.expiry = 0
  | .retained p => b = true → p.expiry = 0
  | _ => True

structure Flight (m rm : Nat) (h : List Ev) (s : Session) : Prop where
  lim : s.maxInFlight = m ∧ s.receiveMax = rm
  pos : Pos m rm (pubsOf s.toRemote)
  fly : Flying h (pubsOf s.toRemote)
  plain : ∀ q ∈ s.view, Plain s.broker q

theorem fresh_plain (b : Bool) (p : Pub) (h : b = true → p.expiry = 0) : Plain b (fresh p) :=
  ⟨⟨(nomatch ·), (nomatch ·)⟩, h, (nomatch ·), (nomatch ·)⟩

theorem fresh_quiet (p : Pub) : ¬ (fresh p).attempted := by
  rintro (h | h)
  · exact h rfl
  · cases h

theorem Flying.append {h : List Ev} {v : List Pub} (hf : Flying h v) (w : List Pub) : Flying h (v ++ w) :=
  ⟨hf.nodup, fun id hi => by obtain ⟨q, hq, r⟩ := hf.entry id hi; exact ⟨q, by simp [hq], r⟩⟩

theorem ackOnP_back (a : Ack) (q : Pub) : (q.puback = true → (ackOnP a q).puback = true) ∧
    ((ackOnP a q).pubcomp = true → q.pubcomp = true ∨ q.pubrec = true) := by
  unfold ackOnP
  split
  · unfold ackPub
    split
    · exact ⟨id, .inl⟩
    · split
      · exact ⟨id, .inl⟩
      · simp only [Option.map_some, Option.getD_some]
        unfold ackPubSame
        split
        · exact ⟨id, .inl⟩
        · split
          · exact ⟨id, .inl⟩
          · split
            · unfold ackPuback
              split
              · exact ⟨id, .inl⟩
              · rw [if_neg (by simp)]
                exact ⟨fun _ => rfl, .inl⟩
            · unfold ackPubcomp
              dsimp only
              split
              · exact ⟨id, (nomatch ·)⟩
              · next h => exact ⟨id, fun _ => .inr (by simp at h; exact h.2)⟩
            · exact ⟨id, .inl⟩
            · unfold ackPubrel
              split <;> exact ⟨id, .inl⟩
            · exact ⟨id, .inl⟩
  · exact ⟨id, .inl⟩

theorem ackOnP_plain (b : Bool) (a : Ack) (q : Pub) (hok : ItemOk (.pub q)) (hp : Plain b q) : Plain b (ackOnP a q) := by
  obtain ⟨a1, a2, a3, a4, a5, a6, a7, a8, a9⟩ := ackOnP_spec a q hok.1 hok.2.1
  obtain ⟨h1, h2, h3, h4⟩ := hp
  have hq : (ackOnP a q).qos = q.qos := by rw [a1]
  refine ⟨ackOnP_flags a q h1, fun hb => by rw [a1]; exact h2 hb, fun h => ?_, fun h => ?_⟩
  · rw [hq]
    rcases a9 h with h | ⟨_, _, h⟩
    · exact h3 h
    · exact h
  · rcases (ackOnP_back a q).2 h with h | h
    · exact a4 (h4 h)
    · exact a4 h

/-- An acknowledgement takes a message out of flight, or leaves it. -/
theorem ackOnP_cnt {b : Bool} (a : Ack) (q : Pub) (hok : ItemOk (.pub q)) (hp : Plain b q) :
    ((ackOnP a q).cnt = true → q.cnt = true) ∧ ((ackOnP a q).attempted ↔ q.attempted) ∧ (ackOnP a q).id = q.id ∧
    (q.cnt = true → q.id ≠ a.id ∨ (a.kind ≠ .puback ∧ a.kind ≠ .pubrec ∧ a.kind ≠ .pubcomp) → (ackOnP a q).cnt = true) := by
  obtain ⟨a1, a2, a3, a4, a5, a6, a7, a8, a9⟩ := ackOnP_spec a q hok.1 hok.2.1
  have hq : (ackOnP a q).qos = q.qos := by rw [a1]
  refine ⟨?_, by unfold Pub.attempted; rw [a1], by rw [a1], ?_⟩
  · unfold Pub.cnt
    rw [hq]
    simp only [Bool.and_eq_true, decide_eq_true_eq, Bool.not_eq_true']
    rintro ⟨⟨h1, h2⟩, h3⟩
    refine ⟨⟨h1, ?_⟩, ?_⟩
    · cases hr : q.pubrec with
      | false => rfl
      | true => rw [a4 hr] at h2; cases h2
    · cases hc : q.complete with
      | false => rfl
      | true =>
        exfalso
        have h12 : q.qos = 1 ∨ q.qos = 2 := by have := hok.2.1; omega
        rcases h12 with h12 | h12
        · have hpa : q.puback = true := by simpa [Pub.complete, h12] using hc
          have := (ackOnP_back a q).1 hpa
          simp [Pub.complete, hq, h12, this] at h3
        · have hpa : q.pubcomp = true := by simpa [Pub.complete, h12] using hc
          rw [a4 (hp.2.2.2 hpa)] at h2; cases h2
  · intro hc hk
    rcases hk with hk | hk
    · rw [a2 hk]; exact hc
    · unfold Pub.cnt at hc ⊢
      rw [hq]
      simp only [Bool.and_eq_true, decide_eq_true_eq, Bool.not_eq_true'] at hc ⊢
      obtain ⟨⟨h1, h2⟩, h3⟩ := hc
      refine ⟨⟨h1, ?_⟩, ?_⟩
      · cases hr : (ackOnP a q).pubrec with
        | false => rfl
        | true =>
          rcases a9 hr with h | ⟨_, h, _⟩
          · rw [h] at h2; cases h2
          · exact absurd h hk.2.1
      · cases hr : (ackOnP a q).complete with
        | false => rfl
        | true =>
          rcases a3 h1 hr with h | ⟨_, h⟩
          · rw [h] at h3; cases h3
          · exfalso
            unfold finalKind at h
            split at h
            · exact hk.1 h
            · exact hk.2.2 h


/-- An acknowledgement on all messages. -/
theorem Flying.ack {h : List Ev} {v : List Pub} {b : Bool} (hf : Flying h v) (a : Ack) (hok : ∀ q ∈ v, ItemOk (.pub q)) (hp : ∀ q ∈ v, Plain b q) :
    Flying (h ++ [.acked a]) (v.map (ackOnP a)) := by
  have e := inFlight_snoc h (.acked a)
  rw [flightStep] at e
  by_cases hk : a.kind = .puback ∨ a.kind = .pubrec ∨ a.kind = .pubcomp
  · rw [if_pos hk] at e
    refine ⟨by rw [e]; exact hf.nodup.filter _, ?_⟩
    rw [e]
    intro id hi
    rw [List.mem_filter] at hi
    obtain ⟨q, hq, e1, e2, e3⟩ := hf.entry id hi.1
    obtain ⟨c1, c2, c3, c4⟩ := ackOnP_cnt a q (hok q hq) (hp q hq)
    exact ⟨_, List.mem_map_of_mem hq, c3.trans e1, c4 e2 (.inl (by rw [e1]; simpa using hi.2)), c2.mpr e3⟩
  · rw [if_neg hk] at e
    refine ⟨by rw [e]; exact hf.nodup, ?_⟩
    rw [e]
    intro id hi
    obtain ⟨q, hq, e1, e2, e3⟩ := hf.entry id hi
    obtain ⟨c1, c2, c3, c4⟩ := ackOnP_cnt a q (hok q hq) (hp q hq)
    exact ⟨_, List.mem_map_of_mem hq, c3.trans e1, c4 e2 (.inr ⟨fun h => hk (.inl h), fun h => hk (.inr (.inl h)), fun h => hk (.inr (.inr h))⟩), c2.mpr e3⟩

theorem Flight.step {m rm : Nat} {h : List Ev} {s s' : Session} {op : Op} {o : Out} (hi : Inv s) (hv : Valid s.broker op)
    (hR : Steady s.broker m rm op) (he : step s op = some (s', o)) (hf : Flight m rm h s) : Flight m rm (h ++ events op o) s' := by
  have hok := view_ok hi
  obtain ⟨hlim, hpos, hfly, hplain⟩ := hf
  have hdq : ∀ d ∈ s.delayed, ¬ d.attempted := fun d hd => by rw [← (hi.delayed d hd).1]; exact fresh_quiet d
  have hstep := step_send s op hi hv s' o he
  cases hstep with
  | @queue p hq =>
    refine ⟨hlim, ?_, ?_, ?_⟩
    · dsimp only
      rw [pubsOf_append]
      refine hpos.fresh fun d hd => ?_
      simp only [pubsOf, List.mem_singleton] at hd
      rw [hd]; exact fresh_quiet p
    · dsimp only
      rw [pubsOf_append]
      exact (hfly.append _).quiet1 rfl
    · intro q hm
      simp only [Session.view, pubsOf_append, pubsOf, List.mem_append, List.mem_singleton] at hm
      rcases hm with (h | rfl) | h
      · exact hplain q (by simp [Session.view, h])
      · exact fresh_plain _ p hR
      · exact hplain q (by simp [Session.view, h])
  | @queueSub key unsub =>
    have : pubsOf (s.toRemote ++ [.sub { key := key, unsub := unsub }]) = pubsOf s.toRemote := by simp [pubsOf_append, pubsOf]
    refine ⟨hlim, ?_, ?_, ?_⟩
    · dsimp only; rw [this]; exact hpos
    · dsimp only; rw [this]; simpa [events] using hfly
    · intro q hm
      simp only [Session.view] at hm
      rw [this] at hm
      exact hplain q hm
  | @retained p hq =>
    refine ⟨hlim, hpos, hfly.quiet1 rfl, ?_⟩
    intro q hm
    simp only [Session.view, List.mem_append, List.mem_singleton] at hm
    rcases hm with h | h | rfl
    · exact hplain q (by simp [Session.view, h])
    · exact hplain q (by simp [Session.view, h])
    · exact fresh_plain _ p hR
  | @publish now p v tx _ l =>
    refine ⟨hlim, hpos, hfly.quiet _ _ ?_, hplain⟩
    intro e he l
    simp only [events, List.mem_cons, List.mem_append, List.mem_map] at he
    rcases he with rfl | ⟨_, _, rfl⟩ | ⟨_, _, rfl⟩ <;> rfl
  | @rel a v5 tx _ l ha hk =>
    refine ⟨hlim, hpos, hfly.quiet _ _ ?_, hplain⟩
    intro e he l
    simp only [events, List.mem_cons, List.mem_append, List.mem_map] at he
    rcases he with rfl | ⟨_, _, rfl⟩ | ⟨_, _, rfl⟩
    · rw [flightStep, if_neg (by rw [hk]; simp)]
    · rfl
    · rfl
  | @ack a v5 tx _ l ha hk hl =>
    have hok0 : ∀ q ∈ pubsOf s.toRemote, ItemOk (.pub q) := fun q hq => hok q (by simp [Session.view, hq])
    have hpl0 : ∀ q ∈ pubsOf s.toRemote, Plain s.broker q := fun q hq => hplain q (by simp [Session.view, hq])
    have gen : ∀ (b : Ack) (v : List Pub), b.id ≠ 0 → (∀ q ∈ v, ItemOk (.pub q)) → (∀ q ∈ v, Plain s.broker q) → Pos m rm v →
        Pos m rm (v.map (ackOnP b)) ∧ (∀ q ∈ v.map (ackOnP b), ItemOk (.pub q)) ∧ ∀ q ∈ v.map (ackOnP b), Plain s.broker q := by
      intro b v hb h1 h2 h3
      refine ⟨h3.map _ fun q hq => ?_, ?_, ?_⟩
      · have := ackOnP_cnt b q (h1 q hq) (h2 q hq)
        exact ⟨this.1, this.2.1.mp⟩
      · intro q' hq'
        obtain ⟨q, hq, rfl⟩ := List.mem_map.mp hq'
        have := (ackOn_ok b hb (.pub q) (h1 q hq)).2
        rwa [ackOn_pub] at this
      · intro q' hq'
        obtain ⟨q, hq, rfl⟩ := List.mem_map.mp hq'
        exact ackOnP_plain _ b q (h1 q hq) (h2 q hq)
    obtain ⟨g1, g2, g3⟩ := gen a _ ha hok0 hpl0 hpos
    have g4 := hfly.ack a hok0 hpl0
    have hquiet : ∀ e ∈ o.delivered.map Ev.delivered ++ o.sent.map Ev.answer, ∀ l, flightStep l e = l := by
      intro e he l
      simp only [List.mem_append, List.mem_map] at he
      rcases he with ⟨_, _, rfl⟩ | ⟨_, _, rfl⟩ <;> rfl
    have e1 : h ++ events (.ack a v5 tx) o = (h ++ [.acked a]) ++ (o.delivered.map Ev.delivered ++ o.sent.map Ev.answer) := by simp [events]
    have fin : Pos m rm (pubsOf l) ∧ Flying (h ++ [.acked a]) (pubsOf l) ∧ ∀ q ∈ pubsOf l, Plain s.broker q := by
      rcases hl with ⟨rfl, _⟩ | ⟨hkr, r, rfl⟩
      · rw [pubsOf_ack]; exact ⟨g1, g4, g3⟩
      · obtain ⟨k1, k2, k3⟩ := gen { kind := .pubrel, id := a.id, reason := r } _ ha g2 g3 g1
        rw [pubsOf_ack, pubsOf_ack]
        refine ⟨k1, ⟨g4.nodup, fun id hid => ?_⟩, k3⟩
        obtain ⟨q, hq, e1, e2, e3⟩ := g4.entry id hid
        obtain ⟨c1, c2, c3, c4⟩ := ackOnP_cnt { kind := .pubrel, id := a.id, reason := r } q (g2 q hq) (g3 q hq)
        exact ⟨_, List.mem_map_of_mem hq, c3.trans e1, c4 e2 (.inr (by simp)), c2.mpr e3⟩
    rw [e1]
    refine ⟨hlim, fin.1, fin.2.1.quiet _ _ hquiet, ?_⟩
    intro q hq
    rcases List.mem_append.mp hq with h | h
    · exact fin.2.2 q h
    · exact hplain q (by simp only [Session.view, List.mem_append]; exact .inr h)
  | @pass now tx _ l c e _ w2 hnow hp h1 h2 h3 h4 h5 h6 h7 h8 h9 h10 =>
    obtain ⟨d, t, k1, k2⟩ := pass_steps2 s now hnow tx
      (fun done todo c => Air h now s (done ++ todo) c ∧ c.incomplete = cntNum (pubsOf done)) (fun done todo c => Air h now s (done ++ todo) c)
      (fun _ _ _ h => h.1)
      (fun done x todo c a y c' g1 g2 g3 g4 _ => by
        obtain ⟨r1, r2⟩ := air_step h s now hnow tx done x todo c a y c' g1 g3.1 g3.2 g4
        exact ⟨r1, fun hs => ⟨r1, r2 hs⟩⟩)
      (s.toRemote ++ s.delayed.map Item.pub) [] { pool := s.pool, grace := s.grace, incomplete := 0, sent := [] } l c e
      (by simpa [idsOf] using delayed_good hi) (by simp) (by
        refine ⟨⟨?_, ?_, ?_⟩, rfl⟩
        · rw [List.nil_append, pubsOf_append, pubsOf_map, hlim.1, hlim.2]
          exact hpos.fresh hdq
        · rw [List.nil_append, pubsOf_append, pubsOf_map]
          simpa using hfly.append _
        · rw [List.nil_append, pubsOf_append, pubsOf_map]
          exact hplain) hp
    rw [← k1, List.nil_append] at k2
    obtain ⟨r1, r2, r3⟩ := k2
    have e1 : h ++ events (.pass now tx) o = (h ++ c.sent.map (Ev.sent now)) ++ w2.map (Ev.sent now) := by simp [events, h9]
    refine ⟨⟨h5.trans hlim.1, h6.trans hlim.2⟩, ?_, ?_, ?_⟩
    · rw [h1, ← hlim.1, ← hlim.2]; exact r1
    · rw [h1, e1]
      refine r2.quiet _ _ ?_
      intro e he l
      obtain ⟨x, hx, rfl⟩ := List.mem_map.mp he
      obtain ⟨id, rfl⟩ := h10 x hx
      rfl
    · rw [h3, Session.view, h1, h2, List.append_nil]; exact r3
  | tick => exact ⟨hlim, hpos, by simpa [events] using hfly, hplain⟩
  | keep => exact ⟨hR, hpos, by simpa [events] using hfly, hplain⟩
  | @clean m' r t g =>
    have hnone : ∀ q ∈ pubsOf (s.toRemote.filterMap preserved), ¬ q.attempted ∧ Plain s.broker q := by
      intro q' hq'
      rw [pubsOf_preserved, List.mem_filterMap] at hq'
      obtain ⟨q, hq, e⟩ := hq'
      split at e
      · cases e
        exact ⟨fresh_quiet q, fresh_plain _ q (hplain q (by simp [Session.view, hq])).2.1⟩
      · cases e
    refine ⟨hR, ?_, ⟨?_, ?_⟩, ?_⟩
    · intro v1 q v2 he _ ha
      have hm : q ∈ v1 ++ q :: v2 := by simp
      rw [← he] at hm
      exact absurd ha (hnone q hm).1
    · rw [show ∀ m r t g o, events (.init m r t g true) o = [.cleaned] from fun _ _ _ _ _ => rfl, inFlight_snoc]
      exact .nil
    · rw [show ∀ m r t g o, events (.init m r t g true) o = [.cleaned] from fun _ _ _ _ _ => rfl, inFlight_snoc]
      intro id hid
      cases hid
    · intro q hq
      rcases List.mem_append.mp hq with h | h
      · exact (hnone q h).2
      · exact hplain q (by simp only [Session.view, List.mem_append]; exact .inr h)

theorem flight_init (b : Bool) (m rm : Nat) : Flight m rm [] { broker := b, maxInFlight := m, receiveMax := rm } :=
  ⟨⟨rfl, rfl⟩, fun v1 q v2 h => by simp [pubsOf] at h, ⟨.nil, by simp [inFlight]⟩, by simp [Session.view, pubsOf]⟩

end Verif.Session
