import Verif.Session.RecvProps
/-!
# The queue to the remote and the history

Helper lemmas for the properties of the sending side.
-/
namespace Verif.Session
open Verif Spec

/-! ## Operations -/

/-- What an operation does with the queue to the remote. -/
inductive SendStep (s : Session) : Op → Out → Session → Prop
  | queue {p} : p.qos ≤ 2 → SendStep s (.queue p) {} { s with toRemote := s.toRemote ++ [.pub (fresh p)] }
  | queueSub {key unsub} : SendStep s (.queueSub key unsub) {} { s with toRemote := s.toRemote ++ [.sub { key := key, unsub := unsub }] }
  | retained {p} : p.qos ≤ 2 → SendStep s (.retained p) {} { s with delayed := s.delayed ++ [fresh p] }
  | publish {now p v tx o l} : SendStep s (.publish now p v tx) o { s with fromRemote := l }
  | rel {a v5 tx o l} : a.id ≠ 0 → a.kind = .pubrel → SendStep s (.ack a v5 tx) o { s with fromRemote := l }
  | ack {a v5 tx o l} : a.id ≠ 0 → a.kind ≠ .pubrel → AckedTo a s.toRemote l → SendStep s (.ack a v5 tx) o { s with toRemote := l }
  | pass {now tx o l c e s' w2} : 0 < now →
      pass (sendItem s now tx) (s.toRemote ++ s.delayed.map .pub) { pool := s.pool, grace := s.grace, incomplete := 0, sent := [] } = some (l, c, e) →
      s'.toRemote = l → s'.delayed = [] → s'.broker = s.broker → s'.retry = s.retry → s'.maxInFlight = s.maxInFlight →
      s'.receiveMax = s.receiveMax → s'.graceTime = s.graceTime → graceIds s'.grace = graceIds c.grace → o.sent = c.sent ++ w2 → (∀ x ∈ w2, ∃ id, x = .ack { kind := .pubrec, id := id }) →
      SendStep s (.pass now tx) o s'
  | tick {now pool g} : SendStep s (.tick now) {} { s with pool := pool, grace := g }
  | keep {m r t g} : SendStep s (.init m r t g false) {} { s with maxInFlight := m, receiveMax := r, retry := t, graceTime := g }
  | clean {m r t g} : SendStep s (.init m r t g true) {} (clean { s with maxInFlight := m, receiveMax := r, retry := t, graceTime := g })

theorem step_send (s : Session) (op : Op) (hi : Inv s) (hv : Valid s.broker op) (s' : Session) (o : Out) (he : step s op = some (s', o)) :
    SendStep s op o s' := by
  cases op with
  | queue p => cases he; exact .queue hv
  | queueSub key unsub => cases he; exact .queueSub
  | retained p => cases he; exact .retained hv
  | publish now p v tx =>
    obtain ⟨h, l, h1, h2, _⟩ := handlePublish_recv now p v tx s hi.recv hv.2.1
    simp only [step, h1, Option.map_some, Option.some.injEq, Prod.mk.injEq] at he
    obtain ⟨rfl, rfl⟩ := he
    rw [h2]; exact .publish
  | ack a v5 tx =>
    by_cases hk : a.kind = .pubrel
    · obtain ⟨h, l, h1, h2, _⟩ := handleAck_rel a hk v5 tx s hi.recv
      simp only [step, h1, Option.map_some, Option.some.injEq, Prod.mk.injEq] at he
      obtain ⟨rfl, rfl⟩ := he
      rw [h2]; exact .rel hv.1 hk
    · rcases handleAck_out a hv.1 hk v5 tx s hi.send with ⟨_, _, h3⟩ | ⟨h, l, h1, h2, h3, h4, h5⟩
      · simp [step, h3] at he
      · simp only [step, h1, Option.map_some, Option.some.injEq, Prod.mk.injEq] at he
        obtain ⟨rfl, rfl⟩ := he
        rw [h2]; exact .ack hv.1 hk h3
  | pass now tx =>
    obtain ⟨l, c, e, h1, h2, s2, w, ok, h3, h4, h5, h6, h7, h8, h9, h10, h11, h12, h12', w2, h13, h14⟩ := sendPass_spec now hv tx s hi
    simp only [step, h3, Option.map_some, Option.some.injEq, Prod.mk.injEq] at he
    obtain ⟨rfl, rfl⟩ := he
    exact .pass hv h1 h5 h6 h8 h9 h10 h11 h12 h12' h13 h14
  | tick now =>
    obtain ⟨pool', g', h1, h2, _⟩ := graceTick_good now s.grace [] s.toRemote s.pool hi.send
    simp only [step, h1, Option.map_some, Option.some.injEq, Prod.mk.injEq] at he
    obtain ⟨rfl, rfl⟩ := he
    exact .tick
  | init m r t g c =>
    cases c with
    | false => cases he; exact .keep
    | true => cases he; exact .clean

/-! ## A pass, entry by entry -/

/-- What holds before the first entry and is kept by each entry holds at the end. -/
theorem pass_steps (s : Session) (now : Nat) (hnow : 0 < now) (tx : Nat → Tx) (J : List Item → List Item → Ctx → Prop)
    (hstep : ∀ done x todo c a y c', Good (idsOf done) (x :: todo) c.pool c.grace → (∀ z ∈ done, ItemOk z) → J done (x :: todo) c →
      sendItem s now tx x c = some (a, y, c') → Good (idsOf done) (if a.give then todo else y :: todo) c'.pool c'.grace →
      J (done ++ if a.give then [] else [y]) todo c') :
    ∀ todo done c l' c' e, Good (idsOf done) todo c.pool c.grace → (∀ z ∈ done, ItemOk z) → J done todo c →
      pass (sendItem s now tx) todo c = some (l', c', e) → ∃ d t, done ++ l' = d ++ t ∧ J d t c' := by
  intro todo
  induction todo with
  | nil =>
    intro done c l' c' e _ _ hJ hp
    simp only [pass, Option.some.injEq, Prod.mk.injEq] at hp
    obtain ⟨rfl, rfl, rfl⟩ := hp
    exact ⟨done, [], rfl, hJ⟩
  | cons x todo ih =>
    intro done c l' c' e hg hok hJ hp
    obtain ⟨a, y, c1, he, hae, hg1⟩ := sendItem_good s now hnow tx (idsOf done) x todo c hg
    have hJ1 := hstep done x todo c a y c1 hg hok hJ he hg1
    rw [pass, he] at hp
    dsimp only at hp
    have hfin : done ++ (if a.give then todo else y :: todo) = (done ++ if a.give then [] else [y]) ++ todo := by
      split <;> simp
    split at hp
    · next herr =>
      cases hp
      have hgive := hae herr
      rw [hgive] at hJ1 hfin
      exact ⟨_, _, hfin, hJ1⟩
    · split at hp
      · cases hp
        exact ⟨_, _, hfin, hJ1⟩
      · cases hrec : pass (sendItem s now tx) todo c1 with
        | none => rw [hrec] at hp; cases hp
        | some r =>
          obtain ⟨l2, c2, e2⟩ := r
          rw [hrec] at hp
          simp only [Option.map_some, Option.some.injEq, Prod.mk.injEq] at hp
          obtain ⟨rfl, rfl, rfl⟩ := hp
          have hgd : Good (idsOf (done ++ if a.give then [] else [y])) todo c1.pool c1.grace := by
            by_cases hgive : a.give = true
            · rw [if_pos hgive] at hg1 ⊢; simpa using hg1
            · rw [if_neg hgive] at hg1 ⊢
              rw [idsOf_append]; exact ((good_cons _ _ _ _ _).mp hg1).2
          have hok1 : ∀ z ∈ done ++ (if a.give then [] else [y]), ItemOk z := by
            intro z hz
            rcases List.mem_append.mp hz with hz | hz
            · exact hok z hz
            · by_cases hgive : a.give = true
              · rw [if_pos hgive] at hz; simp at hz
              · rw [if_neg hgive] at hz hg1
                simp only [List.mem_singleton] at hz
                rw [hz]; exact hg1.items y List.mem_cons_self
          obtain ⟨d, t, h1, h2⟩ := ih _ c1 l2 c2 e2 hgd hok1 hJ1 hrec
          refine ⟨d, t, ?_, h2⟩
          rw [← h1]
          split <;> simp

/-! ## The messages in the queue -/

def pubsOf : List Item → List Pub
  | [] => []
  | .pub p :: l => p :: pubsOf l
  | .sub _ :: l => pubsOf l

theorem pubsOf_append (a b : List Item) : pubsOf (a ++ b) = pubsOf a ++ pubsOf b := by
  induction a with
  | nil => rfl
  | cons x a ih => cases x <;> simp [pubsOf, ih]

theorem pubsOf_map (l : List Pub) : pubsOf (l.map .pub) = l := by
  induction l with
  | nil => rfl
  | cons p l ih => simp [pubsOf, ih]

theorem mem_pubsOf {l : List Item} {p : Pub} : p ∈ pubsOf l ↔ .pub p ∈ l := by
  induction l with
  | nil => simp [pubsOf]
  | cons x l ih => cases x <;> simp [pubsOf, ih]

/-- All messages which wait to be sent or acknowledged. -/
def Session.view (s : Session) : List Pub := pubsOf s.toRemote ++ s.delayed

/-- An acknowledgement on a message. -/
def ackOnP (a : Ack) (p : Pub) : Pub := if p.id = a.id then ((ackPub a true 0 p).map (·.item)).getD p else p

theorem ackOn_pub (a : Ack) (p : Pub) : ackOn a (.pub p) = .pub (ackOnP a p) := by
  unfold ackOn ackOnP
  by_cases h : p.id = a.id
  · rw [if_pos (show (Item.pub p).id = a.id from h), if_pos h]
    unfold ackItem
    dsimp only
    cases ackPub a true 0 p <;> rfl
  · rw [if_neg (show ¬ (Item.pub p).id = a.id from h), if_neg h]

theorem ackOn_sub (a : Ack) (q : SubPkt) : ∃ q', ackOn a (.sub q) = .sub q' := by
  unfold ackOn
  split
  · exact ⟨_, rfl⟩
  · exact ⟨_, rfl⟩

theorem pubsOf_ack (a : Ack) (l : List Item) : pubsOf (l.map (ackOn a)) = (pubsOf l).map (ackOnP a) := by
  induction l with
  | nil => rfl
  | cons x l ih =>
    cases x with
    | pub p => rw [List.map_cons, ackOn_pub, pubsOf, pubsOf, List.map_cons, ih]
    | sub q =>
      obtain ⟨q', e⟩ := ackOn_sub a q
      rw [List.map_cons, e, pubsOf, pubsOf, ih]

/-- What an acknowledgement does with an outbound message. -/
theorem ackOnP_spec (a : Ack) (p : Pub) (hout : p.outbound = true) (hq : p.qos ≤ 2) :
    SameMsg p (ackOnP a p) ∧ (p.id ≠ a.id → ackOnP a p = p) ∧
    (p.qos ≠ 0 → (ackOnP a p).complete = true → p.complete = true ∨ (p.id = a.id ∧ a.kind = finalKind p.qos)) ∧
    (p.pubrec = true → (ackOnP a p).pubrec = true) ∧
    (a.kind = .pubrec → p.id = a.id → p.qos = 2 → a.reason = 0 → (ackOnP a p).pubrec = true) ∧
    ((ackOnP a p).pubrel = true → p.pubrel = true ∨ p.pubrec = true) ∧
    (a.kind = .pubrel → p.id = a.id → p.qos = 2 → p.pubrec = true → (ackOnP a p).pubrel = true) ∧
    (p.pubrel = true → (ackOnP a p).pubrel = true) ∧
    ((ackOnP a p).pubrec = true → p.pubrec = true ∨ (p.id = a.id ∧ a.kind = .pubrec ∧ p.qos = 2)) := by
  unfold ackOnP
  by_cases hid : p.id = a.id
  · rw [if_pos hid]
    unfold ackPub
    rw [if_neg (by simp [hid])]
    split
    · next hk => exact ⟨rfl, fun _ => rfl, fun _ h => .inl h, fun h => h, fun h => by rw [h] at hk; simp at hk, fun h => .inl h,
        fun h => by rw [h] at hk; simp at hk, fun h => h, fun h => .inl h⟩
    · simp only [Option.map_some, Option.getD_some]
      have same : SameMsg p p := rfl
      unfold ackPubSame
      split
      · next hc =>
        refine ⟨rfl, fun _ => rfl, fun _ h => .inl h, fun h => h, fun _ _ _ h => absurd h hc.2.1, fun h => .inl h, fun h => ?_, fun h => h, fun h => .inl h⟩
        rw [h] at hc; simp at hc
      · split
        · next hc => exact ⟨rfl, fun _ => rfl, fun _ h => .inl h, fun h => h, fun _ _ h => absurd h hc.2, fun h => .inl h, fun _ _ h => absurd h hc.2, fun h => h, fun h => .inl h⟩
        · next hc =>
          split
          · next hk =>
            unfold ackPuback
            split
            · exact ⟨rfl, fun _ => rfl, fun _ h => .inl h, fun h => h, fun h => (nomatch hk.symm.trans h), fun h => .inl h,
                fun h => (nomatch hk.symm.trans h), fun h => h, fun h => .inl h⟩
            · next hq1 =>
              rw [if_neg (by simp)]
              have hq1 : p.qos = 1 := by simpa using hq1
              exact ⟨rfl, fun h => absurd hid h, fun _ _ => .inr ⟨hid, by rw [hk, hq1]; rfl⟩, fun h => h, fun h => (nomatch hk.symm.trans h),
                fun h => .inl h, fun h => (nomatch hk.symm.trans h), fun h => h, fun h => .inl h⟩
          · next hk =>
            have hq2 : p.qos = 2 := by
              by_cases h2 : p.qos = 2
              · exact h2
              · exact absurd ⟨.inl hk, h2⟩ hc
            unfold ackPubcomp
            dsimp only
            split
            · refine ⟨rfl, fun h => absurd hid h, fun _ h => ?_, fun h => h, fun h => (nomatch hk.symm.trans h), fun h => .inl h,
                fun h => (nomatch hk.symm.trans h), fun h => h, fun h => .inl h⟩
              simp [Pub.complete, hq2] at h
            · exact ⟨rfl, fun h => absurd hid h, fun _ _ => .inr ⟨hid, by rw [hk, hq2]; rfl⟩, fun h => h, fun h => (nomatch hk.symm.trans h),
                fun h => .inl h, fun h => (nomatch hk.symm.trans h), fun h => h, fun h => .inl h⟩
          · next hk =>
            have hq2 : p.qos = 2 := by
              by_cases h2 : p.qos = 2
              · exact h2
              · exact absurd ⟨.inr (.inl hk), h2⟩ hc
            unfold ackPubrec
            exact ⟨rfl, fun h => absurd hid h, fun _ h => .inl h, fun _ => rfl, fun _ _ _ _ => rfl, fun h => .inl h,
              fun h => (nomatch hk.symm.trans h), fun h => h, fun _ => .inr ⟨hid, hk, hq2⟩⟩
          · next hk =>
            unfold ackPubrel
            split
            · next hn => exact ⟨rfl, fun _ => rfl, fun _ h => .inl h, fun h => h, fun h => (nomatch hk.symm.trans h), fun h => .inl h,
                fun _ _ _ h => by simp [h] at hn, fun h => h, fun h => .inl h⟩
            · next hn =>
              exact ⟨rfl, fun h => absurd hid h, fun _ h => .inl h, fun h => h, fun h => (nomatch hk.symm.trans h),
                fun _ => .inr (by simpa using hn), fun _ _ _ _ => rfl, fun _ => rfl, fun h => .inl h⟩
          · next h1 h2 h3 h4 =>
            exact ⟨rfl, fun _ => rfl, fun _ h => .inl h, fun h => h, fun h => absurd h h3, fun h => .inl h,
              fun h => absurd h h4, fun h => h, fun h => .inl h⟩
  · rw [if_neg hid]
    exact ⟨rfl, fun _ => rfl, fun _ h => .inl h, fun h => h, fun _ h => absurd h hid, fun h => .inl h, fun _ h => absurd h hid, fun h => h, fun h => .inl h⟩

end Verif.Session
