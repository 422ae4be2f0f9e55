import Verif.Session.SendHist
import Verif.Slot.Lemmas
/-!
# A pass sends what there is to send

Helper lemmas for the properties of the sending side.
-/
namespace Verif.Session
open Verif Spec

/-! ## Further things which are kept -/

/-- The state of the exchange is the same. -/
structure SameFlags (p q : Pub) : Prop where
  pubrec : q.pubrec = p.pubrec
  pubrel : q.pubrel = p.pubrel
  puback : q.puback = p.puback
  pubcomp : q.pubcomp = p.pubcomp
  qos : q.qos = p.qos
  expiry : q.expiry = p.expiry

/-- A property of messages which a pass at the time `now` keeps. -/
def Lasting (now : Nat) (F : Pub → Prop) : Prop :=
  ∀ p q : Pub, ItemOk (.pub p) → F p → SameFlags p q → (p.id ≠ 0 → q.id = p.id) →
    (q.lastAttempt = p.lastAttempt ∨ q.lastAttempt = 0 ∨ q.lastAttempt = now) → F q

theorem PubStep.keeps {s : Session} {now : Nat} {tx : Nat → Tx} {p q : Pub} {c c' : Ctx} {a : Act} (h : PubStep s now tx p c a q c') :
    SameFlags p q ∧ (p.id ≠ 0 → q.id = p.id) ∧
    (q.lastAttempt = p.lastAttempt ∨ q.lastAttempt = 0 ∨ q.lastAttempt = now) ∧
    (graceIds c'.grace).length ≤ (graceIds c.grace).length + (if a.give then 1 else 0) ∧ (∀ w ∈ c.sent, w ∈ c'.sent) ∧ c'.incomplete ≤ c.incomplete + 1 := by
  have hn : ∀ r : Pub, (processPub s now c.incomplete r).2.2 ≤ c.incomplete + 1 := by
    intro r
    have : (if r.counts then c.incomplete + 1 else c.incomplete) ≤ c.incomplete + 1 := by split <;> omega
    unfold processPub
    split
    · simp
    · split
      · simp
      · dsimp only
        generalize (if r.counts then c.incomplete + 1 else c.incomplete) = n at this ⊢
        split <;> exact this
  have hid : ∀ {id pool}, Got c.pool p.id id pool → p.id ≠ 0 → (p.ready s now id).id = p.id := by
    intro id pool hg h0
    rw [ready_id]
    rcases hg with ⟨_, g, _⟩ | ⟨g, _⟩
    · exact g
    · exact absurd g h0
  have hl : ∀ id, (p.ready s now id).lastAttempt = p.lastAttempt ∨ (p.ready s now id).lastAttempt = 0 := by
    intro id
    unfold Pub.ready Pub.retryReset
    split
    · exact .inr rfl
    · exact .inl rfl
  cases h with
  | complete hc => exact ⟨⟨rfl, rfl, rfl, rfl, rfl, rfl⟩, fun _ => rfl, .inl rfl, by simp only [graceIds_append, List.length_append]; exact Nat.add_le_add_left (List.length_filterMap_le _ _) _, fun w hw => hw, by simp⟩
  | noId hc h0 he => exact ⟨⟨rfl, rfl, rfl, rfl, rfl, rfl⟩, fun _ => rfl, .inr (.inl rfl), by simp, fun w hw => hw, by simp⟩
  | @idle id pool hc hg hh =>
    obtain ⟨h1, _, h3, h4, h5, h6, _, _, _, _, _, _, h13⟩ := ready_fields s now id p
    refine ⟨⟨h4, h5, h3, h6, h1, h13⟩, hid hg, ?_, by simp, fun w hw => hw, hn _⟩
    rcases hl id with h | h
    · exact .inl h
    · exact .inr (.inl h)
  | @sent id pool w hc hg hh hw htx =>
    obtain ⟨h1, _, h3, h4, h5, h6, _, _, _, _, _, _, h13⟩ := ready_fields s now id p
    exact ⟨⟨h4, h5, h3, h6, h1, h13⟩, hid hg, .inr (.inr rfl), by simp, fun w hw => by simp [hw], hn _⟩
  | @gone id pool w pool' hc hg hh hw htx hr =>
    obtain ⟨h1, _, h3, h4, h5, h6, _, _, _, _, _, _, h13⟩ := ready_fields s now id p
    exact ⟨⟨h4, h5, h3, h6, h1, h13⟩, hid hg, .inr (.inr rfl), by simp, fun w hw => by simp [hw], hn _⟩
  | @failed id pool w hc hg hh hw htx =>
    obtain ⟨h1, _, h3, h4, h5, h6, _, _, _, _, _, _, h13⟩ := ready_fields s now id p
    exact ⟨⟨h4, h5, h3, h6, h1, h13⟩, hid hg, .inr (.inr rfl), by simp, fun w hw => hw, hn _⟩

theorem SubStep.keeps {s : Session} {now : Nat} {tx : Nat → Tx} {p q : SubPkt} {c c' : Ctx} {a : Act} (h : SubStep s now tx p c a q c') :
    (graceIds c'.grace).length ≤ (graceIds c.grace).length + (if a.give then 1 else 0) ∧ (∀ w ∈ c.sent, w ∈ c'.sent) ∧ c'.incomplete ≤ c.incomplete + 1 := by
  cases h <;> simp_all [graceIds_append, graceIds, Item.poolId]

/-- The state of the queue between two entries of a pass. -/
theorem lasting_step (s : Session) (now : Nat) (tx : Nat → Tx) (F : Pub → Prop) (hF : Lasting now F) (N : Nat) (done : List Item) (x : Item)
    (todo : List Item) (c : Ctx) (a : Act) (y : Item) (c' : Ctx) (hg : Good (idsOf done) (x :: todo) c.pool c.grace)
    (hJ : (∀ q ∈ pubsOf (done ++ x :: todo), F q) ∧ (done ++ x :: todo).length + (graceIds c.grace).length ≤ N)
    (he : sendItem s now tx x c = some (a, y, c')) :
    (∀ q ∈ pubsOf ((done ++ if a.give then [] else [y]) ++ todo), F q) ∧
    ((done ++ if a.give then [] else [y]) ++ todo).length + (graceIds c'.grace).length ≤ N := by
  cases x with
  | sub q =>
    obtain ⟨a', q', c'', he', hstep⟩ := sendSub_cases s now tx q c hg.inv
    simp only [sendItem, he', Option.map_some, Option.some.injEq, Prod.mk.injEq] at he
    obtain ⟨rfl, rfl, rfl⟩ := he
    have k := hstep.keeps.1
    refine ⟨?_, ?_⟩
    · have hv : pubsOf ((done ++ if a'.give then [] else [Item.sub q']) ++ todo) = pubsOf (done ++ .sub q :: todo) := by
        split <;> simp [pubsOf_append, pubsOf]
      rw [hv]; exact hJ.1
    · have := hJ.2
      simp only [List.length_append, List.length_cons] at this ⊢
      split at k <;> simp_all <;> omega
  | pub p =>
    obtain ⟨a', q, c'', he', hstep⟩ := sendPub_cases s now tx p c hg.inv fun h0 => hg.live_head (x := .pub p) h0
    simp only [sendItem, he', Option.map_some, Option.some.injEq, Prod.mk.injEq] at he
    obtain ⟨rfl, rfl, rfl⟩ := he
    obtain ⟨k1, k3, k4, k5, _⟩ := hstep.keeps
    refine ⟨?_, ?_⟩
    · intro z hz
      have hold : ∀ z, z ∈ pubsOf done ∨ z ∈ pubsOf todo → F z := by
        intro z hz
        apply hJ.1
        rcases hz with h | h <;> simp [pubsOf_append, pubsOf, h]
      rw [pubsOf_append, pubsOf_append, List.mem_append, List.mem_append] at hz
      rcases hz with (hz | hz) | hz
      · exact hold z (.inl hz)
      · split at hz
        · cases hz
        · simp only [pubsOf, List.mem_singleton] at hz
          subst hz
          exact hF p z (hg.items _ List.mem_cons_self) (hJ.1 p (by simp [pubsOf_append, pubsOf])) k1 k3 k4
      · exact hold z (.inr hz)
    · have := hJ.2
      simp only [List.length_append, List.length_cons] at this ⊢
      split at k5 <;> simp_all <;> omega

theorem delayed_good {s : Session} (hi : Inv s) : Good [] (s.toRemote ++ s.delayed.map .pub) s.pool s.grace :=
  hi.send.append _ (by
    intro x hx
    obtain ⟨q, hq, rfl⟩ := List.mem_map.mp hx
    obtain ⟨hf, hq2⟩ := hi.delayed q hq
    have := fresh_ok q hq2
    rw [hf] at this
    exact ⟨this, by rw [← hf]; rfl⟩)

theorem lasting_pass {s : Session} (hi : Inv s) {now : Nat} (hnow : 0 < now) {tx : Nat → Tx} (F : Pub → Prop) (hF : Lasting now F) {N : Nat}
    {l : List Item} {c : Ctx} {e : Bool} (hp : pass (sendItem s now tx) (s.toRemote ++ s.delayed.map .pub)
      { pool := s.pool, grace := s.grace, incomplete := 0, sent := [] } = some (l, c, e)) (h1 : ∀ q ∈ s.view, F q)
    (h2 : s.toRemote.length + s.delayed.length + (graceIds s.grace).length ≤ N) : (∀ q ∈ pubsOf l, F q) ∧ l.length + (graceIds c.grace).length ≤ N := by
  obtain ⟨d, t, k1, k2⟩ := pass_steps s now hnow tx
    (fun done todo c => (∀ q ∈ pubsOf (done ++ todo), F q) ∧ (done ++ todo).length + (graceIds c.grace).length ≤ N)
    (fun done x todo c a y c' g1 g2 g3 g4 _ => lasting_step s now tx F hF N done x todo c a y c' g1 g3 g4)
    (s.toRemote ++ s.delayed.map Item.pub) [] { pool := s.pool, grace := s.grace, incomplete := 0, sent := [] } l c e
    (by simpa [idsOf] using delayed_good hi) (by simp) (by
      refine ⟨?_, by simpa using h2⟩
      intro q hq
      rw [List.nil_append, pubsOf_append, pubsOf_map] at hq
      exact h1 q hq) hp
  rw [← k1, List.nil_append] at k2
  exact k2

/-- The number of packets and the times of the attempts. -/
structure Tame (T N : Nat) (s : Session) : Prop where
  time : ∀ q ∈ s.view, q.lastAttempt ≤ T
  count : s.toRemote.length + s.delayed.length + (graceIds s.grace).length ≤ N

theorem ackOnP_last (a : Ack) (q : Pub) (hok : ItemOk (.pub q)) : (ackOnP a q).lastAttempt = q.lastAttempt := by
  rw [(ackOnP_spec a q hok.1 hok.2.1).1]

theorem graceTick_length (now : Nat) : ∀ (l : List Item) (pool pool' : IdPool.Pool) (l' : List Item), graceTick now pool l = some (pool', l') →
    (graceIds l').length ≤ (graceIds l).length := by
  intro l
  induction l with
  | nil => intro pool pool' l' h; simp [graceTick] at h; simp [h.2.symm]
  | cons x l ih =>
    intro pool pool' l' h
    rw [graceTick] at h
    split at h
    · cases h
    · split at h
      · cases hr : releaseItem pool x with
        | none => rw [hr] at h; cases h
        | some p =>
          rw [hr] at h
          have := ih p pool' l' h
          rw [show x :: l = [x] ++ l from rfl, graceIds_append, List.length_append]; omega
      · cases h; simp

theorem Tame.step {T N : Nat} {s s' : Session} {op : Op} {o : Out} (hi : Inv s) (hv : Valid s.broker op) (he : step s op = some (s', o))
    (ht : Tame T N s) (hT : ∀ now tx, op = .pass now tx → now ≤ T) : Tame T (N + queueings [op]) s' := by
  have hok := view_ok hi
  have htick : ∀ now, op = .tick now → (graceIds s'.grace).length ≤ (graceIds s.grace).length := by
    rintro now rfl
    simp only [Session.step] at he
    cases hg : graceTick now s.pool s.grace with
    | none => rw [hg] at he; cases he
    | some r =>
      obtain ⟨p, g⟩ := r
      rw [hg] at he
      simp only [Option.map_some, Option.some.injEq, Prod.mk.injEq] at he
      obtain ⟨rfl, _⟩ := he
      exact graceTick_length now _ _ _ _ hg
  have hstep := step_send s op hi hv s' o he
  have htime := ht.time
  have hcount := ht.count
  cases hstep with
  | @queue p hq =>
    refine ⟨?_, by simp [queueings]; omega⟩
    intro q hm
    simp only [Session.view, pubsOf_append, pubsOf, List.mem_append, List.mem_singleton] at hm htime
    rcases hm with (h | rfl) | h
    · exact htime q (.inl h)
    · simp [fresh]
    · exact htime q (.inr h)
  | @queueSub key unsub =>
    refine ⟨?_, by simp [queueings]; omega⟩
    intro q hm
    simp only [Session.view, pubsOf_append, pubsOf, List.mem_append, List.not_mem_nil, or_false] at hm htime
    exact htime q hm
  | @retained p hq =>
    refine ⟨?_, by simp [queueings]; omega⟩
    intro q hm
    simp only [Session.view, List.mem_append, List.mem_singleton] at hm htime
    rcases hm with h | h | rfl
    · exact htime q (.inl h)
    · exact htime q (.inr h)
    · simp [fresh]
  | publish => exact ⟨htime, hcount⟩
  | rel => exact ⟨htime, hcount⟩
  | @ack a v5 tx _ l ha hk hl =>
    have h1 : ∀ b : Ack, ∀ l : List Item, (∀ q ∈ pubsOf l, ItemOk (.pub q) ∧ q.lastAttempt ≤ T) → b.id ≠ 0 →
        ∀ q ∈ pubsOf (l.map (ackOn b)), ItemOk (.pub q) ∧ q.lastAttempt ≤ T := by
      intro b l hl hb q' hq'
      rw [pubsOf_ack] at hq'
      obtain ⟨q, hq, rfl⟩ := List.mem_map.mp hq'
      have := (ackOn_ok b hb (.pub q) (hl q hq).1).2
      rw [ackOn_pub] at this
      exact ⟨this, by rw [ackOnP_last b q (hl q hq).1]; exact (hl q hq).2⟩
    have h0 : ∀ q ∈ pubsOf s.toRemote, ItemOk (.pub q) ∧ q.lastAttempt ≤ T := fun q hq =>
      ⟨hok q (by simp [Session.view, hq]), htime q (by simp [Session.view, hq])⟩
    have h2 : (∀ q ∈ pubsOf l, ItemOk (.pub q) ∧ q.lastAttempt ≤ T) ∧ l.length = s.toRemote.length := by
      rcases hl with ⟨rfl, _⟩ | ⟨_, r, rfl⟩
      · exact ⟨h1 a _ h0 ha, by simp⟩
      · exact ⟨h1 _ _ (h1 a _ h0 ha) ha, by simp⟩
    refine ⟨?_, by simpa [queueings, h2.2] using hcount⟩
    intro q hq
    rcases List.mem_append.mp hq with h | h
    · exact (h2.1 q h).2
    · exact htime q (by simp [Session.view, h])
  | @pass now tx _ l c e _ w2 hnow hp h1 h2 h3 h4 h5 h6 h7 h8 h9 h10 =>
    obtain ⟨k1, k2⟩ := lasting_pass hi hnow (fun q => q.lastAttempt ≤ T) (by
      intro p q _ hp _ _ h
      have := hT now tx rfl
      rcases h with h | h | h <;> omega) hp htime hcount
    refine ⟨?_, ?_⟩
    · intro q hq
      rw [Session.view, h1, h2, List.append_nil] at hq
      exact k1 q hq
    · rw [h1, h2, h8]; simpa [queueings] using k2
  | tick => exact ⟨htime, by have := htick _ rfl; simp [queueings] at this ⊢; omega⟩
  | keep => exact ⟨htime, hcount⟩
  | @clean m r t g =>
    refine ⟨?_, ?_⟩
    · intro q' hq'
      simp only [Session.view, clean, pubsOf_preserved, List.mem_append, List.mem_filterMap] at hq'
      rcases hq' with ⟨q, hq, e⟩ | h
      · split at e
        · cases e; exact Nat.zero_le _
        · cases e
      · exact htime q' (by simp [Session.view, h])
    · have := List.length_filterMap_le preserved s.toRemote
      simp only [clean, queueings, graceIds, List.filterMap_nil, List.length_nil]
      omega

theorem queueings_cons (op : Op) (ops : List Op) : queueings (op :: ops) = queueings [op] + queueings ops := by
  cases op <;> simp [queueings, Nat.add_comm]

theorem run_tame {T : Nat} : ∀ (ops : List Op) (s : Session) (N : Nat), Inv s → (∀ op ∈ ops, Valid s.broker op) →
    (∀ now tx, .pass now tx ∈ ops → now ≤ T) → Tame T N s → ∀ s' outs, run s ops = some (s', outs) → Tame T (N + queueings ops) s' := by
  intro ops
  induction ops with
  | nil =>
    intro s N _ _ _ ht s' outs hr
    simp only [run, Option.some.injEq, Prod.mk.injEq] at hr
    rw [← hr.1]; exact ht
  | cons op ops ih =>
    intro s N hi hv hT ht s' outs hr
    rw [run] at hr
    cases he : step s op with
    | none => rw [he] at hr; cases hr
    | some r =>
      obtain ⟨s1, o⟩ := r
      rw [he] at hr
      dsimp only at hr
      cases hr1 : run s1 ops with
      | none => rw [hr1] at hr; cases hr
      | some r =>
        obtain ⟨s2, rs⟩ := r
        rw [hr1] at hr
        simp only [Option.map_some, Option.some.injEq, Prod.mk.injEq] at hr
        obtain ⟨rfl, rfl⟩ := hr
        have h1 := ht.step hi (hv op (by simp)) he fun now tx e => hT now tx (by simp [e])
        rcases step_inv s op hi (hv op (by simp)) with ⟨_, hb⟩ | ⟨s1', o', e, hi', hb, _⟩
        · rw [he] at hb; cases hb
        · rw [he] at e
          cases e
          have := ih s1 _ hi' (fun x hx => by rw [hb]; exact hv x (by simp [hx])) (fun now tx hm => hT now tx (by simp [hm])) h1 _ _ hr1
          rw [queueings_cons, ← Nat.add_assoc]; exact this

/-! ## PUBREC and PUBREL belong together -/

/-- Acknowledgements are noted with messages of their kind only. -/
def Pub.flagsOk (q : Pub) : Prop := (q.puback = true → q.qos = 1) ∧ (q.pubcomp = true → q.qos = 2)

/-- A message for which a PUBREC has arrived has its PUBREL noted. -/
def Paired (h : List Ev) (s : Session) : Prop :=
  ∀ q ∈ s.view, q.flagsOk ∧ q.pubrec = q.pubrel ∧ (q.pubrec = true → ∃ c, .acked c ∈ h ∧ c.kind = .pubrec ∧ c.id = q.id)

theorem ackOnP_flags (a : Ack) (q : Pub) (h : q.flagsOk) : (ackOnP a q).flagsOk := by
  unfold ackOnP
  split
  · unfold ackPub
    split
    · exact h
    · split
      · exact h
      · simp only [Option.map_some, Option.getD_some]
        unfold ackPubSame
        split
        · exact h
        · split
          · exact h
          · next hc =>
            have hq2 : (a.kind = .pubcomp ∨ a.kind = .pubrec ∨ a.kind = .pubrel) → q.qos = 2 := fun hk => by
              apply Classical.byContradiction
              exact fun hn => hc ⟨hk, hn⟩
            split
            · unfold ackPuback
              split
              · exact h
              · next hq1 =>
                rw [if_neg (by simp)]
                exact ⟨fun _ => by simpa using hq1, h.2⟩
            · next hk =>
              unfold ackPubcomp
              dsimp only
              split
              · exact ⟨h.1, fun h => by cases h⟩
              · exact ⟨h.1, fun _ => hq2 (.inl hk)⟩
            · exact h
            · unfold ackPubrel
              split <;> exact h
            · exact h
  · exact h

theorem Paired.step {h : List Ev} {s s' : Session} {op : Op} {o : Out} (hi : Inv s) (hv : Valid s.broker op) (he : step s op = some (s', o))
    (hp : Paired h s) : Paired (h ++ events op o) s' := by
  have hok := view_ok hi
  have old : ∀ q ∈ s.view, q.flagsOk ∧ q.pubrec = q.pubrel ∧ (q.pubrec = true → ∃ c, .acked c ∈ h ++ events op o ∧ c.kind = .pubrec ∧ c.id = q.id) := by
    intro q hq
    refine ⟨(hp q hq).1, (hp q hq).2.1, fun hr => ?_⟩
    obtain ⟨c, h1, h2⟩ := (hp q hq).2.2 hr
    exact ⟨c, by simp [h1], h2⟩
  have hstep := step_send s op hi hv s' o he
  cases hstep with
  | @queue p hq =>
    intro q hm
    simp only [Session.view, pubsOf_append, pubsOf, List.mem_append, List.mem_singleton] at hm
    rcases hm with (h | rfl) | h
    · exact old q (by simp [Session.view, h])
    · exact ⟨⟨(nomatch ·), (nomatch ·)⟩, rfl, (nomatch ·)⟩
    · exact old q (by simp [Session.view, h])
  | @queueSub key unsub =>
    intro q hm
    simp only [Session.view, pubsOf_append, pubsOf, List.mem_append, List.not_mem_nil, or_false] at hm
    exact old q (by simpa [Session.view] using hm)
  | @retained p hq =>
    intro q hm
    simp only [Session.view, List.mem_append, List.mem_singleton] at hm
    rcases hm with h | h | rfl
    · exact old q (by simp [Session.view, h])
    · exact old q (by simp [Session.view, h])
    · exact ⟨⟨(nomatch ·), (nomatch ·)⟩, rfl, (nomatch ·)⟩
  | publish => exact old
  | rel => exact old
  | @ack a v5 tx _ l ha hk hl =>
    intro q' hq'
    rcases List.mem_append.mp hq' with hq' | hq'
    · rcases hl with ⟨rfl, hrec⟩ | ⟨hrec, r, rfl⟩
      · by_cases hka : a.kind = .pubrec
        · have hl := hrec hka
          dsimp only at hq'
          rw [hl] at hq'
          exact old q' (by simp [Session.view, hq'])
        · dsimp only at hq'
          rw [pubsOf_ack] at hq'
          obtain ⟨q, hq, rfl⟩ := List.mem_map.mp hq'
          have hqv : q ∈ s.view := by simp [Session.view, hq]
          obtain ⟨a1, a2, a3, a4, a5, a6, a7, a8, a9⟩ := ackOnP_spec a q (hok q hqv).1 (hok q hqv).2.1
          have hid : (ackOnP a q).id = q.id := by rw [a1]
          obtain ⟨o0, o1, o2⟩ := old q hqv
          have hback : (ackOnP a q).pubrec = true → q.pubrec = true := by
            intro h
            rcases a9 h with h | ⟨_, h, _⟩
            · exact h
            · exact absurd h hka
          refine ⟨ackOnP_flags a q o0, ?_, fun h => by rw [hid]; exact o2 (hback h)⟩
          rw [Bool.eq_iff_iff]
          constructor
          · intro h; exact a8 (o1 ▸ hback h)
          · intro h
            rcases a6 h with h | h
            · exact a4 (o1 ▸ h)
            · exact a4 h
      · dsimp only at hq'
        rw [pubsOf_ack, pubsOf_ack, List.map_map] at hq'
        obtain ⟨q, hq, rfl⟩ := List.mem_map.mp hq'
        have hqv : q ∈ s.view := by simp [Session.view, hq]
        obtain ⟨a1, a2, a3, a4, a5, a6, a7, a8, a9⟩ := ackOnP_spec a q (hok q hqv).1 (hok q hqv).2.1
        have hid : (ackOnP a q).id = q.id := by rw [a1]
        have hok1 : ItemOk (.pub (ackOnP a q)) := by
          have := (ackOn_ok a ha (.pub q) (hok q hqv)).2
          rwa [ackOn_pub] at this
        obtain ⟨b1, b2, b3, b4, b5, b6, b7, b8, b9⟩ := ackOnP_spec { kind := .pubrel, id := a.id, reason := r } (ackOnP a q) hok1.1 hok1.2.1
        have hqos : (ackOnP a q).qos = q.qos := by rw [a1]
        obtain ⟨o0, o1, o2⟩ := old q hqv
        simp only [Function.comp]
        have hfwd : (ackOnP { kind := .pubrel, id := a.id, reason := r } (ackOnP a q)).pubrec = true → (ackOnP a q).pubrec = true := by
          intro h
          rcases b9 h with h | ⟨_, h, _⟩
          · exact h
          · cases h
        have hid2 : (ackOnP { kind := .pubrel, id := a.id, reason := r } (ackOnP a q)).id = q.id := by rw [b1]; exact hid
        refine ⟨ackOnP_flags _ _ (ackOnP_flags a q o0), ?_, fun h => ?_⟩
        · rw [Bool.eq_iff_iff]
          constructor
          · intro h
            rcases a9 (hfwd h) with h' | ⟨i, _, i2⟩
            · exact b8 (a8 (o1 ▸ h'))
            · exact b7 rfl (hid.trans i) (hqos.trans i2) (hfwd h)
          · intro h
            rcases b6 h with h | h
            · rcases a6 h with h | h
              · exact b4 (a4 (o1 ▸ h))
              · exact b4 (a4 h)
            · exact b4 h
        · rw [hid2]
          rcases a9 (hfwd h) with h' | ⟨i, _, _⟩
          · exact o2 h'
          · exact ⟨a, by simp [events], hrec, i.symm⟩
    · exact old q' (by simp [Session.view]; exact .inr hq')
  | @pass now tx _ l c e _ w2 hnow hp' h1 h2 h3 h4 h5 h6 h7 h8 h9 h10 =>
    have := (lasting_pass hi hnow
      (fun q => q.flagsOk ∧ q.pubrec = q.pubrel ∧ (q.pubrec = true → ∃ c, .acked c ∈ h ++ events (.pass now tx) o ∧ c.kind = .pubrec ∧ c.id = q.id)) (by
        intro p q hpk hF e1 e3 _
        rw [e1.pubrec, e1.pubrel]
        refine ⟨?_, hF.2.1, fun hr => ?_⟩
        · unfold Pub.flagsOk
          rw [e1.puback, e1.pubcomp, e1.qos]
          exact hF.1
        rw [e3]
        · exact hF.2.2 hr
        · intro h0
          rw [(hpk.2.2.2 h0).2.2.1] at hr
          cases hr) hp' old (Nat.le_refl _)).1
    intro q hq
    rw [Session.view, h1, h2, List.append_nil] at hq
    exact this q hq
  | tick => exact old
  | keep => exact old
  | @clean m r t g =>
    intro q' hq'
    simp only [Session.view, clean, pubsOf_preserved, List.mem_append, List.mem_filterMap] at hq'
    rcases hq' with ⟨q, hq, e⟩ | h
    · split at e
      · cases e; exact ⟨⟨(nomatch ·), (nomatch ·)⟩, rfl, (nomatch ·)⟩
      · cases e
    · exact old q' (by simp [Session.view, h])

/-! ## What a pass sends -/

theorem room {others : List (BitVec 16)} {l : List Item} {pool pool' : IdPool.Pool} {g : List Item} (h : Good others l pool g)
    (hn : others.length + l.length + (graceIds g).length < 65535) : IdPool.getId true pool ≠ (.exhausted, pool') := by
  intro he
  rcases getId_cases pool h.inv with ⟨n, p', e, _⟩ | ⟨p', e, hall, _⟩
  · rw [he] at e; cases e
  · have hsub : ∀ k ∈ List.range' 1 65535, k ∈ (others ++ (idsOf l ++ graceIds g)).map (·.toNat) := by
      intro k hk
      rw [List.mem_range'_1] at hk
      have hkl := hall k hk.1 (by omega)
      have hk16 : (BitVec.ofNat 16 k).toNat = k := by simp; omega
      have hk0 : BitVec.ofNat 16 k ≠ 0 := by
        intro h0
        rw [h0] at hk16
        simp at hk16
        omega
      have := (h.live (BitVec.ofNat 16 k) hk0).mp (by rw [hk16]; exact hkl)
      exact List.mem_map.mpr ⟨_, this, hk16⟩
    have hlen := Slot.nodup_subset_length (List.nodup_range' (s := 1) (n := 65535)) hsub
    rw [List.length_range', List.length_map, List.length_append, List.length_append] at hlen
    have : (idsOf l).length ≤ l.length := by
      unfold idsOf
      exact Nat.le_trans (List.length_filter_le _ _) (by simp)
    omega

/-- There is something to send for a message which is not complete. -/
theorem toSend_some {q : Pub} (hok : ItemOk (.pub q)) (hc : q.complete = false) (hp : q.pubrec = q.pubrel) (hq : q.qos ≠ 0) :
    q.toSend.1 = some (.publish q) ∨ (q.qos = 2 ∧ q.pubrec = true ∧ q.toSend.1 = some (.ack { kind := .pubrel, id := q.id })) := by
  have h2 : q.qos = 1 ∨ q.qos = 2 := by have := hok.2.1; omega
  unfold Pub.toSend
  rcases h2 with h2 | h2
  · rw [if_pos ⟨.inr h2, hok.1⟩]; exact .inl rfl
  · rw [if_neg (by omega), if_pos h2, if_pos hok.1]
    have hcomp : q.pubcomp = false := by simpa [Pub.complete, h2] using hc
    cases hr : q.pubrec with
    | true => rw [if_pos (by rw [← hp, hr, hcomp]; rfl)]; exact .inr ⟨h2, rfl, rfl⟩
    | false => rw [if_neg (by rw [← hp, hr, hcomp]; simp), if_pos (by rfl)]; exact .inl rfl

/-- Everything which is due is sent, if all transmissions succeed and there is room. -/
theorem elapsed_eq {now t : Nat} (h : t ≤ now) (h64 : now < 2 ^ 64) : elapsed now t = now - t := by
  unfold elapsed; omega

theorem pass_sends (s : Session) (now : Nat) (hnow : 0 < now) (h64 : now < 2 ^ 64) : ∀ (todo : List Item) (others : List (BitVec 16)) (c : Ctx) (l' : List Item) (c' : Ctx) (e : Bool),
    Good others todo c.pool c.grace → others.length + todo.length + (graceIds c.grace).length < 65535 →
    c.incomplete + todo.length < s.maxInFlight → (s.receiveMax = 0 ∨ c.incomplete + todo.length < s.receiveMax) →
    pass (sendItem s now fun _ => .ok) todo c = some (l', c', e) →
    (∀ w ∈ c.sent, w ∈ c'.sent) ∧
    ∀ p, .pub p ∈ todo → p.qos ≠ 0 → p.complete = false → p.flagsOk → p.pubrec = p.pubrel → p.lastAttempt + s.retry < now →
      (s.broker = true → p.expired now = false) →
      ∃ w ∈ c'.sent, (∃ r, w = .publish r ∧ SameContent p r) ∨
        (p.qos = 2 ∧ p.pubrec = true ∧ w = .ack { kind := .pubrel, id := p.id }) := by
  intro todo
  induction todo with
  | nil =>
    intro others c l' c' e _ _ _ _ hp
    simp only [pass, Option.some.injEq, Prod.mk.injEq] at hp
    obtain ⟨rfl, rfl, rfl⟩ := hp
    exact ⟨fun w hw => hw, by simp⟩
  | cons x todo ih =>
    intro others c l' c' e hg hroom hmax hrecv hp
    obtain ⟨a, y, c1, he, hae, hg1⟩ := sendItem_good s now hnow (fun _ => .ok) others x todo c hg
    have hstop : a.stop = false ∧ a.err = false ∧ (graceIds c1.grace).length ≤ (graceIds c.grace).length + (if a.give then 1 else 0) ∧
        (∀ w ∈ c.sent, w ∈ c1.sent) ∧ c1.incomplete ≤ c.incomplete + 1 ∧
        ∀ p, x = .pub p → p.qos ≠ 0 → p.complete = false → p.flagsOk → p.pubrec = p.pubrel → p.lastAttempt + s.retry < now →
          (s.broker = true → p.expired now = false) → ∃ w ∈ c1.sent, (∃ r, w = .publish r ∧ SameContent p r) ∨
            (p.qos = 2 ∧ p.pubrec = true ∧ w = .ack { kind := .pubrel, id := p.id }) := by
      cases x with
      | sub q =>
        obtain ⟨a', q', c'', he', hstep⟩ := sendSub_cases s now (fun _ => .ok) q c hg.inv
        simp only [sendItem, he', Option.map_some, Option.some.injEq, Prod.mk.injEq] at he
        obtain ⟨rfl, rfl, rfl⟩ := he
        obtain ⟨k1, k2, k3⟩ := hstep.keeps
        have hse : a'.stop = false ∧ a'.err = false := by
          cases hstep with
          | complete _ => exact ⟨rfl, rfl⟩
          | noId _ _ hno => exact absurd hno (room hg hroom)
          | idle _ _ _ => exact ⟨rfl, rfl⟩
          | sent _ _ _ => exact ⟨rfl, rfl⟩
          | failed _ _ h => cases h
        exact ⟨hse.1, hse.2, k1, k2, k3, by intro p h; cases h⟩
      | pub p =>
        obtain ⟨a', q, c'', he', hstep⟩ := sendPub_cases s now (fun _ => .ok) p c hg.inv fun h0 => hg.live_head (x := .pub p) h0
        simp only [sendItem, he', Option.map_some, Option.some.injEq, Prod.mk.injEq] at he
        obtain ⟨rfl, rfl, rfl⟩ := he
        obtain ⟨_, _, _, k1, k2, k3⟩ := hstep.keeps
        have hse : a'.stop = false ∧ a'.err = false := by
          cases hstep with
          | complete _ => exact ⟨rfl, rfl⟩
          | noId _ _ hno => exact absurd hno (room hg hroom)
          | idle _ _ _ => exact ⟨rfl, rfl⟩
          | sent _ _ _ _ _ => exact ⟨rfl, rfl⟩
          | gone _ _ _ _ _ _ => exact ⟨rfl, rfl⟩
          | failed _ _ _ _ h => cases h
        refine ⟨hse.1, hse.2, k1, k2, k3, ?_⟩
        intro p' hpe hq hc hfl hpair hlast hexp
        cases hpe
        have hpok : ItemOk (.pub p) := hg.items _ List.mem_cons_self
        have hready : ∀ id, (p.ready s now id).lastAttempt = 0 := by
          intro id
          unfold Pub.ready Pub.retryReset
          dsimp only
          split
          · rfl
          · next hn =>
            dsimp only
            apply Classical.byContradiction
            intro h0
            exact hn ⟨h0, by rw [elapsed_eq (by omega) h64]; omega⟩
        have hsome : ∀ id, id ≠ 0 → ∃ w, (p.ready s now id).toSend.1 = some w ∧ ((∃ r, w = .publish r ∧ SameContent p r) ∨
            (p.qos = 2 ∧ p.pubrec = true ∧ w = .ack { kind := .pubrel, id := id })) := by
          intro id hid
          obtain ⟨f1, f2, f3, f4, f5, f6, f7, f8, f9, f10, f11, f12, f13⟩ := ready_fields s now id p
          have hrc : (p.ready s now id).complete = false := by
            unfold Pub.complete at hc ⊢
            rw [f1, f3, f6]
            have : (p.qos == 0) = false := by simpa using hq
            rw [this] at hc ⊢
            simpa using hc
          rcases toSend_some (q := p.ready s now id) (ready_ok hid hpok 0).1 hrc (by rw [f4, f5]; exact hpair) (by rw [f1]; exact hq) with h | ⟨h1, h2, h3⟩
          · exact ⟨_, h, .inl ⟨_, rfl, f8, f9, f10, f1, f11, f12, f13⟩⟩
          · exact ⟨_, h3, .inr ⟨by rw [← f1]; exact h1, by rw [← f4]; exact h2, by rw [ready_id]⟩⟩
        have hnot : ∀ id, id ≠ 0 → ¬ (p.ready s now id).held s now c.incomplete := by
          intro id hid
          obtain ⟨f1, f2, f3, f4, f5, f6, f7, f8, f9, f10, f11, f12, f13⟩ := ready_fields s now id p
          rintro (h | ⟨h1, h2⟩ | h | h | h | ⟨_, h⟩)
          · exact h (hready id)
          · have := hexp h1
            unfold Pub.expired at this h2
            rw [f13, f12, this] at h2
            cases h2
          · rw [f3] at h
            have := hfl.1 h
            simp [Pub.complete, this, h] at hc
          · rw [f6] at h
            have := hfl.2 h
            simp [Pub.complete, this, h] at hc
          · obtain ⟨w, hw, _⟩ := hsome id hid
            rw [hw] at h; cases h
          · have hle : (if (p.ready s now id).counts then c.incomplete + 1 else c.incomplete) ≤ c.incomplete + 1 := by split <;> omega
            generalize (if (p.ready s now id).counts then c.incomplete + 1 else c.incomplete) = n at h hle
            simp only [List.length_cons] at hmax hrecv
            unfold Session.full at h
            simp only [Bool.or_eq_true, decide_eq_true_eq, Bool.and_eq_true, bne_iff_ne] at h
            omega
        have hidne : ∀ {id pool}, Got c.pool p.id id pool → id ≠ 0 ∧ (p.pubrec = true → id = p.id) := by
          intro id pool hgot
          refine ⟨?_, ?_⟩
          · rcases hgot with ⟨g1, g2, _⟩ | ⟨_, g2⟩
            · rw [g2]; exact g1
            · rcases getId_cases c.pool hg.inv with ⟨n, p', e, hn, _⟩ | ⟨p', e, _⟩
              · rw [g2] at e; cases e; exact hn
              · rw [g2] at e; cases e
          · intro hr
            rcases hgot with ⟨_, g2, _⟩ | ⟨g1, _⟩
            · exact g2
            · rw [(hpok.2.2.2 g1).2.2.1] at hr; cases hr
        cases hstep with
        | complete h => rw [hc] at h; cases h
        | noId _ _ hno => exact absurd hno (room hg hroom)
        | idle _ hgot hh => exact absurd hh (hnot _ (hidne hgot).1)
        | @sent id pool w _ hgot _ hw _ =>
          obtain ⟨w', hw', hr⟩ := hsome id (hidne hgot).1
          rw [hw] at hw'
          cases hw'
          refine ⟨w, by simp, ?_⟩
          rcases hr with h | ⟨h1, h2, h3⟩
          · exact .inl h
          · exact .inr ⟨h1, h2, by rw [h3, (hidne hgot).2 h2]⟩
        | gone _ hgot _ hw _ _ => exact absurd (by have := (toSend_del _ (by rw [hw])).1; rw [(ready_fields _ _ _ _).1] at this; exact this) hq
        | failed _ _ _ _ h => cases h
    obtain ⟨q1, q2, q3, q4, q5, q6⟩ := hstop
    rw [pass, he] at hp
    dsimp only at hp
    rw [if_neg (by simp [q2]), if_neg (by simp [q1])] at hp
    cases hrec : pass (sendItem s now fun _ => .ok) todo c1 with
    | none => rw [hrec] at hp; cases hp
    | some r =>
      obtain ⟨l2, c2, e2⟩ := r
      rw [hrec] at hp
      simp only [Option.map_some, Option.some.injEq, Prod.mk.injEq] at hp
      obtain ⟨_, rfl, rfl⟩ := hp
      have hgd : ∃ o2, Good o2 todo c1.pool c1.grace ∧ o2.length + (if a.give then 1 else 0) ≤ others.length + 1 := by
        by_cases hgive : a.give = true
        · rw [if_pos hgive] at hg1 ⊢; exact ⟨others, hg1, by omega⟩
        · rw [if_neg hgive] at hg1 ⊢
          refine ⟨_, ((good_cons _ _ _ _ _).mp hg1).2, ?_⟩
          rw [List.length_append, idsOf_single]
          split <;> simp
      obtain ⟨o2, hgd, hlen⟩ := hgd
      simp only [List.length_cons] at hroom hmax hrecv
      obtain ⟨r1, r2⟩ := ih o2 c1 l2 c2 e2 hgd (by split at q3 <;> split at hlen <;> simp_all <;> omega) (by omega) (by omega) hrec
      refine ⟨fun w hw => r1 w (q4 w hw), ?_⟩
      intro p hpm hq hc hfl hpair hlast hexp
      rcases List.mem_cons.mp hpm with h | h
      · obtain ⟨w, hw, hr⟩ := q6 p h.symm hq hc hfl hpair hlast hexp
        exact ⟨w, r1 w hw, hr⟩
      · exact r2 p h hq hc hfl hpair hlast hexp

theorem paired_init (b : Bool) : Paired [] { broker := b } := by intro q hq; simp [Session.view, pubsOf] at hq

theorem track_init (b : Bool) : SendHist [] { broker := b } := by
  intro _
  refine ⟨⟨?_, ?_, ?_, ?_, ?_, ?_, ?_⟩, atEach_nil _⟩ <;> simp [Session.view, pubsOf]

theorem tame_init (b : Bool) : Tame 0 0 { broker := b } := ⟨by intro q hq; simp [Session.view, pubsOf] at hq, by simp [graceIds]⟩

end Verif.Session
