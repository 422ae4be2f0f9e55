import Verif.Session.SendOrder
/-!
# When messages are sent again

Helper lemmas for the properties of the sending side.
-/
namespace Verif.Session
open Verif Spec

/-- The times at which the queue is worked on. -/
def clock : List Op → List Nat
  | [] => []
  | .pass now _ :: l => now :: clock l
  | _ :: l => clock l

/-- The time of the latest pass. -/
def tickOf (T : Nat) : Op → Nat
  | .pass now _ => now
  | _ => T

/-- Like `run_inv2`, with a clock which does not go back. -/
theorem run_clock (R : Op → Prop) (P : Nat → List Ev → Session → Prop)
    (hstep : ∀ T h s op s' o, Inv s → Valid s.broker op → R op → T ≤ tickOf T op → step s op = some (s', o) → P T h s → P (tickOf T op) (h ++ events op o) s') :
    ∀ (ops : List Op) (s : Session) (h : List Ev) (T : Nat), Inv s → (∀ op ∈ ops, Valid s.broker op) → (∀ op ∈ ops, R op) →
      (T :: clock ops).Pairwise (· ≤ ·) → P T h s →
      ∀ s' outs, run s ops = some (s', outs) → ∃ T', P T' (h ++ trace ops outs) s' := by
  intro ops
  induction ops with
  | nil =>
    intro s h T hi _ _ _ hP s' outs hr
    simp only [run, Option.some.injEq, Prod.mk.injEq] at hr
    obtain ⟨rfl, rfl⟩ := hr
    exact ⟨T, by simpa [trace] using hP⟩
  | cons op ops ih =>
    intro s h T hi hv hR hC hP s' outs hr
    rw [run] at hr
    cases he : step s op with
    | none => rw [he] at hr; cases hr
    | some r =>
      obtain ⟨s1, o⟩ := r
      rw [he] at hr
      dsimp only at hr
      cases hr1 : run s1 ops with
      | none => rw [hr1] at hr; cases hr
      | some r =>
        obtain ⟨s2, rs⟩ := r
        rw [hr1] at hr
        simp only [Option.map_some, Option.some.injEq, Prod.mk.injEq] at hr
        obtain ⟨rfl, rfl⟩ := hr
        have hC' : T ≤ tickOf T op ∧ (tickOf T op :: clock ops).Pairwise (· ≤ ·) := by
          cases op with
          | pass now tx =>
            rw [clock, List.pairwise_cons] at hC
            exact ⟨hC.1 now (by simp), hC.2⟩
          | _ => exact ⟨Nat.le_refl _, hC⟩
        have h1 := hstep T h s op s1 o hi (hv op (by simp)) (hR op (by simp)) hC'.1 he hP
        rcases step_inv s op hi (hv op (by simp)) with ⟨_, hb⟩ | ⟨s1', o', e, hi', hb, _⟩
        · rw [he] at hb; cases hb
        · rw [he] at e
          cases e
          obtain ⟨T', this⟩ := ih s1 _ _ hi' (fun x hx => by rw [hb]; exact hv x (by simp [hx])) (fun x hx => hR x (by simp [hx])) hC'.2 h1 _ _ hr1
          exact ⟨T', by simpa [trace] using this⟩

/-- The times of attempts agree with the history. -/
structure Timed (R T : Nat) (h : List Ev) (v : List Pub) : Prop where
  le : ∀ q ∈ v, q.lastAttempt ≤ T
  gap : ∀ q ∈ v, ∀ t r, Recent (.sent t (.publish r)) h → r.key = q.key → (q.lastAttempt ≠ 0 ∧ t ≤ q.lastAttempt) ∨ (q.lastAttempt = 0 ∧ t + R < T)
  each : AtEach (RetryAfter R) h

theorem Timed.mono {R T T' : Nat} {h : List Ev} {v : List Pub} (ht : Timed R T h v) (hT : T ≤ T') : Timed R T' h v :=
  ⟨fun q hq => Nat.le_trans (ht.le q hq) hT, fun q hq t r hr hk => (ht.gap q hq t r hr hk).imp id fun h => ⟨h.1, by omega⟩, ht.each⟩

theorem Timed.sub {R T : Nat} {h : List Ev} {v w : List Pub} (ht : Timed R T h v) (hs : ∀ q ∈ w, ∃ p ∈ v, q.key = p.key ∧ q.lastAttempt = p.lastAttempt) :
    Timed R T h w := by
  refine ⟨?_, ?_, ht.each⟩
  · intro q hq
    obtain ⟨p, hp, _, e⟩ := hs q hq
    rw [e]; exact ht.le p hp
  · intro q hq t r hr hk
    obtain ⟨p, hp, e1, e2⟩ := hs q hq
    rw [e2]; exact ht.gap p hp t r hr (by rw [← e1]; exact hk)

theorem recent_quiet {x : Ev} : ∀ (es h : List Ev), (∀ e ∈ es, e ≠ x) → Recent x (h ++ es) → Recent x h := by
  intro es
  induction es with
  | nil => intro h _ hr; simpa using hr
  | cons e es ih =>
    intro h he hr
    have := ih (h ++ [e]) (fun y hy => he y (by simp [hy])) (by simpa using hr)
    rcases recent_snoc this with h1 | h1
    · exact absurd h1.symm (he e (by simp))
    · exact h1.1

theorem Timed.quiet {R T : Nat} {h es : List Ev} {v : List Pub} (ht : Timed R T h v) (he : ∀ e ∈ es, ∀ t r, e ≠ .sent t (.publish r)) : Timed R T (h ++ es) v := by
  refine ⟨ht.le, fun q hq t r hr hk => ht.gap q hq t r (recent_quiet es h (fun e hm => he e hm t r) hr) hk, ?_⟩
  refine atEach_append ht.each fun e1 x e2 hx => ?_
  cases x with
  | sent t w =>
    cases w with
    | publish r => exact absurd rfl (he _ (by rw [hx]; simp) t r)
    | _ => trivial
  | _ => trivial

/-- A message whose time has come is sent. -/
theorem Timed.sent {R now : Nat} {h : List Ev} {v w : List Pub} {p r : Pub} (ht : Timed R now h v) (hp : p ∈ v) (hr : r.key = p.key)
    (hgap : ∀ t r, Recent (.sent t (.publish r)) h → r.key = p.key → t + R < now)
    (hw : ∀ q ∈ w, (q ∈ v ∧ q.key ≠ p.key) ∨ (q.key = p.key ∧ q.lastAttempt = now)) (hnow : 0 < now) : Timed R now (h ++ [.sent now (.publish r)]) w := by
  refine ⟨?_, ?_, atEach_snoc ht.each ?_⟩
  · intro q hq
    rcases hw q hq with h | h
    · exact ht.le q h.1
    · omega
  · intro q hq t r' hr' hk
    rcases recent_snoc hr' with h1 | ⟨h1, _⟩
    · simp only [Ev.sent.injEq, Wire.publish.injEq] at h1
      obtain ⟨rfl, rfl⟩ := h1
      rcases hw q hq with h | h
      · exact absurd (hk.symm.trans hr) h.2
      · exact .inl ⟨by omega, by omega⟩
    · rcases hw q hq with h | h
      · exact ht.gap q h.1 t r' h1 hk
      · exact .inl ⟨by omega, by have := hgap t r' h1 (hk.trans h.1); omega⟩
  · intro a t q b heq hk hcl
    exact hgap t q ⟨a, b, heq, hcl⟩ (hk.trans hr)

theorem ready_gap {R now : Nat} {h : List Ev} {v : List Pub} {s : Session} {p : Pub} {id : BitVec 16} (ht : Timed R now h v) (hR : s.retry = R) (h64 : now < 2 ^ 64)
    (hp : p ∈ v) : (p.ready s now id).lastAttempt ≤ now ∧ ∀ t r, Recent (.sent t (.publish r)) h → r.key = p.key →
      ((p.ready s now id).lastAttempt ≠ 0 ∧ t ≤ (p.ready s now id).lastAttempt) ∨ ((p.ready s now id).lastAttempt = 0 ∧ t + R < now) := by
  have hle := ht.le p hp
  unfold Pub.ready Pub.retryReset
  split
  · next hc =>
    refine ⟨by simp, fun t r hr hk => .inr ⟨rfl, ?_⟩⟩
    dsimp only at hc
    rw [elapsed_eq hle h64, hR] at hc
    rcases ht.gap p hp t r hr hk with h | h <;> omega
  · exact ⟨hle, ht.gap p hp⟩

theorem timed_step (R : Nat) (h : List Ev) (s : Session) (hR : s.retry = R) (now : Nat) (hnow : 0 < now) (h64 : now < 2 ^ 64) (tx : Nat → Tx)
    (done : List Item) (x : Item) (todo : List Item) (c : Ctx) (a : Act) (y : Item) (c' : Ctx) (hg : Good (idsOf done) (x :: todo) c.pool c.grace)
    (ht : Timed R now (h ++ c.sent.map (.sent now)) (pubsOf (done ++ x :: todo))) (hn : ((pubsOf (done ++ x :: todo)).map (·.key)).Nodup)
    (he : sendItem s now tx x c = some (a, y, c')) :
    Timed R now (h ++ c'.sent.map (.sent now)) (pubsOf ((done ++ if a.give then [] else [y]) ++ todo)) ∧
    ((pubsOf ((done ++ if a.give then [] else [y]) ++ todo)).map (·.key)).Nodup := by
  cases x with
  | sub q =>
    obtain ⟨a', q', c'', he', hstep⟩ := sendSub_cases s now tx q c hg.inv
    simp only [sendItem, he', Option.map_some, Option.some.injEq, Prod.mk.injEq] at he
    obtain ⟨rfl, rfl, rfl⟩ := he
    have hv : pubsOf ((done ++ if a'.give then [] else [Item.sub q']) ++ todo) = pubsOf (done ++ .sub q :: todo) := by
      split <;> simp [pubsOf_append, pubsOf]
    rw [hv]
    refine ⟨?_, hn⟩
    cases hstep with
    | complete => exact ht
    | noId => exact ht
    | idle => exact ht
    | failed => exact ht
    | sent =>
      rw [List.map_append, ← List.append_assoc]
      exact ht.quiet (by simp)
  | pub p =>
    obtain ⟨a', q, c'', he', hstep⟩ := sendPub_cases s now tx p c hg.inv fun h0 => hg.live_head (x := .pub p) h0
    simp only [sendItem, he', Option.map_some, Option.some.injEq, Prod.mk.injEq] at he
    obtain ⟨rfl, rfl, rfl⟩ := he
    have hv0 : pubsOf (done ++ .pub p :: todo) = pubsOf done ++ p :: pubsOf todo := by simp [pubsOf_append, pubsOf]
    have hv : pubsOf ((done ++ if a'.give then [] else [Item.pub q]) ++ todo) = pubsOf done ++ ((if a'.give then [] else [q]) ++ pubsOf todo) := by
      split <;> simp [pubsOf_append, pubsOf]
    rw [hv0] at ht hn
    rw [hv]
    have hxok : ItemOk (.pub p) := hg.items _ List.mem_cons_self
    have hpm : p ∈ pubsOf done ++ p :: pubsOf todo := by simp
    have hout := keys_out hn
    have hrest : ∀ q ∈ pubsOf done ++ pubsOf todo, ∃ p' ∈ pubsOf done ++ p :: pubsOf todo, q.key = p'.key ∧ q.lastAttempt = p'.lastAttempt := by
      intro q hq
      refine ⟨q, ?_, rfl, rfl⟩
      rcases List.mem_append.mp hq with h | h <;> simp [h]
    have hrep : ∀ y : Pub, y.key = p.key → y.lastAttempt ≤ now →
        (∀ t r, Recent (.sent t (.publish r)) (h ++ c.sent.map (.sent now)) → r.key = p.key → (y.lastAttempt ≠ 0 ∧ t ≤ y.lastAttempt) ∨ (y.lastAttempt = 0 ∧ t + R < now)) →
        Timed R now (h ++ c.sent.map (.sent now)) (pubsOf done ++ y :: pubsOf todo) := by
      intro y hk hl hy
      refine ⟨?_, ?_, ht.each⟩
      · intro z hz
        rcases List.mem_append.mp hz with hz | hz
        · exact ht.le z (by simp [hz])
        · rcases List.mem_cons.mp hz with rfl | hz
          · exact hl
          · exact ht.le z (by simp [hz])
      · intro z hz t r hr hkz
        rcases List.mem_append.mp hz with hz | hz
        · exact ht.gap z (by simp [hz]) t r hr hkz
        · rcases List.mem_cons.mp hz with rfl | hz
          · exact hy t r hr (hkz.trans hk)
          · exact ht.gap z (by simp [hz]) t r hr hkz
    cases hstep with
    | complete hc => exact ⟨ht.sub hrest, hout.1⟩
    | noId hc hid hno =>
      have e : ({ p with lastAttempt := 0 } : Pub) = p := by
        have := (hxok.2.2.2 hid).1
        cases p; simp only at this; subst this; rfl
      rw [e]
      exact ⟨ht, hn⟩
    | @idle id pool hc hgot hh =>
      have hk := (ready_fields s now id p).2.2.2.2.2.2.2.1
      obtain ⟨g1, g2⟩ := ready_gap (id := id) ht hR h64 hpm
      exact ⟨hrep _ hk g1 g2, keys_mid hn hk⟩
    | @failed id pool w hc hgot hh hw htx =>
      have hk := (ready_fields s now id p).2.2.2.2.2.2.2.1
      obtain ⟨g1, g2⟩ := ready_gap (id := id) ht hR h64 hpm
      refine ⟨hrep { p.ready s now id with lastAttempt := now } hk (Nat.le_refl _) fun t r hr hkk => .inl ⟨by show now ≠ 0; omega, ?_⟩, keys_mid hn hk⟩
      show t ≤ now
      rcases g2 t r hr hkk with h | h <;> omega
    | @sent id pool w hc hgot hh hw htx =>
      have hk := (ready_fields s now id p).2.2.2.2.2.2.2.1
      obtain ⟨g1, g2⟩ := ready_gap (id := id) ht hR h64 hpm
      have hw1 : (p.ready s now id).toSend.1 = some w := by rw [hw]
      have hl0 : (p.ready s now id).lastAttempt = 0 := Classical.byContradiction fun h => hh (.inl h)
      have hgap : ∀ t r, Recent (.sent t (.publish r)) (h ++ c.sent.map (.sent now)) → r.key = p.key → t + R < now := by
        intro t r hr hkk
        rcases g2 t r hr hkk with h | h
        · exact absurd hl0 h.1
        · exact h.2
      rw [List.map_append, ← List.append_assoc]
      refine ⟨?_, keys_mid hn hk⟩
      rcases toSend_wire hw1 with rfl | ⟨k, rfl⟩
      · refine ht.sent (p := p) (r := p.ready s now id) hpm hk hgap ?_ hnow
        intro z hz
        rcases List.mem_append.mp hz with hz | hz
        · exact .inl ⟨by simp [hz], hout.2 z (by simp [hz])⟩
        · rcases List.mem_cons.mp hz with rfl | hz
          · exact .inr ⟨hk, rfl⟩
          · exact .inl ⟨by simp [show z ∈ pubsOf todo from hz], hout.2 z (by simp [show z ∈ pubsOf todo from hz])⟩
      · refine (hrep { p.ready s now id with lastAttempt := now } hk (Nat.le_refl _) fun t r hr hkk => .inl ⟨by show now ≠ 0; omega, ?_⟩).quiet (by simp)
        show t ≤ now
        have := hgap t r hr hkk
        omega
    | @gone id pool w pool' hc hgot hh hw htx hr =>
      have hk := (ready_fields s now id p).2.2.2.2.2.2.2.1
      obtain ⟨g1, g2⟩ := ready_gap (id := id) ht hR h64 hpm
      have hdel := toSend_del (p.ready s now id) (by rw [hw])
      have hw1 : (p.ready s now id).toSend.1 = some w := by rw [hw]
      rw [hdel.2.2, Option.some.injEq] at hw1
      subst hw1
      have hl0 : (p.ready s now id).lastAttempt = 0 := Classical.byContradiction fun h => hh (.inl h)
      have hgap : ∀ t r, Recent (.sent t (.publish r)) (h ++ c.sent.map (.sent now)) → r.key = p.key → t + R < now := by
        intro t r hr hkk
        rcases g2 t r hr hkk with h | h
        · exact absurd hl0 h.1
        · exact h.2
      rw [List.map_append, ← List.append_assoc]
      refine ⟨?_, hout.1⟩
      refine ht.sent (p := p) (r := p.ready s now id) hpm hk hgap ?_ hnow
      intro z hz
      have hz : z ∈ pubsOf done ++ pubsOf todo := hz
      refine .inl ⟨?_, hout.2 z hz⟩
      rcases List.mem_append.mp hz with hz | hz <;> simp [hz]

/-- The retry interval stays the same; times fit in 64 bits. -/
def Even (R : Nat) : Op → Prop
  | .init _ _ r _ _ => r = R
  | .pass now _ => now < 2 ^ 64
  | _ => True

structure Times (R T : Nat) (h : List Ev) (s : Session) : Prop where
  retry : s.retry = R
  timed : Timed R T h s.view


theorem Timed.fresh {R T : Nat} {h : List Ev} {v w : List Pub} {p : Pub} (ht : Timed R T h v) (hnew : ∀ t r, .sent t (.publish r) ∈ h → r.key ≠ p.key)
    (hw : ∀ q ∈ w, q ∈ v ∨ q = fresh p) : Timed R T (h ++ [.queued p]) w := by
  refine Timed.quiet ⟨?_, ?_, ht.each⟩ (by simp)
  · intro q hq
    rcases hw q hq with h | rfl
    · exact ht.le q h
    · exact Nat.zero_le _
  · intro q hq t r hr hk
    rcases hw q hq with h | rfl
    · exact ht.gap q h t r hr hk
    · exact absurd hk (hnew t r hr.mem)

theorem Times.step {R T : Nat} {h : List Ev} {s s' : Session} {op : Op} {o : Out} (hi : Inv s) (hv : Valid s.broker op) (hR : Even R op) (hT : T ≤ tickOf T op)
    (he : step s op = some (s', o)) (htr : Track h s.view) (hn : (queuedKeys (h ++ events op o)).Nodup) (hf : Times R T h s) :
    Times R (tickOf T op) (h ++ events op o) s' := by
  have hok := view_ok hi
  obtain ⟨hr, ht⟩ := hf
  have hnew : ∀ p : Pub, queuedKeys (events op o) = [p.key] → ∀ t r, .sent t (.publish r) ∈ h → r.key ≠ p.key := by
    intro p e t r hm hk
    rw [queuedKeys_append] at hn
    obtain ⟨_, p', hp', hs⟩ := htr.sentOrigin t r hm
    refine (List.nodup_append.mp hn).2.2 p.key ?_ p.key (by rw [e]; simp) rfl
    rw [← hk, hs.key]; exact mem_queuedKeys hp'
  have hstep := step_send s op hi hv s' o he
  cases hstep with
  | @queue p hq =>
    refine ⟨hr, ht.fresh (hnew p rfl) fun q hm => ?_⟩
    simp only [Session.view, pubsOf_append, pubsOf, List.mem_append, List.mem_singleton] at hm
    rcases hm with (h | rfl) | h
    · exact .inl (by simp [Session.view, h])
    · exact .inr rfl
    · exact .inl (by simp [Session.view, h])
  | @queueSub key unsub =>
    refine ⟨hr, ?_⟩
    have : Session.view { s with toRemote := s.toRemote ++ [.sub { key := key, unsub := unsub }] } = s.view := by
      simp [Session.view, pubsOf_append, pubsOf]
    rw [this]
    simpa [events, tickOf] using ht
  | @retained p hq =>
    refine ⟨hr, ht.fresh (hnew p rfl) fun q hm => ?_⟩
    simp only [Session.view, List.mem_append, List.mem_singleton] at hm
    rcases hm with h | h | rfl
    · exact .inl (by simp [Session.view, h])
    · exact .inl (by simp [Session.view, h])
    · exact .inr rfl
  | @publish now p v tx _ l =>
    refine ⟨hr, ht.quiet ?_⟩
    intro e he
    simp only [events, List.mem_cons, List.mem_append, List.mem_map] at he
    rcases he with rfl | ⟨_, _, rfl⟩ | ⟨_, _, rfl⟩ <;> simp
  | @rel a v5 tx _ l ha hk =>
    refine ⟨hr, ht.quiet ?_⟩
    intro e he
    simp only [events, List.mem_cons, List.mem_append, List.mem_map] at he
    rcases he with rfl | ⟨_, _, rfl⟩ | ⟨_, _, rfl⟩ <;> simp
  | @ack a v5 tx _ l ha hk hl =>
    refine ⟨hr, Timed.quiet (ht.sub ?_) ?_⟩
    · have hok0 : ∀ q ∈ pubsOf s.toRemote, ItemOk (.pub q) := fun q hq => hok q (by simp [Session.view, hq])
      have gen : ∀ (b : Ack) (q : Pub), ItemOk (.pub q) → (ackOnP b q).key = q.key ∧ (ackOnP b q).lastAttempt = q.lastAttempt := by
        intro b q h1
        have := (ackOnP_spec b q h1.1 h1.2.1).1
        rw [this]; exact ⟨rfl, rfl⟩
      intro q' hq'
      rcases List.mem_append.mp hq' with hq' | hq'
      · rcases hl with ⟨rfl, _⟩ | ⟨hkr, r, rfl⟩
        · dsimp only at hq'
          rw [pubsOf_ack] at hq'
          obtain ⟨q, hq, rfl⟩ := List.mem_map.mp hq'
          exact ⟨q, by simp [Session.view, hq], gen a q (hok0 q hq)⟩
        · dsimp only at hq'
          rw [pubsOf_ack, pubsOf_ack, List.map_map] at hq'
          obtain ⟨q, hq, rfl⟩ := List.mem_map.mp hq'
          have h1 := gen a q (hok0 q hq)
          have hok1 : ItemOk (.pub (ackOnP a q)) := by
            have := (ackOn_ok a ha (.pub q) (hok0 q hq)).2
            rwa [ackOn_pub] at this
          have h2 := gen { kind := .pubrel, id := a.id, reason := r } _ hok1
          exact ⟨q, by simp [Session.view, hq], h2.1.trans h1.1, h2.2.trans h1.2⟩
      · exact ⟨q', by simp only [Session.view, List.mem_append]; exact .inr hq', rfl, rfl⟩
    · intro e he
      simp only [events, List.mem_cons, List.mem_append, List.mem_map] at he
      rcases he with rfl | ⟨_, _, rfl⟩ | ⟨_, _, rfl⟩ <;> simp
  | @pass now tx _ l c e _ w2 hnow hp h1 h2 h3 h4 h5 h6 h7 h8 h9 h10 =>
    have hT : T ≤ now := hT
    obtain ⟨d, t, k1, k2⟩ := pass_steps2 s now hnow tx
      (fun done todo c => Timed R now (h ++ c.sent.map (.sent now)) (pubsOf (done ++ todo)) ∧ ((pubsOf (done ++ todo)).map (·.key)).Nodup)
      (fun done todo c => Timed R now (h ++ c.sent.map (.sent now)) (pubsOf (done ++ todo)) ∧ ((pubsOf (done ++ todo)).map (·.key)).Nodup)
      (fun _ _ _ h => h)
      (fun done x todo c a y c' g1 g2 g3 g4 _ => by
        have := timed_step R h s hr now hnow hR tx done x todo c a y c' g1 g3.1 g3.2 g4
        exact ⟨this, fun _ => this⟩)
      (s.toRemote ++ s.delayed.map Item.pub) [] { pool := s.pool, grace := s.grace, incomplete := 0, sent := [] } l c e
      (by simpa [idsOf] using delayed_good hi) (by simp) (by
        rw [List.nil_append, pubsOf_append, pubsOf_map]
        refine ⟨?_, htr.keys⟩
        rw [List.map_nil, List.append_nil]
        exact ht.mono hT) hp
    rw [← k1, List.nil_append] at k2
    have e1 : h ++ events (.pass now tx) o = (h ++ c.sent.map (Ev.sent now)) ++ w2.map (Ev.sent now) := by simp [events, h9]
    refine ⟨h4.trans hr, ?_⟩
    rw [e1, Session.view, h1, h2, List.append_nil]
    refine k2.1.quiet ?_
    intro e he
    obtain ⟨x, hx, rfl⟩ := List.mem_map.mp he
    obtain ⟨id, rfl⟩ := h10 x hx
    simp
  | tick => exact ⟨hr, by simp only [events, List.append_nil]; exact ht⟩
  | keep => exact ⟨hR, by simp only [events, Bool.false_eq_true, if_false, List.append_nil]; exact ht⟩
  | @clean m' r t g =>
    refine ⟨hR, ?_, ?_, ?_⟩
    · intro q hq
      rcases List.mem_append.mp hq with h | h
      · rw [show (clean { s with maxInFlight := m', receiveMax := r, retry := t, graceTime := g }).toRemote = s.toRemote.filterMap preserved from rfl, pubsOf_preserved, List.mem_filterMap] at h
        obtain ⟨p, _, e⟩ := h
        split at e
        · cases e; exact Nat.zero_le _
        · cases e
      · exact ht.le q (by simp only [Session.view, List.mem_append]; exact .inr h)
    · intro q _ t' r' hr'
      rcases recent_snoc (show Recent _ (h ++ [.cleaned]) from hr') with h | h
      · cases h
      · exact absurd rfl h.2
    · exact atEach_snoc ht.each trivial

theorem times_init (b : Bool) (R : Nat) : Times R 0 [] { broker := b, retry := R } :=
  ⟨rfl, by simp [Session.view, pubsOf], by simp [Session.view, pubsOf], atEach_nil _⟩

end Verif.Session
