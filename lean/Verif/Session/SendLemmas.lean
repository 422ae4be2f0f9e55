import Verif.Session.RecvLemmas
/-!
# The queue to the remote

Helper lemmas: what happens to an entry in a pass, and which identifiers are in use.
-/
namespace Verif.Session
open Verif Spec

/-! ## The pool -/

theorem getId_cases (p : IdPool.Pool) (hp : IdPool.Inv p) :
    (∃ n p', IdPool.getId true p = (.id n, p') ∧ n ≠ 0 ∧ ¬ IdPool.live p n.toNat ∧
      (∀ k, IdPool.live p' k ↔ IdPool.live p k ∨ k = n.toNat) ∧ IdPool.Inv p') ∨
    (∃ p', IdPool.getId true p = (.exhausted, p') ∧ (∀ k, 1 ≤ k → k ≤ 65535 → IdPool.live p k) ∧
      (∀ k, IdPool.live p' k ↔ IdPool.live p k) ∧ IdPool.Inv p') := by
  obtain ⟨h1, h2⟩ := IdPool.step_spec p (.get true) hp
  simp only [IdPool.step] at h1 h2
  obtain ⟨o, p', he⟩ : ∃ o p', IdPool.getId true p = (o, p') := ⟨_, _, rfl⟩
  rw [he] at h1 h2
  simp only at h1 h2
  cases h1 with
  | get ha hb hc hd => exact .inl ⟨_, _, he, by rintro rfl; simp at ha, hc, hd, h2⟩
  | exhausted ha hb => exact .inr ⟨_, he, ha rfl, hb, h2⟩

theorem release_live (p : IdPool.Pool) (hp : IdPool.Inv p) (n : BitVec 16) (hn : n ≠ 0) (hl : IdPool.live p n.toNat) :
    ∃ p', release p n = some p' ∧ (∀ k, IdPool.live p' k ↔ IdPool.live p k ∧ k ≠ n.toNat) ∧ IdPool.Inv p' := by
  obtain ⟨h1, h2⟩ := IdPool.step_spec p (.release n) hp
  simp only [IdPool.step] at h1 h2
  obtain ⟨o, p', he⟩ : ∃ o p', IdPool.releaseId p n = (o, p') := ⟨_, _, rfl⟩
  rw [he] at h1 h2
  simp only at h1 h2
  unfold release
  rw [he]
  cases h1 with
  | release ha hb => exact ⟨p', rfl, hb, h2⟩
  | abort ha hb => exact absurd hl hb
  | ub => exact absurd rfl hn

/-! ## One entry in a pass -/

/-- The identifier which an entry has after `packet_identifier_ensure`. -/
def Got (pool : IdPool.Pool) (old id : BitVec 16) (pool' : IdPool.Pool) : Prop :=
  (old ≠ 0 ∧ id = old ∧ pool' = pool) ∨ (old = 0 ∧ IdPool.getId true pool = (.id id, pool'))

/-- The packet as it is looked at for transmission. -/
def Pub.ready (s : Session) (now : Nat) (id : BitVec 16) (p : Pub) : Pub := ({ p with id := id }).retryReset s.retry now

/-- The message is not to be sent now. -/
def Pub.held (s : Session) (now n : Nat) (q : Pub) : Prop :=
  q.lastAttempt ≠ 0 ∨ (s.broker = true ∧ q.expired now = true) ∨ q.puback = true ∨ q.pubcomp = true ∨ q.toSend.1 = none ∨
    (q.outbound = true ∧ s.full (if q.counts then n + 1 else n) = true)

/-- What a pass does with a PUBLISH. -/
inductive PubStep (s : Session) (now : Nat) (tx : Nat → Tx) (p : Pub) (c : Ctx) : Act → Pub → Ctx → Prop
  | complete : p.complete = true → PubStep s now tx p c { give := true } { p with plannedExpiry := now + s.graceTime }
      { c with grace := c.grace ++ [.pub { p with plannedExpiry := now + s.graceTime }] }
  | noId {pool} : p.complete = false → p.id = 0 → IdPool.getId true c.pool = (.exhausted, pool) →
      PubStep s now tx p c { stop := true } { p with lastAttempt := 0 } { c with pool := pool }
  | idle {id pool} : p.complete = false → Got c.pool p.id id pool → (p.ready s now id).held s now c.incomplete →
      PubStep s now tx p c {} (p.ready s now id)
        { c with pool := pool, incomplete := (processPub s now c.incomplete (p.ready s now id)).2.2 }
  | sent {id pool w} : p.complete = false → Got c.pool p.id id pool → ¬ (p.ready s now id).held s now c.incomplete →
      (p.ready s now id).toSend = (some w, false) → tx c.sent.length ≠ .err →
      PubStep s now tx p c { stop := tx c.sent.length == .stop } { p.ready s now id with lastAttempt := now }
        { c with pool := pool, incomplete := (processPub s now c.incomplete (p.ready s now id)).2.2, sent := c.sent ++ [w] }
  | gone {id pool w pool'} : p.complete = false → Got c.pool p.id id pool → ¬ (p.ready s now id).held s now c.incomplete →
      (p.ready s now id).toSend = (some w, true) → tx c.sent.length ≠ .err → release pool id = some pool' →
      PubStep s now tx p c { give := true, stop := tx c.sent.length == .stop } { p.ready s now id with lastAttempt := now }
        { c with pool := pool', incomplete := (processPub s now c.incomplete (p.ready s now id)).2.2, sent := c.sent ++ [w] }
  | failed {id pool w} : p.complete = false → Got c.pool p.id id pool → ¬ (p.ready s now id).held s now c.incomplete →
      (p.ready s now id).toSend.1 = some w → tx c.sent.length = .err →
      PubStep s now tx p c { stop := true, err := true } { p.ready s now id with lastAttempt := now }
        { c with pool := pool, incomplete := (processPub s now c.incomplete (p.ready s now id)).2.2 }

theorem toSend_del (q : Pub) (h : q.toSend.2 = true) : q.qos = 0 ∧ q.outbound = true ∧ q.toSend.1 = some (.publish q) := by
  unfold Pub.toSend at h ⊢
  by_cases h1 : (q.qos = 0 ∨ q.qos = 1) ∧ q.outbound
  · rw [if_pos h1] at h ⊢; exact ⟨by simpa using h, h1.2, rfl⟩
  · rw [if_neg h1] at h
    exfalso
    revert h
    repeat' split
    all_goals simp

theorem ready_id (s : Session) (now : Nat) (id : BitVec 16) (p : Pub) : (p.ready s now id).id = id := by
  unfold Pub.ready Pub.retryReset; split <;> rfl

/-- The transmission decision. -/
theorem processPub_held (s : Session) (now n : Nat) (q : Pub) :
    (q.held s now n ∧ ((processPub s now n q).1 = none ∨ q.lastAttempt ≠ 0) ∧
      ((processPub s now n q).2.1 = true → q.qos = 0 ∧ q.lastAttempt ≠ 0)) ∨
    (¬ q.held s now n ∧ q.lastAttempt = 0 ∧ (processPub s now n q).1 = q.toSend.1 ∧ (processPub s now n q).2.1 = q.toSend.2 ∧ q.toSend.1 ≠ none) := by
  unfold processPub Pub.held
  by_cases h1 : (s.broker && q.expired now) = true
  · rw [if_pos h1]
    exact .inl ⟨.inr (.inl (by simpa using h1)), .inl rfl, by simp⟩
  rw [if_neg h1]
  by_cases h2 : (q.puback || q.pubcomp) = true
  · rw [if_pos h2]
    refine .inl ⟨?_, .inl rfl, by simp⟩
    rcases Bool.or_eq_true_iff.mp h2 with h | h
    · exact .inr (.inr (.inl h))
    · exact .inr (.inr (.inr (.inl h)))
  rw [if_neg h2]
  dsimp only
  generalize hn : (if q.counts = true then n + 1 else n) = n'
  by_cases h3 : q.lastAttempt = 0 ∧ q.outbound ∧ s.full n'
  · rw [if_pos h3]
    exact .inl ⟨.inr (.inr (.inr (.inr (.inr h3.2)))), .inl rfl, by simp⟩
  rw [if_neg h3]
  dsimp only
  by_cases h4 : q.toSend.1 = none
  · refine .inl ⟨.inr (.inr (.inr (.inr (.inl h4)))), .inl h4, fun h => ?_⟩
    have := (toSend_del q h).2.2; rw [h4] at this; contradiction
  by_cases h5 : q.lastAttempt = 0
  · refine .inr ⟨?_, h5, rfl, rfl, h4⟩
    rintro (h | h | h | h | h | h)
    · exact h h5
    · exact h1 (by simpa using h)
    · exact h2 (by simp [h])
    · exact h2 (by simp [h])
    · exact h4 h
    · exact h3 ⟨h5, h⟩
  · exact .inl ⟨.inl h5, .inr h5, fun h => ⟨(toSend_del q h).1, h5⟩⟩

theorem ready_fields (s : Session) (now : Nat) (id : BitVec 16) (p : Pub) :
    (p.ready s now id).qos = p.qos ∧ (p.ready s now id).outbound = p.outbound ∧ (p.ready s now id).puback = p.puback ∧
    (p.ready s now id).pubrec = p.pubrec ∧ (p.ready s now id).pubrel = p.pubrel ∧ (p.ready s now id).pubcomp = p.pubcomp ∧
    (p.ready s now id).plannedExpiry = p.plannedExpiry ∧ (p.ready s now id).key = p.key ∧ (p.ready s now id).topic = p.topic ∧
    (p.ready s now id).payload = p.payload ∧ (p.ready s now id).retain = p.retain ∧ (p.ready s now id).createTime = p.createTime ∧
    (p.ready s now id).expiry = p.expiry := by
  unfold Pub.ready Pub.retryReset; split <;> simp

/-- A PUBLISH of QoS 0 which is not complete was not sent. -/
theorem ready_qos0 (s : Session) (now : Nat) (id : BitVec 16) (p : Pub) (hc : p.complete = false) (hq : p.qos = 0) :
    (p.ready s now id).lastAttempt = 0 := by
  have h0 : p.lastAttempt = 0 := by simp [Pub.complete, hq] at hc; exact hc
  unfold Pub.ready Pub.retryReset
  split
  · rfl
  · exact h0

/-- The callback does one of the things of `PubStep`, or it aborts on a release. -/
theorem sendPub_cases (s : Session) (now : Nat) (tx : Nat → Tx) (p : Pub) (c : Ctx) (hinv : IdPool.Inv c.pool)
    (hlive : p.id ≠ 0 → IdPool.live c.pool p.id.toNat) :
    ∃ a q c', sendPub s now tx p c = some (a, q, c') ∧ PubStep s now tx p c a q c' := by
  unfold sendPub
  by_cases hc : p.complete = true
  · rw [if_pos hc]; exact ⟨_, _, _, rfl, .complete hc⟩
  rw [if_neg hc]
  have hc : p.complete = false := by simpa using hc
  have hid : (p.id = 0 ∧ ∃ pool, IdPool.getId true c.pool = (.exhausted, pool) ∧ ensureId c.pool p.id = some (none, pool)) ∨
      (∃ id pool, Got c.pool p.id id pool ∧ ensureId c.pool p.id = some (some id, pool) ∧ id ≠ 0 ∧ IdPool.live pool id.toNat ∧ IdPool.Inv pool) := by
    unfold ensureId
    by_cases h0 : p.id = 0
    · rw [if_neg (by simp [h0])]
      rcases getId_cases c.pool hinv with ⟨n, p', he, h1, h2, h3, h4⟩ | ⟨p', he, h1, h2, h3⟩
      · rw [he]; exact .inr ⟨n, p', .inr ⟨h0, he⟩, rfl, h1, (h3 _).mpr (.inr rfl), h4⟩
      · rw [he]; exact .inl ⟨h0, p', rfl, rfl⟩
    · rw [if_pos h0]; exact .inr ⟨p.id, c.pool, .inl ⟨h0, rfl, rfl⟩, rfl, h0, hlive h0, hinv⟩
  rcases hid with ⟨h0, pool, hg, he⟩ | ⟨id, pool, hgot, he, hne, hlv, hpi⟩
  · rw [he]; exact ⟨_, _, _, rfl, .noId hc h0 hg⟩
  rw [he]
  dsimp only
  change ∃ a q c', transmitPub now tx (processPub s now c.incomplete (p.ready s now id)).1
    (processPub s now c.incomplete (p.ready s now id)).2.1 (p.ready s now id)
    { c with pool := pool, incomplete := (processPub s now c.incomplete (p.ready s now id)).2.2 } = some (a, q, c') ∧ _
  rcases processPub_held s now c.incomplete (p.ready s now id) with ⟨hh, h1, h2⟩ | ⟨hh, h0, h1, h2, h3⟩
  · have hdel : (processPub s now c.incomplete (p.ready s now id)).2.1 = false := by
      by_cases hd : (processPub s now c.incomplete (p.ready s now id)).2.1 = true
      · obtain ⟨ha, hb⟩ := h2 hd
        exact absurd (ready_qos0 s now id p hc (by rw [← (ready_fields s now id p).1]; exact ha)) hb
      · simpa using hd
    refine ⟨_, _, _, ?_, .idle hc hgot hh⟩
    unfold transmitPub
    dsimp only
    rw [hdel]
    cases hw : (processPub s now c.incomplete (p.ready s now id)).1 with
    | none => rfl
    | some w =>
      rcases h1 with h1 | h1
      · rw [hw] at h1; contradiction
      · dsimp only; rw [if_neg h1]; rfl
  · obtain ⟨w, hw⟩ : ∃ w, (p.ready s now id).toSend.1 = some w := by
      cases h : (p.ready s now id).toSend.1 with
      | none => exact absurd h h3
      | some w => exact ⟨w, rfl⟩
    unfold transmitPub
    rw [h1, h2, hw]
    dsimp only
    rw [if_pos h0]
    by_cases ht : tx c.sent.length = .err
    · rw [if_pos ht, if_pos ht, List.append_nil]
      exact ⟨_, _, _, rfl, .failed hc hgot hh hw ht⟩
    · rw [if_neg ht, if_neg ht]
      by_cases hd : (p.ready s now id).toSend.2 = true
      · rw [if_pos hd]
        obtain ⟨pool', hr, _⟩ := release_live pool hpi id hne hlv
        have hr' : release pool (p.ready s now id).id = some pool' := by rw [ready_id]; exact hr
        rw [hr']
        exact ⟨_, _, _, rfl, .gone hc hgot hh (Prod.ext hw hd) ht hr⟩
      · rw [if_neg hd]
        exact ⟨_, _, _, rfl, .sent hc hgot hh (Prod.ext hw (by simpa using hd)) ht⟩

/-- What a pass does with a SUBSCRIBE or UNSUBSCRIBE. -/
inductive SubStep (s : Session) (now : Nat) (tx : Nat → Tx) (p : SubPkt) (c : Ctx) : Act → SubPkt → Ctx → Prop
  | complete : p.acked = true → SubStep s now tx p c { give := true } { p with plannedExpiry := now + s.graceTime }
      { c with grace := c.grace ++ [.sub { p with plannedExpiry := now + s.graceTime }] }
  | noId {pool} : p.acked = false → p.id = 0 → IdPool.getId true c.pool = (.exhausted, pool) →
      SubStep s now tx p c { stop := true } { p with lastAttempt := 0 } { c with pool := pool }
  | idle {id pool t} : p.acked = false → Got c.pool p.id id pool → t ≠ 0 →
      SubStep s now tx p c {} { p with id := id, lastAttempt := t } { c with pool := pool }
  | sent {id pool} : p.acked = false → Got c.pool p.id id pool → tx c.sent.length ≠ .err →
      SubStep s now tx p c { stop := tx c.sent.length == .stop } { p with id := id, lastAttempt := now }
        { c with pool := pool, sent := c.sent ++ [.sub { p with id := id, lastAttempt := 0 }] }
  | failed {id pool} : p.acked = false → Got c.pool p.id id pool → tx c.sent.length = .err →
      SubStep s now tx p c { stop := true, err := true } { p with id := id, lastAttempt := now } { c with pool := pool }

theorem sendSub_cases (s : Session) (now : Nat) (tx : Nat → Tx) (p : SubPkt) (c : Ctx) (hinv : IdPool.Inv c.pool) :
    ∃ a q c', sendSub s now tx p c = some (a, q, c') ∧ SubStep s now tx p c a q c' := by
  unfold sendSub
  by_cases hc : p.acked = true
  · rw [if_pos hc]; exact ⟨_, _, _, rfl, .complete hc⟩
  rw [if_neg hc]
  have hc : p.acked = false := by simpa using hc
  have hid : (p.id = 0 ∧ ∃ pool, IdPool.getId true c.pool = (.exhausted, pool) ∧ ensureId c.pool p.id = some (none, pool)) ∨
      (∃ id pool, Got c.pool p.id id pool ∧ ensureId c.pool p.id = some (some id, pool)) := by
    unfold ensureId
    by_cases h0 : p.id = 0
    · rw [if_neg (by simp [h0])]
      rcases getId_cases c.pool hinv with ⟨n, p', he, h1, h2, h3, h4⟩ | ⟨p', he, h1, h2, h3⟩
      · rw [he]; exact .inr ⟨n, p', .inr ⟨h0, he⟩, rfl⟩
      · rw [he]; exact .inl ⟨h0, p', rfl, rfl⟩
    · rw [if_pos h0]; exact .inr ⟨p.id, c.pool, .inl ⟨h0, rfl, rfl⟩, rfl⟩
  rcases hid with ⟨h0, pool, hg, he⟩ | ⟨id, pool, hgot, he⟩
  · rw [he]; exact ⟨_, _, _, rfl, .noId hc h0 hg⟩
  rw [he]
  dsimp only
  have hq : (if p.lastAttempt ≠ 0 ∧ s.retry < elapsed now p.lastAttempt then ({ { p with id := id } with lastAttempt := 0 } : SubPkt)
      else { p with id := id }) = { p with id := id, lastAttempt := if p.lastAttempt ≠ 0 ∧ s.retry < elapsed now p.lastAttempt then 0 else p.lastAttempt } := by
    split <;> rfl
  rw [hq]
  generalize (if p.lastAttempt ≠ 0 ∧ s.retry < elapsed now p.lastAttempt then 0 else p.lastAttempt) = t
  by_cases ht : t = 0
  · rw [if_pos ht]
    subst ht
    by_cases hx : tx c.sent.length = .err
    · rw [hx, if_pos rfl, List.append_nil]; exact ⟨_, _, _, rfl, .failed hc hgot hx⟩
    · rw [if_neg hx]
      have e1 : (tx c.sent.length != Tx.ok) = (tx c.sent.length == Tx.stop) := by
        cases h : tx c.sent.length <;> simp_all <;> decide
      have e2 : (tx c.sent.length == Tx.err) = false := by simpa using hx
      rw [e1, e2]
      exact ⟨_, _, _, rfl, .sent hc hgot hx⟩
  · rw [if_neg ht]; exact ⟨_, _, _, rfl, .idle hc hgot ht⟩

/-! ## Identifiers in use -/

def Item.id : Item → BitVec 16
  | .pub p => p.id
  | .sub q => q.id

/-- The identifiers of the entries which have one. -/
def idsOf (l : List Item) : List (BitVec 16) := (l.map Item.id).filter (· ≠ 0)

/-- The identifiers of packets in grace. -/
def graceIds (l : List Item) : List (BitVec 16) := l.filterMap Item.poolId

/-- An entry of the queue to the remote. -/
def ItemOk : Item → Prop
  | .pub p => p.outbound = true ∧ p.qos ≤ 2 ∧ p.plannedExpiry = 0 ∧
      (p.id = 0 → p.lastAttempt = 0 ∧ p.puback = false ∧ p.pubrec = false ∧ p.pubrel = false ∧ p.pubcomp = false ∧ p.dup = false)
  | .sub q => q.id = 0 → q.lastAttempt = 0 ∧ q.acked = false

/-- Entries, pool and grace belong together: the identifiers in use are the ones of the entries, of the packets in grace and
`others`, and no two are equal. -/
structure Good (others : List (BitVec 16)) (l : List Item) (pool : IdPool.Pool) (g : List Item) : Prop where
  inv : IdPool.Inv pool
  items : ∀ x ∈ l, ItemOk x
  grace : ∀ x ∈ g, x.plannedExpiry ≠ 0 ∧ ∀ id, x.poolId = some id → id ≠ 0
  nodup : (others ++ (idsOf l ++ graceIds g)).Nodup
  live : ∀ n : BitVec 16, n ≠ 0 → (IdPool.live pool n.toNat ↔ n ∈ others ++ (idsOf l ++ graceIds g))

theorem idsOf_cons (x : Item) (l : List Item) : idsOf (x :: l) = idsOf [x] ++ idsOf l := by
  unfold idsOf
  rw [List.map_cons, List.map_cons, List.map_nil, List.filter_cons, List.filter_cons]
  split <;> simp

theorem idsOf_append (l m : List Item) : idsOf (l ++ m) = idsOf l ++ idsOf m := by
  simp [idsOf]

theorem idsOf_single (x : Item) : idsOf [x] = if x.id = 0 then [] else [x.id] := by
  unfold idsOf
  by_cases h : x.id = 0
  · rw [if_pos h, List.map_cons, List.filter_cons_of_neg (by simp [h])]; rfl
  · rw [if_neg h, List.map_cons, List.filter_cons_of_pos (by simpa using h)]; rfl

theorem graceIds_append (l m : List Item) : graceIds (l ++ m) = graceIds l ++ graceIds m := by
  simp [graceIds]

/-- The first entry is one of the others. -/
theorem good_cons (others : List (BitVec 16)) (x : Item) (l : List Item) (pool : IdPool.Pool) (g : List Item) :
    Good others (x :: l) pool g ↔ ItemOk x ∧ Good (others ++ idsOf [x]) l pool g := by
  have e : others ++ (idsOf (x :: l) ++ graceIds g) = others ++ idsOf [x] ++ (idsOf l ++ graceIds g) := by
    rw [idsOf_cons]; simp
  constructor
  · rintro ⟨h1, h2, h3, h4, h5⟩
    rw [e] at h4 h5
    exact ⟨h2 x List.mem_cons_self, h1, fun y hy => h2 y (List.mem_cons_of_mem _ hy), h3, h4, h5⟩
  · rintro ⟨hx, h1, h2, h3, h4, h5⟩
    rw [← e] at h4 h5
    refine ⟨h1, fun y hy => ?_, h3, h4, h5⟩
    rcases List.mem_cons.mp hy with rfl | hy
    · exact hx
    · exact h2 y hy

theorem Good.perm {o o' l l' pool g g'} (h : Good o l pool g)
    (hp : (o ++ (idsOf l ++ graceIds g)).Perm (o' ++ (idsOf l' ++ graceIds g')))
    (hl : ∀ x ∈ l', ItemOk x) (hg : ∀ x ∈ g', x.plannedExpiry ≠ 0 ∧ ∀ id, x.poolId = some id → id ≠ 0) : Good o' l' pool g' :=
  ⟨h.inv, hl, hg, hp.nodup_iff.mp h.nodup, fun n hn => (h.live n hn).trans hp.mem_iff⟩

/-- The identifier of an entry is in use. -/
theorem Good.live_head {o x l pool g} (h : Good o (x :: l) pool g) (h0 : x.id ≠ 0) : IdPool.live pool x.id.toNat := by
  refine (h.live _ h0).mpr ?_
  rw [idsOf_cons, idsOf_single, if_neg h0]; simp

/-- An entry gets an identifier. -/
theorem Good.got {o x l pool g} (h : Good o (x :: l) pool g) {id : BitVec 16} {pool' : IdPool.Pool} (hg : Got pool x.id id pool') (y : Item)
    (hy : y.id = id) (hok : ItemOk y) : Good o (y :: l) pool' g ∧ id ≠ 0 := by
  rw [good_cons] at h ⊢
  rcases hg with ⟨h1, h2, h3⟩ | ⟨h1, h2⟩
  · subst h3
    refine ⟨⟨hok, ?_⟩, by rw [h2]; exact h1⟩
    have : idsOf [y] = idsOf [x] := by rw [idsOf_single, idsOf_single, hy, h2]
    rw [this]; exact h.2
  · rcases getId_cases pool h.2.inv with ⟨n, p', he, ha, hb, hc, hd⟩ | ⟨p', he, _⟩
    · rw [he] at h2
      simp only [Prod.mk.injEq, IdPool.Out.id.injEq] at h2
      obtain ⟨rfl, rfl⟩ := h2
      have hx : idsOf [x] = [] := by rw [idsOf_single, if_pos h1]
      have hyi : idsOf [y] = [n] := by rw [idsOf_single, hy, if_neg ha]
      have h3 := h.2
      rw [hx, List.append_nil] at h3
      rw [hyi]
      have hnm : n ∉ o ++ (idsOf l ++ graceIds g) := fun hm => hb ((h3.live n ha).mpr hm)
      have hperm : (o ++ [n] ++ (idsOf l ++ graceIds g)).Perm (n :: (o ++ (idsOf l ++ graceIds g))) := by
        rw [List.append_assoc]; exact List.perm_middle
      refine ⟨⟨hok, hd, h3.items, h3.grace, ?_, ?_⟩, ha⟩
      · rw [hperm.nodup_iff]; exact List.nodup_cons.mpr ⟨hnm, h3.nodup⟩
      · intro k hk
        rw [hperm.mem_iff, List.mem_cons, hc, h3.live k hk]
        constructor
        · rintro (h | h)
          · exact .inr h
          · exact .inl (BitVec.eq_of_toNat_eq h)
        · rintro (h | h)
          · exact .inr (by rw [h])
          · exact .inl h
    · rw [he] at h2; simp at h2

/-- An entry is released and goes away. -/
theorem Good.released {o y l pool g pool'} (h : Good o (y :: l) pool g) (h0 : y.id ≠ 0) (hr : release pool y.id = some pool') :
    Good o l pool' g := by
  have hl := h.live_head h0
  obtain ⟨p', he, h1, h2⟩ := release_live pool h.inv y.id h0 hl
  rw [he] at hr
  cases hr
  rw [good_cons] at h
  have hy : idsOf [y] = [y.id] := by rw [idsOf_single, if_neg h0]
  obtain ⟨_, h3⟩ := h
  rw [hy] at h3
  have hperm : (o ++ [y.id] ++ (idsOf l ++ graceIds g)).Perm (y.id :: (o ++ (idsOf l ++ graceIds g))) := by
    rw [List.append_assoc]; exact List.perm_middle
  have hn := hperm.nodup_iff.mp h3.nodup
  rw [List.nodup_cons] at hn
  refine ⟨h2, h3.items, h3.grace, hn.2, ?_⟩
  intro k hk
  rw [h1, h3.live k hk, hperm.mem_iff, List.mem_cons]
  constructor
  · rintro ⟨h | h, hne⟩
    · exact absurd (by rw [h]) hne
    · exact h
  · intro h
    refine ⟨.inr h, fun e => hn.1 ?_⟩
    have : k = y.id := BitVec.eq_of_toNat_eq e
    rw [← this]; exact h

theorem ready_ok {s now p} {id : BitVec 16} (hid : id ≠ 0) (hok : ItemOk (.pub p)) (t : Nat) :
    ItemOk (.pub (p.ready s now id)) ∧ ItemOk (.pub { p.ready s now id with lastAttempt := t }) := by
  obtain ⟨h1, h2, h3, h4, h5, h6, h7, _⟩ := ready_fields s now id p
  have hi := ready_id s now id p
  simp only [ItemOk, h1, h2, h7, hi] at hok ⊢
  exact ⟨⟨hok.1, hok.2.1, hok.2.2.1, fun h => absurd h hid⟩, hok.1, hok.2.1, hok.2.2.1, fun h => absurd h hid⟩

/-- One entry in a pass over the queue to the remote. -/
theorem sendItem_good (s : Session) (now : Nat) (hnow : 0 < now) (tx : Nat → Tx) (o : List (BitVec 16)) (x : Item) (l : List Item) (c : Ctx)
    (h : Good o (x :: l) c.pool c.grace) :
    ∃ a y c', sendItem s now tx x c = some (a, y, c') ∧ (a.err = true → a.give = false) ∧
      Good o (if a.give then l else y :: l) c'.pool c'.grace := by
  have hx : ItemOk x := h.items x List.mem_cons_self
  cases x with
  | pub p =>
    obtain ⟨a, q, c', he, hs⟩ := sendPub_cases s now tx p c h.inv fun h0 => h.live_head (x := .pub p) h0
    refine ⟨a, .pub q, c', by simp [sendItem, he], ?_⟩
    have gotp : ∀ {id pool}, Got c.pool p.id id pool → ∀ t, Good o (.pub (p.ready s now id) :: l) pool c.grace ∧
        Good o (.pub { p.ready s now id with lastAttempt := t } :: l) pool c.grace ∧ id ≠ 0 := by
      intro id pool hg t
      have hid : id ≠ 0 := (h.got (x := .pub p) hg (.pub { p with id := id }) rfl (by
        refine ⟨hx.1, hx.2.1, hx.2.2.1, ?_⟩
        intro hz
        rcases hg with ⟨g1, g2, g3⟩ | ⟨g1, g2⟩
        · simp only at hz; rw [g2] at hz; exact absurd hz g1
        · exact hx.2.2.2 g1)).2
      exact ⟨(h.got (x := .pub p) hg (.pub (p.ready s now id)) (ready_id _ _ _ _) (ready_ok hid hx t).1).1,
        (h.got (x := .pub p) hg (.pub { p.ready s now id with lastAttempt := t }) (ready_id _ _ _ _) (ready_ok hid hx t).2).1, hid⟩
    cases hs with
    | complete hc =>
      refine ⟨by simp, ?_⟩
      have h0 : p.id ≠ 0 := by
        intro h0
        obtain ⟨a1, a2, a3, a4, a5, a6⟩ := hx.2.2.2 h0
        simp [Pub.complete, a1, a2, a5] at hc
      refine h.perm ?_ (fun y hy => h.items y (List.mem_cons_of_mem _ hy)) ?_
      · rw [idsOf_cons, idsOf_single, if_neg (show Item.id (.pub p) ≠ 0 from h0), if_pos rfl, graceIds_append]
        have : graceIds [.pub { p with plannedExpiry := now + s.graceTime }] = [p.id] := by simp [graceIds, Item.poolId, hx.1]
        rw [this]
        refine List.Perm.append_left _ ?_
        show ([p.id] ++ idsOf l ++ graceIds c.grace).Perm _
        rw [List.append_assoc, ← List.append_assoc (idsOf l)]
        exact List.perm_append_comm
      · intro y hy
        rcases List.mem_append.mp hy with hy | hy
        · exact h.grace y hy
        · simp only [List.mem_singleton] at hy
          subst hy
          refine ⟨by simp only [Item.plannedExpiry]; omega, ?_⟩
          intro id hid
          simp [Item.poolId, hx.1] at hid
          rw [← hid]; exact h0
    | noId hc h0 hg =>
      refine ⟨by simp, ?_⟩
      rcases getId_cases c.pool h.inv with ⟨n, p', hge, _⟩ | ⟨p', hge, h1, h2, h3⟩
      · rw [hge] at hg; simp at hg
      · rw [hge] at hg
        simp only [Prod.mk.injEq, true_and] at hg
        subst hg
        have hp : ({ p with lastAttempt := 0 } : Pub) = p := by
          have := (hx.2.2.2 h0).1
          cases p; simp only at this; subst this; rfl
        rw [hp]
        exact ⟨h3, h.items, h.grace, h.nodup, fun n hn => (h2 _).trans (h.live n hn)⟩
    | idle hc hg hh =>
      refine ⟨by simp, ?_⟩
      exact (gotp hg 0).1
    | sent hc hg hh hw ht =>
      refine ⟨by simp, ?_⟩
      exact (gotp hg now).2.1
    | failed hc hg hh hw ht =>
      refine ⟨by simp, ?_⟩
      exact (gotp hg now).2.1
    | @gone id pool w pool' hc hg hh hw ht hr =>
      refine ⟨by simp, ?_⟩
      obtain ⟨h2, _, hid⟩ := gotp hg now
      have e : Item.id (.pub (p.ready s now id)) = id := ready_id _ _ _ _
      exact h2.released (by rw [e]; exact hid) (by rw [e]; exact hr)
  | sub p =>
    obtain ⟨a, q, c', he, hs⟩ := sendSub_cases s now tx p c h.inv
    refine ⟨a, .sub q, c', by simp [sendItem, he], ?_⟩
    have got : ∀ {id pool}, Got c.pool p.id id pool → ∀ t, Good o (.sub { p with id := id, lastAttempt := t } :: l) pool c.grace := by
      intro id pool hg t
      have hid : id ≠ 0 := (h.got (x := .sub p) hg (.sub { p with id := id }) rfl (by
        intro hz
        rcases hg with ⟨g1, g2, g3⟩ | ⟨g1, g2⟩
        · simp only at hz; rw [g2] at hz; exact absurd hz g1
        · exact hx g1)).2
      exact (h.got (x := .sub p) hg (.sub { p with id := id, lastAttempt := t }) rfl fun hz => absurd hz hid).1
    cases hs with
    | complete hc =>
      refine ⟨by simp, ?_⟩
      have h0 : p.id ≠ 0 := by
        intro h0
        have := (hx h0).2
        rw [hc] at this; contradiction
      refine h.perm ?_ (fun y hy => h.items y (List.mem_cons_of_mem _ hy)) ?_
      · rw [idsOf_cons, idsOf_single, if_neg (show Item.id (.sub p) ≠ 0 from h0), if_pos rfl, graceIds_append]
        have : graceIds [.sub { p with plannedExpiry := now + s.graceTime }] = [p.id] := by simp [graceIds, Item.poolId]
        rw [this]
        refine List.Perm.append_left _ ?_
        show ([p.id] ++ idsOf l ++ graceIds c.grace).Perm _
        rw [List.append_assoc, ← List.append_assoc (idsOf l)]
        exact List.perm_append_comm
      · intro y hy
        rcases List.mem_append.mp hy with hy | hy
        · exact h.grace y hy
        · simp only [List.mem_singleton] at hy
          subst hy
          refine ⟨by simp only [Item.plannedExpiry]; omega, ?_⟩
          intro id hid
          simp [Item.poolId] at hid
          rw [← hid]; exact h0
    | noId hc h0 hg =>
      refine ⟨by simp, ?_⟩
      rcases getId_cases c.pool h.inv with ⟨n, p', hge, _⟩ | ⟨p', hge, h1, h2, h3⟩
      · rw [hge] at hg; simp at hg
      · rw [hge] at hg
        simp only [Prod.mk.injEq, true_and] at hg
        subst hg
        have hp : ({ p with lastAttempt := 0 } : SubPkt) = p := by
          have := (hx h0).1
          cases p; simp only at this; subst this; rfl
        rw [hp]
        exact ⟨h3, h.items, h.grace, h.nodup, fun n hn => (h2 _).trans (h.live n hn)⟩
    | idle hc hg hh => exact ⟨by simp, got hg _⟩
    | sent hc hg ht => exact ⟨by simp, got hg _⟩
    | failed hc hg ht => exact ⟨by simp, got hg _⟩

theorem pass_good (s : Session) (now : Nat) (hnow : 0 < now) (tx : Nat → Tx) : ∀ (l : List Item) (o : List (BitVec 16)) (c : Ctx),
    Good o l c.pool c.grace → ∃ l' c' e, pass (sendItem s now tx) l c = some (l', c', e) ∧ Good o l' c'.pool c'.grace := by
  intro l
  induction l with
  | nil => intro o c h; exact ⟨[], c, false, rfl, h⟩
  | cons x l ih =>
    intro o c h
    obtain ⟨a, y, c', he, hge, hg⟩ := sendItem_good s now hnow tx o x l c h
    rw [pass, he]
    dsimp only
    by_cases herr : a.err = true
    · rw [if_pos herr]
      rw [hge herr] at hg
      exact ⟨_, _, _, rfl, hg⟩
    rw [if_neg herr]
    by_cases hst : a.stop = true
    · rw [if_pos hst]; exact ⟨_, _, _, rfl, hg⟩
    rw [if_neg hst]
    by_cases hgi : a.give = true
    · rw [if_pos hgi] at hg
      obtain ⟨l', c'', e, h1, h2⟩ := ih o c' hg
      rw [h1]
      exact ⟨l', c'', e, by simp [hgi], h2⟩
    · rw [if_neg hgi] at hg
      obtain ⟨hy, hg⟩ := (good_cons _ _ _ _ _).mp hg
      obtain ⟨l', c'', e, h1, h2⟩ := ih _ c' hg
      rw [h1]
      exact ⟨y :: l', c'', e, by simp [hgi], (good_cons _ _ _ _ _).mpr ⟨hy, h2⟩⟩

end Verif.Session
