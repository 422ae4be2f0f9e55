import Verif.Asd.Progress
/-!
# C97: assured single delivery

A receiver is given each message of a sender once, however control frames are lost, repeated and reordered and however messages are lost (`single_delivery_partial`), and all of them may always get
there (`may_finish_partial`). This needs that the periodic tasks of the receiver run often enough, that there is one sender, and that the sender does not begin anew: `second_sender_stops_all`,
`second_sender_repeats`, `restart_loses` and `late_reset_loses` show what happens otherwise.
-/
namespace Verif.Asd
open Verif

variable {α : Type}

theorem ids_mem {w : World α} {x : Nat × Nat × α} (h : x ∈ w.rx.log) : x.2.1 ∈ ids w.rx := List.mem_map.2 ⟨x, h, rfl⟩

/-- The messages delivered and those which are still to be delivered make up those which were accepted. -/
theorem perm_of_inv {w : World α} (h : Inv w) : ∃ rest, rest.Sublist (pending w) ∧ (delivered w ++ rest).Perm w.accepted := by
  refine ⟨((w.tx.queue.filter (fun e => decide (e.id ∉ ids w.rx))).map SEnt.msg), ?_, ?_⟩
  · exact List.Sublist.map _ List.filter_sublist
  · -- the same about the ids
    have hp : (ids w.rx ++ (w.tx.queue.filter (fun e => decide (e.id ∉ ids w.rx))).map SEnt.id).Perm (List.range' 1 w.accepted.length) := by
      refine (List.perm_ext_iff_of_nodup ?_ List.nodup_range').2 ?_
      · rw [List.nodup_append]
        refine ⟨h.rx.nodup, ?_, ?_⟩
        · unfold List.Nodup
          rw [List.pairwise_map]
          refine List.Pairwise.imp ?_ (h.tx.sorted.filter _)
          intro a b hab
          omega
        · intro a ha b hb hab
          obtain ⟨e, he, rfl⟩ := List.mem_map.1 hb
          have := (List.mem_filter.1 he).2
          simp only [decide_eq_true_eq] at this
          rw [hab] at ha
          exact this ha
      · intro i
        rw [List.mem_append, List.mem_range'_1]
        constructor
        · rintro (hi | hi)
          · obtain ⟨x, hx, rfl⟩ := List.mem_map.1 hi
            obtain ⟨_, a, b⟩ := h.rx.log x hx
            have := (List.getElem?_eq_some_iff.1 b).1
            omega
          · obtain ⟨e, he, rfl⟩ := List.mem_map.1 hi
            obtain ⟨a, b, c⟩ := h.tx.ent e (List.mem_filter.1 he).1
            rw [h.tx.pos] at b
            omega
        · rintro ⟨a, b⟩
          by_cases hi : i ∈ ids w.rx
          · exact Or.inl hi
          · refine Or.inr (Classical.byContradiction fun hc => hi (h.gone i a (by rw [h.tx.pos]; omega) ?_))
            intro e he hei
            exact hc (List.mem_map.2 ⟨e, List.mem_filter.2 ⟨he, by simpa [hei] using hi⟩, hei⟩)
    have h2 := hp.map (fun i => w.accepted[i - 1]?)
    rw [List.map_append] at h2
    have e1 : (ids w.rx).map (fun i => w.accepted[i - 1]?) = (delivered w).map some := by
      unfold ids delivered
      rw [List.map_map, List.map_map]
      refine List.map_congr_left ?_
      intro x hx
      exact (h.rx.log x hx).2.2
    have e2 : ((w.tx.queue.filter (fun e => decide (e.id ∉ ids w.rx))).map SEnt.id).map (fun i => w.accepted[i - 1]?) =
        ((w.tx.queue.filter (fun e => decide (e.id ∉ ids w.rx))).map SEnt.msg).map some := by
      rw [List.map_map, List.map_map]
      refine List.map_congr_left ?_
      intro e he
      exact (h.tx.ent e (List.mem_filter.1 he).1).2.2
    have e3 : (List.range' 1 w.accepted.length).map (fun i => w.accepted[i - 1]?) = w.accepted.map some := by
      refine List.ext_getElem (by simp) ?_
      intro i h1 h2
      simp only [List.length_map, List.length_range'] at h1
      simp [h1]
    rw [e1, e2, e3, ← List.map_append] at h2
    have h3 := h2.filterMap id
    simpa [List.filterMap_map] using h3

/-- **C97, single delivery.** For every list of steps (giving, sending, losing, arriving in any order and any number of times) without a reset, with fewer than 2^32 messages and with the periodic
tasks often enough: the program does not abort, and the messages which have been delivered, together with some of those which the sender still keeps, are exactly those which the sender accepted.

Partial: with several senders, or if the sender begins anew, it does not hold, see below. -/
theorem single_delivery_partial (as : List (Act α)) (hr : ∀ a ∈ as, NoReset a) (hn : given as < 2 ^ 32) (hreg : Regular as) :
    ∃ w, ({} : World α).run as = .ok w ∧ ∃ rest, rest.Sublist (pending w) ∧ (delivered w ++ rest).Perm w.accepted := by
  obtain ⟨w, h1, h2⟩ := inv_run as inv_init hr (by simpa using hn) hreg
  exact ⟨w, h1, perm_of_inv h2⟩

/-- **C97, no message is forgotten.** When the sender keeps no message, those which were accepted have been delivered, each once. -/
theorem all_delivered_partial (as : List (Act α)) (hr : ∀ a ∈ as, NoReset a) (hn : given as < 2 ^ 32) (hreg : Regular as) {w : World α} (hw : ({} : World α).run as = .ok w)
    (he : w.tx.queue = []) : (delivered w).Perm w.accepted := by
  obtain ⟨w', h1, rest, h2, h3⟩ := single_delivery_partial as hr hn hreg
  rw [hw] at h1
  obtain rfl : w = w' := by cases h1; rfl
  have : rest = [] := by
    simp only [pending, he, List.map_nil, List.sublist_nil] at h2
    exact h2
  rw [this, List.append_nil] at h3
  exact h3

/-- **C97, the receiver has room.** A message which arrives is not refused. -/
theorem always_room_partial (as : List (Act α)) (hr : ∀ a ∈ as, NoReset a) (hn : given as < 2 ^ 32) (hreg : Regular as) {w : World α} (hw : ({} : World α).run as = .ok w) (id : Nat) (m : α) :
    ∃ r, w.rx.data 1 id m = .ok (some r) := by
  obtain ⟨w', h1, h2, h3, _⟩ := inv2_run as inv_init few_init hr (by simpa using hn) hreg
  rw [hw] at h1
  obtain rfl : w = w' := by cases h1; rfl
  have hroom := room h2 h3 (hreg as [] (by simp) w hw)
  unfold Rx.data
  rw [if_pos hroom, insertQueue_rel h2.rx.q]
  rcases insertEntry_ok (x := ({ id := id, msg := some m } : REnt α)) h2.rx.sorted with ⟨e, he, hk, hie⟩ | ⟨hn, q', h1, _⟩
  · rw [hie]; exact ⟨_, rfl⟩
  · rw [h1]; exact ⟨_, rfl⟩

/-- **C97, all messages may get there.** After every such list of steps there are further ones, of the same kind and without giving messages, after which every accepted message has been delivered once and
the sender keeps none. -/
theorem may_finish_partial (as : List (Act α)) (hr : ∀ a ∈ as, NoReset a) (hn : given as < 2 ^ 32) (hreg : Regular as) {w : World α} (hw : ({} : World α).run as = .ok w) :
    ∃ bs w', (∀ a ∈ bs, Plain a) ∧ w.run bs = .ok w' ∧ (∀ cs ds, bs = cs ++ ds → ∀ v, w.run cs = .ok v → v.rx.started ≤ 1000) ∧
      w'.accepted = w.accepted ∧ w'.tx.queue = [] ∧ (delivered w').Perm w.accepted := by
  obtain ⟨w1, h1, h2, h3, h4⟩ := inv2_run as inv_init few_init hr (by simpa using hn) hreg
  rw [hw] at h1
  obtain rfl : w = w1 := by cases h1; rfl
  have hst := hreg as [] (by simp) w hw
  obtain ⟨bs, w', b1, b2, b3, b4, b5⟩ := progress_all _ (Nat.le_refl _) ⟨h2, h3⟩ (by simp at h4; omega) hst
  refine ⟨bs, w', b1, b2.run, b2.started hst, b4, b5, ?_⟩
  obtain ⟨rest, r1, r2⟩ := perm_of_inv b3.inv
  have : rest = [] := by
    simp only [pending, b5, List.map_nil, List.sublist_nil] at r1
    exact r1
  rw [this, List.append_nil, b4] at r2
  exact r2

/-! ### A run -/

theorem started_step {w w' : World α} {a : Act α} (h : w.step a = .ok w') : w'.rx.started ≤ w.rx.started + 1 := by
  cases a with
  | queue m =>
    simp only [World.step] at h
    cases hq : w.tx.enqueue m with
    | bug => rw [hq] at h; cases h
    | ok o => rw [hq] at h; cases o <;> cases h <;> exact Nat.le_succ _
  | send id ready =>
    simp only [World.step] at h
    cases hq : w.tx.send id ready with
    | bug => rw [hq] at h; cases h
    | ok o =>
      rw [hq] at h
      obtain ⟨t, o⟩ := o
      cases h
      cases o <;> exact Nat.le_succ _
  | data =>
    simp only [World.step] at h
    split at h
    · cases h; exact Nat.le_succ _
    · simp only [Rx.data] at h
      split at h
      · cases hq : insertQueue 1 { id := _, msg := some _ } w.rx.queues with
        | bug => rw [hq] at h; cases h
        | ok q => rw [hq] at h; cases h; exact Nat.le_succ _
      · cases h; exact Nat.le_succ _
  | lose i => cases h; exact Nat.le_succ _
  | toS i =>
    simp only [World.step] at h
    split at h <;> cases h <;> exact Nat.le_succ _
  | toR i =>
    simp only [World.step] at h
    split at h
    · cases h; exact Nat.le_succ _
    · rename_i f id _
      cases f with
      | rst => cases h; exact Nat.le_succ _
      | dack => cases h; exact Nat.le_succ _
      | cack => cases h; exact Nat.le_succ _
      | rack =>
        simp only [Rx.control] at h
        split at h
        · rename_i e _
          simp only [Rx.deliver] at h
          split at h
          · cases h; exact Nat.le_succ _
          · split at h
            · cases h
            · cases h; exact Nat.le_refl _
        · cases h; exact Nat.le_succ _
  | maintain =>
    cases h
    simp only [Rx.maintain]
    split
    · exact Nat.le_succ _
    · exact Nat.zero_le _
  | reset => cases h; exact Nat.le_succ _
  | restart => cases h; exact Nat.le_succ _

theorem started_run (as : List (Act α)) : ∀ {w w' : World α}, w.run as = .ok w' → w'.rx.started ≤ w.rx.started + as.length := by
  induction as with
  | nil => intro w w' h; cases h; exact Nat.le_refl _
  | cons a as ih =>
    intro w w' h
    simp only [World.run] at h
    cases hs : w.step a with
    | bug => rw [hs] at h; cases h
    | ok w1 =>
      rw [hs] at h
      have h1 := started_step hs
      have h2 := ih h
      simp only [List.length_cons]
      omega

/-- A short run is regular. -/
theorem regular_of_short {as : List (Act α)} (h : as.length ≤ 1000) : Regular as := by
  intro bs cs hbc w hw
  have h1 := started_run bs hw
  rw [hbc, List.length_append] at h
  simp only [Nat.zero_add] at h1
  omega

/-- Two messages are given; the first copy of the second is lost and control frames arrive repeatedly. -/
def trip : List (Act Nat) :=
  [.queue 10, .queue 20, .send 1 true, .send 2 true, .send 1 true, .lose 1, .data, .toS 0, .toR 0, .toR 0, .maintain, .data, .toS 0, .toR 0, .send 2 true, .data, .toS 0, .toS 0, .toR 0, .toR 1, .toS 1]

structure View where
  delivered : List Nat
  pending : List Nat
  accepted : List Nat
deriving DecidableEq

def view : Res (World Nat) → Option View
  | .ok w => some ⟨delivered w, pending w, w.accepted⟩
  | .bug => none

/-- The conditions of the theorems hold for this run, and it delivers. -/
example : view (({} : World Nat).run trip) = some ⟨[10, 20], [10], [10, 20]⟩ := by decide
example : (∀ a ∈ trip, NoReset a) ∧ given trip < 2 ^ 32 ∧ Regular trip := by
  refine ⟨?_, by decide, regular_of_short (by decide)⟩
  intro a ha
  simp only [trip, List.mem_cons, List.not_mem_nil, or_false] at ha
  rcases ha with h | h | h | h | h | h | h | h | h | h | h | h | h | h | h | h | h | h | h | h | h <;> subst h <;> trivial

/-! ### When it does not hold -/

/-- The sender begins anew; its reset frame is lost. The new message has the id of the old one: it is acknowledged, and never delivered. -/
theorem restart_loses : view (({} : World Nat).run [.queue 10, .send 1 true, .data, .toS 0, .toR 0, .toS 0, .restart, .reset, .queue 20, .send 1 true, .data, .toS 0, .toR 0, .toS 0]) =
    some ⟨[10], [], [10, 20]⟩ := by decide

/-- The reset frame arrives after the first message which follows it: the message is acknowledged, and never delivered. -/
theorem late_reset_loses : view (({} : World Nat).run [.reset, .queue 10, .send 1 true, .data, .toR 0, .toS 0, .toR 0, .toS 0]) = some ⟨[], [], [10]⟩ := by decide

/-! ### Two senders -/

/-- What happens at a receiver with several senders: a message or `RACK` from the sender with a handle, and the periodic tasks. -/
inductive RAct (α : Type) where
  | data (h id : Nat) (m : α)
  | rack (h id : Nat)
  | maintain

/-- One step, with the functions of the receiver. A message which is refused stays where it is. -/
def Rx.step (r : Rx α) : RAct α → Res (Rx α)
  | .data h id m => (r.data h id m).bind fun
    | none => .ok r
    | some x => .ok x.1
  | .rack h id => (r.control h .rack id).bind fun x => .ok x.1
  | .maintain => .ok r.maintain

def Rx.run (r : Rx α) : List (RAct α) → Res (Rx α)
  | [] => .ok r
  | a :: as => (r.step a).bind fun r => r.run as

theorem Rx.run_append {r r' : Rx α} (as bs : List (RAct α)) (h : r.run as = .ok r') : r.run (as ++ bs) = r'.run bs := by
  induction as generalizing r with
  | nil => cases h; rfl
  | cons a as ih =>
    simp only [Rx.run, List.cons_append] at h ⊢
    cases hs : r.step a with
    | bug => rw [hs] at h; cases h
    | ok r1 => rw [hs] at h; exact ih h

/-- A message is received, delivered, and the periodic tasks run. -/
def round (h id : Nat) (m : α) : List (RAct α) := [.data h id m, .rack h id, .maintain]

/-- The first sender sends one message, the second sends `n`. -/
def twoSenders (m : α) (f : Nat → α) (n : Nat) : List (RAct α) := round 1 1 m ++ (List.range n).flatMap (fun k => round 2 (k + 1) (f k))

/-- The entry of the message of the first sender, which is removed in time. -/
def first (k : Nat) : List (REnt α) := if k < 1499 then [{ id := 1, msg := none, grace := 1499 - k }] else []

/-- The entries of the second, which are not. -/
def second (k : Nat) : List (REnt α) := (List.range k).map (fun i => { id := i + 1, msg := none, grace := 1500 })

theorem insertEntry_end {β : Type} {key : β → Nat} {q : List β} {x : β} (h : ∀ e ∈ q, key e < key x) : insertEntry key q x = .ok (q ++ [x]) := by
  have h1 : findEntry key q (key x) = none := by
    unfold findEntry
    split
    · rfl
    · split
      · rfl
      · cases hf : findLoop key (key x) q with
        | none => rfl
        | some e =>
          have := findLoop_some hf
          have := h e this.1
          omega
  unfold insertEntry
  rw [h1]
  unfold insertOrdered
  cases hl : q.getLast? with
  | none => rfl
  | some l =>
    have := h l (List.mem_of_getLast? hl)
    simp [this]

theorem findEntry_end {β : Type} {key : β → Nat} {q : List β} {x : β} (h : ∀ e ∈ q, key e < key x) : findEntry key (q ++ [x]) (key x) = some x := by
  have hl : findLoop key (key x) (q ++ [x]) = some x := by
    induction q with
    | nil => simp [findLoop]
    | cons a t ih =>
      have ha := h a List.mem_cons_self
      rw [List.cons_append]
      unfold findLoop
      rw [if_neg (by omega), if_neg (by omega)]
      exact ih fun e he => h e (List.mem_cons_of_mem _ he)
  unfold findEntry
  have h1 : beforeFirst key (q ++ [x]) (key x) = false := by
    cases q with
    | nil => simp [beforeFirst]
    | cons a t =>
      have := h a List.mem_cons_self
      simp [beforeFirst]
      omega
  have h2 : afterLast key (q ++ [x]) (key x) = false := by simp [afterLast]
  rw [h1, h2]
  simpa using hl

theorem modify_end {β : Type} {key : β → Nat} {q : List β} {x : β} {f : β → β} (h : ∀ e ∈ q, key e < key x) : modify key (key x) f (q ++ [x]) = q ++ [f x] := by
  induction q with
  | nil => simp [modify]
  | cons a t ih =>
    have ha := h a List.mem_cons_self
    rw [List.cons_append]
    unfold modify
    rw [if_neg (by omega), ih fun e he => h e (List.mem_cons_of_mem _ he)]
    rfl

theorem updateGrace_first (k : Nat) : updateGrace 1 (first k : List (REnt α)) = first (k + 1) := by
  unfold first
  by_cases h : k < 1499
  · rw [if_pos h]
    unfold updateGrace
    rw [if_pos (by simp only; omega)]
    by_cases h2 : k + 1 < 1499
    · rw [if_neg (by simp only; omega), if_pos h2]
      have : (1499 : Int) - (k : Int) - ((1 : Nat) : Int) = 1499 - ((k + 1 : Nat) : Int) := by omega
      simp only [updateGrace, this]
    · rw [if_pos (by simp only; omega), if_neg h2]
      rfl
  · rw [if_neg h, if_neg (by omega)]
    rfl

theorem updateGrace_zero {q : List (REnt α)} (h : ∀ e ∈ q, 0 < e.grace) : updateGrace 0 q = q := by
  induction q with
  | nil => rfl
  | cons a t ih =>
    have := h a List.mem_cons_self
    unfold updateGrace
    rw [if_pos this, if_neg (by omega), ih fun e he => h e (List.mem_cons_of_mem _ he)]
    simp

theorem second_succ (k : Nat) : (second (k + 1) : List (REnt α)) = second k ++ [{ id := k + 1, msg := none, grace := 1500 }] := by
  simp [second, List.range_succ]

theorem second_lt (k : Nat) : ∀ e ∈ (second k : List (REnt α)), e.id < k + 1 := by
  intro e he
  obtain ⟨i, hi, rfl⟩ := List.mem_map.1 he
  have := List.mem_range.1 hi
  simp only
  omega

theorem second_grace (k : Nat) : ∀ e ∈ (second k : List (REnt α)), 0 < e.grace := by
  intro e he
  obtain ⟨i, hi, rfl⟩ := List.mem_map.1 he
  show (0 : Int) < 1500
  decide

/-- The queues after `k` messages of the second sender; for `k = 0` its queue is not there. -/
def bothQueues (k : Nat) : List (Nat × List (REnt α)) := (1, first k) :: (if k = 0 then [] else [(2, second k)])

/-- What has been delivered. -/
def bothLog (m : α) (f : Nat → α) (k : Nat) : List (Nat × Nat × α) := (1, 1, m) :: (List.range k).map (fun i => (2, i + 1, f i))

theorem first_le (k : Nat) : (first k : List (REnt α)).length ≤ 1 := by
  unfold first
  split <;> simp

theorem both_round (m : α) (f : Nat → α) (k : Nat) (hk : k < 4499 ∨ 1499 ≤ k ∧ k < 4500) :
    ({ queues := bothQueues k, started := 0, log := bothLog m f k } : Rx α).run (round 2 (k + 1) (f k)) = .ok { queues := bothQueues (k + 1), started := 0, log := bothLog m f (k + 1) } := by
  have hcount : Rx.count ({ queues := bothQueues k, started := 0, log := bothLog m f k } : Rx α) < RELEASE_MAX := by
    have h1 : Rx.count ({ queues := bothQueues k, started := 0, log := bothLog m f k } : Rx α) = (first k : List (REnt α)).length + k := by
      unfold Rx.count bothQueues
      by_cases h0 : k = 0
      · simp [h0]
      · simp [h0, second]
    have h2 := first_le (α := α) k
    rw [h1]
    simp only [RELEASE_MAX]
    rcases hk with hk | ⟨hk, hk2⟩
    · omega
    · have : (first k : List (REnt α)).length = 0 := by unfold first; rw [if_neg (by omega)]; rfl
      omega
  have hins : insertQueue 2 { id := k + 1, msg := some (f k) } (bothQueues k : List (Nat × List (REnt α))) = .ok [(1, first k), (2, second k ++ [{ id := k + 1, msg := some (f k) }])] := by
    unfold bothQueues
    by_cases h0 : k = 0
    · subst h0
      rfl
    · rw [if_neg h0]
      simp only [insertQueue, show ¬ (2 = 1) by decide, if_false, if_true]
      rw [insertEntry_end (second_lt k)]
      rfl
  have hfind : findQueue 2 (k + 1) [(1, first k), (2, second k ++ [({ id := k + 1, msg := some (f k) } : REnt α)])] = some { id := k + 1, msg := some (f k) } := by
    simp only [findQueue, show ¬ (1 = 2) by decide, if_false, if_true]
    exact findEntry_end (key := REnt.id) (x := ({ id := k + 1, msg := some (f k) } : REnt α)) (second_lt k)
  have hmod : modifyQueue 2 (k + 1) (fun e => { e with msg := none, grace := GRACE }) [(1, first k), (2, second k ++ [({ id := k + 1, msg := some (f k) } : REnt α)])] = [(1, first k), (2, second (k + 1))] := by
    simp only [modifyQueue, show ¬ (1 = 2) by decide, if_false, if_true]
    rw [modify_end (key := REnt.id) (x := ({ id := k + 1, msg := some (f k) } : REnt α)) (second_lt k), second_succ]
    rfl
  simp only [round, Rx.run, Rx.step, Rx.data, if_pos hcount, hins, Res.bind, Rx.control, hfind, Rx.deliver, hmod, Rx.maintain, maintainLoop, ne_eq, not_true_eq_false, if_false, Nat.zero_add]
  rw [updateGrace_first, updateGrace_zero (second_grace _)]
  simp [bothQueues, bothLog, List.range_succ]

theorem both_run (m : α) (f : Nat → α) (n : Nat) (hn : n ≤ 4500) : ({} : Rx α).run (twoSenders m f n) = .ok { queues := bothQueues n, started := 0, log := bothLog m f n } := by
  induction n with
  | zero =>
    simp [twoSenders, round, Rx.run, Rx.step, Rx.data, Rx.count, RELEASE_MAX, insertQueue, insertEntry, findEntry, beforeFirst, afterLast, findLoop, insertOrdered, Res.bind, Rx.control, findQueue,
      Rx.deliver, modifyQueue, modify, Rx.maintain, maintainLoop, updateGrace, GRACE, bothQueues, bothLog, first]
  | succ k ih =>
    have h1 := ih (by omega)
    have : twoSenders m f (k + 1) = twoSenders m f k ++ round 2 (k + 1) (f k) := by
      simp [twoSenders, List.range_succ]
    rw [this, Rx.run_append _ _ h1]
    exact both_round m f k (by omega)

/-- **C97 does not hold with two senders.** The periodic tasks forget delivered messages of the first sender only. The first sends one message and the second 4500, of which each is delivered and followed
by the periodic tasks. From then on the receiver takes no message from anyone, whatever arrives. -/
theorem second_sender_stops_all (m : α) (f : Nat → α) :
    ∃ r, ({} : Rx α).run (twoSenders m f 4500) = .ok r ∧ r.log.map (fun x => x.2.2) = m :: (List.range 4500).map f ∧
      ∀ as, ∃ r', r.run as = .ok r' ∧ r'.log = r.log ∧ ∀ h id m', r'.data h id m' = .ok none := by
  refine ⟨_, both_run m f 4500 (Nat.le_refl _), ?_, ?_⟩
  · simp only [bothLog, List.map_cons, List.map_map]
    rfl
  · have hq : (bothQueues 4500 : List (Nat × List (REnt α))) = [(1, []), (2, second 4500)] := rfl
    rw [hq]
    have hc : ∀ l, ({ queues := [(1, []), (2, second 4500)], started := 0, log := l } : Rx α).count = 4500 := by
      intro l
      unfold Rx.count
      simp only [List.map_cons, List.map_nil, second, List.length_map, List.length_range, List.length_nil]
      rfl
    have href : ∀ l h id m', ({ queues := [(1, []), (2, second 4500)], started := 0, log := l } : Rx α).data h id m' = .ok none := by
      intro l h id m'
      unfold Rx.data
      rw [hc]
      rfl
    have hstep : ∀ l a, ({ queues := [(1, []), (2, second 4500)], started := 0, log := l } : Rx α).step a = .ok { queues := [(1, []), (2, second 4500)], started := 0, log := l } := by
      intro l a
      cases a with
      | data h id m' => simp only [Rx.step, href, Res.bind]
      | rack h id =>
        simp only [Rx.step, Rx.control]
        cases hf : findQueue h id [(1, []), (2, (second 4500 : List (REnt α)))] with
        | none => rfl
        | some e =>
          have he : e ∈ (second 4500 : List (REnt α)) := by
            simp only [findQueue] at hf
            split at hf
            · have := (findEntry_some hf).1
              cases this
            · split at hf
              · exact (findEntry_some hf).1
              · cases hf
          have := second_grace 4500 e he
          simp only [Rx.deliver]
          rw [if_pos (by omega)]
          rfl
      | maintain =>
        simp only [Rx.step, Rx.maintain, maintainLoop, updateGrace, updateGrace_zero (second_grace _)]
        rfl
    have hrun : ∀ l as, ({ queues := [(1, []), (2, second 4500)], started := 0, log := l } : Rx α).run as = .ok { queues := [(1, []), (2, second 4500)], started := 0, log := l } := by
      intro l as
      induction as with
      | nil => rfl
      | cons a as ih => simp only [Rx.run, hstep, Res.bind, ih]
    intro as
    exact ⟨_, hrun _ as, rfl, href _⟩

/-- **C97 does not hold with two senders.** The messages of the second sender make the receiver forget that it has delivered the message of the first: a copy of it which arrives after 1499 of them is
delivered again, although the periodic tasks run after each message. -/
theorem second_sender_repeats (m : α) (f : Nat → α) :
    ∃ r, ({} : Rx α).run (twoSenders m f 1499 ++ [.data 1 1 m, .rack 1 1]) = .ok r ∧ r.log.filter (fun x => x.1 == 1) = [(1, 1, m), (1, 1, m)] := by
  rw [Rx.run_append _ _ (both_run m f 1499 (by decide))]
  have hq : (bothQueues 1499 : List (Nat × List (REnt α))) = [(1, []), (2, second 1499)] := rfl
  rw [hq]
  have hc : ∀ l, ({ queues := [(1, []), (2, second 1499)], started := 0, log := l } : Rx α).count = 1499 := by
    intro l
    unfold Rx.count
    simp only [List.map_cons, List.map_nil, second, List.length_map, List.length_range, List.length_nil]
    rfl
  refine ⟨{ queues := [(1, [{ id := 1, msg := none, grace := 1500 }]), (2, second 1499)], started := 1, log := bothLog m f 1499 ++ [(1, 1, m)] }, ?_, ?_⟩
  · simp only [Rx.run, Rx.step, Rx.data, hc, RELEASE_MAX, Res.bind]
    rfl
  · simp only [bothLog, List.cons_append, List.filter_cons, List.filter_append, List.filter_map]
    rw [List.filter_eq_nil_iff.2 (by simp)]
    rfl

end Verif.Asd
