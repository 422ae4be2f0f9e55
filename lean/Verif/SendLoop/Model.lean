import Verif.Common
/-!
# Model of the send loop (`src/lib/send_loop.c`), which the modules ip and file use

Entries are identified by their index. It is 64 bit in the program and is taken as unbounded here; a loop with 2^64 messages is not considered. The loop asks for the time more than once for an entry, here it is the same each time.
A hard error ends the loop of the module's events (send_loop.c:422-424); the model says what the loop does up to then and what it would do if it were run again. The callbacks do not add entries while the loop is running. Entries which have been handed over to the callback may be given back later (p_ip.c:1557, :1629, p_file.c:1590).
-/
namespace Verif.SendLoop
open Verif

/-- The fields of a `struct rrr_msg_holder` which are used: `send_index`, `send_time`, and the timestamp of the message. -/
structure Entry where
  index : Nat
  time : UInt64
  stamp : UInt64
deriving DecidableEq, Repr

/-- `enum rrr_send_loop_action`, send_loop.h:33-37. -/
inductive Action where
  | retry | drop | ret
deriving DecidableEq, Repr

/-- The parameters, send_loop.c:82-93. Times are in microseconds. -/
structure Params where
  preserve : Bool
  ttl : UInt64
  timeout : UInt64
  action : Action
deriving DecidableEq, Repr

/-- `rrr_msg_msg_ttl_ok`, messages/msg_msg.c:496-510. -/
def ttlOk (stamp now ttl : UInt64) : Bool := if ttl > now then true else if stamp < now - ttl then false else true

/-- The result of `rrr_msg_holder_util_timeout_check`. -/
inductive Check where
  | ttl | timeout | none
deriving DecidableEq, Repr

/-- `rrr_msg_holder_util_timeout_check`, message_holder/message_holder_util.c:168-189. The subtraction wraps around. -/
def check (c : Params) (now : UInt64) (e : Entry) : Check :=
  if c.ttl > 0 && !ttlOk e.stamp now c.ttl then .ttl
  else if c.timeout > 0 && (e.time > 0 && e.time < now - c.timeout) then .timeout
  else .none

/-- What the push callback answers: taken, or `RRR_SEND_LOOP_NOT_READY`, `RRR_SEND_LOOP_SOFT_ERROR`, another error. -/
inductive Push where
  | ok | notReady | soft | hard
deriving DecidableEq, Repr

/-- What happens when an entry is looked at: the time, the answer of the push callback and whether the return callback succeeds. -/
structure Turn where
  now : UInt64
  push : Push
  retOk : Bool

/-- What becomes of an entry which leaves the loop. -/
inductive Fate where
  /-- taken by the push callback -/
  | handed
  /-- dropped because of its TTL -/
  | ttl
  /-- dropped because of the timeout -/
  | timeout
  /-- dropped because of a soft or hard error from the push callback -/
  | error
  /-- given to the return callback -/
  | returned
deriving DecidableEq, Repr

/-- The fate of an entry, send_loop.c:293-364, and whether the iteration ends after it; `none`: the entry stays. The last component says if there is an error. -/
def turn (c : Params) (t : Turn) (e : Entry) : Option Fate × Bool × Bool :=
  match check c t.now e with
  | .ttl => (some .ttl, false, false)
  | .timeout => match c.action with
    | .retry => (none, false, false)
    | .drop => (some .timeout, false, false)
    | .ret => (some .returned, !t.retOk, !t.retOk)
  | .none => match t.push with
    | .ok => (some .handed, false, false)
    | .notReady => (none, c.preserve, false)
    | .soft => (some .error, false, false)
    | .hard => (some .error, true, true)

/-- The loop of `rrr_send_loop_run`, send_loop.c:292-365: entries which stay, those which leave, and whether there was an error. -/
def runLoop (c : Params) (o : Entry → Turn) : List Entry → List Entry × List (Entry × Fate) × Bool
  | [] => ([], [], false)
  | e :: r =>
    if (turn c (o e) e).2.1 then
      match (turn c (o e) e).1 with
      | some f => (r, [(e, f)], (turn c (o e) e).2.2)
      | none => (e :: r, [], (turn c (o e) e).2.2)
    else
      match (turn c (o e) e).1 with
      | some f => ((runLoop c o r).1, (e, f) :: (runLoop c o r).2.1, (runLoop c o r).2.2)
      | none => (e :: (runLoop c o r).1, (runLoop c o r).2.1, (runLoop c o r).2.2)

/-- The inner loop of `rrr_msg_holder_collection_sort`, message_holder/message_holder_collection.c:61-66, with `rrr_msg_holder_util_index_compare`. -/
def smallest (m : Entry) : List Entry → Entry
  | [] => m
  | e :: r => smallest (if e.index < m.index then e else m) r

/-- `rrr_msg_holder_collection_sort`, message_holder/message_holder_collection.c:60-70. Each turn removes an entry, so that `fuel` may be the length. -/
def sort : Nat → List Entry → List Entry
  | 0, _ => []
  | _ + 1, [] => []
  | n + 1, e :: r => smallest e (e :: r) :: sort n ((e :: r).erase (smallest e (e :: r)))

/-- The loop: queued entries, whether the run event is waiting, and the last index given. `held` are entries which the push callback has taken and may give back; `done` those it has finished; `gone` those which were dropped
or returned; `sent` all which were handed over, in the order in which this was done. -/
structure State where
  queue : List Entry
  pending : Bool
  counter : Nat
  held : List Entry
  done : List Entry
  gone : List (Entry × Fate)
  sent : List Entry

/-- `rrr_send_loop_new`, send_loop.c:116-195. -/
def State.new : State := ⟨[], false, 0, [], [], [], []⟩

/-- Entries with a fate. -/
def fated (p : Fate → Bool) (l : List (Entry × Fate)) : List (Entry × Fate) := l.filter (fun x => p x.2)

/-- The order in which entries are looked at, send_loop.c:286-288. -/
def order (c : Params) (l : List Entry) : List Entry := if c.preserve then sort l.length l else l

/-- `rrr_send_loop_run`, send_loop.c:281-384, and the run event, send_loop.c:398-431. -/
def State.run (c : Params) (o : Entry → Turn) (s : State) : State :=
  let x := runLoop c o (order c s.queue)
  { s with
    queue := x.1
    pending := !x.1.isEmpty
    held := s.held ++ (fated (· == .handed) x.2.1).map (·.1)
    gone := s.gone ++ fated (· != .handed) x.2.1
    sent := s.sent ++ (fated (· == .handed) x.2.1).map (·.1) }

/-- What can happen. -/
inductive Ev where
  /-- a message arrives: `rrr_send_loop_entry_prepare` and `rrr_send_loop_push` -/
  | arrive (stamp now : UInt64)
  /-- the run event is due -/
  | run (o : Entry → Turn)
  /-- the periodic event is due, send_loop.c:433-448 -/
  | periodic
  /-- the callback gives an entry back: `rrr_send_loop_unshift` -/
  | giveBack (e : Entry)
  /-- `rrr_send_loop_unshift_if_timed_out`, send_loop.c:257-273 -/
  | giveBackIf (e : Entry) (now : UInt64)
  /-- the callback has finished with an entry -/
  | finish (e : Entry)
  /-- `rrr_send_loop_entry_touch_related`, send_loop.c:214-231; entries which are held are touched by the callback (p_ip.c:1545-1577) -/
  | touch (p : Entry → Bool) (now : UInt64)

/-- `rrr_send_loop_entry_prepare`, send_loop.c:197-208, and `rrr_send_loop_push`, :239-246. -/
def State.arrive (s : State) (stamp now : UInt64) : State :=
  { s with queue := s.queue ++ [⟨s.counter + 1, now, stamp⟩], counter := s.counter + 1, pending := true }

/-- `rrr_send_loop_unshift`, send_loop.c:248-255. -/
def State.giveBack (s : State) (e : Entry) : State :=
  if e ∈ s.held then { s with queue := e :: s.queue, held := s.held.erase e, pending := true } else s

/-- An entry is finished: the callback releases it, outside of send_loop.c. -/
def State.finish (s : State) (e : Entry) : State :=
  if e ∈ s.held then { s with done := s.done ++ [e], held := s.held.erase e } else s

/-- `__rrr_send_loop_entry_touch`, send_loop.c:210-212, for some entries. -/
def touch (p : Entry → Bool) (now : UInt64) (l : List Entry) : List Entry := l.map (fun e => if p e then { e with time := now } else e)

/-- One step. -/
def step (c : Params) (s : State) : Ev → State
  | .arrive stamp now => s.arrive stamp now
  | .run o => s.run c o
  | .periodic => if s.queue.length > 0 then { s with pending := true } else s
  | .giveBack e => s.giveBack e
  | .giveBackIf e now => if check c now e = .none then s else s.giveBack e
  | .finish e => s.finish e
  | .touch p now => { s with queue := touch p now s.queue, held := touch p now s.held }

/-- Many steps. -/
def steps (c : Params) (s : State) (h : List Ev) : State := h.foldl (step c) s

end Verif.SendLoop
