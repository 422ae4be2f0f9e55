import Verif.Common

/-!
# Model of the queues of the HTTP client module, `src/modules/p_httpclient.c`

Not modelled: contents of messages and requests (Redirect, HttpUtil), locks, statistics, pausing of senders, the choice of method.
Queues do not grow while they are processed.
-/
namespace Verif.HttpQueue
open Verif

/-- `struct rrr_msg_holder`: a message with its time stamp and the time it was put in a queue (`message_holder_struct.h:60-63`, where `send_time` and `queue_time` are the same). Times are microseconds. -/
structure Entry where
  id : Nat
  timestamp : Nat
  queued : Nat
deriving DecidableEq, Repr

/-- Addition of 64 bit numbers. -/
def add64 (a b : Nat) : Nat := (a + b) % 2 ^ 64

/-- What a queue is divided in by the check of timeouts: what remains, what is too old and also deleted from the message database, what has waited too long. -/
structure Checked where
  kept : List Entry := []
  expired : List Entry := []
  late : List Entry := []
deriving DecidableEq, Repr

/-- `p_httpclient.c:2230-2266 httpclient_queue_check_timeouts`. -/
def check (now ttl timeout : Nat) : List Entry → Checked
  | [] => {}
  | e :: r =>
    let c := check now ttl timeout r
    if ttl ≠ 0 ∧ now > add64 e.timestamp ttl then { c with expired := e :: c.expired }
    else if timeout ≠ 0 ∧ now > add64 e.queued timeout then { c with late := e :: c.late }
    else { c with kept := e :: c.kept }

/-- Result of an attempt to send. A failure to create data of a request counts as a hard error (`p_httpclient.c:2303-2308`). -/
inductive Res | ok | busy | soft | hard
deriving DecidableEq, Repr

/-- What a queue is divided in by processing: what remains, requests sent, messages given up, and how many were tried. -/
structure Done where
  kept : List Entry := []
  sent : List Entry := []
  lost : List Entry := []
  tried : Nat := 0
deriving DecidableEq, Repr

/-- `p_httpclient.c:2283-2359` in `httpclient_queue_process`. At attempt `k`, the environment says whether there is no more time (L2286-2290), and the result. -/
def processLoop (drop : Bool) (env : Nat → Bool × Res) : Nat → Int → List Entry → Done
  | _, _, [] => {}
  | k, max, e :: r =>
    if (env k).1 then { kept := e :: r }
    else
      let last := max = 0
      let max := max - 1
      let max := if (env k).2 = .busy then max + 1 else max
      let d := if last then { kept := r } else processLoop drop env (k + 1) max r
      let d := { d with tried := d.tried + 1 }
      match (env k).2 with
      | .ok => { d with sent := e :: d.sent }
      | .busy => { d with kept := e :: d.kept }
      | .soft => if drop then { d with lost := e :: d.lost } else { d with kept := e :: d.kept }
      | .hard => { d with lost := e :: d.lost }

/-- `p_httpclient.c:2268-2369 httpclient_queue_process`. -/
def process (drop : Bool) (env : Nat → Bool × Res) (q : List Entry) : Done := processLoop drop env 0 256 q

/-- `linked_list.h:359-372 RRR_LL_ROTATE`: the element at the position becomes the first. The element in front of the first is written to at position 0. -/
def rotateList (q : List Entry) (pos : Nat) : Option (List Entry) :=
  if pos ≥ q.length then none
  else if q.length ≤ 1 then some q
  else if pos = 0 then none
  else some (q.drop pos ++ q.take pos)

/-- `message_holder_collection.c:82-100 rrr_msg_holder_collection_rotate`. -/
def rotate (q : List Entry) (pos _lock : Nat) : Option (List Entry) := rotateList q pos

/-- `p_httpclient.c:2519-2534 httpclient_event_queue_process_check_rotate` with a random number. The position is given as the last argument (L2531). -/
def checkRotate (need : Bool) (rand : Nat) (q : List Entry) : Option (List Entry) :=
  if need ∧ q.length > 1 then rotate q 1 (rand % q.length) else some q

/-- Configuration (`p_httpclient.c:2045-2073`), times in microseconds. -/
structure Conf where
  ttl : Nat
  timeout : Nat
  lowTimeout : Nat
  drop : Bool
deriving DecidableEq, Repr

/-- `p_httpclient.c:2045-2054, 2068-2073, 2448`: the times from parameters. Nothing is an error at start. -/
def config (ttlSeconds timeoutMs factor : Nat) (drop : Bool) : Option Conf :=
  let ttl := (ttlSeconds * 1000000) % 2 ^ 64
  let timeout := (timeoutMs * 1000) % 2 ^ 64
  let low := (factor * timeout) % 2 ^ 64
  if low < timeout then none else some { ttl := ttl, timeout := timeout, lowTimeout := low, drop := drop }

/-- Queues of the module, and what became of messages. -/
structure State where
  redirect : List Entry := []
  msgdb : List Entry := []
  periodic : List Entry := []
  senders : List Entry := []
  low : List Entry := []
  msgdbRotate : Bool := false
  lowRotate : Bool := false
  sent : List Entry := []
  lost : List Entry := []
  expired : List Entry := []
  late : List Entry := []
deriving DecidableEq, Repr

/-- Where a message comes from: redirect (`p_httpclient.c:1096-1103`), message database (`p_httpclient.c:788-803`), timer (`p_httpclient.c:2625-2629`), other modules (`p_httpclient.c:1939-1950`), where
requests to be put have low priority if so configured. -/
inductive From | redirect | msgdb | msgdbLow | periodic | senders | sendersLow
deriving DecidableEq, Repr

/-- Adding to a queue, at the places above. -/
def arrive (f : From) (e : Entry) (s : State) : State :=
  match f with
  | .redirect => { s with redirect := s.redirect ++ [e] }
  | .msgdb => { s with msgdb := s.msgdb ++ [e], msgdbRotate := true }
  | .msgdbLow => { s with low := s.low ++ [e], lowRotate := true }
  | .periodic => { s with periodic := s.periodic ++ [e] }
  | .senders => { s with senders := s.senders ++ [e] }
  | .sendersLow => { s with low := s.low ++ [e] }

/-- Environment of a round: attempts for each queue, and random numbers. -/
structure Env where
  redirect : Nat → Bool × Res
  msgdb : Nat → Bool × Res
  periodic : Nat → Bool × Res
  senders : Nat → Bool × Res
  low : Nat → Bool × Res
  rand1 : Nat
  rand2 : Nat

/-- `p_httpclient.c:2536-2578 httpclient_event_queue_process`. Nothing is a crash. -/
def round (c : Conf) (v : Env) (s : State) : Option State :=
  let d := process c.drop v.redirect s.redirect
  let s := { s with redirect := d.kept, sent := s.sent ++ d.sent, lost := s.lost ++ d.lost }
  match checkRotate s.msgdbRotate v.rand1 s.msgdb with
  | none => none
  | some q =>
    let d := process c.drop v.msgdb q
    let s := { s with msgdb := d.kept, msgdbRotate := false, sent := s.sent ++ d.sent, lost := s.lost ++ d.lost }
    let d := process c.drop v.periodic s.periodic
    let s := { s with periodic := d.kept, sent := s.sent ++ d.sent, lost := s.lost ++ d.lost }
    let d := process c.drop v.senders s.senders
    let s := { s with senders := d.kept, sent := s.sent ++ d.sent, lost := s.lost ++ d.lost }
    if s.msgdb.length = 0 ∧ s.senders.length = 0 ∧ s.periodic.length = 0 then
      match checkRotate s.lowRotate v.rand2 s.low with
      | none => none
      | some q =>
        let d := process c.drop v.low q
        some { s with low := d.kept, lowRotate := false, sent := s.sent ++ d.sent, lost := s.lost ++ d.lost }
    else some s

/-- `p_httpclient.c:2451-2455` in `httpclient_event_periodic`. -/
def expire (c : Conf) (now : Nat) (s : State) : State :=
  let a := check now c.ttl c.timeout s.periodic
  let b := check now c.ttl c.timeout s.msgdb
  let d := check now c.ttl c.timeout s.senders
  let e := check now c.ttl c.timeout s.redirect
  let f := check now c.ttl c.lowTimeout s.low
  { s with
    periodic := a.kept, msgdb := b.kept, senders := d.kept, redirect := e.kept, low := f.kept
    expired := s.expired ++ a.expired ++ b.expired ++ d.expired ++ e.expired ++ f.expired
    late := s.late ++ a.late ++ b.late ++ d.late ++ e.late ++ f.late }

/-- Everything which happens. -/
inductive Op
  | arrive (f : From) (e : Entry)
  | round (v : Env)
  | expire (now : Nat)

/-- One step. -/
def step (c : Conf) (s : State) : Op → Option State
  | .arrive f e => some (arrive f e s)
  | .round v => round c v s
  | .expire now => some (expire c now s)

/-- Many steps. -/
def run (c : Conf) (s : State) : List Op → Option State
  | [] => some s
  | o :: r => match step c s o with
    | none => none
    | some s => run c s r

end Verif.HttpQueue
