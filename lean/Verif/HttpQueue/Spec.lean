import Verif.HttpQueue.Model

/-!
# What the queues of the HTTP client module should do
-/
namespace Verif.HttpQueue.Spec
open Verif Verif.HttpQueue

/-- A message is tried again later if the client is busy, or after a soft error unless such messages are to be dropped. -/
def Again (drop : Bool) (r : Res) : Bool := r == .busy || (r == .soft && !drop)

/-- A message is given up after a hard error, and after a soft error if so configured. -/
def GivenUp (drop : Bool) (r : Res) : Bool := r == .hard || (r == .soft && drop)

/-- Messages with the results of attempts. -/
def attempts (env : Nat → Bool × Res) (k t : Nat) (q : List Entry) : List (Entry × Res) :=
  (q.take t).zip ((List.range' k t).map (fun i => (env i).2))

/-- A message is older than it may be. -/
def TooOld (now ttl : Nat) (e : Entry) : Bool := decide (0 < ttl) && decide (e.timestamp + ttl < now)

/-- A message has waited longer than it may. -/
def TooLate (now timeout : Nat) (e : Entry) : Bool := decide (0 < timeout) && decide (e.queued + timeout < now)

/-- Everything put in queues. -/
def arrivals : List Op → List Entry
  | [] => []
  | .arrive _ e :: r => e :: arrivals r
  | _ :: r => arrivals r

/-- How many times a message is waiting. -/
def waiting (s : State) (e : Entry) : Nat := s.redirect.count e + s.msgdb.count e + s.periodic.count e + s.senders.count e + s.low.count e

end Verif.HttpQueue.Spec
