/-!
# Model of `src/lib/threads.c`: the start of any number of threads

Threads wait for signals from the main thread, which waits for their states. Each step is one access to what is shared, and steps are in any order. Watchdogs do nothing until all threads
are started, and are left out. So are failures of `pthread_create`, and the state `STOPPING`, which a thread sets when it is done.
-/
namespace Verif.Threads.Start

/-- The state which others see. `none` is between the two operations of `rrr_thread_state_set`, `threads.c:205-206`. -/
inductive Seen where
  | new | none | initialized | forked | stopped
deriving DecidableEq, Repr

inductive Goal where
  | initialized | forked | stopped
deriving DecidableEq, Repr

/-- Where a thread is, `threads.c:907-939`, `:496-540`. -/
inductive Pc where
  | waitInit | init | waitBefore | forking | waitAfter | running | cleanup | ended
  | clear (g : Goal)
  | put (g : Goal)
deriving DecidableEq, Repr

/-- A thread and its signals. -/
structure Th where
  pc : Pc := .waitInit
  seen : Seen := .new
  start : Bool := false
  before : Bool := false
  after : Bool := false
  stop : Bool := false
deriving DecidableEq, Repr

def Goal.seen : Goal → Seen
  | .initialized => .initialized
  | .forked => .forked
  | .stopped => .stopped

def Goal.next : Goal → Pc
  | .initialized => .waitBefore
  | .forked => .waitAfter
  | .stopped => .ended

/-- One step of a thread. `leave` says that the thread has finished by itself. A thread which forks, and one which does not, take the same steps (L501-502, L532-536). Whether it is to stop
is checked before its routine is run (L925), and from then on by the routine itself. -/
def thStep (leave : Bool) (t : Th) : Th :=
  match t.pc with
  | .waitInit => if t.start then { t with pc := if t.stop then .cleanup else .init } else t
  | .init => { t with pc := if leave then .cleanup else .clear .initialized }
  | .waitBefore => if t.before then { t with pc := .forking } else t
  | .forking => { t with pc := .clear .forked }
  | .waitAfter => if t.after then { t with pc := .running } else t
  | .running => if leave then { t with pc := .cleanup } else t
  | .cleanup => { t with pc := .clear .stopped }
  | .clear g => { t with pc := .put g, seen := .none }
  | .put g => { t with pc := g.next, seen := g.seen }
  | .ended => t

/-- Where the main thread is, `threads.c:559-651`. -/
inductive Main where
  | signalInit (i : Nat)        -- L569-571
  | waitInit (i : Nat)          -- L574, L398-431
  | signalBefore (i : Nat)      -- L590
  | waitForked (i : Nat)        -- L595, L433-476
  | signalAfter                 -- L603-631
  | up
  | stop (i : Nat)              -- L346
  | done
deriving DecidableEq, Repr

structure State where
  n : Nat
  th : Nat → Th := fun _ => {}
  main : Main := .signalInit 0

def State.set (s : State) (i : Nat) (t : Th) : State := { s with th := fun j => if j = i then t else s.th j }

inductive Act where
  | thread (i : Nat) (leave : Bool)
  /-- The main thread does its next step. Where it asks which threads may start (L617), the answer is for thread `k`. -/
  | main (k : Nat)
  /-- The start fails, as a thread takes too long or may not start (L574, L595, L617), or the program is stopped. -/
  | quit
deriving DecidableEq, Repr

def mainStep (k : Nat) (s : State) : State :=
  match s.main with
  | .signalInit i =>
    if i < s.n then { s.set i { s.th i with start := true } with main := .signalInit (i + 1) } else { s with main := .waitInit 0 }
  | .waitInit i =>
    if i < s.n then
      if (s.th i).seen = .initialized ∨ (s.th i).seen = .stopped then { s with main := .waitInit (i + 1) } else s
    else { s with main := .signalBefore 0 }
  | .signalBefore i =>
    if i < s.n then { s.set i { s.th i with before := true } with main := .waitForked i } else { s with main := .signalAfter }
  | .waitForked i =>
    if (s.th i).seen = .forked ∨ (s.th i).seen = .stopped then { s with main := .signalBefore (i + 1) } else s
  | .signalAfter =>
    if (List.range s.n).all (fun i => (s.th i).after) then { s with main := .up }
    else s.set k { s.th k with after := true }
  | .up => s
  | .stop i =>
    if i < s.n then { s.set i { s.th i with start := true, before := true, after := true, stop := true } with main := .stop (i + 1) } else { s with main := .done }
  | .done => s

def step (s : State) : Act → State
  | .thread i leave => if i < s.n then s.set i (thStep leave (s.th i)) else s
  | .main k => mainStep k s
  | .quit => match s.main with
    | .stop _ | .done => s
    | _ => { s with main := .stop 0 }

/-- A schedule of the start of `n` threads. -/
def run (n : Nat) (acts : List Act) : State := acts.foldl step { n := n }

end Verif.Threads.Start
