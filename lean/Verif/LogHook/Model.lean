import Verif.Common

/-!
# Model of the delivery of log messages to hooks: `src/lib/log.c:139-303`

Any number of threads log, register hooks and unregister them at the same time. Hooks may log by themselves. Hooks are known by their
handles, messages and threads by numbers.

Not modelled: the text of messages (`:305-347`), printing, queues which are notified (not used by the code), hooks which register or
unregister hooks, and `rrr_log_hook_unregister_all_after_fork`, which is called when there is one thread only.
-/
namespace Verif.LogHook

/-- Where a thread is. Each step is one access to data which is shared. -/
inductive Pc where
  /-- Not in any function of the log. -/
  | idle
  /-- The lock was taken by someone at L163. The holder is looked at next, L164. Whether the lock was not taken by a thread which was calling
  hooks is not known to the program. -/
  | tried (m : Nat) (raced : Bool)
  /-- In `pthread_mutex_lock`, L166. -/
  | wait (m : Nat)
  /-- Has the lock, holder not written yet, L168. -/
  | got (m : Nat)
  /-- At the top of the loop with `i = k`, L288. -/
  | call (m k : Nat)
  /-- In the hook at position `k`, L290. -/
  | inHook (m k : Nat)
  /-- In the hook at position `k`, which logs a message, with L163 done. -/
  | nested (m k n : Nat)
  /-- Waits for a lock which it has. -/
  | stuck
  /-- In the loop at L182, to register. -/
  | regSpin
  /-- Has the lock, to register, L225. -/
  | regHeld
  /-- In the loop at L182, to unregister. -/
  | unregSpin (h : Nat)
  /-- Has the lock, to unregister, L255. -/
  | unregHeld (h : Nat)
  /-- Was cancelled. -/
  | dead
deriving DecidableEq, Repr

/-- What became of a message. -/
structure Entry where
  thread : Nat
  message : Nat
  /-- The hooks which there were when the lock was taken. There is nothing if the lock was not taken, so that no hook is called. -/
  hooks : Option (List Nat)
  /-- The lock was found to be taken by a thread which was not calling hooks. -/
  raced : Bool
deriving DecidableEq, Repr

structure State where
  pc : Nat → Pc := fun _ => .idle
  /-- `rrr_log_hook_lock`: the thread which has it. -/
  lock : Option Nat := none
  /-- `rrr_log_hook_lock_holder`. -/
  holder : Option Nat := none
  /-- `rrr_log_hooks` up to `rrr_log_hook_count`, as handles. -/
  hooks : List Nat := []
  /-- `rrr_log_hook_handle_pos`. -/
  handlePos : Nat := 1
  /-- Calls of hooks: handle and message. -/
  called : List (Nat × Nat) := []
  /-- What became of messages which were logged outside of hooks. -/
  outcome : List Entry := []
  /-- Messages logged by hooks, which are not delivered. -/
  skipped : List Nat := []
  /-- Handles for which `rrr_log_hook_unregister` has returned. -/
  gone : List Nat := []
  /-- The array was written outside of its bounds. -/
  overflow : Bool := false
  /-- `RRR_BUG`. -/
  aborted : Bool := false

inductive Act where
  | log (t m : Nat)
  | register (t : Nat)
  | unregister (t h : Nat)
  | step (t : Nat)
  | cancel (t : Nat)
deriving DecidableEq, Repr

/-- `RRR_LOG_HOOK_MAX`, log.c:58. -/
def hookMax : Nat := 5

def State.at (s : State) (t : Nat) (p : Pc) : State := { s with pc := fun u => if u = t then p else s.pc u }

/-- The thread has the lock, but does not call hooks. -/
def Pc.window : Pc → Bool
  | .got _ | .regHeld | .unregHeld _ => true
  | _ => false

/-- `log.c:162-169 LOCK_HOOK_BEGIN`, up to the attempt to take the lock. -/
def logAct (s : State) (t m : Nat) : State :=
  match s.pc t with
  | .idle => match s.lock with
    | none => { s.at t (.got m) with lock := some t }
    | some u => s.at t (.tried m (s.pc u).window)
  | .inHook m' k => match s.lock with
    | none => s                                                       -- cannot be, the thread has the lock
    | some _ => s.at t (.nested m' k m)
  | _ => s

/-- `log.c:210-222`. -/
def registerAct (s : State) (t : Nat) : State :=
  match s.pc t with
  | .idle => if s.hooks.length = hookMax then { s with aborted := true } else s.at t .regSpin
  | _ => s

/-- `log.c:248-253`. -/
def unregisterAct (s : State) (t h : Nat) : State :=
  match s.pc t with
  | .idle => s.at t (.unregSpin h)
  | _ => s

/-- The next step of a thread. -/
def stepAct (s : State) (t : Nat) : State :=
  match s.pc t with
  | .tried m raced =>                                                  -- L164
    if s.holder = some t then { s.at t .idle with outcome := s.outcome ++ [⟨t, m, none, raced⟩] } else s.at t (.wait m)
  | .wait m => if s.lock = none then { s.at t (.got m) with lock := some t } else s
  | .got m => { s.at t (.call m 0) with holder := some t, outcome := s.outcome ++ [⟨t, m, some s.hooks, false⟩] }
  | .call m k => match s.hooks[k]? with                                -- L288-300
    | some h => { s.at t (.inHook m k) with called := s.called ++ [(h, m)] }
    | none => { s.at t .idle with lock := none }
  | .inHook m k => s.at t (.call m (k + 1))
  | .nested m k n => if s.holder = some t then { s.at t (.inHook m k) with skipped := s.skipped ++ [n] } else s.at t .stuck
  | .regSpin => if s.lock = none then { s.at t .regHeld with lock := some t } else s
  | .regHeld =>                                                        -- L225-239
    if s.hooks.length < hookMax then
      { s.at t .idle with hooks := s.hooks ++ [s.handlePos], handlePos := s.handlePos + 1, lock := none }
    else { s with overflow := true, aborted := true }
  | .unregSpin h => if s.lock = none then { s.at t (.unregHeld h) with lock := some t } else s
  | .unregHeld h =>                                                    -- L255-273
    if s.hooks.contains h then { s.at t .idle with hooks := s.hooks.erase h, gone := s.gone ++ [h], lock := none }
    else { s with aborted := true }
  | _ => s

/-- `pthread_cancel` in a hook, with the cleanup handler `log.c:139-142`. -/
def cancelAct (s : State) (t : Nat) : State :=
  match s.pc t with
  | .inHook _ _ => { s.at t .dead with lock := none }
  | _ => s

def step (s : State) (a : Act) : State :=
  if s.aborted then s
  else match a with
    | .log t m => logAct s t m
    | .register t => registerAct s t
    | .unregister t h => unregisterAct s t h
    | .step t => stepAct s t
    | .cancel t => cancelAct s t

/-- A schedule. -/
def run (acts : List Act) : State := acts.foldl step {}

end Verif.LogHook
