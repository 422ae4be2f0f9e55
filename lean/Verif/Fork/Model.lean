/-!
# Children of the program and the notifications about their end (`fork.c`)

The main process and its children share one table of forks. Each process may have one thread which forks and one which handles ended children at the same time,
and all processes run at the same time. What is done while the lock of the table is held by a process is one step for the other users of the table,
but children may end at any time.

Simplifications: process numbers are not used again, a process does not end while it holds the lock, errors of `fork` are not modelled, and more ended children
than the table has entries (an abort at L340-342) are not modelled. Processes which lose their parent get the parent 0.
-/

namespace Verif.Fork

/-- `fork.h:32-39`: an entry of the table. The process number 0 is a free entry. The function which is called is a number. -/
structure Slot where
  pid : Nat
  parent : Nat
  waited : Bool
  notify : Nat
deriving DecidableEq, Repr

/-- `fork.c:118-128 __rrr_fork_clear`. -/
def Slot.clear : Slot := ⟨0, 0, false, 0⟩

/-- A process runs, has ended, or has ended and has been waited for. Numbers from `count` on are not yet used. -/
inductive Status | run | zombie | gone
deriving DecidableEq, Repr

/-- Where a thread is in `rrr_fork`: nowhere, after the choice of an entry (L414), or in the parent after the fork (L423). -/
inductive Forking | none | chosen (i : Nat) | forked (i c : Nat)
deriving DecidableEq, Repr

/-- Where a thread is in `rrr_fork_handle_sigchld_and_notify_if_needed`: nowhere, in the loop at L339-345, or after it. -/
inductive Phase | idle | reaping (force : Bool) (l : List Nat) | scanning (force : Bool) (l : List Nat)
deriving DecidableEq, Repr

/-- A process. `sig` is a SIGCHLD which the kernel has not yet delivered, `pending` the variable at `fork.c:158`. -/
structure Proc where
  parent : Nat
  status : Status
  sig : Bool
  pending : Bool
  forking : Forking
  phase : Phase
deriving DecidableEq, Repr

/-- All processes and the table. `registered`, `log` and `removed` are the history: which children were forked by whom with which function,
which functions were called in which process for which child, and for which children the functions were removed. -/
structure State where
  count : Nat
  procs : Nat → Proc
  cap : Nat
  slots : Nat → Slot
  registered : List (Nat × Nat × Nat)
  log : List (Nat × Nat × Nat)
  removed : List Nat

def upd {α : Type} (f : Nat → α) (i : Nat) (v : α) : Nat → α := fun j => if j = i then v else f j

/-- `fork.c:73-110 rrr_fork_handler_new`: the main process is 1. -/
def start (cap : Nat) : State :=
  ⟨2, fun i => if i = 1 then ⟨0, .run, false, false, .none, .idle⟩ else ⟨0, .gone, false, false, .none, .idle⟩, cap, fun _ => Slot.clear, [], [], []⟩

inductive Label
  | choose (p : Nat)
  | fork (p : Nat)
  | store (p h : Nat)
  | exit (c : Nat)
  | init (c : Nat)
  | deliver (p : Nat)
  | begin (p : Nat) (force : Bool)
  | reap (p c : Nat)
  | endReap (p : Nat)
  | scan (p : Nat)
  | unregister (p c : Nat)
  | mark (p : Nat)
deriving DecidableEq, Repr

/-- No process holds the lock of the table. -/
def unlocked (s : State) : Bool := (List.range s.count).all fun p => (s.procs p).phase == .idle

/-- `waitpid(c, …, WNOHANG)` in the process p gives c. -/
def waits (s : State) (p c : Nat) : Bool := c < s.count && (s.procs c).parent == p && (s.procs c).status == .zombie

/-- `fork.c:385-398 __rrr_fork_allocate_unlocked`: the first free entry. -/
def allocate (s : State) : Option Nat := (List.range s.cap).find? fun i => (s.slots i).pid == 0

/-- `fork.c:347-378`: which entries are notified and cleared. In a forced call, the numbers in the list are not looked at. -/
def notifies (s : State) (p : Nat) (force : Bool) (l : List Nat) (x : Slot) : Bool :=
  if x.pid = 0 ∨ x.pid = p then false
  else if x.waited then true
  else if force then waits s p x.pid
  else l.contains x.pid

/-- The entry of a child which has not been waited for by `rrr_fork_send_sigusr1_and_wait`. -/
def listed (s : State) (c : Nat) : Bool := (List.range s.cap).any fun i => (s.slots i).pid == c && !(s.slots i).waited

/-- A waitpid has returned c. -/
def gone (f : Nat → Proc) (c : Nat) : Nat → Proc := upd f c { f c with status := .gone }

/-- One step of a process or of the kernel. -/
def step (s : State) : Label → Option State
  -- `fork.c:407-421 rrr_fork`: an entry is chosen, but nothing is written to it.
  | .choose p =>
    if p < s.count ∧ (s.procs p).status = .run ∧ (s.procs p).forking = .none ∧ unlocked s then
      (allocate s).map fun i => { s with procs := upd s.procs p { s.procs p with forking := .chosen i } }
    else none
  -- `fork.c:423`. The child has a copy of the variable `rrr_fork_handler_signal_pending`.
  | .fork p => match (s.procs p).forking with
    | .chosen i =>
      if p < s.count ∧ (s.procs p).status = .run then
        some { s with count := s.count + 1,
                      procs := upd (upd s.procs p { s.procs p with forking := .forked i s.count }) s.count
                        ⟨p, .run, false, (s.procs p).pending, .none, .idle⟩ }
      else none
    | _ => none
  -- `fork.c:442-451`.
  | .store p h => match (s.procs p).forking with
    | .forked i c =>
      if p < s.count ∧ (s.procs p).status = .run ∧ unlocked s then
        some { s with procs := upd s.procs p { s.procs p with forking := .none },
                      -- The flag `was_waited_for` is not written.
                      slots := upd s.slots i { s.slots i with pid := c, parent := p, notify := h },
                      registered := s.registered ++ [(p, c, h)] }
      else none
    | _ => none
  -- A process ends, and its children get another parent.
  | .exit c =>
    if c < s.count ∧ (s.procs c).status = .run ∧ (s.procs c).phase = .idle then
      some { s with procs := fun j =>
        if j = c then { s.procs c with status := .zombie, sig := false, pending := false, forking := .none }
        else let q := if (s.procs j).parent = c then { s.procs j with parent := 0 } else s.procs j
          if j = (s.procs c).parent then { q with sig := true } else q }
    else none
  -- Children without parent are waited for by the init process.
  | .init c => if waits s 0 c then some { s with procs := gone s.procs c } else none
  -- `fork.c:160-172 rrr_fork_signal_handler`.
  | .deliver p =>
    if (s.procs p).sig ∧ (s.procs p).status = .run then some { s with procs := upd s.procs p { s.procs p with sig := false, pending := true } }
    else none
  -- `fork.c:321-325`.
  | .begin p force =>
    if p < s.count ∧ p ≠ 0 ∧ (s.procs p).status = .run ∧ ((s.procs p).pending ∨ force) ∧ unlocked s then
      some { s with procs := upd s.procs p { s.procs p with pending := false, phase := .reaping force [] } }
    else none
  -- `fork.c:339-345`: `waitpid(-1, …)` gives a child.
  | .reap p c => match (s.procs p).phase with
    | .reaping force l =>
      if waits s p c then some { s with procs := gone (upd s.procs p { s.procs p with phase := .reaping force (l ++ [c]) }) c } else none
    | _ => none
  -- `fork.c:339`: there is no further child which has ended.
  | .endReap p => match (s.procs p).phase with
    | .reaping force l =>
      if (List.range s.count).all (fun c => !waits s p c) then some { s with procs := upd s.procs p { s.procs p with phase := .scanning force l } } else none
    | _ => none
  -- `fork.c:347-381`, with `fork.c:183-194 __rrr_fork_notify_and_clear`.
  | .scan p => match (s.procs p).phase with
    | .scanning force l =>
      some { s with
        procs := fun c =>
          let q := s.procs c
          if c = p then { q with phase := .idle }
          else if force && c != 0 && waits s p c && listed s c then { q with status := .gone }
          else q,
        slots := fun i => if i < s.cap ∧ notifies s p force l (s.slots i) then Slot.clear else s.slots i,
        log := s.log ++ (((List.range s.cap).map s.slots).filter (notifies s p force l)).map fun x => (p, x.pid, x.notify) }
    | _ => none
  -- `fork.c:457-478 rrr_fork_unregister_exit_handler`.
  | .unregister p c =>
    if p < s.count ∧ c ≠ 0 ∧ (s.procs p).status = .run ∧ unlocked s then
      some { s with slots := match (List.range s.cap).find? (fun i => (s.slots i).pid == c) with
                      | some i => upd s.slots i Slot.clear
                      | none => s.slots,
                    removed := s.removed ++ [c] }
    else none
  -- `fork.c:212-253 __rrr_fork_wait_loop`, called by `rrr_fork_send_sigusr1_and_wait`: one round.
  | .mark p =>
    if p < s.count ∧ p ≠ 0 ∧ (s.procs p).status = .run ∧ unlocked s then
      some { s with
        procs := fun c => if c != 0 && waits s p c && listed s c then { s.procs c with status := .gone } else s.procs c,
        slots := fun i => let x := s.slots i
          if x.pid ≠ 0 ∧ waits s p x.pid then { x with waited := true } else x }
    else none

/-- Steps in any order. -/
def run (s : State) : List Label → Option State
  | [] => some s
  | l :: r => (step s l).bind fun s' => run s' r

end Verif.Fork
