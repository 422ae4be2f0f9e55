import Verif.Fork.Model

/-!
# What is expected of the notifications, and the runs in which they are kept
-/

namespace Verif.Fork

/-- The function of child c was called. -/
def Notified (s : State) (c : Nat) : Prop := ∃ q h, (q, c, h) ∈ s.log

/-- The child c of the process p has ended and nobody has waited for it. -/
def Ended (s : State) (p c : Nat) : Prop := c < s.count ∧ (s.procs c).parent = p ∧ (s.procs c).status = .zombie

/-- The loop of `waitpid`. -/
def Phase.waiting : Phase → Bool
  | .reaping _ _ => true
  | _ => false

/-- The process is in the loop of `waitpid`. -/
def Waiting (s : State) (p : Nat) : Prop := (s.procs p).phase.waiting = true

/-- No two processes are in `rrr_fork` at the same time, children do not end before `rrr_fork` has returned in the parent,
and no child ends shortly before a forced call. -/
def Careful (s : State) : Label → Prop
  | .choose _ => ∀ q, q < s.count → (s.procs q).forking = .none
  | .exit c => ∀ q i, q < s.count → (s.procs q).forking ≠ .forked i c
  | .reap p _ => ∀ l, (s.procs p).phase ≠ .reaping true l
  | _ => True

/-- Every step is careful. -/
def CarefulRun (s : State) : List Label → Prop
  | [] => True
  | l :: r => Careful s l ∧ ∀ s', step s l = some s' → CarefulRun s' r

end Verif.Fork
