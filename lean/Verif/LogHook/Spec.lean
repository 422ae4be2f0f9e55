import Verif.LogHook.Model

/-! # What is said about log messages -/
namespace Verif.LogHook.Spec

/-- The messages which a thread logs outside of hooks, in order. -/
def logged (t : Nat) : State → List Act → List Nat
  | _, [] => []
  | s, a :: l =>
    (match a with
      | .log u m => if u = t ∧ s.pc t = .idle ∧ s.aborted = false then [m] else []
      | _ => []) ++ logged t (step s a) l

/-- A message which a thread is about to deliver. -/
def pending : Pc → List Nat
  | .tried m _ | .wait m | .got m => [m]
  | _ => []

/-- The thread is calling hooks. -/
def Calling : Pc → Prop
  | .call _ _ | .inHook _ _ | .nested _ _ _ => True
  | _ => False

/-- All calls which are to be made: each message to all hooks which there were, one message after the other. -/
def deliveries (l : List Entry) : List (Nat × Nat) :=
  l.flatMap fun e => match e.hooks with
    | none => []
    | some hs => hs.map fun h => (h, e.message)

/-- A thread has the lock but has not made it known that it has it. -/
def Race (s : State) : Prop := ∃ u, s.lock = some u ∧ ((∃ m, s.pc u = .got m) ∨ s.pc u = .regHeld ∨ ∃ h, s.pc u = .unregHeld h)

/-- A thread is about to register a hook. -/
def Registering : Pc → Prop
  | .regSpin | .regHeld => True
  | _ => False

end Verif.LogHook.Spec
