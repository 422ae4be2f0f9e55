import Verif.Threads.Model

/-!
# Words used to state what threads rely on
-/
namespace Verif.Threads.Spec
open Verif.Threads

/-- The thread has left its own loop, or never got there: it is cleaning up, or done. -/
def Left : Thread → Prop
  | .stopping | .cleanup | .report | .ended => True
  | .clear g | .put g _ | .verify g _ => g = .stopping ∨ g = .stopped
  | _ => False

/-- The thread is in one of its waits for a signal to go on. -/
def Waits (t : Thread) : Prop := t = .waitInit ∨ t = .waitBefore ∨ t = .waitAfter

/-- The main thread has told everyone to stop, and waits for the watchdog. -/
def Joining (s : State) : Prop := s.main = .join

/-- The main thread is done with waiting for the watchdog. -/
def Joined (s : State) : Prop := s.main = .destroy ∨ s.main = .finished

/-- How many times the watchdog looked at the time, and what it waited for had come. -/
def lateTurns (acts : List Act) : Nat := acts.countP (· = .watchdog true)

end Verif.Threads.Spec
