import Verif.Hub.Model
/-!
# What is expected of the duplicated output
-/
namespace Verif.Hub
open Verif Pfifo

variable {α : Type}

/-- The messages which are written in a sequence of steps. -/
def written : List (HubAct α) → List α
  | [] => []
  | .write d :: as => d :: written as
  | _ :: as => written as

/-- The messages which a reader has been given, in order. -/
def seen (log : List (Nat × Option α)) (r : Nat) : List (Option α) := (log.filter fun x => x.1 = r).map Prod.snd

/-- Callbacks return what they may, and there are no more readers than slots. -/
def LegalStep (n : Nat) : HubAct α → Prop
  | .read _ ret => Legal ret
  | .find r => r < n
  | _ => True

/-- A thread is working on the main queue. -/
def onMain : At α → Prop
  | .fill _ => True
  | .copy _ _ _ => True
  | _ => False

/-- A thread is working on split queue `i` as its reader. -/
def onSplit (i : Nat) : At α → Prop
  | .read j => i = j
  | _ => False

end Verif.Hub
