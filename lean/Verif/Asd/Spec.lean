import Verif.Asd.Model
/-!
# Assured single delivery: what it means
-/
namespace Verif.Asd
open Verif

variable {α : Type}

/-- The sender does not begin anew, and does not reset the receiver. -/
def NoReset : Act α → Prop
  | .reset => False
  | .restart => False
  | _ => True

/-- How many messages are given to the sender. -/
def given : List (Act α) → Nat
  | [] => 0
  | .queue _ :: t => given t + 1
  | _ :: t => given t

/-- The periodic tasks of the receiver run often enough: at no moment have more than 1000 messages been delivered since they ran. -/
def Regular (as : List (Act α)) : Prop :=
  ∀ bs cs, as = bs ++ cs → ∀ w, ({} : World α).run bs = .ok w → w.rx.started ≤ 1000

/-- What the application of the receiver has been given. -/
def delivered (w : World α) : List α := w.rx.log.map (fun x => x.2.2)

/-- What the sender still keeps. -/
def pending (w : World α) : List α := w.tx.queue.map SEnt.msg

end Verif.Asd
