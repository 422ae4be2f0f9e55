import Verif.Hub.Props
/-!
# Duplicated output: histories
-/
namespace Verif.Hub
open Verif Pfifo Fifo

def outcome (n : Nat) (as : List (HubAct Nat)) : Option (List (Nat × Option Nat)) :=
  match Hub.init.run n as with
  | .ok h => some h.log
  | _ => none

/-- A reader calls, and nobody else does anything. Its callback frees what it is given. -/
def poll (r k : Nat) : List (HubAct Nat) := [.find r, .fill r] ++ List.replicate k (.move r) ++ List.replicate k (.read r 0)

/-- Two readers. Reader 0 moves the first message while reader 1 begins to poll, finds the lock taken and goes on; then reader 1 stops after one message. -/
def hist : List (HubAct Nat) :=
  [.write 1, .write 2, .find 1, .find 0, .fill 0, .fill 1] ++ List.replicate 5 (.move 0) ++ [.write 3, .read 1 0, .read 1 0] ++
  List.replicate 30 (.move 0) ++ List.replicate 30 (.read 1 STOP) ++ List.replicate 30 (.read 0 0) ++ poll 1 30 ++ poll 0 30

theorem legal_0 : Legal 0 := ⟨false, false, false, false, by decide⟩
theorem legal_stop : Legal STOP := ⟨false, true, false, false, by decide⟩

/-- Check for `LegalStep`. -/
def legalB (n : Nat) : HubAct Nat → Bool
  | .read _ ret => ret = 0 || ret = STOP
  | .find r => r < n
  | _ => true

theorem legal_ok {n : Nat} (as : List (HubAct Nat)) (h : as.all (legalB n) = true) : ∀ a ∈ as, LegalStep n a := by
  intro a ha
  have := List.all_eq_true.1 h a ha
  cases a with
  | read r ret =>
    simp only [legalB, Bool.or_eq_true, decide_eq_true_eq] at this
    rcases this with e | e <;> subst e
    · exact legal_0
    · exact legal_stop
  | find r => show r < n; simpa [legalB] using this
  | _ => trivial

/-- `duplicated_output` applies; both readers are given the three messages. -/
example : (∀ a ∈ hist, LegalStep 2 a) ∧
    (outcome 2 hist).map (fun l => (seen l 0, seen l 1)) = some ([some 1, some 2, some 3], [some 1, some 2, some 3]) :=
  ⟨legal_ok _ (by decide +kernel), by decide +kernel⟩

/-- With more readers than slots the program ends, as the comment of `rrr_message_broker_setup_split_output_buffer` says. -/
theorem more_readers_than_slots : (match (Hub.init : Hub Nat).run 1 [.find 0, .find 1] with | .bug => true | _ => false) = true := by decide +kernel

/-- The number of entries which `rrr_message_broker_get_entry_count_and_ratelimit` reports does not include those which are in the write queues of the split queues: here it is zero, and reader 0
has not been given anything of what was written. -/
theorem entries_not_reported :
    (match (Hub.init : Hub Nat).run 2 ([.write 1, .find 0] ++ poll 1 30) with
      | .ok h => some (h.main.b.count + (h.sq 0).b.count + (h.sq 1).b.count, seen h.log 0, seen h.log 1)
      | _ => none) = some (0, [], [some 1]) := by decide +kernel

end Verif.Hub
