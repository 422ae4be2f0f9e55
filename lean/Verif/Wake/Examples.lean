import Verif.Wake.Props
/-!
# Wake-ups: histories
-/
namespace Verif.Wake
open Verif

/-- Instance 1 writes, with duplicated output, to 2 and 3; instance 4 writes to 3. -/
def cfg1 : Cfg where
  listeners := fun s => if s = 1 then [2, 3] else if s = 4 then [3] else []
  senders := fun r => if r = 2 then [1] else if r = 3 then [1, 4] else []
  dup := fun s => s == 1

theorem cfg1_ok : cfg1.Sound ∧ cfg1.Private := by
  refine ⟨⟨?_, ?_, ?_⟩, ?_⟩
  · intro s r
    simp only [cfg1]
    split <;> (try split) <;> (try split) <;> (try split) <;> simp_all <;> omega
  · intro s; simp only [cfg1]; split <;> (try split) <;> decide
  · intro r; simp only [cfg1]; split <;> (try split) <;> decide
  · intro s
    simp only [cfg1]
    by_cases h : s = 1
    · left; simp [h]
    · right; rw [if_neg h]; split <;> decide

/-- What can be seen of a reader. -/
structure View where
  waiting : Nat
  /-- number it has been told -/
  told : Nat
  /-- not in the handler -/
  idle : Bool
  callable : Bool
  timer : Bool
  deriving DecidableEq

def view (c : Cfg) (r : Nat) (st : St) : View :=
  ⟨waiting c st r, credit (st.q r), (match (st.q r).h with | .idle => true | _ => false), (st.q r).callable, (st.q r).timer⟩

/-- Two messages from 1 and one from 4; reader 3 gets the first while the others are still being written. -/
def hist : List Act :=
  [.store 1, .done 1 (fun _ => 0), .pass 1, .dispatch 3 false, .store 1, .call 3, .give 3 1, .store 4, .done 4 (fun _ => 7), .ret 3, .fin 3, .done 1 (fun _ => 0), .pass 0, .pass 1, .pass 0, .pass 0]

/-- The theorems apply, with messages waiting for both readers. -/
example : (∀ a ∈ hist, NoFail a) ∧ (∀ a ∈ hist, NoPause 3 a) ∧ (St.init.run cfg1 hist).map (fun st => (view cfg1 2 st, view cfg1 3 st, st.todo, st.wr 1, st.wr 4)) =
    some (⟨2, 2, true, true, false⟩, ⟨2, 2, true, true, false⟩, [], 0, 0) := by
  refine ⟨?_, ?_, by decide +kernel⟩ <;> (intro a ha; simp only [hist, List.mem_cons, List.not_mem_nil, or_false] at ha; rcases ha with h | h | h | h | h | h | h | h | h | h | h | h | h | h | h | h <;> subst h <;> first | trivial | (intro _; rfl))

/-- Instance 1 writes to 2 only. -/
def cfg2 : Cfg where
  listeners := fun s => if s = 1 then [2] else []
  senders := fun r => if r = 2 then [1] else []
  dup := fun _ => false

/-- The module's function returns without taking the message (for instance as the buffer is locked), five times. -/
def busy5 : List Act := (List.replicate 5 [Act.call 2, .ret 2]).flatten

/-- **Violation of C95**: `event_del` takes back the activation for the deferred amount, and the unpause timer does not renew it. The reader sleeps for good with a message waiting, although it is no longer to pause. -/
theorem pause_loses_wakeup :
    (St.init.run cfg2 ([.store 1, .done 1 (fun _ => 0), .pass 0, .dispatch 2 false] ++ busy5 ++ [.fin 2, .dispatch 2 true, .fire 2])).map (view cfg2 2) = some ⟨1, 1, true, false, false⟩ := by
  decide +kernel

/-- Without duplicated output, instance 1 writes to 2 and 3; instance 4 writes to 2. -/
def cfg3 : Cfg where
  listeners := fun s => if s = 1 then [2, 3] else if s = 4 then [2] else []
  senders := fun r => if r = 2 then [1, 4] else if r = 3 then [1] else []
  dup := fun _ => false

/-- **Violation of C95** when a buffer has several readers: the notification of the first message goes to 3, that of the message of 4 goes to 2, but 2 takes the first message. Now 2 sleeps while a message waits which only 2 can take, and 3 polls again and again. -/
theorem shared_loses_wakeup :
    (St.init.run cfg3 ([.store 1, .done 1 (fun _ => 1), .store 4, .done 4 (fun _ => 0), .pass 1, .pass 0, .dispatch 2 false, .call 2, .give 2 1, .ret 2, .fin 2, .dispatch 3 false] ++
      (List.replicate 5 [Act.call 3, .ret 3]).flatten ++ [.fin 3])).map (fun st => (view cfg3 2 st, view cfg3 3 st)) =
    some (⟨1, 0, true, false, false⟩, ⟨0, 1, true, true, false⟩) := by
  decide +kernel

/-- **Violation of C95** when a write function fails in a later round: what was stored is not notified. -/
theorem failed_write_not_notified : (St.init.run cfg2 [.store 1, .fail 1]).map (view cfg2 2) = some ⟨1, 0, true, false, false⟩ := by decide +kernel

/-- When not all of a collection can be written, the readers are told about messages which are not there, and poll for them again and again. -/
theorem failed_collection_notified :
    (St.init.run cfg2 ([.store 1, .over 1 2 (fun _ => 0), .pass 0, .dispatch 2 false, .call 2, .give 2 1, .ret 2] ++ (List.replicate 4 [Act.call 2, .ret 2]).flatten ++ [.fin 2])).map (view cfg2 2) =
    some ⟨0, 2, true, true, false⟩ := by decide +kernel

end Verif.Wake
