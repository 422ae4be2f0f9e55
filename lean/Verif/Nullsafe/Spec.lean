import Verif.Nullsafe.Model

/-!
# What functions on strings should do
-/
namespace Verif.Nullsafe.Spec
open Verif Verif.Nullsafe

/-- Parts with separators between them. -/
def join (c : UInt8) : List Bytes → Bytes
  | [] => []
  | [x] => x
  | x :: r => x ++ c :: join c r

/-- Calls with every part, where only the last is said to be the last. -/
def flagged : List Bytes → List (Bytes × Bool)
  | [] => []
  | [x] => [(x, true)]
  | x :: r => (x, false) :: flagged r

/-- Calls stop after the first which does not return 0, and this is what is returned. -/
def upTo {α : Type} (callback : α → Int) : List α → List α × Int
  | [] => ([], 0)
  | a :: r => if callback a ≠ 0 then ([a], callback a) else (a :: (upTo callback r).1, (upTo callback r).2)

/-- The needle is at a position. -/
def At (s needle : Bytes) (p : Nat) : Prop := ∃ a b, s = a ++ needle ++ b ∧ a.length = p

end Verif.Nullsafe.Spec
