import Verif.Stats.Model

/-!
# What a tree of statistics holds
-/
namespace Verif.Stats.Spec
open Verif Verif.Stats

/-- A path in parts, between slashes. -/
def parts : Bytes → List Bytes
  | [] => [[]]
  | c :: r => if c = slash then [] :: parts r else match parts r with
    | [] => [[c]]
    | p :: ps => (c :: p) :: ps

/-- The levels of a path: the parts which are not empty. -/
def levels (path : Bytes) : List Bytes := (parts path).filter (· ≠ [])

/-- A path which can hold a value. -/
def Accepted (path : Bytes) : Prop := 2 ≤ path.length ∧ path.getLast? ≠ some slash

instance (path : Bytes) : Decidable (Accepted path) := by unfold Accepted; infer_instance

/-- What is in the tree, by levels. -/
def valueAt : List Bytes → Branch → Option Bytes
  | [], b => b.value
  | l :: ls, b => match b.kids.find? (·.name = l) with
    | none => none
    | some k => valueAt ls k

/-- The value at each place, and when something was last put there or below. -/
structure Store where
  value : List Bytes → Option Bytes := fun _ => none
  touched : List Bytes → Nat := fun _ => 0

/-- A value is put at its place. Paths which cannot hold a value only touch the places they name. -/
def Store.insert (s : Store) (now : Nat) (path v : Bytes) : Store :=
  if path.length < 2 then s
  else {
    value := fun ls => if Accepted path ∧ ls = levels path then some v else s.value ls
    touched := fun ls => if ls <+: levels path then now else s.touched ls }

/-- Values are removed where nothing was put since then. -/
def Store.purge (s : Store) (min : Nat) : Store :=
  { s with value := fun ls => if ls ≠ [] ∧ s.touched ls < min then none else s.value ls }

def Store.step (s : Store) : Op → Store
  | .insert now path v => s.insert now path v
  | .purge min => s.purge min

def store (ops : List Op) : Store := ops.foldl Store.step {}

/-- The time does not go back. -/
def Forward : Nat → List Op → Prop
  | _, [] => True
  | t, .insert now _ _ :: ops => t ≤ now ∧ Forward now ops
  | t, .purge _ :: ops => Forward t ops

/-- A branch which is somewhere in a tree. -/
inductive Below : Branch → Branch → Prop where
  | self {t} : Below t t
  | kid {b t k} : k ∈ t.kids → Below b k → Below b t

end Verif.Stats.Spec
