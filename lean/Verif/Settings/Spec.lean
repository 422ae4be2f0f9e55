import Verif.Settings.Model
/-!
# What settings mean

Stated on the texts, not with the functions of the model.
-/
namespace Verif.Settings.Spec
open Verif

/-- A setting is added (refused when there is one with its name) or set. -/
structure Op where
  replace : Bool
  name : Bytes
  value : Bytes

/-- The values by name, and how many there are. -/
structure Dict where
  get : Bytes → Option Bytes
  count : Nat

/-- No settings. -/
def Dict.empty : Dict := { get := fun _ => none, count := 0 }

/-- The same with one value more, or another value. -/
def Dict.put (d : Dict) (n v : Bytes) : Dict :=
  { get := fun m => if m = n then some v else d.get m,
    count := if d.get n = none then d.count + 1 else d.count }

/-- An operation is done when there is room, and the name is new or may be replaced. -/
def Accepts (max : Nat) (d : Dict) (op : Op) : Prop :=
  if d.get op.name = none then d.count ≠ max else op.replace = true

instance (max : Nat) (d : Dict) (op : Op) : Decidable (Accepts max d op) := by
  unfold Accepts; infer_instance

/-- One operation, and whether it is done. -/
def step (max : Nat) (d : Dict) (op : Op) : Dict × Bool :=
  if Accepts max d op then (d.put op.name op.value, true) else (d, false)

/-- Operations one after the other, and which are done. -/
def run (max : Nat) : Dict → List Op → Dict × List Bool
  | d, [] => (d, [])
  | d, op :: ops =>
    let x := step max d op
    let y := run max x.1 ops
    (y.1, x.2 :: y.2)

/-- The digits 0 to 9. -/
def Digits (v : Bytes) : Prop := ∀ c ∈ v, (48 : UInt8) ≤ c ∧ c ≤ 57

/-- The number which digits are, from left to right. -/
def number (v : Bytes) : Nat := v.foldl (fun n c => n * 10 + (c.toNat - 48)) 0

/-- Values written one after the other with commas between them. -/
def join : List Bytes → Bytes
  | [] => []
  | [v] => v
  | v :: vs => v ++ 44 :: join vs

/-- The delimiter `d` is in `v` first after `a`, and `b` follows. -/
def First (d v a b : Bytes) : Prop :=
  v = a ++ (d ++ b) ∧ ∀ k, k < a.length → ¬ d <+: v.drop k

/-- The operations done to settings of the program, and which return 0. -/
def play : Store → List Op → Store × List Bool
  | s, [] => (s, [])
  | s, op :: ops =>
    let x := if op.replace then replaceString s op.name op.value else addString s op.name op.value
    let y := play x.1 ops
    (y.1, x.2 :: y.2)

/-- What reading a setting as a string gives, and the marks of used settings are not looked at. -/
def string (s : Store) (n : Bytes) : Ret Bytes := readString (findUsed [] s n).2

/-- The marks after settings have been asked for. -/
def ask (s : Store) (names : List Bytes) (used : List Bool) : List Bool :=
  names.foldl (fun u n => (findUsed u s n).1) used

end Verif.Settings.Spec
