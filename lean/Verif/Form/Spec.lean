import Verif.Form.Model

/-!
# What forms are, as text

Written with the characters of the `application/x-www-form-urlencoded` format, without reference to the functions of the model.
-/
namespace Verif.Form.Spec
open Verif

/-- Value of a hexadecimal digit, in upper or lower case. -/
def hexValue (c : UInt8) : Option Nat :=
  if 48 ≤ c.toNat ∧ c.toNat ≤ 57 then some (c.toNat - 48)
  else if 65 ≤ c.toNat ∧ c.toNat ≤ 70 then some (c.toNat - 55)
  else if 97 ≤ c.toNat ∧ c.toNat ≤ 102 then some (c.toNat - 87)
  else none

/-- Characters which stand for themselves: all but `%`, `&`, `+`, `=` and white space. -/
def Plain (c : UInt8) : Prop := c ∉ [37, 38, 43, 61, 32, 9, 13, 10]

/-- The text `t` is a way to write the bytes `s`. -/
inductive Writes : Bytes → Bytes → Prop
  | nil : Writes [] []
  | plain (c : UInt8) (t s : Bytes) : Plain c → Writes t s → Writes (c :: t) (c :: s)
  | plus (t s : Bytes) : Writes t s → Writes (43 :: t) (32 :: s)
  | hex (a b : UInt8) (x y : Nat) (t s : Bytes) : hexValue a = some x → hexValue b = some y → Writes t s →
      Writes (37 :: a :: b :: t) (UInt8.ofNat (16 * x + y) :: s)

/-- The text is a way to write a field which has a name: `name`, `name=` or `name=value`. -/
inductive WritesField : Bytes → Field → Prop
  | bare (t n : Bytes) : Writes t n → n ≠ [] → WritesField t ⟨n, []⟩
  | valued (t u n v : Bytes) : Writes t n → n ≠ [] → Writes u v → WritesField (t ++ 61 :: u) ⟨n, v⟩

/-- The text is a way to write the fields, with `&` between them. -/
inductive WritesForm : Bytes → List Field → Prop
  | empty : WritesForm [] []
  | one (t : Bytes) (f : Field) : WritesField t f → WritesForm t [f]
  | more (t u : Bytes) (f : Field) (fs : List Field) : WritesField t f → fs ≠ [] → WritesForm u fs →
      WritesForm (t ++ 38 :: u) (f :: fs)

/-- The value is not one which begins with a NUL byte. -/
def Kept (f : Field) : Prop := f.value.head? ≠ some 0

end Verif.Form.Spec
