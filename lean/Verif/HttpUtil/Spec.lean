import Verif.HttpUtil.Model
/-!
# What the HTTP string functions should do
-/
namespace Verif.HttpUtil.Spec
open Verif

/-- Hexadecimal digits. -/
def hexVal (c : UInt8) : Option UInt8 :=
  if 48 ≤ c ∧ c ≤ 57 then some (c - 48) else if 97 ≤ c ∧ c ≤ 102 then some (c - 87) else if 65 ≤ c ∧ c ≤ 70 then some (c - 55) else none

/-- Percent decoding (RFC 3986, 2.1): `%` is followed by two hexadecimal digits. -/
def percentDecode : Bytes → Option Bytes
  | [] => some []
  | 37 :: a :: b :: s =>
    match hexVal a, hexVal b with
    | some x, some y => (percentDecode s).map ((x * 16 + y) :: ·)
    | _, _ => none
  | c :: s => if c = 37 then none else (percentDecode s).map (c :: ·)

/-- A character which may be in a URI component as it is (RFC 2396, 2.3), a `%` or an upper case hexadecimal digit. -/
def UriSafe (c : UInt8) : Prop :=
  (97 ≤ c ∧ c ≤ 122) ∨ (65 ≤ c ∧ c ≤ 90) ∨ (48 ≤ c ∧ c ≤ 57) ∨ c ∈ [45, 95, 46, 33, 126, 42, 39, 40, 41] ∨ c = 37

/-- The same letter, ignoring case. -/
def SameLetter (a b : UInt8) : Prop := a = b ∨ (65 ≤ a ∧ a ≤ 90 ∧ b = a + 32) ∨ (65 ≤ b ∧ b ≤ 90 ∧ a = b + 32)

/-- The needle is in the text at position `p`, ignoring case. -/
def OccursAt (text needle : Bytes) (p : Nat) : Prop :=
  p + needle.length ≤ text.length ∧ ∀ i, i < needle.length → SameLetter (text.getD (p + i) 0) (needle.getD i 0)

end Verif.HttpUtil.Spec
