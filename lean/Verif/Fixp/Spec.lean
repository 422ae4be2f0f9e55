import Verif.Fixp.Model
/-!
# What texts of fixed point numbers are, and what is relied on of `long double`
-/
namespace Verif.Fixp.Spec
open Verif

/-- The digits by what they are worth. -/
def lower : Bytes := [48, 49, 50, 51, 52, 53, 54, 55, 56, 57, 97, 98, 99, 100, 101, 102]
/-- The same, with large letters. -/
def upper : Bytes := [48, 49, 50, 51, 52, 53, 54, 55, 56, 57, 65, 66, 67, 68, 69, 70]

/-- A digit: `0` to `9`, and with base 16 also letters. -/
def Digit (hex : Bool) (c : UInt8) : Prop := if hex then c ∈ lower ∨ c ∈ upper else c ∈ lower.take 10

/-- What a digit is worth. -/
def worth (c : UInt8) : Nat := if c ∈ lower then lower.idxOf c else upper.idxOf c

/-- The number which digits are. -/
def value (hex : Bool) (digits : Bytes) : Nat := digits.foldl (fun n c => n * (if hex then 16 else 10) + worth c) 0

/-- The part after the dot, if there is one. -/
def pointed : Option Bytes → Bytes
  | none => []
  | some f => 46 :: f

/-- The text begins with a prefix, and more follows. -/
def Prefixed (t : Bytes) : Prop := t.length > 3 ∧ (t.take 3 = [49, 54, 35] ∨ t.take 3 = [49, 48, 35])

/-- How a base is told: `16#` for base 16, and `10#` or nothing for base 10. A text which begins with a prefix is not taken to have none. -/
def BaseTold (t : Bytes) (hex : Bool) (told : Bytes) : Prop :=
  (hex = true ∧ told = [49, 54, 35]) ∨ (hex = false ∧ told = [49, 48, 35]) ∨ (hex = false ∧ told = [] ∧ ¬ Prefixed t)

/-- How a sign is told. -/
def SignTold (neg : Bool) (told : Bytes) : Prop := (neg = true ∧ told = [45]) ∨ (neg = false ∧ (told = [43] ∨ told = []))

/-- A text which begins with a number: base, sign, digits, and possibly a dot and more digits. What follows is no digit and no dot. -/
def Written (t : Bytes) (hex neg : Bool) (int : Bytes) (frac : Option Bytes) (rest : Bytes) : Prop :=
  ∃ b s, t = b ++ (s ++ (int ++ (pointed frac ++ rest))) ∧ BaseTold t hex b ∧ SignTold neg s ∧ int ≠ [] ∧
    (∀ c ∈ int, Digit hex c) ∧ (∀ f, frac = some f → ∀ c ∈ f, Digit hex c) ∧
    ∀ c r, rest = c :: r → ¬ Digit hex c ∧ c ≠ 46

/-- The number of the part after the dot. -/
def part (hex : Bool) : Option Bytes → Rat
  | none => 0
  | some f => (value hex f : Rat) / ((if hex then 16 else 10 : Nat) : Rat) ^ f.length

/-- What is relied on of the arithmetic of `long double`, with 64 bits of precision: numbers of 64 bits and their products and quotients by powers of two are exact,
other numbers up to two are at most 2^-63 off, and rounding keeps the order. -/
structure Rounding (rnd : Rat → Rat) : Prop where
  large : ∀ n k : Nat, n < 2 ^ 64 → k ≤ 1000 → rnd ((n : Rat) * 2 ^ k) = (n : Rat) * 2 ^ k
  small : ∀ n k : Nat, n < 2 ^ 64 → k ≤ 1000 → rnd ((n : Rat) / 2 ^ k) = (n : Rat) / 2 ^ k
  above : ∀ q, 0 ≤ q → q ≤ 2 → rnd q ≤ q + 1 / 2 ^ 63
  below : ∀ q, 0 ≤ q → q ≤ 2 → q - 1 / 2 ^ 63 ≤ rnd q
  mono : ∀ q r, q ≤ r → rnd q ≤ rnd r

end Verif.Fixp.Spec
