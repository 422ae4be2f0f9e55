import Verif.Common
/-!
# Model of `src/lib/fixed_point.c`: fixed point numbers

A fixed point number is a signed integer of 64 bits, which counts units of 2^-24.

A `long double` is a rational number. What its arithmetic gives is the exact result after rounding, and rounding is the parameter `rnd`: theorems say
what they need of it. Numbers are taken to be far from the limits of the exponent, as with texts of less than 4900 digits.

Not modelled: conversion to text with decimals (`printf` with `%.10Lf`), log messages.
-/
namespace Verif.Fixp
open Verif

/-- How a function ends: with a result, with an error code (`fixed_point.h:28-31`), or outside of what the language defines. -/
inductive Out (α : Type) where
  | ok (a : α)
  | err
  | incomplete
  | fault
deriving Repr, DecidableEq

/-- The digits in the checks of `fixed_point.c:300-305`. -/
def isDigit (hex : Bool) (c : UInt8) : Bool :=
  (decide (48 ≤ c) && decide (c ≤ 57)) ||
  (hex && ((decide (97 ≤ c) && decide (c ≤ 102)) || (decide (65 ≤ c) && decide (c ≤ 70))))

/-- `fixed_point.c:218-235 __rrr_fixp_convert_char`, for characters which are digits. -/
def digitValue (c : UInt8) : Nat :=
  if 48 ≤ c ∧ c ≤ 57 then (c - 48).toNat
  else if 97 ≤ c ∧ c ≤ 102 then (c - 97 + 10).toNat
  else (c - 65 + 10).toNat

/-- `fixed_point.c:296-319`: the search for the end of the number. What was found: the integer part, the part after the dot if there is one, and what follows.
A dot at the start and a second dot are errors (`none`). -/
def scan (hex : Bool) : Bytes → Bytes → Option Bytes → Option (Bytes × Option Bytes × Bytes)
  | int, [], frac => some (int, frac, [])
  | int, c :: t, none =>
    if isDigit hex c then scan hex (int ++ [c]) t none
    else if c = 46 then if int = [] then none else scan hex int t (some [])
    else some (int, none, c :: t)
  | int, c :: t, some f =>
    if isDigit hex c then scan hex int t (some (f ++ [c]))
    else if c = 46 then none
    else some (int, some f, c :: t)

/-- What a text was found to be. -/
structure Parts where
  hex : Bool
  neg : Bool
  int : Bytes
  frac : Option Bytes
  rest : Bytes
deriving Repr, DecidableEq

/-- `fixed_point.c:262-274`: the prefix which tells the base, and what is after it. -/
def prefixOf (b : Bytes) : Bool × Bytes :=
  if b.length > 3 ∧ b.take 3 = [49, 54, 35] then (true, b.drop 3)
  else if b.length > 3 ∧ b.take 3 = [49, 48, 35] then (false, b.drop 3)
  else (false, b)

/-- `fixed_point.c:280-288`: the sign, and what is after it. -/
def signOf : Bytes → Bool × Bytes
  | c :: t => if c = 45 then (true, t) else if c = 43 then (false, t) else (false, c :: t)
  | [] => (false, [])

/-- `fixed_point.c:290-333`: the rest of the checks, when something is left. -/
def numberOf (hex neg : Bool) (b : Bytes) : Out Parts :=
  if b = [] then .incomplete
  else match scan hex [] b none with
    | none => .err
    | some (int, frac, rest) => if int = [] then .err else .ok ⟨hex, neg, int, frac, rest⟩

/-- `fixed_point.c:237-333 __rrr_fixp_str_preliminary_parse`. -/
def preliminary (b : Bytes) : Out Parts :=
  if b = [] then .err
  else if (prefixOf b).2 = [] then .incomplete
  else numberOf (prefixOf b).1 (signOf (prefixOf b).2).1 (signOf (prefixOf b).2).2

/-- The base of the digits. -/
def base (hex : Bool) : Nat := if hex then 16 else 10

/-- `fixed_point.c:372-379`: the sum of what the digits after the dot are worth. -/
def fraction (rnd : Rat → Rat) (hex : Bool) : Bytes → Rat → Rat → Rat
  | [], sum, _ => sum
  | c :: t, sum, factor =>
    fraction rnd hex t (rnd (sum + rnd (rnd ((digitValue c : Rat) / (base hex : Rat)) / factor))) (rnd (factor * (base hex : Rat)))

/-- `fixed_point.c:385-397`: the bits of the fraction. There are `n` more bits to go, the next of which is worth 2^(n-1) units. -/
def bits (rnd : Rat → Rat) (f : Rat) : Nat → Rat → Nat → Nat
  | 0, _, acc => acc
  | n + 1, running, acc =>
    if rnd (running + (2 : Rat) ^ n / 2 ^ 24) < f then bits rnd f n (rnd (running + (2 : Rat) ^ n / 2 ^ 24)) (acc + 2 ^ n)
    else if rnd (running + (2 : Rat) ^ n / 2 ^ 24) = f then acc + 2 ^ n
    else bits rnd f n running acc

/-- `fixed_point.c:400-408`: the sum of what the digits before the dot are worth, from the last one. A number which a `uint64_t` does not hold cannot be
converted (`none`). -/
def integer (rnd : Rat → Rat) (hex : Bool) : Bytes → Rat → UInt64 → Option UInt64
  | [], _, sum => some sum
  | c :: t, factor, sum =>
    if rnd ((digitValue c : Rat) * factor) ≥ 2 ^ 64 then none
    else integer rnd hex t (rnd (factor * (base hex : Rat))) (sum + UInt64.ofNat (rnd ((digitValue c : Rat) * factor)).floor.toNat)

/-- `fixed_point.c:398,410-416`: fraction, integer part and sign are put together. -/
def compose (neg : Bool) (frac int : UInt64) : UInt64 :=
  let r := (frac ||| (int <<< 24)) &&& ~~~((1 : UInt64) <<< 63)
  if neg then 0 - r else r

/-- `fixed_point.c:335-421 rrr_fixp_str_to_fixp`: the number, and what follows it in the text. -/
def ofText (rnd : Rat → Rat) (b : Bytes) : Out (UInt64 × Bytes) :=
  match preliminary b with
  | .err => .err
  | .incomplete => .incomplete
  | .fault => .fault
  | .ok p =>
    match integer rnd p.hex p.int.reverse 1 0 with
    | none => .fault
    | some i =>
      .ok (compose p.neg (match p.frac with
        | none => 0
        | some f => UInt64.ofNat (bits rnd (fraction rnd p.hex f 0 1) 24 0 0)) i, p.rest)

/-- A number of the text `16#...`: `fixed_point.c:139-143`. -/
def hexDigit (x : UInt8) : UInt8 := x + (if x > 9 then 87 else 48)

/-- `fixed_point.c:126-159 rrr_fixp_to_str_16`, into a buffer which is large enough: the bytes from the highest, with a dot after the fifth. -/
def toText16 (x : UInt64) : Bytes :=
  ([49, 54, 35] : Bytes) ++ ((List.range 8).flatMap fun i =>
    let c := UInt8.ofNat (x.toNat / 256 ^ (7 - i) % 256)
    ([hexDigit ((c &&& 0xf0) >>> 4), hexDigit (c &&& 0x0f)] : Bytes) ++ if i = 4 then ([46] : Bytes) else [])

/-- What a `long double` can be. -/
inductive LongDouble where
  | fin (q : Rat)
  | inf (neg : Bool)
  | nan
deriving DecidableEq

/-- `fixed_point.c:83-87`: the bits of the fraction. -/
def fractionBits (rnd : Rat → Rat) : Nat → Rat → UInt64 → UInt64
  | 0, _, acc => acc
  | n + 1, f, acc =>
    if f ≥ (2 : Rat) ^ n / 2 ^ 24 then fractionBits rnd n (rnd (f - (2 : Rat) ^ n / 2 ^ 24)) (acc ||| UInt64.ofNat (2 ^ n))
    else fractionBits rnd n f acc

/-- The absolute value. -/
def absolute (q : Rat) : Rat := if q < 0 then -q else q

/-- `fixed_point.c:64-97 rrr_fixp_ldouble_to_fixp`. The fraction which `modfl` gives of an infinite number is zero, which is finite. An integer part which a
`uint64_t` does not hold cannot be converted. -/
def ofLongDouble (rnd : Rat → Rat) : LongDouble → Out UInt64
  | .nan => .err
  | .inf _ => .fault
  | .fin q =>
    if (absolute q).floor ≥ 2 ^ 64 then .fault
    else
      let r := fractionBits rnd 24 (absolute q - ((absolute q).floor : Rat)) 0 ||| (UInt64.ofNat (absolute q).floor.toNat <<< 24)
      .ok (if q < 0 then 0 - r else r)

/-- The signed number. -/
def signed (x : UInt64) : Int := if x.toNat < 2 ^ 63 then x.toNat else (x.toNat : Int) - 2 ^ 64

/-- `fixed_point.c:114-118`: the sum of the fractions of the bits which are set. -/
def sumBits (rnd : Rat → Rat) (decimals : Nat) : Nat → Rat → Rat
  | 0, sum => sum
  | n + 1, sum => sumBits rnd decimals n (rnd (sum + (if decimals.testBit n then (2 : Rat) ^ n / 2 ^ 24 else 0)))

/-- `fixed_point.c:99-124 rrr_fixp_to_ldouble`. The smallest number has no negation. -/
def toLongDouble (rnd : Rat → Rat) (x : UInt64) : Out Rat :=
  if signed x = -2 ^ 63 then .fault
  else
    let r := sumBits rnd ((signed x).natAbs % 2 ^ 24) 24 ((((signed x).natAbs / 2 ^ 24 : Nat)) : Rat)
    .ok (if signed x < 0 then -r else r)

end Verif.Fixp
