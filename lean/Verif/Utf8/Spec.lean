import Verif.Common
/-!
# What UTF-8 is (RFC 3629), written without reference to the code
-/
namespace Verif.Utf8.Spec
open Verif

/-- Unicode scalar values: 0..0x10FFFF without the surrogates. -/
def IsScalar (n : Nat) : Prop := n < 0xD800 ∨ (0xE000 ≤ n ∧ n < 0x110000)

instance : DecidablePred IsScalar := fun n => by unfold IsScalar; infer_instance

/-- RFC 3629 section 3: the octet sequence of one character number. -/
def encodeChar (n : Nat) : List Nat :=
  if n < 0x80 then [n]
  else if n < 0x800 then [0xC0 + n / 64, 0x80 + n % 64]
  else if n < 0x10000 then [0xE0 + n / 4096, 0x80 + n / 64 % 64, 0x80 + n % 64]
  else [0xF0 + n / 262144, 0x80 + n / 4096 % 64, 0x80 + n / 64 % 64, 0x80 + n % 64]

/-- The encoding of a text, as numeric octets. -/
def encode (cs : List Nat) : List Nat := cs.flatMap encodeChar

/-- `s` is the UTF-8 encoding of the text `cs`. -/
def Encodes (s : Bytes) (cs : List Nat) : Prop :=
  (∀ c ∈ cs, IsScalar c) ∧ s.map UInt8.toNat = encode cs

/-- `s` is well-formed UTF-8. -/
def WellFormed (s : Bytes) : Prop := ∃ cs, Encodes s cs

end Verif.Utf8.Spec
