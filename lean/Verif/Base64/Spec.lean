import Verif.Common
/-!
# Base64 as in RFC 4648, written from the RFC

Three bytes are read as one 24-bit number whose four 6-bit digits (most
significant first) are written as letters; missing bytes count as zero and the
digits consisting only of missing bits are replaced by `=` (or left out in the
unpadded URL-safe variant).
-/
namespace Verif.Base64.Spec
open Verif

/-- The letter for a digit; `c62`, `c63` are the two characters in which the alphabets differ. -/
def letter (c62 c63 : Nat) (i : Nat) : UInt8 :=
  UInt8.ofNat (if i < 26 then 65 + i else if i < 52 then 97 + (i - 26) else if i < 62 then 48 + (i - 52)
    else if i = 62 then c62 else c63)

/-- The 24-bit number of a group. -/
def num (a b c : UInt8) : Nat := a.toNat * 2 ^ 16 + b.toNat * 2 ^ 8 + c.toNat

/-- The `k`-th (from the left) 6-bit digit of a 24-bit number. -/
def digit (n k : Nat) : Nat := n / 2 ^ (6 * (3 - k)) % 64

/-- RFC 4648 encoding with the given last two letters and padding. -/
def rfc (c62 c63 : Nat) (pad : Bytes) : Bytes → Bytes
  | a :: b :: c :: rest => (List.range 4).map (fun k => letter c62 c63 (digit (num a b c) k)) ++ rfc c62 c63 pad rest
  | [a, b] => (List.range 3).map (fun k => letter c62 c63 (digit (num a b 0) k)) ++ pad
  | [a] => (List.range 2).map (fun k => letter c62 c63 (digit (num a 0 0) k)) ++ pad ++ pad
  | [] => []

/-- Standard alphabet with padding: `+`, `/` and `=`. -/
def base64 : Bytes → Bytes := rfc 43 47 [61]

/-- URL-safe alphabet without padding: `-` and `_`. -/
def base64url : Bytes → Bytes := rfc 45 95 []

/-- The characters of the padded standard alphabet. -/
def inAlphabet (c : UInt8) : Bool := c = 61 ∨ (List.range 64).any (fun i => letter 43 47 i = c)

/-- The characters of the URL-safe alphabet. -/
def inUrlAlphabet (c : UInt8) : Bool := (List.range 64).any (fun i => letter 45 95 i = c)

end Verif.Base64.Spec
