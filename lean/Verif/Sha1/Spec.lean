import Verif.Sha256.Spec
import Verif.Base64.Spec
/-!
# SHA-1 as in FIPS 180-4, and the accept value of RFC 6455

Written from the standards. Padding, blocks and words are those of SHA-256 (FIPS 180-4, 5.1.1 and 5.2.1).
-/
namespace Verif.Sha1.Spec
open Verif

/-- FIPS 180-4, 3.2: rotation to the left, as a permutation of bits. -/
def ROTL (n : Nat) (x : UInt32) : UInt32 := ⟨x.toBitVec.rotateLeft n⟩

/-- FIPS 180-4, 4.1.1. -/
def Ch (x y z : UInt32) : UInt32 := (x &&& y) ^^^ (~~~ x &&& z)
/-- FIPS 180-4, 4.1.1. -/
def Parity (x y z : UInt32) : UInt32 := x ^^^ y ^^^ z
/-- FIPS 180-4, 4.1.1. -/
def Maj (x y z : UInt32) : UInt32 := (x &&& y) ^^^ (x &&& z) ^^^ (y &&& z)
/-- FIPS 180-4, 4.1.1. -/
def f (t : Nat) (x y z : UInt32) : UInt32 :=
  if t ≤ 19 then Ch x y z else if t ≤ 39 then Parity x y z else if t ≤ 59 then Maj x y z else Parity x y z

/-- FIPS 180-4, 4.2.1. The constants are `2 ^ 30` times the square roots of 2, 3, 5 and 10. -/
def K (t : Nat) : UInt32 :=
  UInt32.ofNat (Sha256.Spec.root 2 ((if t ≤ 19 then 2 else if t ≤ 39 then 3 else if t ≤ 59 then 5 else 10) * (2 ^ 30) ^ 2) 32 0)

/-- FIPS 180-4, 6.1.2, step 1: the message schedule. -/
def W (b : Bytes) (t : Nat) : UInt32 :=
  if t < 16 then Sha256.Spec.word b t else ROTL 1 (W b (t - 3) ^^^ W b (t - 8) ^^^ W b (t - 14) ^^^ W b (t - 16))
termination_by t

/-- Five words. -/
structure Hash where
  a : UInt32
  b : UInt32
  c : UInt32
  d : UInt32
  e : UInt32

/-- FIPS 180-4, 6.1.2, step 3. -/
def round (v : Hash) (t : Nat) (wt : UInt32) : Hash :=
  { e := v.d, d := v.c, c := ROTL 30 v.b, b := v.a, a := ROTL 5 v.a + f t v.b v.c v.d + v.e + K t + wt }

/-- The working variables after `n` rounds. -/
def rounds (b : Bytes) (v : Hash) : Nat → Hash
  | 0 => v
  | n + 1 => round (rounds b v n) n (W b n)

/-- FIPS 180-4, 6.1.2, steps 1 to 4: the next hash value. -/
def compress (v : Hash) (b : Bytes) : Hash :=
  let r := rounds b v 80
  ⟨v.a + r.a, v.b + r.b, v.c + r.c, v.d + r.d, v.e + r.e⟩

/-- FIPS 180-4, 5.3.1 and 6.1.2: the hash value after the first `n` blocks. -/
def hashBlocks (m : Bytes) : Nat → Hash
  | 0 => ⟨0x67452301, 0xefcdab89, 0x98badcfe, 0x10325476, 0xc3d2e1f0⟩
  | n + 1 => compress (hashBlocks m n) (Sha256.Spec.block m n)

/-- FIPS 180-4, 6.1: the message digest. -/
def sha1 (m : Bytes) : Bytes :=
  let v := hashBlocks (Sha256.Spec.pad m) ((Sha256.Spec.pad m).length / 64)
  Sha256.Spec.bytesOf v.a ++ Sha256.Spec.bytesOf v.b ++ Sha256.Spec.bytesOf v.c ++ Sha256.Spec.bytesOf v.d ++ Sha256.Spec.bytesOf v.e

/-- RFC 6455, 4.2.2: the value of `Sec-WebSocket-Accept` for the value of `Sec-WebSocket-Key`. -/
def accept (key : Bytes) : Bytes := Base64.Spec.base64 (sha1 (key ++ "258EAFA5-E914-47DA-95CA-C5AB0DC85B11".toUTF8.toList))

end Verif.Sha1.Spec
