import Verif.Common
/-!
# SHA-256 as in FIPS 180-4

Written from the standard. The constants are not copied but computed from the prime numbers.
-/
namespace Verif.Sha256.Spec
open Verif

/-- Is `n` a prime number? -/
def isPrime (n : Nat) : Bool := 2 ≤ n && (List.range n).all (fun d => d < 2 || n % d != 0)

/-- The first 64 prime numbers: those up to 311. -/
def primes : List Nat := (List.range 312).filter isPrime

/-- The largest `r` such that `r ^ e ≤ n`, if it is below `2 ^ bits` (see `root_spec`): bits are set from the highest. -/
def root (e n : Nat) : Nat → Nat → Nat
  | 0, r => r
  | bits + 1, r => if (r + 2 ^ bits) ^ e ≤ n then root e n bits (r + 2 ^ bits) else root e n bits r

/-- FIPS 180-4, 4.2.2: the first 32 bits of the fractional part of the cube root of prime number `t`. -/
def K (t : Nat) : UInt32 := UInt32.ofNat (root 3 (primes.getD t 0 * (2 ^ 32) ^ 3) 40 0)

/-- FIPS 180-4, 5.3.3: the first 32 bits of the fractional part of the square root of prime number `t`. -/
def H0 (t : Nat) : UInt32 := UInt32.ofNat (root 2 (primes.getD t 0 * (2 ^ 32) ^ 2) 40 0)

/-- FIPS 180-4, 3.2: rotation to the right, as a permutation of bits. -/
def ROTR (n : Nat) (x : UInt32) : UInt32 := ⟨x.toBitVec.rotateRight n⟩
/-- FIPS 180-4, 3.2. -/
def SHR (n : UInt32) (x : UInt32) : UInt32 := x >>> n
/-- FIPS 180-4, 4.1.2. -/
def Ch (x y z : UInt32) : UInt32 := (x &&& y) ^^^ (~~~ x &&& z)
/-- FIPS 180-4, 4.1.2. -/
def Maj (x y z : UInt32) : UInt32 := (x &&& y) ^^^ (x &&& z) ^^^ (y &&& z)
/-- FIPS 180-4, 4.1.2. -/
def Sigma0 (x : UInt32) : UInt32 := ROTR 2 x ^^^ ROTR 13 x ^^^ ROTR 22 x
/-- FIPS 180-4, 4.1.2. -/
def Sigma1 (x : UInt32) : UInt32 := ROTR 6 x ^^^ ROTR 11 x ^^^ ROTR 25 x
/-- FIPS 180-4, 4.1.2. -/
def sigma0 (x : UInt32) : UInt32 := ROTR 7 x ^^^ ROTR 18 x ^^^ SHR 3 x
/-- FIPS 180-4, 4.1.2. -/
def sigma1 (x : UInt32) : UInt32 := ROTR 17 x ^^^ ROTR 19 x ^^^ SHR 10 x

/-- FIPS 180-4, 5.1.1: a one bit, the smallest number of zero bits such that the length is 448 modulo 512 bits, and the number of bits as a 64 bit number. -/
def pad (m : Bytes) : Bytes :=
  m ++ [0x80] ++ List.replicate ((64 + 55 - m.length % 64) % 64) 0 ++ (List.range 8).map (fun i => UInt8.ofNat (8 * m.length / 256 ^ (7 - i)))

/-- FIPS 180-4, 5.2.1: block number `i`. -/
def block (m : Bytes) (i : Nat) : Bytes := (m.drop (64 * i)).take 64

/-- FIPS 180-4, 5.2.1: word number `t` of a block, highest byte first. -/
def word (b : Bytes) (t : Nat) : UInt32 :=
  UInt32.ofNat (((((b.getD (4 * t) 0).toNat * 256) + (b.getD (4 * t + 1) 0).toNat) * 256 + (b.getD (4 * t + 2) 0).toNat) * 256 + (b.getD (4 * t + 3) 0).toNat)

/-- FIPS 180-4, 6.2.2, step 1: the message schedule. -/
def W (b : Bytes) (t : Nat) : UInt32 :=
  if t < 16 then word b t else sigma1 (W b (t - 2)) + W b (t - 7) + sigma0 (W b (t - 15)) + W b (t - 16)
termination_by t

/-- Eight words. -/
structure Hash where
  a : UInt32
  b : UInt32
  c : UInt32
  d : UInt32
  e : UInt32
  f : UInt32
  g : UInt32
  h : UInt32

/-- FIPS 180-4, 6.2.2, step 3. -/
def round (v : Hash) (kt wt : UInt32) : Hash :=
  let t1 := v.h + Sigma1 v.e + Ch v.e v.f v.g + kt + wt
  let t2 := Sigma0 v.a + Maj v.a v.b v.c
  { h := v.g, g := v.f, f := v.e, e := v.d + t1, d := v.c, c := v.b, b := v.a, a := t1 + t2 }

/-- The working variables after `n` rounds. -/
def rounds (b : Bytes) (v : Hash) : Nat → Hash
  | 0 => v
  | n + 1 => round (rounds b v n) (K n) (W b n)

/-- FIPS 180-4, 6.2.2, steps 1 to 4: the next hash value. -/
def compress (v : Hash) (b : Bytes) : Hash :=
  let r := rounds b v 64
  ⟨v.a + r.a, v.b + r.b, v.c + r.c, v.d + r.d, v.e + r.e, v.f + r.f, v.g + r.g, v.h + r.h⟩

/-- FIPS 180-4, 6.2.2: the hash value after the first `n` blocks. -/
def hashBlocks (m : Bytes) : Nat → Hash
  | 0 => ⟨H0 0, H0 1, H0 2, H0 3, H0 4, H0 5, H0 6, H0 7⟩
  | n + 1 => compress (hashBlocks m n) (block m n)

/-- A word, highest byte first. -/
def bytesOf (x : UInt32) : Bytes := [UInt8.ofNat (x.toNat / 256 ^ 3), UInt8.ofNat (x.toNat / 256 ^ 2), UInt8.ofNat (x.toNat / 256), UInt8.ofNat x.toNat]

/-- FIPS 180-4, 6.2: the message digest. -/
def sha256 (m : Bytes) : Bytes :=
  let v := hashBlocks (pad m) ((pad m).length / 64)
  bytesOf v.a ++ bytesOf v.b ++ bytesOf v.c ++ bytesOf v.d ++ bytesOf v.e ++ bytesOf v.f ++ bytesOf v.g ++ bytesOf v.h

end Verif.Sha256.Spec
