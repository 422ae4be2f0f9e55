import Verif.Common
/-!
# Big and little endian byte order

`src/lib/util/rrr_endian.h`: `rrr_htobe16/32/64` and `rrr_be16/32/64toh` followed or preceded by a
`memcpy`, as functions between numbers and byte strings.
-/
namespace Verif.Endian
open Verif

/-- Byte `k` of a number, 0 being the least significant. -/
def byteOf (n k : Nat) : UInt8 := UInt8.ofNat (n / 256 ^ k)

/-- The bytes of a 16 bit number in network byte order. -/
def be16 (x : UInt16) : Bytes := [byteOf x.toNat 1, byteOf x.toNat 0]
/-- The bytes of a 32 bit number in network byte order. -/
def be32 (x : UInt32) : Bytes := [byteOf x.toNat 3, byteOf x.toNat 2, byteOf x.toNat 1, byteOf x.toNat 0]
/-- The bytes of a 64 bit number in network byte order. -/
def be64 (x : UInt64) : Bytes :=
  [byteOf x.toNat 7, byteOf x.toNat 6, byteOf x.toNat 5, byteOf x.toNat 4,
   byteOf x.toNat 3, byteOf x.toNat 2, byteOf x.toNat 1, byteOf x.toNat 0]

/-- The number with the given bytes, most significant first. -/
def ofBytes (b : Bytes) : Nat := b.foldl (fun a x => a * 256 + x.toNat) 0

/-- The 16 bit number in network byte order at an offset of a buffer. -/
def at16 (b : Bytes) (i : Nat) : UInt16 := UInt16.ofNat (ofBytes [b.getD i 0, b.getD (i + 1) 0])
/-- The 32 bit number in network byte order at an offset of a buffer. -/
def at32 (b : Bytes) (i : Nat) : UInt32 :=
  UInt32.ofNat (ofBytes [b.getD i 0, b.getD (i + 1) 0, b.getD (i + 2) 0, b.getD (i + 3) 0])
/-- The 64 bit number in network byte order at an offset of a buffer. -/
def at64 (b : Bytes) (i : Nat) : UInt64 :=
  UInt64.ofNat (ofBytes [b.getD i 0, b.getD (i + 1) 0, b.getD (i + 2) 0, b.getD (i + 3) 0,
    b.getD (i + 4) 0, b.getD (i + 5) 0, b.getD (i + 6) 0, b.getD (i + 7) 0])

theorem byteOf_toNat (n k : Nat) : (byteOf n k).toNat = n / 256 ^ k % 256 := by
  simp [byteOf]

theorem of_be16 (x : UInt16) : UInt16.ofNat (ofBytes (be16 x)) = x := by
  apply UInt16.toNat_inj.mp
  have := x.toNat_lt
  simp only [be16, ofBytes, List.foldl, byteOf_toNat, UInt16.toNat_ofNat']
  omega

theorem of_be32 (x : UInt32) : UInt32.ofNat (ofBytes (be32 x)) = x := by
  apply UInt32.toNat_inj.mp
  have := x.toNat_lt
  simp only [be32, ofBytes, List.foldl, byteOf_toNat, UInt32.toNat_ofNat']
  omega

theorem of_be64 (x : UInt64) : UInt64.ofNat (ofBytes (be64 x)) = x := by
  apply UInt64.toNat_inj.mp
  have := x.toNat_lt
  simp only [be64, ofBytes, List.foldl, byteOf_toNat, UInt64.toNat_ofNat']
  omega

theorem byte_eq {a : UInt8} {n : Nat} (h : n % 256 = a.toNat) : UInt8.ofNat n = a := by
  apply UInt8.toNat_inj.mp
  simp only [UInt8.toNat_ofNat']
  omega

theorem be16_of (a b : UInt8) : be16 (UInt16.ofNat (ofBytes [a, b])) = [a, b] := by
  have := a.toNat_lt; have := b.toNat_lt
  simp only [be16, ofBytes, List.foldl, byteOf, UInt16.toNat_ofNat']
  rw [byte_eq (a := a) (by omega), byte_eq (a := b) (by omega)]

theorem be32_of (a b c d : UInt8) : be32 (UInt32.ofNat (ofBytes [a, b, c, d])) = [a, b, c, d] := by
  have := a.toNat_lt; have := b.toNat_lt; have := c.toNat_lt; have := d.toNat_lt
  simp only [be32, ofBytes, List.foldl, byteOf, UInt32.toNat_ofNat']
  rw [byte_eq (a := a) (by omega), byte_eq (a := b) (by omega), byte_eq (a := c) (by omega), byte_eq (a := d) (by omega)]

theorem be16_length (x : UInt16) : (be16 x).length = 2 := rfl
theorem be32_length (x : UInt32) : (be32 x).length = 4 := rfl
theorem be64_length (x : UInt64) : (be64 x).length = 8 := rfl

theorem getD_append {p : Bytes} {k : Nat} (h : p.length = k) (s : Bytes) (i : Nat) :
    (p ++ s).getD (k + i) 0 = s.getD i 0 := by
  subst h
  rw [List.getD, List.getD, List.getElem?_append_right (by omega), Nat.add_sub_cancel_left]

theorem at16_append {p : Bytes} {k : Nat} (h : p.length = k) (x : UInt16) (s : Bytes) : at16 (p ++ (be16 x ++ s)) k = x := by
  unfold at16
  rw [getD_append h _ 1, show k = k + 0 from rfl, getD_append h _ 0]
  exact of_be16 x

theorem at32_append {p : Bytes} {k : Nat} (h : p.length = k) (x : UInt32) (s : Bytes) : at32 (p ++ (be32 x ++ s)) k = x := by
  unfold at32
  rw [getD_append h _ 1, getD_append h _ 2, getD_append h _ 3, show k = k + 0 from rfl, getD_append h _ 0]
  exact of_be32 x

theorem at64_append {p : Bytes} {k : Nat} (h : p.length = k) (x : UInt64) (s : Bytes) : at64 (p ++ (be64 x ++ s)) k = x := by
  unfold at64
  rw [getD_append h _ 1, getD_append h _ 2, getD_append h _ 3, getD_append h _ 4, getD_append h _ 5, getD_append h _ 6,
    getD_append h _ 7, show k = k + 0 from rfl, getD_append h _ 0]
  exact of_be64 x

end Verif.Endian
