import Verif.Common
/-!
# CRC-32 bit by bit

The textbook reflected CRC-32 (polynomial 0xEDB88320): the message is a bit
string, each byte contributing its bits least significant first; the register is
xored with the next bit, shifted right, and xored with the polynomial when a one
falls out.
-/
namespace Verif.Crc32.Spec
open Verif

/-- The bits of one byte, least significant first. -/
def byteBits (b : UInt8) : List Bool := (List.range 8).map (fun i => b.toBitVec.getLsbD i)

/-- The bits of a message in transmission order. -/
def bits (m : Bytes) : List Bool := m.flatMap byteBits

/-- One shift of the register. -/
def shift (r : BitVec 32) : BitVec 32 := (r >>> 1) ^^^ (if r.getLsbD 0 then 0xEDB88320 else 0)

/-- A message bit as a register value. -/
def inj (b : Bool) : BitVec 32 := if b then 1 else 0

/-- The register after a bit string. -/
def run (r : BitVec 32) : List Bool → BitVec 32
  | [] => r
  | b :: bs => run (shift (r ^^^ inj b)) bs

/-- The checksum of a bit string: register preset to ones and inverted at the end. -/
def crc32 (bs : List Bool) : BitVec 32 := ~~~ (run 0xFFFFFFFF bs)

end Verif.Crc32.Spec
