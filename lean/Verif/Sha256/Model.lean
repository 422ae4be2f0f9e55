import Verif.Common
/-!
# Model of `src/lib/util/sha256.c`
-/
namespace Verif.Sha256
open Verif

/-- `sha256.c:138-144 right_rot`. -/
def rightRot (value count : UInt32) : UInt32 := value >>> count ||| value <<< (32 - count)

/-- Eight words: `h` and `ah`. -/
structure Words where
  w0 : UInt32
  w1 : UInt32
  w2 : UInt32
  w3 : UInt32
  w4 : UInt32
  w5 : UInt32
  w6 : UInt32
  w7 : UInt32
  deriving DecidableEq, Repr

/-- `sha256.c:200-210 k`. -/
def k : List UInt32 :=
  [0x428a2f98, 0x71374491, 0xb5c0fbcf, 0xe9b5dba5, 0x3956c25b, 0x59f111f1, 0x923f82a4,
   0xab1c5ed5, 0xd807aa98, 0x12835b01, 0x243185be, 0x550c7dc3, 0x72be5d74, 0x80deb1fe,
   0x9bdc06a7, 0xc19bf174, 0xe49b69c1, 0xefbe4786, 0x0fc19dc6, 0x240ca1cc, 0x2de92c6f,
   0x4a7484aa, 0x5cb0a9dc, 0x76f988da, 0x983e5152, 0xa831c66d, 0xb00327c8, 0xbf597fc7,
   0xc6e00bf3, 0xd5a79147, 0x06ca6351, 0x14292967, 0x27b70a85, 0x2e1b2138, 0x4d2c6dfc,
   0x53380d13, 0x650a7354, 0x766a0abb, 0x81c2c92e, 0x92722c85, 0xa2bfe8a1, 0xa81a664b,
   0xc24b8b70, 0xc76c51a3, 0xd192e819, 0xd6990624, 0xf40e3585, 0x106aa070, 0x19a4c116,
   0x1e376c08, 0x2748774c, 0x34b0bcb5, 0x391c0cb3, 0x4ed8aa4a, 0x5b9cca4f, 0x682e6ff3,
   0x748f82ee, 0x78a5636f, 0x84c87814, 0x8cc70208, 0x90befffa, 0xa4506ceb, 0xbef9a3f7,
   0xc67178f2]

/-- The variables of the loop in `consume_chunk`: the sixteen words, the working variables and the position in the chunk. -/
structure Loop where
  w : List UInt32
  ah : Words
  p : Nat
  deriving DecidableEq, Repr

/-- `sha256.c:180-192`: the next word. The default of `getD` is never used: `w` has 16 words, and the chunk 64 bytes of which the position is at most 60 (`LoopInv`). -/
def nextW (chunk : Bytes) (i j : Nat) (s : Loop) : UInt32 :=
  if i = 0 then
    (chunk.getD s.p 0).toUInt32 <<< 24 ||| (chunk.getD (s.p + 1) 0).toUInt32 <<< 16 ||| (chunk.getD (s.p + 2) 0).toUInt32 <<< 8 ||| (chunk.getD (s.p + 3) 0).toUInt32
  else
    let s0 := rightRot (s.w.getD ((j + 1) &&& 0xf) 0) 7 ^^^ rightRot (s.w.getD ((j + 1) &&& 0xf) 0) 18 ^^^ (s.w.getD ((j + 1) &&& 0xf) 0 >>> 3)
    let s1 := rightRot (s.w.getD ((j + 14) &&& 0xf) 0) 17 ^^^ rightRot (s.w.getD ((j + 14) &&& 0xf) 0) 19 ^^^ (s.w.getD ((j + 14) &&& 0xf) 0 >>> 10)
    s.w.getD j 0 + s0 + s.w.getD ((j + 9) &&& 0xf) 0 + s1

/-- `sha256.c:193-224`: one round with a constant and a word. -/
def round (ah : Words) (kt wt : UInt32) : Words :=
  let s1 := rightRot ah.w4 6 ^^^ rightRot ah.w4 11 ^^^ rightRot ah.w4 25
  let ch := (ah.w4 &&& ah.w5) ^^^ (~~~ ah.w4 &&& ah.w6)
  let temp1 := ah.w7 + s1 + ch + kt + wt
  let s0 := rightRot ah.w0 2 ^^^ rightRot ah.w0 13 ^^^ rightRot ah.w0 22
  let maj := (ah.w0 &&& ah.w1) ^^^ (ah.w0 &&& ah.w2) ^^^ (ah.w1 &&& ah.w2)
  let temp2 := s0 + maj
  ⟨temp1 + temp2, ah.w0, ah.w1, ah.w2, ah.w3 + temp1, ah.w4, ah.w5, ah.w6⟩

/-- `sha256.c:179-225`: the body of the inner loop. -/
def body (chunk : Bytes) (i j : Nat) (s : Loop) : Loop :=
  ⟨s.w.set j (nextW chunk i j s), round s.ah (k.getD (i <<< 4 ||| j) 0) (nextW chunk i j s), if i = 0 then s.p + 4 else s.p⟩

/-- `sha256.c:153-231 consume_chunk`. The array `w` is not initialised, its contents are given as `junk`. -/
def consumeChunk (junk : List UInt32) (h : Words) (chunk : Bytes) : Words :=
  let s := (List.range 4).foldl (fun s i => (List.range 16).foldl (fun s j => body chunk i j s) s) ⟨junk, h, 0⟩
  ⟨h.w0 + s.ah.w0, h.w1 + s.ah.w1, h.w2 + s.ah.w2, h.w3 + s.ah.w3, h.w4 + s.ah.w4, h.w5 + s.ah.w5, h.w6 + s.ah.w6, h.w7 + s.ah.w7⟩

/-- `sha256.c:52-59 struct Sha_256`. The field `pos` is `chunk_pos - chunk`. -/
structure State where
  chunk : Bytes
  pos : Nat
  spaceLeft : Nat
  totalLen : UInt64
  h : Words

/-- `sha256.c:237-255 sha_256_init`. The chunk is not initialised. -/
def init (junkChunk : Bytes) : State :=
  ⟨junkChunk, 0, 64, 0, ⟨0x6a09e667, 0xbb67ae85, 0x3c6ef372, 0xa54ff53a, 0x510e527f, 0x9b05688c, 0x1f83d9ab, 0x5be0cd19⟩⟩

/-- `memcpy(mem + pos, src, …)` with the whole of `src`. -/
def copyTo (mem : Bytes) (pos : Nat) (src : Bytes) : Bytes := mem.take pos ++ src ++ mem.drop (pos + src.length)

/-- `sha256.c:263-287`: the loop. The data left is a list, `fuel` is a bound on the number of turns. -/
def writeLoop (junk : List UInt32) : Nat → State → Bytes → State
  | 0, s, _ => s
  | fuel + 1, s, data =>
    if data.length > 0 then
      if s.spaceLeft = 64 ∧ data.length ≥ 64 then
        writeLoop junk fuel { s with h := consumeChunk junk s.h (data.take 64) } (data.drop 64)
      else
        let consumed := if data.length < s.spaceLeft then data.length else s.spaceLeft
        let chunk := copyTo s.chunk s.pos (data.take consumed)
        if s.spaceLeft - consumed = 0 then
          writeLoop junk fuel { s with chunk := chunk, h := consumeChunk junk s.h chunk, pos := 0, spaceLeft := 64 } (data.drop consumed)
        else
          writeLoop junk fuel { s with chunk := chunk, pos := s.pos + consumed, spaceLeft := s.spaceLeft - consumed } (data.drop consumed)
    else s

/-- `sha256.c:257-288 sha_256_write`. -/
def write (junk : List UInt32) (s : State) (data : Bytes) : State :=
  writeLoop junk data.length { s with totalLen := s.totalLen + UInt64.ofNat data.length } data

/-- `sha256.c:317-324`: the length in bits. The last byte is written first, `len` is shifted by 5 and then by 8 for each of the others. -/
def lenBytes (len : UInt64) : Bytes :=
  let a6 := len >>> 5
  let a5 := a6 >>> 8
  let a4 := a5 >>> 8
  let a3 := a4 >>> 8
  let a2 := a3 >>> 8
  let a1 := a2 >>> 8
  let a0 := a1 >>> 8
  [a0.toUInt8, a1.toUInt8, a2.toUInt8, a3.toUInt8, a4.toUInt8, a5.toUInt8, a6.toUInt8, (len <<< 3).toUInt8]

/-- `sha256.c:329-334`: one word of the result. -/
def wordBytes (x : UInt32) : Bytes := [(x >>> 24).toUInt8, (x >>> 16).toUInt8, (x >>> 8).toUInt8, x.toUInt8]

/-- `sha256.c:314-334`: the last chunk and the result. -/
def finish (junk : List UInt32) (len : UInt64) (h : Words) (chunk : Bytes) (pos spaceLeft : Nat) : Bytes :=
  let left := spaceLeft - 8
  let h := consumeChunk junk h (copyTo (copyTo chunk pos (List.replicate left 0)) (pos + left) (lenBytes len))
  wordBytes h.w0 ++ wordBytes h.w1 ++ wordBytes h.w2 ++ wordBytes h.w3 ++ wordBytes h.w4 ++ wordBytes h.w5 ++ wordBytes h.w6 ++ wordBytes h.w7

/-- `sha256.c:290-336 sha_256_close`. -/
def close (junk : List UInt32) (s : State) : Bytes :=
  let chunk := copyTo s.chunk s.pos [0x80]
  if s.spaceLeft - 1 < 8 then
    finish junk s.totalLen (consumeChunk junk s.h (copyTo chunk (s.pos + 1) (List.replicate (s.spaceLeft - 1) 0))) (copyTo chunk (s.pos + 1) (List.replicate (s.spaceLeft - 1) 0)) 0 64
  else
    finish junk s.totalLen s.h chunk (s.pos + 1) (s.spaceLeft - 1)

/-- What is on the stack before a hash is calculated. The array of words is the same piece of stack in each call, its contents are the same in the model; they do not matter (`sha256_correct` is for all of them). -/
structure Junk where
  w : List UInt32
  chunk : Bytes
  hw : w.length = 16
  hc : chunk.length = 64

/-- `sha256.c:338-348 calc_sha_256`, `rrr_sha256_calculate`. -/
def calculate (j : Junk) (input : Bytes) : Bytes := close j.w (write j.w (init j.chunk) input)

/-- The same with the input in pieces. -/
def calculatePieces (j : Junk) (pieces : List Bytes) : Bytes := close j.w (pieces.foldl (write j.w) (init j.chunk))

end Verif.Sha256
