import Verif.Common
/-!
# Model of `src/lib/util/base64.c`

Memory allocation is assumed to succeed. `none` is a `NULL` return.
-/
namespace Verif.Base64
open Verif

/-- `base64.c:23-24 base64_table` (64 characters; the terminating NUL is not used). -/
def table : List UInt8 :=
  [65,66,67,68,69,70,71,72,73,74,75,76,77,78,79,80,81,82,83,84,85,86,87,88,89,90,
   97,98,99,100,101,102,103,104,105,106,107,108,109,110,111,112,113,114,115,116,117,118,119,120,121,122,
   48,49,50,51,52,53,54,55,56,57,43,47]

/-- `base64.c:166-167 base64url_table`. -/
def urlTable : List UInt8 :=
  [65,66,67,68,69,70,71,72,73,74,75,76,77,78,79,80,81,82,83,84,85,86,87,88,89,90,
   97,98,99,100,101,102,103,104,105,106,107,108,109,110,111,112,113,114,115,116,117,118,119,120,121,122,
   48,49,50,51,52,53,54,55,56,57,45,95]

/-- Array access `table[i]` (`i` is always below 64 in the code, see `idx_lt`). -/
def at' (t : List UInt8) (i : UInt8) : UInt8 := t.getD i.toNat 0

/-- `base64.c:46-48` and `:179-181`: size of the allocated output buffer, in
64-bit arithmetic. -/
def encSize (len : Nat) : Nat :=
  let olen := ((len * 4) % 2 ^ 64 / 3 + 4) % 2 ^ 64
  let olen := (olen + olen / 72) % 2 ^ 64
  (olen + 1) % 2 ^ 64

/-- `base64.c:55-87`: the bytes written by the encoder (without the final NUL);
`ll` is `line_len`. -/
def encLoop : Bytes → Nat → Bytes
  | a :: b :: c :: rest, ll =>
    at' table (a >>> 2) :: at' table ((a &&& 0x03) <<< 4 ||| b >>> 4) ::
    at' table ((b &&& 0x0f) <<< 2 ||| c >>> 6) :: at' table (c &&& 0x3f) ::
    (if ll + 4 ≥ 72 then 10 :: encLoop rest 0 else encLoop rest (ll + 4))      -- L65-69
  | [a, b], _ =>
    [at' table (a >>> 2), at' table ((a &&& 0x03) <<< 4 ||| b >>> 4),
     at' table ((b &&& 0x0f) <<< 2), 61, 10]
  | [a], _ => [at' table (a >>> 2), at' table ((a &&& 0x03) <<< 4), 61, 61, 10]
  | [], ll => if ll ≠ 0 then [10] else []                                      -- L86

/-- `base64.c:38-93 rrr_base64_encode`. -/
def encode (src : Bytes) : Option Bytes :=
  if encSize src.length < src.length then none else some (encLoop src 0)       -- L49

/-- `base64.c:113-116` / `:222-224`: the decoding table; `0x80` marks other characters. -/
def dtable (t : List UInt8) (pad : Bool) (c : UInt8) : UInt8 :=
  let d := (List.range 64).foldl (fun (d : UInt8 → UInt8) i => fun c => if c = t.getD i 0 then UInt8.ofNat i else d c)
    (fun _ => 0x80)
  if pad ∧ c = 61 then 0 else d c

/-- `base64.c:118-122` / `:226-230`: number of characters in the alphabet. -/
def count (d : UInt8 → UInt8) (src : Bytes) : Nat := (src.filter (fun c => d c ≠ 0x80)).length

/-- `base64.c:143-145` / `:249-251`. -/
def group (b0 b1 b2 b3 : UInt8) : Bytes :=
  [b0 <<< 2 ||| b1 >>> 4, b1 <<< 4 ||| b2 >>> 2, b2 <<< 6 ||| b3]

/-- `base64.c:132-163`, the decoding loop; `block` holds the `count` collected values,
`out` what was written. -/
def decLoop (d : UInt8 → UInt8) : Bytes → Bytes → Nat → Bytes → Option Bytes
  | [], _, _, out => some out
  | c :: rest, block, pad, out =>
    let tmp := d c
    if tmp = 0x80 then decLoop d rest block pad out
    else
      let pad := if c = 61 then pad + 1 else pad
      match block with
      | [b0, b1, b2] =>
        let out := out ++ group b0 b1 b2 tmp
        if pad = 0 then decLoop d rest [] pad out
        else if pad = 1 then some (out.take (out.length - 1))
        else if pad = 2 then some (out.take (out.length - 2))
        else none
      | block => decLoop d rest (block ++ [tmp]) pad out

/-- `base64.c:106-164 rrr_base64_decode`. -/
def decode (src : Bytes) : Option Bytes :=
  let d := dtable table true
  if count d src = 0 ∨ count d src % 4 ≠ 0 then none else decLoop d src [] 0 []

/-- `base64.c:172-214 rrr_base64url_encode`, the bytes written. -/
def encUrlLoop : Bytes → Bytes
  | a :: b :: c :: rest =>
    at' urlTable (a >>> 2) :: at' urlTable ((a &&& 0x03) <<< 4 ||| b >>> 4) ::
    at' urlTable ((b &&& 0x0f) <<< 2 ||| c >>> 6) :: at' urlTable (c &&& 0x3f) :: encUrlLoop rest
  | [a, b] =>
    [at' urlTable (a >>> 2), at' urlTable ((a &&& 0x03) <<< 4 ||| b >>> 4), at' urlTable ((b &&& 0x0f) <<< 2)]
  | [a] => [at' urlTable (a >>> 2), at' urlTable ((a &&& 0x03) <<< 4)]
  | [] => []

/-- `base64.c:172-214 rrr_base64url_encode`. -/
def encodeUrl (src : Bytes) : Option Bytes :=
  if encSize src.length < src.length then none else some (encUrlLoop src)

/-- `base64.c:240-257`, the decoding loop of base64url. -/
def decUrlLoop (d : UInt8 → UInt8) : Bytes → Bytes → Bytes → Bytes
  | [], _, out => out
  | c :: rest, block, out =>
    if d c = 0x80 then decUrlLoop d rest block out
    else match block with
      | [b0, b1, b2] => decUrlLoop d rest [] (out ++ group b0 b1 b2 (d c))
      | block => decUrlLoop d rest (block ++ [d c]) out

/-- `base64.c:216-258 rrr_base64url_decode`. -/
def decodeUrl (src : Bytes) : Option Bytes :=
  let d := dtable urlTable false
  if count d src = 0 ∨ count d src % 4 ≠ 0 then none else some (decUrlLoop d src [] [])

/-- `base64.c:127` / `:235`: size of the decoder's buffer. -/
def decSize (d : UInt8 → UInt8) (src : Bytes) : Nat := count d src / 4 * 3

/-- Number of bytes the decoding loops write, before the padding correction moves
the write position back (`base64.c:143-145`): three for every full block. -/
def decWritten (d : UInt8 → UInt8) : Bytes → Bytes → Nat → Nat
  | [], _, _ => 0
  | c :: rest, block, pad =>
    if d c = 0x80 then decWritten d rest block pad
    else
      let pad := if c = 61 then pad + 1 else pad
      match block with
      | [_, _, _] => if pad = 0 then 3 + decWritten d rest [] pad else 3
      | block => decWritten d rest (block ++ [d c]) pad

end Verif.Base64
