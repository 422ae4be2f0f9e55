import Verif.Sha256.Model
import Verif.Base64.Model
/-!
# Model of `src/lib/sha1/sha1.c` and of the accept string of websocket connections
-/
namespace Verif.Sha1
open Verif

/-- `sha1.c:52-54 SHA1CircularShift`. -/
def circularShift (bits word : UInt32) : UInt32 := ((word <<< bits) &&& 0xFFFFFFFF) ||| (word >>> (32 - bits))

/-- `Message_Digest`, or the variables `A` to `E`. -/
structure Words where
  a : UInt32
  b : UInt32
  c : UInt32
  d : UInt32
  e : UInt32
  deriving DecidableEq, Repr

/-- `sha1.h struct rrr_SHA1Context`. -/
structure Context where
  digest : Words
  low : UInt32
  high : UInt32
  block : Bytes
  index : Nat
  computed : Bool
  corrupted : Bool

/-- `sha1.c:77-91 rrr_SHA1Reset`. The block is left as it is. -/
def reset (block : Bytes) : Context := ⟨⟨0x67452301, 0xEFCDAB89, 0x98BADCFE, 0x10325476, 0xC3D2E1F0⟩, 0, 0, block, 0, false, false⟩

/-- `sha1.c:253-259`: the first 16 words. -/
def firstWords (block : Bytes) : List UInt32 := (List.range 16).map fun t =>
  (block.getD (t * 4) 0).toUInt32 <<< 24 ||| (block.getD (t * 4 + 1) 0).toUInt32 <<< 16 ||| (block.getD (t * 4 + 2) 0).toUInt32 <<< 8 ||| (block.getD (t * 4 + 3) 0).toUInt32

/-- `sha1.c:261-264`: one more word. The array is filled in order, it is the list of what has been filled. -/
def moreWord (w : List UInt32) (t : Nat) : List UInt32 :=
  w ++ [circularShift 1 (w.getD (t - 3) 0 ^^^ w.getD (t - 8) 0 ^^^ w.getD (t - 14) 0 ^^^ w.getD (t - 16) 0)]

/-- `sha1.c:253-264`: `W`. -/
def words (block : Bytes) : List UInt32 := (List.range 64).foldl (fun w i => moreWord w (16 + i)) (firstWords block)

/-- `sha1.c:272-315`: the value of the function and the constant in each of the four loops. -/
def mix (x : Words) (t : Nat) : UInt32 :=
  if t < 20 then (x.b &&& x.c) ||| (~~~ x.b &&& x.d)
  else if t < 40 then x.b ^^^ x.c ^^^ x.d
  else if t < 60 then (x.b &&& x.c) ||| (x.b &&& x.d) ||| (x.c &&& x.d)
  else x.b ^^^ x.c ^^^ x.d
/-- `sha1.c:237-243`: the constants. -/
def const (t : Nat) : UInt32 := if t < 20 then 0x5A827999 else if t < 40 then 0x6ED9EBA1 else if t < 60 then 0x8F1BBCDC else 0xCA62C1D6

/-- `sha1.c:272-315`: one turn of a loop. -/
def turn (w : List UInt32) (x : Words) (t : Nat) : Words :=
  let temp := (circularShift 5 x.a + mix x t + x.e + w.getD t 0 + const t) &&& 0xFFFFFFFF
  ⟨temp, x.a, circularShift 30 x.b, x.c, x.d⟩

/-- `sha1.c:235-329 rrr_SHA1ProcessMessageBlock`. -/
def process (s : Context) : Context :=
  let x := (List.range 80).foldl (turn (words s.block)) s.digest
  { s with digest := ⟨(s.digest.a + x.a) &&& 0xFFFFFFFF, (s.digest.b + x.b) &&& 0xFFFFFFFF, (s.digest.c + x.c) &&& 0xFFFFFFFF, (s.digest.d + x.d) &&& 0xFFFFFFFF, (s.digest.e + x.e) &&& 0xFFFFFFFF⟩, index := 0 }

/-- `sha1.c:186-212`: one turn of the loop. -/
def inputByte (s : Context) (c : UInt8) : Context :=
  let s := { s with block := s.block.set s.index c, index := s.index + 1, low := (s.low + 8) &&& 0xFFFFFFFF }
  let s := if s.low = 0 then { s with high := (s.high + 1) &&& 0xFFFFFFFF } else s
  let s := if s.low = 0 ∧ s.high = 0 then { s with corrupted := true } else s
  if s.index = 64 then process s else s

/-- `sha1.c:171-213 rrr_SHA1Input`. -/
def input (s : Context) (m : Bytes) : Context :=
  if m = [] then s
  else if s.computed ∨ s.corrupted then { s with corrupted := true }
  else m.foldl (fun s c => if s.corrupted then s else inputByte s c) s

/-- `sha1.c:365-368`, `372-375`, `380-383`: zeros up to a position. -/
def zeros (s : Context) (upto : Nat) : Context :=
  (List.range (upto - s.index)).foldl (fun s _ => { s with block := s.block.set s.index 0, index := s.index + 1 }) s

/-- `sha1.c:389-396`: the length. -/
def lengthBytes (s : Context) : Bytes :=
  [((s.high >>> 24) &&& 0xFF).toUInt8, ((s.high >>> 16) &&& 0xFF).toUInt8, ((s.high >>> 8) &&& 0xFF).toUInt8, (s.high &&& 0xFF).toUInt8,
   ((s.low >>> 24) &&& 0xFF).toUInt8, ((s.low >>> 16) &&& 0xFF).toUInt8, ((s.low >>> 8) &&& 0xFF).toUInt8, (s.low &&& 0xFF).toUInt8]

/-- `sha1.c:354-399 rrr_SHA1PadMessage`. -/
def pad (s : Context) : Context :=
  let one := { s with block := s.block.set s.index 0x80, index := s.index + 1 }
  let s := if s.index > 55 then zeros (process (zeros one 64)) 56 else zeros one 56
  process { s with block := Sha256.copyTo s.block 56 (lengthBytes s) }

/-- `sha1.c:110-125 rrr_SHA1Result`: the context and the value returned. -/
def result (s : Context) : Context × Bool :=
  if s.corrupted then (s, false)
  else if s.computed then (s, true)
  else ({ pad s with computed := true }, true)

/-- `sha1.c:143-147 rrr_SHA1toBE`: `Message_Digest` as bytes when the words are in network order. -/
def bytes (s : Context) : Bytes := ([s.digest.a, s.digest.b, s.digest.c, s.digest.d, s.digest.e].map Sha256.wordBytes).flatten

/-- The functions one after the other, with the input in pieces. -/
def calculate (block : Bytes) (pieces : List Bytes) : Option Bytes :=
  let r := result (pieces.foldl input (reset block))
  if r.2 then some (bytes r.1) else none

/-! ## Websocket -/

/-- `http_common.h:69 RRR_HTTP_WEBSOCKET_GUID`: `258EAFA5-E914-47DA-95CA-C5AB0DC85B11`. -/
def guid : Bytes := [50, 53, 56, 69, 65, 70, 65, 53, 45, 69, 57, 49, 52, 45, 52, 55, 68, 65, 45, 57, 53, 67, 65, 45, 67, 53, 65, 66, 48, 68, 67, 56, 53, 66, 49, 49]

/-- `strchr(…, '\n')` and then a NUL: the text before the first newline. -/
def firstLine (b : Bytes) : Bytes := b.takeWhile (· ≠ 10)

/-- `http_application_http1.c:317-368 __rrr_http_application_http1_websocket_make_accept_string`. The key is a string without NUL. The context is zeroed. -/
def acceptString (key : Bytes) : Option Bytes :=
  (calculate (List.replicate 64 0) [key ++ guid]).bind fun d => (Base64.encode d).map firstLine

/-- `websocket.c:70-103 rrr_websocket_state_get_key_base64`, with the key. -/
def keyText (key : Bytes) : Option Bytes := (Base64.encode key).map firstLine

/-- `nullsafe_str.c:682-704 rrr_nullsafe_str_util_output_strip_null_append_null_trim_raw_null_ok` with the buffer of 256 bytes of `http_util.h:32-33 RRR_HTTP_UTIL_SET_TMP_NAME_FROM_NULLSAFE`: the string. -/
def tmpName (v : Bytes) : Bytes := (v.take 255).map fun c => if c = 0 then 78 else c

/-- `http_application_http1.c:370-416 __rrr_http_application_http1_websocket_response_check_headers`, from line 394: the client checks the value of `sec-websocket-accept`. -/
def clientAccepts (key answer : Bytes) : Bool :=
  match (keyText key).bind acceptString with
  | some t => t = tmpName answer
  | none => false

/-- `http_application_http1.c:630-696`: the value of `sec-websocket-accept` for the value of `sec-websocket-key`. The callbacks of the application accept the connection. `binary_value_nullsafe` is the value without base64 encoding (`http_header_fields.c`). -/
def serverAnswer (value : Bytes) : Option Bytes :=
  match Base64.decode value with
  | some k => if k.length = 16 then acceptString (tmpName value) else none
  | none => none

end Verif.Sha1
