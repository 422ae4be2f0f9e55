import Verif.Common
/-!
# Model of the string functions in `src/lib/http/http_util.c`

A range `[start, end)` of characters is a list of bytes. Memory allocation is assumed to succeed. Debug messages are not modelled.
-/
namespace Verif.HttpUtil
open Verif

/-- Outcome: returned a value, returned an error, `RRR_BUG`, or a memory access outside of the buffer. -/
inductive Out (β : Type) where
  | ok (b : β) | err | bug | fault
deriving DecidableEq, Repr

/-! ## Character classes -/

/-- `http_util.c:60-69 __rrr_http_util_is_alphanumeric`. -/
def isAlnum (c : UInt8) : Bool := (97 ≤ c && c ≤ 122) || (65 ≤ c && c ≤ 90) || (48 ≤ c && c ≤ 57)

/-- `http_util.c:71-73 __rrr_http_util_is_lwsp`. -/
def isLwsp (c : UInt8) : Bool := c == 32 || c == 9

/-- `http_util.c:75-100 __rrr_http_util_is_uri_unreserved_rfc2396`: `-_.!~*'()`. -/
def isUnreservedMark (c : UInt8) : Bool := [45, 95, 46, 33, 126, 42, 39, 40, 41].contains c

/-- `http_util.c:102-127 __rrr_http_util_is_uri_reserved`: `;/?:@&=+$,`. -/
def isReserved (c : UInt8) : Bool := [59, 47, 63, 58, 64, 38, 61, 43, 36, 44].contains c

/-- `http_util.c:129-162 __rrr_http_util_is_header_special_rfc822`: `()<>@,;:\".[]`. -/
def isSpecial (c : UInt8) : Bool := [40, 41, 60, 62, 64, 44, 59, 58, 92, 34, 46, 91, 93].contains c

/-- `http_util.c:164-200 __rrr_http_util_is_header_nonspecial_rfc7230`: ``!#$%&'*+-.^_`|~``. -/
def isNonspecial (c : UInt8) : Bool := [33, 35, 36, 37, 38, 39, 42, 43, 45, 46, 94, 95, 96, 124, 126].contains c

/-- `http_util.c:202-204 __rrr_http_util_is_ascii_non_ctl`. -/
def isNonCtl (c : UInt8) : Bool := 31 < c && c < 127

/-! ## Numbers -/

/-- Digit check of `http_util.c:624-640` for base 10 and base 16. -/
def isDigit (base : Nat) (c : UInt8) : Bool :=
  if base = 10 then 48 ≤ c && c ≤ 57
  else (48 ≤ c && c ≤ 57) || (97 ≤ c && c ≤ 102) || (65 ≤ c && c ≤ 70)

/-- Value of a digit, as `strtoull` takes it. -/
def digitValue (c : UInt8) : Nat :=
  if 48 ≤ c && c ≤ 57 then c.toNat - 48 else if 97 ≤ c && c ≤ 102 then c.toNat - 87 else c.toNat - 55

/-- `strtoull` on a string of digits only: the value, or the largest value when it does not fit. -/
def strtoull (base : Nat) (l : Bytes) : Nat :=
  let v := l.foldl (fun n c => n * base + digitValue c) 0
  if v < 2 ^ 64 then v else 2 ^ 64 - 1

/-- `http_util.c:609-674 rrr_http_util_strtoull_raw` for base 10 and 16: value and number of characters. A result out of range is not an
error. -/
def strtoullRaw (base : Nat) (l : Bytes) : Option (Nat × Nat) :=
  let d := l.takeWhile (isDigit base)
  if d.length = 0 then none                                            -- L646
  else if d.length > 63 then none                                      -- L650
  else some (strtoull base d, d.length)

/-! ## URI encoding -/

/-- `%02X` digit. -/
def hexDigit (n : UInt8) : UInt8 := if n < 10 then 48 + n else 55 + n

/-- `http_util.c:320-333 __rrr_http_util_uri_encode_foreach_byte_callback`. -/
def encodeByte (c : UInt8) : Bytes :=
  if isAlnum c || isUnreservedMark c then [c] else [37, hexDigit (c >>> 4), hexDigit (c &&& 15)]

/-- The highest offset written (exclusive) when the byte is written at `wpos`: `sprintf` writes a NUL, too. -/
def encodeHigh (wpos : Nat) (c : UInt8) : Nat :=
  if isAlnum c || isUnreservedMark c then wpos + 1 else wpos + 4

/-- `rrr_nullsafe_str_foreach_byte_do` with the callback: output, and whether all writes were below `size`. -/
def encodeLoop (size : Nat) : Nat → Bytes → Option Bytes
  | _, [] => some []
  | wpos, c :: s =>
    if encodeHigh wpos c > size then none
    else (encodeLoop size (wpos + (encodeByte c).length) s).map (encodeByte c ++ ·)

/-- `rrr_types.h RRR_LENGTH_MAX`. -/
def lengthMax : Nat := 2 ^ 32 - 1

/-- `http_util.c:336-382 rrr_http_util_uri_encode` when the target is new. -/
def uriEncode (s : Bytes) : Out Bytes :=
  if s.length * 3 > lengthMax then .bug                                -- L345
  else match encodeLoop (s.length * 3 + 1) 0 s with
    | none => .fault
    | some r => .ok r

/-- `http_util.c:247-299 __rrr_http_util_decode_urlencoded_string`, the loop. It works in place: `start` is where it reads and
`wpos` where it writes. -/
def decodeLoop : Nat → Bytes → Nat → Nat → Out Bytes
  | 0, buf, _, wpos => .ok (buf.take wpos)
  | fuel + 1, buf, start, wpos =>
    if start < buf.length then
      let c := buf.getD start 0
      if c = 37 then
        if start + 3 > buf.length then .err                            -- L264
        else match strtoullRaw 16 ((buf.drop (start + 1)).take 2) with
          | none => .err                                               -- L273
          | some (v, _) =>
            if v > 0xff then .bug                                      -- L282
            else decodeLoop fuel (buf.set wpos (UInt8.ofNat v)) (start + 3) (wpos + 1)
      else decodeLoop fuel (buf.set wpos c) (start + 1) (wpos + 1)
    else .ok (buf.take wpos)

/-- `http_util.c:310-314 rrr_http_util_urlencoded_string_decode`. -/
def urlDecode (s : Bytes) : Out Bytes := decodeLoop s.length s 0 0

/-! ## Quoting -/

/-- `http_util.c:384-439 __rrr_http_util_unquote_string_callback`, in place. The mode is `none` outside of quotes and the character which ends
the quote inside. -/
def unquoteLoop : Nat → Bytes → Nat → Nat → Option UInt8 → Bytes
  | 0, buf, _, wpos, _ => buf.take wpos
  | fuel + 1, buf, start, wpos, mode =>
    if start < buf.length then
      let c := buf.getD start 0
      match mode with
      | none =>
        if c = 34 ∨ c = 40 then                                        -- L401
          if start + 1 ≥ buf.length then buf.take wpos                 -- L407
          else unquoteLoop fuel buf (start + 1) wpos (some (if c = 34 then 34 else 41))
        else unquoteLoop fuel (buf.set wpos c) (start + 1) (wpos + 1) none
      | some q =>
        if c = 92 then                                                 -- L412
          if start + 1 < buf.length ∧ buf.getD (start + 1) 0 = q then
            unquoteLoop fuel (buf.set wpos q) (start + 2) (wpos + 1) mode
          else unquoteLoop fuel (buf.set wpos c) (start + 1) (wpos + 1) mode
        else if c = q then unquoteLoop fuel buf (start + 1) wpos none  -- L424, L434
        else unquoteLoop fuel (buf.set wpos c) (start + 1) (wpos + 1) mode
    else buf.take wpos

/-- `http_util.c:441-445 rrr_http_util_unquote_string`. -/
def unquote (s : Bytes) : Bytes := unquoteLoop s.length s 0 0 none

/-- `http_util.c:482-502`: check of one character: `none` invalid, otherwise whether quotes are needed. -/
def quoteCheck (c : UInt8) : Option Bool :=
  if isAlnum c || isNonspecial c then some false
  else if isSpecial c || isLwsp c || c == 13 || c == 92 then some true
  else if isNonCtl c then some false
  else none

/-- All characters are checked. -/
def quoteCheckAll : Bytes → Option Bool
  | [] => some false
  | c :: s =>
    match quoteCheck c with
    | none => none
    | some q => (quoteCheckAll s).map (q || ·)

/-- `http_util.c:511-520`: a character with escape. -/
def quoteChar (a b c : UInt8) : Bytes := if c = a ∨ c = b ∨ c = 13 ∨ c = 92 then [92, c] else [c]

/-- `http_util.c:447-534 rrr_http_util_header_value_quote`; `err` is a NULL return. The size of the result is computed with 32 bits (L463). A
write past the allocated size is a fault, and so is a result with no NUL after it (only `result_size` bytes are zeroed, L472). -/
def quote (s : Bytes) (a b : UInt8) : Out Bytes :=
  if s.length = 0 then .err                                            -- L455
  else
    let size := (s.length * 2 + 2 + 1) % 2 ^ 32
    match quoteCheckAll s with
    | none => .err
    | some false => if s.length ≥ size then .fault else .ok s          -- L505
    | some true =>
      let r := a :: s.flatMap (quoteChar a b) ++ [b]
      if r.length > size + 1 then .fault else if r.length > size then .bug else if r.length = size then .fault else .ok r

/-! ## Search -/

/-- `http_util.c:583-595 rrr_http_util_find_crlf`: offset from the start. -/
def findCrlf : Bytes → Option Nat
  | 13 :: 10 :: _ => some 0
  | _ :: l => (findCrlf l).map (· + 1)
  | [] => none

/-- `http_util.c:596-607 rrr_http_util_find_whsp`: the last character is not looked at. -/
def findWhsp : Bytes → Option Nat
  | [] => none
  | [_] => none
  | c :: l => if c = 32 ∨ c = 9 then some 0 else (findWhsp l).map (· + 1)

/-- `http_util.c:781-795 rrr_http_util_count_whsp`. -/
def countWhsp (l : Bytes) : Nat := (l.takeWhile isLwsp).length

/-- `http_util.c:767-779 rrr_http_util_strchr`. -/
def strchr (l : Bytes) (c : UInt8) : Option Nat := l.findIdx? (· == c)

/-- `tolower` in the C locale. -/
def toLower (c : UInt8) : UInt8 := if 65 ≤ c && c ≤ 90 then c + 32 else c

/-- Variables of the loop in `rrr_http_util_strcasestr`. -/
structure Search where
  pos : Nat
  needlePos : Nat
  revert : Option Nat
  result : Option Nat
  len : Nat
deriving DecidableEq, Repr

/-- `http_util.c:734-760`, the loop. The needle is a string, its end is a NUL; characters after that may not be accessed. -/
def searchLoop (text needle : Bytes) : Nat → Search → Out (Option Nat × Nat)
  | 0, s => .ok (s.result, s.len)
  | fuel + 1, s =>
    if s.pos < text.length then
      if s.needlePos > needle.length then .fault
      else if toLower (text.getD s.pos 0) = toLower (needle.getD s.needlePos 0) then
        let result := if s.result = none then some s.pos else s.result
        if s.needlePos + 1 = needle.length then .ok (result, s.len + 1)           -- L748
        else searchLoop text needle fuel ⟨s.pos + 1, s.needlePos + 1, if s.revert = none then some (s.pos + 1) else s.revert, result, s.len + 1⟩
      else
        searchLoop text needle fuel ⟨(match s.revert with | some r => r | none => s.pos) + 1, 0, none, none, 0⟩   -- L753-759, L734 pos++
    else .ok (s.result, s.len)

/-- `http_util.c:705-765 rrr_http_util_strcasestr`: found position and length, `err` is the return value 1. -/
def strcasestr (text needle : Bytes) : Out (Nat × Nat) :=
  if text.length < needle.length then .err                                        -- L726
  else match searchLoop text needle (text.length * (text.length + 2) + 1) ⟨0, 0, none, none, 0⟩ with
    | .ok (some p, n) => .ok (p, n)
    | .ok (none, _) => .err
    | .err => .err
    | .bug => .bug
    | .fault => .fault

end Verif.HttpUtil
