import Verif.Common
/-!
# Model of `src/lib/helpers/string_builder.c`: texts which are put together in a buffer

Not modelled: failing allocation. A byte of the buffer which has not been written is `none`.
-/
namespace Verif.StrBuild
open Verif

/-- `string_builder.h struct rrr_string_builder`; the size is the length of `buf`, and 0 without a buffer. -/
structure SB where
  buf : Option (List (Option UInt8))
  wpos : Nat
deriving DecidableEq, Repr

/-- `rrr_string_builder_new` (L101-118). -/
def new : SB := ⟨none, 0⟩

/-- `rrr_string_builder_size` (L95-99). -/
def SB.size (s : SB) : Nat := match s.buf with | none => 0 | some b => b.length

/-- `rrr_string_builder_length` (L89-93). -/
def SB.length (s : SB) : Nat := match s.buf with | none => 0 | some _ => s.wpos

/-- Success, an error is returned, or memory outside of the buffer is written. -/
inductive Out | ok (s : SB) | fail (s : SB) | outside
deriving DecidableEq, Repr

/-- 64 bit numbers, `rrr_biglength`. -/
def word : Nat := 2 ^ 64

/-- `rrr_string_builder_reserve` (L134-155): sums wrap at 64 bits. -/
def reserve (s : SB) (bytes : Nat) : Out :=
  if (s.wpos + bytes + 1) % word > s.size ∨ s.buf = none then
    let a := (bytes + 1 + 1024) % word
    let n := (a + s.size) % word
    if a < bytes ∨ n < a then .fail s
    else .ok { s with buf := some ((s.buf.getD []) ++ List.replicate (n - s.size) none) }
  else .ok s

/-- `memcpy` to `buf + wpos` of the bytes `d` with a zero after them, and `wpos` is moved behind `d`
(L51-59 `__rrr_string_builder_unchecked_append_raw`, L34-49 `rrr_string_builder_unchecked_append`, L215-216, L243-244). -/
def put (s : SB) (d : Bytes) : Out :=
  match s.buf with
  | none => .outside
  | some b =>
    if s.wpos + d.length + 1 > b.length then .outside
    else .ok ⟨some (b.take s.wpos ++ d.map some ++ [some 0] ++ b.drop (s.wpos + d.length + 1)), s.wpos + d.length⟩

/-- First one then the other, if it succeeds. -/
def Out.bind : Out → (SB → Out) → Out
  | .ok s, f => f s
  | .fail s, _ => .fail s
  | .outside, _ => .outside

/-- `rrr_string_builder_append_raw` (L187-199). -/
def appendRaw (s : SB) (d : Bytes) : Out := (reserve s d.length).bind (put · d)

/-- `rrr_string_builder_append` (L201-219); `d` is without the terminating zero. -/
def append (s : SB) (d : Bytes) : Out :=
  if d = [] ∧ s.buf ≠ none then .ok s else (reserve s d.length).bind (put · d)

/-- `rrr_string_builder_append_format` (L221-251) where `d` is the text after formatting. -/
def appendFormat (s : SB) (d : Bytes) : Out :=
  if d = [] then .fail s else (reserve s d.length).bind (put · d)

/-- `rrr_string_builder_append_from` (L167-185) where `d` are the first `wpos` bytes of the source. -/
def appendFrom (s : SB) (d : Bytes) : Out :=
  if d = [] then .ok s else (reserve s d.length).bind (put · d)

/-- `rrr_string_builder_truncate` (L157-165). -/
def truncate (s : SB) : Out :=
  match s.buf with
  | none => .ok s
  | some b => if b.length = 0 then .outside else .ok ⟨some (some 0 :: b.drop 1), 0⟩

/-- `rrr_string_builder_chop` (L253-259). -/
def chop (s : SB) : SB := if s.wpos > 0 then { s with wpos := s.wpos - 1 } else s

/-- `rrr_string_builder_clear` (L69-75) and `rrr_string_builder_buffer_takeover` (L61-67) as far as the builder is concerned. -/
def clear (_ : SB) : SB := ⟨none, 0⟩

/-- The calls. -/
inductive Op
  | append (d : Bytes) | raw (d : Bytes) | format (d : Bytes) | from_ (d : Bytes) | reserve (n : Nat) | truncate | chop | clear
deriving DecidableEq, Repr

def step (s : SB) : Op → Out
  | .append d => append s d
  | .raw d => appendRaw s d
  | .format d => appendFormat s d
  | .from_ d => appendFrom s d
  | .reserve n => reserve s n
  | .truncate => truncate s
  | .chop => .ok (chop s)
  | .clear => .ok (clear s)

/-- Calls one after the other; the caller goes on after an error. -/
def run (s : SB) : List Op → Option SB
  | [] => some s
  | o :: l => match step s o with
    | .ok s' => run s' l
    | .fail s' => run s' l
    | .outside => none

/-- The text which a reader of `rrr_string_builder_buf` or of the buffer taken over gets (L83-87, L61-67): the bytes before
the first zero; `none` if bytes which have not been written are read, the end of the buffer is passed or there is none. -/
def cells : List (Option UInt8) → Option Bytes
  | [] => none
  | none :: _ => none
  | some 0 :: _ => some []
  | some c :: l => (cells l).map (c :: ·)

/-- See `cells`. -/
def SB.text (s : SB) : Option Bytes := match s.buf with | none => none | some b => cells b

end Verif.StrBuild
