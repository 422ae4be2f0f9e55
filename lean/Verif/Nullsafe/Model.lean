import Verif.Common

/-!
# Model of the strings of HTTP and MQTT, `src/lib/helpers/nullsafe_str.c`

Strings have a length and may have any bytes in them. Loops over positions with an index are modelled with the same index.
Not modelled: allocation failure, missing strings where the functions only return, copying and appending of whole strings.
-/
namespace Verif.Nullsafe
open Verif

/-- Outcome of a function which calls back: the calls, and the return value. A read outside of a string is a fault. -/
inductive Out (α : Type) | ok (calls : List α) (ret : Int) | fault
deriving DecidableEq, Repr

/-- A call in front of other calls. -/
def Out.cons {α : Type} (a : α) : Out α → Out α
  | .ok l r => .ok (a :: l) r
  | .fault => .fault

/-- `nullsafe_str.c:404-432 rrr_nullsafe_str_split_raw`, the loop from index `i`. Calls are part and whether it is the last. -/
def splitLoop (s : Bytes) (c : UInt8) (callback : Bytes × Bool → Int) (i start : Nat) : Out (Bytes × Bool) :=
  if _h : i < s.length then
    let found := s.getD i 0 = c
    let part := ((s.drop start).take (i - start), false)
    if found ∧ callback part ≠ 0 then .ok [part] (callback part)
    else
      let start' := if found then i + 1 else start
      let last := ((s.drop start').take (i + 1 - start'), true)
      let rest :=
        if s.length - 1 = i then
          if callback last ≠ 0 then .ok [last] (callback last) else (splitLoop s c callback (i + 1) start').cons last
        else splitLoop s c callback (i + 1) start'
      if found then rest.cons part else rest
  else .ok [] 0
termination_by s.length - i

/-- `nullsafe_str.c:404-432 rrr_nullsafe_str_split_raw`. -/
def split (s : Bytes) (c : UInt8) (callback : Bytes × Bool → Int) : Out (Bytes × Bool) := splitLoop s c callback 0 0

/-- `nullsafe_str.c:475-518 rrr_nullsafe_str_str`, the loop from index `i` which ends after index `last`. Calls are positions. The first bytes of text and needle are read first (L498). -/
def findLoop (s needle : Bytes) (callback : Nat → Int) (last i : Nat) : Out Nat :=
  if _h : i ≤ last then
    match s[i]?, needle[0]? with
    | some a, some b =>
      if a = b ∧ (s.drop i).take needle.length = needle then
        if callback i ≠ 0 then .ok [i] (callback i) else (findLoop s needle callback last (i + 1)).cons i
      else findLoop s needle callback last (i + 1)
    | _, _ => .fault
  else .ok [] 0
termination_by last + 1 - i

/-- `nullsafe_str.c:475-518 rrr_nullsafe_str_str`. -/
def find (s needle : Bytes) (callback : Nat → Int) : Out Nat :=
  if needle.length > s.length then .ok [] 0 else findLoop s needle callback (s.length - needle.length) 0

/-- `nullsafe_str.c:384-402 rrr_nullsafe_str_chr`, the loop: the text from the character. -/
def chr (s : Bytes) (c : UInt8) : Option Bytes :=
  match s with
  | [] => none
  | x :: r => if x = c then some (x :: r) else chr r c

/-- `nullsafe_str.c:520-554 rrr_nullsafe_str_check_likely_binary`, the loop: counts of bytes which are not ASCII and of all, none if there is a zero byte. -/
def countLoop : Nat → Bytes → Nat → Nat → Option (Nat × Nat)
  | 0, _, k, n => some (k, n)
  | _, [], k, n => some (k, n)
  | m + 1, c :: r, k, n => if c = 0 then none else countLoop m r (if c > 127 then k + 1 else k) (n + 1)

/-- `nullsafe_str.c:520-554 rrr_nullsafe_str_check_likely_binary`. The quotient of two numbers up to 512 is at least the floating point number 0.3 exactly if ten times the first is at
least three times the second, and the quotient of zeros compares as false. -/
def likelyBinary (s : Bytes) : Bool :=
  match countLoop 512 s 0 0 with
  | none => true
  | some (k, n) => n ≠ 0 && 10 * k ≥ 3 * n

/-- `nullsafe_str.c:576-584 rrr_nullsafe_str_begins_with`. -/
def beginsWith (s sub : Bytes) : Bool := if s.length < sub.length then false else s.take sub.length == sub

/-- `tolower` in the C locale. -/
def toLower (c : UInt8) : UInt8 := if 65 ≤ c ∧ c ≤ 90 then c + 32 else c

/-- `nullsafe_str.c:642-652, 668-677`: loop over the characters of two texts. True is a difference. -/
def cmpLoop (f : UInt8 → UInt8) : Bytes → Bytes → Bool
  | a :: r, b :: t => if f a ≠ f b then true else cmpLoop f r t
  | _, _ => false

/-- `nullsafe_str.c:657-680 rrr_nullsafe_str_cmpto`. True is a difference. -/
def cmpto (s t : Bytes) : Bool := if s.length = 0 ∧ t.length = 0 then false else if s.length ≠ t.length then true else cmpLoop id s t

/-- `nullsafe_str.c:631-655 rrr_nullsafe_str_cmpto_case`. True is a difference. -/
def cmptoCase (s t : Bytes) : Bool := if s.length = 0 ∧ t.length = 0 then false else if s.length ≠ t.length then true else cmpLoop toLower s t

/-- `nullsafe_str.c:682-704 rrr_nullsafe_str_util_output_strip_null_append_null_trim_raw_null_ok`: what is in the buffer, up to the byte which ends it. A buffer without room is written outside of,
which gives nothing here. -/
def print (size : Nat) (s : Bytes) : Option Bytes :=
  if size = 0 then none
  else if s.length = 0 then some [0]
  else
    let n := if s.length > size - 1 then size - 1 else s.length
    some ((s.take n).map (fun c => if c = 0 then 78 else c) ++ [0])

/-- `nullsafe_str.c:763-780 rrr_nullsafe_str_copyto`: what is written to the target. -/
def copyto (size : Nat) (s : Bytes) : Bytes :=
  if size = 0 ∨ s.length = 0 then [] else s.take (if s.length > size then size else s.length)

/-- `nullsafe_str.c:995-1014 rrr_nullsafe_str_trim` and `nullsafe_str.c:1016-1039 rrr_nullsafe_str_trim_set`, the loop. The index is always the last of the string, as both are reduced together. -/
def trimLoop (set : Bytes) (s : Bytes) : Nat → Bytes
  | 0 => s.take 0
  | n + 1 => if set.contains (s.getD n 0) then trimLoop set s n else s.take (n + 1)

/-- `nullsafe_str.c:1016-1039 rrr_nullsafe_str_trim_set`. -/
def trimSet (set s : Bytes) : Bytes := if s.length = 0 then s else trimLoop set s s.length

/-- `nullsafe_str.c:995-1014 rrr_nullsafe_str_trim`. -/
def trim (s : Bytes) : Bytes := trimSet [32] s

end Verif.Nullsafe
