import Verif.Parse.Model

/-!
# Model of environment files: `src/lib/environment_file.c:34-122`, `src/main.c:75-81, 143-153`

Not modelled: reading of the file, allocation failure, line numbers, files of 4 GiB and more.
-/
namespace Verif.Env
open Verif Verif.Parse

/-- Names and values which have been read, and whether a byte after the end of the file was looked at. -/
structure Result where
  vars : List (Bytes × Bytes)
  over : Bool
deriving DecidableEq, Repr

/-- A string in C ends at the first NUL byte. -/
def cstr (l : Bytes) : Bytes := l.takeWhile (· ≠ 0)

/-- `parse.c:654-668 rrr_parse_str_trim`. -/
def trim (l : Bytes) : Bytes := (l.reverse.dropWhile isSpaces).reverse

/-- `parse.c:310-332 rrr_parse_non_newline`: the line. -/
def lineOf (b : Bytes) : Bytes := b.takeWhile fun c => !isNewline c

/-- What is after the line. -/
def afterLine (b : Bytes) : Bytes := b.dropWhile fun c => !isNewline c

/-- `parse.c:122-137 rrr_parse_comment` with L133: if there is no line end then the byte after the text is looked at. -/
def commentOver (b : Bytes) : Bool := !b.any isNewline

/-- `parse.c:450-483 rrr_parse_str_extract_until` with `=`: the length is 0 if it is not found. -/
def untilEquals (l : Bytes) : Nat := if l.contains 61 then (l.takeWhile (· ≠ 61)).length else 0

/-- `environment_file.c:47-113`, the loop. -/
def loop : Nat → Bytes → Result → Option Result
  | 0, _, r => some r
  | n + 1, b, r =>
    let b := ignoreSpaces b
    match b with
    | [] => some r
    | c :: _ =>
      if c = 35 then loop n (comment b) { r with over := r.over || commentOver b }
      else
        let line := cstr (lineOf b)
        let len := untilEquals line
        if len = 0 then loop n (afterLine b) { r with vars := r.vars ++ [(trim line, [49])] }
        else
          let rest := ignore isSpaceTab (b.drop (len + 1))             -- L91-92
          let value := lineOf rest                                     -- up to the end of the same line, since blanks are not line ends
          if value = [] then none                                      -- L93
          else loop n (afterLine b) { r with vars := r.vars ++ [(trim (line.take len), trim (cstr value))] }

/-- `environment_file.c:34-122 __rrr_environment_file_parse`. -/
def parse (text : Bytes) : Option Result := loop (text.length + 1) text ⟨[], false⟩

/-- `setenv` with replacement: names must not be empty or contain `=`. -/
def setenv (env : Bytes → Option Bytes) (name value : Bytes) : Option (Bytes → Option Bytes) :=
  if name = [] ∨ 61 ∈ name then none else some fun n => if n = name then some value else env n

/-- `main.c:151-153`. -/
def setAll (env : Bytes → Option Bytes) : List (Bytes × Bytes) → Option (Bytes → Option Bytes)
  | [] => some env
  | (n, v) :: r => match setenv env n v with
    | none => none
    | some env => setAll env r

/-- `main.c:143-153`: the environment after the file has been read, if the program goes on. -/
def load (env : Bytes → Option Bytes) (text : Bytes) : Option (Bytes → Option Bytes) :=
  match parse text with
  | none => none
  | some r => setAll env r.vars

end Verif.Env
