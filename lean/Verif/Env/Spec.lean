import Verif.Common

/-! # What environment files mean, line by line -/
namespace Verif.Env.Spec
open Verif

/-- The lines of a text. Both CR and LF end a line. -/
def lines : Bytes → List Bytes
  | [] => [[]]
  | c :: r => if c = 13 ∨ c = 10 then [] :: lines r
    else match lines r with
      | [] => [[c]]
      | l :: ls => (c :: l) :: ls

def blank (c : UInt8) : Bool := c = 32 || c = 9

/-- Without blanks at the start. -/
def left (l : Bytes) : Bytes := l.dropWhile blank
/-- Without blanks at the end. -/
def right (l : Bytes) : Bytes := (l.reverse.dropWhile blank).reverse

/-- What is in a line. -/
inductive Line where
  /-- Nothing, or a comment. -/
  | none
  /-- A variable. -/
  | var (name value : Bytes)
  /-- Nothing is after the equals sign. -/
  | bad
deriving DecidableEq, Repr

/-- A line is empty, begins with `#`, is `NAME` for the value 1, or is `NAME=VALUE`. Blanks around names and values are ignored. A line which begins
with `=` is taken for a name. -/
def readLine (l : Bytes) : Line :=
  let l := left l
  if l = [] ∨ l.head? = some 35 then .none
  else if 61 ∉ l ∨ l.head? = some 61 then .var (right l) [49]
  else
    let v := right (left ((l.dropWhile (· ≠ 61)).drop 1))
    if v = [] then .bad else .var (right (l.takeWhile (· ≠ 61))) v

/-- Variables in the order of lines, if no line is bad. -/
def readLines : List Bytes → Option (List (Bytes × Bytes))
  | [] => some []
  | l :: ls => match readLine l with
    | .none => readLines ls
    | .bad => none
    | .var n v => (readLines ls).map ((n, v) :: ·)

end Verif.Env.Spec
