import Verif.Common
/-!
# Model of `src/lib/condition.c` and the functions of `src/lib/parse.c` it uses

The text which has not been read yet takes the place of `struct rrr_parse_pos`; line numbers (used for messages only) are not
modelled. Linked lists are lists. Memory allocation is assumed to succeed.
-/
namespace Verif.Condition
open Verif

/-! ## Text -/

/-- `parse.h:48-51` and `parse.c:50-54 __rrr_parse_is_spaces`. -/
def isSpace (c : UInt8) : Bool := c == 32 || c == 9 || c == 13 || c == 10

/-- `parse.h:63-64 RRR_PARSE_MATCH_C_NUMBER`. -/
def isNumber (c : UInt8) : Bool := 48 ≤ c && c ≤ 57

/-- `parse.h:55-58 RRR_PARSE_MATCH_C_LETTER`. -/
def isLetter (c : UInt8) : Bool := (97 ≤ c && c ≤ 122) || (65 ≤ c && c ≤ 90) || c == 95

/-- `parse.h:59-62 RRR_PARSE_MATCH_C_HEX`. -/
def isHex (c : UInt8) : Bool := (97 ≤ c && c ≤ 102) || (65 ≤ c && c ≤ 70) || (48 ≤ c && c ≤ 57)

/-- `parse.c:62-120 rrr_parse_ignore_spaces_and_increment_line`. -/
def skipSpaces (s : Bytes) : Bytes := s.dropWhile isSpace

/-- `parse.c:181-211 rrr_parse_match_word`: the text after the word. -/
def matchWord : Bytes → Bytes → Option Bytes
  | [], s => some s
  | _ :: _, [] => none
  | w :: ws, c :: s => if w = c then matchWord ws s else none

/-- The letter in the other case (`parse.c:152-159`). -/
def otherCase (c : UInt8) : UInt8 := if 97 ≤ c && c ≤ 122 then c - 32 else if 65 ≤ c && c ≤ 90 then c + 32 else 0

/-- `parse.c:139-179 rrr_parse_match_word_case`. -/
def matchWordCase : Bytes → Bytes → Option Bytes
  | [], s => some s
  | _ :: _, [] => none
  | w :: ws, c :: s => if w = c ∨ w = otherCase c then matchWordCase ws s else none

/-- `parse.c:265-277 rrr_parse_match_letters`: the text matched and the text after it. -/
def matchLetters (p : UInt8 → Bool) (s : Bytes) : Bytes × Bytes := (s.takeWhile p, s.dropWhile p)

/-! ## Operators -/

/-- `condition.c:60-86`, the operators. -/
inductive Op where
  | parOpen | parClose | lteq | gteq | bwLeft | bwRight | lt | gt | eq | ne | and2 | or2 | andW | orW | bwAnd | bwXor | bwOr
  | add | sub | mul | div | bwNot
deriving DecidableEq, Repr

/-- `condition.c:60-86`, in the order of the table. -/
def operators : List Op :=
  [.parOpen, .parClose, .lteq, .gteq, .bwLeft, .bwRight, .lt, .gt, .eq, .ne, .and2, .or2, .andW, .orW, .bwAnd, .bwXor, .bwOr,
   .add, .sub, .mul, .div, .bwNot]

/-- `condition.c:60-86`, the text of the operators. -/
def Op.word : Op → Bytes
  | .parOpen => [40] | .parClose => [41] | .lteq => [60, 61] | .gteq => [62, 61] | .bwLeft => [60, 60] | .bwRight => [62, 62]
  | .lt => [60] | .gt => [62] | .eq => [61, 61] | .ne => [33, 61] | .and2 => [38, 38] | .or2 => [124, 124] | .andW => [65, 78, 68]
  | .orW => [79, 82] | .bwAnd => [38] | .bwXor => [94] | .bwOr => [124] | .add => [43] | .sub => [45] | .mul => [42] | .div => [47]
  | .bwNot => [126]

/-- `condition.c:38-51` and `condition.c:60-86`, the priority of the operators. -/
def Op.prio : Op → Nat
  | .parOpen | .parClose => 0
  | .bwNot => 1
  | .mul | .div => 2
  | .add | .sub => 3
  | .bwLeft | .bwRight => 4
  | .lteq | .gteq | .lt | .gt => 5
  | .eq | .ne => 6
  | .bwAnd => 7
  | .bwXor => 8
  | .bwOr => 9
  | .and2 | .andW => 10
  | .or2 | .orW => 11

/-- `condition.c:222-233 __rrr_condition_parse_op`: the first operator in the table which matches. -/
def parseOpIn : List Op → Bytes → Option (Op × Bytes)
  | [], _ => none
  | o :: os, s =>
    match matchWord o.word s with
    | some r => some (o, r)
    | none => parseOpIn os s

def parseOp (s : Bytes) : Option (Op × Bytes) := parseOpIn operators s

/-! ## Parsing -/

/-- `condition.h struct rrr_condition_shunting_yard_carrier`: an operator or the text of a value. -/
inductive Carrier where
  | op (o : Op)
  | val (v : Bytes)
deriving DecidableEq, Repr

/-- Outcome of parsing: OK, an error, or `RRR_BUG`. -/
inductive Parsed (β : Type) where
  | ok (b : β) | soft | bug
deriving DecidableEq, Repr

/-- `struct rrr_condition_shunting_yard` and the local variables of `rrr_condition_interpret`. The first operator is the top of the
stack. -/
structure Yard where
  out : List Carrier
  stack : List Op
  parLevel : Nat
  prevWasOp : Bool
deriving DecidableEq, Repr

/-- `condition.c:295-302`: move operators up to the opening parenthesis to the output. -/
def closePar (out : List Carrier) : List Op → List Carrier × List Op
  | [] => (out, [])
  | o :: st => if o = .parOpen then (out, st) else closePar (out ++ [.op o]) st

/-- `condition.c:309-318`: move operators which bind more tightly to the output. -/
def popTighter (p : Nat) (out : List Carrier) : List Op → List Carrier × List Op
  | [] => (out, [])
  | o :: st => if o.prio < p ∧ o ≠ .parOpen then popTighter p (out ++ [.op o]) st else (out, o :: st)

/-- `condition.c:266-323 __rrr_condition_shunting_yard_shunt_op`. -/
def shuntOp (y : Yard) (o : Op) : Option Yard :=
  if o = .parOpen then some { y with stack := o :: y.stack, parLevel := y.parLevel + 1 }
  else if o = .parClose then
    if y.parLevel = 0 then none                                                         -- L288
    else
      let r := closePar y.out y.stack
      some { y with out := r.1, stack := r.2, parLevel := y.parLevel - 1 }
  else if y.stack = [] then some { y with stack := [o] }
  else
    let r := popTighter o.prio y.out y.stack
    some { y with out := r.1, stack := o :: r.2 }

/-- `condition.c:325-343 __rrr_condition_shunting_yard_shunt_value` and the length check in `condition.c:144-148` (the buffer has 64 bytes). -/
def shuntValue (y : Yard) (v : Bytes) : Option Yard :=
  if v.length > 63 then none else some { y with out := y.out ++ [.val v] }

/-- `condition.c:420-470`: the text of a value and the text after it; `none` where the loop is left. -/
def parseValue (s : Bytes) : Option (Bytes × Bytes) :=
  match matchWord [123] s with
  | some r =>                                                                           -- "{"
    let (n, r) := matchLetters (fun c => isLetter c || isNumber c) r
    if n = [] then none
    else match matchWord [125] r with                                                   -- "}"
      | none => none
      | some r => some (123 :: n ++ [125], r)
  | none =>
    match matchWordCase [48, 120] s with
    | some r =>                                                                         -- "0x"
      let (n, r') := matchLetters isHex r
      if n = [] then none else some (s.take 2 ++ n, r')
    | none =>
      match matchWordCase [45] s with
      | some r =>                                                                       -- "-"
        let (n, r) := matchLetters isNumber r
        if n = [] then none else some (45 :: n, r)
      | none =>
        let (n, r) := matchLetters isNumber s
        if n = [] then none else some (n, r)

/-- How the loop in `rrr_condition_interpret` ends: left with the state and the rest of the text, or an error. -/
inductive Loop where
  | left (y : Yard) (rest : Bytes)
  | soft
deriving DecidableEq, Repr

/-- `condition.c:384-397`: the operator, unless it is a `-` which begins a negative value. -/
def nextOp (y : Yard) (s : Bytes) : Option (Op × Bytes) :=
  if (parseOp s).map Prod.fst = some .sub ∧ (y.prevWasOp = true ∨ y.out = []) then none else parseOp s

/-- One round of the loop in `condition.c:378-478`; `inl` is the next state, `inr` is the end of the loop. -/
def round (y : Yard) (s : Bytes) : (Yard × Bytes) ⊕ Loop :=
  let s := skipSpaces s                                                                 -- L379
  if s = [] then .inr (.left y s)
  else
    if y.parLevel = 0 ∧ (parseOp s).map Prod.fst ≠ some .parOpen then .inr .soft        -- L385
    else
      match nextOp y s with
      | some (o, s') =>
        match shuntOp { y with prevWasOp := true } o with
        | none => .inr .soft
        | some y' => if y'.parLevel = 0 then .inr (.left y' s') else .inl (y', s')      -- L411
      | none =>
        match parseValue s with
        | none => .inr (.left { y with prevWasOp := false } s)                          -- breaks
        | some (v, s') =>
          match shuntValue { y with prevWasOp := false } v with
          | none => .inr .soft
          | some y' => .inl (y', s')

/-- `condition.c:378-478`, the loop. Each round reads at least one character. -/
def interpretLoop : Nat → Yard → Bytes → Loop
  | 0, y, s => .left y s
  | fuel + 1, y, s =>
    if s = [] then .left y s
    else match round y s with
      | .inl (y', s') => interpretLoop fuel y' s'
      | .inr e => e

/-- Numbers of operators with two operands and of values in the output (`condition.c:243-256`). -/
def opCount (l : List Carrier) : Nat := l.countP (fun c => match c with | .op o => o.prio != 1 | .val _ => false)
def valueCount (l : List Carrier) : Nat := l.countP (fun c => match c with | .op _ => false | .val _ => true)

/-- `condition.c:235-264 __rrr_condition_shunting_yard_finalize`. -/
def finalize (y : Yard) : Parsed (List Carrier) :=
  if y.stack ≠ [] then .bug
  else if valueCount y.out = opCount y.out + 1 ∨ y.out = [] then .ok y.out
  else .soft

/-- `condition.c:367-511 rrr_condition_interpret`: the condition and the rest of the text. -/
def interpret (s : Bytes) : Parsed (List Carrier × Bytes) :=
  match interpretLoop s.length ⟨[], [], 0, false⟩ s with
  | .soft => .soft
  | .left y rest =>
    if y.parLevel ≠ 0 then .soft                                                        -- L480
    else
      let y := if y.out = [] then { y with out := [.val [48]] } else y                  -- L487
      match finalize y with
      | .ok l => .ok (l, rest)
      | .soft => .soft
      | .bug => .bug

/-! ## Evaluation -/

/-- `condition.c:560-566 struct rrr_condition_running_result`, the value of it. -/
structure Num where
  bits : BitVec 64
  signed : Bool
deriving DecidableEq, Repr

/-- Outcome of a computation: a value, an error return, undefined by the C language, an access outside of an array, or `RRR_BUG`. -/
inductive Ev (β : Type) where
  | ok (b : β) | soft | undef | fault | bug
deriving DecidableEq, Repr

def bit (b : Bool) : BitVec 64 := if b then 1#64 else 0#64

/-- `condition.c:625-643 __rrr_condition_evaluate_operator` with the macro of L568-623. -/
def evalUnsigned (a b : BitVec 64) : Op → Ev (BitVec 64)
  | .lteq => .ok (bit (a.ule b))
  | .gteq => .ok (bit (b.ule a))
  | .lt => .ok (bit (a.ult b))
  | .gt => .ok (bit (b.ult a))
  | .eq => .ok (bit (a == b))
  | .ne => .ok (bit (a != b))
  | .and2 | .andW => .ok (bit (a != 0#64 && b != 0#64))
  | .or2 | .orW => .ok (bit (a != 0#64 || b != 0#64))
  | .bwAnd => .ok (a &&& b)
  | .bwXor => .ok (a ^^^ b)
  | .bwOr => .ok (a ||| b)
  | .bwLeft => if b.toNat < 64 then .ok (a <<< b.toNat) else .undef
  | .bwRight => if b.toNat < 64 then .ok (a >>> b.toNat) else .undef
  | .bwNot => .ok (~~~ b)
  | .add => .ok (a + b)
  | .sub => .ok (a - b)
  | .mul => .ok (a * b)
  | .div => if b = 0#64 then .soft else .ok (a / b)
  | .parOpen | .parClose => .bug

/-- A signed result is undefined when it does not fit. -/
def fit (r : Int) : Ev (BitVec 64) := if - 2 ^ 63 ≤ r ∧ r < 2 ^ 63 then .ok (BitVec.ofInt 64 r) else .undef

/-- `condition.c:645-659 __rrr_condition_evaluate_operator_signed`. The right shift of a negative number is arithmetic, which C leaves to the implementation. -/
def evalSigned (a b : BitVec 64) : Op → Ev (BitVec 64)
  | .lteq => .ok (bit (decide (a.toInt ≤ b.toInt)))
  | .gteq => .ok (bit (decide (b.toInt ≤ a.toInt)))
  | .lt => .ok (bit (decide (a.toInt < b.toInt)))
  | .gt => .ok (bit (decide (b.toInt < a.toInt)))
  | .eq => .ok (bit (a == b))
  | .ne => .ok (bit (a != b))
  | .and2 | .andW => .ok (bit (a != 0#64 && b != 0#64))
  | .or2 | .orW => .ok (bit (a != 0#64 || b != 0#64))
  | .bwAnd => .ok (a &&& b)
  | .bwXor => .ok (a ^^^ b)
  | .bwOr => .ok (a ||| b)
  | .bwLeft => if 0 ≤ b.toInt ∧ b.toInt < 64 ∧ 0 ≤ a.toInt then fit (a.toInt * 2 ^ b.toNat) else .undef
  | .bwRight => if 0 ≤ b.toInt ∧ b.toInt < 64 then .ok (a.sshiftRight b.toNat) else .undef
  | .bwNot => .ok (~~~ b)
  | .add => fit (a.toInt + b.toInt)
  | .sub => fit (a.toInt - b.toInt)
  | .mul => fit (a.toInt * b.toInt)
  | .div => if b = 0#64 ∨ (a.toInt = - 2 ^ 63 ∧ b.toInt = -1) then .soft else .ok (BitVec.ofInt 64 (a.toInt.tdiv b.toInt))
  | .parOpen | .parClose => .bug

/-- `condition.c:661-684 __rrr_condition_evaluate_ensure_signed`: whether the conversion is possible. -/
def canBeSigned (n : Num) : Bool := n.signed || decide (n.bits.toNat ≤ 2 ^ 63 - 1)

/-- `condition.c:717-790`, the computation; the first operand may be missing. -/
def compute (o : Op) (a : Option Num) (b : Num) : Ev Num :=
  if b.signed = true ∨ a.any (·.signed) = true then
    if a.any (fun n => !canBeSigned n) = true then .soft
    else if !canBeSigned b then .soft
    else match evalSigned ((a.map (·.bits)).getD 0#64) b.bits o with
      | .ok r => .ok ⟨r, true⟩
      | .soft => .soft | .undef => .undef | .fault => .fault | .bug => .bug
  else
    match evalUnsigned ((a.map (·.bits)).getD 0#64) b.bits o with
    | .ok r => .ok ⟨r, false⟩
    | .soft => .soft | .undef => .undef | .fault => .fault | .bug => .bug

/-- `condition.c:560-566 struct rrr_condition_running_result`. -/
structure Res where
  num : Num
  evaluated : Bool
deriving DecidableEq, Repr

/-- `condition.c:699-713`: search for the operands. The list has the array positions before the operator, the last one first. -/
def scan (singular : Bool) : List Res → Nat → Option Nat → Option Nat → Option Nat × Option Nat
  | [], _, b, a => (b, a)
  | r :: rs, j, b, a =>
    let ba : Option Nat × Option Nat := if r.evaluated then (if b = none then (some j, a) else (b, some j)) else (b, a)
    if ba.1 ≠ none ∧ (ba.2 ≠ none ∨ singular = true) then ba else scan singular rs (j + 1) ba.1 ba.2

/-- `is_evaluated = 0` for a position (`condition.c:785-789`). -/
def unmark : Nat → List Res → List Res
  | _, [] => []
  | 0, r :: rs => { r with evaluated := false } :: rs
  | j + 1, r :: rs => r :: unmark j rs

def unmark? : Option Nat → List Res → List Res
  | none, rs => rs
  | some j, rs => unmark j rs

/-- `condition.c:686-792 __rrr_condition_evaluate_op`: the new results. At position 0 the search starts at array index 2³²-1 (`results_pos - 1`
is a 32 bit subtraction, L699). -/
def evaluateOp (o : Op) (rs : List Res) : Ev (List Res) :=
  if rs = [] then .fault
  else
    let ba := scan (o.prio == 1) rs 0 none none
    match ba.1 with
    | none => .bug                                                                      -- L715
    | some j =>
      match rs[j]? with
      | none => .fault
      | some b =>
        match compute o ((ba.2.bind (rs[·]?)).map (·.num)) b.num with
        | .ok n => .ok (⟨n, true⟩ :: unmark j (unmark? ba.2 rs))
        | .soft => .soft | .undef => .undef | .fault => .fault | .bug => .bug

/-- Value of a digit. -/
def digitValue (c : UInt8) : Nat :=
  if isNumber c then c.toNat - 48 else if 97 ≤ c then c.toNat - 87 else c.toNat - 55

/-- A number in the given base. -/
def number (base : Nat) (l : Bytes) : Nat := l.foldl (fun n c => n * base + digitValue c) 0

/-- `condition.c:794-866 __rrr_condition_evaluate_value`. `strtoull` and `strtoll` give the nearest value when a number is out of range. The text is as
made by `parseValue`; the checks for characters which are not digits are not modelled because there are none. -/
def evaluateValue (env : Bytes → Option Num) (v : Bytes) : Ev Num :=
  if v.head? = some 123 then
    match env (v.drop 1).dropLast with
    | none => .soft
    | some n => .ok n
  else if 2 ≤ v.length ∧ matchWordCase [48, 120] v ≠ none then
    .ok ⟨BitVec.ofNat 64 (min (number 16 (v.drop 2)) (2 ^ 64 - 1)), false⟩
  else if v.head? = some 45 then
    .ok ⟨BitVec.ofInt 64 (max (- (number 10 (v.drop 1) : Int)) (- 2 ^ 63)), true⟩
  else .ok ⟨BitVec.ofNat 64 (min (number 10 v) (2 ^ 64 - 1)), false⟩

/-- `condition.c:868-914`, the loop: the last operator's result stands. The state is the results (last position first) and `*result`. -/
def evalLoop (env : Bytes → Option Num) : List Carrier → List Res → BitVec 64 → Ev (BitVec 64)
  | [], _, result => .ok result
  | .op o :: l, rs, _ =>
    match evaluateOp o rs with
    | .ok rs' => evalLoop env l rs' ((rs'.head?.map (·.num.bits)).getD 0#64)
    | .soft => .soft | .undef => .undef | .fault => .fault | .bug => .bug
  | .val v :: l, rs, result =>
    match evaluateValue env v with
    | .ok n => evalLoop env l (⟨n, true⟩ :: rs) result
    | .soft => .soft | .undef => .undef | .fault => .fault | .bug => .bug

/-- `condition.c:868-914 rrr_condition_evaluate`. The values of names are given by `env`. -/
def evaluate (env : Bytes → Option Num) (l : List Carrier) : Ev (BitVec 64) := evalLoop env l [] 0#64

end Verif.Condition
