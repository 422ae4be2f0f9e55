import Verif.Common
/-!
# Model of `src/lib/cmdlineparser/cmdline.c`: arguments of the programs

An argument is the bytes of the C string, without the NUL at the end. Memory is always available. Which arguments have been looked up is
a list of marks beside the list of pairs. What was collected before an error is not modelled: all programs stop at the error.
-/
namespace Verif.Cmdline
open Verif

/-- `cmdline.h struct cmd_arg_rule`, with the flags of `cmdline_defines.h:32-37`. The legend, which is only printed, is left out. The array of rules
ends with a rule without a name; in the model it is a list without this rule. -/
structure Rule where
  hasArg : Bool := false
  split : Bool := false
  noFlag : Bool := false
  multi : Bool := false
  allowEmpty : Bool := false
  short : UInt8
  long : Bytes
deriving DecidableEq, Repr

/-- `cmdline.h struct cmd_arg_pair`: a rule and the values given -/
structure Pair where
  rule : Rule
  values : List Bytes
deriving DecidableEq, Repr

/-- `cmdline.c:370-383 __cmd_get_rule_noflag` -/
def ruleNoflag : List Rule → Nat → Option Rule
  | [], _ => none
  | r :: rs, pos =>
    if r.noFlag then
      match pos with
      | 0 => some r
      | n + 1 => ruleNoflag rs n
    else ruleNoflag rs pos

/-- `cmdline.c:385-395 __cmd_get_rule_noflag_multi` -/
def ruleMulti : List Rule → Option Rule
  | [] => none
  | r :: rs => if r.multi then some r else ruleMulti rs

/-- `cmdline.c:397-409 __cmd_get_rule_by_longname` -/
def ruleLong : List Rule → Bytes → Option Rule
  | [], _ => none
  | r :: rs, name => if !r.noFlag && r.long == name then some r else ruleLong rs name

/-- `cmdline.c:411-423 __cmd_get_rule_by_shortname` -/
def ruleShort : List Rule → UInt8 → Option Rule
  | [], _ => none
  | r :: rs, name => if !r.noFlag && r.short == name then some r else ruleShort rs name

/-- `cmdline.c:313-330`, the loop of `__cmd_pair_split_comma`. The first argument bounds the number of rounds. -/
def splitLoop : Nat → Bytes → List Bytes
  | 0, _ => []
  | n + 1, v => if v = [] then [] else v.takeWhile (· != 44) :: splitLoop n ((v.dropWhile (· != 44)).drop 1)

/-- `cmdline.c:290-338 __cmd_pair_split_comma` -/
def splitComma (v : Bytes) : List Bytes := splitLoop v.length v

/-- `cmdline.c:452-459`: the number of dashes, and what follows them. Nothing is a dash after the end of options (L451). -/
def dashes (ended : Bool) (a : Bytes) : Nat × Bytes :=
  if ended then (0, a)
  else
    match a with
    | 45 :: 45 :: t => (2, t)
    | 45 :: t => (1, t)
    | _ => (0, a)

/-- `cmdline.c:461-462`: the key, and the value after the equal sign -/
def splitEqual (dash : Nat) (pos : Bytes) : Bytes × Option Bytes :=
  if 0 < dash && pos.contains 61 then (pos.takeWhile (· != 61), some ((pos.dropWhile (· != 61)).drop 1)) else (pos, none)

/-- `cmdline.c:495-513`: the letters after one dash. Pairs without values, and the rule of which a value is to be found, if any. `none` is an error. -/
def shorts (rules : List Rule) (length : Nat) : List UInt8 → Option Rule → Option (List Pair × Option Rule)
  | [], r => some ([], r)
  | c :: t, _ =>
    match ruleShort rules c with
    | none => none
    | some r =>
      if r.hasArg && length != 1 then none
      else if !r.hasArg then
        match shorts rules length t none with
        | none => none
        | some (ps, last) => some (⟨r, []⟩ :: ps, last)
      else shorts rules length t (some r)

/-- `cmdline.c:528-553`: the value and the arguments which remain. `none` is an error. -/
def takeValue (r : Rule) (equal : Option Bytes) (a : Bytes) (rest : List Bytes) : Option (Option Bytes × List Bytes) :=
  if r.hasArg || r.noFlag || r.multi then
    match equal with
    | some v => if v = [] && !r.allowEmpty then none else some (some v, rest)
    | none =>
      if !(r.noFlag || r.multi) then
        match rest with
        | [] => none
        | v :: rest' => if v = [] && !r.allowEmpty then none else some (some v, rest')
      else if a = [] && !r.allowEmpty then none
      else some (some a, rest)
  else if equal.isSome then none
  else some (none, rest)

/-- `cmdline.c:555-569`: the pair of a rule and a value -/
def pairOf (r : Rule) : Option Bytes → Pair
  | none => ⟨r, []⟩
  | some v => ⟨r, if r.split then splitComma v else [v]⟩

/-- What the start of an argument is: `cmdline.c:451-481` -/
inductive Kind where
  | bad
  | stop
  | key (dash : Nat) (key : Bytes) (equal : Option Bytes)
deriving DecidableEq, Repr

/-- `cmdline.c:451-481` -/
def kind (ended : Bool) (a : Bytes) : Kind :=
  let d := dashes ended a
  let k := splitEqual d.1 d.2
  if ended then .key 0 a none
  else if k.2.isSome then (if k.1 = [] then .bad else .key d.1 k.1 k.2)
  else if k.1 = [] then (if d.1 = 2 then .stop else .bad)
  else .key d.1 k.1 none

/-- `cmdline.c:483-526`: the pairs of letters, the rule of which a value is to be found, and the number of arguments without a flag -/
def findRule (rules : List Rule) (n : Nat) (dash : Nat) (key : Bytes) : Option (List Pair × Option Rule × Nat) :=
  if dash = 2 then
    match ruleLong rules key with
    | none => none
    | some r => some ([], some r, n)
  else if dash = 1 then
    match shorts rules key.length key none with
    | none => none
    | some (ps, r) => some (ps, r, n)
  else
    match ruleNoflag rules n with
    | some r => some ([], some r, n + 1)
    | none =>
      match ruleMulti rules with
      | some r => some ([], some r, n + 1)
      | none => none

/-- `cmdline.c:444-570`, the loop of `cmd_parse`: arguments without a flag so far, whether `--` was found, and the arguments which remain. `none` is an
error. The first argument bounds the number of rounds. -/
def loop (rules : List Rule) : Nat → Nat → Bool → List Bytes → Option (List Pair)
  | 0, _, _, _ => some []
  | _ + 1, _, _, [] => some []
  | f + 1, n, ended, a :: rest =>
    match kind ended a with
    | .bad => none
    | .stop => loop rules f n true rest
    | .key dash key equal =>
      match findRule rules n dash key with
      | none => none
      | some (ps, none, n') => (loop rules f n' ended rest).map (ps ++ ·)
      | some (ps, some r, n') =>
        match takeValue r equal a rest with
        | none => none
        | some (v, rest') => (loop rules f n' ended rest').map fun l => ps ++ pairOf r v :: l

/-- `cmdline.c:425-590 cmd_parse`: the command, if the program takes one, and the pairs. `argv` is without the name of the program. -/
def parse (rules : List Rule) (command : Bool) (argv : List Bytes) : Option (Bytes × List Pair) :=
  match argv with
  | [] => some ([], [])
  | a :: t =>
    if command then (loop rules t.length 0 false t).map (a, ·)
    else (loop rules (t.length + 1) 0 false (a :: t)).map ([], ·)

/-! ## Looking up arguments -/

/-- `cmdline.c:231-242 cmd_exists` -/
def cmdExists : List Pair → Bytes → Nat → Bool
  | [], _, _ => false
  | p :: ps, key, index =>
    if p.rule.long == key then
      match index with
      | 0 => true
      | i + 1 => cmdExists ps key i
    else cmdExists ps key index

/-- `cmdline.c:139-148 cmd_find_pair`: the place of the pair. The caller marks it as used. -/
def findPair : List Pair → Bytes → Nat → Option Nat
  | [], _, _ => none
  | p :: ps, key, index =>
    if p.rule.long == key then
      match index with
      | 0 => some 0
      | i + 1 => (findPair ps key i).map (· + 1)
    else (findPair ps key index).map (· + 1)

/-- `cmdline.c:244-259 cmd_get_subvalue`: the value, and which pairs have been used -/
def getSubvalue (ps : List Pair) (used : List Bool) (key : Bytes) (index sub : Nat) : Option Bytes × List Bool :=
  match findPair ps key index with
  | none => (none, used)
  | some i => ((ps[i]?.map (·.values)).getD [] |>.drop sub |>.head?, used.set i true)

/-- `cmdline.c:286-288 cmd_get_value` -/
def getValue (ps : List Pair) (used : List Bool) (key : Bytes) (index : Nat) : Option Bytes × List Bool := getSubvalue ps used key index 0

/-- `cmdline.c:272-281`, the inner loop of `cmd_iterate_subvalues_if_exists` -/
def iterateSub (ps : List Pair) (key : Bytes) (i : Nat) : Nat → Nat → List Bytes
  | 0, _ => []
  | f + 1, j =>
    match (getSubvalue ps [] key i j).1 with
    | none => []
    | some v => v :: iterateSub ps key i f (j + 1)

/-- `cmdline.c:267-283`, the outer loop of `cmd_iterate_subvalues_if_exists`. `fv` bounds the number of values of a pair. -/
def iterateLoop (ps : List Pair) (key : Bytes) (fv : Nat) : Nat → Nat → List Bytes
  | 0, _ => []
  | f + 1, i =>
    match (getValue ps [] key i).1 with
    | none => []
    | some _ => iterateSub ps key i fv 0 ++ iterateLoop ps key fv f (i + 1)

/-- The most values a pair has -/
def mostValues (ps : List Pair) : Nat := ps.foldl (fun m p => max m p.values.length) 0

/-- `cmdline.c:261-284 cmd_iterate_subvalues_if_exists`: the values which are handed to the callback, when it does not fail -/
def iterate (ps : List Pair) (key : Bytes) : List Bytes := iterateLoop ps key (mostValues ps + 1) (ps.length + 1) 0

/-- `cmdline.c:127-137 cmd_check_all_args_used`: the arguments which are complained about, and the return value -/
def checkAllUsed (ps : List Pair) (used : List Bool) : List Bytes × Bool :=
  (((ps.zip used).filter fun x => !x.2).map (·.1.rule.long), false)

/-- `cmdline.c:592-594 cmd_match` -/
def cmdMatch (command test : Bytes) : Bool := command == test

end Verif.Cmdline
