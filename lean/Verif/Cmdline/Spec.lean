import Verif.Cmdline.Model
/-!
# What command lines mean

A command line is written from a list of items, and each item says what it means. `Odd` items are those which can be written and are accepted, but
mean something else than what a user would expect.
-/
namespace Verif.Cmdline
open Verif

/-- The first rule with this name which can be named -/
def Named (rules : List Rule) (r : Rule) : Prop :=
  ∃ pre post, rules = pre ++ r :: post ∧ r.noFlag = false ∧ ∀ x ∈ pre, x.noFlag = false → x.long ≠ r.long

/-- The first rule with this letter which can be named -/
def Lettered (rules : List Rule) (r : Rule) : Prop :=
  ∃ pre post, rules = pre ++ r :: post ∧ r.noFlag = false ∧ ∀ x ∈ pre, x.noFlag = false → x.short ≠ r.short

/-- The rule of the argument without a flag number `n`: the rules for such arguments in order, then the first rule for any number of them -/
def positional (rules : List Rule) (n : Nat) : Option Rule :=
  ((rules.filter (·.noFlag))[n]?).or ((rules.filter (·.multi)).head?)

/-- The parts of a text between commas -/
def pieces : Bytes → List Bytes
  | [] => [[]]
  | c :: t =>
    if c = 44 then [] :: pieces t
    else
      match pieces t with
      | p :: ps => (c :: p) :: ps
      | [] => [[c]]

/-- The values of a value with commas: the parts, but not an empty part at the end -/
def commaValues (v : Bytes) : List Bytes := if (pieces v).getLast? = some [] then (pieces v).dropLast else pieces v

/-- The values a text stands for -/
def valuesOf (r : Rule) (v : Bytes) : List Bytes := if r.split then commaValues v else [v]

/-- A value is there, or need not be there -/
def Given (r : Rule) (v : Bytes) : Prop := v ≠ [] ∨ r.allowEmpty = true

/-- What a user writes, up to `--` -/
inductive Item where
  /-- `--name` -/
  | flag (r : Rule)
  /-- `-abc` -/
  | group (rs : List Rule)
  /-- `--name=value` -/
  | longEqual (r : Rule) (v : Bytes)
  /-- `--name value` -/
  | longNext (r : Rule) (v : Bytes)
  /-- `-x=value` -/
  | shortEqual (r : Rule) (v : Bytes)
  /-- `-x value` -/
  | shortNext (r : Rule) (v : Bytes)
  /-- `value` -/
  | plain (v : Bytes)
  /-- `-abc=value` where the letters take no value -/
  | oddGroup (rs : List Rule) (v : Bytes)
  /-- `--name` of a rule for arguments without a flag -/
  | oddName (r : Rule)
  /-- `-x` of a rule for arguments without a flag -/
  | oddLetter (r : Rule)

/-- An item which means something else than expected -/
def Item.Odd : Item → Prop
  | .oddGroup _ _ | .oddName _ | .oddLetter _ => True
  | _ => False

/-- How an item is written -/
def Item.write : Item → List Bytes
  | .flag r => [45 :: 45 :: r.long]
  | .group rs => [45 :: rs.map (·.short)]
  | .longEqual r v => [45 :: 45 :: r.long ++ 61 :: v]
  | .longNext r v => [45 :: 45 :: r.long, v]
  | .shortEqual r v => [45 :: r.short :: 61 :: v]
  | .shortNext r v => [45 :: [r.short], v]
  | .plain v => [v]
  | .oddGroup rs v => [45 :: rs.map (·.short) ++ 61 :: v]
  | .oddName r => [45 :: 45 :: r.long]
  | .oddLetter r => [45 :: [r.short]]

/-- The name can be written after two dashes -/
def NameOk (rules : List Rule) (r : Rule) : Prop := Named rules r ∧ r.long ≠ [] ∧ (61 : UInt8) ∉ r.long

/-- The letters can be written after one dash -/
def LettersOk (rules : List Rule) (rs : List Rule) : Prop :=
  rs ≠ [] ∧ (∀ r ∈ rs, Lettered rules r ∧ r.short ≠ 61) ∧ (rs.map (·.short)).head? ≠ some 45

/-- What the rules allow: `n` is the number of arguments without a flag before the item -/
def Item.Ok (rules : List Rule) (n : Nat) : Item → Prop
  | .flag r => NameOk rules r ∧ r.hasArg = false ∧ r.multi = false
  | .group rs => LettersOk rules rs ∧ ∀ r ∈ rs, r.hasArg = false
  | .longEqual r v => NameOk rules r ∧ (r.hasArg = true ∨ r.multi = true) ∧ Given r v
  | .longNext r v => NameOk rules r ∧ r.hasArg = true ∧ r.multi = false ∧ Given r v
  | .shortEqual r v => LettersOk rules [r] ∧ r.hasArg = true ∧ Given r v
  | .shortNext r v => LettersOk rules [r] ∧ r.hasArg = true ∧ r.multi = false ∧ Given r v
  | .plain v => v ≠ [] ∧ v.head? ≠ some 45 ∧ (positional rules n).isSome
  | .oddGroup rs _ => LettersOk rules rs ∧ ∀ r ∈ rs, r.hasArg = false
  | .oddName r => NameOk rules r ∧ r.multi = true
  | .oddLetter r => LettersOk rules [r] ∧ r.hasArg = true ∧ r.multi = true

/-- Arguments without a flag in an item -/
def Item.plains : Item → Nat
  | .plain _ => 1
  | _ => 0

/-- What an item means -/
def Item.mean (rules : List Rule) (n : Nat) : Item → List Pair
  | .flag r => [⟨r, []⟩]
  | .group rs => rs.map (⟨·, []⟩)
  | .longEqual r v | .longNext r v | .shortEqual r v | .shortNext r v => [⟨r, valuesOf r v⟩]
  | .plain v => ((positional rules n).map fun r => (⟨r, valuesOf r v⟩ : Pair)).toList
  | .oddGroup rs _ => rs.map (⟨·, []⟩)
  | .oddName r => [⟨r, valuesOf r (45 :: 45 :: r.long)⟩]
  | .oddLetter r => [⟨r, valuesOf r [45, r.short]⟩]

/-- The items one after another -/
def ItemsOk (rules : List Rule) : Nat → List Item → Prop
  | _, [] => True
  | n, i :: t => i.Ok rules n ∧ ItemsOk rules (n + i.plains) t

def writeItems (l : List Item) : List Bytes := l.flatMap Item.write

def meanItems (rules : List Rule) : Nat → List Item → List Pair
  | _, [] => []
  | n, i :: t => i.mean rules n ++ meanItems rules (n + i.plains) t

/-- The number of arguments without a flag in the items -/
def plainsOf (l : List Item) : Nat := (l.map Item.plains).sum

/-- A whole command line: items, and what follows `--` if it is there -/
structure Line where
  items : List Item
  rest : Option (List Bytes)

def Line.write (l : Line) : List Bytes :=
  writeItems l.items ++ match l.rest with
    | none => []
    | some vs => [45, 45] :: vs

/-- The values after `--`, which are all arguments without a flag -/
def restOk (rules : List Rule) : Nat → List Bytes → Prop
  | _, [] => True
  | n, v :: t => (∃ r, positional rules n = some r ∧ Given r v) ∧ restOk rules (n + 1) t

def restMean (rules : List Rule) : Nat → List Bytes → List Pair
  | _, [] => []
  | n, v :: t => ((positional rules n).map fun r => (⟨r, valuesOf r v⟩ : Pair)).toList ++ restMean rules (n + 1) t

def Line.Ok (rules : List Rule) (l : Line) : Prop :=
  ItemsOk rules 0 l.items ∧ ∀ vs, l.rest = some vs → restOk rules (plainsOf l.items) vs

def Line.mean (rules : List Rule) (l : Line) : List Pair :=
  meanItems rules 0 l.items ++ match l.rest with
    | none => []
    | some vs => restMean rules (plainsOf l.items) vs

/-- All items mean what is expected -/
def Line.Plain (l : Line) : Prop := ∀ i ∈ l.items, ¬ i.Odd

end Verif.Cmdline
