import Verif.Common
/-!
# Specification of discern definitions

What a definition means: `misc/man/rrr.conf.5:134-190`. A definition is a list of words in postfix notation. Reading it with a stack of
expressions gives a list of actions: apply a destination with the value of an expression, or stop if an expression is true.
-/
namespace Verif.Discern.Spec
open Verif

/-- The words of a definition. -/
inductive Word where
  | topic (filter : Bytes) | tag (tag : Bytes) | const (b : Bool) | dest (name : Bytes)
  | and | or | not | apply | pop | bail
deriving DecidableEq, Repr

/-- Boolean expressions about a message. -/
inductive Expr where
  | topic (filter : Bytes) | tag (tag : Bytes) | const (b : Bool)
  | not (e : Expr) | and (a b : Expr) | or (a b : Expr)
deriving DecidableEq, Repr

/-- The value of an expression, given which filters match and which tags there are. -/
def Expr.eval (T H : Bytes → Bool) : Expr → Bool
  | .topic f => T f
  | .tag t => H t
  | .const b => b
  | .not e => !e.eval T H
  | .and a b => a.eval T H && b.eval T H
  | .or a b => a.eval T H || b.eval T H

/-- What the stack holds. -/
inductive Item where
  | expr (e : Expr) | dest (name : Bytes)
deriving DecidableEq, Repr

inductive Action where
  | apply (e : Expr) (name : Bytes) | bail (e : Expr)
deriving DecidableEq, Repr

/-- What a word does. The top of the stack comes first. `none`: the word can't be used here. -/
def step : List Item → Word → Option (List Item × List Action)
  | st, .topic f => some (.expr (.topic f) :: st, [])
  | st, .tag t => some (.expr (.tag t) :: st, [])
  | st, .const b => some (.expr (.const b) :: st, [])
  | st, .dest d => some (.dest d :: st, [])
  | .expr b :: .expr a :: st, .and => some (.expr (.and a b) :: st, [])
  | .expr b :: .expr a :: st, .or => some (.expr (.or a b) :: st, [])
  | .expr e :: st, .not => some (.expr (.not e) :: st, [])
  | .dest d :: .expr e :: st, .apply => some (.expr e :: st, [.apply e d])
  | _ :: st, .pop => some (st, [])
  | .expr e :: st, .bail => some (st, [.bail e])
  | _, _ => none

/-- The actions of a definition, which ends when the stack is empty. There may not be more than 63 values on the stack. -/
def read (st : List Item) : List Word → Option (List Action)
  | [] => none
  | w :: ws =>
    match step st w with
    | none => none
    | some (st', as) =>
      if st'.length > 63 then none
      else if st' = [] then (if ws = [] then some as else none)
      else (read st' ws).map (as ++ ·)

/-- The actions of a definition. It may be empty. -/
def actions (ws : List Word) : Option (List Action) := if ws = [] then some [] else read [] ws

/-- What is applied, with its result, and whether processing was stopped. -/
def effects (T H : Bytes → Bool) : List Action → List (Bool × Bytes) × Bool
  | [] => ([], false)
  | .apply e d :: as => ((e.eval T H, d) :: (effects T H as).1, (effects T H as).2)
  | .bail e :: as => if e.eval T H then ([], true) else effects T H as

/-- Words of an expression, in postfix notation. -/
def Expr.words : Expr → List Word
  | .topic f => [.topic f]
  | .tag t => [.tag t]
  | .const b => [.const b]
  | .not e => e.words ++ [.not]
  | .and a b => a.words ++ b.words ++ [.and]
  | .or a b => a.words ++ b.words ++ [.or]

/-- Number of values which an expression needs on the stack. -/
def Expr.depth : Expr → Nat
  | .topic _ | .tag _ | .const _ => 1
  | .not e => e.depth
  | .and a b | .or a b => max a.depth (b.depth + 1)

/-- Characters of tags: letters, numbers and underscore. -/
def TagChar (c : UInt8) : Prop := (0x61 ≤ c ∧ c ≤ 0x7a) ∨ (0x41 ≤ c ∧ c ≤ 0x5a) ∨ c = 0x5f ∨ (0x30 ≤ c ∧ c ≤ 0x39)

/-- Characters of names: those of tags, and dash. -/
def NameChar (c : UInt8) : Prop := TagChar c ∨ c = 0x2d

/-- How a word is written on a line of its own. -/
def Word.text : Word → Bytes
  | .topic f => 0x54 :: 0x20 :: f ++ [0x0a]
  | .tag t => 0x48 :: 0x20 :: t ++ [0x0a]
  | .const true => [0x54, 0x52, 0x55, 0x45, 0x0a]
  | .const false => [0x46, 0x41, 0x4c, 0x53, 0x45, 0x0a]
  | .dest d => 0x44 :: 0x20 :: d ++ [0x0a]
  | .and => [0x41, 0x4e, 0x44, 0x0a]
  | .or => [0x4f, 0x52, 0x0a]
  | .not => [0x4e, 0x4f, 0x54, 0x0a]
  | .apply => [0x41, 0x50, 0x50, 0x4c, 0x59, 0x0a]
  | .pop => [0x50, 0x4f, 0x50, 0x0a]
  | .bail => [0x42, 0x41, 0x49, 0x4c, 0x0a]

/-- The last result for a destination was true. -/
def LastTrue (effs : List (Bool × Bytes)) (d : Bytes) : Prop :=
  ∃ pre post, effs = pre ++ (true, d) :: post ∧ ∀ x ∈ post, x.2 ≠ d

end Verif.Discern.Spec
