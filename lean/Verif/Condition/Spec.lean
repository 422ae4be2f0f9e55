import Verif.Common
/-!
# What condition expressions mean

Expressions with the operators of C, 64 bit numbers, signed and unsigned. This does not refer to the model.
-/
namespace Verif.Condition.Spec
open Verif

/-- A literal: decimal, hexadecimal (with the `x` or `X` used), negative decimal, or a name in braces. -/
inductive Lit where
  | dec (ds : Bytes)
  | hex (x : UInt8) (ds : Bytes)
  | neg (ds : Bytes)
  | tag (name : Bytes)
deriving DecidableEq, Repr

def Digit (c : UInt8) : Prop := 48 ≤ c ∧ c ≤ 57
def HexDigit (c : UInt8) : Prop := (48 ≤ c ∧ c ≤ 57) ∨ (97 ≤ c ∧ c ≤ 102) ∨ (65 ≤ c ∧ c ≤ 70)
def NameChar (c : UInt8) : Prop := (48 ≤ c ∧ c ≤ 57) ∨ (97 ≤ c ∧ c ≤ 122) ∨ (65 ≤ c ∧ c ≤ 90) ∨ c = 95

/-- How a literal is written. -/
def Lit.text : Lit → Bytes
  | .dec ds => ds
  | .hex x ds => 48 :: x :: ds
  | .neg ds => 45 :: ds
  | .tag n => 123 :: n ++ [125]

/-- Literals have at least one digit or letter and at most 63 characters. -/
def Lit.Valid (l : Lit) : Prop :=
  l.text.length ≤ 63 ∧ match l with
  | .dec ds => ds ≠ [] ∧ ∀ c ∈ ds, Digit c
  | .hex x ds => (x = 120 ∨ x = 88) ∧ ds ≠ [] ∧ ∀ c ∈ ds, HexDigit c
  | .neg ds => ds ≠ [] ∧ ∀ c ∈ ds, Digit c
  | .tag n => n ≠ [] ∧ ∀ c ∈ n, NameChar c

/-- Operators with two operands. -/
inductive BinOp where
  | mul | div | add | sub | shl | shr | le | ge | lt | gt | eq | ne | band | bxor | bor | and | andW | or | orW
deriving DecidableEq, Repr

/-- How an operator is written: `*` `/` `+` `-` `<<` `>>` `<=` `>=` `<` `>` `==` `!=` `&` `^` `|` `&&` `AND` `||` `OR`. -/
def BinOp.text : BinOp → Bytes
  | .mul => [42] | .div => [47] | .add => [43] | .sub => [45] | .shl => [60, 60] | .shr => [62, 62] | .le => [60, 61] | .ge => [62, 61]
  | .lt => [60] | .gt => [62] | .eq => [61, 61] | .ne => [33, 61] | .band => [38] | .bxor => [94] | .bor => [124] | .and => [38, 38]
  | .andW => [65, 78, 68] | .or => [124, 124] | .orW => [79, 82]

/-- The precedence levels of C; 1 is `~`, lower levels bind more tightly. -/
def BinOp.level : BinOp → Nat
  | .mul | .div => 2
  | .add | .sub => 3
  | .shl | .shr => 4
  | .le | .ge | .lt | .gt => 5
  | .eq | .ne => 6
  | .band => 7
  | .bxor => 8
  | .bor => 9
  | .and | .andW => 10
  | .or | .orW => 11

/-- Expressions; parentheses are kept. -/
inductive Expr where
  | lit (l : Lit)
  | not (e : Expr)
  | bin (o : BinOp) (l r : Expr)
  | par (e : Expr)
deriving Repr

/-! ## Values -/

/-- A number and whether it is signed. -/
structure Val where
  signed : Bool
  v : Int
deriving DecidableEq, Repr

/-- The outcome of an evaluation. -/
inductive R where
  | ok (x : Val)
  | error
  | undefined
deriving DecidableEq, Repr

/-- Unsigned arithmetic is modulo 2⁶⁴, signed arithmetic is undefined when the result does not fit. -/
def arith (signed : Bool) (z : Int) : R :=
  if signed then (if - 2 ^ 63 ≤ z ∧ z < 2 ^ 63 then .ok ⟨true, z⟩ else .undefined) else .ok ⟨false, z % 2 ^ 64⟩

/-- The 64 bits of a number. -/
def pattern (z : Int) : Nat := (z % 2 ^ 64).toNat

/-- The number with these 64 bits. -/
def ofPattern (signed : Bool) (n : Nat) : Val := ⟨signed, if signed = true ∧ 2 ^ 63 ≤ n then (n : Int) - 2 ^ 64 else n⟩

def truth (signed : Bool) (p : Prop) [Decidable p] : R := .ok ⟨signed, if p then 1 else 0⟩

/-- An operator applied to two numbers of the same signedness. -/
def BinOp.apply (signed : Bool) (x y : Int) : BinOp → R
  | .mul => arith signed (x * y)
  | .div => if y = 0 ∨ (signed = true ∧ x = - 2 ^ 63 ∧ y = -1) then .error else .ok ⟨signed, x.tdiv y⟩
  | .add => arith signed (x + y)
  | .sub => arith signed (x - y)
  | .shl => if y < 0 ∨ 64 ≤ y ∨ (signed = true ∧ x < 0) then .undefined else arith signed (x * 2 ^ y.toNat)
  | .shr => if y < 0 ∨ 64 ≤ y then .undefined else .ok ⟨signed, x / 2 ^ y.toNat⟩
  | .le => truth signed (x ≤ y)
  | .ge => truth signed (x ≥ y)
  | .lt => truth signed (x < y)
  | .gt => truth signed (x > y)
  | .eq => truth signed (x = y)
  | .ne => truth signed (x ≠ y)
  | .band => .ok (ofPattern signed (pattern x &&& pattern y))
  | .bxor => .ok (ofPattern signed (pattern x ^^^ pattern y))
  | .bor => .ok (ofPattern signed (pattern x ||| pattern y))
  | .and | .andW => truth signed (x ≠ 0 ∧ y ≠ 0)
  | .or | .orW => truth signed (x ≠ 0 ∨ y ≠ 0)

/-- A signed and an unsigned number are used as signed numbers; this is an error when the unsigned one does not fit. -/
def combine (o : BinOp) (a b : Val) : R :=
  if a.signed = true ∨ b.signed = true then
    if (a.signed = false ∧ 2 ^ 63 ≤ a.v) ∨ (b.signed = false ∧ 2 ^ 63 ≤ b.v) then .error
    else o.apply true a.v b.v
  else o.apply false a.v b.v

/-- `~x`. -/
def complement (a : Val) : Val := if a.signed then ⟨true, - a.v - 1⟩ else ⟨false, 2 ^ 64 - 1 - a.v⟩

/-- Value of a digit. -/
def digit (c : UInt8) : Nat :=
  if 48 ≤ c ∧ c ≤ 57 then c.toNat - 48 else if 97 ≤ c ∧ c ≤ 102 then c.toNat - 97 + 10 else c.toNat - 65 + 10

/-- Number denoted by digits. -/
def numeral (base : Nat) : Bytes → Nat
  | [] => 0
  | c :: ds => digit c * base ^ ds.length + numeral base ds

/-- Value of a literal. Literals which are out of range have the nearest value. -/
def Lit.value (env : Bytes → Option Val) : Lit → R
  | .dec ds => .ok ⟨false, min (numeral 10 ds) (2 ^ 64 - 1)⟩
  | .hex _ ds => .ok ⟨false, min (numeral 16 ds) (2 ^ 64 - 1)⟩
  | .neg ds => .ok ⟨true, max (- (numeral 10 ds : Int)) (- 2 ^ 63)⟩
  | .tag n => match env n with | some v => .ok v | none => .error

def R.bind : R → (Val → R) → R
  | .ok x, f => f x
  | .error, _ => .error
  | .undefined, _ => .undefined

/-- Value of an expression. -/
def Expr.value (env : Bytes → Option Val) : Expr → R
  | .lit l => l.value env
  | .not e => (e.value env).bind (fun x => .ok (complement x))
  | .bin o l r => (l.value env).bind (fun a => (r.value env).bind (fun b => combine o a b))
  | .par e => e.value env

/-! ## How expressions are written -/

inductive Tok where
  | parOpen | parClose | tilde
  | op (o : BinOp)
  | lit (l : Lit)
deriving DecidableEq, Repr

/-- The words which are not literals. -/
def words : List Bytes :=
  [[40], [41], [126], [42], [47], [43], [45], [60, 60], [62, 62], [60, 61], [62, 61], [60], [62], [61, 61], [33, 61], [38], [94], [124],
   [38, 38], [65, 78, 68], [124, 124], [79, 82]]

def Tok.text : Tok → Bytes
  | .parOpen => [40]
  | .parClose => [41]
  | .tilde => [126]
  | .op o => o.text
  | .lit l => l.text

/-- The tokens of an expression. -/
def Expr.toks : Expr → List Tok
  | .lit l => [.lit l]
  | .not e => .tilde :: e.toks
  | .bin o l r => l.toks ++ .op o :: r.toks
  | .par e => .parOpen :: e.toks ++ [.parClose]

def Space (c : UInt8) : Prop := c = 32 ∨ c = 9 ∨ c = 13 ∨ c = 10

/-- The text after a token does not make the token longer. -/
def Ends (t : Tok) (rest : Bytes) : Prop :=
  match t with
  | .lit (.dec ds) => (∀ c, rest.head? = some c → ¬ Digit c) ∧ (ds = [48] → ∀ c, rest.head? = some c → c ≠ 120 ∧ c ≠ 88)
  | .lit (.hex _ _) => ∀ c, rest.head? = some c → ¬ HexDigit c
  | .lit (.neg _) => ∀ c, rest.head? = some c → ¬ Digit c
  | .lit (.tag _) => True
  | t => ∀ w ∈ words, w <+: t.text ++ rest → w.length ≤ t.text.length

/-- The text is the tokens with any white-space before each of them, and then the rest. -/
inductive Spells : List Tok → Bytes → Bytes → Prop where
  | nil (rest : Bytes) : Spells [] rest rest
  | space (ts : List Tok) (c : UInt8) (text rest : Bytes) : Space c → ts ≠ [] → Spells ts text rest → Spells ts (c :: text) rest
  | tok (t : Tok) (ts : List Tok) (text rest : Bytes) : Ends t text → Spells ts text rest → Spells (t :: ts) (t.text ++ text) rest

/-! ## Precedence -/

/-- The level of the outermost operator; 0 for literals and parentheses. -/
def Expr.level : Expr → Nat
  | .lit _ => 0
  | .not _ => 1
  | .bin o _ _ => o.level
  | .par _ => 0

/-- The expression is what C reads when it reads its tokens: precedence, and operators of the same precedence from the left. -/
def Expr.ReadsLeft : Expr → Prop
  | .lit _ => True
  | .not e => e.level ≤ 1 ∧ e.ReadsLeft
  | .bin o l r => l.level ≤ o.level ∧ r.level < o.level ∧ l.ReadsLeft ∧ r.ReadsLeft
  | .par e => e.ReadsLeft

/-- No operator is next to an operator of the same precedence without parentheses. -/
def Expr.Unchained : Expr → Prop
  | .lit _ => True
  | .not e => e.level ≤ 1 ∧ e.Unchained
  | .bin o l r => l.level < o.level ∧ r.level < o.level ∧ l.Unchained ∧ r.Unchained
  | .par e => e.Unchained

/-- As `ReadsLeft`, but with operators of the same precedence from the right. -/
def Expr.ReadsRight : Expr → Prop
  | .lit _ => True
  | .not e => e.level ≤ 1 ∧ e.ReadsRight
  | .bin o l r => l.level < o.level ∧ r.level ≤ o.level ∧ l.ReadsRight ∧ r.ReadsRight
  | .par e => e.ReadsRight

/-- The value, if there is one, is less than 2⁶³. -/
def Expr.Small (env : Bytes → Option Val) (e : Expr) : Prop := ∀ x, e.value env = .ok x → x.v < 2 ^ 63

/-- Only the logical operators (`&&`, `AND`, `||`, `OR`) are written one after the other without parentheses, and their operands are less than 2⁶³. -/
def Expr.OnlyLogicalChains (env : Bytes → Option Val) : Expr → Prop
  | .lit _ => True
  | .not e => e.OnlyLogicalChains env
  | .bin o l r => (l.level = o.level → 10 ≤ o.level) ∧ (10 ≤ o.level → l.Small env ∧ r.Small env)
      ∧ l.OnlyLogicalChains env ∧ r.OnlyLogicalChains env
  | .par e => e.OnlyLogicalChains env

/-- `l o r` where the operators of `l` which have the same precedence as `o` and are not in parentheses have been moved to take `o` as their right operand:
`(a - b) - c` becomes `a - (b - c)`. -/
def attach (o : BinOp) (l r : Expr) : Expr :=
  match l with
  | .bin o2 a b => if o2.level = o.level then .bin o2 a (attach o b r) else .bin o l r
  | _ => .bin o l r

/-- The same text, with operators of the same precedence read from the right. -/
def Expr.fromRight : Expr → Expr
  | .lit l => .lit l
  | .not e => .not e.fromRight
  | .bin o l r => attach o l.fromRight r.fromRight
  | .par e => .par e.fromRight

/-- All literals are valid. -/
def Expr.LitsValid : Expr → Prop
  | .lit l => l.Valid
  | .not e => e.LitsValid
  | .bin _ l r => l.LitsValid ∧ r.LitsValid
  | .par e => e.LitsValid

/-- The last character is a parenthesis. -/
def Expr.EndsInPar : Expr → Prop
  | .lit _ => False
  | .not e => e.EndsInPar
  | .bin _ _ r => r.EndsInPar
  | .par _ => True

/-- No subtraction comes directly after a closing parenthesis. -/
def Expr.NoParMinus : Expr → Prop
  | .lit _ => True
  | .not e => e.NoParMinus
  | .bin o l r => (o = .sub → ¬ l.EndsInPar) ∧ l.NoParMinus ∧ r.NoParMinus
  | .par e => e.NoParMinus

/-- There is an operator. -/
def Expr.HasOp : Expr → Prop
  | .lit _ => False
  | .not _ => True
  | .bin _ _ _ => True
  | .par e => e.HasOp

end Verif.Condition.Spec
