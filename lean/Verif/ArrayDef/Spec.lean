import Verif.ArrayTree.Spec
/-!
# How array definitions are written

After `rrr_post(1)`, sections ARRAY DEFINITION and ARRAY CONDITIONAL BRANCHING. Of the models only the structures which hold definitions are used, and `Condition.interpret` (which C25 is about) for the texts of conditions.
-/
namespace Verif.ArrayDef.Spec
open ArrayTree Types ArrayTree.Spec

/-- Space, tab, line feed and carriage return. -/
def blanks : Bytes := [32, 9, 10, 13]

def Blank (b : Bytes) : Prop := ∀ c ∈ b, c ∈ blanks

/-- Where spaces and redundant commas are allowed. -/
def Gap (b : Bytes) : Prop := ∀ c ∈ b, c ∈ blanks ∨ c = 44

/-- The letters of names and tags. -/
def NameChar (c : UInt8) : Prop := (97 ≤ c ∧ c ≤ 122) ∨ (65 ≤ c ∧ c ≤ 90) ∨ c = 95 ∨ c ∈ digits

/-- A name. -/
def Name (b : Bytes) : Prop := b ≠ [] ∧ ∀ c ∈ b, NameChar c

/-- The name of a type. -/
def typeName : Ty → Bytes
  | .be => [98, 101]
  | .le => [108, 101]
  | .h => [104]
  | .blob => [98, 108, 111, 98]
  | .sep => [115, 101, 112]
  | .stx => [115, 116, 120]
  | .ustr => [117, 115, 116, 114]
  | .istr => [105, 115, 116, 114]
  | .fixp => [102, 105, 120, 112]
  | .msg => [109, 115, 103]
  | .hdlc => [104, 100, 108, 99]
  | .str => [115, 116, 114]
  | .nsep => [110, 115, 101, 112]
  | .err => [101, 114, 114]
  | .vain => [118, 97, 105, 110]

/-- How numbers are written: the text, and the number. -/
abbrev Numbers := Bytes → Nat → Prop

/-- Decimal numbers. -/
def Plain : Numbers := fun b n => b ≠ [] ∧ (∀ c ∈ b, c ∈ digits) ∧ n = number b

/-- What the C library takes for a number: white space and a sign may be before it, negative numbers and those with more than 64 bits are other numbers. (See `negative_length`.) -/
def Loose : Numbers := fun b n => ∃ sp sg ds neg, b = sp ++ (sg ++ ds) ∧ (∀ c ∈ sp, c = 32 ∨ (9 ≤ c ∧ c ≤ 13)) ∧ Sign true sg neg ∧ ds ≠ [] ∧ (∀ c ∈ ds, c ∈ digits) ∧
  n = if number ds ≥ 2 ^ 64 then 2 ^ 64 - 1 else if neg then (2 ^ 64 - number ds) % 2 ^ 64 else number ds

/-- The types which may have a sign. -/
def Signs (ty : Ty) : Prop := ty = .be ∨ ty = .le ∨ ty = .h

/-- The length: none for the types without, otherwise a number or `{name}`. -/
def SizeText (N : Numbers) (f : Field) (b : Bytes) : Prop :=
  if longest f.ty = 0 then b = [] ∧ f.len = 0 ∧ f.lenRef = none
  else match f.lenRef with
    | some name => b = 123 :: (name ++ [125]) ∧ Name name ∧ f.len = 0
    | none => N b f.len.toNat ∧ 1 ≤ f.len.toNat ∧ f.len.toNat ≤ longest f.ty

/-- The sign: `s` or `S`, `u` or `U` or nothing. -/
def SignText (f : Field) (b : Bytes) : Prop :=
  if f.signed then Signs f.ty ∧ (b = [115] ∨ b = [83]) else b = [] ∨ (Signs f.ty ∧ (b = [117] ∨ b = [85]))

/-- The count: nothing, `@` and a number, or `@{name}`. Only types with a length have a count other than 1. -/
def CountText (N : Numbers) (f : Field) (b : Bytes) : Prop :=
  match f.countRef with
  | some name => b = 64 :: 123 :: (name ++ [125]) ∧ Name name ∧ f.count = 1 ∧ longest f.ty ≠ 0
  | none => (b = [] ∧ f.count = 1) ∨ ∃ d, b = 64 :: d ∧ N d f.count.toNat ∧ 1 ≤ f.count.toNat ∧ (longest f.ty = 0 → f.count = 1)

/-- The tag: nothing, or `#` and a name. -/
def TagText (f : Field) (b : Bytes) : Prop := (b = [] ∧ f.tag = []) ∨ (b = 35 :: f.tag ∧ Name f.tag)

/-- A field: `type[length][s|u][@count][#tag]`. The text has 3 to 65 characters. (`h1` to `h8` have two, see `host_refused`.) -/
def FieldText (N : Numbers) (f : Field) (b : Bytes) : Prop :=
  ∃ size sign count tag, b = typeName f.ty ++ (size ++ (sign ++ (count ++ tag))) ∧ SizeText N f size ∧ SignText f sign ∧ CountText N f count ∧ TagText f tag ∧
    3 ≤ b.length ∧ b.length ≤ 65 ∧ ∀ c ∈ b, c ∉ blanks

/-- `IF`, `ELSIF`, `ELSE` and `REWIND`. -/
def wIf : Bytes := [73, 70]
def wElsif : Bytes := [69, 76, 83, 73, 70]
def wElse : Bytes := [69, 76, 83, 69]
def wRewind : Bytes := [82, 69, 87, 73, 78, 68]

/-- After a field there is a comma or a semicolon, or else a space and `IF` or `REWIND`. -/
def Follows (s : Bytes) : Prop := ∃ sp r, s = sp ++ r ∧ Blank sp ∧ ((∃ t, r = 44 :: t ∨ r = 59 :: t) ∨ (sp ≠ [] ∧ (wIf <+: r ∨ wRewind <+: r)))

mutual
/-- The text `s` begins with a definition, which ends with a semicolon; `r` follows it. -/
def Text (N : Numbers) : Tree → Bytes → Bytes → Prop
  | .nil, s, r => ∃ g, Gap g ∧ s = g ++ 59 :: r
  | .field f rest, s, r => ∃ g w u, Gap g ∧ s = g ++ (w ++ u) ∧ FieldText N f w ∧ Follows u ∧ Text N rest u r
  | .rewind n rest, s, r => ∃ g sp ds u, Gap g ∧ s = g ++ (wRewind ++ (sp ++ (ds ++ u))) ∧ Blank sp ∧ Plain ds n ∧ ds.length ≤ 12 ∧ n < 2 ^ 32 ∧ Text N rest u r
  | .cond bs rest, s, r => ∃ g u v, Gap g ∧ s = g ++ u ∧ Blocks N true bs u v ∧ Text N rest v r
/-- The blocks of a condition: `IF`, then any number of `ELSIF`, and then maybe `ELSE`. -/
def Blocks (N : Numbers) (first : Bool) : Branches → Bytes → Bytes → Prop
  | .none, s, r => first = false ∧ s = r
  | .els t, s, r => first = false ∧ ∃ sp u, Blank sp ∧ s = sp ++ (wElse ++ u) ∧ Text N t u r
  | .arm c t more, s, r => ∃ sp u v w, Blank sp ∧ (first = true → sp = []) ∧ s = sp ++ ((if first then wIf else wElsif) ++ u) ∧
      Condition.interpret u = .ok (c, v) ∧ Text N t v w ∧ Blocks N false more w r
end

end Verif.ArrayDef.Spec
