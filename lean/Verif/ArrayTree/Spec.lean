import Verif.ArrayTree.Model
import Verif.Types.Spec
/-!
# What array definitions mean

After `rrr_post(1)`, sections ARRAY DEFINITION and ARRAY CONDITIONAL BRANCHING. Of the model only the structures which hold definitions, values and messages are used, the decoding of
one message (`Types.msgSingle`, which C17 is about) and the evaluation of conditions (`Condition.evaluate`, which C25 is about).

What has been read is a list with the value of each position and the bytes it was read from, last one first.
-/
namespace Verif.ArrayTree.Spec
open Verif Verif.ArrayTree Verif.Types Verif.Types.Spec

/-- `! " # $ % & ' ( ) * + , - . / : ; < = > ? @ [ \ ] ^ _ ` { | } ~` and NUL, ETX, EOT, LF, CR, TAB. -/
def separators : Bytes :=
  [33, 34, 35, 36, 37, 38, 39, 40, 41, 42, 43, 44, 45, 46, 47, 58, 59, 60, 61, 62, 63, 64, 91, 92, 93, 94, 95, 96, 123, 124, 125, 126, 0, 3, 4, 10, 13, 9]

/-- SOH and STX. -/
def starts : Bytes := [1, 2]

/-- The characters which end an `nsep` field: NUL, ETX, EOT, LF, CR, TAB. (The manual also names SOH and STX, see `nsep_keeps_starts`.) -/
def ends : Bytes := [0, 3, 4, 10, 13, 9]

def digits : Bytes := [48, 49, 50, 51, 52, 53, 54, 55, 56, 57]

/-- Digits of base 16. -/
def hexDigits : Bytes := digits ++ [97, 98, 99, 100, 101, 102, 65, 66, 67, 68, 69, 70]

/-- The number which decimal digits are. -/
def numberLE : Bytes → Nat
  | [] => 0
  | c :: t => (c.toNat - 48) + 10 * numberLE t

def number (d : Bytes) : Nat := numberLE d.reverse

/-- The mathematical number with a sign. -/
def signed (neg : Bool) (n : Nat) : Int := if neg then -(n : Int) else n

/-- The nearest number in a range. -/
def clamp (lo hi x : Int) : Int := max lo (min hi x)

/-- A sign which may be left out; `minus`: whether `-` is allowed. The last component says if it is negative. -/
def Sign (minus : Bool) (s : Bytes) (neg : Bool) : Prop := (s = [] ∧ neg = false) ∨ (s = [43] ∧ neg = false) ∨ (minus = true ∧ s = [45] ∧ neg = true)

/-- The text of a `ustr` or `istr` field: spaces or tabs, a sign, and digits; at most 63 characters after the spaces. `x` is the number. After it there is something which cannot be a part of a number. -/
def NumText (istr : Bool) (p rest : Bytes) (x : Int) : Prop :=
  ∃ spaces sign ds neg c t, p = spaces ++ (sign ++ ds) ∧ (∀ s ∈ spaces, s = 32 ∨ s = 9) ∧ Sign istr sign neg ∧ ds ≠ [] ∧ (∀ d ∈ ds, d ∈ digits) ∧ (sign ++ ds).length ≤ 63 ∧
    rest = c :: t ∧ c ∉ digits ∧ c ≠ 43 ∧ (istr = true → c ≠ 45) ∧ x = signed neg (number ds)

/-- `16#` -/
def prefix16 : Bytes := [49, 54, 35]

/-- `10#` -/
def prefix10 : Bytes := [49, 48, 35]

/-- The text of a `fixp` field: `16#` or `10#` or nothing, a sign, and digits with at most one dot which is not first. After it there is something which cannot be a part of it. The prefix is read as such if more than it
is there (see `fixp_cut`). -/
def FixpText (p rest : Bytes) : Prop :=
  ∃ pre sign ds neg c t, p = pre ++ (sign ++ ds) ∧ rest = c :: t ∧ Sign true sign neg ∧
    (pre = prefix16 ∨ pre = prefix10 ∨ (pre = [] ∧ (3 < (p ++ rest).length → (p ++ rest).take 3 ≠ prefix16 ∧ (p ++ rest).take 3 ≠ prefix10))) ∧
    ds ≠ [] ∧ ds.head? ≠ some 46 ∧ ds.count 46 ≤ 1 ∧ (∀ d ∈ ds, d = 46 ∨ d ∈ (if pre = prefix16 then hexDigits else digits)) ∧
    c ≠ 46 ∧ c ∉ (if pre = prefix16 then hexDigits else digits)

/-- The text between quotes, and the string it is: a backslash makes the character after it an ordinary one. -/
inductive StrText : Bytes → Bytes → Prop where
  | nil : StrText [] []
  | char (c : UInt8) {b d : Bytes} : c ≠ 0x22 → c ≠ 0x5c → StrText b d → StrText (c :: b) (c :: d)
  | esc (c : UInt8) {b d : Bytes} : StrText b d → StrText (0x5c :: c :: b) (c :: d)

/-- The bytes between the boundaries of an HDLC frame, and the data. -/
inductive FrameText : Bytes → Bytes → Prop where
  | nil : FrameText [] []
  | char (c : UInt8) {b d : Bytes} : c ≠ 0x7e → c ≠ 0x7d → FrameText b d → FrameText (c :: b) (c :: d)
  | esc (c : UInt8) {b d : Bytes} : FrameText b d → FrameText (0x7d :: c :: b) ((c ^^^ 0x20) :: d)

/-- Anything, then one or more boundaries, a frame of 1 to 4095 bytes (`HDLC_MAX`, one less) and a boundary. -/
def Frame (p d : Bytes) : Prop :=
  ∃ junk n body, p = junk ++ (List.replicate (n + 1) 0x7e ++ (body ++ [0x7e])) ∧ 0x7e ∉ junk ∧ FrameText body d ∧ d ≠ [] ∧ d.length < Hdlc.hdlcMax

/-- The data hold the `k` integers of `n` bytes which `p` is made of. -/
def Integers (le big sgn : Bool) (n k : Nat) (p d : Bytes) : Prop :=
  p.length = n * k ∧ d.length = 8 * k ∧ ∀ i < k, ∃ x, (ints le d)[i]? = some x ∧ meaning sgn x = value big sgn ((p.drop (i * n)).take n)

/-- The data are one 64 bit integer. -/
def Integer (w : World) (sgn : Bool) (m : Int) (d : Bytes) : Prop := ∃ x, d = hostBytes w.le x ∧ meaning sgn x = m

/-- The flags of values. -/
def flag (sgn : Bool) : UInt8 := if sgn then 1 else 0

/-- A field of a type with a sign, a tag, a length of `n` bytes and a count of `k` is read from the bytes `p`, followed by `rest`, and gives the value `v`. -/
def Reads (w : World) (ty : Ty) (sgn : Bool) (tag : Bytes) (n k : Nat) (p rest : Bytes) (v : Value) : Prop :=
  match ty with
  | .be => ∃ d, v = ⟨.h, flag sgn, tag, UInt32.ofNat k, d, []⟩ ∧ Integers w.le true sgn n k p d
  | .le => ∃ d, v = ⟨.h, flag sgn, tag, UInt32.ofNat k, d, []⟩ ∧ Integers w.le false sgn n k p d
  | .h => ∃ d, v = ⟨.h, flag sgn, tag, UInt32.ofNat k, d, []⟩ ∧ Integers w.le (!w.le) sgn n k p d
  | .blob => v = ⟨.blob, flag sgn, tag, UInt32.ofNat k, p, []⟩ ∧ p.length = n * k
  | .sep => v = ⟨.sep, flag sgn, tag, UInt32.ofNat k, p, []⟩ ∧ p.length = n * k ∧ ∀ c ∈ p, c ∈ separators
  | .stx => v = ⟨.stx, flag sgn, tag, UInt32.ofNat k, p, []⟩ ∧ p.length = n * k ∧ ∀ c ∈ p, c ∈ starts
  | .ustr => ∃ d x, v = ⟨.h, flag false, tag, 1, d, []⟩ ∧ NumText false p rest x ∧ Integer w false (clamp 0 (2 ^ 64 - 1) x) d
  | .istr => ∃ d x, v = ⟨.h, flag true, tag, 1, d, []⟩ ∧ NumText true p rest x ∧ Integer w true (clamp (-2 ^ 63) (2 ^ 63 - 1) x) d
  | .fixp => v = ⟨.fixp, flag sgn, tag, 1, hostBytes w.le (w.fixp p), []⟩ ∧ FixpText p rest
  | .nsep => v = ⟨.nsep, flag sgn, tag, 1, p, []⟩ ∧ p ≠ [] ∧ (∀ c ∈ p, c ∉ ends) ∧ ∃ c t, rest = c :: t ∧ c ∈ ends
  | .str => ∃ d body, v = ⟨.str, flag sgn, tag, 1, d, []⟩ ∧ p = 0x22 :: (body ++ [0x22]) ∧ StrText body d
  | .msg => ∃ m, v = ⟨.msg, flag sgn, tag, 1, [], [m]⟩ ∧ msgSingle p = .ok (m, p.length)
  | .hdlc => ∃ d, v = ⟨.hdlc, flag sgn, tag, 1, d, []⟩ ∧ Frame p d
  | .vain => v = ⟨.vain, flag sgn, tag, UInt32.ofNat k, [], []⟩ ∧ p = []
  | .err => False

/-- What has been read. -/
abbrev Parsed := List (Value × Bytes)

/-- All bytes which have been read. -/
def Parsed.bytes (l : Parsed) : Bytes := (l.reverse.map (·.2)).flatten

/-- The last value with a tag. -/
def Parsed.last (l : Parsed) (name : Bytes) : Option Value := (l.find? fun x => x.1.tag = name ∧ name ≠ []).map (·.1)

/-- A value as a number: the first integer; the last eight bytes, most significant byte first. -/
def num (w : World) (v : Value) : Nat :=
  match v.ty with
  | .be | .le | .h => ((ints w.le v.data).headD 0).toNat
  | .vain => 0
  | .hdlc => 1
  | .msg => (w.msgs v.msgs).toNat
  | _ => valueBE (v.data.drop (v.data.length - 8))

/-- A length or a count is given, or it is the value with a tag, which must be at least 1 and less than `2 ^ 32`. -/
def Resolves (w : World) (l : Parsed) (r : Option Bytes) (given : UInt32) (n : Nat) : Prop :=
  match r with
  | none => n = given.toNat
  | some name => ∃ v, l.last name = some v ∧ n = num w v ∧ 1 ≤ n ∧ n < 2 ^ 32

/-- Names in conditions are the last values with these tags. -/
def names (w : World) (l : Parsed) (name : Bytes) : Option Condition.Num :=
  (l.last name).map fun v => ⟨BitVec.ofNat 64 (num w v), isSigned v.flags⟩

/-- A condition is evaluated, and is true or not. -/
def Holds (w : World) (l : Parsed) (c : List Condition.Carrier) (r : Bool) : Prop := ∃ x, Condition.evaluate (names w l) c = .ok x ∧ r = decide (x ≠ 0#64)

/-- The longest length of a field of a type, in bytes; 0: it must not be given. -/
def longest : Ty → Nat
  | .le | .be | .h => 8
  | .blob => 1024
  | .sep | .stx => 64
  | _ => 0

mutual
/-- From data which begin as `b` does, a definition reads further from `l` and what has been read is then `l'`. -/
def Run (w : World) (b : Bytes) : Tree → Parsed → Parsed → Prop
  | .nil, l, l' => l' = l
  | .field f rest, l, l' => ∃ n k p r v, Resolves w l f.lenRef f.len n ∧ Resolves w l f.countRef f.count k ∧ (1 ≤ n ∨ longest f.ty = 0) ∧ n ≤ longest f.ty ∧ 1 ≤ k ∧
      b = l.bytes ++ (p ++ r) ∧ Reads w f.ty f.signed f.tag n k p r v ∧ Run w b rest ((v, p) :: l) l'
  | .rewind n rest, l, l' => n ≤ l.length ∧ Run w b rest (l.drop n) l'
  | .cond bs rest, l, l' => ∃ m, RunFirst w b bs l m ∧ Run w b rest m l'
/-- The first branch whose condition is true is read; nothing if there is none. -/
def RunFirst (w : World) (b : Bytes) : Branches → Parsed → Parsed → Prop
  | .none, l, l' => l' = l
  | .els t, l, l' => Run w b t l l'
  | .arm c t more, l, l' => (Holds w l c true ∧ Run w b t l l') ∨ (Holds w l c false ∧ RunFirst w b more l l')
end

/-! ## Definitions -/

/-- The names in a condition: the texts in braces. -/
def condNames : List Condition.Carrier → List Bytes
  | [] => []
  | .op _ :: l => condNames l
  | .val v :: l => if v.head? = some 123 then (v.drop 1).dropLast :: condNames l else condNames l

mutual
/-- All fields of a definition. -/
def fields : Tree → List Field
  | .nil => []
  | .field f rest => f :: fields rest
  | .rewind _ rest => fields rest
  | .cond bs rest => fieldsOf bs ++ fields rest
def fieldsOf : Branches → List Field
  | .none => []
  | .els t => fields t
  | .arm _ t more => fields t ++ fieldsOf more
end

mutual
/-- All names which a definition refers to. -/
def refs : Tree → List Bytes
  | .nil => []
  | .field f rest => f.lenRef.toList ++ (f.countRef.toList ++ refs rest)
  | .rewind _ rest => refs rest
  | .cond bs rest => refsOf bs ++ refs rest
def refsOf : Branches → List Bytes
  | .none => []
  | .els t => refs t
  | .arm c t more => condNames c ++ (refs t ++ refsOf more)
end

mutual
/-- There is a `REWIND`. -/
def rewinds : Tree → Prop
  | .nil => False
  | .field _ rest => rewinds rest
  | .rewind _ _ => True
  | .cond bs rest => rewindsOf bs ∨ rewinds rest
def rewindsOf : Branches → Prop
  | .none => False
  | .els t => rewinds t
  | .arm _ t more => rewinds t ∨ rewindsOf more
end

mutual
/-- All conditions of a definition. -/
def conds : Tree → List (List Condition.Carrier)
  | .nil => []
  | .field _ rest => conds rest
  | .rewind _ rest => conds rest
  | .cond bs rest => condsOf bs ++ conds rest
def condsOf : Branches → List (List Condition.Carrier)
  | .none => []
  | .els t => conds t
  | .arm c t more => c :: (conds t ++ condsOf more)
end

/-- A field as a definition can have it: the length is not greater than the longest one; fields without length have a count of 1. -/
def FieldOk (f : Field) : Prop := f.len.toNat ≤ longest f.ty ∧ (longest f.ty = 0 → f.lenRef = none ∧ f.count = 1 ∧ f.countRef = none)

/-- No tag is a part of a name which is referred to, at its start. (What happens otherwise: `prefix_tag`.) -/
def TagsDiffer (t : Tree) : Prop := ∀ f ∈ fields t, ∀ name ∈ refs t, f.tag ≠ [] → f.tag <+: name → f.tag = name

/-- Fields which `REWIND` can go back over (see `rewind_number`). -/
def StepsBack (t : Tree) : Prop := rewinds t → ∀ f ∈ fields t, f.ty ≠ .ustr ∧ f.ty ≠ .istr ∧ f.ty ≠ .fixp ∧ f.ty ≠ .msg ∧ f.ty ≠ .hdlc

/-- Definitions of which the theorems speak. -/
structure Clean (t : Tree) : Prop where
  field : ∀ f ∈ fields t, FieldOk f
  tags : TagsDiffer t
  steps : StepsBack t

/-- An unsigned integer of at most two bytes. -/
def Short (f : Field) : Prop := (f.ty = .be ∨ f.ty = .le ∨ f.ty = .h) ∧ f.signed = false ∧ f.lenRef = none ∧ f.len.toNat ≤ 2

/-- Counts are small: they are given and less than `2 ^ 22`, or they are unsigned integers of at most two bytes. (See `count_overflow` and `count_wraps` for other ones.) -/
def Few (t : Tree) : Prop := ∀ f ∈ fields t,
  match f.countRef with
  | none => f.count.toNat < 2 ^ 22
  | some name => ∀ g ∈ fields t, g.tag = name → Short g

end Verif.ArrayTree.Spec
