import Verif.Acl.Spec
import Verif.Topic.Spec
import Verif.Utf8.Spec
/-!
# ACL files as the manual describes them

After `rrr.conf(5)`, `mqtt_broker_acl_file`. Of the model only the structure of the rules is used.
-/
namespace Verif.AclFile.Spec
open Acl

/-- The lines of a text. Carriage return and line feed end a line; when they are together there is one empty line more. -/
def lines : Bytes → List Bytes
  | [] => [[]]
  | c :: t =>
    if c = 10 ∨ c = 13 then [] :: lines t
    else match lines t with
      | [] => [[c]]
      | l :: ls => (c :: l) :: ls

/-- Spaces and tabs. -/
def Blank (b : Bytes) : Prop := ∀ c ∈ b, c = 32 ∨ c = 9

/-- Two characters which are the same letter. -/
def SameLetter (a b : UInt8) : Prop := a = b ∨ (65 ≤ a ∧ a ≤ 90 ∧ b = a + 32)

/-- A word written with small or capital letters; `w` has capital letters. -/
def Word : Bytes → Bytes → Prop
  | [], [] => True
  | a :: w, b :: t => SameLetter a b ∧ Word w t
  | _, _ => False

/-- `TOPIC`, `DEFAULT`, `USER`, `DENY`, `READ`, `WRITE`. -/
def sTopic : Bytes := [84, 79, 80, 73, 67]
def sDefault : Bytes := [68, 69, 70, 65, 85, 76, 84]
def sUser : Bytes := [85, 83, 69, 82]
def actionName : Action → Bytes
  | .deny => [68, 69, 78, 89]
  | .ro => [82, 69, 65, 68]
  | .rw => [87, 82, 73, 84, 69]

/-- What a line says. -/
inductive Item where
  | topic (filter : Bytes)
  | dflt (a : Action)
  | user (name : Bytes) (a : Action)
deriving DecidableEq, Repr

/-- Letters, digits and underscore. -/
def NameChar (c : UInt8) : Prop := (97 ≤ c ∧ c ≤ 122) ∨ (65 ≤ c ∧ c ≤ 90) ∨ c = 95 ∨ (48 ≤ c ∧ c ≤ 57)

/-- A filter as MQTT has it: UTF-8, at most 65535 bytes, wildcards at their places. -/
def Filter (f : Bytes) : Prop := f ≠ [] ∧ f.length ≤ 0xffff ∧ Utf8.Spec.WellFormed f ∧ ∀ ls, Topic.Spec.IsLevels f ls → Topic.Spec.FilterLevelsOk ls

/-- A line which says something. With `strict` there must be a space after `USER`. (See `user_without_space`.) -/
def IsItem (strict : Bool) (l : Bytes) : Item → Prop
  | .topic f => ∃ s0 w s1, l = s0 ++ (w ++ (s1 ++ f)) ∧ Blank s0 ∧ Word sTopic w ∧ Blank s1 ∧ s1 ≠ [] ∧ Filter f ∧ f.head? ≠ some 32 ∧ f.head? ≠ some 9
  | .dflt a => ∃ s0 w s1 x s2, l = s0 ++ (w ++ (s1 ++ (x ++ s2))) ∧ Blank s0 ∧ Word sDefault w ∧ Blank s1 ∧ s1 ≠ [] ∧ Word (actionName a) x ∧ Blank s2
  | .user u a => ∃ s0 w s1 s2 x s3, l = s0 ++ (w ++ (s1 ++ (u ++ (s2 ++ (x ++ s3))))) ∧ Blank s0 ∧ Word sUser w ∧ Blank s1 ∧ (strict = true → s1 ≠ []) ∧ u ≠ [] ∧ (∀ c ∈ u, NameChar c) ∧ Blank s2 ∧ s2 ≠ [] ∧
      Word (actionName a) x ∧ Blank s3

/-- Empty lines and comments. -/
def Skip (l : Bytes) : Prop := Blank l ∨ ∃ s t, l = s ++ 35 :: t ∧ Blank s

/-- What the lines say, in order. -/
def Says (strict : Bool) : List Bytes → List Item → Prop
  | [], is => is = []
  | l :: ls, is => (Skip l ∧ Says strict ls is) ∨ ∃ i t, is = i :: t ∧ IsItem strict l i ∧ Says strict ls t

/-- The lines of one block after its `TOPIC`. -/
structure Block where
  filter : Bytes
  lines : List Item

/-- Blocks begin with `TOPIC`, and nothing is before the first. -/
def items : List Block → List Item
  | [] => []
  | b :: t => .topic b.filter :: (b.lines ++ items t)

/-- Within a block there is at most one `DEFAULT`, and there is no `TOPIC`. -/
def Block.Ok (b : Block) : Prop := (∀ f, Item.topic f ∉ b.lines) ∧ ∀ p q r a a', b.lines ≠ p ++ Item.dflt a :: (q ++ Item.dflt a' :: r)

/-- The users of a block, in order. -/
def Block.users (b : Block) : List UserEntry := b.lines.filterMap fun | .user u a => some ⟨u, a⟩ | _ => none

/-- The rule of a block: without `DEFAULT` the default is to deny. -/
def Block.Rule (b : Block) (e : Entry) : Prop :=
  Topic.Spec.IsLevels b.filter e.tokens ∧ e.users = b.users ∧ ((∃ a, Item.dflt a ∈ b.lines ∧ e.defaultAction = a) ∨ ((∀ a, Item.dflt a ∉ b.lines) ∧ e.defaultAction = .deny))

/-- Rules one by one. -/
def Rules : List Block → List Entry → Prop
  | [], [] => True
  | b :: bs, e :: es => b.Rule e ∧ Rules bs es
  | _, _ => False

/-- The text has these rules. -/
def Means (strict : Bool) (text : Bytes) (acl : List Entry) : Prop :=
  ∃ bs, Says strict (lines text) (items bs) ∧ (∀ b ∈ bs, b.Ok) ∧ Rules bs acl

/-- What the lines of a block say about a user: the last line with the name, without it `DEFAULT`, without that the answer is no. -/
inductive Verdict (b : Block) : Option Bytes → Action → Prop
  | user {u : Bytes} {a : Action} : u ≠ [] → (∃ p q, b.lines = p ++ Item.user u a :: q ∧ ∀ a', Item.user u a' ∉ q) → Verdict b (some u) a
  | dflt {user : Option Bytes} {a : Action} : (∀ u a', user = some u → u ≠ [] → Item.user u a' ∉ b.lines) → Item.dflt a ∈ b.lines → Verdict b user a
  | none {user : Option Bytes} : (∀ u a', user = some u → u ≠ [] → Item.user u a' ∉ b.lines) → (∀ a, Item.dflt a ∉ b.lines) → Verdict b user .deny

/-- Access according to the blocks of a file: the last one with a filter which applies decides. -/
def Allowed (applies : List Bytes → Prop) (bs : List Block) (requested : Action) (user : Option Bytes) : Prop :=
  ∃ p b q a, bs = p ++ b :: q ∧ (∃ ls, Topic.Spec.IsLevels b.filter ls ∧ applies ls) ∧ (∀ b' ∈ q, ∀ ls, Topic.Spec.IsLevels b'.filter ls → ¬ applies ls) ∧ Verdict b user a ∧ Acl.Spec.Permits a requested

end Verif.AclFile.Spec
