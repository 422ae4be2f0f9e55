import Verif.Config.Model
/-!
# Configuration files as the manual describes them

After `rrr.conf(5)`. Of the models only the structures are used, and `ArrayDef.interpret` and `Discern.parse` for the texts of definitions (which C110, C27 and C28 are about).
-/
namespace Verif.Config.Spec


/-- Space, tab, line feed and carriage return. -/
def Blank (b : Bytes) : Prop := ∀ c ∈ b, c = 32 ∨ c = 9 ∨ c = 10 ∨ c = 13

/-- Spaces and tabs. -/
def Inline (b : Bytes) : Prop := ∀ c ∈ b, c = 32 ∨ c = 9

def Newline (c : UInt8) : Prop := c = 10 ∨ c = 13

/-- Nothing more, or the end of the line. -/
def LineEnd (b : Bytes) : Prop := ∀ c, b.head? = some c → Newline c

/-- Letters, digits, `_` and `-`. -/
def NameChar (c : UInt8) : Prop := (97 ≤ c ∧ c ≤ 122) ∨ (65 ≤ c ∧ c ≤ 90) ∨ c = 95 ∨ (48 ≤ c ∧ c ≤ 57) ∨ c = 45

def Name (b : Bytes) : Prop := b ≠ [] ∧ ∀ c ∈ b, NameChar c

/-- Spaces and comments are before `r`. Comments end with the line. -/
inductive Skips : Bytes → Bytes → Prop
  | done (r : Bytes) : Skips r r
  | space {c : UInt8} {t r : Bytes} : Blank [c] → Skips t r → Skips (c :: t) r
  | comment {l t r : Bytes} : (∀ c ∈ l, ¬ Newline c) → LineEnd t → Skips t r → Skips (35 :: (l ++ t)) r

/-- `name = value`; the value is the rest of the line without the spaces around it. (If the file has a NUL, it ends the value.) `r` follows. -/
def SettingText (n v s r : Bytes) : Prop :=
  ∃ s1 s2 w s3, s = n ++ (s1 ++ (61 :: (s2 ++ (w ++ (s3 ++ r))))) ∧ Name n ∧ Blank s1 ∧ Inline s2 ∧ Inline s3 ∧ LineEnd r ∧
    w ≠ [] ∧ (∀ c ∈ w, ¬ Newline c) ∧ (∀ c, w.head? = some c → ¬ Inline [c]) ∧ (∀ c, w.getLast? = some c → ¬ Inline [c]) ∧ v = w.takeWhile (· ≠ 0)

/-- Settings one after the other, until something which is not the name of a setting. -/
def SettingsText : List (Bytes × Bytes) → Bytes → Bytes → Prop
  | [], s, r => Skips s r ∧ ∀ c, r.head? = some c → ¬ Blank [c] ∧ c ≠ 35 ∧ ¬ NameChar c
  | x :: xs, s, r => ∃ u w, Skips s u ∧ SettingText x.1 x.2 u w ∧ SettingsText xs w r

/-- A name and an end character, spaces may be around the name. -/
def NameText (e : UInt8) (n s r : Bytes) : Prop := ∃ s1 s2, s = s1 ++ (n ++ (s2 ++ e :: r)) ∧ Blank s1 ∧ Name n ∧ Blank s2

/-- What is between `[` and `]`: a name, or a name and another one with `[` and `]`. -/
def BlockText (n : Bytes) (m : Option Bytes) (s r : Bytes) : Prop :=
  match m with
  | none => NameText 93 n s r
  | some m => ∃ t u, NameText 91 n s t ∧ NameText 93 m t u ∧ ∃ s1, u = s1 ++ 93 :: r ∧ Blank s1

/-- What a file contains. -/
inductive Item where
  | tree (n : Bytes) (t : ArrayTree.Tree)
  | route (n : Bytes) (p : Discern.Prog)
  | method (n : Bytes) (p : Discern.Prog)
  | inst (i : Inst)

/-- The contents of a text. With `strict` there are no stray characters. (See `stray_accepted`, `end_accepted`.) -/
inductive Text (strict : Bool) : Bytes → List Item → Prop
  | done : Text strict [] []
  | space {c : UInt8} {t : Bytes} {is : List Item} : Blank [c] → Text strict t is → Text strict (c :: t) is
  /-- `#`, which must not be the last character of the file -/
  | comment {l t : Bytes} {is : List Item} : (∀ c ∈ l, ¬ Newline c) → LineEnd t → l ++ t ≠ [] → Text strict t is → Text strict (35 :: (l ++ t)) is
  /-- `{name} definition` -/
  | tree {s u r n : Bytes} {t : ArrayTree.Tree} {is : List Item} : NameText 125 n s u → ArrayDef.interpret u = .ok (t, r) → Text strict r is → Text strict (123 :: s) (.tree n t :: is)
  /-- `<name> definition` -/
  | route {s u r n : Bytes} {p : Discern.Prog} {is : List Item} : NameText 62 n s u → Discern.parse u = .ok p r → Text strict r is → Text strict (60 :: s) (.route n p :: is)
  /-- `(name) definition` -/
  | method {s u r n : Bytes} {p : Discern.Prog} {is : List Item} : NameText 41 n s u → Discern.parse u = .ok p r → Text strict r is → Text strict (40 :: s) (.method n p :: is)
  /-- `[name]` and settings; the file does not end with `]` -/
  | inst {s u r : Bytes} {i : Inst} {is : List Item} : BlockText i.main i.sub s u → u ≠ [] → SettingsText i.settings u r → Text strict r is → Text strict (91 :: s) (.inst i :: is)
  /-- `{`, `<` or `(` before something which is not a name -/
  | stray {d : UInt8} {s t : Bytes} {is : List Item} : strict = false → d = 123 ∨ d = 60 ∨ d = 40 → Blank s → s ++ t ≠ [] → (∀ c, t.head? = some c → ¬ NameChar c) → Text strict t is → Text strict (d :: (s ++ t)) is
  /-- `[` and spaces at the end of the file -/
  | strayEnd {s : Bytes} : strict = false → Blank s → s ≠ [] → Text strict (91 :: s) []

def trees (is : List Item) : List (Bytes × ArrayTree.Tree) := is.filterMap fun | .tree n t => some (n, t) | _ => none
def routes (is : List Item) : List (Bytes × Discern.Prog) := is.filterMap fun | .route n p => some (n, p) | _ => none
def methods (is : List Item) : List (Bytes × Discern.Prog) := is.filterMap fun | .method n p => some (n, p) | _ => none
def insts (is : List Item) : List Inst := is.filterMap fun | .inst i => some i | _ => none

/-- The settings of an instance: each once, at most 32, and names have at most 243 characters. -/
def SettingsOk (ss : List (Bytes × Bytes)) : Prop := (ss.map (·.1)).Nodup ∧ ss.length ≤ 32 ∧ ∀ s ∈ ss, s.1.length ≤ 243

/-- Routes, methods and instances are defined once, and each sub instance has its main instance. -/
structure Valid (is : List Item) : Prop where
  routesOnce : ((routes is).map (·.1)).Nodup
  methodsOnce : ((methods is).map (·.1)).Nodup
  instsOnce : ((insts is).map fun i => (i.main, i.sub)).Nodup
  settingsOk : ∀ i ∈ insts is, SettingsOk i.settings
  linked : ∀ i ∈ insts is, i.sub ≠ none → ∃ j ∈ insts is, j.main = i.main ∧ j.sub = none

/-- The text has this configuration. -/
def Means (strict : Bool) (s : Bytes) (c : Conf) : Prop := ∃ is, Text strict s is ∧ Valid is ∧ c = ⟨trees is, routes is, methods is, insts is⟩

/-! ## A file written by a program -/

/-- `name=value` on its own line. -/
def writeSetting (x : Bytes × Bytes) : Bytes := x.1 ++ (61 :: (x.2 ++ [10]))

/-- `[main]` or `[main[sub]]` on its own line, and then the settings. -/
def writeInst (i : Inst) : Bytes :=
  91 :: (i.main ++ ((match i.sub with | none => [] | some m => 91 :: (m ++ [93])) ++ (93 :: 10 :: (i.settings.map writeSetting).flatten)))

/-- Values which can be written: one line, without spaces at the beginning and the end and without NUL. -/
def Value (v : Bytes) : Prop := v ≠ [] ∧ (∀ c ∈ v, ¬ Newline c ∧ c ≠ 0) ∧ (∀ c, v.head? = some c → ¬ Inline [c]) ∧ ∀ c, v.getLast? = some c → ¬ Inline [c]

/-- Instances which can be written. -/
def Writable (i : Inst) : Prop := Name i.main ∧ (∀ m, i.sub = some m → Name m) ∧ ∀ x ∈ i.settings, Name x.1 ∧ Value x.2

/-- `[` and then, maybe after spaces, `[` or `]`. -/
def EmptyName (s : Bytes) : Prop := ∃ p sp d t, s = p ++ 91 :: (sp ++ d :: t) ∧ Blank sp ∧ (d = 91 ∨ d = 93)

end Verif.Config.Spec
