import Verif.Common
import Verif.Utf8.Spec
/-!
# Specification of MQTT topic filters (MQTT 3.1.1/5, section 4.7)

Written without reference to the code. Topics are byte strings; levels are the
maximal parts between '/' characters.
-/
namespace Verif.Topic.Spec
open Verif

/-- Concatenate levels with '/' between them. -/
def join : List Bytes → Bytes
  | [] => []
  | [l] => l
  | l :: l' :: ls => l ++ 0x2F :: join (l' :: ls)

/-- `ls` are the levels of `t`: joined by '/' they give `t`, and none contains '/'. -/
def IsLevels (t : Bytes) (ls : List Bytes) : Prop :=
  ls ≠ [] ∧ join ls = t ∧ ∀ l ∈ ls, (0x2F : UInt8) ∉ l

/-- Level-wise matching: "+" stands for exactly one level, a final "#" for any
number of levels (also none), any other level for itself. -/
inductive LevelsMatch : List Bytes → List Bytes → Prop
  | nil : LevelsMatch [] []
  | hash (ts) : LevelsMatch [[0x23]] ts
  | plus {t fs ts} : LevelsMatch fs ts → LevelsMatch ([0x2B] :: fs) (t :: ts)
  | lit {l fs ts} : l ≠ [0x23] → l ≠ [0x2B] → LevelsMatch fs ts → LevelsMatch (l :: fs) (l :: ts)

/-- MQTT 4.7.2: filters starting with a wildcard don't match topics starting with '$'. -/
def DollarRule (fs ts : List Bytes) : Prop :=
  (fs.head? = some [0x23] ∨ fs.head? = some [0x2B]) → ∀ t, ts.head? = some t → t.head? ≠ some 0x24

/-- The topic with levels `ts` matches the filter with levels `fs`. -/
def Matches (fs ts : List Bytes) : Prop := LevelsMatch fs ts ∧ DollarRule fs ts

/-- A well-formed filter: wildcard characters occupy whole levels and "#" is last. -/
def FilterLevelsOk (fs : List Bytes) : Prop :=
  (∀ l ∈ fs, (0x2B : UInt8) ∈ l → l = [0x2B]) ∧
  (∀ l ∈ fs, (0x23 : UInt8) ∈ l → l = [0x23]) ∧
  (∀ l ∈ fs.dropLast, l ≠ [0x23])

/-- A level of an ACL pattern goes with a level of a subscription filter. -/
def LevelAdmits (m s : Bytes) : Prop :=
  m ≠ [0x23] ∧ s ≠ [0x23] ∧ (m = [0x2B] ∨ (s = [0x2B] ∧ m.head? ≠ some 0x24) ∨ m = s)

/-- Which subscription filters (right) an ACL pattern (left) admits, level by level: "#" in the
pattern admits everything from that level, which must exist in the filter; "#" in the filter is only
admitted by that. "+" on either side goes with any level of the other, except that "+" in
the filter does not go with a pattern level starting with '$'. Other levels must be equal. -/
inductive AclAdmits : List Bytes → List Bytes → Prop
  | hash (s ss) : AclAdmits [[0x23]] (s :: ss)
  | last {m s} : LevelAdmits m s → AclAdmits [m] [s]
  | level {m s ms ss} : LevelAdmits m s → AclAdmits ms ss → AclAdmits (m :: ms) (s :: ss)

end Verif.Topic.Spec
