import Verif.StrBuild.Model
/-!
# Specification for `Verif.StrBuild`
-/
namespace Verif.StrBuild.Spec
open Verif Verif.StrBuild

/-- The text after a call, from the text before it. -/
def next (c : Bytes) : Op → Bytes
  | .append d => c ++ d
  | .raw d => c ++ d
  | .format d => c ++ d
  | .from_ d => c ++ d
  | .reserve _ => c
  | .truncate => []
  | .chop => c.dropLast
  | .clear => []

/-- The text after calls which begin with a new builder. -/
def content (l : List Op) : Bytes := l.foldl next []

/-- Memory which a call may need: what is added, a kilobyte and a zero. -/
def need : Op → Nat
  | .append d => d.length + 1025
  | .raw d => d.length + 1025
  | .format d => d.length + 1025
  | .from_ d => d.length + 1025
  | .reserve n => n + 1025
  | .truncate => 0
  | .chop => 0
  | .clear => 0

/-- The sizes all fit in 64 bits. -/
def Fits (l : List Op) : Prop := (l.map need).sum < 2 ^ 64

end Verif.StrBuild.Spec
