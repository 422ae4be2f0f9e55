import Verif.Multipart.Model
/-!
# What the parts of a text are
-/
namespace Verif.Multipart.Spec
open Verif Verif.Http Verif.Multipart

/-- A string is at a position of a text. -/
def At (s text : Bytes) (i : Nat) : Prop := s <+: text.drop i

/-- It is nowhere from a position on. -/
def Nowhere (s text : Bytes) (p : Nat) : Prop := ∀ i, p ≤ i → ¬ At s text i

/-- The first position from a position on where it is. -/
def First (s text : Bytes) (p i : Nat) : Prop := p ≤ i ∧ At s text i ∧ ∀ j, p ≤ j → j < i → ¬ At s text j

/-- `--boundary` and the end of the line. -/
def line (b : Bytes) : Bytes := str "--" ++ b ++ [13, 10]
/-- `--boundary--` and the end of the line. -/
def lastLine (b : Bytes) : Bytes := str "--" ++ b ++ str "--" ++ [13, 10]

/-- A part ends where the next boundary is. If there is no other boundary, it ends at the last boundary. -/
def Ends (b text : Bytes) (start e : Nat) : Prop :=
  First (line b) text start e ∨ (Nowhere (line b) text start ∧ First (lastLine b) text start e)

/-- The text from a position to another one. -/
def between (text : Bytes) (i e : Nat) : Bytes := (text.drop i).take (e - i)

end Verif.Multipart.Spec
namespace Verif.Multipart
open Verif Verif.Http

def Tree.headers : Tree → List Field | .node h _ _ _ _ => h
def Tree.start : Tree → Nat | .node _ s _ _ _ => s
def Tree.headerLength : Tree → Nat | .node _ _ n _ _ => n
def Tree.dataLength : Tree → Nat | .node _ _ _ d _ => d
def Tree.parts : Tree → List Tree | .node _ _ _ _ ts => ts

mutual
/-- The number of parts, with those inside of parts. -/
def Tree.size : Tree → Nat | .node _ _ _ _ ts => 1 + sizes ts
def sizes : List Tree → Nat
  | [] => 0
  | t :: ts => t.size + sizes ts
end

end Verif.Multipart
namespace Verif.Multipart.Spec
open Verif Verif.Http Verif.Multipart

/-- A boundary of letters and digits, like those which are made. -/
def Boundary (b : Bytes) : Prop := b ≠ [] ∧ ∀ c ∈ b, (48 ≤ c ∧ c ≤ 57) ∨ (65 ≤ c ∧ c ≤ 90) ∨ (97 ≤ c ∧ c ≤ 122)

/-- A field which can be sent in a form. The name is of characters which can be printed, but not `;`, `\\` or `%`. The content type is a single word with a `/`, or
there is none. -/
structure Sendable (b : Bytes) (f : FormField) : Prop where
  named : f.name ≠ [] ∧ f.name.length ≤ 65536
  chars : ∀ c ∈ f.name, ((32 ≤ c ∧ c < 127) ∨ c = 9) ∧ c ≠ 59 ∧ c ≠ 92 ∧ c ≠ 37
  type : f.contentType ≠ [] → (∀ c ∈ f.contentType, 33 ≤ c ∧ c < 127 ∧ c ≠ 59 ∧ c ≠ 61 ∧ c ≠ 44) ∧ 47 ∈ f.contentType ∧ eqCase f.contentType (str "multipart/form-data") = false
  nul : f.value.head? ≠ some 0
  /-- The boundary is nowhere in the text of the field after its own boundary. -/
  clear : ∀ t, fieldText b true f = .ok (line b ++ t) → ¬ (str "--" ++ b) <:+: t

end Verif.Multipart.Spec
