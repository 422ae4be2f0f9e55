import Verif.Uri.Model

/-!
# What a URI is made of
-/
namespace Verif.Uri.Spec
open Verif Verif.HttpUtil Verif.Uri

/-- Letters, digits, dots and dashes, not beginning with a dash. -/
def HostName (h : Bytes) : Prop := h ≠ [] ∧ (∀ c ∈ h, isAlnum c = true ∨ c = 46 ∨ c = 45) ∧ h.head? ≠ some 45

/-- A number in base 10. -/
def number (l : Bytes) : Nat := l.foldl (fun n c => n * 10 + (c.toNat - 48)) 0

/-- Digits which are the number of a port. -/
def PortText (l : Bytes) : Prop := (∀ c ∈ l, 48 ≤ c ∧ c ≤ 57) ∧ l.length ≤ 63 ∧ 1 ≤ number l ∧ number l ≤ 65535

/-- Port and colon before it, or nothing. -/
def portText : Option Bytes → Bytes
  | none => []
  | some l => 58 :: l

/-- What an endpoint consists of. -/
def Endpoint (e : Bytes) : Prop := (e = [] ∨ e.head? = some 47) ∧ ∀ c ∈ e, endpointChar c = true ∧ validChar c = true

end Verif.Uri.Spec
