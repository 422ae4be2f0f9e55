import Verif.Msgdb.Props
import Verif.Sha256.Props
/-!
# C99 with the hash function of the program

`rrr_sha256_calculate` (`msgdb_server.c:937`) is SHA-256 by `Verif.Sha256.calculate_correct`, so that the theorems for any hash function apply to it.
-/
namespace Verif.Msgdb
open Verif Msg

/-- SHA-256 has 32 bytes. -/
theorem sha256_length (t : Bytes) : (Sha256.Spec.sha256 t).length = 32 := rfl

/-- **C99** for the hash function used: what is stored is found, if no other topic of the history has the same SHA-256 hash. -/
theorem get_finds_sha256_partial (j : Sha256.Junk) (levels : Nat) (hl : levels ≤ 4) (h : List Op) (hv : ∀ o ∈ h, ValidOp o)
    (g : MsgMsg) (hg : Valid g) (h3 : g.type = 3) (ht : g.topic ≠ []) (hz : (0 : UInt8) ∉ g.topic) (cut : Option Nat)
    (hinj : ∀ o ∈ h, ∀ t', o.topic = some t' → Sha256.Spec.sha256 t' = Sha256.Spec.sha256 g.topic → t' = g.topic) (m : MsgMsg) (hk : kept g.topic h = some m) :
    (step (Sha256.calculate j) (run (Sha256.calculate j) ⟨levels, []⟩ h) (.request g cut)).2 = .msg m := by
  rw [funext (Sha256.calculate_correct j)]
  exact get_finds_partial _ sha256_length levels hl h hv g hg h3 ht hz hinj cut m hk

end Verif.Msgdb
