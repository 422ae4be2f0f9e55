import Verif.Common
/-!
# Helpers for statements about single bytes
-/
namespace Verif

set_option hygiene false in
/-- Proves an equation between `UInt8` expressions bit by bit. -/
macro "byte_bits" : tactic => `(tactic| (
  apply UInt8.toBitVec_inj.mp
  apply BitVec.eq_of_getLsbD_eq
  intro i hi
  have hcases : i = 0 ∨ i = 1 ∨ i = 2 ∨ i = 3 ∨ i = 4 ∨ i = 5 ∨ i = 6 ∨ i = 7 := by omega
  rcases hcases with rfl | rfl | rfl | rfl | rfl | rfl | rfl | rfl <;> simp))

/-- A statement about all bytes follows from its 256 instances. -/
theorem all256 {P : UInt8 → Prop} (h : ∀ n : Fin 256, P ⟨⟨n⟩⟩) : ∀ a, P a := fun a => h a.toBitVec.toFin

end Verif
