import Verif.Utf8.Lemmas
/-!
# C07: UTF-8 validation accepts exactly well-formed sequences
-/
namespace Verif.Utf8
open Verif Spec

/-- **C07** For every byte string, of any length and content, the validator
succeeds exactly when the part before the first NUL byte (C string semantics) is
the UTF-8 encoding of a sequence of Unicode scalar values. -/
theorem validate_iff (s : Bytes) :
    validate s = true ↔ WellFormed (s.takeWhile (· ≠ 0)) := by
  unfold validate
  rw [validateLoop_eq_iterate, Option.isSome_iff_exists]
  constructor
  · rintro ⟨u, hu⟩
    obtain ⟨cs, tail, h1, h2, h3⟩ := iterateLoop_sound _ _ _ _ _ hu
    exact ⟨cs, fun c hc => (h1 c hc).1, takeWhile_of_decomp (fun c hc => (h1 c hc).2) h2 h3⟩
  · rintro ⟨cs, h1, h2⟩
    obtain ⟨tail, h3, h4, h5⟩ := decomp_of_takeWhile h2
    refine ⟨(), ?_⟩
    rw [iterateLoop_complete _ cs s tail () _ (fun c hc => ⟨h1 c hc, h3 c hc⟩) h4 h5 (by omega)]
    clear h1 h2 h3 h4
    induction cs with
    | nil => rfl
    | cons c cs ih => simpa using ih

/-- **C07** For strings without NUL bytes acceptance is exactly well-formedness
of the whole string. -/
theorem validate_iff_of_no_nul (s : Bytes) (h : (0 : UInt8) ∉ s) :
    validate s = true ↔ WellFormed s := by
  rw [validate_iff]
  have : s.takeWhile (· ≠ 0) = s := by
    have := List.takeWhile_append_of_pos (p := fun x : UInt8 => decide (x ≠ 0)) (l₁ := s) (l₂ := [])
      (fun a ha => by simp only [decide_eq_true_eq]; rintro rfl; exact h ha)
    simpa using this
  rw [this]

/-- **C07** The characters given to the iteration callback are exactly the
encoded text (up to the first NUL byte), in order, and the callback can stop the
iteration by failing. -/
theorem validateAndIterate_eq {σ : Type} (cb : σ → Nat → Option σ) (s : Bytes) (cs : List Nat)
    (st : σ) (h : Encodes (s.takeWhile (· ≠ 0)) cs) :
    validateAndIterate cb s st = cs.foldlM cb st := by
  obtain ⟨h1, h2⟩ := h
  obtain ⟨tail, h3, h4, h5⟩ := decomp_of_takeWhile h2
  exact iterateLoop_complete cb cs s tail st _ (fun c hc => ⟨h1 c hc, h3 c hc⟩) h4 h5 (by omega)

/-- **C07** Malformed strings are rejected by the iterating validator whatever
the callback does. -/
theorem validateAndIterate_reject {σ : Type} (cb : σ → Nat → Option σ) (s : Bytes)
    (st : σ) (h : ¬ WellFormed (s.takeWhile (· ≠ 0))) :
    validateAndIterate cb s st = none := by
  cases hv : validateAndIterate cb s st with
  | none => rfl
  | some st' =>
    exfalso
    obtain ⟨cs, tail, h1, h2, h3⟩ := iterateLoop_sound _ _ _ _ _ hv
    exact h ⟨cs, fun c hc => (h1 c hc).1, takeWhile_of_decomp (fun c hc => (h1 c hc).2) h2 h3⟩

/-- Finding: bytes after a NUL byte are not inspected although the length is
given explicitly, so a length-delimited string with trailing garbage passes. -/
theorem validate_accepts_garbage_after_nul :
    ∃ s : Bytes, validate s = true ∧ ¬ WellFormed s := by
  refine ⟨[0x61, 0, 0xFF], by decide, ?_⟩
  rintro ⟨cs, h1, h2⟩
  have h1' : ∀ b ∈ encode cs, b < 0xFE := by
    intro b hb
    obtain ⟨c, hc, hb⟩ := List.mem_flatMap.mp hb
    have hs := h1 c hc
    unfold IsScalar at hs
    unfold encodeChar at hb
    repeat' split at hb
    all_goals simp only [List.mem_cons, List.not_mem_nil, or_false] at hb
    all_goals omega
  rw [← h2] at h1'
  have := h1' 0xFF (by decide)
  omega

-- Non-vacuity: "a€😀" is well-formed, "é" truncated and an overlong '/' are not.
example : Encodes [0x61, 0xE2, 0x82, 0xAC, 0xF0, 0x9F, 0x98, 0x80] [0x61, 0x20AC, 0x1F600] := by
  refine ⟨by decide, by decide⟩
example : validate [0x61, 0xE2, 0x82, 0xAC, 0xF0, 0x9F, 0x98, 0x80] = true := by decide
example : validate [0xC3] = false ∧ validate [0xC0, 0xAF] = false ∧
    validate [0xED, 0xA0, 0x80] = false := by decide
example : ¬ WellFormed ([0xC0, 0xAF] : Bytes) := by
  rw [← validate_iff_of_no_nul _ (by decide)]; decide

end Verif.Utf8
