import Verif.Http.SplitProps
/-!
# The header lies within the data
-/
namespace Verif.Http
open Verif Verif.HttpUtil

theorem afterHeader_parsed (kind : Kind) (base : Nat) (p : Part) (buf : Bytes) (pos n : Nat) (h : pos + n ≤ buf.length)
    (hi : (afterHeader kind base p buf pos n).ret = .incomplete) : n ≤ (afterHeader kind base p buf pos n).parsed := by
  rcases afterHeader_cases kind base p pos n with ⟨r, h1, h2, h3, -⟩ | ⟨p', h1, -⟩
  · rw [h1] at hi ⊢
    rw [h3 (by rw [hi]; simp)]; exact Nat.le_refl _
  · rw [h1] at hi ⊢
    exact (parseChunked_len base p' buf pos n h).2.2.1 hi

theorem parseHeader_within (lim : Limits) (kind : Kind) (base : Nat) (p : Part) (buf : Bytes) (pos n : Nat) (h : pos + n ≤ buf.length)
    (ht : p.top ≤ pos + n) :
    (parseHeader lim kind base p buf pos n).part.top ≤ buf.length ∧
    ((parseHeader lim kind base p buf pos n).ret = .incomplete →
      (parseHeader lim kind base p buf pos n).part.top ≤ pos + (parseHeader lim kind base p buf pos n).parsed) := by
  unfold parseHeader
  split
  · exact ⟨by simp only; omega, fun _ => ht⟩
  · split
    · exact ⟨by simp only; omega, fun _ => ht⟩
    · have h1 := headerFields_len (buf.length + 1) p.headers (buf.drop (pos + n))
      rw [List.length_drop] at h1
      generalize headerFields (buf.length + 1) p.headers 0 (buf.drop (pos + n)) = x at *
      obtain ⟨r, hs, k⟩ := x
      simp only [Part.top] at h1 ht ⊢
      split
      · obtain ⟨a1, a2, -⟩ := afterHeader_top kind base { p with headers := hs, complete := true, headerLength := p.headerLength + k } buf pos (n + k)
        rw [a1, a2]
        simp only
        refine ⟨by omega, fun hi => ?_⟩
        have := afterHeader_parsed _ _ _ _ _ _ (by omega) hi
        omega
      · simp only
        exact ⟨by omega, fun _ => by omega⟩

theorem parse_within (lim : Limits) (kind : Kind) (base : Nat) (p : Part) (buf : Bytes) (pos : Nat) (h : pos ≤ buf.length) (ht : p.top ≤ pos)
    (hpl : Place p pos) :
    (parse lim kind base p buf pos).part.top ≤ buf.length ∧
    ((parse lim kind base p buf pos).ret = .incomplete → (parse lim kind base p buf pos).part.top ≤ pos + (parse lim kind base p buf pos).parsed) := by
  unfold parse
  by_cases hch : p.chunked = true
  · rw [if_pos hch]
    obtain ⟨h1, h2, -⟩ := parseChunked_top base p buf pos 0
    unfold Part.top at *
    rw [h1, h2]
    exact ⟨by omega, fun _ => by omega⟩
  · rw [if_neg hch]
    by_cases hs : p.started = true
    · rw [if_neg (by simp [hs])]
      exact parseHeader_within lim kind base p buf pos 0 h ht
    · rw [if_pos (by simp [hs])]
      cases hf : parseFirstLine kind p (buf.drop pos) with
      | ok x =>
        obtain ⟨p', n⟩ := x
        obtain ⟨-, c2, -, -, -, -, -, -, c9⟩ := firstLine_len _ _ _ _ _ hf
        rw [List.length_drop] at c2
        have hb := hpl.before (by simpa using hs)
        refine parseHeader_within lim kind base _ buf pos n (by omega) ?_
        simp only [Part.top]
        omega
      | incomplete => exact ⟨by simp only; omega, fun _ => by simp only; omega⟩
      | soft => exact ⟨by simp only; omega, fun h => by cases h⟩
      | hard => exact ⟨by simp only; omega, fun h => by cases h⟩
      | bug => exact ⟨by simp only; omega, fun h => by cases h⟩
      | fault => exact ⟨by simp only; omega, fun h => by cases h⟩

theorem run_top (lim : Limits) (kind : Kind) (base : Nat) (buf : Bytes) : ∀ (n : Nat) (p : Part) (pos : Nat), Good p → Place p pos → pos ≤ buf.length →
    p.top ≤ pos → buf.length - pos ≤ n → (run lim kind base buf p pos).2.1.top ≤ buf.length := by
  intro n
  induction n using Nat.strongRecOn with
  | _ n ih =>
  intro p pos hg hpl hp ht hn
  obtain ⟨a1, a2, a3⟩ := parse_len lim kind base p buf pos hp hg
  obtain ⟨b1, b2⟩ := parse_within lim kind base p buf pos hp ht hpl
  rw [run_eq lim kind base buf p pos hg hp]
  by_cases hc : (parse lim kind base p buf pos).parsed ≠ 0 ∧ (parse lim kind base p buf pos).ret = .incomplete
  · rw [if_pos hc]
    exact ih (buf.length - (pos + (parse lim kind base p buf pos).parsed)) (by omega) _ _ a3 (parse_place lim kind base p buf pos hpl hg hc.2) a1
      (b2 hc.2) (Nat.le_refl _)
  · rw [if_neg hc]
    exact b1

/-! ## C87 -/

theorem targetSize_start (lim : Limits) (kind : Kind) (base : Nat) (buf : Bytes) :
    targetSize lim kind base {} 0 buf = sizeOf kind (run lim kind base buf {} 0) := by
  rw [targetSize_eq]
  split <;> rfl

/-- **C87.** However the data of a request or response arrives, and whatever the limits are, the outcome is the one for all of the data at once without
limits, or the connection is closed because of an error. -/
theorem http_pieces (lim : Limits) (kind : Kind) (base : Nat) (pieces : List Bytes) (hmax : pieces.flatten.length ≤ lengthMax) :
    receive lim kind base {} 0 [] pieces = targetSize (unlimited pieces.flatten) kind base {} 0 pieces.flatten ∨
    receive lim kind base {} 0 [] pieces = .error := by
  have h1 := receive_eq (unlimited pieces.flatten) kind base pieces {} 0 [] good_empty (Nat.le_refl _) (fun _ => rfl) (run_empty _ _ _) rfl
    (Nat.le_refl _) (Nat.le_refl _) hmax
  rw [List.nil_append] at h1
  rw [targetSize_start, ← h1]
  exact receive_lim_or lim _ kind base pieces {} 0 [] good_empty (Nat.le_refl _) (fun _ => rfl) (Nat.le_refl _) (Nat.le_refl _) hmax

/-- **C87.** If the first line and the header are within the limits the outcome is the one for all of the data at once. -/
theorem http_pieces_within (lim : Limits) (kind : Kind) (base : Nat) (pieces : List Bytes) (hmax : pieces.flatten.length ≤ lengthMax)
    (hw : (targetSize (unlimited pieces.flatten) kind base {} 0 pieces.flatten).Within lim pieces.flatten) :
    receive lim kind base {} 0 [] pieces = targetSize (unlimited pieces.flatten) kind base {} 0 pieces.flatten := by
  have h1 := receive_eq (unlimited pieces.flatten) kind base pieces {} 0 [] good_empty (Nat.le_refl _) (fun _ => rfl) (run_empty _ _ _) rfl
    (Nat.le_refl _) (Nat.le_refl _) hmax
  rw [targetSize_start] at hw ⊢
  rw [List.nil_append] at h1
  rw [← h1]
  refine receive_lim lim _ kind base pieces {} 0 [] good_empty place_empty (Nat.le_refl _) (fun _ => rfl) (Nat.le_refl _) (Nat.le_refl _) hmax ?_
  rw [List.nil_append]
  have ht := run_top (unlimited pieces.flatten) kind base pieces.flatten _ {} 0 good_empty place_empty (Nat.zero_le _) (Nat.le_refl _) (Nat.le_refl _)
  unfold Part.top at ht
  exact sizeOf_within kind lim pieces.flatten _
    (run_started _ kind base pieces.flatten _ {} 0 good_empty place_empty (Nat.zero_le _) (Nat.le_refl _)) (by omega) (by omega) hw

/-- **C87.** In particular two ways of dividing the same data have the same outcome. -/
theorem http_pieces_agree (lim : Limits) (kind : Kind) (base : Nat) (pieces pieces' : List Bytes) (he : pieces.flatten = pieces'.flatten)
    (hmax : pieces.flatten.length ≤ lengthMax)
    (hw : (targetSize (unlimited pieces.flatten) kind base {} 0 pieces.flatten).Within lim pieces.flatten) :
    receive lim kind base {} 0 [] pieces = receive lim kind base {} 0 [] pieces' := by
  rw [http_pieces_within lim kind base pieces hmax hw, http_pieces_within lim kind base pieces' (he ▸ hmax) (he ▸ hw), he]

end Verif.Http
