import Verif.ArrayDef.Fields
/-! # Spaces, commas and keywords -/
namespace Verif.ArrayDef
open ArrayTree Types ArrayTree.Spec ArrayDef.Spec
open Verif.Condition (Parsed)

theorem blank_chars : ∀ c : UInt8, Parse.isSpaces c = true ↔ c ∈ blanks := all256 (by decide +kernel)

theorem ignore_drop (p : UInt8 → Bool) (h : p 10 = true) : ∀ (n : Nat) (s : Bytes), s.length ≤ n → Parse.ignore p s = s.dropWhile p := by
  intro n
  induction n with
  | zero => intro s hs; cases s with
    | nil => rfl
    | cons c t => simp at hs
  | succ n ih =>
    intro s hs
    cases s with
    | nil => rfl
    | cons c t =>
      rw [Parse.ignore.eq_def]
      simp only
      by_cases hc : p c = true
      · rw [if_pos hc, List.dropWhile_cons_of_pos hc]
        cases t with
        | nil => rfl
        | cons d u =>
          simp only
          simp only [List.length_cons] at hs
          split
          · rename_i hd
            simp only [Bool.and_eq_true, beq_iff_eq] at hd
            rw [ih u (by omega), hd.2, List.dropWhile_cons_of_pos h]
          · exact ih (d :: u) (by simp; omega)
      · rw [if_neg hc, List.dropWhile_cons_of_neg hc]

/-- `ignoreSpaces`, shorter. -/
abbrev ig (s : Bytes) : Bytes := Parse.ignoreSpaces s

theorem ig_eq (s : Bytes) : ig s = s.dropWhile Parse.isSpaces := ignore_drop _ (by decide) s.length s (Nat.le_refl _)

theorem ig_split (s : Bytes) : ∃ sp, s = sp ++ ig s ∧ Blank sp ∧ ∀ c, (ig s).head? = some c → c ∉ blanks := by
  obtain ⟨h1, h2, h3⟩ := (span_iff Parse.isSpaces s _ _).mp ⟨rfl, rfl⟩
  refine ⟨s.takeWhile Parse.isSpaces, by rw [ig_eq]; exact h1, fun c hc => (blank_chars c).mp (h2 c hc), fun c hc hb => ?_⟩
  rw [ig_eq] at hc
  have := h3 c hc
  rw [(blank_chars c).mpr hb] at this
  cases this

theorem ig_of {sp r : Bytes} (hs : Blank sp) (hr : ∀ c, r.head? = some c → c ∉ blanks) : ig (sp ++ r) = r := by
  rw [ig_eq]
  refine ((span_iff Parse.isSpaces _ sp r).mpr ⟨rfl, fun c hc => (blank_chars c).mpr (hs c hc), fun c hc => ?_⟩).2
  cases h : Parse.isSpaces c with
  | false => rfl
  | true => exact absurd ((blank_chars c).mp h) (hr c hc)

theorem ig_append {sp s : Bytes} (hs : Blank sp) : ig (sp ++ s) = ig s := by
  obtain ⟨sp', h1, h2, h3⟩ := ig_split s
  have : sp ++ s = (sp ++ sp') ++ ig s := by rw [List.append_assoc, ← h1]
  rw [this, ig_of (r := ig s) _ h3]
  intro c hc
  rcases List.mem_append.mp hc with h | h
  · exact hs c h
  · exact h2 c h

theorem ig_id {s : Bytes} (hs : ∀ c, s.head? = some c → c ∉ blanks) : ig s = s := ig_of (sp := []) (by intro c hc; cases hc) hs

theorem ig_ig (s : Bytes) : ig (ig s) = ig s := by
  obtain ⟨_, _, _, h3⟩ := ig_split s
  exact ig_id h3

theorem ig_length (s : Bytes) : (ig s).length ≤ s.length := by
  obtain ⟨sp, h1, _⟩ := ig_split s
  have := congrArg List.length h1
  simp at this
  omega

/-- What is left after a definition: the rest of the text, perhaps without the spaces. -/
def Tail (r r' : Bytes) : Prop := r' = r ∨ r' = ig r

theorem tail_ig {r r' : Bytes} (h : Tail r r') : ig r' = ig r := by
  rcases h with rfl | rfl
  · rfl
  · exact ig_ig r

theorem tail_length {r r' : Bytes} (h : Tail r r') : r'.length ≤ r.length := by
  rcases h with rfl | rfl
  · exact Nat.le_refl _
  · exact ig_length r

theorem blank_gap {g : Bytes} (h : Blank g) : Gap g := fun c hc => Or.inl (h c hc)

theorem gap_append {a b : Bytes} (ha : Gap a) (hb : Gap b) : Gap (a ++ b) := by
  intro c hc
  rcases List.mem_append.mp hc with h | h
  · exact ha c h
  · exact hb c h

theorem text_gap {N : Numbers} {g s r : Bytes} {t : Tree} (hg : Gap g) (h : Text N t s r) : Text N t (g ++ s) r := by
  cases t with
  | nil =>
    obtain ⟨g', h1, rfl⟩ := h
    exact ⟨g ++ g', gap_append hg h1, by rw [List.append_assoc]⟩
  | field f rest =>
    obtain ⟨g', w, u, h1, rfl, h2⟩ := h
    exact ⟨g ++ g', w, u, gap_append hg h1, by rw [List.append_assoc], h2⟩
  | rewind n rest =>
    obtain ⟨g', sp, ds, u, h1, rfl, h2⟩ := h
    exact ⟨g ++ g', sp, ds, u, gap_append hg h1, by rw [List.append_assoc], h2⟩
  | cond bs rest =>
    obtain ⟨g', u, v, h1, rfl, h2⟩ := h
    exact ⟨g ++ g', u, v, gap_append hg h1, by rw [List.append_assoc], h2⟩

/-- The spaces at the start of a gap are skipped: what is left is empty, or a comma and a gap. -/
theorem gap_ig {g b : Bytes} (hg : Gap g) (hb : ∀ c, b.head? = some c → c ∉ blanks) :
    ∃ g', Gap g' ∧ ig (g ++ b) = g' ++ b ∧ g'.length ≤ g.length ∧ (g' = [] ∨ ∃ x, g' = 44 :: x) := by
  induction g with
  | nil => exact ⟨[], hg, ig_id hb, Nat.le_refl _, Or.inl rfl⟩
  | cons c t ih =>
    have ht : Gap t := fun x hx => hg x (List.mem_cons_of_mem _ hx)
    rcases hg c (List.mem_cons_self ..) with hc | rfl
    · obtain ⟨g', h1, h2, h3, h4⟩ := ih ht
      refine ⟨g', h1, ?_, by simp; omega, h4⟩
      have : (c :: t) ++ b = [c] ++ (t ++ b) := rfl
      rw [this, ig_append (by intro x hx; simp at hx; rw [hx]; exact hc), h2]
    · exact ⟨44 :: t, hg, ig_id (by intro x hx; simp at hx; subst hx; decide), Nat.le_refl _, Or.inr ⟨t, rfl⟩⟩

/-- How the elements of definitions can begin. -/
def StartChar (c : UInt8) : Prop := c = 59 ∨ (97 ≤ c ∧ c ≤ 122) ∨ c = 73 ∨ c = 82

instance (c : UInt8) : Decidable (StartChar c) := by unfold StartChar; infer_instance

theorem start_blank : ∀ c : UInt8, StartChar c → c ∉ blanks := all256 (by decide +kernel)
theorem start_other : ∀ c : UInt8, StartChar c → c ≠ 44 ∧ c ≠ 69 ∧ isDec c = false := all256 (by decide +kernel)
theorem gapChar_other : ∀ c : UInt8, c ∈ blanks ∨ c = 44 → c ≠ 69 ∧ isDec c = false := all256 (by decide +kernel)
theorem low_start (c : UInt8) (h : 97 ≤ c ∧ c ≤ 122) : StartChar c := Or.inr (Or.inl h)

theorem typeName_head (ty : Ty) : ∃ c t, typeName ty = c :: t ∧ 97 ≤ c ∧ c ≤ 122 := by
  cases ty <;> exact ⟨_, _, rfl, by decide, by decide⟩

theorem field_head {N : Numbers} {f : Field} {w : Bytes} (h : FieldText N f w) : ∃ c t, w = c :: t ∧ 97 ≤ c ∧ c ≤ 122 := by
  obtain ⟨a, b, c, d, rfl, _⟩ := h
  obtain ⟨x, t, h1, h2⟩ := typeName_head f.ty
  rw [h1]
  exact ⟨x, _, rfl, h2⟩

/-- A definition is a gap and an element. -/
theorem text_body {N : Numbers} {s r : Bytes} {t : Tree} (h : Text N t s r) : ∃ g c x, Gap g ∧ s = g ++ c :: x ∧ StartChar c ∧ Text N t (c :: x) r := by
  have hn : Gap [] := by intro c hc; cases hc
  cases t with
  | nil =>
    obtain ⟨g, h1, rfl⟩ := h
    exact ⟨g, 59, r, h1, rfl, Or.inl rfl, [], hn, rfl⟩
  | field f rest =>
    obtain ⟨g, w, u, h1, rfl, h2, h3⟩ := h
    obtain ⟨c, x, h4, h5⟩ := field_head h2
    subst h4
    exact ⟨g, c, x ++ u, h1, rfl, low_start c h5, [], c :: x, u, hn, rfl, h2, h3⟩
  | rewind n rest =>
    obtain ⟨g, sp, ds, u, h1, rfl, h2⟩ := h
    exact ⟨g, 82, _, h1, rfl, by decide, [], sp, ds, u, hn, rfl, h2⟩
  | cond bs rest =>
    obtain ⟨g, u, v, h1, rfl, h2, h3⟩ := h
    cases bs with
    | none => exact absurd h2.1 (by decide)
    | els t => exact absurd h2.1 (by decide)
    | arm c t more =>
      obtain ⟨sp, x, y, z, h4, h5, rfl, h6⟩ := h2
      obtain rfl := h5 rfl
      exact ⟨g, 73, 70 :: x, h1, rfl, by decide, [], _, v, hn, rfl, ⟨[], x, y, z, h4, fun _ => rfl, rfl, h6⟩, h3⟩

theorem text_ig {N : Numbers} {s r : Bytes} {t : Tree} (h : Text N t s r) : Text N t (ig s) r := by
  obtain ⟨g, c, x, h1, rfl, h2, h3⟩ := text_body h
  obtain ⟨g', h4, h5, _⟩ := gap_ig (b := c :: x) h1 (by intro d hd; simp at hd; subst hd; exact start_blank c h2)
  rw [h5]
  exact text_gap h4 h3

theorem text_of_ig {N : Numbers} {s r : Bytes} {t : Tree} (h : Text N t (ig s) r) : Text N t s r := by
  obtain ⟨sp, h1, h2, _⟩ := ig_split s
  rw [h1]
  exact text_gap (blank_gap h2) h

theorem text_head {N : Numbers} {s r : Bytes} {t : Tree} (h : Text N t s r) : ∃ c x, s = c :: x ∧ c ≠ 69 ∧ isDec c = false := by
  obtain ⟨g, c, x, h1, rfl, h2, h3⟩ := text_body h
  cases g with
  | nil => exact ⟨c, x, rfl, (start_other c h2).2⟩
  | cons d u => exact ⟨d, _, rfl, gapChar_other d (h1 d (List.mem_cons_self ..))⟩

theorem interpret_length {s r : Bytes} {c : List Condition.Carrier} (h : Condition.interpret s = .ok (c, r)) : r.length ≤ s.length := by
  have hword : ∀ w s r : Bytes, Condition.matchWord w s = some r → r.length ≤ s.length := by
    intro w
    induction w with
    | nil => intro s r h; simp [Condition.matchWord] at h; rw [h]; exact Nat.le_refl _
    | cons a w ih =>
      intro s r h
      cases s with
      | nil => simp [Condition.matchWord] at h
      | cons b s =>
        simp only [Condition.matchWord] at h
        split at h
        · have := ih s r h; simp; omega
        · cases h
  have hcase : ∀ w s r : Bytes, Condition.matchWordCase w s = some r → r.length ≤ s.length := by
    intro w
    induction w with
    | nil => intro s r h; simp [Condition.matchWordCase] at h; rw [h]; exact Nat.le_refl _
    | cons a w ih =>
      intro s r h
      cases s with
      | nil => simp [Condition.matchWordCase] at h
      | cons b s =>
        simp only [Condition.matchWordCase] at h
        split at h
        · have := ih s r h; simp; omega
        · cases h
  have hdrop : ∀ (p : UInt8 → Bool) (s : Bytes), (s.dropWhile p).length ≤ s.length := by
    intro p s
    have := congrArg List.length (List.takeWhile_append_dropWhile (p := p) (l := s))
    rw [List.length_append] at this
    omega
  have hop : ∀ (os : List Condition.Op) (s : Bytes) (o : Condition.Op) (r : Bytes), Condition.parseOpIn os s = some (o, r) → r.length ≤ s.length := by
    intro os
    induction os with
    | nil => intro s o r h; cases h
    | cons a os ih =>
      intro s o r h
      simp only [Condition.parseOpIn] at h
      split at h
      · rename_i x hx
        cases h
        exact hword _ _ _ hx
      · exact ih s o r h
  have hval : ∀ s v r : Bytes, Condition.parseValue s = some (v, r) → r.length ≤ s.length := by
    intro s v r h
    simp only [Condition.parseValue] at h
    split at h
    · rename_i u hu
      have := hword _ _ _ hu
      by_cases hn : (Condition.matchLetters (fun c => Condition.isLetter c || Condition.isNumber c) u).1 = []
      · rw [if_pos hn] at h; cases h
      · rw [if_neg hn] at h
        split at h
        · cases h
        · rename_i x hx
          cases h
          have := hword _ _ _ hx
          have : (Condition.matchLetters (fun c => Condition.isLetter c || Condition.isNumber c) u).2.length ≤ u.length := hdrop _ u
          omega
    · split at h
      · rename_i u hu
        have := hcase _ _ _ hu
        by_cases hn : (Condition.matchLetters Condition.isHex u).1 = []
        · rw [if_pos hn] at h; cases h
        · rw [if_neg hn] at h; cases h
          have : (Condition.matchLetters Condition.isHex u).2.length ≤ u.length := hdrop _ u
          omega
      · split at h
        · rename_i u hu
          have := hcase _ _ _ hu
          by_cases hn : (Condition.matchLetters Condition.isNumber u).1 = []
          · rw [if_pos hn] at h; cases h
          · rw [if_neg hn] at h; cases h
            have : (Condition.matchLetters Condition.isNumber u).2.length ≤ u.length := hdrop _ u
            omega
        · by_cases hn : (Condition.matchLetters Condition.isNumber s).1 = []
          · rw [if_pos hn] at h; cases h
          · rw [if_neg hn] at h; cases h
            exact hdrop Condition.isNumber s
  have hround : ∀ y s, (∀ y' s', Condition.round y s = .inl (y', s') → s'.length ≤ s.length) ∧ (∀ y' s', Condition.round y s = .inr (.left y' s') → s'.length ≤ s.length) := by
    intro y s
    have h0 : (Condition.skipSpaces s).length ≤ s.length := hdrop Condition.isSpace s
    constructor
    · intro y' s' h
      simp only [Condition.round] at h
      by_cases hn : Condition.skipSpaces s = []
      · rw [if_pos hn] at h; cases h
      · rw [if_neg hn] at h
        split at h
        · cases h
        · split at h
          · rename_i o u hu
            have hu' : u.length ≤ (Condition.skipSpaces s).length := by
              unfold Condition.nextOp at hu
              split at hu
              · cases hu
              · exact hop _ _ _ _ hu
            split at h
            · cases h
            · split at h
              · cases h
              · cases h; omega
          · split at h
            · cases h
            · rename_i v u hu
              have := hval _ _ _ hu
              split at h
              · cases h
              · cases h; omega
    · intro y' s' h
      simp only [Condition.round] at h
      by_cases hn : Condition.skipSpaces s = []
      · rw [if_pos hn] at h; cases h; exact h0
      · rw [if_neg hn] at h
        split at h
        · cases h
        · split at h
          · rename_i o u hu
            have hu' : u.length ≤ (Condition.skipSpaces s).length := by
              unfold Condition.nextOp at hu
              split at hu
              · cases hu
              · exact hop _ _ _ _ hu
            split at h
            · cases h
            · split at h
              · cases h; omega
              · cases h
          · split at h
            · cases h; exact h0
            · split at h <;> cases h
  have hloop : ∀ k y s y' s', Condition.interpretLoop k y s = .left y' s' → s'.length ≤ s.length := by
    intro k
    induction k with
    | zero => intro y s y' s' h; cases h; exact Nat.le_refl _
    | succ k ih =>
      intro y s y' s' h
      simp only [Condition.interpretLoop] at h
      by_cases hn : s = []
      · rw [if_pos hn] at h; cases h; exact Nat.le_refl _
      · rw [if_neg hn] at h
        split at h
        · rename_i y1 s1 h1
          have := (hround y s).1 _ _ h1
          have := ih _ _ _ _ h
          omega
        · rename_i e h1
          subst h
          exact (hround y s).2 _ _ h1
  unfold Condition.interpret at h
  split at h
  · cases h
  · rename_i y r' hl
    have := hloop _ _ _ _ _ hl
    split at h
    · cases h
    · simp only at h
      split at h
      · cases h; exact this
      · cases h
      · cases h

mutual
theorem text_length (N : Numbers) (t : Tree) (s r : Bytes) (h : Text N t s r) : r.length < s.length := by
  cases t with
  | nil =>
    obtain ⟨g, _, rfl⟩ := h
    simp; omega
  | field f rest =>
    obtain ⟨g, w, u, _, rfl, _, _, h⟩ := h
    have := text_length N rest u r h
    simp; omega
  | rewind n rest =>
    obtain ⟨g, sp, ds, u, _, rfl, _, _, _, _, h⟩ := h
    have := text_length N rest u r h
    simp; omega
  | cond bs rest =>
    obtain ⟨g, u, v, _, rfl, h1, h⟩ := h
    have := text_length N rest v r h
    have := blocks_length N true bs u v h1
    simp; omega
theorem blocks_length (N : Numbers) (first : Bool) (bs : Branches) (s r : Bytes) (h : Blocks N first bs s r) : r.length ≤ s.length := by
  cases bs with
  | none => rw [h.2]; exact Nat.le_refl _
  | els t =>
    obtain ⟨_, sp, u, _, rfl, h⟩ := h
    have := text_length N t u r h
    simp; omega
  | arm c t more =>
    obtain ⟨sp, u, v, w, _, _, rfl, h1, h2, h3⟩ := h
    have := interpret_length h1
    have := text_length N t v w h2
    have := blocks_length N false more w r h3
    simp; omega
end

end Verif.ArrayDef
