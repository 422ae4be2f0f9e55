import Verif.AclFile.Model
import Verif.AclFile.Spec
import Verif.Topic.Props
import Verif.Discern.Lemmas
import Verif.ArrayDef.Fields
/-! # Lines, spaces and words -/
namespace Verif.AclFile
open Acl Topic AclFile.Spec

/-! ## Characters -/

theorem isNewline_iff (c : UInt8) : Parse.isNewline c = true ↔ c = 10 ∨ c = 13 := by
  unfold Parse.isNewline; simp [or_comm]

theorem isSpaceTab_iff (c : UInt8) : Parse.isSpaceTab c = true ↔ c = 32 ∨ c = 9 := by unfold Parse.isSpaceTab; simp

theorem isSpaces_iff (c : UInt8) : Parse.isSpaces c = true ↔ (c = 32 ∨ c = 9) ∨ (c = 10 ∨ c = 13) := by
  unfold Parse.isSpaces; rw [Bool.or_eq_true, isSpaceTab_iff, isNewline_iff]

theorem isUserChar_iff : ∀ c : UInt8, isUserChar c = true ↔ NameChar c := by
  intro c
  unfold isUserChar NameChar Parse.isLetter Parse.isDigit
  simp [or_assoc]

theorem other_iff (w : UInt8) (h : 65 ≤ w ∧ w ≤ 90) : ∀ c : UInt8, (w = c ∨ w = other c) ↔ SameLetter w c := by
  have key : ∀ w : UInt8, 65 ≤ w → w ≤ 90 → ∀ c : UInt8, (w = c ∨ w = other c) ↔ (w = c ∨ (65 ≤ w ∧ w ≤ 90 ∧ c = w + 32)) := all256 (by
    intro w hw1 hw2
    exact all256 (by revert w; decide +kernel))
  exact key w h.1 h.2

/-! ## Lines -/

theorem lines_ne (b : Bytes) : ∃ l ls, lines b = l :: ls := by
  cases b with
  | nil => exact ⟨_, _, rfl⟩
  | cons c t =>
    rw [lines]
    split
    · exact ⟨_, _, rfl⟩
    · split <;> exact ⟨_, _, rfl⟩

theorem lines_newline {c : UInt8} (h : c = 10 ∨ c = 13) (t : Bytes) : lines (c :: t) = [] :: lines t := by
  rw [lines, if_pos h]

theorem lines_char {c : UInt8} (h : ¬ (c = 10 ∨ c = 13)) {t l : Bytes} {ls : List Bytes} (ht : lines t = l :: ls) : lines (c :: t) = (c :: l) :: ls := by
  rw [lines, if_neg h, ht]

/-- Text without a line end before other text. -/
theorem lines_append {x : Bytes} (h : ∀ c ∈ x, ¬ (c = 10 ∨ c = 13)) {t l : Bytes} {ls : List Bytes} (ht : lines t = l :: ls) : lines (x ++ t) = (x ++ l) :: ls := by
  induction x with
  | nil => exact ht
  | cons c x ih => exact lines_char (h c (by simp)) (ih fun c hc => h c (by simp [hc]))

theorem lines_split (x : Bytes) : ∀ (b l : Bytes) (ls : List Bytes), lines b = (x ++ l) :: ls → ∃ r, b = x ++ r ∧ lines r = l :: ls := by
  induction x with
  | nil => intro b l ls h; exact ⟨b, rfl, h⟩
  | cons c x ih =>
    intro b l ls h
    cases b with
    | nil => simp [lines] at h
    | cons d t =>
      rw [lines] at h
      split at h
      · simp at h
      · obtain ⟨l', ls', ht⟩ := lines_ne t
        rw [ht] at h
        simp only [List.cons_append, List.cons.injEq] at h
        obtain ⟨⟨rfl, rfl⟩, rfl⟩ := h
        obtain ⟨r, rfl, hr⟩ := ih t l ls' ht
        exact ⟨r, rfl, hr⟩

/-- No line has a line end. -/
theorem line_chars : ∀ (b l : Bytes) (ls : List Bytes), lines b = l :: ls → ∀ c ∈ l, ¬ (c = 10 ∨ c = 13) := by
  intro b
  induction b with
  | nil => intro l ls h; simp [lines] at h; rw [h.1]; simp
  | cons d t ih =>
    intro l ls h
    by_cases hd : d = 10 ∨ d = 13
    · rw [lines_newline hd] at h; cases h; simp
    · obtain ⟨l', ls', ht⟩ := lines_ne t
      rw [lines_char hd ht] at h
      cases h
      intro c hc
      rcases List.mem_cons.mp hc with rfl | hc
      · exact hd
      · exact ih _ _ ht c hc

/-! ## Words -/

/-- A word of capital letters. -/
def Caps (w : Bytes) : Prop := ∀ c ∈ w, 65 ≤ c ∧ c ≤ 90

theorem matchCase_iff {w : Bytes} (hw : Caps w) (b r : Bytes) : matchCase w b = some r ↔ ∃ x, b = x ++ r ∧ Word w x := by
  induction w generalizing b with
  | nil =>
    constructor
    · intro h; cases h; exact ⟨[], rfl, trivial⟩
    · rintro ⟨x, rfl, hx⟩
      cases x with
      | nil => rfl
      | cons _ _ => exact absurd hx (by simp [Word])
  | cons a w ih =>
    cases b with
    | nil =>
      constructor
      · intro h; cases h
      · rintro ⟨x, hx, hw'⟩
        cases x with
        | nil => exact absurd hw' (by simp [Word])
        | cons _ _ => simp at hx
    | cons c b =>
      have ha := hw a (by simp)
      rw [matchCase]
      have hs := other_iff a ha c
      by_cases hsl : SameLetter a c
      · have : ¬ (a ≠ c ∧ a ≠ other c) := by
          intro hh
          rcases hs.mpr hsl with h | h
          · exact hh.1 h
          · exact hh.2 h
        rw [if_neg this, ih (fun c hc => hw c (by simp [hc]))]
        constructor
        · rintro ⟨x, rfl, hx⟩; exact ⟨c :: x, rfl, hsl, hx⟩
        · rintro ⟨x, hx, hw'⟩
          cases x with
          | nil => exact absurd hw' (by simp [Word])
          | cons d x =>
            simp only [List.cons_append, List.cons.injEq] at hx
            exact ⟨x, hx.2, hw'.2⟩
      · have : a ≠ c ∧ a ≠ other c := ⟨fun h => hsl (hs.mp (Or.inl h)), fun h => hsl (hs.mp (Or.inr h))⟩
        rw [if_pos this]
        constructor
        · intro h; cases h
        · rintro ⟨x, hx, hw'⟩
          cases x with
          | nil => exact absurd hw' (by simp [Word])
          | cons d x =>
            simp only [List.cons_append, List.cons.injEq] at hx
            rw [hx.1] at hsl
            exact absurd hw'.1 hsl

/-- A letter. -/
def Letter (c : UInt8) : Prop := (65 ≤ c ∧ c ≤ 90) ∨ (97 ≤ c ∧ c ≤ 122)

theorem sameLetter_letter (a : UInt8) (ha : 65 ≤ a ∧ a ≤ 90) (c : UInt8) (h : SameLetter a c) : Letter c := by
  rcases h with rfl | ⟨_, _, rfl⟩
  · exact Or.inl ha
  · refine Or.inr ?_
    have : ∀ a : UInt8, 65 ≤ a ∧ a ≤ 90 → 97 ≤ a + 32 ∧ a + 32 ≤ 122 := all256 (by decide +kernel)
    exact this a ha

theorem word_letters {w : Bytes} (hw : Caps w) : ∀ {x : Bytes}, Word w x → ∀ c ∈ x, Letter c := by
  induction w with
  | nil => intro x h; cases x with
    | nil => simp
    | cons _ _ => exact absurd h (by simp [Word])
  | cons a w ih =>
    intro x h
    cases x with
    | nil => simp
    | cons d x =>
      intro c hc
      rcases List.mem_cons.mp hc with rfl | hc
      · exact sameLetter_letter a (hw a (by simp)) _ h.1
      · exact ih (fun c hc => hw c (by simp [hc])) h.2 c hc

theorem letter_not_space : ∀ c : UInt8, Letter c → ¬ Parse.isSpaces c = true ∧ c ≠ 35 := all256 (by unfold Letter; decide +kernel)
theorem letter_not_newline (c : UInt8) (h : Letter c) : ¬ (c = 10 ∨ c = 13) := fun hn => (letter_not_space c h).1 ((isSpaces_iff c).mpr (Or.inr hn))
theorem letter_not_blank (c : UInt8) (h : Letter c) : ¬ (c = 32 ∨ c = 9) := fun hn => (letter_not_space c h).1 ((isSpaces_iff c).mpr (Or.inl hn))
theorem nameChar_not_space : ∀ c : UInt8, NameChar c → ¬ Parse.isSpaces c = true ∧ c ≠ 0 := all256 (by unfold NameChar; decide +kernel)

theorem blank_not_newline {b : Bytes} (h : Blank b) : ∀ c ∈ b, ¬ (c = 10 ∨ c = 13) := by
  intro c hc hn
  rcases h c hc with rfl | rfl <;> rcases hn with h | h <;> cases h

theorem caps_topic : Caps sTopic := by intro c hc; simp [sTopic] at hc; rcases hc with rfl | rfl | rfl | rfl | rfl <;> decide
theorem caps_default : Caps sDefault := by intro c hc; simp [sDefault] at hc; rcases hc with rfl | rfl | rfl | rfl | rfl | rfl | rfl <;> decide
theorem caps_user : Caps sUser := by intro c hc; simp [sUser] at hc; rcases hc with rfl | rfl | rfl | rfl <;> decide
theorem caps_action (a : Action) : Caps (actionName a) := by
  cases a <;> (intro c hc; simp [actionName] at hc; (first | (rcases hc with rfl | rfl | rfl | rfl | rfl <;> decide) | (rcases hc with rfl | rfl | rfl | rfl <;> decide)))

/-- Words are not empty; the first character is the first letter. -/
theorem word_cons {a : UInt8} {w x : Bytes} (h : Word (a :: w) x) : ∃ c t, x = c :: t ∧ SameLetter a c := by
  cases x with
  | nil => exact absurd h (by simp [Word])
  | cons c t => exact ⟨c, t, rfl, h.1⟩

/-- Two words with different first letters cannot be at the same place. -/
theorem word_first {a a' : UInt8} {w w' x x' r r' : Bytes} (ha : 65 ≤ a ∧ a ≤ 90) (ha' : 65 ≤ a' ∧ a' ≤ 90) (h : Word (a :: w) x) (h' : Word (a' :: w') x') (he : x ++ r = x' ++ r') : a = a' := by
  obtain ⟨c, t, rfl, hc⟩ := word_cons h
  obtain ⟨c', t', rfl, hc'⟩ := word_cons h'
  simp only [List.cons_append, List.cons.injEq] at he
  obtain ⟨rfl, _⟩ := he
  have key : ∀ a : UInt8, 65 ≤ a ∧ a ≤ 90 → ∀ a' : UInt8, 65 ≤ a' ∧ a' ≤ 90 → ¬ (a = a' + 32) ∧ (a + 32 = a' + 32 → a = a') := all256 (by
    intro a ha; exact all256 (by revert a; decide +kernel))
  rcases hc with rfl | ⟨_, _, rfl⟩ <;> rcases hc' with h | ⟨_, _, h⟩
  · exact h.symm
  · exact absurd h (key _ ha _ ha').1
  · exact absurd h (key _ ha' _ ha).1
  · exact (key _ ha _ ha').2 h

theorem word_length {w x : Bytes} (h : Word w x) : x.length = w.length := by
  induction w generalizing x with
  | nil => cases x with
    | nil => rfl
    | cons _ _ => exact absurd h (by simp [Word])
  | cons a w ih => cases x with
    | nil => exact absurd h (by simp [Word])
    | cons c x => simp [ih h.2]

end Verif.AclFile
