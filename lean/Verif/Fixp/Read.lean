import Verif.Fixp.Lemmas
/-!
# C131: texts of fixed point numbers
-/
namespace Verif.Fixp
open Verif Spec

/-! ## Where a number ends -/

/-- No digit and no dot follows. -/
def Stops (hex : Bool) (rest : Bytes) : Prop := ∀ c r, rest = c :: r → ¬ Digit hex c ∧ c ≠ 46

theorem not_digit {hex : Bool} {c : UInt8} (h : ¬ isDigit hex c = true) : ¬ Digit hex c := fun hd => h ((digit_isDigit hex c).2 hd)

theorem dot_not_digit (hex : Bool) : isDigit hex 46 = false := by cases hex <;> decide

theorem scan_some_iff (hex : Bool) (b : Bytes) : ∀ (int f int' : Bytes) (frac : Option Bytes) (rest : Bytes),
    scan hex int b (some f) = some (int', frac, rest) ↔
      int' = int ∧ Stops hex rest ∧ ∃ ds, (∀ c ∈ ds, Digit hex c) ∧ frac = some (f ++ ds) ∧ b = ds ++ rest := by
  induction b with
  | nil =>
    intro int f int' frac rest
    simp only [scan, Option.some.injEq, Prod.mk.injEq]
    constructor
    · rintro ⟨rfl, rfl, rfl⟩
      exact ⟨rfl, (by intro c r h; cases h), [], by simp, by simp, rfl⟩
    · rintro ⟨rfl, _, ds, _, rfl, hb⟩
      obtain ⟨rfl, rfl⟩ := List.append_eq_nil_iff.1 hb.symm
      simp
  | cons c t ih =>
    intro int f int' frac rest
    by_cases hd : isDigit hex c = true
    · simp only [scan, hd, if_true]
      rw [ih]
      constructor
      · rintro ⟨rfl, hs, ds, hds, rfl, rfl⟩
        refine ⟨rfl, hs, c :: ds, ?_, by simp, rfl⟩
        intro x hx
        rcases List.mem_cons.1 hx with rfl | hx
        · exact (digit_isDigit hex _).1 hd
        · exact hds x hx
      · rintro ⟨rfl, hs, ds, hds, rfl, hb⟩
        cases ds with
        | nil =>
          rw [List.nil_append] at hb
          exact absurd ((digit_isDigit hex c).1 hd) (hs c t hb.symm).1
        | cons d ds =>
          cases hb
          exact ⟨rfl, hs, ds, fun x hx => hds x (List.mem_cons_of_mem _ hx), by simp, rfl⟩
    · simp only [scan, hd, Bool.false_eq_true, if_false]
      by_cases h46 : c = 46
      · rw [if_pos h46]
        refine ⟨fun h => (by cases h), ?_⟩
        rintro ⟨_, hs, ds, hds, _, hb⟩
        cases ds with
        | nil => exact absurd h46 (hs c t hb.symm).2
        | cons d ds =>
          cases hb
          exact absurd (hds c (by simp)) (not_digit hd)
      · rw [if_neg h46]
        simp only [Option.some.injEq, Prod.mk.injEq]
        constructor
        · rintro ⟨rfl, rfl, rfl⟩
          refine ⟨rfl, ?_, [], by simp, by simp, rfl⟩
          intro x r h
          cases h
          exact ⟨not_digit hd, h46⟩
        · rintro ⟨rfl, hs, ds, hds, rfl, hb⟩
          cases ds with
          | nil => exact ⟨rfl, by simp, hb⟩
          | cons d ds =>
            cases hb
            exact absurd (hds c (by simp)) (not_digit hd)

theorem scan_iff (hex : Bool) (b : Bytes) : ∀ (int int' : Bytes) (frac : Option Bytes) (rest : Bytes),
    scan hex int b none = some (int', frac, rest) ↔ Stops hex rest ∧ (frac ≠ none → int' ≠ []) ∧
      (∀ f, frac = some f → ∀ c ∈ f, Digit hex c) ∧
      ∃ ds, (∀ c ∈ ds, Digit hex c) ∧ int' = int ++ ds ∧ b = ds ++ (pointed frac ++ rest) := by
  induction b with
  | nil =>
    intro int int' frac rest
    simp only [scan, Option.some.injEq, Prod.mk.injEq]
    constructor
    · rintro ⟨rfl, rfl, rfl⟩
      exact ⟨(by intro c r h; cases h), by simp, by simp, [], by simp, by simp, rfl⟩
    · rintro ⟨_, _, _, ds, _, rfl, hb⟩
      obtain ⟨rfl, hb'⟩ := List.append_eq_nil_iff.1 hb.symm
      obtain ⟨hp, rfl⟩ := List.append_eq_nil_iff.1 hb'
      cases frac with
      | none => simp
      | some f => cases hp
  | cons c t ih =>
    intro int int' frac rest
    by_cases hd : isDigit hex c = true
    · simp only [scan, hd, if_true]
      rw [ih]
      constructor
      · rintro ⟨hs, h1, h2, ds, hds, rfl, rfl⟩
        refine ⟨hs, h1, h2, c :: ds, ?_, by simp, rfl⟩
        intro x hx
        rcases List.mem_cons.1 hx with rfl | hx
        · exact (digit_isDigit hex _).1 hd
        · exact hds x hx
      · rintro ⟨hs, h1, h2, ds, hds, rfl, hb⟩
        cases ds with
        | nil =>
          rw [List.nil_append] at hb
          cases frac with
          | none => exact absurd ((digit_isDigit hex c).1 hd) (hs c t hb.symm).1
          | some f =>
            cases hb
            rw [dot_not_digit] at hd
            cases hd
        | cons d ds =>
          cases hb
          exact ⟨hs, h1, h2, ds, fun x hx => hds x (List.mem_cons_of_mem _ hx), by simp, rfl⟩
    · simp only [scan, hd, Bool.false_eq_true, if_false]
      by_cases h46 : c = 46
      · rw [if_pos h46]
        subst h46
        by_cases hi : int = []
        · rw [if_pos hi]
          refine ⟨fun h => (by cases h), ?_⟩
          rintro ⟨hs, h1, _, ds, hds, he, hb⟩
          cases ds with
          | nil =>
            cases frac with
            | none => exact absurd rfl (hs 46 t hb.symm).2
            | some f => exact absurd (by rw [he, hi]; rfl) (h1 (by simp))
          | cons d ds =>
            cases hb
            exact absurd (hds _ (by simp)) (not_digit hd)
        · rw [if_neg hi, scan_some_iff]
          constructor
          · rintro ⟨rfl, hs, ds, hds, rfl, rfl⟩
            refine ⟨hs, fun _ => hi, ?_, [], by simp, by simp, by simp [pointed]⟩
            rintro f hf
            cases hf
            simpa using hds
          · rintro ⟨hs, h1, h2, ds, hds, rfl, hb⟩
            cases ds with
            | nil =>
              cases frac with
              | none => exact absurd rfl (hs 46 t hb.symm).2
              | some f =>
                cases hb
                exact ⟨by simp, hs, f, h2 f rfl, by simp, rfl⟩
            | cons d ds =>
              cases hb
              exact absurd (hds _ (by simp)) (not_digit hd)
      · rw [if_neg h46]
        simp only [Option.some.injEq, Prod.mk.injEq]
        constructor
        · rintro ⟨rfl, rfl, rfl⟩
          refine ⟨?_, by simp, by simp, [], by simp, by simp, rfl⟩
          intro x r h
          cases h
          exact ⟨not_digit hd, h46⟩
        · rintro ⟨hs, h1, h2, ds, hds, rfl, hb⟩
          cases ds with
          | nil =>
            cases frac with
            | none => exact ⟨by simp, rfl, hb⟩
            | some f =>
              cases hb
              exact absurd rfl h46
          | cons d ds =>
            cases hb
            exact absurd (hds c (by simp)) (not_digit hd)

theorem numberOf_iff (hex neg : Bool) (b : Bytes) (p : Parts) : numberOf hex neg b = .ok p ↔
    p.hex = hex ∧ p.neg = neg ∧ b = p.int ++ (pointed p.frac ++ p.rest) ∧ p.int ≠ [] ∧ (∀ c ∈ p.int, Digit hex c) ∧
    (∀ f, p.frac = some f → ∀ c ∈ f, Digit hex c) ∧ Stops hex p.rest := by
  obtain ⟨phex, pneg, int, frac, rest⟩ := p
  unfold numberOf
  by_cases hb : b = []
  · rw [if_pos hb]
    refine ⟨fun h => (by cases h), ?_⟩
    rintro ⟨_, _, h, hi, _⟩
    rw [hb] at h
    exact absurd (List.append_eq_nil_iff.1 h.symm).1 hi
  · rw [if_neg hb]
    cases hs : scan hex [] b none with
    | none =>
      refine ⟨fun h => (by cases h), ?_⟩
      rintro ⟨_, _, h, hi, h1, h2, h3⟩
      have := (scan_iff hex b [] int frac rest).2 ⟨h3, fun _ => hi, h2, int, h1, by simp, h⟩
      rw [hs] at this
      cases this
    | some r =>
      obtain ⟨i', f', r'⟩ := r
      simp only
      have hh := (scan_iff hex b [] i' f' r').1 hs
      obtain ⟨h3, _, h2, ds, h1, he, h⟩ := hh
      rw [List.nil_append] at he
      subst he
      by_cases hi : i' = []
      · rw [if_pos hi]
        refine ⟨fun h => (by cases h), ?_⟩
        rintro ⟨_, _, h, hi', h1, h2, h3⟩
        have := (scan_iff hex b [] int frac rest).2 ⟨h3, fun _ => hi', h2, int, h1, by simp, h⟩
        rw [hs] at this
        cases this
        exact absurd hi hi'
      · rw [if_neg hi]
        constructor
        · intro hp
          cases hp
          exact ⟨rfl, rfl, h, hi, h1, h2, h3⟩
        · rintro ⟨rfl, rfl, h, hi', h1, h2, h3⟩
          have := (scan_iff phex b [] int frac rest).2 ⟨h3, fun _ => hi', h2, int, h1, by simp, h⟩
          rw [hs] at this
          cases this
          rfl

theorem digit_not_sign (hex : Bool) (c : UInt8) (h : Digit hex c) : c ≠ 45 ∧ c ≠ 43 := by
  have h' : ∀ c : UInt8, isDigit true c = true → c ≠ 45 ∧ c ≠ 43 := all256 (by decide +kernel)
  exact h' c ((digit_isDigit true c).2 (digit_hex hex c h))

theorem prefixOf_base (t : Bytes) (hex : Bool) (told u : Bytes) (hu : u ≠ []) (h : t = told ++ u) (hb : BaseTold t hex told) :
    prefixOf t = (hex, u) := by
  have hl : 0 < u.length := List.length_pos_iff.2 hu
  rcases hb with ⟨rfl, rfl⟩ | ⟨rfl, rfl⟩ | ⟨rfl, rfl, hn⟩
  · subst h
    have h1 : 3 < u.length + 3 := by omega
    simp [prefixOf, h1]
  · subst h
    have h1 : 3 < u.length + 3 := by omega
    simp [prefixOf, h1]
  · rw [List.nil_append] at h
    subst h
    unfold Prefixed at hn
    unfold prefixOf
    rw [if_neg (fun hh => hn ⟨hh.1, .inl hh.2⟩), if_neg (fun hh => hn ⟨hh.1, .inr hh.2⟩)]

theorem prefixOf_told (t : Bytes) : ∃ told, t = told ++ (prefixOf t).2 ∧ BaseTold t (prefixOf t).1 told := by
  unfold prefixOf
  by_cases h1 : t.length > 3 ∧ t.take 3 = [49, 54, 35]
  · rw [if_pos h1]
    exact ⟨[49, 54, 35], by rw [← h1.2]; exact (List.take_append_drop 3 t).symm, .inl ⟨rfl, rfl⟩⟩
  · rw [if_neg h1]
    by_cases h2 : t.length > 3 ∧ t.take 3 = [49, 48, 35]
    · rw [if_pos h2]
      exact ⟨[49, 48, 35], by rw [← h2.2]; exact (List.take_append_drop 3 t).symm, .inr (.inl ⟨rfl, rfl⟩)⟩
    · rw [if_neg h2]
      refine ⟨[], rfl, .inr (.inr ⟨rfl, rfl, ?_⟩)⟩
      rintro ⟨hl, h | h⟩
      · exact h1 ⟨hl, h⟩
      · exact h2 ⟨hl, h⟩

/-- **C131**. A text is read as a number exactly when it begins with one, and it is known which part of the text the number is: base, sign, digits before
and after the dot, and the rest. -/
theorem parts_iff (t : Bytes) (p : Parts) : preliminary t = .ok p ↔ Written t p.hex p.neg p.int p.frac p.rest := by
  unfold preliminary
  constructor
  · intro h
    by_cases h0 : t = []
    · rw [if_pos h0] at h; cases h
    rw [if_neg h0] at h
    by_cases h1 : (prefixOf t).2 = []
    · rw [if_pos h1] at h; cases h
    rw [if_neg h1] at h
    obtain ⟨e1, e2, e3, e4, e5, e6, e7⟩ := (numberOf_iff ..).1 h
    obtain ⟨told, ht, hb⟩ := prefixOf_told t
    generalize hq : (prefixOf t).2 = u at *
    generalize hr : (prefixOf t).1 = x at *
    subst e1
    cases u with
    | nil => exact absurd rfl h1
    | cons c u =>
      by_cases hm : c = 45
      · subst hm
        rw [show signOf (45 :: u) = (true, u) from rfl] at e2 e3
        exact ⟨told, [45], by rw [ht, show u = _ from e3]; rfl, hb, .inl ⟨e2, rfl⟩, e4, e5, e6, e7⟩
      · by_cases hpl : c = 43
        · subst hpl
          rw [show signOf (43 :: u) = (false, u) from rfl] at e2 e3
          exact ⟨told, [43], by rw [ht, show u = _ from e3]; rfl, hb, .inr ⟨e2, .inl rfl⟩, e4, e5, e6, e7⟩
        · rw [show signOf (c :: u) = (false, c :: u) by simp [signOf, hm, hpl]] at e2 e3
          exact ⟨told, [], by rw [ht, show c :: u = _ from e3]; rfl, hb, .inr ⟨e2, .inr rfl⟩, e4, e5, e6, e7⟩
  · rintro ⟨b, s, ht, hb, hs, e4, e5, e6, e7⟩
    have hne : s ++ (p.int ++ (pointed p.frac ++ p.rest)) ≠ [] := by
      intro h
      exact e4 (List.append_eq_nil_iff.1 (List.append_eq_nil_iff.1 h).2).1
    have h0 : t ≠ [] := by
      rintro rfl
      exact hne (List.append_eq_nil_iff.1 ht.symm).2
    rw [if_neg h0, prefixOf_base t p.hex b _ hne ht hb]
    simp only
    rw [if_neg hne, numberOf_iff]
    have hsg : signOf (s ++ (p.int ++ (pointed p.frac ++ p.rest))) = (p.neg, p.int ++ (pointed p.frac ++ p.rest)) := by
      rcases hs with ⟨hn, rfl⟩ | ⟨hn, rfl | rfl⟩
      · rw [hn]; rfl
      · rw [hn]; rfl
      · rw [hn, List.nil_append]
        cases hi : p.int with
        | nil => exact absurd hi e4
        | cons c i =>
          have := digit_not_sign p.hex c (e5 c (by rw [hi]; simp))
          simp [signOf, this.1, this.2]
    rw [hsg]
    exact ⟨rfl, rfl, rfl, e4, e5, e6, e7⟩

/-! ## Values -/

theorem integer_value {rnd : Rat → Rat} (h : Rounding rnd) (hex : Bool) (l : Bytes) (hd : ∀ c ∈ l, Digit hex c) (hl : l.length ≤ 15) :
    integer rnd hex l.reverse 1 0 = some (UInt64.ofNat (value hex l)) := by
  have := integer_eq h hex l.reverse 0 0 (fun c hc => hd c (by simpa using hc)) (by simpa using hl)
  simp only [Nat.pow_zero, Nat.cast_one, Nat.one_mul, valueRev_reverse] at this
  rw [this]
  simp

theorem value_small (hex : Bool) (l : Bytes) (hd : ∀ c ∈ l, Digit hex c) (hl : l.length ≤ 15) : (UInt64.ofNat (value hex l)).toNat = value hex l := by
  rw [UInt64.toNat_ofNat']
  have h1 := value_lt hex l hd
  have h2 := pow_base_le hex l.length hl
  exact Nat.mod_eq_of_lt (by omega)

/-- The units of the part after the dot. -/
def units (rnd : Rat → Rat) (hex : Bool) : Option Bytes → Nat
  | none => 0
  | some f => bits rnd (fraction rnd hex f 0 1) 24 0 0

theorem whole (n : Nat) : ((n * 2 ^ 24 : Nat) : Rat) / 2 ^ 24 = n := by
  rw [div_eq_iff (by positivity)]; push_cast; rfl

/-- Both parts of a number with at most 15 digits before the dot. -/
theorem ofText_parts {rnd : Rat → Rat} (h : Rounding rnd) (t : Bytes) (hex neg : Bool) (int : Bytes) (frac : Option Bytes) (rest : Bytes)
    (hw : Written t hex neg int frac rest) (hl : int.length ≤ 15)
    (hf : ∀ f, frac = some f → 0 ≤ fraction rnd hex f 0 1) : ∃ x, ofText rnd t = .ok (x, rest) ∧
    signed x = (if neg then -1 else 1) * ((value hex int % 2 ^ 39 * 2 ^ 24 + units rnd hex frac : Nat) : Int) := by
  have hp := (parts_iff t ⟨hex, neg, int, frac, rest⟩).2 hw
  obtain ⟨_, _, _, _, _, _, hd, _, _⟩ := hw
  have hi := integer_value h hex int hd hl
  unfold ofText
  rw [hp]
  simp only [hi]
  refine ⟨_, rfl, ?_⟩
  rw [compose_signed, value_small hex int hd hl]
  · cases frac with
    | none => rfl
    | some f =>
      have hb := (bits_eq h _ (hf f rfl)).1
      have hm : (UInt64.ofNat (bits rnd (fraction rnd hex f 0 1) 24 0 0)).toNat = bits rnd (fraction rnd hex f 0 1) 24 0 0 := by
        rw [UInt64.toNat_ofNat']; exact Nat.mod_eq_of_lt (by omega)
      simp only [hm, units]
  · cases frac with
    | none => show (0 : UInt64).toNat < 2 ^ 24; decide
    | some f =>
      have hb := (bits_eq h _ (hf f rfl)).1
      simp only [UInt64.toNat_ofNat']
      rw [Nat.mod_eq_of_lt (by omega)]
      exact hb

theorem hex_fraction {rnd : Rat → Rat} (h : Rounding rnd) (f : Bytes) (hd : ∀ c ∈ f, Digit true c) (hl : f.length ≤ 15) :
    fraction rnd true f 0 1 = part true (some f) := by
  have := fraction_hex h f 0 0 hd (by omega) (by simp)
  simp only [Nat.cast_zero, pow_zero, zero_div, Nat.zero_mul, Nat.zero_add] at this
  rw [this]
  simp [part]

theorem part_range (hex : Bool) (f : Bytes) (hd : ∀ c ∈ f, Digit hex c) : 0 ≤ part hex (some f) ∧ part hex (some f) < 1 := by
  have h1 := value_lt hex f hd
  have h2 : (0 : Rat) < ((if hex then 16 else 10 : Nat) : Rat) ^ f.length := by
    have : 0 < (if hex then 16 else 10 : Nat) := by cases hex <;> decide
    positivity
  unfold part
  refine ⟨by positivity, ?_⟩
  rw [div_lt_one h2]
  have : ((value hex f : Nat) : Rat) < ((base hex ^ f.length : Nat) : Rat) := by exact_mod_cast h1
  rw [Nat.cast_pow] at this
  exact this

/-- **C131**. A number in base 16 with at most 15 digits before and 15 digits after the dot, which is not too large, is read as the units which it holds. With at most six
digits after the dot nothing is cut off. -/
theorem hex_exact {rnd : Rat → Rat} (h : Rounding rnd) (t : Bytes) (neg : Bool) (int : Bytes) (frac : Option Bytes) (rest : Bytes)
    (hw : Written t true neg int frac rest) (hl : int.length ≤ 15) (hf : ∀ f, frac = some f → f.length ≤ 15) (hv : value true int < 2 ^ 39) :
    ∃ (x : UInt64) (n : Nat), ofText rnd t = .ok (x, rest) ∧ signed x = (if neg then -1 else 1) * (n : Int) ∧
      (n : Rat) / 2 ^ 24 ≤ value true int + part true frac ∧ value true int + part true frac < ((n : Rat) + 1) / 2 ^ 24 ∧
      ((∀ f, frac = some f → f.length ≤ 6) → (n : Rat) / 2 ^ 24 = value true int + part true frac) := by
  have hdf : ∀ f, frac = some f → ∀ c ∈ f, Digit true c := by
    obtain ⟨_, _, _, _, _, _, _, h, _⟩ := hw
    exact h
  have h0 : ∀ f, frac = some f → 0 ≤ fraction rnd true f 0 1 := by
    intro f he
    rw [hex_fraction h f (hdf f he) (hf f he)]
    exact (part_range true f (hdf f he)).1
  obtain ⟨x, h1, h2⟩ := ofText_parts h t true neg int frac rest hw hl h0
  rw [Nat.mod_eq_of_lt hv] at h2
  cases frac with
  | none =>
    refine ⟨x, value true int * 2 ^ 24, h1, by simpa [units] using h2, ?_, ?_, ?_⟩
    · rw [whole]; simp [part]
    · rw [add_div, whole]
      simp only [part]
      linarith [show (0 : Rat) < 1 / 2 ^ 24 by positivity]
    · intro _
      rw [whole]; simp [part]
  | some f =>
    simp only [units] at h2
    rw [hex_fraction h f (hdf f rfl) (hf f rfl)] at h2
    obtain ⟨p0, p1⟩ := part_range true f (hdf f rfl)
    obtain ⟨b1, b2, b3⟩ := bits_eq h (part true (some f)) p0
    generalize bits rnd (part true (some f)) 24 0 0 = n at *
    have b4 : part true (some f) * 2 ^ 24 < (n : Rat) + 1 := by
      rcases b3 with b3 | b3
      · exact b3
      · rw [b3]; push_cast; norm_num; linarith
    refine ⟨x, value true int * 2 ^ 24 + n, h1, h2, ?_, ?_, ?_⟩
    · push_cast
      rw [div_le_iff₀ (by positivity)]
      linarith
    · push_cast
      rw [lt_div_iff₀ (by positivity)]
      linarith
    · intro h6
      have h6 := h6 f rfl
      -- the part is a whole number of units
      have hm : part true (some f) * 2 ^ 24 = ((value true f * 16 ^ (6 - f.length) : Nat) : Rat) := by
        unfold part
        have : (2 : Rat) ^ 24 = 16 ^ (6 - f.length) * 16 ^ f.length := by
          rw [← pow_add, show 6 - f.length + f.length = 6 by omega]; norm_num
        rw [this]
        push_cast
        simp only [if_true]
        field_simp
      rw [hm] at b2 b4
      have e1 : n ≤ value true f * 16 ^ (6 - f.length) := by exact_mod_cast b2
      have e2 : value true f * 16 ^ (6 - f.length) < n + 1 := by exact_mod_cast b4
      have e3 : n = value true f * 16 ^ (6 - f.length) := by omega
      rw [← e3] at hm
      rw [div_eq_iff (by positivity)]
      push_cast
      linarith

/-- **C131**. A number in base 10 with at most 15 digits before and 27 digits after the dot, which is not too large, is read as a number which is less than one unit
and a rounding error away. -/
theorem decimal_near {rnd : Rat → Rat} (h : Rounding rnd) (t : Bytes) (neg : Bool) (int : Bytes) (frac : Option Bytes) (rest : Bytes)
    (hw : Written t false neg int frac rest) (hl : int.length ≤ 15) (hf : ∀ f, frac = some f → f.length ≤ 27) (hv : value false int < 2 ^ 39) :
    ∃ (x : UInt64) (n : Nat), ofText rnd t = .ok (x, rest) ∧ signed x = (if neg then -1 else 1) * (n : Int) ∧
      |(n : Rat) / 2 ^ 24 - (value false int + part false frac)| < 1 / 2 ^ 24 + 1 / 2 ^ 56 ∧
      (frac = none → n = value false int * 2 ^ 24) := by
  have hdf : ∀ f, frac = some f → ∀ c ∈ f, Digit false c := by
    obtain ⟨_, _, _, _, _, _, _, h, _⟩ := hw
    exact h
  have hfr : ∀ f, frac = some f → 0 ≤ fraction rnd false f 0 1 ∧ |fraction rnd false f 0 1 - part false (some f)| ≤ 81 / 2 ^ 63 := by
    intro f he
    have := fraction_dec h f 0 0 0 (hdf f he) (by have := hf f he; omega) (by simp) (le_refl _) (by simp)
    simp only [pow_zero, Nat.zero_mul, Nat.zero_add] at this
    refine ⟨this.1, le_trans ?_ (show 3 * (f.length : Rat) / 2 ^ 63 ≤ 81 / 2 ^ 63 from ?_)⟩
    · exact this.2
    · have : (f.length : Rat) ≤ 27 := by exact_mod_cast hf f he
      rw [div_le_div_iff_of_pos_right (by positivity)]
      linarith
  obtain ⟨x, h1, h2⟩ := ofText_parts h t false neg int frac rest hw hl fun f he => (hfr f he).1
  rw [Nat.mod_eq_of_lt hv] at h2
  cases frac with
  | none =>
    refine ⟨x, value false int * 2 ^ 24, h1, by simpa [units] using h2, ?_, fun _ => rfl⟩
    rw [whole]
    simp only [part, add_zero, sub_self, abs_zero]
    positivity
  | some f =>
    simp only [units] at h2
    obtain ⟨f0, f1⟩ := hfr f rfl
    obtain ⟨p0, p1⟩ := part_range false f (hdf f rfl)
    generalize fraction rnd false f 0 1 = g at *
    obtain ⟨b1, b2, b3⟩ := bits_eq h g f0
    generalize bits rnd g 24 0 0 = n at *
    refine ⟨x, value false int * 2 ^ 24 + n, h1, h2, ?_, by simp⟩
    obtain ⟨g1, g2⟩ := abs_le.1 f1
    have he : (81 : Rat) / 2 ^ 63 < 1 / 2 ^ 56 := by norm_num
    generalize part false (some f) = q at *
    have hn : ((value false int * 2 ^ 24 + n : Nat) : Rat) / 2 ^ 24 - (value false int + q) = (n : Rat) / 2 ^ 24 - q := by
      push_cast; field_simp; ring
    rw [hn, abs_lt]
    have b2' : (n : Rat) / 2 ^ 24 ≤ g := by rw [div_le_iff₀ (by positivity)]; exact b2
    constructor
    · rcases b3 with b3 | b3
      · have : g < (n : Rat) / 2 ^ 24 + 1 / 2 ^ 24 := by
          rw [← add_div, lt_div_iff₀ (by positivity)]; exact b3
        linarith
      · have : (n : Rat) / 2 ^ 24 = 1 - 1 / 2 ^ 24 := by rw [b3]; push_cast; norm_num
        rw [this]
        have : (0 : Rat) < 1 / 2 ^ 56 := by positivity
        linarith
    · have : (0 : Rat) < 1 / 2 ^ 24 := by positivity
      linarith

/-- Exact arithmetic is a rounding. -/
theorem rounding_id : Rounding id where
  large _ _ _ _ := rfl
  small _ _ _ _ := rfl
  above _ _ _ := by simp only [id]; linarith [show (0 : Rat) < 1 / 2 ^ 63 by positivity]
  below _ _ _ := by simp only [id]; linarith [show (0 : Rat) < 1 / 2 ^ 63 by positivity]
  mono _ _ h := h

/-- `-1.25,` -/
example : Written [45, 49, 46, 50, 53, 44] false true [49] (some [50, 53]) [44] :=
  ⟨[], [45], rfl, .inr (.inr ⟨rfl, rfl, by unfold Prefixed; decide⟩), .inl ⟨rfl, rfl⟩, by simp, by unfold Digit; decide,
    by intro f hf; cases hf; unfold Digit; decide, by intro c r h; cases h; unfold Digit; decide⟩

/-- **C131**. Numbers which are too large are not refused: 549755813888, which is 2^39, is read as zero. -/
theorem large_zero {rnd : Rat → Rat} (h : Rounding rnd) :
    ofText rnd [53, 52, 57, 55, 53, 53, 56, 49, 51, 56, 56, 56] = .ok (0, []) := by
  have hw : Written [53, 52, 57, 55, 53, 53, 56, 49, 51, 56, 56, 56] false false [53, 52, 57, 55, 53, 53, 56, 49, 51, 56, 56, 56] none [] :=
    ⟨[], [], rfl, .inr (.inr ⟨rfl, rfl, by unfold Prefixed; decide⟩), .inr ⟨rfl, .inr rfl⟩, by simp, by unfold Digit; decide, by simp, by simp⟩
  obtain ⟨x, h1, h2⟩ := ofText_parts h _ false false _ none [] hw (by decide) (by simp)
  rw [h1]
  have : value false [53, 52, 57, 55, 53, 53, 56, 49, 51, 56, 56, 56] = 2 ^ 39 := by decide +kernel
  rw [this] at h2
  norm_num [units] at h2
  have hx : x = 0 := by
    unfold signed at h2
    have hlt := UInt64.toNat_lt x
    rw [← UInt64.toNat_inj]
    show x.toNat = 0
    split at h2 <;> omega
  rw [hx]

end Verif.Fixp
