import Verif.Fixp.Spec
import Verif.Bits
import Mathlib.Tactic.Linarith
import Mathlib.Tactic.Positivity
import Mathlib.Tactic.FieldSimp
import Mathlib.Tactic.NormNum
import Mathlib.Tactic.Ring
import Mathlib.Data.Rat.Floor
/-!
# The arithmetic of fixed point numbers
-/
namespace Verif.Fixp
open Verif Spec

theorem round_nat {rnd : Rat → Rat} (h : Rounding rnd) (n : Nat) (hn : n < 2 ^ 64) : rnd (n : Rat) = n := by
  have := h.large n 0 hn (by omega)
  simpa using this

theorem digit_isDigit (hex : Bool) (c : UInt8) : isDigit hex c = true ↔ Digit hex c := by
  have h : ∀ c : UInt8, ((isDigit true c = true ↔ Digit true c) ∧ (isDigit false c = true ↔ Digit false c)) :=
    all256 (by unfold Digit; decide +kernel)
  cases hex
  · exact (h c).2
  · exact (h c).1

theorem digit_worth (c : UInt8) (h : Digit true c) : digitValue c = worth c := by
  have h' : ∀ c : UInt8, isDigit true c = true → digitValue c = worth c := all256 (by decide +kernel)
  exact h' c ((digit_isDigit true c).2 h)

theorem digit_hex (hex : Bool) (c : UInt8) (h : Digit hex c) : Digit true c := by
  have h' : ∀ c : UInt8, isDigit false c = true → isDigit true c = true := all256 (by decide +kernel)
  cases hex
  · exact (digit_isDigit true c).1 (h' c ((digit_isDigit false c).2 h))
  · exact h

theorem worth_lt (hex : Bool) (c : UInt8) (h : Digit hex c) : worth c < base hex := by
  have h' : ∀ c : UInt8, (isDigit true c = true → worth c < 16) ∧ (isDigit false c = true → worth c < 10) := all256 (by decide +kernel)
  cases hex
  · exact (h' c).2 ((digit_isDigit false c).2 h)
  · exact (h' c).1 ((digit_isDigit true c).2 h)

/-! ## Bits of a fraction -/

theorem bits_spec {rnd : Rat → Rat} (h : Rounding rnd) (f : Rat) : ∀ n acc : Nat, acc + 2 ^ n ≤ 2 ^ 24 → (acc : Rat) ≤ f * 2 ^ 24 →
    acc ≤ bits rnd f n ((acc : Rat) / 2 ^ 24) acc ∧ bits rnd f n ((acc : Rat) / 2 ^ 24) acc < acc + 2 ^ n ∧
    ((bits rnd f n ((acc : Rat) / 2 ^ 24) acc : Nat) : Rat) ≤ f * 2 ^ 24 ∧
    (f * 2 ^ 24 < ((bits rnd f n ((acc : Rat) / 2 ^ 24) acc : Nat) : Rat) + 1 ∨ bits rnd f n ((acc : Rat) / 2 ^ 24) acc + 1 = acc + 2 ^ n) := by
  intro n
  induction n with
  | zero =>
    intro acc _ hf
    exact ⟨Nat.le_refl _, by simp [bits], hf, .inr (by simp [bits])⟩
  | succ n ih =>
    intro acc hacc hf
    have hp : 0 < 2 ^ n := Nat.pow_pos (by omega)
    have h2 : 2 ^ (n + 1) = 2 ^ n + 2 ^ n := by rw [Nat.pow_succ]; omega
    have hr : rnd ((acc : Rat) / 2 ^ 24 + (2 : Rat) ^ n / 2 ^ 24) = ((acc + 2 ^ n : Nat) : Rat) / 2 ^ 24 := by
      rw [← h.small (acc + 2 ^ n) 24 (by omega) (by omega)]
      congr 1
      push_cast
      ring
    simp only [bits, hr]
    by_cases h1 : ((acc + 2 ^ n : Nat) : Rat) / 2 ^ 24 < f
    · rw [if_pos h1]
      have h1' : ((acc + 2 ^ n : Nat) : Rat) < f * 2 ^ 24 := by
        rwa [div_lt_iff₀ (by positivity)] at h1
      obtain ⟨a, b, c, d⟩ := ih (acc + 2 ^ n) (by omega) h1'.le
      refine ⟨by omega, by omega, c, ?_⟩
      rcases d with d | d
      · exact .inl d
      · exact .inr (by omega)
    · rw [if_neg h1]
      by_cases h3 : ((acc + 2 ^ n : Nat) : Rat) / 2 ^ 24 = f
      · rw [if_pos h3]
        have h3' : f * 2 ^ 24 = ((acc + 2 ^ n : Nat) : Rat) := by rw [← h3]; field_simp
        exact ⟨by omega, by omega, by rw [h3'], .inl (by rw [h3']; linarith)⟩
      · rw [if_neg h3]
        have h4 : f * 2 ^ 24 < ((acc + 2 ^ n : Nat) : Rat) := by
          have : f < ((acc + 2 ^ n : Nat) : Rat) / 2 ^ 24 := lt_of_le_of_ne (not_lt.1 h1) (Ne.symm h3)
          rwa [lt_div_iff₀ (by positivity)] at this
        obtain ⟨a, b, c, d⟩ := ih acc (by omega) hf
        refine ⟨a, by omega, c, .inl ?_⟩
        rcases d with d | d
        · exact d
        · have : ((bits rnd f n ((acc : Rat) / 2 ^ 24) acc : Nat) : Rat) + 1 = ((acc + 2 ^ n : Nat) : Rat) := by
            rw [← d]; push_cast; ring
          rw [this]; exact h4

/-- The bits of a fraction are the units which it holds, or all of them. -/
theorem bits_eq {rnd : Rat → Rat} (h : Rounding rnd) (f : Rat) (h0 : 0 ≤ f) :
    bits rnd f 24 0 0 < 2 ^ 24 ∧ ((bits rnd f 24 0 0 : Nat) : Rat) ≤ f * 2 ^ 24 ∧
    (f * 2 ^ 24 < ((bits rnd f 24 0 0 : Nat) : Rat) + 1 ∨ bits rnd f 24 0 0 = 2 ^ 24 - 1) := by
  have := bits_spec h f 24 0 (by omega) (by simp; positivity)
  simp only [Nat.cast_zero, zero_div, Nat.zero_add] at this
  obtain ⟨_, b, c, d⟩ := this
  refine ⟨b, c, ?_⟩
  rcases d with d | d
  · exact .inl d
  · exact .inr (by omega)

/-! ## The integer part -/

/-- The number of digits from the last one. -/
def valueRev (hex : Bool) : Bytes → Nat
  | [] => 0
  | c :: t => worth c + base hex * valueRev hex t

theorem valueRev_append (hex : Bool) (a b : Bytes) : valueRev hex (a ++ b) = valueRev hex a + base hex ^ a.length * valueRev hex b := by
  induction a with
  | nil => simp [valueRev]
  | cons c a ih => simp only [List.cons_append, valueRev, ih, List.length_cons, Nat.pow_succ]; ring

theorem value_fold (hex : Bool) (l : Bytes) (n : Nat) :
    l.foldl (fun n c => n * (if hex then 16 else 10) + worth c) n = n * base hex ^ l.length + value hex l := by
  unfold value
  induction l generalizing n with
  | nil => simp
  | cons c l ih =>
    rw [List.foldl_cons, List.foldl_cons, ih, ih (0 * _ + worth c)]
    simp only [List.length_cons, Nat.pow_succ, base]
    ring

theorem value_cons (hex : Bool) (c : UInt8) (l : Bytes) : value hex (c :: l) = worth c * base hex ^ l.length + value hex l := by
  show List.foldl _ (0 * _ + worth c) l = _
  rw [value_fold]; simp

theorem valueRev_reverse (hex : Bool) (l : Bytes) : valueRev hex l.reverse = value hex l := by
  induction l with
  | nil => rfl
  | cons c l ih =>
    rw [List.reverse_cons, valueRev_append, ih, value_cons, List.length_reverse]
    simp [valueRev]; ring

theorem base_pos (hex : Bool) : 0 < base hex := by cases hex <;> decide

theorem base_le (hex : Bool) : base hex ≤ 16 := by cases hex <;> decide

theorem pow_base_le (hex : Bool) (k : Nat) (h : k ≤ 15) : base hex ^ k ≤ 2 ^ 60 := by
  calc base hex ^ k ≤ 16 ^ k := Nat.pow_le_pow_left (base_le hex) k
    _ ≤ 16 ^ 15 := Nat.pow_le_pow_right (by omega) h
    _ = 2 ^ 60 := by norm_num

theorem value_lt (hex : Bool) (l : Bytes) (h : ∀ c ∈ l, Digit hex c) : value hex l < base hex ^ l.length := by
  induction l with
  | nil => simp [value]
  | cons c l ih =>
    rw [value_cons, List.length_cons, Nat.pow_succ]
    have h1 := ih fun c hc => h c (List.mem_cons_of_mem _ hc)
    have h2 := worth_lt hex c (h c (by simp))
    calc worth c * base hex ^ l.length + value hex l < worth c * base hex ^ l.length + base hex ^ l.length := by omega
      _ = (worth c + 1) * base hex ^ l.length := by ring
      _ ≤ base hex * base hex ^ l.length := Nat.mul_le_mul_right _ h2
      _ = base hex ^ l.length * base hex := by ring

theorem integer_eq {rnd : Rat → Rat} (h : Rounding rnd) (hex : Bool) : ∀ (l : Bytes) (k : Nat) (sum : UInt64),
    (∀ c ∈ l, Digit hex c) → k + l.length ≤ 15 →
    integer rnd hex l ((base hex ^ k : Nat) : Rat) sum = some (sum + UInt64.ofNat (base hex ^ k * valueRev hex l)) := by
  intro l
  induction l with
  | nil => intro k sum _ _; simp [integer, valueRev]
  | cons c l ih =>
    intro k sum hd hk
    have hk' : k + l.length + 1 ≤ 15 := by simpa [Nat.add_assoc] using hk
    have hw := worth_lt hex c (hd c (by simp))
    have hlt : worth c * base hex ^ k < 2 ^ 60 := by
      have : worth c * base hex ^ k < base hex * base hex ^ k := Nat.mul_lt_mul_of_pos_right hw (Nat.pow_pos (base_pos hex))
      have h2 := pow_base_le hex (k + 1) (by omega)
      rw [Nat.pow_succ, Nat.mul_comm] at h2
      omega
    have h1 : rnd ((digitValue c : Rat) * ((base hex ^ k : Nat) : Rat)) = ((worth c * base hex ^ k : Nat) : Rat) := by
      rw [digit_worth c (digit_hex hex c (hd c (by simp))), ← Nat.cast_mul]
      exact round_nat h _ (by omega)
    have h2 : rnd (((base hex ^ k : Nat) : Rat) * (base hex : Rat)) = ((base hex ^ (k + 1) : Nat) : Rat) := by
      rw [← Nat.cast_mul, ← Nat.pow_succ]
      exact round_nat h _ (lt_of_le_of_lt (pow_base_le hex (k + 1) (by omega)) (by norm_num))
    have h3 : ¬ (((worth c * base hex ^ k : Nat) : Rat) ≥ 2 ^ 64) := by
      rw [not_le]
      have : ((worth c * base hex ^ k : Nat) : Rat) < ((2 ^ 64 : Nat) : Rat) := by
        exact_mod_cast (show worth c * base hex ^ k < 2 ^ 64 by omega)
      rw [show (2 : Rat) ^ 64 = ((2 ^ 64 : Nat) : Rat) by norm_num]
      exact this
    simp only [integer, h1, h2, h3, if_false]
    rw [ih (k + 1) _ (fun c hc => hd c (List.mem_cons_of_mem _ hc)) (by omega)]
    congr 1
    have h4 : ((worth c * base hex ^ k : Nat) : Rat).floor.toNat = worth c * base hex ^ k := by
      have : ((worth c * base hex ^ k : Nat) : Rat).floor = ((worth c * base hex ^ k : Nat) : Int) := by
        simp only [← Int.cast_natCast (R := Rat), Rat.floor_intCast]
      rw [this]; rfl
    rw [h4, UInt64.add_assoc, ← UInt64.ofNat_add]
    congr 2
    simp only [valueRev, Nat.pow_succ]
    ring

/-! ## The fraction -/

theorem fraction_hex {rnd : Rat → Rat} (h : Rounding rnd) : ∀ (l : Bytes) (k s : Nat), (∀ c ∈ l, Digit true c) → k + l.length ≤ 15 → s < 16 ^ k →
    fraction rnd true l ((s : Rat) / 16 ^ k) ((16 : Rat) ^ k) = ((s * 16 ^ l.length + value true l : Nat) : Rat) / 16 ^ (k + l.length) := by
  intro l
  induction l with
  | nil => intro k s _ _ _; simp [fraction, value]
  | cons c l ih =>
    intro k s hd hk hs
    have hk' : k + l.length + 1 ≤ 15 := by simpa [Nat.add_assoc] using hk
    have hw := worth_lt true c (hd c (by simp))
    have hw : worth c < 16 := hw
    have hp : ∀ m : Nat, (16 : Rat) ^ m = 2 ^ (4 * m) := fun m => by rw [pow_mul]; norm_num
    have hpn : 16 ^ (k + 1) ≤ 2 ^ 60 := pow_base_le true (k + 1) (by omega)
    have h1 : rnd ((digitValue c : Rat) / (base true : Rat)) = (worth c : Rat) / 16 := by
      rw [digit_worth c (hd c (by simp))]
      have := h.small (worth c) 4 (by omega) (by omega)
      norm_num at this
      exact this
    have h2 : rnd ((worth c : Rat) / 16 / 16 ^ k) = (worth c : Rat) / 16 ^ (k + 1) := by
      rw [div_div, ← pow_succ', hp]
      exact h.small (worth c) _ (by omega) (by omega)
    have h3 : rnd ((s : Rat) / 16 ^ k + (worth c : Rat) / 16 ^ (k + 1)) = ((s * 16 + worth c : Nat) : Rat) / 16 ^ (k + 1) := by
      have he : (s : Rat) / 16 ^ k + (worth c : Rat) / 16 ^ (k + 1) = ((s * 16 + worth c : Nat) : Rat) / 16 ^ (k + 1) := by
        rw [pow_succ]; push_cast; field_simp
      rw [he, hp]
      exact h.small _ _ (by rw [Nat.pow_succ] at hpn; omega) (by omega)
    have h4 : rnd ((16 : Rat) ^ k * (base true : Rat)) = 16 ^ (k + 1) := by
      have := round_nat h (16 ^ (k + 1)) (by omega)
      rw [Nat.cast_pow] at this
      rw [show (16 : Rat) ^ k * (base true : Rat) = (16 : Rat) ^ (k + 1) by rw [pow_succ]; rfl]
      exact_mod_cast this
    simp only [fraction, h1, h2, h3, h4]
    rw [ih (k + 1) (s * 16 + worth c) (fun c hc => hd c (List.mem_cons_of_mem _ hc)) (by omega) (by rw [Nat.pow_succ]; omega)]
    rw [value_cons, List.length_cons, show k + 1 + l.length = k + (l.length + 1) by omega]
    congr 2
    show _ = s * 16 ^ (l.length + 1) + (worth c * 16 ^ l.length + value true l)
    rw [Nat.pow_succ]; ring

theorem round_zero {rnd : Rat → Rat} (h : Rounding rnd) : rnd 0 = 0 := by
  have := round_nat h 0 (by omega)
  simpa using this

theorem round_nonneg {rnd : Rat → Rat} (h : Rounding rnd) (q : Rat) (hq : 0 ≤ q) : 0 ≤ rnd q := by
  rw [← round_zero h]; exact h.mono _ _ hq

theorem fraction_dec {rnd : Rat → Rat} (h : Rounding rnd) : ∀ (l : Bytes) (k s : Nat) (sum : Rat), (∀ c ∈ l, Digit false c) → k + l.length ≤ 27 →
    s < 10 ^ k → 0 ≤ sum → |sum - (s : Rat) / 10 ^ k| ≤ 3 * k / 2 ^ 63 →
    0 ≤ fraction rnd false l sum ((10 : Rat) ^ k) ∧
    |fraction rnd false l sum ((10 : Rat) ^ k) - ((s * 10 ^ l.length + value false l : Nat) : Rat) / 10 ^ (k + l.length)| ≤
      3 * ((k + l.length : Nat) : Rat) / 2 ^ 63 := by
  intro l
  induction l with
  | nil =>
    intro k s sum _ _ _ h0 hs
    simp only [fraction, value, List.foldl_nil, List.length_nil, Nat.pow_zero, Nat.mul_one, Nat.add_zero]
    exact ⟨h0, hs⟩
  | cons c l ih =>
    intro k s sum hd hk hs h0 hsum
    have hk' : k + l.length + 1 ≤ 27 := by simpa [Nat.add_assoc] using hk
    have hw : worth c < 10 := worth_lt false c (hd c (by simp))
    have hwq : (worth c : Rat) ≤ 9 := by exact_mod_cast (show worth c ≤ 9 by omega)
    have hw0 : (0 : Rat) ≤ worth c := by positivity
    have he : (0 : Rat) < 1 / 2 ^ 63 := by positivity
    have he1 : (1 : Rat) / 2 ^ 63 ≤ 1 / 1000 := by norm_num
    have hkq : (k : Rat) ≤ 27 := by exact_mod_cast (show k ≤ 27 by omega)
    have hk0 : (0 : Rat) ≤ k := by positivity
    have hp1 : (1 : Rat) ≤ 10 ^ k := one_le_pow₀ (by norm_num)
    have hp0 : (0 : Rat) < 10 ^ k := by positivity
    generalize hE : (1 : Rat) / 2 ^ 63 = E at *
    have hE' : ∀ x : Rat, x / 2 ^ 63 = x * E := fun x => by rw [← hE]; ring
    -- the digit
    have hA : 0 ≤ rnd ((worth c : Rat) / 10) ∧ rnd ((worth c : Rat) / 10) ≤ (worth c : Rat) / 10 + E ∧
        (worth c : Rat) / 10 - E ≤ rnd ((worth c : Rat) / 10) := by
      have h1 : (0 : Rat) ≤ (worth c : Rat) / 10 := by positivity
      have h2 : (worth c : Rat) / 10 ≤ 2 := by linarith
      have h3 := h.above _ h1 h2
      have h4 := h.below _ h1 h2
      rw [hE] at h3 h4
      exact ⟨round_nonneg h _ h1, h3, h4⟩
    generalize ha : rnd ((worth c : Rat) / 10) = a at *
    obtain ⟨a0, a1, a2⟩ := hA
    -- at its place
    have hdiv : ∀ x : Rat, x / 10 ^ (k + 1) = x / 10 / 10 ^ k := fun x => by rw [pow_succ']; rw [div_div]
    have hle : ∀ x : Rat, 0 ≤ x → x / 10 ^ k ≤ x := fun x hx => div_le_self hx hp1
    have b1 : a / 10 ^ k ≤ (worth c : Rat) / 10 ^ (k + 1) + E := by
      rw [hdiv]
      have : a / 10 ^ k ≤ ((worth c : Rat) / 10 + E) / 10 ^ k := (div_le_div_iff_of_pos_right hp0).2 a1
      rw [add_div] at this
      have := hle E he.le
      linarith
    have b2 : (worth c : Rat) / 10 ^ (k + 1) - E ≤ a / 10 ^ k := by
      rw [hdiv]
      have : ((worth c : Rat) / 10 - E) / 10 ^ k ≤ a / 10 ^ k := (div_le_div_iff_of_pos_right hp0).2 a2
      rw [sub_div] at this
      have := hle E he.le
      linarith
    have b3 : (0 : Rat) ≤ a / 10 ^ k := by positivity
    have b4 : a / 10 ^ k ≤ 2 := by have := hle a a0; linarith
    have hB : 0 ≤ rnd (a / 10 ^ k) ∧ rnd (a / 10 ^ k) ≤ a / 10 ^ k + E ∧ a / 10 ^ k - E ≤ rnd (a / 10 ^ k) := by
      have h3 := h.above _ b3 b4
      have h4 := h.below _ b3 b4
      rw [hE] at h3 h4
      exact ⟨round_nonneg h _ b3, h3, h4⟩
    generalize hb : rnd (a / 10 ^ k) = b at *
    obtain ⟨b5, b6, b7⟩ := hB
    -- the sum
    rw [hE'] at hsum
    obtain ⟨s1, s2⟩ := abs_le.1 hsum
    have hsq : (s : Rat) / 10 ^ k ≤ 1 := by
      rw [div_le_one hp0]
      have : (s : Rat) ≤ ((10 ^ k : Nat) : Rat) := by exact_mod_cast hs.le
      simpa using this
    have hkE : 3 * (k : Rat) * E ≤ 81 * E := by nlinarith
    have hab : a ≤ 9 / 10 + E := by linarith
    have c4 : sum + b ≤ 2 := by have := hle a a0; linarith
    have c3 : 0 ≤ sum + b := by linarith
    have hC : 0 ≤ rnd (sum + b) ∧ rnd (sum + b) ≤ sum + b + E ∧ sum + b - E ≤ rnd (sum + b) := by
      have h3 := h.above _ c3 c4
      have h4 := h.below _ c3 c4
      rw [hE] at h3 h4
      exact ⟨round_nonneg h _ c3, h3, h4⟩
    generalize hc : rnd (sum + b) = t at *
    obtain ⟨t0, t1, t2⟩ := hC
    have hfac : rnd ((10 : Rat) ^ k * (base false : Rat)) = 10 ^ (k + 1) := by
      rw [show (10 : Rat) ^ k * (base false : Rat) = (10 : Rat) ^ (k + 1) by rw [pow_succ]; rfl]
      have h5 : 5 ^ (k + 1) < 2 ^ 64 := by
        calc 5 ^ (k + 1) ≤ 5 ^ 27 := Nat.pow_le_pow_right (by omega) (by omega)
          _ < 2 ^ 64 := by norm_num
      have := h.large (5 ^ (k + 1)) (k + 1) h5 (by omega)
      rw [Nat.cast_pow, ← mul_pow] at this
      norm_num at this
      exact this
    have hdig : (digitValue c : Rat) / (base false : Rat) = (worth c : Rat) / 10 := by
      rw [digit_worth c (digit_hex false c (hd c (by simp)))]; rfl
    have hsum' : |t - ((s * 10 + worth c : Nat) : Rat) / 10 ^ (k + 1)| ≤ 3 * ((k + 1 : Nat) : Rat) / 2 ^ 63 := by
      have he : ((s * 10 + worth c : Nat) : Rat) / 10 ^ (k + 1) = (s : Rat) / 10 ^ k + (worth c : Rat) / 10 ^ (k + 1) := by
        rw [pow_succ]; push_cast; field_simp
      rw [he, hE', abs_le]
      push_cast
      constructor <;> nlinarith
    have := ih (k + 1) (s * 10 + worth c) t (fun c hc => hd c (List.mem_cons_of_mem _ hc)) (by omega) (by rw [Nat.pow_succ]; omega) t0 hsum'
    simp only [fraction, hdig, ha, hb, hc, hfac]
    rw [value_cons, List.length_cons, show k + (l.length + 1) = k + 1 + l.length by omega]
    have hv : s * 10 ^ (l.length + 1) + (worth c * base false ^ l.length + value false l) = (s * 10 + worth c) * 10 ^ l.length + value false l := by
      show s * 10 ^ (l.length + 1) + (worth c * 10 ^ l.length + value false l) = _
      rw [Nat.pow_succ]; ring
    rw [hv]
    exact this

/-! ## Putting together -/

theorem compose_pos (frac int : UInt64) (h : frac.toNat < 2 ^ 24) :
    (compose false frac int).toNat = int.toNat % 2 ^ 39 * 2 ^ 24 + frac.toNat := by
  unfold compose
  simp only [Bool.false_eq_true, if_false]
  have hm : ~~~((1 : UInt64) <<< 63) = UInt64.ofNat (2 ^ 63 - 1) := by decide
  rw [hm, UInt64.toNat_and, UInt64.toNat_or, UInt64.toNat_shiftLeft]
  have h1 : (UInt64.ofNat (2 ^ 63 - 1)).toNat = 2 ^ 63 - 1 := by decide
  have h2 : (24 : UInt64).toNat % 64 = 24 := by decide
  rw [h1, h2, Nat.and_two_pow_sub_one_eq_mod]
  have h3 : int.toNat <<< 24 % 2 ^ 64 = (int.toNat % 2 ^ 40) <<< 24 := by
    rw [Nat.shiftLeft_eq, Nat.shiftLeft_eq]; omega
  rw [h3, Nat.or_comm, ← Nat.shiftLeft_add_eq_or_of_lt h, Nat.shiftLeft_eq]
  omega

theorem signed_neg (r : UInt64) (h : r.toNat < 2 ^ 63) : signed (0 - r) = - (r.toNat : Int) := by
  unfold signed
  rw [UInt64.toNat_sub]
  have : (0 : UInt64).toNat = 0 := rfl
  rw [this]
  split <;> omega

theorem compose_signed (neg : Bool) (frac int : UInt64) (h : frac.toNat < 2 ^ 24) : signed (compose neg frac int) =
    (if neg then -1 else 1) * ((int.toNat % 2 ^ 39 * 2 ^ 24 + frac.toNat : Nat) : Int) := by
  have hp := compose_pos frac int h
  have hlt : (compose false frac int).toNat < 2 ^ 63 := by omega
  cases neg
  · unfold signed
    rw [if_pos hlt, hp]; simp
  · show signed (0 - compose false frac int) = _
    rw [signed_neg _ hlt, hp]; simp

end Verif.Fixp
