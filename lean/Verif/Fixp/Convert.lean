import Verif.Fixp.Read
/-!
# C132: fixed point numbers on the way to other programs and back
-/
namespace Verif.Fixp
open Verif Spec

/-! ## Text in base 16 -/

theorem nibbles (c : UInt8) : worth (hexDigit ((c &&& 0xf0) >>> 4)) = c.toNat / 16 ∧ worth (hexDigit (c &&& 0x0f)) = c.toNat % 16 ∧
    Digit true (hexDigit ((c &&& 0xf0) >>> 4)) ∧ Digit true (hexDigit (c &&& 0x0f)) := by
  have h : ∀ c : UInt8, worth (hexDigit ((c &&& 0xf0) >>> 4)) = c.toNat / 16 ∧ worth (hexDigit (c &&& 0x0f)) = c.toNat % 16 ∧
      isDigit true (hexDigit ((c &&& 0xf0) >>> 4)) = true ∧ isDigit true (hexDigit (c &&& 0x0f)) = true := all256 (by decide +kernel)
  obtain ⟨a, b, c', d⟩ := h c
  exact ⟨a, b, (digit_isDigit true _).1 c', (digit_isDigit true _).1 d⟩

/-- The two digits of a byte. -/
def two (c : UInt8) : Bytes := [hexDigit ((c &&& 0xf0) >>> 4), hexDigit (c &&& 0x0f)]

theorem two_digit (c : UInt8) : ∀ d ∈ two c, Digit true d := by
  intro d hd
  simp only [two, List.mem_cons, List.not_mem_nil, or_false] at hd
  rcases hd with rfl | rfl
  · exact (nibbles c).2.2.1
  · exact (nibbles c).2.2.2

theorem value_two (c : UInt8) (t : Bytes) : value true (two c ++ t) = c.toNat * 16 ^ t.length + value true t := by
  simp only [two, List.cons_append, List.nil_append, value_cons, (nibbles c).1, (nibbles c).2.1, List.length_cons, Nat.pow_succ]
  show c.toNat / 16 * (16 ^ t.length * 16) + (c.toNat % 16 * 16 ^ t.length + value true t) = _
  have : c.toNat / 16 * (16 ^ t.length * 16) + c.toNat % 16 * 16 ^ t.length = (16 * (c.toNat / 16) + c.toNat % 16) * 16 ^ t.length := by ring
  rw [← Nat.add_assoc, this, Nat.div_add_mod]

/-- A byte of a number. -/
def byteAt (x : UInt64) (i : Nat) : UInt8 := UInt8.ofNat (x.toNat / 256 ^ i % 256)

theorem byteAt_toNat (x : UInt64) (i : Nat) : (byteAt x i).toNat = x.toNat / 256 ^ i % 256 := by
  unfold byteAt
  rw [UInt8.toNat_ofNat']
  omega

/-- The digits before the dot. -/
def intText (x : UInt64) : Bytes := two (byteAt x 7) ++ (two (byteAt x 6) ++ (two (byteAt x 5) ++ (two (byteAt x 4) ++ (two (byteAt x 3) ++ []))))
/-- The digits after the dot. -/
def fracText (x : UInt64) : Bytes := two (byteAt x 2) ++ (two (byteAt x 1) ++ (two (byteAt x 0) ++ []))

theorem toText16_eq (x : UInt64) : toText16 x = [49, 54, 35] ++ (intText x ++ (46 :: fracText x)) := rfl

theorem intText_digit (x : UInt64) : ∀ c ∈ intText x, Digit true c := by
  intro c hc
  simp only [intText, List.mem_append, List.not_mem_nil, or_false] at hc
  rcases hc with h | h | h | h | h <;> exact two_digit _ c h

theorem fracText_digit (x : UInt64) : ∀ c ∈ fracText x, Digit true c := by
  intro c hc
  simp only [fracText, List.mem_append, List.not_mem_nil, or_false] at hc
  rcases hc with h | h | h <;> exact two_digit _ c h

theorem intText_value (x : UInt64) : value true (intText x) = x.toNat / 2 ^ 24 := by
  have := UInt64.toNat_lt x
  simp only [intText, value_two, byteAt_toNat, List.length_append, show ∀ c, (two c).length = 2 from fun _ => rfl, List.length_nil]
  simp only [value, List.foldl_nil]
  norm_num
  omega

theorem fracText_value (x : UInt64) : value true (fracText x) = x.toNat % 2 ^ 24 := by
  simp only [fracText, value_two, byteAt_toNat, List.length_append, show ∀ c, (two c).length = 2 from fun _ => rfl, List.length_nil]
  simp only [value, List.foldl_nil]
  norm_num
  omega

theorem text_written (x : UInt64) : Written (toText16 x) true false (intText x) (some (fracText x)) [] :=
  ⟨[49, 54, 35], [], by rw [toText16_eq]; simp [pointed], .inl ⟨rfl, rfl⟩, .inr ⟨rfl, .inr rfl⟩, by simp [intText, two],
    intText_digit x, by intro f hf; cases hf; exact fracText_digit x, by simp⟩

theorem signed_inj (x y : UInt64) (h : signed x = signed y) : x = y := by
  unfold signed at h
  have := UInt64.toNat_lt x
  have := UInt64.toNat_lt y
  rw [← UInt64.toNat_inj]
  split at h <;> split at h <;> omega

/-- What the text in base 16 of a number is read as: the number without its highest bit. -/
theorem text_read {rnd : Rat → Rat} (h : Rounding rnd) (x : UInt64) :
    ∃ y, ofText rnd (toText16 x) = .ok (y, []) ∧ signed y = ((x.toNat % 2 ^ 63 : Nat) : Int) := by
  have hf := hex_fraction h (fracText x) (fracText_digit x) (by simp [fracText, two])
  have hpart : part true (some (fracText x)) * 2 ^ 24 = ((x.toNat % 2 ^ 24 : Nat) : Rat) := by
    simp only [part, fracText_value, if_true]
    have hl : (fracText x).length = 6 := by simp [fracText, two]
    rw [hl]
    norm_num
  have hr := part_range true (fracText x) (fracText_digit x)
  obtain ⟨y, h1, h2⟩ := ofText_parts h _ true false _ _ [] (text_written x) (by simp [intText, two])
    (by intro f he; cases he; rw [hf]; exact hr.1)
  refine ⟨y, h1, ?_⟩
  rw [h2, intText_value]
  simp only [units]
  rw [hf]
  obtain ⟨b1, b2, b3⟩ := bits_eq h (part true (some (fracText x))) hr.1
  rw [hpart] at b2 b3
  generalize bits rnd (part true (some (fracText x))) 24 0 0 = n at *
  have e1 : n ≤ x.toNat % 2 ^ 24 := by exact_mod_cast b2
  have e2 : n = x.toNat % 2 ^ 24 := by
    rcases b3 with b3 | b3
    · have : x.toNat % 2 ^ 24 < n + 1 := by exact_mod_cast b3
      omega
    · have := Nat.mod_lt x.toNat (show 0 < 2 ^ 24 by decide)
      omega
  rw [e2]
  simp only [Bool.false_eq_true, if_false, Int.one_mul]
  congr 1
  omega

/-- **C132**, partial. The text in base 16, which scripts are given, is read as the same number. Negative numbers are missing: see `negative_changed`. -/
theorem text16_roundtrip_partial {rnd : Rat → Rat} (h : Rounding rnd) (x : UInt64) (hx : 0 ≤ signed x) :
    ofText rnd (toText16 x) = .ok (x, []) := by
  obtain ⟨y, h1, h2⟩ := text_read h x
  rw [h1]
  have hlt : x.toNat < 2 ^ 63 := by
    have := UInt64.toNat_lt x
    unfold signed at hx
    split at hx <;> omega
  rw [signed_inj y x]
  rw [h2, Nat.mod_eq_of_lt hlt]
  unfold signed
  rw [if_pos hlt]

example : toText16 (UInt64.ofNat (2 ^ 24 + 2 ^ 23)) = [49, 54, 35, 48, 48, 48, 48, 48, 48, 48, 48, 48, 49, 46, 56, 48, 48, 48, 48, 48] := by decide +kernel

/-- **C132**. The text in base 16 of a negative number is always read as another number, which is not negative. -/
theorem negative_changed {rnd : Rat → Rat} (h : Rounding rnd) (x : UInt64) (hx : signed x < 0) :
    ∃ y, ofText rnd (toText16 x) = .ok (y, []) ∧ signed y = signed x + 2 ^ 63 ∧ 0 ≤ signed y := by
  obtain ⟨y, h1, h2⟩ := text_read h x
  have := UInt64.toNat_lt x
  have hge : ¬ x.toNat < 2 ^ 63 := by
    intro hlt
    unfold signed at hx
    rw [if_pos hlt] at hx
    omega
  refine ⟨y, h1, ?_, by rw [h2]; omega⟩
  rw [h2]
  unfold signed
  rw [if_neg hge]
  omega

/-! ## Floating point numbers -/

theorem mod_succ (d n : Nat) : d % 2 ^ (n + 1) = d % 2 ^ n + 2 ^ n * (d.testBit n).toNat := by
  rw [Nat.pow_succ, Nat.mod_mul, Nat.testBit_eq_decide_div_mod_eq]
  congr 2
  rcases Nat.mod_two_eq_zero_or_one (d / 2 ^ n) with h | h <;> simp [h]

theorem sumBits_eq {rnd : Rat → Rat} (h : Rounding rnd) (d : Nat) : ∀ n s : Nat, s + 2 ^ n ≤ 2 ^ 63 + 2 ^ 24 →
    sumBits rnd d n ((s : Rat) / 2 ^ 24) = ((s + d % 2 ^ n : Nat) : Rat) / 2 ^ 24 := by
  intro n
  induction n with
  | zero => intro s _; simp [sumBits, Nat.mod_one]
  | succ n ih =>
    intro s hs
    have hp : 0 < 2 ^ n := Nat.pow_pos (by omega)
    have h2 : 2 ^ (n + 1) = 2 ^ n + 2 ^ n := by rw [Nat.pow_succ]; omega
    have hr : rnd ((s : Rat) / 2 ^ 24 + (if d.testBit n then (2 : Rat) ^ n / 2 ^ 24 else 0)) = ((s + 2 ^ n * (d.testBit n).toNat : Nat) : Rat) / 2 ^ 24 := by
      rw [← h.small (s + 2 ^ n * (d.testBit n).toNat) 24 (by
        cases d.testBit n <;> simp only [Bool.toNat_true, Bool.toNat_false] <;> omega) (by omega)]
      congr 1
      cases d.testBit n
      · simp
      · simp only [if_true, Bool.toNat_true]
        push_cast
        ring
    simp only [sumBits, hr]
    rw [ih _ (by cases d.testBit n <;> simp only [Bool.toNat_true, Bool.toNat_false] <;> omega), mod_succ]
    congr 2
    omega

/-- **C132**. A fixed point number becomes the floating point number which it is, without any rounding. Only the smallest number does not. -/
theorem to_exact {rnd : Rat → Rat} (h : Rounding rnd) (x : UInt64) (hx : signed x ≠ -2 ^ 63) :
    toLongDouble rnd x = .ok ((signed x : Rat) / 2 ^ 24) := by
  unfold toLongDouble
  rw [if_neg hx]
  have hlt : (signed x).natAbs < 2 ^ 63 := by
    have := UInt64.toNat_lt x
    unfold signed at *
    split at hx <;> simp_all <;> omega
  have hw : (((signed x).natAbs / 2 ^ 24 : Nat) : Rat) = (((signed x).natAbs / 2 ^ 24 * 2 ^ 24 : Nat) : Rat) / 2 ^ 24 := (whole _).symm
  rw [hw, sumBits_eq h _ 24 _ (by omega), show (signed x).natAbs / 2 ^ 24 * 2 ^ 24 + (signed x).natAbs % 2 ^ 24 % 2 ^ 24 = (signed x).natAbs by omega]
  show Out.ok (if signed x < 0 then _ else _) = _
  congr 1
  by_cases hn : signed x < 0
  · rw [if_pos hn]
    have : (((signed x).natAbs : Nat) : Rat) = -(signed x : Rat) := by
      have : (((signed x).natAbs : Nat) : Int) = -(signed x) := by omega
      rw [← Int.cast_natCast (R := Rat), this]; push_cast; rfl
    rw [this]; ring
  · rw [if_neg hn]
    have : (((signed x).natAbs : Nat) : Rat) = (signed x : Rat) := by
      have : (((signed x).natAbs : Nat) : Int) = signed x := by omega
      rw [← Int.cast_natCast (R := Rat), this]
    rw [this]

theorem or_bit (acc : UInt64) (a n : Nat) (h : acc.toNat = a * 2 ^ (n + 1)) (hn : n < 64) :
    (acc ||| UInt64.ofNat (2 ^ n)).toNat = (2 * a + 1) * 2 ^ n := by
  have h2 : (2 : Nat) ^ n < 2 ^ 64 := Nat.pow_lt_pow_right (by omega) hn
  rw [UInt64.toNat_or, UInt64.toNat_ofNat', Nat.mod_eq_of_lt h2, h, ← Nat.shiftLeft_eq,
    ← Nat.shiftLeft_add_eq_or_of_lt (Nat.pow_lt_pow_right (by omega) (by omega)), Nat.shiftLeft_eq, Nat.pow_succ]
  ring

theorem fractionBits_eq {rnd : Rat → Rat} (h : Rounding rnd) (j : Nat) (hj : j ≤ 976) : ∀ (n r a : Nat) (acc : UInt64), n ≤ 24 → r < 2 ^ (n + j) → r < 2 ^ 64 →
    acc.toNat = a * 2 ^ n → (fractionBits rnd n ((r : Rat) / 2 ^ (24 + j)) acc).toNat = acc.toNat + r / 2 ^ j := by
  intro n
  induction n with
  | zero =>
    intro r a acc _ hr _ _
    simp only [fractionBits]
    rw [Nat.div_eq_of_lt (by simpa using hr)]; simp
  | succ n ih =>
    intro r a acc hn hr hr64 hacc
    have hle : ((r : Rat) / 2 ^ (24 + j) ≥ (2 : Rat) ^ n / 2 ^ 24) ↔ 2 ^ (n + j) ≤ r := by
      rw [ge_iff_le, div_le_div_iff₀ (by positivity) (by positivity)]
      have : (2 : Rat) ^ n * 2 ^ (24 + j) = ((2 ^ (n + j) : Nat) : Rat) * 2 ^ 24 := by push_cast; ring
      rw [this, mul_le_mul_iff_left₀ (by positivity)]
      exact Nat.cast_le
    have hs : 2 ^ (n + 1 + j) = 2 ^ (n + j) + 2 ^ (n + j) := by rw [show n + 1 + j = n + j + 1 by omega, Nat.pow_succ]; omega
    by_cases hc : 2 ^ (n + j) ≤ r
    · simp only [fractionBits, if_pos (hle.2 hc)]
      have hsub : (r : Rat) / 2 ^ (24 + j) - (2 : Rat) ^ n / 2 ^ 24 = ((r - 2 ^ (n + j) : Nat) : Rat) / 2 ^ (24 + j) := by
        rw [Nat.cast_sub hc]
        push_cast
        rw [pow_add 2 24 j, pow_add 2 n j]
        field_simp
      rw [hsub, h.small _ _ (by omega) (by omega)]
      have hor := or_bit acc a n hacc (by omega)
      rw [ih (r - 2 ^ (n + j)) (2 * a + 1) _ (by omega) (by omega) (by omega) hor, hor, hacc]
      have hdv : r / 2 ^ j = (r - 2 ^ (n + j)) / 2 ^ j + 2 ^ n := by
        conv => lhs; rw [show r = (r - 2 ^ (n + j)) + 2 ^ (n + j) by omega, Nat.pow_add]
        rw [Nat.add_mul_div_right _ _ (Nat.pow_pos (by omega))]
        rw [← Nat.pow_add]
      rw [hdv, Nat.pow_succ]
      ring
    · simp only [fractionBits, if_neg (fun hh => hc (hle.1 hh))]
      exact ih r (a * 2) acc (by omega) (by omega) hr64 (by rw [hacc, Nat.pow_succ]; ring)

theorem floor_div (m k : Nat) : ((m : Rat) / 2 ^ k).floor = ((m / 2 ^ k : Nat) : Int) := by
  have h1 : ((m / 2 ^ k : Nat) : Rat) ≤ (m : Rat) / 2 ^ k := by
    rw [le_div_iff₀ (by positivity)]
    exact_mod_cast Nat.div_mul_le_self m (2 ^ k)
  have h2 : (m : Rat) / 2 ^ k < ((m / 2 ^ k : Nat) : Rat) + 1 := by
    rw [div_lt_iff₀ (by positivity)]
    have : m < (m / 2 ^ k + 1) * 2 ^ k := by
      have := Nat.div_add_mod m (2 ^ k)
      have := Nat.mod_lt m (show 0 < 2 ^ k from Nat.pow_pos (by omega))
      rw [Nat.add_mul, Nat.one_mul, Nat.mul_comm]
      omega
    exact_mod_cast this
  apply le_antisymm
  · have : ((m : Rat) / 2 ^ k).floor < ((m / 2 ^ k : Nat) : Int) + 1 := by
      rw [Rat.floor_lt_iff]
      push_cast
      exact_mod_cast h2
    omega
  · rw [Rat.le_floor_iff]
    push_cast
    exact_mod_cast h1

/-- The fraction of a number `m / 2^k`, as `r / 2^(24+j)`. -/
theorem frac_form (m k : Nat) (hm : m < 2 ^ 64) (hk : k ≤ 1000) : ∃ r j : Nat, j ≤ 976 ∧ r < 2 ^ (24 + j) ∧ r < 2 ^ 64 ∧
    (m : Rat) / 2 ^ k - ((m / 2 ^ k : Nat) : Rat) = (r : Rat) / 2 ^ (24 + j) ∧ r / 2 ^ j = m * 2 ^ 24 / 2 ^ k - m / 2 ^ k * 2 ^ 24 := by
  have hpk : 0 < 2 ^ k := Nat.pow_pos (by omega)
  have hmod : (m : Rat) / 2 ^ k - ((m / 2 ^ k : Nat) : Rat) = ((m % 2 ^ k : Nat) : Rat) / 2 ^ k := by
    rw [sub_eq_iff_eq_add, eq_comm, ← eq_sub_iff_add_eq, div_eq_iff (by positivity), sub_mul, div_mul_cancel₀ _ (by positivity), eq_sub_iff_add_eq]
    have := Nat.mod_add_div m (2 ^ k)
    rw [Nat.mul_comm] at this
    exact_mod_cast this
  have hunits : m * 2 ^ 24 / 2 ^ k - m / 2 ^ k * 2 ^ 24 = m % 2 ^ k * 2 ^ 24 / 2 ^ k := by
    have h1 : m * 2 ^ 24 = m % 2 ^ k * 2 ^ 24 + m / 2 ^ k * 2 ^ 24 * 2 ^ k := by
      conv => lhs; rw [← Nat.mod_add_div m (2 ^ k)]
      ring
    conv => lhs; rw [h1]
    rw [Nat.add_mul_div_right _ _ hpk, Nat.add_sub_cancel]
  have hlt := Nat.mod_lt m hpk
  by_cases h : 24 ≤ k
  · obtain ⟨j, rfl⟩ : ∃ j, k = 24 + j := ⟨k - 24, by omega⟩
    refine ⟨m % 2 ^ (24 + j), j, by omega, hlt, by have := Nat.mod_le m (2 ^ (24 + j)); omega, hmod, ?_⟩
    rw [hunits, Nat.pow_add, Nat.mul_comm (m % _), Nat.mul_div_mul_left _ _ (by decide)]
  · obtain ⟨i, hi⟩ : ∃ i, 24 = k + i := ⟨24 - k, by omega⟩
    have hpi : 0 < 2 ^ i := Nat.pow_pos (by omega)
    have hr : m % 2 ^ k * 2 ^ i < 2 ^ 24 := by
      rw [hi, Nat.pow_add]
      exact Nat.mul_lt_mul_of_pos_right hlt hpi
    refine ⟨m % 2 ^ k * 2 ^ i, 0, by omega, by simpa using hr, by omega, ?_, ?_⟩
    · rw [hmod, Nat.add_zero, hi, pow_add]
      push_cast
      field_simp
    · rw [hunits, hi, Nat.pow_add, Nat.pow_zero, Nat.div_one]
      rw [show m % 2 ^ k * (2 ^ k * 2 ^ i) = (m % 2 ^ k * 2 ^ i) * 2 ^ k by ring, Nat.mul_div_cancel _ hpk]

theorem of_units {rnd : Rat → Rat} (h : Rounding rnd) (m k : Nat) (hm : m < 2 ^ 64) (hk : k ≤ 1000) (neg : Bool) (h0 : neg = true → 0 < m) :
    ofLongDouble rnd (.fin (if neg then -((m : Rat) / 2 ^ k) else (m : Rat) / 2 ^ k)) =
      .ok (if neg then 0 - UInt64.ofNat (m * 2 ^ 24 / 2 ^ k) else UInt64.ofNat (m * 2 ^ 24 / 2 ^ k)) := by
  have hpos : (0 : Rat) ≤ (m : Rat) / 2 ^ k := by positivity
  have habs : absolute (if neg then -((m : Rat) / 2 ^ k) else (m : Rat) / 2 ^ k) = (m : Rat) / 2 ^ k := by
    unfold absolute
    cases neg
    · simp only [Bool.false_eq_true, if_false]
      rw [if_neg (not_lt.2 hpos)]
    · simp only [if_true]
      have : (0 : Rat) < (m : Rat) / 2 ^ k := by
        have : (0 : Rat) < m := by exact_mod_cast h0 rfl
        positivity
      rw [if_pos (by linarith), neg_neg]
  have hsign : ((if neg then -((m : Rat) / 2 ^ k) else (m : Rat) / 2 ^ k) < 0) ↔ neg = true := by
    cases neg
    · simp only [Bool.false_eq_true, if_false, iff_false, not_lt]; exact hpos
    · simp only [if_true, iff_true]
      have : (0 : Rat) < (m : Rat) / 2 ^ k := by
        have : (0 : Rat) < m := by exact_mod_cast h0 rfl
        positivity
      linarith
  have hmk : m / 2 ^ k < 2 ^ 64 := lt_of_le_of_lt (Nat.div_le_self _ _) hm
  unfold ofLongDouble
  simp only [habs, floor_div]
  rw [if_neg (by
    intro hh
    have : (2 ^ 64 : Int) ≤ ((m / 2 ^ k : Nat) : Int) := hh
    omega)]
  have hcast : (((m / 2 ^ k : Nat) : Int) : Rat) = ((m / 2 ^ k : Nat) : Rat) := by push_cast; rfl
  rw [hcast]
  obtain ⟨r, j, hj, hr, hr64, he, hu⟩ := frac_form m k hm hk
  rw [he]
  have hfb := fractionBits_eq h j hj 24 r 0 0 (le_refl _) hr hr64 (by simp)
  have hres : fractionBits rnd 24 ((r : Rat) / 2 ^ (24 + j)) 0 ||| (UInt64.ofNat ((m / 2 ^ k : Nat) : Int).toNat <<< 24) = UInt64.ofNat (m * 2 ^ 24 / 2 ^ k) := by
    rw [← UInt64.toNat_inj, UInt64.toNat_or, hfb, UInt64.toNat_shiftLeft]
    have h2 : (24 : UInt64).toNat % 64 = 24 := by decide
    rw [h2, Int.toNat_natCast, UInt64.toNat_ofNat', UInt64.toNat_ofNat', Nat.mod_eq_of_lt hmk, Nat.shiftLeft_eq]
    have hz : (0 : UInt64).toNat = 0 := rfl
    have hrj : r / 2 ^ j < 2 ^ 24 := by
      rw [Nat.div_lt_iff_lt_mul (Nat.pow_pos (by omega)), ← Nat.pow_add]
      exact hr
    rw [hz, Nat.zero_add]
    have hsh : m / 2 ^ k * 2 ^ 24 % 2 ^ 64 = (m / 2 ^ k % 2 ^ 40) <<< 24 := by rw [Nat.shiftLeft_eq]; omega
    rw [hsh, Nat.or_comm, ← Nat.shiftLeft_add_eq_or_of_lt hrj, Nat.shiftLeft_eq]
    have hge : m / 2 ^ k * 2 ^ 24 ≤ m * 2 ^ 24 / 2 ^ k := by
      rw [Nat.le_div_iff_mul_le (Nat.pow_pos (by omega))]
      calc m / 2 ^ k * 2 ^ 24 * 2 ^ k = m / 2 ^ k * 2 ^ k * 2 ^ 24 := by ring
        _ ≤ m * 2 ^ 24 := Nat.mul_le_mul_right _ (Nat.div_mul_le_self _ _)
    omega
  rw [hres]
  cases hneg : neg
  · have : ¬ ((if neg then -((m : Rat) / 2 ^ k) else (m : Rat) / 2 ^ k) < 0) := fun hh => by rw [hsign, hneg] at hh; cases hh
    rw [hneg] at this
    rw [if_neg this]; rfl
  · have : ((if neg then -((m : Rat) / 2 ^ k) else (m : Rat) / 2 ^ k) < 0) := hsign.2 hneg
    rw [hneg] at this
    rw [if_pos this]; rfl

/-- **C132**. A floating point number whose absolute value is below 2^39 becomes the fixed point number of the units which it holds: what is beyond is cut off. -/
theorem of_exact {rnd : Rat → Rat} (h : Rounding rnd) (m k : Nat) (hm : m < 2 ^ 64) (hk : k ≤ 1000) (hs : (m : Rat) / 2 ^ k < 2 ^ 39) (neg : Bool) (h0 : neg = true → 0 < m) :
    ∃ (x : UInt64) (n : Nat), ofLongDouble rnd (.fin (if neg then -((m : Rat) / 2 ^ k) else (m : Rat) / 2 ^ k)) = .ok x ∧
      signed x = (if neg then -1 else 1) * (n : Int) ∧ (n : Rat) / 2 ^ 24 ≤ (m : Rat) / 2 ^ k ∧ (m : Rat) / 2 ^ k < ((n : Rat) + 1) / 2 ^ 24 := by
  have hpk : 0 < 2 ^ k := Nat.pow_pos (by omega)
  have hlt : m * 2 ^ 24 / 2 ^ k < 2 ^ 63 := by
    rw [Nat.div_lt_iff_lt_mul hpk]
    rw [div_lt_iff₀ (by positivity)] at hs
    have : m < 2 ^ 39 * 2 ^ k := by exact_mod_cast hs
    calc m * 2 ^ 24 < 2 ^ 39 * 2 ^ k * 2 ^ 24 := Nat.mul_lt_mul_of_pos_right this (by decide)
      _ = 2 ^ 63 * 2 ^ k := by ring
  refine ⟨_, m * 2 ^ 24 / 2 ^ k, of_units h m k hm hk neg h0, ?_, ?_, ?_⟩
  · have ht : (UInt64.ofNat (m * 2 ^ 24 / 2 ^ k)).toNat = m * 2 ^ 24 / 2 ^ k := by
      rw [UInt64.toNat_ofNat']; exact Nat.mod_eq_of_lt (by omega)
    cases neg
    · simp only [Bool.false_eq_true, if_false, Int.one_mul]
      unfold signed
      rw [ht, if_pos hlt]
    · simp only [if_true]
      rw [signed_neg _ (by rw [ht]; exact hlt), ht]
      omega
  · rw [div_le_div_iff₀ (by positivity) (by positivity)]
    exact_mod_cast Nat.div_mul_le_self (m * 2 ^ 24) (2 ^ k)
  · rw [div_lt_div_iff₀ (by positivity) (by positivity)]
    have := Nat.lt_mul_div_succ (m * 2 ^ 24) hpk
    rw [Nat.mul_comm (2 ^ k)] at this
    exact_mod_cast this

/-- **C132**. A fixed point number which was made into a floating point number is the same when it comes back. -/
theorem float_roundtrip {rnd : Rat → Rat} (h : Rounding rnd) (x : UInt64) (hx : signed x ≠ -2 ^ 63) :
    ∃ q, toLongDouble rnd x = .ok q ∧ ofLongDouble rnd (.fin q) = .ok x := by
  refine ⟨_, to_exact h x hx, ?_⟩
  have hxl := UInt64.toNat_lt x
  have habs : (signed x).natAbs < 2 ^ 63 := by
    unfold signed at *
    split at hx <;> simp_all <;> omega
  have := of_units h (signed x).natAbs 24 (by omega) (by omega) (decide (signed x < 0)) (by
    intro hn
    have : signed x < 0 := by simpa using hn
    omega)
  rw [Nat.mul_div_cancel _ (by decide)] at this
  by_cases hn : signed x < 0
  · simp only [hn, decide_true, if_true] at this
    have hc : (((signed x).natAbs : Nat) : Rat) = -(signed x : Rat) := by
      have : (((signed x).natAbs : Nat) : Int) = -(signed x) := by omega
      rw [← Int.cast_natCast (R := Rat), this]; push_cast; rfl
    rw [hc] at this
    rw [show -(-(signed x : Rat) / 2 ^ 24) = (signed x : Rat) / 2 ^ 24 by ring] at this
    rw [this]
    congr 1
    apply signed_inj
    rw [signed_neg _ (by rw [UInt64.toNat_ofNat']; omega), UInt64.toNat_ofNat', Nat.mod_eq_of_lt (by omega)]
    omega
  · simp only [hn, decide_false, Bool.false_eq_true, if_false] at this
    have hc : (((signed x).natAbs : Nat) : Rat) = (signed x : Rat) := by
      have : (((signed x).natAbs : Nat) : Int) = signed x := by omega
      rw [← Int.cast_natCast (R := Rat), this]
    rw [hc] at this
    rw [this]
    congr 1
    apply signed_inj
    have ht : (UInt64.ofNat (signed x).natAbs).toNat = (signed x).natAbs := by rw [UInt64.toNat_ofNat', Nat.mod_eq_of_lt (by omega)]
    have he : signed (UInt64.ofNat (signed x).natAbs) = (((signed x).natAbs : Nat) : Int) := by
      generalize UInt64.ofNat (signed x).natAbs = y at *
      unfold signed at *
      rw [if_pos (by omega), ht]
    rw [he]
    omega

/-- **C132**. The floating point number 2^39 becomes a negative number, and nobody is told. -/
theorem large_negative {rnd : Rat → Rat} (h : Rounding rnd) : ∃ x, ofLongDouble rnd (.fin (2 ^ 39)) = .ok x ∧ signed x = -2 ^ 63 := by
  have := of_units h (2 ^ 39) 0 (by omega) (by omega) false (by simp)
  simp only [Bool.false_eq_true, if_false, pow_zero, div_one] at this
  refine ⟨UInt64.ofNat (2 ^ 39 * 2 ^ 24 / 1), ?_, ?_⟩
  · rw [show ((2 : Rat) ^ 39) = ((2 ^ 39 : Nat) : Rat) by norm_num]
    exact this
  · decide +kernel

/-- **C132**. Of what is not finite, only what is no number is refused. The result for an infinite number, or for one of 2^64 or more, is not defined. -/
theorem infinite_undefined (rnd : Rat → Rat) : ofLongDouble rnd .nan = .err ∧ (∀ neg, ofLongDouble rnd (.inf neg) = .fault) ∧
    ofLongDouble rnd (.fin (2 ^ 64)) = .fault := by
  refine ⟨rfl, fun _ => rfl, ?_⟩
  have : absolute (2 ^ 64) = 2 ^ 64 := by unfold absolute; norm_num
  have hf : (2 ^ 64 : Rat).floor = 2 ^ 64 := by
    have := floor_div (2 ^ 64) 0
    norm_num at this ⊢
    exact this
  unfold ofLongDouble
  simp only [this, hf]
  rw [if_pos (by omega)]

/-- **C132**. The smallest number cannot be made into a floating point number: its negation is not defined. -/
theorem smallest_undefined (rnd : Rat → Rat) : toLongDouble rnd (UInt64.ofNat (2 ^ 63)) = .fault := by
  unfold toLongDouble
  rw [if_pos (by decide +kernel)]

end Verif.Fixp
