import Verif.Increment.Model
/-!
# C08, C09: id increments and prefixes
-/
namespace Verif.Increment
open Verif

/-! ## Specification -/

/-- The ids a generator may produce. -/
def Valid (mod min max pos : Nat) (v : Nat) : Prop := min ≤ v ∧ v ≤ max ∧ v % mod = pos

/-- The smallest number satisfying `p`. -/
def IsLeast (p : Nat → Prop) (v : Nat) : Prop := p v ∧ ∀ w, p w → v ≤ w

/-! ## Lemmas -/

theorem bitReqGo_le_iff (fuel n k : Nat) (hn : n < 2 ^ fuel) : bitReqGo fuel n ≤ k ↔ n < 2 ^ k := by
  induction fuel generalizing n k with
  | zero =>
    have : n = 0 := by simp at hn; exact hn
    subst this
    simp [bitReqGo, Nat.two_pow_pos]
  | succ fuel ih =>
    rw [bitReqGo]
    by_cases h0 : n = 0
    · subst h0; simp [Nat.two_pow_pos]
    · rw [if_neg h0, Nat.shiftRight_eq_div_pow, Nat.pow_one]
      cases k with
      | zero => simp; omega
      | succ k =>
        rw [Nat.add_le_add_iff_right, ih]
        · rw [Nat.pow_succ]; omega
        · rw [Nat.pow_succ] at hn; omega

theorem bitReq_le_iff (n k : Nat) (hn : n < 2 ^ 64) : bitReq n ≤ k ↔ n < 2 ^ k :=
  bitReqGo_le_iff 64 n k hn

theorem lt_two_pow_bitReq (n : Nat) (hn : n < 2 ^ 64) : n < 2 ^ bitReq n :=
  (bitReq_le_iff n _ hn).mp (Nat.le_refl _)

theorem bitReq_le_64 (n : Nat) (hn : n < 2 ^ 64) : bitReq n ≤ 64 := (bitReq_le_iff n 64 hn).mpr hn

theorem prefixMask_testBit (max i : Nat) (hm : max < 2 ^ 64) :
    (prefixMask max).testBit i = (decide (bitReq max ≤ i) && decide (i < 64)) := by
  unfold prefixMask
  rw [Nat.testBit_mod_two_pow, Nat.testBit_shiftLeft]
  have h1 : (0xffffffffffffffff : Nat) = 2 ^ 64 - 1 := by decide
  rw [h1, Nat.testBit_two_pow_sub_one]
  by_cases h : i < 64
  · have : i - bitReq max < 64 := by omega
    simp [h, this]
  · simp [h]

theorem and_prefixMask_shift (value max : Nat) (hv : value < 2 ^ 64) (hm : max < 2 ^ 64) :
    (value &&& prefixMask max) >>> bitReq max = value / 2 ^ bitReq max := by
  rw [← Nat.shiftRight_eq_div_pow]
  apply Nat.eq_of_testBit_eq
  intro i
  rw [Nat.testBit_shiftRight, Nat.testBit_shiftRight, Nat.testBit_and, prefixMask_testBit _ _ hm]
  by_cases h : bitReq max + i < 64
  · simp [h]
  · have : value.testBit (bitReq max + i) = false := by
      apply Nat.testBit_lt_two_pow
      exact Nat.lt_of_lt_of_le hv (Nat.pow_le_pow_right (by omega) (by omega))
    simp [this]

theorem and_not_prefixMask (value max : Nat) (hv : value < 2 ^ 64) (hm : max < 2 ^ 64) :
    value &&& (0xffffffffffffffff ^^^ prefixMask max) = value % 2 ^ bitReq max := by
  apply Nat.eq_of_testBit_eq
  intro i
  have h1 : (0xffffffffffffffff : Nat) = 2 ^ 64 - 1 := by decide
  rw [Nat.testBit_and, Nat.testBit_xor, prefixMask_testBit _ _ hm, Nat.testBit_mod_two_pow, h1,
    Nat.testBit_two_pow_sub_one]
  by_cases h : i < 64
  · by_cases h2 : bitReq max ≤ i
    · have : ¬ i < bitReq max := by omega
      simp [h, h2, this]
    · have : i < bitReq max := by omega
      simp [h, h2, this]
  · have : value.testBit i = false := by
      apply Nat.testBit_lt_two_pow
      exact Nat.lt_of_lt_of_le hv (Nat.pow_le_pow_right (by omega) (by omega))
    simp [this]

theorem and_prefixMask (value max : Nat) (hv : value < 2 ^ 64) (hm : max < 2 ^ 64) :
    value &&& prefixMask max = (value / 2 ^ bitReq max) <<< bitReq max := by
  rw [← Nat.shiftRight_eq_div_pow]
  apply Nat.eq_of_testBit_eq
  intro i
  rw [Nat.testBit_shiftLeft, Nat.testBit_shiftRight, Nat.testBit_and, prefixMask_testBit _ _ hm]
  by_cases h : bitReq max ≤ i
  · rw [show bitReq max + (i - bitReq max) = i by omega]
    by_cases h2 : i < 64
    · simp [h, h2]
    · have : value.testBit i = false := by
        apply Nat.testBit_lt_two_pow
        exact Nat.lt_of_lt_of_le hv (Nat.pow_le_pow_right (by omega) (by omega))
      simp [this]
  · simp [h]

theorem verify_iff (m mn mx pos pfx : Nat) :
    verify m mn mx pos pfx = true ↔
      0 < m ∧ m ≤ 0xff ∧ mx ≤ 0xffffffff ∧ mn ≤ mx ∧ m ≤ mx - mn + 1 ∧ pos < m ∧
      bitReq pfx + bitReq mx ≤ 64 := by
  unfold verify
  repeat' split
  all_goals simp
  all_goals omega

theorem prefix_fits {pfx max : Nat} (hp : pfx < 2 ^ 64) (h : bitReq pfx + bitReq max ≤ 64) :
    pfx * 2 ^ bitReq max < 2 ^ 64 := by
  have h1 : pfx < 2 ^ (64 - bitReq max) := (bitReq_le_iff _ _ hp).mp (by omega)
  have h2 : (2 : Nat) ^ 64 = 2 ^ (64 - bitReq max) * 2 ^ bitReq max := by
    rw [← Nat.pow_add]; congr 1; omega
  rw [h2]
  exact Nat.mul_lt_mul_of_pos_right h1 (Nat.two_pow_pos _)

theorem applyPrefix_eq {value max pfx : Nat} (hv : value < 2 ^ bitReq max) (hp : pfx < 2 ^ 64)
    (h : bitReq pfx + bitReq max ≤ 64) : applyPrefix value max pfx = pfx * 2 ^ bitReq max + value := by
  unfold applyPrefix
  rw [Nat.shiftLeft_eq, Nat.mod_eq_of_lt (prefix_fits hp h), Nat.or_comm, ← Nat.shiftLeft_eq,
    Nat.shiftLeft_add_eq_or_of_lt hv]

/-! ## C08 -/

/-- The smallest id ≥ `min` on the generator's residue. -/
theorem wrap_isLeast {mod min max pos : Nat} (hm : 0 < mod) (hp : pos < mod) (hr : mod ≤ max - min + 1)
    (hmm : min ≤ max) :
    IsLeast (Valid mod min max pos)
      (if min - min % mod + pos < min then min - min % mod + pos + mod else min - min % mod + pos) := by
  have hd : min - min % mod = mod * (min / mod) := by
    have := Nat.div_add_mod min mod; omega
  have hlt := Nat.mod_lt min hm
  have hmod : ∀ k, (mod * k + pos) % mod = pos := by
    intro k; rw [Nat.mul_add_mod, Nat.mod_eq_of_lt hp]
  have hle := Nat.mod_le min mod
  rw [hd]
  split
  · rename_i h
    have e : mod * (min / mod) + pos + mod = mod * (min / mod + 1) + pos := by rw [Nat.mul_add]; omega
    rw [e]
    refine ⟨⟨?_, ?_, hmod _⟩, ?_⟩
    · rw [← e]; omega
    · rw [← e]; omega
    · rintro w ⟨h1, h2, h3⟩
      rw [← e]
      have hw := Nat.div_add_mod w mod
      rw [h3] at hw
      have : mod * (min / mod) < mod * (w / mod) := by omega
      have h4 : min / mod < w / mod := Nat.lt_of_mul_lt_mul_left this
      have h5 : mod * (min / mod + 1) ≤ mod * (w / mod) := Nat.mul_le_mul_left _ h4
      rw [Nat.mul_add] at h5; omega
  · rename_i h
    refine ⟨⟨by omega, by omega, hmod _⟩, ?_⟩
    rintro w ⟨h1, h2, h3⟩
    have hw := Nat.div_add_mod w mod
    rw [h3] at hw
    have : min / mod ≤ w / mod := Nat.div_le_div_right h1
    have h5 : mod * (min / mod) ≤ mod * (w / mod) := Nat.mul_le_mul_left _ this
    omega

theorem incMod_eq {mod min max pos pfx : Nat} (value : Nat) (h : verify mod min max pos pfx = true)
    (hv : value < 2 ^ 32) :
    incMod value mod min max pos =
      if value - value % mod + mod + pos > max ∨ value - value % mod + mod + pos < min then
        (if min - min % mod + pos < min then min - min % mod + pos + mod else min - min % mod + pos)
      else value - value % mod + mod + pos := by
  obtain ⟨h1, h2, h3, h4, h5, h6, _⟩ := (verify_iff _ _ _ _ _).mp h
  have hl := (wrap_isLeast h1 h6 h5 h4).1
  unfold incMod
  simp only
  rw [Nat.mod_eq_of_lt (a := value - value % mod + mod + pos) (b := 2 ^ 64) (by omega),
    Nat.mod_eq_of_lt (a := min - min % mod + pos) (b := 2 ^ 64) (by omega),
    Nat.mod_eq_of_lt (a := min - min % mod + pos + mod) (b := 2 ^ 64) (by omega)]
  split
  · apply Nat.mod_eq_of_lt
    have := hl.2.1
    omega
  · apply Nat.mod_eq_of_lt; omega

/-- **C08** For every accepted parameter set and every 32 bit start value the
next id is in [min,max] and congruent to the position. -/
theorem incMod_valid (mod min max pos pfx value : Nat) (h : verify mod min max pos pfx = true)
    (hv : value < 2 ^ 32) : Valid mod min max pos (incMod value mod min max pos) := by
  rw [incMod_eq value h hv]
  obtain ⟨h1, h2, h3, h4, h5, h6, _⟩ := (verify_iff _ _ _ _ _).mp h
  split
  · exact (wrap_isLeast h1 h6 h5 h4).1
  · refine ⟨by omega, by omega, ?_⟩
    have hd : value - value % mod = mod * (value / mod) := by
      have := Nat.div_add_mod value mod; omega
    rw [hd, show mod * (value / mod) + mod + pos = mod * (value / mod + 1) + pos by rw [Nat.mul_add]; omega,
      Nat.mul_add_mod, Nat.mod_eq_of_lt h6]

/-- **C08** From a valid id the next one is the smallest larger valid id, or, if
there is none, the smallest valid id. -/
theorem incMod_next (mod min max pos pfx value : Nat) (h : verify mod min max pos pfx = true)
    (hv : Valid mod min max pos value) :
    IsLeast (fun w => Valid mod min max pos w ∧ value < w) (incMod value mod min max pos) ∨
    ((∀ w, Valid mod min max pos w → w ≤ value) ∧
      IsLeast (Valid mod min max pos) (incMod value mod min max pos)) := by
  obtain ⟨h1, h2, h3, h4, h5, h6, _⟩ := (verify_iff _ _ _ _ _).mp h
  obtain ⟨hv1, hv2, hv3⟩ := hv
  have key : ∀ w, Valid mod min max pos w → value < w → value + mod ≤ w := by
    rintro w ⟨_, _, hw3⟩ hlt
    have a := Nat.div_add_mod w mod
    have b := Nat.div_add_mod value mod
    rw [hw3] at a; rw [hv3] at b
    have : value / mod < w / mod := by
      apply Nat.lt_of_mul_lt_mul_left (a := mod); omega
    have h5 : mod * (value / mod + 1) ≤ mod * (w / mod) := Nat.mul_le_mul_left _ this
    rw [Nat.mul_add] at h5; omega
  rw [incMod_eq value h (by omega), hv3]
  have e : value - pos + mod + pos = value + mod := by
    have := Nat.mod_le value mod; omega
  rw [e]
  split
  · right
    refine ⟨?_, wrap_isLeast h1 h6 h5 h4⟩
    intro w hw
    apply Nat.le_of_not_lt
    intro hlt
    have := key w hw hlt
    have := hw.2.1
    omega
  · left
    refine ⟨⟨⟨by omega, by omega, ?_⟩, by omega⟩, ?_⟩
    · rw [Nat.add_mod_right]; exact hv3
    · rintro w ⟨hw, hlt⟩
      exact key w hw hlt

/-- `n` increments starting from `v`. -/
def iter (mod min max pos : Nat) : Nat → Nat → Nat
  | 0, v => v
  | n + 1, v => incMod (iter mod min max pos n v) mod min max pos

/-- **C08** Any number of increments from any start value stays valid. -/
theorem iter_valid (mod min max pos pfx n v : Nat) (h : verify mod min max pos pfx = true)
    (hv : v < 2 ^ 32) : Valid mod min max pos (iter mod min max pos (n + 1) v) := by
  have h3 := ((verify_iff _ _ _ _ _).mp h).2.2.1
  induction n with
  | zero => exact incMod_valid mod min max pos pfx v h hv
  | succ n ih =>
    have := ih.2.1
    exact incMod_valid mod min max pos pfx _ h (by omega)

/-- **C08** Generators with the same modulus and different positions never
produce the same id, whatever their ranges and start values. -/
theorem iter_no_collision (mod min₁ max₁ pos₁ pfx₁ n₁ v₁ min₂ max₂ pos₂ pfx₂ n₂ v₂ : Nat)
    (h₁ : verify mod min₁ max₁ pos₁ pfx₁ = true) (h₂ : verify mod min₂ max₂ pos₂ pfx₂ = true)
    (hv₁ : v₁ < 2 ^ 32) (hv₂ : v₂ < 2 ^ 32) (hne : pos₁ ≠ pos₂) :
    iter mod min₁ max₁ pos₁ (n₁ + 1) v₁ ≠ iter mod min₂ max₂ pos₂ (n₂ + 1) v₂ := by
  intro e
  have a := (iter_valid mod min₁ max₁ pos₁ pfx₁ n₁ v₁ h₁ hv₁).2.2
  have b := (iter_valid mod min₂ max₂ pos₂ pfx₂ n₂ v₂ h₂ hv₂).2.2
  rw [e] at a; omega

/-- **C08** Starting at the smallest valid id, the ids go up by `mod` until the
range is exhausted: no id is reused before all have been used. -/
theorem iter_sweep (mod min max pos pfx n v : Nat) (h : verify mod min max pos pfx = true)
    (hv : IsLeast (Valid mod min max pos) v) (hn : v + n * mod ≤ max) :
    iter mod min max pos n v = v + n * mod := by
  obtain ⟨h1, h2, h3, h4, h5, h6, _⟩ := (verify_iff _ _ _ _ _).mp h
  obtain ⟨⟨hv1, hv2, hv3⟩, hv4⟩ := hv
  induction n with
  | zero => simp [iter]
  | succ n ih =>
    have e : (n + 1) * mod = n * mod + mod := by rw [Nat.add_mul]; omega
    rw [e] at hn ⊢
    rw [iter, ih (by omega), incMod_eq _ h (by omega)]
    have hm : (v + n * mod) % mod = pos := by rw [Nat.add_mul_mod_self_right]; exact hv3
    rw [hm]
    have := Nat.mod_le (v + n * mod) mod
    rw [hm] at this
    rw [if_neg (by omega)]
    omega

/-- **C08** ... and then start over at the smallest valid id. -/
theorem iter_sweep_wrap (mod min max pos pfx n v : Nat) (h : verify mod min max pos pfx = true)
    (hv : IsLeast (Valid mod min max pos) v) (hn : v + n * mod ≤ max) (hn' : max < v + (n + 1) * mod) :
    iter mod min max pos (n + 1) v = v := by
  obtain ⟨h1, h2, h3, h4, h5, h6, _⟩ := (verify_iff _ _ _ _ _).mp h
  have e : (n + 1) * mod = n * mod + mod := by rw [Nat.add_mul]; omega
  rw [e] at hn'
  rw [iter, iter_sweep mod min max pos pfx n v h hv hn, incMod_eq _ h (by omega)]
  have hm : (v + n * mod) % mod = pos := by rw [Nat.add_mul_mod_self_right]; exact hv.1.2.2
  rw [hm]
  have := Nat.mod_le (v + n * mod) mod
  rw [hm] at this
  rw [if_pos (by omega)]
  have hl := wrap_isLeast h1 h6 h5 h4
  exact Nat.le_antisymm (hl.2 v hv.1) (hv.2 _ hl.1)

/-- **C08** The plain increment stays in range, always. -/
theorem incBasic_range (value step min max : Nat) (h1 : min ≤ max) (h2 : max < 2 ^ 32) :
    min ≤ incBasic value step min max ∧ incBasic value step min max ≤ max := by
  unfold incBasic
  simp only
  split
  · rw [Nat.mod_eq_of_lt (by omega)]; omega
  · rw [Nat.mod_eq_of_lt (by omega)]; omega

/-- **C08** (partial) The plain increment adds the step, or restarts at the minimum
when that leaves the range, provided the sum fits in 32 bits. Missing: sums of
2^32 or more, see the counterexample. -/
theorem incBasic_partial (value step min max : Nat) (h1 : min ≤ max) (h2 : max < 2 ^ 32) (h3 : min ≤ value)
    (h4 : value + step < 2 ^ 32) :
    incBasic value step min max = if value + step ≤ max then value + step else min := by
  unfold incBasic
  simp only
  rw [Nat.mod_eq_of_lt h4]
  repeat' split
  all_goals first | (rw [Nat.mod_eq_of_lt (by omega)]; done) | (rw [Nat.mod_eq_of_lt (by omega)]; omega) | omega

/-- The plain increment at the top of the 32 bit range does not restart at the minimum. -/
theorem incBasic_overflow_counterexample :
    ∃ value step min max, min ≤ value ∧ value ≤ max ∧ max < 2 ^ 32 ∧ max < value + step ∧
      incBasic value step min max ≠ min :=
  ⟨0xffffffff, 5, 1, 0xffffffff, by decide⟩

example : verify 10 5 1000 7 0x12 = true ∧ iter 10 5 1000 7 3 7 = 37 := by decide

/-! ## C09 -/

/-- **C09** Applying and stripping a prefix gives back value and prefix, and the
combined value verifies. `max` is a 32 bit value. -/
theorem strip_apply (value max pfx : Nat) (hm : max < 2 ^ 32) (hv : value ≤ max) (hp : pfx < 2 ^ 64)
    (h : bitReq pfx + bitReq max ≤ 64) :
    stripPrefix (applyPrefix value max pfx) max = some (pfx, value) ∧
    verifyValuePrefix (applyPrefix value max pfx) max pfx = true ∧
    applyPrefix value max pfx < 2 ^ 64 := by
  have hvb : value < 2 ^ bitReq max := Nat.lt_of_le_of_lt hv (lt_two_pow_bitReq _ (by omega))
  have hfit := prefix_fits hp h
  have ha := applyPrefix_eq hvb hp h
  have hlt : applyPrefix value max pfx < 2 ^ 64 := by
    unfold applyPrefix
    exact Nat.or_lt_two_pow (by omega) (Nat.mod_lt _ (by decide))
  have hdiv : applyPrefix value max pfx / 2 ^ bitReq max = pfx := by
    rw [ha, Nat.mul_comm, Nat.mul_add_div (Nat.two_pow_pos _), Nat.div_eq_of_lt hvb]; rfl
  have hmod : applyPrefix value max pfx % 2 ^ bitReq max = value := by
    rw [ha, Nat.mul_comm, Nat.mul_add_mod, Nat.mod_eq_of_lt hvb]
  refine ⟨?_, ?_, hlt⟩
  · unfold stripPrefix
    simp only
    rw [and_not_prefixMask _ _ hlt (by omega), and_prefixMask_shift _ _ hlt (by omega), hdiv, hmod,
      if_pos (by omega), Nat.mod_eq_of_lt (by omega)]
  · unfold verifyValuePrefix
    rw [and_prefixMask _ _ hlt (by omega), hdiv, Nat.shiftLeft_eq, Nat.mod_eq_of_lt hfit]
    simp

/-- **C09** Every 64 bit value verifies against a prefix exactly when that is its
own prefix, and stripping never fails. -/
theorem verifyValuePrefix_iff (value max pfx : Nat) (hm : max < 2 ^ 32) (hv : value < 2 ^ 64)
    (hp : pfx < 2 ^ 64) (h : bitReq pfx + bitReq max ≤ 64) :
    verifyValuePrefix value max pfx = true ↔ ∃ low, stripPrefix value max = some (pfx, low) := by
  have h32 : bitReq max ≤ 32 := (bitReq_le_iff _ _ (by omega)).mpr hm
  have hb : value % 2 ^ bitReq max < 2 ^ 32 :=
    Nat.lt_of_lt_of_le (Nat.mod_lt _ (Nat.two_pow_pos _)) (Nat.pow_le_pow_right (by omega) h32)
  unfold verifyValuePrefix stripPrefix
  simp only
  rw [and_not_prefixMask _ _ hv (by omega), and_prefixMask_shift _ _ hv (by omega),
    and_prefixMask _ _ hv (by omega), if_pos (by omega), Nat.shiftLeft_eq, Nat.shiftLeft_eq,
    Nat.mod_eq_of_lt (prefix_fits hp h)]
  simp only [decide_eq_true_eq, Option.some.injEq, Prod.mk.injEq, exists_and_left, exists_eq', and_true]
  constructor
  · intro e; exact (Nat.eq_of_mul_eq_mul_right (Nat.two_pow_pos _) e).symm
  · rintro rfl; rfl

/-- **C09** `bits_to_max` gives the largest number of that many bits. -/
theorem bitsToMax_eq (bits : Nat) (h : bits ≤ 64) : bitsToMax bits = some (2 ^ bits - 1) := by
  unfold bitsToMax
  rw [if_pos h]
  have : ∀ (b k : Nat), b + k ≤ 64 → bitsToMaxGo b (2 ^ k - 1) = 2 ^ (k + b) - 1 := by
    intro b
    induction b with
    | zero => intro k _; rfl
    | succ b ih =>
      intro k hk
      rw [bitsToMaxGo]
      have e : ((2 ^ k - 1) <<< 1 % 2 ^ 64) ||| 1 = 2 ^ (k + 1) - 1 := by
        have hp := Nat.two_pow_pos k
        have hle : 2 ^ (k + 1) ≤ 2 ^ 64 := Nat.pow_le_pow_right (by omega) (by omega)
        rw [Nat.shiftLeft_eq, Nat.mod_eq_of_lt (by rw [Nat.pow_succ] at hle; omega)]
        have := Nat.shiftLeft_add_eq_or_of_lt (i := 1) (b := 1) (by decide) (2 ^ k - 1)
        rw [Nat.shiftLeft_eq] at this
        rw [← this, Nat.pow_succ]; omega
      rw [e, ih (k + 1) (by omega)]
      congr 2; omega
  have := this bits 0 (by omega)
  simpa using this

example : applyPrefix 5 0xff 0x12 = 0x1205 ∧ stripPrefix 0x1205 0xff = some (0x12, 5) := by decide

/-! ## C41: id assignment by the incrementer module -/

/-- Every assigned id consists of a prefix and a valid low part, and the prefix is
the configured one if one is configured. -/
theorem nextId_form (c : Cfg) (old new : Nat) (hc : c.accepted = true) (hp : c.pfx < 2 ^ 64)
    (ho : old < 2 ^ 64) (h : nextId c old = some new) :
    ∃ pfx low, stripPrefix new c.max = some (pfx, low) ∧ Valid c.mod c.min c.max c.pos low ∧
      (0 < c.pfx → pfx = c.pfx) := by
  have hv := (verify_iff _ _ _ _ _).mp hc
  obtain ⟨h1, h2, h3, h4, h5, h6, h7⟩ := hv
  have fin : ∀ pfx low, pfx < 2 ^ 64 → bitReq pfx + bitReq c.max ≤ 64 → (0 < c.pfx → pfx = c.pfx) →
      low < 2 ^ 32 →
      new = applyPrefix (incMod low c.mod c.min c.max c.pos) c.max pfx →
      ∃ pfx low, stripPrefix new c.max = some (pfx, low) ∧ Valid c.mod c.min c.max c.pos low ∧
        (0 < c.pfx → pfx = c.pfx) := by
    intro pfx low hp1 hp2 hp3 hl e
    have hval := incMod_valid c.mod c.min c.max c.pos c.pfx low hc hl
    subst e
    exact ⟨pfx, _, (strip_apply _ c.max pfx (by omega) hval.2.1 hp1 hp2).1, hval, hp3⟩
  unfold nextId at h
  simp only at h
  split at h
  · simp at h
    exact fin c.pfx 0 hp h7 (fun _ => rfl) (by decide) h.symm
  · split at h
    · contradiction
    · rename_i hver
      unfold stripPrefix at h
      simp only at h
      have hb32 : bitReq c.max ≤ 32 := (bitReq_le_iff _ _ (by omega)).mpr (by omega)
      have hb : old % 2 ^ bitReq c.max < 2 ^ 32 :=
        Nat.lt_of_lt_of_le (Nat.mod_lt _ (Nat.two_pow_pos _)) (Nat.pow_le_pow_right (by omega) hb32)
      rw [and_not_prefixMask _ _ ho (by omega), and_prefixMask_shift _ _ ho (by omega), if_pos (by omega),
        Nat.mod_eq_of_lt hb] at h
      simp only [Option.some.injEq] at h
      rw [if_neg (by omega)] at h
      have hq : old / 2 ^ bitReq c.max < 2 ^ 64 := Nat.lt_of_le_of_lt (Nat.div_le_self _ _) ho
      have hqb : bitReq (old / 2 ^ bitReq c.max) + bitReq c.max ≤ 64 := by
        have : bitReq (old / 2 ^ bitReq c.max) ≤ 64 - bitReq c.max := by
          rw [bitReq_le_iff _ _ hq, Nat.div_lt_iff_lt_mul (Nat.two_pow_pos _), ← Nat.pow_add]
          rw [show 64 - bitReq c.max + bitReq c.max = 64 by omega]; exact ho
        omega
      by_cases h0 : old / 2 ^ bitReq c.max = 0
      · rw [if_pos h0] at h
        exact fin c.pfx _ hp h7 (fun _ => rfl) hb h.symm
      · rw [if_neg h0] at h
        refine fin _ _ hq hqb ?_ hb h.symm
        intro hpos
        have hver' : verifyValuePrefix old c.max c.pfx = true := by
          cases hx : verifyValuePrefix old c.max c.pfx with
          | true => rfl
          | false => exact absurd ⟨hpos, hx⟩ hver
        rw [verifyValuePrefix_iff _ _ _ (by omega) ho hp h7] at hver'
        obtain ⟨low, hlow⟩ := hver'
        unfold stripPrefix at hlow
        simp only at hlow
        rw [and_prefixMask_shift _ _ ho (by omega)] at hlow
        split at hlow
        · simp only [Option.some.injEq, Prod.mk.injEq] at hlow; exact hlow.1
        · contradiction

/-- Ids in a state fit in 64 bits. -/
def StateOk (s : State) : Prop :=
  (∀ e ∈ s.used, e.2 < 2 ^ 64) ∧ (∀ e ∈ s.initial, e.2 < 2 ^ 64)

theorem lookup_mem {m : List (Bytes × Nat)} {k : Bytes} {v : Nat} (h : lookup m k = some v) :
    (k, v) ∈ m := by
  induction m with
  | nil => simp [lookup] at h
  | cons e m ih =>
    obtain ⟨k', v'⟩ := e
    rw [lookup] at h
    split at h
    · rename_i hk; simp at h; simp [hk, h]
    · exact List.mem_cons_of_mem _ (ih h)

theorem lookup_replace_self (m : List (Bytes × Nat)) (k : Bytes) (v : Nat) :
    lookup (replace m k v) k = some v := by simp [replace, lookup]

theorem lookup_replace_ne (m : List (Bytes × Nat)) (k k' : Bytes) (v : Nat) (h : k' ≠ k) :
    lookup (replace m k v) k' = lookup m k' := by
  unfold replace
  rw [lookup, if_neg (Ne.symm h)]
  induction m with
  | nil => rfl
  | cons e m ih =>
    obtain ⟨a, b⟩ := e
    by_cases ha : a = k
    · simp only [ha, ne_eq, not_true_eq_false, decide_false, Bool.false_eq_true, not_false_eq_true,
        List.filter_cons_of_neg]
      rw [ih, lookup, if_neg (Ne.symm h)]
    · simp only [ha, ne_eq, not_false_eq_true, decide_true, List.filter_cons_of_pos]
      rw [lookup, lookup, ih]

theorem getId_lt {s : State} (hs : StateOk s) (t : Bytes) : getId s t < 2 ^ 64 := by
  unfold getId
  cases h : lookup s.used t with
  | some v => exact hs.1 _ (lookup_mem h)
  | none =>
    cases h2 : lookup s.initial t with
    | some v => simpa using hs.2 _ (lookup_mem h2)
    | none => simp

theorem nextId_lt {c : Cfg} {old new : Nat} (hc : c.accepted = true) (h : nextId c old = some new) :
    new < 2 ^ 64 := by
  have hv := (verify_iff _ _ _ _ _).mp hc
  have : ∀ v p, applyPrefix (incMod v c.mod c.min c.max c.pos) c.max p < 2 ^ 64 := by
    intro v p
    unfold applyPrefix
    refine Nat.or_lt_two_pow ?_ (Nat.mod_lt _ (by decide))
    unfold incMod
    exact Nat.lt_trans (Nat.mod_lt _ (by decide)) (by decide)
  unfold nextId at h
  simp only at h
  split at h
  · simp only [Option.some.injEq] at h; rw [← h]; exact this _ _
  · split at h
    · contradiction
    · split at h
      · contradiction
      · simp only [Option.some.injEq] at h; rw [← h]; exact this _ _

theorem replace_lt {m : List (Bytes × Nat)} {k : Bytes} {v : Nat} (hm : ∀ e ∈ m, e.2 < 2 ^ 64)
    (hv : v < 2 ^ 64) : ∀ e ∈ replace m k v, e.2 < 2 ^ 64 := by
  intro e he
  unfold replace at he
  rcases List.mem_cons.mp he with rfl | he
  · exact hv
  · exact hm e (List.mem_filter.mp he).1

theorem step_stateOk {c : Cfg} {s : State} {m : Msg} (hc : c.accepted = true) (hs : StateOk s)
    (hm : ∀ t id, m = .setId t id → id < 2 ^ 64) : StateOk (step c s m).2 := by
  cases m with
  | subject t =>
    simp only [step]
    cases h : nextId c (getId s t) with
    | none => exact hs
    | some id => exact ⟨replace_lt hs.1 (nextId_lt hc h), hs.2⟩
  | setId t id =>
    simp only [step]
    split
    · exact hs
    · exact ⟨hs.1, replace_lt hs.2 (hm t id rfl)⟩

/-- **C41** In every history, every id assigned by an incrementer instance has a
valid low part, and the configured prefix if one is configured. -/
theorem run_ids_valid (c : Cfg) (s : State) (ms : List Msg) (hc : c.accepted = true)
    (hp : c.pfx < 2 ^ 64) (hs : StateOk s) (hm : ∀ t id, Msg.setId t id ∈ ms → id < 2 ^ 64)
    (id : Nat) (h : some id ∈ run c s ms) :
    ∃ pfx low, stripPrefix id c.max = some (pfx, low) ∧ Valid c.mod c.min c.max c.pos low ∧
      (0 < c.pfx → pfx = c.pfx) := by
  induction ms generalizing s with
  | nil => simp [run] at h
  | cons m ms ih =>
    simp only [run] at h
    have hs' : StateOk (step c s m).2 := step_stateOk hc hs (fun t id e => hm t id (by simp [e]))
    rcases List.mem_cons.mp h with h | h
    · cases m with
      | subject t =>
        simp only [step] at h
        cases hn : nextId c (getId s t) with
        | none => rw [hn] at h; contradiction
        | some new =>
          rw [hn] at h
          simp only [Option.some.injEq] at h
          subst h
          exact nextId_form c _ _ hc hp (getId_lt hs t) hn
      | setId t i =>
        simp only [step] at h
        split at h <;> contradiction
    · exact ih _ hs' (fun t id hmem => hm t id (by simp [hmem])) h

/-- **C41** Two incrementer instances with the same modulus and maximum
and different positions never assign the same id. -/
theorem run_no_collision (c₁ c₂ : Cfg) (s₁ s₂ : State) (ms₁ ms₂ : List Msg)
    (hc₁ : c₁.accepted = true) (hc₂ : c₂.accepted = true) (hp₁ : c₁.pfx < 2 ^ 64) (hp₂ : c₂.pfx < 2 ^ 64)
    (hs₁ : StateOk s₁) (hs₂ : StateOk s₂)
    (hm₁ : ∀ t id, Msg.setId t id ∈ ms₁ → id < 2 ^ 64) (hm₂ : ∀ t id, Msg.setId t id ∈ ms₂ → id < 2 ^ 64)
    (hmod : c₁.mod = c₂.mod) (hmax : c₁.max = c₂.max) (hpos : c₁.pos ≠ c₂.pos)
    (id : Nat) (h₁ : some id ∈ run c₁ s₁ ms₁) (h₂ : some id ∈ run c₂ s₂ ms₂) : False := by
  obtain ⟨p1, l1, a1, b1, _⟩ := run_ids_valid c₁ s₁ ms₁ hc₁ hp₁ hs₁ hm₁ id h₁
  obtain ⟨p2, l2, a2, b2, _⟩ := run_ids_valid c₂ s₂ ms₂ hc₂ hp₂ hs₂ hm₂ id h₂
  rw [hmax, a2] at a1
  simp only [Option.some.injEq, Prod.mk.injEq] at a1
  obtain ⟨_, rfl⟩ := a1
  have e1 := b1.2.2
  have e2 := b2.2.2
  rw [hmod] at e1
  exact hpos (e1.symm.trans e2)

theorem steps_keep_used {c : Cfg} {t : Bytes} (ms : List Msg) (s : State)
    (hm : ∀ m ∈ ms, m ≠ .subject t) :
    lookup (ms.foldl (fun s m => (step c s m).2) s).used t = lookup s.used t := by
  induction ms generalizing s with
  | nil => rfl
  | cons m ms ih =>
    rw [List.foldl_cons, ih _ (fun x hx => hm x (by simp [hx]))]
    cases m with
    | subject t' =>
      have hne : t ≠ t' := by
        intro e; exact hm (.subject t') (by simp) (by rw [e])
      simp only [step]
      cases nextId c (getId s t') with
      | none => rfl
      | some id => exact lookup_replace_ne _ _ _ _ hne
    | setId t' id =>
      simp only [step]
      split <;> rfl

/-- **C41** The id given to a message is computed from the previous id given to
the same topic, no matter how many messages with other topics or initialisation
messages came in between. -/
theorem run_successive (c : Cfg) (s : State) (t : Bytes) (ms : List Msg) (id : Nat)
    (hm : ∀ m ∈ ms, m ≠ .subject t) (h : (step c s (.subject t)).1 = some id) :
    let s' := ms.foldl (fun s m => (step c s m).2) (step c s (.subject t)).2
    (step c s' (.subject t)).1 = nextId c id := by
  intro s'
  have hu : lookup s'.used t = some id := by
    show lookup (ms.foldl (fun s m => (step c s m).2) (step c s (.subject t)).2).used t = some id
    rw [steps_keep_used ms _ hm]
    simp only [step] at h ⊢
    cases hn : nextId c (getId s t) with
    | none => rw [hn] at h; contradiction
    | some new =>
      rw [hn] at h
      simp only [Option.some.injEq] at h
      subst h
      exact lookup_replace_self _ _ _
  simp only [step, getId, hu]
  cases nextId c id <;> rfl

/-- **C41** Consecutive ids of a topic: the low part moves to the next valid
number, the prefix stays. -/
theorem nextId_next (c : Cfg) (pfx low : Nat) (hc : c.accepted = true) (hpx : pfx < 2 ^ 64)
    (hfit : bitReq pfx + bitReq c.max ≤ 64) (hcp : 0 < c.pfx → pfx = c.pfx)
    (hlow : Valid c.mod c.min c.max c.pos low) :
    nextId c (applyPrefix low c.max pfx) =
      some (applyPrefix (incMod low c.mod c.min c.max c.pos) c.max pfx) := by
  obtain ⟨h1, h2, h3, h4, h5, h6, h7⟩ := (verify_iff _ _ _ _ _).mp hc
  obtain ⟨hs, hv, _⟩ := strip_apply low c.max pfx (by omega) hlow.2.1 hpx hfit
  have hz : pfx = 0 → c.pfx = 0 := by
    intro e
    rcases Nat.eq_zero_or_pos c.pfx with h | h
    · exact h
    · have := hcp h; omega
  have hle := hlow.2.1
  unfold nextId
  simp only
  split
  · rename_i h0
    have hb : low < 2 ^ bitReq c.max := Nat.lt_of_le_of_lt hle (lt_two_pow_bitReq _ (by omega))
    rw [applyPrefix_eq hb hpx hfit] at h0
    have hl0 : low = 0 := by omega
    have hp0 : pfx = 0 := by
      rcases Nat.eq_zero_or_pos pfx with h | h
      · exact h
      · have := Nat.mul_pos h (Nat.two_pow_pos (bitReq c.max)); omega
    subst hl0 hp0
    rw [hz rfl]; simp
  · rw [if_neg]
    · rw [hs]
      simp only
      rw [if_neg (by omega)]
      split
      · rename_i h0; rw [hz h0, h0]
      · rfl
    · rintro ⟨hpos, hver⟩
      rw [← hcp hpos, hv] at hver
      contradiction

example : run ⟨10, 1, 1000, 3, 0x12⟩ ⟨[], []⟩ [.subject [0x61], .subject [0x62], .subject [0x61]] =
    [some 0x480d, some 0x480d, some 0x4817] := by decide

end Verif.Increment
