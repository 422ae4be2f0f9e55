import Verif.Checked.Model
/-!
# C33: checked length arithmetic never wraps silently

Specification: `exactly w fail x` is the exact integer `x` when it fits in `w` bits
unsigned, else the failure `fail`. Each theorem says that a helper applied to any
operands is `exactly` the mathematical sum, difference or product of the operands.
-/
namespace Verif.Checked

/-- The exact integer when it fits in `w` unsigned bits, otherwise the failure. -/
def exactly (w : Nat) (fail : Out Int) (x : Int) : Out Int :=
  if 0 ≤ x ∧ x < 2 ^ w then .ok x else fail

/-- Value of a 32 bit outcome as an integer. -/
def v32 (o : Out UInt32) : Out Int := o.map (fun x => (x.toNat : Int))
/-- Value of a 64 bit outcome as an integer. -/
def v64 (o : Out UInt64) : Out Int := o.map (fun x => (x.toNat : Int))
/-- Value of a 16 bit outcome as an integer. -/
def v16 (o : Out UInt16) : Out Int := o.map (fun x => (x.toNat : Int))

theorem u32lt (a : UInt32) : a.toNat < 4294967296 := a.toNat_lt
theorem u64lt (a : UInt64) : a.toNat < 18446744073709551616 := a.toNat_lt

macro "chk32" : tactic => `(tactic| (
  simp only [v32, v64, v16, exactly, UInt32.lt_iff_toNat_lt, UInt64.lt_iff_toNat_lt, gt_iff_lt,
    UInt32.toNat_add, UInt32.toNat_sub, UInt64.toNat_add, UInt64.toNat_sub, UInt64.toNat_toUInt32,
    UInt64.toNat_toUInt16, UInt32.toNat_toUInt64, UInt64.toNat_mul,
    lengthMax, u16Max, ← UInt32.toNat_inj, ← UInt64.toNat_inj, UInt32.toNat_ofNat, UInt64.toNat_ofNat]
  repeat' split
  all_goals simp_all only [Out.map, Out.ok.injEq, reduceCtorEq, UInt32.toNat_add, UInt32.toNat_sub,
    UInt64.toNat_add, UInt64.toNat_sub, UInt64.toNat_toUInt32, UInt64.toNat_toUInt16,
    UInt32.toNat_toUInt64, UInt32.toNat_ofNat, UInt64.toNat_ofNat]
  all_goals omega))

/-- C33: 32 bit subtraction (`rrr_length_sub_bug`, `_const`). -/
theorem lengthSubBug_exact (a b : UInt32) :
    v32 (lengthSubBug a b) = exactly 32 .bug ((a.toNat : Int) - b.toNat) := by
  have := u32lt a; have := u32lt b
  unfold lengthSubBug; chk32

/-- C33: 32 bit addition (`rrr_length_add_bug_const`). -/
theorem lengthAddBugConst_exact (a b : UInt32) :
    v32 (lengthAddBugConst a b) = exactly 32 .bug ((a.toNat : Int) + b.toNat) := by
  have := u32lt a; have := u32lt b
  unfold lengthAddBugConst; chk32

/-- C33: `rrr_length_add_err`. -/
theorem lengthAddErr_exact (a b : UInt32) :
    v32 (lengthAddErr a b) = exactly 32 .err ((a.toNat : Int) + b.toNat) := by
  have := u32lt a; have := u32lt b
  unfold lengthAddErr; chk32

/-- C33: `rrr_length_add_bug`. -/
theorem lengthAddBug_exact (a b : UInt32) :
    v32 (lengthAddBug a b) = exactly 32 .bug ((a.toNat : Int) + b.toNat) := by
  have h := lengthAddErr_exact a b
  unfold lengthAddBug
  cases hx : lengthAddErr a b <;> rw [hx] at h <;>
    (simp only [v32, Out.map, exactly] at h ⊢; split at h <;> simp_all)

/-- C33: 64 bit subtraction (`rrr_biglength_sub_bug`). -/
theorem biglengthSubBug_exact (a b : UInt64) :
    v64 (biglengthSubBug a b) = exactly 64 .bug ((a.toNat : Int) - b.toNat) := by
  have := u64lt a; have := u64lt b
  unfold biglengthSubBug; chk32

/-- C33: `rrr_biglength_sub_bug_const`. -/
theorem biglengthSubBugConst_exact (a b : UInt64) :
    v64 (biglengthSubBugConst a b) = exactly 64 .bug ((a.toNat : Int) - b.toNat) := by
  have := u64lt a; have := u64lt b
  unfold biglengthSubBugConst; chk32

/-- C33: 64 bit addition (`rrr_biglength_add_err`). -/
theorem biglengthAddErr_exact (a b : UInt64) :
    v64 (biglengthAddErr a b) = exactly 64 .err ((a.toNat : Int) + b.toNat) := by
  have := u64lt a; have := u64lt b
  unfold biglengthAddErr; chk32

/-- C33: `rrr_biglength_add_bug`. -/
theorem biglengthAddBug_exact (a b : UInt64) :
    v64 (biglengthAddBug a b) = exactly 64 .bug ((a.toNat : Int) + b.toNat) := by
  have h := biglengthAddErr_exact a b
  unfold biglengthAddBug
  cases hx : biglengthAddErr a b <;> rw [hx] at h <;>
    (simp only [v64, Out.map, exactly] at h ⊢; split at h <;> simp_all)

/-- C33: `rrr_length_inc_err` reports exactly the overflow. -/
theorem lengthIncErr_exact (a : UInt32) :
    v32 (lengthIncErr a).1 = exactly 32 .err ((a.toNat : Int) + 1) := by
  have := u32lt a
  unfold lengthIncErr; dsimp only
  split
  · rename_i h
    have h2 : (a + 1).toNat = 0 := by rw [h]; rfl
    rw [UInt32.toNat_add] at h2
    have : (1 : UInt32).toNat = 1 := rfl
    simp only [v32, exactly, Out.map]; split <;> first | rfl | omega
  · rename_i h
    have h2 : (a + 1).toNat ≠ 0 := fun e => h (UInt32.toNat_inj.mp (by rw [e]; rfl))
    have h3 := UInt32.toNat_add a 1
    have : (1 : UInt32).toNat = 1 := rfl
    simp only [v32, exactly, Out.map]; split
    · congr 1; omega
    · omega

/-- Disagreement worth knowing: after an error from `rrr_length_inc_err` the counter has
already been overwritten with 0 (unlike `rrr_length_add_err`, which leaves it alone). -/
theorem lengthIncErr_clobbers : (lengthIncErr 0xffffffff) = (.err, 0) := by decide +kernel

/-- C33: `rrr_length_inc_bug` and variants. -/
theorem lengthIncBug_exact (a : UInt32) :
    v32 (lengthIncBug a) = exactly 32 .bug ((a.toNat : Int) + 1) := by
  have h := lengthIncErr_exact a
  unfold lengthIncErr at h; unfold lengthIncBug; dsimp only at h ⊢
  split at h <;> rename_i hc
  · rw [if_pos hc]
    simp only [v32, Out.map, exactly] at h ⊢
    split at h <;> simp_all
  · rw [if_neg hc]
    simp only [v32, Out.map, exactly] at h ⊢
    split at h <;> simp_all

/-- C33: `rrr_biglength_inc_bug`, `rrr_size_t_inc_bug`. -/
theorem biglengthIncBug_exact (a : UInt64) :
    v64 (biglengthIncBug a) = exactly 64 .bug ((a.toNat : Int) + 1) := by
  have := u64lt a
  have h3 := UInt64.toNat_add a 1
  have h1 : (1 : UInt64).toNat = 1 := rfl
  unfold biglengthIncBug; dsimp only
  split
  · rename_i h
    have h2 : (a + 1).toNat = 0 := by rw [h]; rfl
    simp only [v64, exactly, Out.map]; split <;> first | rfl | omega
  · rename_i h
    have h2 : (a + 1).toNat ≠ 0 := fun e => h (UInt64.toNat_inj.mp (by rw [e]; rfl))
    simp only [v64, exactly, Out.map]; split
    · congr 1; omega
    · omega

/-- C33: `rrr_length_inc_bug_old_value` returns the old value and stores the successor. -/
theorem lengthIncBugOldValue_exact (a : UInt32) :
    lengthIncBugOldValue a = if a.toNat < 2 ^ 32 - 1 then .ok (a, a + 1) else .bug := by
  have := u32lt a
  have h := lengthIncBug_exact a
  have e : a + 1 - 1 = a := UInt32.add_sub_cancel a 1
  unfold lengthIncBugOldValue
  unfold lengthIncBug at h ⊢; dsimp only at h ⊢
  split at h
  · rename_i hc; simp only [hc, if_true]
    simp only [v32, Out.map, exactly] at h
    split at h
    · cases h
    · rw [if_neg (by omega)]
  · rename_i hc; simp only [hc, if_false, e]
    simp only [v32, Out.map, exactly] at h
    split at h
    · rw [if_pos (by omega)]
    · cases h

/-- C33: `rrr_length_dec_bug`. -/
theorem lengthDecBug_exact (a : UInt32) :
    v32 (lengthDecBug a) = exactly 32 .bug ((a.toNat : Int) - 1) := by
  have := u32lt a
  have h3 := UInt32.toNat_sub a 1
  have h1 : (1 : UInt32).toNat = 1 := rfl
  unfold lengthDecBug
  split
  · rename_i h; subst h; rfl
  · rename_i h
    have h2 : a.toNat ≠ 0 := fun e => h (UInt32.toNat_inj.mp (by rw [e]; rfl))
    simp only [v32, exactly, Out.map]; split
    · congr 1; omega
    · omega

/-- C33: 32 bit multiplication (`rrr_length_mul_bug`). -/
theorem lengthMulBug_exact (a b : UInt32) :
    v32 (lengthMulBug a b) = exactly 32 .bug ((a.toNat : Int) * b.toNat) := by
  have ha := u32lt a; have hb := u32lt b
  have hm : a.toNat * b.toNat ≤ 4294967295 * 4294967295 :=
    Nat.mul_le_mul (by omega) (by omega)
  have hr : (a.toUInt64 * b.toUInt64).toNat = a.toNat * b.toNat := by
    rw [UInt64.toNat_mul, UInt32.toNat_toUInt64, UInt32.toNat_toUInt64]
    exact Nat.mod_eq_of_lt (by omega)
  have hc : ((a.toNat : Int) * b.toNat) = ((a.toNat * b.toNat : Nat) : Int) := by simp
  unfold lengthMulBug
  simp only [hr, hc, v32, exactly, lengthMax]
  generalize a.toNat * b.toNat = m at *
  split
  · simp only [Out.map]; split <;> first | rfl | omega
  · simp only [Out.map, UInt64.toNat_toUInt32, hr]
    split
    · congr 1; omega
    · omega

/-- C33: 64 bit multiplication (`rrr_biglength_mul_err`): the division test catches
every overflow. -/
theorem biglengthMulErr_exact (a b : UInt64) :
    v64 (biglengthMulErr a b) = exactly 64 .err ((a.toNat : Int) * b.toNat) := by
  have ha := u64lt a; have hb := u64lt b
  have hc : ((a.toNat : Int) * b.toNat) = ((a.toNat * b.toNat : Nat) : Int) := by simp
  unfold biglengthMulErr
  simp only [hc, v64, exactly]
  by_cases h0 : a = 0
  · subst h0
    simp [Out.map]
  · have h0' : a.toNat ≠ 0 := fun e => h0 (UInt64.toNat_inj.mp (by rw [e]; rfl))
    by_cases hlt : a.toNat * b.toNat < 2 ^ 64
    · have hr : (a * b).toNat = a.toNat * b.toNat := by
        rw [UInt64.toNat_mul]; exact Nat.mod_eq_of_lt hlt
      have hd : a * b / a = b := by
        apply UInt64.toNat_inj.mp
        rw [UInt64.toNat_div, hr, Nat.mul_comm]
        exact Nat.mul_div_cancel _ (Nat.pos_of_ne_zero h0')
      rw [if_neg (by rw [hd]; simp), if_pos ⟨by omega, by exact_mod_cast hlt⟩]
      simp only [Out.map, hr]
    · have hne : a * b / a ≠ b := by
        intro e
        have e2 : (a * b / a).toNat = b.toNat := by rw [e]
        rw [UInt64.toNat_div] at e2
        have h1 : (a * b).toNat < 2 ^ 64 := u64lt _
        have h2 : b.toNat * a.toNat ≤ (a * b).toNat := by
          rw [← e2]; exact Nat.div_mul_le_self _ _
        rw [Nat.mul_comm] at h2
        omega
      rw [if_pos ⟨h0, hne⟩, if_neg (by intro h; exact hlt (by exact_mod_cast h.2))]
      rfl

/-- C33: `rrr_biglength_from_ssize_sub_bug` for any `ssize_t` operand. -/
theorem biglengthFromSsizeSubBug_exact (a : UInt64) (b : Int) (hb : b ≤ int64Max) :
    v64 (biglengthFromSsizeSubBug a b) =
      if b < 0 then .bug else exactly 64 .bug ((a.toNat : Int) - b) := by
  have ha := u64lt a
  unfold int64Max at hb
  unfold biglengthFromSsizeSubBug
  by_cases h0 : b < 0
  · simp [h0, v64, Out.map]
  · simp only [h0, false_or, if_false]
    have hb2 : (UInt64.ofNat b.toNat).toNat = b.toNat := by
      rw [UInt64.toNat_ofNat']; omega
    split
    · simp only [v64, exactly, Out.map]; split <;> first | rfl | omega
    · simp only [v64, exactly, Out.map, UInt64.toNat_sub, hb2]
      split
      · congr 1; omega
      · omega

/-- C33: `rrr_length_from_ptr_sub_err`. -/
theorem lengthFromPtrSubErr_exact (a b : UInt64) :
    v32 (lengthFromPtrSubErr a b) = exactly 32 .err ((a.toNat : Int) - b.toNat) := by
  have := u64lt a; have := u64lt b
  unfold lengthFromPtrSubErr; chk32

/-- C33: `rrr_length_from_ptr_sub_bug_const`, `rrr_length_from_biglength_sub_bug_const`. -/
theorem lengthFromPtrSubBug_exact (a b : UInt64) :
    v32 (lengthFromPtrSubBug a b) = exactly 32 .bug ((a.toNat : Int) - b.toNat) := by
  have := u64lt a; have := u64lt b
  unfold lengthFromPtrSubBug; chk32

/-- C33: `rrr_length_from_biglength_err`, `rrr_length_from_size_t_err`. -/
theorem lengthFromBiglengthErr_exact (a : UInt64) :
    v32 (lengthFromBiglengthErr a) = exactly 32 .err a.toNat := by
  have := u64lt a
  unfold lengthFromBiglengthErr; chk32

/-- C33: `rrr_length_from_biglength_bug_const`, `rrr_length_from_size_t_bug_const`. -/
theorem lengthFromBiglengthBug_exact (a : UInt64) :
    v32 (lengthFromBiglengthBug a) = exactly 32 .bug a.toNat := by
  have h := lengthFromBiglengthErr_exact a
  unfold lengthFromBiglengthBug
  cases hx : lengthFromBiglengthErr a <;> rw [hx] at h <;>
    (simp only [v32, Out.map, exactly] at h ⊢; split at h <;> simp_all)

/-- C33: `rrr_u16_from_biglength_bug_const`. -/
theorem u16FromBiglengthBug_exact (a : UInt64) :
    v16 (u16FromBiglengthBug a) = exactly 16 .bug a.toNat := by
  have := u64lt a
  unfold u16FromBiglengthBug; chk32

/-- C33: `rrr_u16_from_slength_bug_const`. -/
theorem u16FromSlengthBug_exact (a : Int) :
    v16 (u16FromSlengthBug a) = exactly 16 .bug a := by
  unfold u16FromSlengthBug u16Max
  split
  · simp only [v16, exactly, Out.map]; split <;> first | rfl | omega
  · simp only [v16, exactly, Out.map, UInt16.toNat_ofNat']
    split
    · congr 1; omega
    · omega

/-- C33: `rrr_length_from_slength_bug_const`, `rrr_length_from_ssize_bug_const`. -/
theorem lengthFromSlengthBug_exact (a : Int) :
    v32 (lengthFromSlengthBug a) = exactly 32 .bug a := by
  unfold lengthFromSlengthBug lengthMax
  split
  · simp only [v32, exactly, Out.map]; split <;> first | rfl | omega
  · split
    · simp only [v32, exactly, Out.map]; split <;> first | rfl | omega
    · simp only [v32, exactly, Out.map, UInt32.toNat_ofNat']
      split
      · congr 1; omega
      · omega

/-- Helper: range check followed by conversion. -/
theorem rangeConv (f : Out UInt32) (g : Out Int) (hf : v32 f = g) (d : Int) (h0 : 0 ≤ d) :
    v32 (if d > ((lengthMax : Nat) : Int) then f else .ok (UInt32.ofNat d.toNat)) = exactly 32 g d := by
  unfold lengthMax
  by_cases hq : d > ((4294967295 : Nat) : Int)
  · have hq' : (4294967295 : Int) < d := hq
    rw [if_pos hq, hf]; unfold exactly; rw [if_neg (by omega)]
  · have hq' : ¬ (4294967295 : Int) < d := hq
    rw [if_neg hq]; unfold exactly; rw [if_pos (by omega)]
    simp only [v32, Out.map, UInt32.toNat_ofNat']; congr 1; omega

/-- C33: `rrr_length_from_slength_err` for every 64 bit signed value. -/
theorem lengthFromSlengthErr_exact (a : Int) (ha : a ≤ int64Max) :
    v32 (lengthFromSlengthErr a) = exactly 32 .err a := by
  unfold int64Max at ha
  unfold lengthFromSlengthErr lengthFromSlengthSubErr
  split
  · simp only [v32, exactly, Out.map]; split <;> first | rfl | omega
  · have : s64 (a - 0) = some (a - 0) := by
      unfold s64; rw [if_pos (by unfold int64Min int64Max; omega)]
    rw [this]; simp only
    rw [rangeConv .err .err rfl _ (by omega)]; congr 1; omega

/-- C33: `rrr_length_from_slength_sub_err` is exact as long as the difference of the two
operands itself fits in 64 bits (otherwise the C subtraction is undefined). -/
theorem lengthFromSlengthSubErr_exact (a b : Int) (h : a - b ≤ int64Max) :
    v32 (lengthFromSlengthSubErr a b) = exactly 32 .err (a - b) := by
  unfold int64Max at h
  unfold lengthFromSlengthSubErr
  split
  · simp only [v32, exactly, Out.map]; split <;> first | rfl | omega
  · have : s64 (a - b) = some (a - b) := by
      unfold s64; rw [if_pos (by unfold int64Min int64Max; omega)]
    rw [this]; simp only
    exact rangeConv .err .err rfl _ (by omega)

/-- C33: `rrr_length_from_slength_sub_bug_const` never returns a wrong value; outside
undefined behaviour it aborts exactly when the result does not fit. -/
theorem lengthFromSlengthSubBug_exact (a b : Int) (h : a - b ≤ int64Max) :
    v32 (lengthFromSlengthSubBug a b) = exactly 32 .bug (a - b) := by
  unfold int64Max at h
  unfold lengthFromSlengthSubBug
  split
  · simp only [v32, exactly, Out.map]; split <;> first | rfl | omega
  · have : s64 (a - b) = some (a - b) := by
      unfold s64; rw [if_pos (by unfold int64Min int64Max; omega)]
    rw [this]; simp only
    exact rangeConv .bug .bug rfl _ (by omega)

/-- Finding: the two signed subtraction helpers do have operands with undefined behaviour. -/
theorem lengthFromSlengthSubErr_ub :
    lengthFromSlengthSubErr int64Max (-1) = .ub := by decide +kernel

/-- C33: a checked counter that starts at 0 and is only changed through the counter
helpers: adding any operand gives the exact sum or does not return. -/
theorem counterAdd_exact (t : Int) (op : UInt64) (h0 : 0 ≤ t) (h1 : t ≤ lengthMax)
    (r : Int) (h : counterAdd t op = .ok r) :
    r = t + op.toNat ∧ 0 ≤ r ∧ r ≤ lengthMax := by
  unfold counterAdd s64 toS64 at h
  unfold lengthMax int64Min int64Max at *
  have := u64lt op
  split at h <;> rename_i hs
  · cases h
  · split at h
    · cases h
    · cases h
      split at hs <;> split at hs <;> first | (cases hs; done) | (cases hs; omega)

/-- C33: and it does return whenever the sum is at most `RRR_LENGTH_MAX`. -/
theorem counterAdd_returns (t : Int) (op : UInt64) (h0 : 0 ≤ t) (h : t + op.toNat ≤ lengthMax) :
    counterAdd t op = .ok (t + op.toNat) := by
  unfold counterAdd s64 toS64
  unfold lengthMax int64Min int64Max at *
  have := u64lt op
  rw [if_pos (by omega), if_pos (by omega)]
  simp only
  rw [if_neg (by omega)]

/-- C33: subtraction on a checked counter. -/
theorem counterSub_exact (t : Int) (op : UInt64) (h0 : 0 ≤ t) (h1 : t ≤ lengthMax)
    (r : Int) (h : counterSub t op = .ok r) :
    r = t - op.toNat ∧ 0 ≤ r ∧ r ≤ lengthMax := by
  unfold counterSub s64 toS64 at h
  unfold lengthMax int64Min int64Max at *
  have := u64lt op
  split at h <;> rename_i hs
  · cases h
  · split at h
    · cases h
    · cases h
      split at hs <;> split at hs <;> first | (cases hs; done) | (cases hs; omega)

/-- C33: and it returns whenever the operand does not exceed the counter. -/
theorem counterSub_returns (t : Int) (op : UInt64) (h1 : t ≤ lengthMax) (h : (op.toNat : Int) ≤ t) :
    counterSub t op = .ok (t - op.toNat) := by
  unfold counterSub s64 toS64
  unfold lengthMax int64Min int64Max at *
  have := u64lt op
  rw [if_pos (by omega), if_pos (by omega)]
  simp only
  rw [if_neg (by omega)]

/-- C33: conversions to `int`. -/
theorem intFromBiglength_exact (x : UInt64) :
    intFromBiglengthErr x = (if (x.toNat : Int) ≤ 2 ^ 31 - 1 then .ok (x.toNat : Int) else .err) ∧
    intFromBiglengthBug x = (if (x.toNat : Int) ≤ 2 ^ 31 - 1 then .ok (x.toNat : Int) else .bug) := by
  unfold intFromBiglengthErr intFromBiglengthBug intMax
  constructor <;> (split <;> split <;> first | rfl | omega)

/-- C33: conversion of a signed value to `int`. -/
theorem intFromSlengthBug_exact (x : Int) :
    intFromSlengthBug x = if -2 ^ 31 ≤ x ∧ x ≤ 2 ^ 31 - 1 then .ok x else .bug := by
  unfold intFromSlengthBug intMax intMin
  split <;> split <;> first | rfl | omega

/-- C33 is violated by `rrr_biglength_from_ptr_sub_bug_const` (`rrr_types.h:390-396`): a
distance of 2^32 bytes is returned as 0 without any report, because the 64 bit
result is cast to the 32 bit type. -/
theorem biglengthFromPtrSubBug_truncates :
    ¬ ∀ a b : UInt64, v64 (biglengthFromPtrSubBug a b) = exactly 64 .bug ((a.toNat : Int) - b.toNat) := by
  intro h
  have := h 0x100001000 0x1000
  revert this; decide +kernel

/-- C33, the part that holds for `rrr_biglength_from_ptr_sub_bug_const`: exact for distances
below 2^32 and abort on negative distances. Missing: distances of 4 GiB and more. -/
theorem biglengthFromPtrSubBug_exact_partial (a b : UInt64) (h : (a.toNat : Int) - b.toNat < 2 ^ 32) :
    v64 (biglengthFromPtrSubBug a b) = exactly 64 .bug ((a.toNat : Int) - b.toNat) := by
  have := u64lt a; have := u64lt b
  unfold biglengthFromPtrSubBug; chk32

/-! Concrete cases: both outcomes occur. -/
example : lengthSubBug 5 3 = .ok 2 ∧ lengthSubBug 3 5 = .bug := by decide +kernel
example : lengthAddErr 0xfffffffe 1 = .ok 0xffffffff ∧ lengthAddErr 0xffffffff 1 = .err := by decide +kernel
example : lengthMulBug 65536 65535 = .ok 4294901760 ∧ lengthMulBug 65536 65536 = .bug := by decide +kernel
example : biglengthMulErr 4294967296 4294967295 = .ok 18446744069414584320 ∧
    biglengthMulErr 4294967296 4294967296 = .err := by decide +kernel
example : counterAdd 7 8 = .ok 15 ∧ counterAdd 1 0xffffffff = .bug ∧ counterSub 7 8 = .bug := by decide +kernel
example : lengthFromPtrSubBug 0x2000 0x1000 = .ok 0x1000 ∧ lengthFromPtrSubBug 0x1000 0x2000 = .bug := by
  decide +kernel
example : lengthFromSlengthErr (-1) = .err ∧ lengthFromSlengthErr 7 = .ok 7 := by decide +kernel

end Verif.Checked
