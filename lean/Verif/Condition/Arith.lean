import Verif.Condition.Model
import Verif.Condition.Spec
/-!
# The arithmetic of conditions
-/
namespace Verif.Condition
open Verif Spec

/-- The number which 64 bits and a sign flag denote. -/
def numVal (n : Num) : Val := ⟨n.signed, if n.signed then n.bits.toInt else n.bits.toNat⟩

/-- Outcomes of the model as outcomes of the specification. -/
def decR : Ev Num → R
  | .ok n => .ok (numVal n)
  | .soft => .error
  | .undef => .undefined
  | .fault => .undefined
  | .bug => .undefined

/-- The operator of the program. -/
def opOf : BinOp → Op
  | .mul => .mul | .div => .div | .add => .add | .sub => .sub | .shl => .bwLeft | .shr => .bwRight | .le => .lteq | .ge => .gteq
  | .lt => .lt | .gt => .gt | .eq => .eq | .ne => .ne | .band => .bwAnd | .bxor => .bwXor | .bor => .bwOr | .and => .and2
  | .andW => .andW | .or => .or2 | .orW => .orW

theorem toNat_lt (a : BitVec 64) : a.toNat < 18446744073709551616 := a.isLt

theorem toInt_cases (a : BitVec 64) :
    (a.toNat < 2 ^ 63 ∧ a.toInt = a.toNat) ∨ (2 ^ 63 ≤ a.toNat ∧ a.toInt = (a.toNat : Int) - 2 ^ 64) := by
  rw [BitVec.toInt_eq_toNat_cond]
  have := a.isLt
  split <;> omega

theorem toInt_range (a : BitVec 64) : - 2 ^ 63 ≤ a.toInt ∧ a.toInt < 2 ^ 63 := by
  rcases toInt_cases a with h | h <;> have := a.isLt <;> omega

theorem pattern_nat (a : BitVec 64) : pattern (a.toNat : Int) = a.toNat := by
  have := a.isLt
  unfold pattern
  omega

theorem pattern_int (a : BitVec 64) : pattern a.toInt = a.toNat := by
  have := a.isLt
  unfold pattern
  rcases toInt_cases a with h | h <;> omega

theorem ofPattern_signed (a : BitVec 64) : ofPattern true a.toNat = numVal ⟨a, true⟩ := by
  unfold ofPattern numVal
  simp only [true_and, if_true, Val.mk.injEq]
  rcases toInt_cases a with h | h
  · rw [if_neg (by omega), h.2]
  · rw [if_pos (by omega), h.2]

theorem ofPattern_unsigned (a : BitVec 64) : ofPattern false a.toNat = numVal ⟨a, false⟩ := by
  simp [ofPattern, numVal]

theorem numVal_bit (s p : Bool) : numVal ⟨bit p, s⟩ = ⟨s, if p = true then 1 else 0⟩ := by
  cases s <;> cases p <;> decide

theorem numVal_ofInt (z : Int) (h : - 2 ^ 63 ≤ z ∧ z < 2 ^ 63) : numVal ⟨BitVec.ofInt 64 z, true⟩ = ⟨true, z⟩ := by
  unfold numVal
  simp only [if_true, Val.mk.injEq, true_and, BitVec.toInt_ofInt]
  rw [Int.bmod_def]
  split <;> omega

theorem fit_arith (z : Int) :
    (match fit z with | .ok r => decR (.ok ⟨r, true⟩) | _ => .undefined) = arith true z := by
  unfold fit arith
  simp only [if_true]
  by_cases h : - 2 ^ 63 ≤ z ∧ z < 2 ^ 63
  · rw [if_pos h, if_pos h]
    simp only [decR, numVal_ofInt z h]
  · rw [if_neg h, if_neg h]

theorem eq_iff_nat (a b : BitVec 64) : (a == b) = decide ((a.toNat : Int) = b.toNat) := by
  have : (a = b) ↔ (a.toNat : Int) = b.toNat := by
    rw [Int.ofNat_inj]; exact ⟨congrArg _, BitVec.eq_of_toNat_eq⟩
  by_cases h : a = b
  · simp [h]
  · simp [h, this.symm]

theorem eq_iff_int (a b : BitVec 64) : (a == b) = decide (a.toInt = b.toInt) := by
  have : (a = b) ↔ a.toInt = b.toInt := ⟨congrArg _, BitVec.eq_of_toInt_eq⟩
  by_cases h : a = b
  · simp [h]
  · simp [h, this.symm]

theorem toInt_zero64 : (0#64).toInt = 0 := by decide

theorem cast_mod (n : Nat) : ((n % 2 ^ 64 : Nat) : Int) = (n : Int) % 2 ^ 64 := by omega

theorem cast_pow (n : Nat) : ((2 ^ n : Nat) : Int) = 2 ^ n := Int.natCast_pow 2 n

/-- Wraps the outcome of one of the two operator functions. -/
def wrap (s : Bool) : Ev (BitVec 64) → Ev Num
  | .ok r => .ok ⟨r, s⟩
  | .soft => .soft | .undef => .undef | .fault => .fault | .bug => .bug

theorem decR_fit (z : Int) : decR (wrap true (fit z)) = arith true z := by
  rw [← fit_arith]
  unfold fit
  split <;> rfl

theorem truth_bit (s : Bool) (b : Bool) (p : Prop) [Decidable p] (h : b = decide p) :
    decR (wrap s (.ok (bit b))) = truth s p := by
  simp only [wrap, decR, numVal_bit, truth, h, decide_eq_true_eq]

theorem tdiv_range (x y : Int) (hx : - 2 ^ 63 ≤ x ∧ x < 2 ^ 63) (hy : y ≠ 0) (hne : ¬ (x = - 2 ^ 63 ∧ y = -1)) :
    - 2 ^ 63 ≤ x.tdiv y ∧ x.tdiv y < 2 ^ 63 := by
  have h1 : (x.tdiv y).natAbs = x.natAbs / y.natAbs := Int.natAbs_tdiv x y
  have hle : x.natAbs / y.natAbs ≤ x.natAbs := Nat.div_le_self _ _
  by_cases hmin : x = - 2 ^ 63
  · have hy1 : y ≠ -1 := fun h => hne ⟨hmin, h⟩
    by_cases hyp : y = 1
    · subst hyp
      rw [Int.tdiv_one]; exact hx
    · have h2 : 2 ≤ y.natAbs := by omega
      have : x.natAbs / y.natAbs ≤ x.natAbs / 2 := Nat.div_le_div_left h2 (by omega)
      omega
  · omega

theorem evalSigned_apply (a b : BitVec 64) (o : BinOp) :
    decR (wrap true (evalSigned a b (opOf o))) = o.apply true a.toInt b.toInt := by
  have ha := toInt_range a
  have hb := toInt_range b
  have hz : ∀ c : BitVec 64, (c != 0#64) = decide (c.toInt ≠ 0) := by
    intro c
    have := eq_iff_int c 0#64
    rw [toInt_zero64] at this
    simp only [bne, this, decide_not]
  cases o <;> simp only [opOf, evalSigned, BinOp.apply]
  case mul => exact decR_fit _
  case add => exact decR_fit _
  case sub => exact decR_fit _
  case div =>
    have hb0 : b = 0#64 ↔ b.toInt = 0 := by
      have : b = 0#64 ↔ b.toInt = (0#64).toInt := ⟨congrArg _, BitVec.eq_of_toInt_eq⟩
      rwa [toInt_zero64] at this
    by_cases h : b = 0#64 ∨ (a.toInt = - 2 ^ 63 ∧ b.toInt = -1)
    · rw [if_pos h, if_pos (h.imp hb0.mp (fun h => ⟨trivial, h⟩))]
      rfl
    · rw [if_neg h, if_neg (fun h' => h (h'.imp hb0.mpr (fun h' => h'.2)))]
      simp only [wrap, decR]
      rw [numVal_ofInt _ (tdiv_range _ _ ha (fun h' => h (Or.inl (hb0.mpr h'))) (fun h' => h (Or.inr h')))]
  case shl =>
    by_cases h : 0 ≤ b.toInt ∧ b.toInt < 64 ∧ 0 ≤ a.toInt
    · rw [if_pos h, if_neg (by rintro (h' | h' | ⟨_, h'⟩) <;> omega), decR_fit]
      have : b.toNat = b.toInt.toNat := by
        rcases toInt_cases b with h' | h' <;> omega
      rw [this]
    · rw [if_neg h, if_pos (by
        by_cases h1 : b.toInt < 0
        · exact Or.inl h1
        · by_cases h2 : 64 ≤ b.toInt
          · exact Or.inr (Or.inl h2)
          · exact Or.inr (Or.inr ⟨trivial, by omega⟩))]
      rfl
  case shr =>
    by_cases h : 0 ≤ b.toInt ∧ b.toInt < 64
    · rw [if_pos h, if_neg (by omega)]
      have : b.toNat = b.toInt.toNat := by
        rcases toInt_cases b with h' | h' <;> omega
      simp only [wrap, decR, numVal, if_true, BitVec.toInt_sshiftRight, this, Int.shiftRight_eq_div_pow, cast_pow]
    · rw [if_neg h, if_pos (by omega)]
      rfl
  case le => exact truth_bit _ _ _ rfl
  case ge => exact truth_bit _ _ _ (by simp)
  case lt => exact truth_bit _ _ _ rfl
  case gt => exact truth_bit _ _ _ (by simp)
  case eq => exact truth_bit _ _ _ (eq_iff_int a b)
  case ne => exact truth_bit _ _ _ (by simp only [bne, eq_iff_int a b, decide_not])
  case band =>
    simp only [wrap, decR]
    rw [pattern_int, pattern_int, ← BitVec.toNat_and, ofPattern_signed]
  case bxor =>
    simp only [wrap, decR]
    rw [pattern_int, pattern_int, ← BitVec.toNat_xor, ofPattern_signed]
  case bor =>
    simp only [wrap, decR]
    rw [pattern_int, pattern_int, ← BitVec.toNat_or, ofPattern_signed]
  case and => exact truth_bit _ _ _ (by simp only [hz, Bool.decide_and])
  case andW => exact truth_bit _ _ _ (by simp only [hz, Bool.decide_and])
  case or => exact truth_bit _ _ _ (by simp only [hz, Bool.decide_or])
  case orW => exact truth_bit _ _ _ (by simp only [hz, Bool.decide_or])

theorem evalUnsigned_apply (a b : BitVec 64) (o : BinOp) :
    decR (wrap false (evalUnsigned a b (opOf o))) = o.apply false a.toNat b.toNat := by
  have ha := toNat_lt a
  have hb := toNat_lt b
  have hz : ∀ c : BitVec 64, (c != 0#64) = decide ((c.toNat : Int) ≠ 0) := by
    intro c
    have := eq_iff_nat c 0#64
    simp only [bne, this, decide_not]
    rfl
  cases o <;> simp only [opOf, evalUnsigned, BinOp.apply]
  case mul =>
    simp only [wrap, decR, numVal, arith, Bool.false_eq_true, if_false, BitVec.toNat_mul, cast_mod, Int.natCast_mul]
  case add =>
    simp only [wrap, decR, numVal, arith, Bool.false_eq_true, if_false, BitVec.toNat_add, cast_mod, Int.natCast_add]
  case sub =>
    simp only [wrap, decR, numVal, arith, Bool.false_eq_true, if_false, BitVec.toNat_sub]
    congr 2
    omega
  case div =>
    have hb0 : b = 0#64 ↔ (b.toNat : Int) = 0 := by
      have : b = 0#64 ↔ b.toNat = (0#64).toNat := ⟨congrArg _, BitVec.eq_of_toNat_eq⟩
      rw [this]
      show b.toNat = 0 ↔ _
      omega
    by_cases h : b = 0#64
    · rw [if_pos h, if_pos (Or.inl (hb0.mp h))]
      rfl
    · rw [if_neg h, if_neg (fun h' => h'.elim (fun h' => h (hb0.mpr h')) (fun h' => Bool.false_ne_true h'.1))]
      simp only [wrap, decR, numVal, Bool.false_eq_true, if_false, BitVec.toNat_udiv]
      rw [Int.ofNat_tdiv]
  case shl =>
    by_cases h : b.toNat < 64
    · rw [if_pos h, if_neg (by rintro (h' | h' | h') <;> first | omega | exact Bool.false_ne_true h'.1)]
      simp only [wrap, decR, numVal, arith, Bool.false_eq_true, if_false, BitVec.toNat_shiftLeft, Nat.shiftLeft_eq, Int.toNat_natCast, cast_mod, Int.natCast_mul, cast_pow]
    · rw [if_neg h, if_pos (Or.inr (Or.inl (by omega)))]
      rfl
  case shr =>
    by_cases h : b.toNat < 64
    · rw [if_pos h, if_neg (by omega)]
      simp only [wrap, decR, numVal, Bool.false_eq_true, if_false, BitVec.toNat_ushiftRight, Nat.shiftRight_eq_div_pow, Int.toNat_natCast, Int.natCast_ediv, cast_pow]
    · rw [if_neg h, if_pos (Or.inr (by omega))]
      rfl
  case le => exact truth_bit _ _ _ (by simp [BitVec.ule])
  case ge => exact truth_bit _ _ _ (by simp [BitVec.ule])
  case lt => exact truth_bit _ _ _ (by simp [BitVec.ult])
  case gt => exact truth_bit _ _ _ (by simp [BitVec.ult])
  case eq => exact truth_bit _ _ _ (eq_iff_nat a b)
  case ne => exact truth_bit _ _ _ (by simp only [bne, eq_iff_nat a b, decide_not])
  case band =>
    simp only [wrap, decR]
    rw [pattern_nat, pattern_nat, ← BitVec.toNat_and, ofPattern_unsigned]
  case bxor =>
    simp only [wrap, decR]
    rw [pattern_nat, pattern_nat, ← BitVec.toNat_xor, ofPattern_unsigned]
  case bor =>
    simp only [wrap, decR]
    rw [pattern_nat, pattern_nat, ← BitVec.toNat_or, ofPattern_unsigned]
  case and => exact truth_bit _ _ _ (by simp only [hz, Bool.decide_and])
  case andW => exact truth_bit _ _ _ (by simp only [hz, Bool.decide_and])
  case or => exact truth_bit _ _ _ (by simp only [hz, Bool.decide_or])
  case orW => exact truth_bit _ _ _ (by simp only [hz, Bool.decide_or])

theorem compute_eq (o : Op) (a : Option Num) (b : Num) :
    compute o a b = if b.signed = true ∨ a.any (·.signed) = true then
        (if a.any (fun n => !canBeSigned n) = true ∨ canBeSigned b = false then .soft
         else wrap true (evalSigned ((a.map (·.bits)).getD 0#64) b.bits o))
      else wrap false (evalUnsigned ((a.map (·.bits)).getD 0#64) b.bits o) := by
  unfold compute
  by_cases h : b.signed = true ∨ a.any (·.signed) = true
  · rw [if_pos h, if_pos h]
    by_cases h1 : a.any (fun n => !canBeSigned n) = true
    · rw [if_pos h1, if_pos (Or.inl h1)]
    · rw [if_neg h1]
      by_cases h2 : canBeSigned b = false
      · rw [if_pos (by simp [h2]), if_pos (Or.inr h2)]
      · rw [if_neg (by simpa using h2), if_neg (fun h' => h'.elim h1 h2)]
        cases evalSigned ((a.map (·.bits)).getD 0#64) b.bits o <;> rfl
  · rw [if_neg h, if_neg h]
    cases evalUnsigned ((a.map (·.bits)).getD 0#64) b.bits o <;> rfl

theorem canBeSigned_iff (n : Num) : canBeSigned n = false ↔ ((numVal n).signed = false ∧ 2 ^ 63 ≤ (numVal n).v) := by
  obtain ⟨b, s⟩ := n
  cases s
  · simp only [canBeSigned, numVal, Bool.false_or, decide_eq_false_iff_not, Bool.false_eq_true, if_false, true_and]
    omega
  · simp [canBeSigned, numVal]

theorem numVal_v_signed (n : Num) (h : canBeSigned n = true) : (numVal n).v = n.bits.toInt := by
  obtain ⟨b, s⟩ := n
  cases s
  · simp only [canBeSigned, Bool.false_or, decide_eq_true_eq] at h
    simp only [numVal, Bool.false_eq_true, if_false]
    rcases toInt_cases b with h' | h' <;> omega
  · simp [numVal]

/-- The program's operators compute what the specification says. -/
theorem compute_combine (o : BinOp) (a b : Num) : decR (compute (opOf o) (some a) b) = combine o (numVal a) (numVal b) := by
  rw [compute_eq]
  unfold combine
  have hs : (numVal a).signed = a.signed ∧ (numVal b).signed = b.signed := ⟨rfl, rfl⟩
  by_cases h : b.signed = true ∨ a.signed = true
  · rw [if_pos (c := b.signed = true ∨ _) (by simpa using h), if_pos (c := (numVal a).signed = true ∨ _) (by rw [hs.1, hs.2]; exact h.symm)]
    by_cases h1 : canBeSigned a = false ∨ canBeSigned b = false
    · rw [if_pos (c := _ ∨ canBeSigned b = false) (by simpa using h1), if_pos (by
        rcases h1 with h1 | h1
        · exact Or.inl ((canBeSigned_iff a).mp h1)
        · exact Or.inr ((canBeSigned_iff b).mp h1))]
      rfl
    · rw [if_neg (c := _ ∨ canBeSigned b = false) (by simpa using h1), if_neg (by
        rintro (h2 | h2)
        · exact h1 (Or.inl ((canBeSigned_iff a).mpr h2))
        · exact h1 (Or.inr ((canBeSigned_iff b).mpr h2)))]
      have ha : canBeSigned a = true := by
        cases h' : canBeSigned a
        · exact absurd (Or.inl h') h1
        · rfl
      have hb : canBeSigned b = true := by
        cases h' : canBeSigned b
        · exact absurd (Or.inr h') h1
        · rfl
      rw [numVal_v_signed a ha, numVal_v_signed b hb, ← evalSigned_apply]
      rfl
  · rw [if_neg (by simpa using h), if_neg (by rw [hs.1, hs.2]; exact fun h' => h h'.symm)]
    have ha : a.signed = false := by cases h' : a.signed <;> simp_all
    have hb : b.signed = false := by cases h' : b.signed <;> simp_all
    rw [show (numVal a).v = (a.bits.toNat : Int) by simp [numVal, ha], show (numVal b).v = (b.bits.toNat : Int) by simp [numVal, hb],
      ← evalUnsigned_apply]
    rfl

theorem compute_not (b : Num) : ∃ n, compute .bwNot none b = .ok n ∧ numVal n = complement (numVal b) := by
  rw [compute_eq]
  obtain ⟨x, s⟩ := b
  have hx := toNat_lt x
  cases s
  · refine ⟨⟨~~~ x, false⟩, by simp [wrap, evalUnsigned], ?_⟩
    simp only [numVal, complement, Bool.false_eq_true, if_false, BitVec.toNat_not, Val.mk.injEq, true_and]
    omega
  · refine ⟨⟨~~~ x, true⟩, by simp [wrap, evalSigned, canBeSigned], ?_⟩
    simp only [numVal, complement, if_true, Val.mk.injEq, true_and]
    have h1 := toInt_cases x
    have h2 := toInt_cases (~~~ x)
    rw [BitVec.toNat_not] at h2
    omega

theorem compute_no_fault (o : BinOp) (a : Option Num) (b : Num) :
    compute (opOf o) a b ≠ .fault ∧ compute (opOf o) a b ≠ .bug := by
  rw [compute_eq]
  have hf : ∀ z, fit z ≠ .fault ∧ fit z ≠ .bug := by
    intro z; unfold fit; split <;> simp
  have h1 : ∀ x y : BitVec 64, wrap true (evalSigned x y (opOf o)) ≠ .fault ∧ wrap true (evalSigned x y (opOf o)) ≠ .bug := by
    intro x y
    have : evalSigned x y (opOf o) ≠ .fault ∧ evalSigned x y (opOf o) ≠ .bug := by
      cases o <;> simp only [opOf, evalSigned] <;> (try split) <;> first | exact hf _ | simp
    cases h : evalSigned x y (opOf o) <;> simp_all [wrap]
  have h2 : ∀ x y : BitVec 64, wrap false (evalUnsigned x y (opOf o)) ≠ .fault ∧ wrap false (evalUnsigned x y (opOf o)) ≠ .bug := by
    intro x y
    have : evalUnsigned x y (opOf o) ≠ .fault ∧ evalUnsigned x y (opOf o) ≠ .bug := by
      cases o <;> simp only [opOf, evalUnsigned] <;> (try split) <;> simp
    cases h : evalUnsigned x y (opOf o) <;> simp_all [wrap]
  split
  · split
    · simp
    · exact h1 _ _
  · exact h2 _ _

end Verif.Condition
