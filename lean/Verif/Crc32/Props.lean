import Verif.Crc32.Model
import Verif.Crc32.Spec
/-!
# C13: CRC-32 and the errors it detects
-/
namespace Verif.Crc32
open Verif Verif.Crc32.Spec

/-! ## The table-driven loop computes the textbook CRC -/

theorem shift_xor (x y : BitVec 32) : shift (x ^^^ y) = shift x ^^^ shift y := by
  unfold shift
  rw [BitVec.ushiftRight_xor_distrib, BitVec.getLsbD_xor]
  cases x.getLsbD 0 <;> cases y.getLsbD 0 <;> simp
  · ac_rfl
  · ac_rfl
  · rw [show x >>> 1 ^^^ 0xEDB88320#32 ^^^ (y >>> 1 ^^^ 0xEDB88320#32) =
      (x >>> 1 ^^^ y >>> 1) ^^^ (0xEDB88320#32 ^^^ 0xEDB88320#32) by ac_rfl]
    simp

/-- Eight shifts. -/
def shift8 (x : BitVec 32) : BitVec 32 := shift (shift (shift (shift (shift (shift (shift (shift x)))))))

theorem shift8_xor (x y : BitVec 32) : shift8 (x ^^^ y) = shift8 x ^^^ shift8 y := by
  simp only [shift8, shift_xor]

theorem shift_inj_shl : ∀ c : Bool, ∀ i : Fin 7, shift (inj c <<< (i.val + 1)) = inj c <<< i.val := by
  decide +kernel

theorem zext_bits (b : UInt8) : b.toBitVec.zeroExtend 32 =
    inj (b.toBitVec.getLsbD 0) ^^^ inj (b.toBitVec.getLsbD 1) <<< 1 ^^^ inj (b.toBitVec.getLsbD 2) <<< 2 ^^^
    inj (b.toBitVec.getLsbD 3) <<< 3 ^^^ inj (b.toBitVec.getLsbD 4) <<< 4 ^^^ inj (b.toBitVec.getLsbD 5) <<< 5 ^^^
    inj (b.toBitVec.getLsbD 6) <<< 6 ^^^ inj (b.toBitVec.getLsbD 7) <<< 7 := by
  obtain ⟨⟨n⟩⟩ := b
  revert n
  decide +kernel

theorem run_byte (r : BitVec 32) (b : UInt8) (bs : List Bool) :
    run r (byteBits b ++ bs) = run (shift8 (r ^^^ b.toBitVec.zeroExtend 32)) bs := by
  have h : ∀ c : Bool, ∀ i : Fin 7, inj c <<< i.val = shift (inj c <<< (i.val + 1)) :=
    fun c i => (shift_inj_shl c i).symm
  have h0 : ∀ c, inj c = shift (inj c <<< 1) := fun c => by simpa using h c 0
  have h1 : ∀ c, inj c <<< 1 = shift (inj c <<< 2) := fun c => h c 1
  have h2 : ∀ c, inj c <<< 2 = shift (inj c <<< 3) := fun c => h c 2
  have h3 : ∀ c, inj c <<< 3 = shift (inj c <<< 4) := fun c => h c 3
  have h4 : ∀ c, inj c <<< 4 = shift (inj c <<< 5) := fun c => h c 4
  have h5 : ∀ c, inj c <<< 5 = shift (inj c <<< 6) := fun c => h c 5
  have h6 : ∀ c, inj c <<< 6 = shift (inj c <<< 7) := fun c => h c 6
  rw [zext_bits]
  have hr : byteBits b = [b.toBitVec.getLsbD 0, b.toBitVec.getLsbD 1, b.toBitVec.getLsbD 2, b.toBitVec.getLsbD 3,
    b.toBitVec.getLsbD 4, b.toBitVec.getLsbD 5, b.toBitVec.getLsbD 6, b.toBitVec.getLsbD 7] := rfl
  rw [hr]
  generalize b.toBitVec.getLsbD 0 = b0
  generalize b.toBitVec.getLsbD 1 = b1
  generalize b.toBitVec.getLsbD 2 = b2
  generalize b.toBitVec.getLsbD 3 = b3
  generalize b.toBitVec.getLsbD 4 = b4
  generalize b.toBitVec.getLsbD 5 = b5
  generalize b.toBitVec.getLsbD 6 = b6
  generalize b.toBitVec.getLsbD 7 = b7
  simp only [List.cons_append, List.nil_append, run]
  congr 1
  simp only [shift8, shift_xor]
  rw [← h6 b7, ← h5 b6, ← h5 b7, ← h4 b5, ← h4 b6, ← h4 b7, ← h3 b4, ← h3 b5, ← h3 b6, ← h3 b7,
    ← h2 b3, ← h2 b4, ← h2 b5, ← h2 b6, ← h2 b7, ← h1 b2, ← h1 b3, ← h1 b4, ← h1 b5, ← h1 b6, ← h1 b7,
    ← h0 b1, ← h0 b2, ← h0 b3, ← h0 b4, ← h0 b5, ← h0 b6, ← h0 b7]
  simp only [BitVec.xor_assoc]

/-- The table is the table of the polynomial: all 256 entries. -/
theorem tab_eq : ∀ n : Fin 256, tabAt ⟨n⟩ = shift8 ((⟨n⟩ : BitVec 8).zeroExtend 32) := by
  decide +kernel

theorem shift_even {x : BitVec 32} (h : x.getLsbD 0 = false) : shift x = x >>> 1 := by
  unfold shift; rw [h]; simp

theorem shift8_high (x : BitVec 32) (h : ∀ i, i < 8 → x.getLsbD i = false) : shift8 x = x >>> 8 := by
  have e : ∀ k, k < 8 → shift (x >>> k) = x >>> (k + 1) := by
    intro k hk
    rw [shift_even (by rw [BitVec.getLsbD_ushiftRight]; exact h _ (by omega)), ← BitVec.shiftRight_add]
  unfold shift8
  have e0 : shift x = x >>> 1 := shift_even (h 0 (by omega))
  rw [e0, e 1 (by omega), e 2 (by omega), e 3 (by omega), e 4 (by omega), e 5 (by omega), e 6 (by omega),
    e 7 (by omega)]

theorem split_low (x : BitVec 32) : x = (x.truncate 8).zeroExtend 32 ^^^ (x &&& 0xffffff00#32) := by
  apply BitVec.eq_of_getLsbD_eq
  intro i hi
  have h8 : (0xffffff00#32).getLsbD i = decide (8 ≤ i) := by
    revert i; decide +kernel
  rw [BitVec.getLsbD_xor, BitVec.getLsbD_and, h8]
  simp
  by_cases h : i < 8
  · have : ¬ 8 ≤ i := by omega
    simp [h, this, hi]
  · have : 8 ≤ i := by omega
    simp [h, this]

theorem shift8_eq (x : BitVec 32) : shift8 x = tabAt (x.truncate 8) ^^^ (x >>> 8) := by
  have hh : shift8 (x &&& 0xffffff00#32) = x >>> 8 := by
    rw [shift8_high]
    · apply BitVec.eq_of_getLsbD_eq
      intro i hi
      rw [BitVec.getLsbD_ushiftRight, BitVec.getLsbD_ushiftRight, BitVec.getLsbD_and]
      by_cases hi2 : 8 + i < 32
      · have : (0xffffff00#32).getLsbD (8 + i) = true := by
          have key : ∀ j : Fin 32, 8 ≤ j.val → (0xffffff00#32).getLsbD j.val = true := by decide +kernel
          exact key ⟨8 + i, hi2⟩ (by simp)
        rw [this, Bool.and_true]
      · rw [BitVec.getLsbD_of_ge x _ (by omega)]; simp
    · intro i hi
      have key : ∀ j : Fin 8, (0xffffff00#32).getLsbD j.val = false := by decide +kernel
      rw [BitVec.getLsbD_and, key ⟨i, hi⟩, Bool.and_false]
  have ht : shift8 ((x.truncate 8).zeroExtend 32) = tabAt (x.truncate 8) := by
    obtain ⟨f⟩ := x.truncate 8
    exact (tab_eq f).symm
  conv => lhs; rw [split_low x, shift8_xor, hh, ht]

theorem upd_eq (b : UInt8) (r : BitVec 32) : upd b r = shift8 (r ^^^ b.toBitVec.zeroExtend 32) := by
  rw [shift8_eq]
  unfold upd
  congr 1
  · congr 1
    apply BitVec.eq_of_getLsbD_eq
    intro i hi
    have key : ∀ j : Fin 8, (0xff#32).getLsbD j.val = true := by decide +kernel
    have hk : (255#32).getLsbD i = true := key ⟨i, hi⟩
    have hi32 : i < 32 := by omega
    have hk8 : (255#8)[i] = true := by
      have key : ∀ j : Fin 8, (255#8).getLsbD j.val = true := by decide +kernel
      rw [← BitVec.getLsbD_eq_getElem]; exact key ⟨i, hi⟩
    simp [hi, hi32, hk8, BitVec.getElem_signExtend]
  · apply BitVec.eq_of_getLsbD_eq
    intro i hi
    simp

theorem loop_eq_run (m : Bytes) : ∀ r, loop r m = run r (bits m) := by
  induction m with
  | nil => intro r; rfl
  | cons b m ih =>
    intro r
    rw [show bits (b :: m) = byteBits b ++ bits m from rfl, run_byte, loop, ih, upd_eq]

/-- **C13** The checksum is the standard reflected CRC-32 of the message's bits. -/
theorem crc32buf_eq (m : Bytes) : crc32buf m = crc32 (bits m) := by
  unfold crc32buf crc32; rw [loop_eq_run]

/-! ## Burst errors -/

/-- What can be recovered of the register before a shift from the upper bits after it. -/
theorem shift_back {x y : BitVec 32} {k : Nat} (hk : k ≤ 31) (h : shift x >>> k = shift y >>> k) :
    x.getLsbD 0 = y.getLsbD 0 ∧ x >>> (k + 1) = y >>> (k + 1) := by
  have htop : ∀ z : BitVec 32, (shift z).getLsbD 31 = z.getLsbD 0 := by
    intro z
    unfold shift
    rw [BitVec.getLsbD_xor, BitVec.getLsbD_ushiftRight, BitVec.getLsbD_of_ge z (1 + 31) (by omega)]
    cases z.getLsbD 0 <;> simp <;> decide
  have h0 : x.getLsbD 0 = y.getLsbD 0 := by
    rw [← htop x, ← htop y]
    have := congrArg (fun v => v.getLsbD (31 - k)) h
    simp only [BitVec.getLsbD_ushiftRight] at this
    rwa [show k + (31 - k) = 31 by omega] at this
  refine ⟨h0, ?_⟩
  unfold shift at h
  rw [h0] at h
  simp only [BitVec.ushiftRight_xor_distrib] at h
  have h2 := (BitVec.xor_left_inj _).mp h
  rwa [← BitVec.shiftRight_add, ← BitVec.shiftRight_add, Nat.add_comm 1 k] at h2

theorem shift_injective {x y : BitVec 32} (h : shift x = shift y) : x = y := by
  obtain ⟨h0, h1⟩ := shift_back (x := x) (y := y) (k := 0) (by omega) (by rw [h])
  apply BitVec.eq_of_getLsbD_eq
  intro i hi
  cases i with
  | zero => exact h0
  | succ i =>
    have := congrArg (fun v => v.getLsbD i) h1
    simp only [BitVec.getLsbD_ushiftRight] at this
    rwa [show 0 + 1 + i = i + 1 by omega] at this

theorem inj_inj {a b : Bool} (h : (inj a).getLsbD 0 = (inj b).getLsbD 0) : a = b := by
  revert a b; decide

theorem run_injective (bs : List Bool) : ∀ x y, run x bs = run y bs → x = y := by
  induction bs with
  | nil => intro x y h; exact h
  | cons b bs ih =>
    intro x y h
    have := shift_injective (ih _ _ h)
    exact (BitVec.xor_left_inj _).mp this

theorem inj_shiftRight (b : Bool) (k : Nat) : inj b >>> (k + 1) = 0 := by
  rw [Nat.add_comm, BitVec.shiftRight_add]
  cases b <;> simp [inj]

theorem run_upper (bs : List Bool) : ∀ (bs' : List Bool) (x y : BitVec 32), bs.length = bs'.length →
    bs.length ≤ 32 → run x bs = run y bs' → x >>> bs.length = y >>> bs.length := by
  induction bs with
  | nil =>
    intro bs' x y hl _ h
    have : bs' = [] := List.length_eq_zero_iff.mp hl.symm
    subst this
    simpa [run] using h
  | cons b bs ih =>
    intro bs' x y hl h32 h
    cases bs' with
    | nil => simp at hl
    | cons b' bs' =>
      simp only [List.length_cons] at hl h32 ⊢
      have := ih bs' _ _ (by omega) (by omega) h
      have h2 := (shift_back (by omega) this).2
      rw [BitVec.ushiftRight_xor_distrib, BitVec.ushiftRight_xor_distrib, inj_shiftRight, inj_shiftRight] at h2
      simpa using h2

theorem run_window (bs : List Bool) : ∀ (bs' : List Bool) (x : BitVec 32), bs.length = bs'.length →
    bs.length ≤ 32 → run x bs = run x bs' → bs = bs' := by
  induction bs with
  | nil => intro bs' x hl _ _; exact (List.length_eq_zero_iff.mp hl.symm).symm
  | cons b bs ih =>
    intro bs' x hl h32 h
    cases bs' with
    | nil => simp at hl
    | cons b' bs' =>
      simp only [List.length_cons] at hl h32
      have h2 := run_upper bs bs' _ _ (by omega) (by omega) h
      have h3 := (shift_back (by omega) h2).1
      rw [BitVec.getLsbD_xor, BitVec.getLsbD_xor] at h3
      have h4 := inj_inj (Bool.xor_right_inj.mp h3)
      subst h4
      rw [ih bs' _ (by omega) (by omega) h]

theorem run_append (a b : List Bool) : ∀ r, run r (a ++ b) = run (run r a) b := by
  induction a with
  | nil => intro r; rfl
  | cons x a ih => intro r; exact ih _

theorem not_inj {x y : BitVec 32} (h : ~~~ x = ~~~ y) : x = y := by
  have := congrArg (fun v => ~~~ v) h
  simpa using this

/-- **C13** Two different bit strings which agree outside a window of at most 32
consecutive bits have different checksums. -/
theorem crc32_burst (pre w w' suf : List Bool) (hl : w.length = w'.length) (h32 : w.length ≤ 32) (hne : w ≠ w') :
    crc32 (pre ++ w ++ suf) ≠ crc32 (pre ++ w' ++ suf) := by
  intro h
  have h := not_inj h
  rw [run_append, run_append, run_append, run_append] at h
  exact hne (run_window w w' _ hl h32 (run_injective suf _ _ h))

theorem byteBits_inj : ∀ a b : UInt8, byteBits a = byteBits b → a = b := by
  intro a b h
  apply UInt8.toBitVec_inj.mp
  apply BitVec.eq_of_getLsbD_eq
  intro i hi
  have := congrArg (fun l => l[i]?) h
  simpa [byteBits, hi] using this

theorem bits_length (m : Bytes) : (bits m).length = 8 * m.length := by
  induction m with
  | nil => rfl
  | cons b m ih =>
    rw [show bits (b :: m) = byteBits b ++ bits m from rfl, List.length_append, ih]
    simp [byteBits]; omega

theorem bits_inj (m : Bytes) : ∀ m', bits m = bits m' → m = m' := by
  induction m with
  | nil =>
    intro m' h
    have := congrArg List.length h
    rw [bits_length, bits_length] at this
    exact (List.length_eq_zero_iff.mp (by simp at this; omega)).symm
  | cons b m ih =>
    intro m' h
    cases m' with
    | nil => have := congrArg List.length h; rw [bits_length, bits_length] at this; simp at this
    | cons b' m' =>
      rw [show bits (b :: m) = byteBits b ++ bits m from rfl,
        show bits (b' :: m') = byteBits b' ++ bits m' from rfl] at h
      obtain ⟨h1, h2⟩ := List.append_inj h (by simp [byteBits])
      rw [byteBits_inj b b' h1, ih m' h2]

/-- **C13** Messages of equal length which differ only inside a window of at most 32
consecutive bits, at any bit position, have different checksums. -/
theorem crc32buf_burst_bits (m m' : Bytes) (pre w w' suf : List Bool) (hm : bits m = pre ++ w ++ suf)
    (hm' : bits m' = pre ++ w' ++ suf) (hl : w.length = w'.length) (h32 : w.length ≤ 32) (hne : m ≠ m') :
    crc32buf m ≠ crc32buf m' := by
  rw [crc32buf_eq, crc32buf_eq, hm, hm']
  apply crc32_burst pre w w' suf hl h32
  rintro rfl
  exact hne (bits_inj m m' (by rw [hm, hm']))

/-- **C13** Messages of equal length which differ only inside a window of at most four
consecutive bytes have different checksums. -/
theorem crc32buf_burst (pre w w' suf : Bytes) (hl : w.length = w'.length) (h4 : w.length ≤ 4) (hne : w ≠ w') :
    crc32buf (pre ++ w ++ suf) ≠ crc32buf (pre ++ w' ++ suf) := by
  have hb : ∀ a b : Bytes, bits (a ++ b) = bits a ++ bits b := fun a b => List.flatMap_append
  apply crc32buf_burst_bits _ _ (bits pre) (bits w) (bits w') (bits suf) (by simp [hb]) (by simp [hb])
    (by simp [bits_length, hl]) (by simp [bits_length]; omega)
  intro h
  simp only [List.append_assoc, List.append_cancel_left_eq] at h
  exact hne (List.append_cancel_right h)

/-- **C13** The comparison function accepts exactly the right checksum. -/
theorem crc32cmp_iff (m : Bytes) (c : BitVec 32) : crc32cmp m c = 0 ↔ c = crc32buf m := by
  unfold crc32cmp
  rw [BitVec.sub_eq_iff_eq_add]
  simp [eq_comm]

/-- **C13** A message with a burst error is refused when compared with the original checksum. -/
theorem corrupted_refused (pre w w' suf : Bytes) (hl : w.length = w'.length) (h4 : w.length ≤ 4) (hne : w ≠ w') :
    crc32cmp (pre ++ w' ++ suf) (crc32buf (pre ++ w ++ suf)) ≠ 0 := by
  rw [Ne, crc32cmp_iff]
  exact crc32buf_burst pre w w' suf hl h4 hne

/-- The standard check value: CRC-32 of "123456789". -/
example : crc32buf [49, 50, 51, 52, 53, 54, 55, 56, 57] = 0xCBF43926 := by decide +kernel

example : crc32buf ([1, 2] ++ [3, 4] ++ [5]) ≠ crc32buf ([1, 2] ++ [3, 5] ++ [5]) :=
  crc32buf_burst [1, 2] [3, 4] [3, 5] [5] rfl (by simp) (by simp)

end Verif.Crc32
