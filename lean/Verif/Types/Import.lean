import Verif.Types.Spec
import Verif.Bits
/-!
# Import of integers (C18) and strings (C17)
-/
namespace Verif.Types
open Verif Endian Msg Spec

/-! ## Numbers of bytes -/

theorem ofBytes_append (a b : Bytes) : ofBytes (a ++ b) = ofBytes a * 256 ^ b.length + ofBytes b := by
  have gen : ∀ (b : Bytes) (n : Nat), b.foldl (fun a x => a * 256 + x.toNat) n = n * 256 ^ b.length + ofBytes b := by
    intro b
    induction b with
    | nil => intro n; simp [ofBytes]
    | cons c t ih =>
      intro n
      simp only [ofBytes, List.foldl_cons, List.length_cons]
      rw [ih, ih (0 * 256 + c.toNat), Nat.pow_succ, Nat.add_mul, Nat.add_mul, Nat.mul_assoc]
      simp only [Nat.zero_mul, Nat.zero_add, Nat.mul_comm (256 ^ t.length) 256, Nat.add_assoc]
  show (a ++ b).foldl _ 0 = _
  rw [List.foldl_append, gen]
  rfl

theorem ofBytes_eq (b : Bytes) : ofBytes b = valueBE b := by
  unfold valueBE
  have : ∀ b : Bytes, ofBytes b.reverse = valueLE b := by
    intro b
    induction b with
    | nil => rfl
    | cons c t ih =>
      rw [List.reverse_cons, ofBytes_append, ih]
      simp only [valueLE, List.length_cons, List.length_nil, ofBytes, List.foldl]
      omega
  rw [← this, List.reverse_reverse]

theorem ofBytes_lt (b : Bytes) : ofBytes b < 256 ^ b.length := by
  induction b with
  | nil => simp [ofBytes]
  | cons c t ih =>
    have h : ofBytes (c :: t) = ofBytes [c] * 256 ^ t.length + ofBytes t := ofBytes_append [c] t
    have h1 : ofBytes [c] = c.toNat := by simp [ofBytes]
    have := c.toNat_lt
    rw [h, h1, List.length_cons, Nat.pow_succ]
    have hm : c.toNat * 256 ^ t.length ≤ 255 * 256 ^ t.length := Nat.mul_le_mul_right _ (by omega)
    omega

theorem ofBytes_zeros (k : Nat) : ofBytes (List.replicate k 0) = 0 := by
  induction k with
  | zero => rfl
  | succ k ih =>
    rw [List.replicate_succ, show ((0 : UInt8) :: List.replicate k 0) = [0] ++ List.replicate k 0 from rfl, ofBytes_append, ih]
    simp [ofBytes]

theorem ofBytes_ones (k : Nat) : ofBytes (List.replicate k 255) + 1 = 256 ^ k := by
  induction k with
  | zero => rfl
  | succ k ih =>
    rw [List.replicate_succ, show ((255 : UInt8) :: List.replicate k 255) = [255] ++ List.replicate k 255 from rfl, ofBytes_append,
      List.length_replicate, Nat.pow_succ]
    have : ofBytes [255] = 255 := rfl
    rw [this]
    omega

/-! ## The copy loops -/

theorem take_set_self {w : Nat} (temp : Bytes) (x : UInt8) : (temp.set w x).take w = temp.take w := by
  rw [List.take_set_of_le (Nat.le_refl _)]

theorem copyDown_eq (src : Bytes) : ∀ (r w : Nat) (temp : Bytes), r ≤ w → w < temp.length → r < src.length →
    copyDown src r w temp = temp.take (w - r) ++ (src.take (r + 1) ++ temp.drop (w + 1)) := by
  intro r
  induction r with
  | zero =>
    intro w temp _ hw hs
    simp only [copyDown, Nat.sub_zero, Nat.zero_add]
    rw [List.set_eq_take_append_cons_drop, if_pos hw]
    match src, hs with
    | c :: t, _ => simp
  | succ r ih =>
    intro w temp hr hw hs
    simp only [copyDown]
    rw [ih (w - 1) _ (by omega) (by simp; omega) (by omega)]
    have h1 : w - 1 - r = w - (r + 1) := by omega
    have h2 : w - 1 + 1 = w := by omega
    rw [h1, h2, List.take_set_of_le (by omega)]
    have h3 : (temp.set w (src.getD (r + 1) 0)).drop w = src.getD (r + 1) 0 :: temp.drop (w + 1) := by
      rw [List.set_eq_take_append_cons_drop, if_pos hw, List.drop_append_of_le_length (by simp; omega)]
      simp [List.drop_eq_nil_of_le (as := temp.take w) (i := w) (by simp; omega)]
    rw [h3]
    have h4 : src.take (r + 1 + 1) = src.take (r + 1) ++ [src.getD (r + 1) 0] := by
      rw [List.take_add_one]
      simp [List.getD, List.getElem?_eq_getElem hs]
    rw [h4]
    simp

theorem copyUp_eq (src : Bytes) : ∀ (k pos : Nat) (temp : Bytes), pos + k ≤ temp.length → pos + k ≤ src.length →
    copyUp src k pos temp = temp.take pos ++ ((src.drop pos).take k ++ temp.drop (pos + k)) := by
  intro k
  induction k with
  | zero => intro pos temp _ _; simp [copyUp]
  | succ k ih =>
    intro pos temp ht hs
    simp only [copyUp]
    rw [ih (pos + 1) _ (by simp; omega) (by omega)]
    have h1 : (temp.set pos (src.getD pos 0)).take (pos + 1) = temp.take pos ++ [src.getD pos 0] := by
      rw [List.take_add_one, take_set_self]
      simp [List.getElem?_set, show pos < temp.length by omega]
    have h2 : (temp.set pos (src.getD pos 0)).drop (pos + 1 + k) = temp.drop (pos + (k + 1)) := by
      rw [List.drop_set_of_lt (by omega)]
      congr 1; omega
    have h3 : (src.drop pos).take (k + 1) = src.getD pos 0 :: (src.drop (pos + 1)).take k := by
      rw [List.drop_eq_getElem_cons (by omega : pos < src.length), List.take_succ_cons]
      simp [List.getD, List.getElem?_eq_getElem (show pos < src.length by omega)]
    rw [h1, h2, h3]
    simp

/-! ## Sign extension -/

theorem toInt64_ofNat (v : Nat) : (UInt64.ofNat v).toInt64.toInt = (v : Int).bmod (2 ^ 64) := by
  show (BitVec.ofNat 64 v).toInt = _
  rw [BitVec.toInt_ofNat']

theorem and80 : ∀ c : UInt8, (c &&& 0x80 != 0) = decide (128 ≤ c.toNat) := all256 (by decide +kernel)

/-- A number with the bytes `p`, extended to eight bytes with its sign. -/
theorem extend (p : Bytes) (c : UInt8) (t : Bytes) (hp : p = c :: t) (h8 : p.length ≤ 8) (signed : Bool) :
    meaning signed (UInt64.ofNat (ofBytes (List.replicate (8 - p.length) (if signed && c &&& 0x80 != 0 then (0xff : UInt8) else 0) ++ p)))
      = if signed then twos p.length (ofBytes p) else (ofBytes p : Int) := by
  have hlt := ofBytes_lt p
  have hpow : 256 ^ (8 - p.length) * 256 ^ p.length = 2 ^ 64 := by
    rw [← Nat.pow_add, show 8 - p.length + p.length = 8 by omega]
  have hle : 256 ^ p.length ≤ 2 ^ 64 := by
    rw [← hpow]; exact Nat.le_mul_of_pos_left _ (Nat.pow_pos (by omega))
  have hfirst : ofBytes p = c.toNat * 256 ^ t.length + ofBytes t := by
    rw [hp, show c :: t = [c] ++ t from rfl, ofBytes_append]
    simp [ofBytes]
  have ht := ofBytes_lt t
  have hl : p.length = t.length + 1 := by rw [hp]; rfl
  have h256 : 256 ^ p.length = 256 * 256 ^ t.length := by rw [hl, Nat.pow_succ, Nat.mul_comm]
  have h2 : 2 ^ (8 * p.length) = 256 ^ p.length := by rw [Nat.pow_mul]
  have h2' : 2 ^ (8 * p.length - 1) = 128 * 256 ^ t.length := by
    have : 2 ^ (8 * p.length - 1) * 2 = 256 * 256 ^ t.length := by
      rw [← Nat.pow_succ, show (8 * p.length - 1).succ = 8 * p.length by omega, h2, h256]
    omega
  have h2i : (2 : Int) ^ (8 * p.length) = ((256 ^ p.length : Nat) : Int) := by rw [← h2]; simp
  rw [and80]
  cases signed with
  | false =>
    simp only [Bool.false_and, Bool.false_eq_true, if_false, meaning]
    rw [ofBytes_append, ofBytes_zeros, Nat.zero_mul, Nat.zero_add, UInt64.toNat_ofNat', Nat.mod_eq_of_lt (by omega)]
  | true =>
    simp only [Bool.true_and, if_true, meaning, twos, decide_eq_true_eq]
    rw [toInt64_ofNat, h2i]
    by_cases hc : 128 ≤ c.toNat
    · have hge : 128 * 256 ^ t.length ≤ c.toNat * 256 ^ t.length := Nat.mul_le_mul_right _ hc
      rw [if_pos hc, if_neg (by omega), ofBytes_append]
      have ho := ofBytes_ones (8 - p.length)
      have hv : ofBytes (List.replicate (8 - p.length) 255) * 256 ^ p.length + 256 ^ p.length = 2 ^ 64 := by
        rw [← hpow, ← ho, Nat.add_mul, Nat.one_mul]
      generalize hX : ofBytes (List.replicate (8 - p.length) 255) * 256 ^ p.length = X at hv ⊢
      have hb : ((X + ofBytes p : Nat) : Int).bmod (2 ^ 64) = ((X + ofBytes p : Nat) : Int) - 2 ^ 64 := by
        rw [← Int.sub_bmod_right, Int.bmod_eq_of_le] <;> omega
      rw [hb]
      omega
    · have hge : c.toNat * 256 ^ t.length ≤ 127 * 256 ^ t.length := Nat.mul_le_mul_right _ (by omega)
      rw [if_neg hc, if_pos (by omega), ofBytes_append, ofBytes_zeros, Nat.zero_mul, Nat.zero_add]
      rw [Int.bmod_eq_of_le] <;> omega

theorem first_ofBytes (p : Bytes) : ofBytes p.reverse = valueLE p := by
  rw [ofBytes_eq, valueBE, List.reverse_reverse]

theorem take_cons {src : Bytes} {n : Nat} (h1 : 1 ≤ n) (hs : n ≤ src.length) :
    ∃ t, src.take n = src.getD 0 0 :: t := by
  match src, n, h1, hs with
  | [], n, h1, hs => simp at hs; omega
  | c :: t, n + 1, _, _ => exact ⟨t.take n, by simp⟩

theorem expandBe_eq (n : Nat) (src : Bytes) (flags : UInt8) (h1 : 1 ≤ n) (h8 : n ≤ 8) (hs : n ≤ src.length) :
    ∃ x, expandBe n src flags = .ok x ∧ meaning (isSigned flags) x = value true (isSigned flags) (src.take n) := by
  obtain ⟨t, ht⟩ := take_cons h1 hs
  have hl : (src.take n).length = n := by rw [List.length_take]; omega
  have h := extend (src.take n) (src.getD 0 0) t ht (by omega) (isSigned flags)
  rw [ofBytes_eq (src.take n)] at h
  refine ⟨_, ?_, h⟩
  · unfold expandBe
    rw [if_neg (by omega), if_neg (by omega), if_neg (by omega)]
    dsimp only
    rw [copyDown_eq _ _ _ _ (by omega) (by simp) (by omega), hl]
    have e1 : 7 - (n - 1) = 8 - n := by omega
    have e2 : n - 1 + 1 = n := by omega
    rw [e1, e2, List.take_replicate, List.drop_replicate]
    simp [Nat.min_eq_left (show 8 - n ≤ 8 by omega)]

theorem expandLe_eq (n : Nat) (src : Bytes) (flags : UInt8) (h1 : 1 ≤ n) (h8 : n ≤ 8) (hs : n ≤ src.length) :
    ∃ x, expandLe n src flags = .ok x ∧ meaning (isSigned flags) x = value false (isSigned flags) (src.take n) := by
  have hl : (src.take n).length = n := by rw [List.length_take]; omega
  obtain ⟨t, ht⟩ : ∃ t, (src.take n).reverse = src.getD (n - 1) 0 :: t := by
    obtain ⟨k, rfl⟩ : ∃ k, n = k + 1 := ⟨n - 1, by omega⟩
    refine ⟨(src.take k).reverse, ?_⟩
    rw [List.take_add_one]
    simp [List.getD, List.getElem?_eq_getElem (show k < src.length by omega)]
  have h := extend (src.take n).reverse (src.getD (n - 1) 0) t ht (by simp; omega) (isSigned flags)
  rw [List.length_reverse, hl] at h
  have h' : _ = value false (isSigned flags) (src.take n) := h.trans (by
    rw [value, hl, ← first_ofBytes]; rfl)
  refine ⟨_, ?_, h'⟩
  · unfold expandLe
    rw [if_neg (by omega), if_neg (by omega), if_neg (by omega)]
    dsimp only
    rw [copyUp_eq _ _ _ _ (by simp; omega) (by omega)]
    rw [List.take_zero, List.nil_append, List.drop_zero, Nat.zero_add, List.drop_replicate, List.reverse_append, List.reverse_replicate]

theorem expand_eq (big : Bool) (n : Nat) (src : Bytes) (flags : UInt8) (h1 : 1 ≤ n) (h8 : n ≤ 8) (hs : n ≤ src.length) :
    ∃ x, (if big then expandBe else expandLe) n src flags = .ok x ∧
      meaning (isSigned flags) x = value big (isSigned flags) (src.take n) := by
  cases big with
  | false => exact expandLe_eq n src flags h1 h8 hs
  | true => exact expandBe_eq n src flags h1 h8 hs

theorem expand_oob (big : Bool) (n : Nat) (src : Bytes) (flags : UInt8) (h1 : 1 ≤ n) (hs : src.length < n) :
    (if big then expandBe else expandLe) n src flags = .oob := by
  cases big with
  | false =>
    show expandLe n src flags = _
    unfold expandLe
    rw [if_neg (by omega), if_pos hs]
  | true =>
    show expandBe n src flags = _
    unfold expandBe
    rw [if_neg (by omega), if_pos hs]

theorem intLoop_eq (le big : Bool) (n : Nat) (flags : UInt8) (h1 : 1 ≤ n) (h8 : n ≤ 8) : ∀ (k : Nat) (src : Bytes) (room : Nat),
    k * n ≤ src.length → 8 * k ≤ room →
    ∃ xs : List UInt64, intLoop le big n flags k src room = .ok (xs.flatMap (hostBytes le)) ∧ xs.length = k ∧
      ∀ i (h : i < xs.length), meaning (isSigned flags) xs[i] = value big (isSigned flags) ((src.drop (i * n)).take n) := by
  intro k
  induction k with
  | zero => intro src room _ _; exact ⟨[], rfl, rfl, fun i h => by simp at h⟩
  | succ k ih =>
    intro src room hs hr
    rw [Nat.succ_mul] at hs
    obtain ⟨x, hx, hm⟩ := expand_eq big n src flags h1 h8 (by omega)
    obtain ⟨xs, hxs, hl, hall⟩ := ih (src.drop n) (room - 8) (by simp; omega) (by omega)
    refine ⟨x :: xs, ?_, by simp [hl], ?_⟩
    · unfold intLoop
      rw [hx]
      simp only [Res.bind]
      rw [if_neg (by omega), hxs]
      simp [Res.bind]
    · intro i h
      cases i with
      | zero => simpa using hm
      | succ i =>
        have := hall i (by simpa using h)
        rw [List.drop_drop] at this
        rw [List.getElem_cons_succ, this, Nat.succ_mul, Nat.add_comm n]

theorem intLoop_oob (le big : Bool) (n : Nat) (flags : UInt8) (h1 : 1 ≤ n) (h8 : n ≤ 8) : ∀ (k : Nat) (src : Bytes) (room : Nat),
    room < 8 * k → intLoop le big n flags k src room = .oob := by
  intro k
  induction k with
  | zero => intro src room h; omega
  | succ k ih =>
    intro src room h
    unfold intLoop
    by_cases hs : n ≤ src.length
    · obtain ⟨x, hx, _⟩ := expand_eq big n src flags h1 h8 hs
      rw [hx]
      simp only [Res.bind]
      by_cases hr : room < 8
      · rw [if_pos hr]
      · rw [if_neg hr, ih _ _ (by omega)]
    · rw [expand_oob big n src flags h1 (by omega)]
      rfl

theorem valueLE_lt (b : Bytes) : valueLE b < 256 ^ b.length := by
  rw [← first_ofBytes, ← List.length_reverse]; exact ofBytes_lt _

theorem hostBytes_length (le : Bool) (x : UInt64) : (hostBytes le x).length = 8 := by cases le <;> rfl

theorem ints_hostBytes (le : Bool) (xs : List UInt64) : ints le (xs.flatMap (hostBytes le)) = xs := by
  induction xs with
  | nil => rfl
  | cons x xs ih =>
    rw [List.flatMap_cons]
    have h := of_be64 x
    rw [ofBytes_eq] at h
    cases le with
    | false =>
      show UInt64.ofNat (valueBE (be64 x)) :: ints false (xs.flatMap (hostBytes false)) = _
      rw [ih, h]
    | true =>
      show UInt64.ofNat (valueLE (be64 x).reverse) :: ints true (xs.flatMap (hostBytes true)) = _
      rw [ih]
      exact congrArg (· :: xs) h

theorem hostBytes_flat_length (le : Bool) (xs : List UInt64) : (xs.flatMap (hostBytes le)).length = 8 * xs.length := by
  induction xs with
  | nil => rfl
  | cons x xs ih => rw [List.flatMap_cons, List.length_append, hostBytes_length, ih, List.length_cons]; omega

/-- **C18**, partial. Importing an array of `elements` integers of `n` bytes (1 to 8), in either byte order and signed or not, uses
`elements * n` bytes, waits when there are fewer, and stores one 64 bit integer for each, whose mathematical value
is that of the bytes. Nothing is read after the end of the input.

Missing from the full property: 2²⁹ elements or more, whose data do not fit the 32 bit length of a value. There the property is false, see
`import_overflow`. -/
theorem import_ints_partial (le big : Bool) (n elements : UInt32) (flags : UInt8) (b : Bytes)
    (h1 : 1 ≤ n.toNat) (h8 : n.toNat ≤ 8) (hc : elements.toNat < 2 ^ 29) :
    (b.length < elements.toNat * n.toNat → importInt le big n elements flags b = .incomplete) ∧
    (elements.toNat * n.toNat ≤ b.length →
      ∃ xs data used, importInt le big n elements flags b = .ok (data, used) ∧
        used.toNat = elements.toNat * n.toNat ∧ data.length = 8 * elements.toNat ∧
        ints le data = xs ∧ xs.length = elements.toNat ∧
        ∀ i (h : i < xs.length), meaning (isSigned flags) xs[i]
          = value big (isSigned flags) ((b.drop (i * n.toNat)).take n.toNat)) := by
  have hmul : elements.toNat * n.toNat ≤ elements.toNat * 8 := Nat.mul_le_mul_left _ h8
  have ht : (elements * n).toNat = elements.toNat * n.toNat := by
    rw [UInt32.toNat_mul, Nat.mod_eq_of_lt (by omega)]
  have ht8 : (elements * 8).toNat = elements.toNat * 8 := by
    rw [UInt32.toNat_mul]; show elements.toNat * 8 % 2 ^ 32 = _; rw [Nat.mod_eq_of_lt (by omega)]
  unfold importInt
  rw [if_neg (by omega)]
  dsimp only
  rw [ht, ht8]
  constructor
  · intro h; rw [if_pos h]
  · intro h
    obtain ⟨xs, hxs, hl, hall⟩ := intLoop_eq le big n.toNat flags h1 h8 elements.toNat b (elements.toNat * 8) h (by omega)
    refine ⟨xs, _, elements * n, ?_, ht, ?_, ints_hostBytes le xs, hl, hall⟩
    · rw [if_neg (by omega), hxs]; rfl
    · rw [hostBytes_flat_length, hl]

/-- Three two-byte little endian signed integers: -2, 1 and -32768. -/
example : importInt true false 2 3 1 [0xfe, 0xff, 1, 0, 0, 0x80, 7] =
    .ok ([0xfe, 0xff, 0xff, 0xff, 0xff, 0xff, 0xff, 0xff, 1, 0, 0, 0, 0, 0, 0, 0, 0, 0x80, 0xff, 0xff, 0xff, 0xff, 0xff, 0xff], 6) := by
  decide +kernel

/-- A three-byte big endian number, signed or not. -/
example : importInt true true 3 1 0 [0xff, 0, 1] = .ok ([1, 0, 0xff, 0, 0, 0, 0, 0], 3) ∧
    value true false [0xff, 0, 1] = 0xff0001 ∧ value true true [0xff, 0, 1] = -65535 := by decide +kernel

/-- Fields of more than eight bytes are refused. -/
theorem import_too_wide (le big : Bool) (n elements : UInt32) (flags : UInt8) (b : Bytes) (h : 8 < n.toNat) :
    importInt le big n elements flags b = .soft := by
  unfold importInt; rw [if_pos h]

/-- **C18** fails for 2²⁹ elements or more: whenever the import starts (the check is made with a product which is reduced to 32 bits) it
writes outside of the memory it allocates. The number of elements can come from the data which are imported. -/
theorem import_overflow (le big : Bool) (n elements : UInt32) (flags : UInt8) (b : Bytes)
    (h1 : 1 ≤ n.toNat) (h8 : n.toNat ≤ 8) (hc : 2 ^ 29 ≤ elements.toNat)
    (hb : elements.toNat * n.toNat % 2 ^ 32 ≤ b.length) :
    importInt le big n elements flags b = .oob := by
  unfold importInt
  rw [if_neg (by omega)]
  dsimp only
  have hlt := elements.toNat_lt
  rw [if_neg (by rw [UInt32.toNat_mul]; omega), intLoop_oob le big n.toNat flags h1 h8]
  · rfl
  · rw [UInt32.toNat_mul]
    have : elements.toNat * (8 : UInt32).toNat % 2 ^ 32 < 2 ^ 32 := Nat.mod_lt _ (by omega)
    omega

/-- Eight bytes of input are enough, with 2²⁹ + 1 elements of eight bytes. -/
example : ∃ (n elements : UInt32) (b : Bytes), 1 ≤ n.toNat ∧ n.toNat ≤ 8 ∧ 2 ^ 29 ≤ elements.toNat ∧
    elements.toNat * n.toNat % 2 ^ 32 ≤ b.length ∧ b.length = 8 := ⟨8, 0x20000001, [1, 2, 3, 4, 5, 6, 7, 8], by decide⟩

/-! ## Strings -/

theorem strExportLoop_append (a b : Bytes) : strExportLoop (a ++ b) = strExportLoop a ++ strExportLoop b := by
  induction a with
  | nil => rfl
  | cons c t ih =>
    simp only [List.cons_append, strExportLoop]
    split <;> simp [ih]

theorem strScan_export (d rest : Bytes) : strScan false (strExportLoop d ++ 0x22 :: rest) = some (strExportLoop d).length := by
  induction d with
  | nil => rfl
  | cons c t ih =>
    simp only [strExportLoop]
    split
    · rename_i h
      simp [strScan, ih]
    · rename_i h
      simp only [Bool.or_eq_true, beq_iff_eq, not_or] at h
      simp [strScan, h.2, show (c == 0x5c) = false by simpa using h.1, ih]

theorem strUnescape_export (d : Bytes) : strUnescape false (strExportLoop d) = d := by
  induction d with
  | nil => rfl
  | cons c t ih =>
    simp only [strExportLoop]
    split
    · simp [strUnescape, ih]
    · rename_i h
      simp only [Bool.or_eq_true, beq_iff_eq, not_or] at h
      simp [strUnescape, h.1, ih]

theorem strExportLoop_length (d : Bytes) :
    (strExportLoop d).length = d.length + d.countP fun c => c == 0x5c || c == 0x22 := by
  induction d with
  | nil => rfl
  | cons c t ih =>
    simp only [strExportLoop]
    split
    · rename_i h; rw [List.countP_cons, if_pos h]; simp [ih]; omega
    · rename_i h; rw [List.countP_cons, if_neg h]; simp [ih]; omega

/-- Part of an exported string has no ending quote. -/
theorem strScan_part (d : Bytes) : ∀ k, strScan false ((strExportLoop d).take k) = none := by
  induction d with
  | nil => intro k; simp [strExportLoop, strScan]
  | cons c t ih =>
    intro k
    match k with
    | 0 => rfl
    | k + 1 =>
      simp only [strExportLoop]
      split
      · match k with
        | 0 => rfl
        | k + 1 => simp [strScan, ih]
      · rename_i h
        simp only [Bool.or_eq_true, beq_iff_eq, not_or] at h
        simp [strScan, h.2, show (c == 0x5c) = false by simpa using h.1, ih]

/-- **C17** For every byte string which can be exported, the export is exactly as long as the length which is computed
first, and importing it, whatever text follows, gives back the string and uses exactly the exported text. Importing any part of it waits for
more. The text which is imported is shorter than 2³² bytes. Strings whose export would be 2³² bytes or longer are
refused. -/
theorem string_roundtrip (d : Bytes) :
    (strExportLength d = none ↔ 2 ^ 32 ≤ (strExport d).length) ∧
    (∀ n, strExportLength d = some n → n = (strExport d).length) ∧
    (∀ rest, (strExport d ++ rest).length < 2 ^ 32 → strImport (strExport d ++ rest) = .ok (d, (strExport d).length)) ∧
    (∀ got more, strExport d = got ++ more → more ≠ [] → (strExport d).length < 2 ^ 32 → strImport got = .incomplete) := by
  have hl : (strExport d).length = d.length + 2 + d.countP fun c => c == 0x5c || c == 0x22 := by
    simp only [strExport, List.length_cons, List.length_append, List.length_nil, strExportLoop_length]; omega
  refine ⟨?_, ?_, ?_, ?_⟩
  · unfold strExportLength
    dsimp only
    rw [← hl]
    split
    · simp; omega
    · simp; omega
  · intro n
    unfold strExportLength
    dsimp only
    rw [← hl]
    split
    · simp
    · intro h; simpa using h.symm
  · intro rest hr
    unfold strImport
    rw [Nat.mod_eq_of_lt hr, List.take_length]
    have e : strExport d ++ rest = 0x22 :: (strExportLoop d ++ 0x22 :: rest) := by simp [strExport]
    have hn : strImportLength (strExport d ++ rest) = .ok ((strExportLoop d).length + 2) := by
      rw [e]; simp only [strImportLength]
      rw [if_neg (by simp), strScan_export]
    rw [hn]
    simp only [Res.bind]
    have hlen : (strExport d).length = (strExportLoop d).length + 2 := by simp [strExport]
    rw [if_neg (by rw [List.length_append]; omega), hlen, e]
    simp [strUnescape_export]
  · intro got more he hm hs
    have hgl : got.length < (strExport d).length := by
      rw [he, List.length_append]; have := List.length_pos_iff.mpr hm; omega
    have hg : got = (strExport d).take got.length := by rw [he, List.take_left]
    unfold strImport
    rw [Nat.mod_eq_of_lt (by omega), List.take_length]
    have : strImportLength got = .incomplete := by
      match got, hg, hgl with
      | [], _, _ => rfl
      | c :: t, hg, hgl =>
        have hlen : (strExport d).length = (strExportLoop d).length + 2 := by simp [strExport]
        rw [List.length_cons] at hgl
        simp only [strExport, List.length_cons, List.take_succ_cons, List.cons.injEq] at hg
        rw [List.take_append_of_le_length (by omega)] at hg
        simp only [strImportLength]
        rw [if_neg (by rw [hg.1]; simp), hg.2, strScan_part]
    rw [this]
    rfl

/-- A string with quotes and a backslash at the end. -/
example : strExport [0x61, 0x22, 0x5c] = [0x22, 0x61, 0x5c, 0x22, 0x5c, 0x5c, 0x22] ∧
    strImport ([0x22, 0x61, 0x5c, 0x22, 0x5c, 0x5c, 0x22] ++ [0x2c]) = .ok ([0x61, 0x22, 0x5c], 7) := by decide

end Verif.Types
