import Verif.ArrayTree.Spec
import Verif.Types.Import
import Verif.Msg.Props
/-!
# Each import function reads what the specification says
-/
namespace Verif.ArrayTree
open Verif Endian Msg Types Types.Spec Spec

theorem split_at {b p r : Bytes} {m : Nat} : (b = p ++ r ∧ p.length = m) ↔ (m ≤ b.length ∧ p = b.take m ∧ r = b.drop m) := by
  constructor
  · rintro ⟨rfl, rfl⟩
    exact ⟨by simp, by simp, by simp⟩
  · rintro ⟨h, rfl, rfl⟩
    exact ⟨(List.take_append_drop m b).symm, by rw [List.length_take]; omega⟩

theorem mul_toNat {n k : UInt32} (h : n.toNat * k.toNat < 2 ^ 32) : (n * k).toNat = n.toNat * k.toNat := by
  rw [UInt32.toNat_mul]; exact Nat.mod_eq_of_lt h

theorem importBlob_iff {n k : UInt32} (h : n.toNat * k.toNat < 2 ^ 32) (b d : Bytes) (u : Nat) :
    importBlob n k b = .ok (d, u) ↔ ∃ p r, b = p ++ r ∧ u = p.length ∧ p.length = n.toNat * k.toNat ∧ d = p := by
  unfold importBlob
  rw [mul_toNat h]
  simp only
  constructor
  · intro e
    split at e
    · cases e
    · rename_i hl
      cases e
      obtain ⟨h1, h2⟩ := (split_at (m := n.toNat * k.toNat) (b := b)).mpr ⟨by omega, rfl, rfl⟩
      exact ⟨_, _, h1, h2.symm, h2, rfl⟩
  · rintro ⟨p, r, hb, rfl, hp, rfl⟩
    obtain ⟨h1, h2, h3⟩ := split_at.mp ⟨hb, hp⟩
    rw [if_neg (by omega), ← h2, hp]

theorem importChars_iff {valid : UInt8 → Bool} {n k : UInt32} (h : n.toNat * k.toNat < 2 ^ 32) (b d : Bytes) (u : Nat) :
    importChars valid n k b = .ok (d, u) ↔ ∃ p r, b = p ++ r ∧ u = p.length ∧ p.length = n.toNat * k.toNat ∧ (∀ c ∈ p, valid c = true) ∧ d = p := by
  unfold importChars
  rw [mul_toNat h]
  simp only
  constructor
  · intro e
    split at e
    · cases e
    · split at e
      · rename_i hl hv
        cases e
        obtain ⟨h1, h2⟩ := (split_at (m := n.toNat * k.toNat) (b := b)).mpr ⟨by omega, rfl, rfl⟩
        exact ⟨_, _, h1, h2.symm, h2, List.all_eq_true.mp hv, rfl⟩
      · cases e
  · rintro ⟨p, r, hb, rfl, hp, hv, rfl⟩
    obtain ⟨h1, h2, h3⟩ := split_at.mp ⟨hb, hp⟩
    rw [if_neg (by omega), ← h2, hp, if_pos (List.all_eq_true.mpr hv)]

theorem sep_chars : ∀ c : UInt8, isSep c = decide (c ∈ separators) := all256 (by decide +kernel)
theorem stx_chars : ∀ c : UInt8, isStx c = decide (c ∈ starts) := all256 (by decide +kernel)
theorem end_chars : ∀ c : UInt8, isEnd c = decide (c ∈ ends) := all256 (by decide +kernel)
theorem dec_chars : ∀ c : UInt8, isDec c = decide (c ∈ digits) := all256 (by decide +kernel)
theorem hex_chars : ∀ c : UInt8, (isDec c || (true && ((97 ≤ c && c ≤ 102) || (65 ≤ c && c ≤ 70)))) = decide (c ∈ hexDigits) := all256 (by decide +kernel)
theorem num_chars : ∀ c : UInt8, ∀ s : Bool, isNumChar s c = decide (c ∈ digits ∨ c = 43 ∨ (s = true ∧ c = 45)) := all256 (by decide +kernel)

/-! ## Integers -/

theorem ints_length (le : Bool) (k : Nat) (d : Bytes) (h : d.length = 8 * k) : (ints le d).length = k := by
  induction k generalizing d with
  | zero => cases d with
    | nil => rfl
    | cons _ _ => simp at h
  | succ k ih =>
    match d, h with
    | a :: b :: c :: d :: e :: f :: g :: i :: t, h =>
      simp only [ints, List.length_cons] at h ⊢
      rw [ih t (by omega)]
    | [], h => simp at h
    | [_], h => simp at h; omega
    | [_, _], h => simp at h; omega
    | [_, _, _], h => simp at h; omega
    | [_, _, _, _], h => simp at h; omega
    | [_, _, _, _, _], h => simp at h; omega
    | [_, _, _, _, _, _], h => simp at h; omega
    | [_, _, _, _, _, _, _], h => simp at h; omega

theorem be64_of (a b c d e f g h : UInt8) : be64 (UInt64.ofNat (ofBytes [a, b, c, d, e, f, g, h])) = [a, b, c, d, e, f, g, h] := by
  have := a.toNat_lt; have := b.toNat_lt; have := c.toNat_lt; have := d.toNat_lt
  have := e.toNat_lt; have := f.toNat_lt; have := g.toNat_lt; have := h.toNat_lt
  simp only [be64, ofBytes, List.foldl, byteOf, UInt64.toNat_ofNat']
  rw [byte_eq (a := a) (by omega), byte_eq (a := b) (by omega), byte_eq (a := c) (by omega), byte_eq (a := d) (by omega),
    byte_eq (a := e) (by omega), byte_eq (a := f) (by omega), byte_eq (a := g) (by omega), byte_eq (a := h) (by omega)]

/-- Memory is made of the integers in it. -/
theorem ints_bytes (le : Bool) (k : Nat) (d : Bytes) (h : d.length = 8 * k) : (ints le d).flatMap (hostBytes le) = d := by
  induction k generalizing d with
  | zero => cases d with
    | nil => rfl
    | cons _ _ => simp at h
  | succ k ih =>
    match d, h with
    | a :: b :: c :: d :: e :: f :: g :: i :: t, h =>
      simp only [ints, List.flatMap_cons]
      rw [ih t (by simp at h; omega)]
      have : hostBytes le (UInt64.ofNat (if le then valueLE [a, b, c, d, e, f, g, i] else valueBE [a, b, c, d, e, f, g, i])) = [a, b, c, d, e, f, g, i] := by
        unfold hostBytes
        cases le with
        | true =>
          simp only [if_true]
          rw [← first_ofBytes]
          show (be64 (UInt64.ofNat (ofBytes [i, g, f, e, d, c, b, a]))).reverse = _
          rw [be64_of]
          rfl
        | false =>
          simp only [Bool.false_eq_true, if_false]
          rw [← ofBytes_eq, be64_of]
      rw [this]; rfl
    | [], h => simp at h
    | [_], h => simp at h; omega
    | [_, _], h => simp at h; omega
    | [_, _, _], h => simp at h; omega
    | [_, _, _, _], h => simp at h; omega
    | [_, _, _, _, _], h => simp at h; omega
    | [_, _, _, _, _, _], h => simp at h; omega
    | [_, _, _, _, _, _, _], h => simp at h; omega

theorem meaning_inj {s : Bool} {x y : UInt64} (h : meaning s x = meaning s y) : x = y := by
  unfold meaning at h
  cases s with
  | true =>
    simp only [if_true] at h
    have : x.toInt64 = y.toInt64 := Int64.toInt_inj.mp h
    rw [← UInt64.toUInt64_toInt64 x, this, UInt64.toUInt64_toInt64]
  | false =>
    simp only [Bool.false_eq_true, if_false] at h
    exact UInt64.toNat_inj.mp (by omega)

/-- The data are determined. -/
theorem integers_unique {le big s : Bool} {n k : Nat} {p d d' : Bytes} (h : Integers le big s n k p d) (h' : Integers le big s n k p d') : d = d' := by
  obtain ⟨_, hl, hi⟩ := h
  obtain ⟨_, hl', hi'⟩ := h'
  rw [← ints_bytes le k d hl, ← ints_bytes le k d' hl']
  congr 1
  apply List.ext_getElem?
  intro i
  by_cases hk : i < k
  · obtain ⟨x, hx, ex⟩ := hi i hk
    obtain ⟨y, hy, ey⟩ := hi' i hk
    rw [hx, hy, meaning_inj (ex.trans ey.symm)]
  · rw [List.getElem?_eq_none (by rw [ints_length le k d hl]; omega), List.getElem?_eq_none (by rw [ints_length le k d' hl']; omega)]

theorem isSigned_flags (s : Bool) : isSigned (flagsOf s) = s := by cases s <;> rfl

theorem importInt_iff {le big s : Bool} {n k : UInt32} (h1 : 1 ≤ n.toNat) (h8 : n.toNat ≤ 8) (hk : k.toNat < 2 ^ 29) (b d : Bytes) (u : UInt32) :
    importInt le big n k (flagsOf s) b = .ok (d, u) ↔ ∃ p r, b = p ++ r ∧ u.toNat = p.length ∧ Integers le big s n.toNat k.toNat p d := by
  obtain ⟨hin, hok⟩ := import_ints_partial le big n k (flagsOf s) b h1 h8 hk
  rw [isSigned_flags] at hok
  have key : k.toNat * n.toNat ≤ b.length → ∃ d0 u0, importInt le big n k (flagsOf s) b = .ok (d0, u0) ∧ u0.toNat = k.toNat * n.toNat ∧ Integers le big s n.toNat k.toNat (b.take (k.toNat * n.toNat)) d0 := by
    intro hl
    obtain ⟨xs, d0, u0, e, hu, hd, hx, hxl, hm⟩ := hok hl
    refine ⟨d0, u0, e, hu, by rw [List.length_take, Nat.mul_comm n.toNat]; omega, hd, fun i hi => ?_⟩
    have hi' : i < xs.length := by omega
    refine ⟨xs[i], by rw [hx]; exact List.getElem?_eq_getElem hi', ?_⟩
    have := hm i hi'
    rw [this, List.drop_take, List.take_take]
    have : (i + 1) * n.toNat ≤ k.toNat * n.toNat := Nat.mul_le_mul_right _ hi
    rw [Nat.succ_mul] at this
    rw [Nat.min_eq_left (by omega)]
  constructor
  · intro e
    by_cases hl : k.toNat * n.toNat ≤ b.length
    · obtain ⟨d0, u0, e0, hu, hi⟩ := key hl
      rw [e0] at e
      cases e
      exact ⟨_, _, (List.take_append_drop (k.toNat * n.toNat) b).symm, by rw [hu, List.length_take]; omega, hi⟩
    · rw [hin (by omega)] at e; cases e
  · rintro ⟨p, r, hb, hu, hi⟩
    have hpl : p.length = k.toNat * n.toNat := by rw [hi.1, Nat.mul_comm]
    obtain ⟨g1, g2, g3⟩ := split_at.mp ⟨hb, hpl⟩
    obtain ⟨d0, u0, e0, hu0, hi0⟩ := key g1
    rw [← g2] at hi0
    rw [e0, integers_unique hi hi0, UInt32.toNat_inj.mp (hu0.trans (hpl.symm.trans hu.symm))]

/-! ## Numbers in text -/

theorem collect_iff (s : Bool) (k : Nat) (b t : Bytes) :
    collect s k b = .ok t ↔ ∃ c r, b = t ++ c :: r ∧ (∀ x ∈ t, isNumChar s x = true) ∧ isNumChar s c = false ∧ (k + t.length ≤ 63 ∨ t = []) := by
  induction b generalizing k t with
  | nil =>
    constructor
    · intro h; cases h
    · rintro ⟨c, r, h, _⟩; cases t <;> cases h
  | cons x b ih =>
    rw [collect]
    by_cases hx : isNumChar s x = true
    · rw [if_pos hx]
      by_cases hk : k + 1 > 63
      · rw [if_pos hk]
        constructor
        · intro h; cases h
        · rintro ⟨c, r, h, ht, hc, hl⟩
          cases t with
          | nil => cases h; rw [hx] at hc; cases hc
          | cons y t => simp only [List.length_cons, reduceCtorEq, or_false] at hl; omega
      · rw [if_neg hk]
        constructor
        · intro h
          obtain ⟨t', h1, h2⟩ := bind_eq_ok h
          cases h2
          obtain ⟨c, r, e, ht, hc, hl⟩ := (ih (k + 1) t').mp h1
          refine ⟨c, r, by rw [e]; rfl, ?_, hc, Or.inl ?_⟩
          · intro y hy
            cases hy with
            | head => exact hx
            | tail _ hy => exact ht y hy
          · rcases hl with hl | hl
            · simp only [List.length_cons]; omega
            · rw [hl]; simp only [List.length_cons, List.length_nil]; omega
        · rintro ⟨c, r, h, ht, hc, hl⟩
          cases t with
          | nil => cases h; rw [hx] at hc; cases hc
          | cons y t =>
            cases h
            have : collect s (k + 1) (t.append (c :: r)) = .ok t :=
              (ih (k + 1) t).mpr ⟨c, r, rfl, fun y hy => ht y (List.mem_cons_of_mem _ hy), hc, by simp only [List.length_cons, reduceCtorEq, or_false] at hl; left; omega⟩
            rw [this]; rfl
    · rw [if_neg hx]
      constructor
      · intro h; cases h
        exact ⟨x, b, rfl, by simp, by simpa using hx, Or.inr rfl⟩
      · rintro ⟨c, r, h, ht, hc, hl⟩
        cases t with
        | nil => rfl
        | cons y t => cases h; exact absurd (ht _ (List.mem_cons_self ..)) hx

theorem decimal_append (a b : Bytes) : decimal (a ++ b) = decimal a * 10 ^ b.length + decimal b := by
  have gen : ∀ (b : Bytes) (n : Nat), b.foldl (fun a c => a * 10 + (c.toNat - 48)) n = n * 10 ^ b.length + decimal b := by
    intro b
    induction b with
    | nil => intro n; simp [decimal]
    | cons c t ih =>
      intro n
      simp only [List.foldl_cons, List.length_cons, decimal]
      rw [ih, ih (0 * 10 + (c.toNat - 48)), Nat.zero_mul, Nat.zero_add, Nat.pow_succ, Nat.add_mul, Nat.mul_assoc, Nat.mul_comm 10]
      omega
  unfold decimal
  rw [List.foldl_append, gen]
  rfl

theorem decimal_eq (d : Bytes) : decimal d = number d := by
  unfold number
  have : ∀ d : Bytes, decimal d.reverse = numberLE d := by
    intro d
    induction d with
    | nil => rfl
    | cons c t ih =>
      rw [List.reverse_cons, decimal_append, ih]
      simp only [List.length_cons, List.length_nil, numberLE, decimal, List.foldl]
      omega
  rw [← this, List.reverse_reverse]

theorem signed_min (v : Nat) (neg : Bool) :
    meaning true (if neg then 0 - UInt64.ofNat (min v (2 ^ 63)) else UInt64.ofNat (min v (2 ^ 63 - 1))) = clamp (-2 ^ 63) (2 ^ 63 - 1) (signed neg v) := by
  unfold meaning clamp signed
  rw [if_pos rfl]
  cases neg with
  | true =>
    rw [if_pos rfl, if_pos rfl]
    have : (0 - UInt64.ofNat (min v (2 ^ 63))).toInt64.toInt = (-(min v (2 ^ 63) : Nat) : Int).bmod (2 ^ 64) := by
      show (0#64 - BitVec.ofNat 64 (min v (2 ^ 63))).toInt = _
      rw [BitVec.toInt_sub, BitVec.toInt_ofNat', BitVec.toInt_ofNat']
      simp
    rw [this, Int.bmod_def]
    have h63 : (2 : Nat) ^ 63 = 9223372036854775808 := by decide
    have h64 : ((2 ^ 64 : Nat) : Int) = 18446744073709551616 := by decide
    have h63' : (2 : Int) ^ 63 = 9223372036854775808 := by decide
    rw [h63, h64, h63']
    split <;> omega
  | false =>
    simp only [Bool.false_eq_true, if_false]
    rw [toInt64_ofNat, Int.bmod_def]
    have h63 : (2 : Nat) ^ 63 = 9223372036854775808 := by decide
    have h64 : ((2 ^ 64 : Nat) : Int) = 18446744073709551616 := by decide
    have h63' : (2 : Int) ^ 63 = 9223372036854775808 := by decide
    rw [h63, h64, h63']
    split <;> omega

theorem unsigned_min (v : Nat) : meaning false (UInt64.ofNat (min v (2 ^ 64 - 1))) = clamp 0 (2 ^ 64 - 1) (signed false v) := by
  unfold meaning clamp signed
  simp only [Bool.false_eq_true, if_false]
  rw [UInt64.toNat_ofNat']
  have h64 : (2 : Nat) ^ 64 = 18446744073709551616 := by decide
  have h64' : (2 : Int) ^ 64 = 18446744073709551616 := by decide
  rw [h64, h64']
  omega

/-- The range of the numbers of `ustr` and `istr`. -/
def clampFor (s : Bool) (x : Int) : Int := if s then clamp (-2 ^ 63) (2 ^ 63 - 1) x else clamp 0 (2 ^ 64 - 1) x

theorem signOf_append {m : Bool} {sign ds : Bytes} {neg : Bool} (h : Sign m sign neg) (hd : ds ≠ []) (hall : ∀ d ∈ ds, d ∈ digits) : signOf (sign ++ ds) = (neg, ds) := by
  cases ds with
  | nil => exact absurd rfl hd
  | cons d ds =>
    have hdig := hall d (List.mem_cons_self ..)
    rcases h with ⟨rfl, rfl⟩ | ⟨rfl, rfl⟩ | ⟨_, rfl, rfl⟩
    · have : ∀ d : UInt8, d ∈ digits → (d == 45) = false ∧ (d == 43) = false := by decide
      obtain ⟨h1, h2⟩ := this d hdig
      simp only [List.nil_append, signOf, h1, h2]; rfl
    · rfl
    · rfl

theorem convert_iff (s : Bool) (t : Bytes) (ht : ∀ x ∈ t, isNumChar s x = true) (x : UInt64) :
    convert s t = some x ↔ ∃ sign ds neg, t = sign ++ ds ∧ Sign s sign neg ∧ ds ≠ [] ∧ (∀ d ∈ ds, d ∈ digits) ∧ meaning s x = clampFor s (signed neg (number ds)) := by
  have key : ∀ sign ds neg, Sign s sign neg → ds ≠ [] → (∀ d ∈ ds, d ∈ digits) → ∃ y, convert s (sign ++ ds) = some y ∧ meaning s y = clampFor s (signed neg (number ds)) := by
    intro sign ds neg hs hd hall
    unfold convert
    rw [signOf_append hs hd hall]
    have : ¬ (ds = [] ∨ (!ds.all isDec) = true) := by
      rintro (h | h)
      · exact hd h
      · rw [Bool.not_eq_true', ← Bool.not_eq_true] at h
        exact h (List.all_eq_true.mpr fun d h => by rw [dec_chars]; exact decide_eq_true (hall d h))
    simp only
    rw [if_neg this, decimal_eq]
    cases s with
    | true =>
      simp only [if_true]
      have := signed_min (number ds) neg
      cases neg with
      | true => exact ⟨_, rfl, this⟩
      | false => exact ⟨_, rfl, this⟩
    | false =>
      simp only [Bool.false_eq_true, if_false]
      have hn : neg = false := by
        rcases hs with ⟨_, h⟩ | ⟨_, h⟩ | ⟨h, _⟩
        · exact h
        · exact h
        · cases h
      rw [hn]
      exact ⟨_, rfl, unsigned_min _⟩
  constructor
  · intro e
    have hsplit : ∃ sign neg, t = sign ++ (signOf t).2 ∧ Sign s sign neg := by
      cases t with
      | nil => exact ⟨[], false, rfl, Or.inl ⟨rfl, rfl⟩⟩
      | cons c t =>
        unfold signOf
        simp only
        by_cases h1 : (c == 45) = true
        · rw [if_pos h1]
          have h1' : c = 45 := by simpa using h1
          have hs : s = true := by
            have := ht c (List.mem_cons_self ..)
            rw [h1'] at this
            cases s
            · exact absurd this (by decide)
            · rfl
          exact ⟨[45], true, by rw [h1']; rfl, Or.inr (Or.inr ⟨hs, rfl, rfl⟩)⟩
        · rw [if_neg h1]
          by_cases h2 : (c == 43) = true
          · rw [if_pos h2]
            have h2' : c = 43 := by simpa using h2
            exact ⟨[43], false, by rw [h2']; rfl, Or.inr (Or.inl ⟨rfl, rfl⟩)⟩
          · rw [if_neg h2]
            exact ⟨[], false, rfl, Or.inl ⟨rfl, rfl⟩⟩
    obtain ⟨sign, neg, h1, h2⟩ := hsplit
    have h3 : (signOf t).2 ≠ [] ∧ ∀ d ∈ (signOf t).2, d ∈ digits := by
      unfold convert at e
      simp only at e
      split at e
      · cases e
      · rename_i hn
        refine ⟨fun h => hn (Or.inl h), fun d hd => ?_⟩
        have : (signOf t).2.all isDec = true := by
          cases h : (signOf t).2.all isDec
          · exact absurd (Or.inr (by rw [h]; rfl)) hn
          · rfl
        have := List.all_eq_true.mp this d hd
        rw [dec_chars] at this
        exact of_decide_eq_true this
    obtain ⟨y, e1, e2⟩ := key sign _ neg h2 h3.1 h3.2
    rw [← h1, e] at e1
    cases e1
    exact ⟨sign, _, neg, h1, h2, h3.1, h3.2, e2⟩
  · rintro ⟨sign, ds, neg, rfl, hs, hd, hall, hm⟩
    obtain ⟨y, e1, e2⟩ := key sign ds neg hs hd hall
    rw [e1, meaning_inj (hm.trans e2.symm)]

theorem mem_takeWhile {α : Type} {P : α → Bool} {l : List α} {x : α} (h : x ∈ l.takeWhile P) : P x = true := by
  induction l with
  | nil => cases h
  | cons y l ih =>
    rw [List.takeWhile_cons] at h
    split at h
    · cases h with
      | head => assumption
      | tail _ h => exact ih h
    · cases h

theorem takeWhile_exact {α : Type} (P : α → Bool) (a b : List α) (ha : ∀ x ∈ a, P x = true) (hb : ∀ x, b.head? = some x → P x = false) : (a ++ b).takeWhile P = a := by
  induction a with
  | nil =>
    cases b with
    | nil => rfl
    | cons x b => rw [List.nil_append, List.takeWhile_cons, hb x rfl]; rfl
  | cons y a ih =>
    rw [List.cons_append, List.takeWhile_cons, ha y (List.mem_cons_self ..), if_pos rfl, ih (fun x hx => ha x (List.mem_cons_of_mem _ hx))]

theorem numText_spaces (s : Bool) : ∀ c : UInt8, isNumChar s c = true → (c == 32 || c == 9) = false := by
  cases s
  · exact all256 (by decide +kernel)
  · exact all256 (by decide +kernel)

theorem sign_numChars {s : Bool} {sign ds : Bytes} {neg : Bool} (hs : Sign s sign neg) (hall : ∀ d ∈ ds, d ∈ digits) : ∀ x ∈ sign ++ ds, isNumChar s x = true := by
  intro x hx
  rw [num_chars]
  apply decide_eq_true
  rcases List.mem_append.mp hx with hx | hx
  · rcases hs with ⟨rfl, _⟩ | ⟨rfl, _⟩ | ⟨h, rfl, _⟩
    · cases hx
    · simp at hx; exact Or.inr (Or.inl hx)
    · simp at hx; exact Or.inr (Or.inr ⟨h, hx⟩)
  · exact Or.inl (hall x hx)

theorem importNum_iff (s : Bool) (b : Bytes) (x : UInt64) (u : Nat) :
    importNum s b = .ok (x, u) ↔ ∃ p r y, b = p ++ r ∧ u = p.length ∧ NumText s p r y ∧ meaning s x = clampFor s y := by
  unfold importNum
  constructor
  · intro e
    split at e
    · cases e
    simp only at e
    obtain ⟨t, h1, e⟩ := bind_eq_ok e
    split at e
    · cases e
    rename_i ht
    split at e
    · cases e
    rename_i y hy
    cases e
    obtain ⟨c, r, hb, hnum, hc, hl⟩ := (collect_iff s 0 _ t).mp h1
    obtain ⟨sign, ds, neg, e1, e2, e3, e4, e5⟩ := (convert_iff s t hnum x).mp hy
    have hd : b.drop (b.takeWhile fun c => c == 32 || c == 9).length = b.dropWhile fun c => c == 32 || c == 9 := by
      have h := List.takeWhile_append_dropWhile (p := fun c : UInt8 => c == 32 || c == 9) (l := b)
      have h' : b.drop (b.takeWhile fun c => c == 32 || c == 9).length
          = ((b.takeWhile fun c => c == 32 || c == 9) ++ b.dropWhile fun c => c == 32 || c == 9).drop (b.takeWhile fun c => c == 32 || c == 9).length := by rw [h]
      rw [h', List.drop_left]
    rw [hd] at hb
    have hb' : b = (b.takeWhile fun c => c == 32 || c == 9) ++ t ++ c :: r := by
      rw [List.append_assoc, ← hb, List.takeWhile_append_dropWhile]
    refine ⟨(b.takeWhile fun c => c == 32 || c == 9) ++ t, c :: r, _, hb', by rw [List.length_append]; omega, ?_, e5⟩
    refine ⟨_, sign, ds, neg, c, r, by rw [← e1], ?_, e2, e3, e4, ?_, rfl, ?_, ?_, ?_, rfl⟩
    · intro z hz
      have := mem_takeWhile hz
      simpa using this
    · rw [← e1]; rcases hl with hl | hl
      · omega
      · exact absurd hl ht
    all_goals rw [num_chars] at hc; have hc := of_decide_eq_false hc
    · exact fun h => hc (Or.inl h)
    · exact fun h => hc (Or.inr (Or.inl h))
    · exact fun hs h => hc (Or.inr (Or.inr ⟨hs, h⟩))
  · rintro ⟨p, r, y, rfl, rfl, ⟨spaces, sign, ds, neg, c, t, rfl, hsp, hs, hd, hall, hl, rfl, c1, c2, c3, rfl⟩, hm⟩
    have hnum := sign_numChars hs hall
    have hne : sign ++ ds ≠ [] := by
      intro h; exact hd (List.append_eq_nil_iff.mp h).2
    rw [if_neg (by simp [hd])]
    have htw : (spaces ++ (sign ++ ds) ++ c :: t).takeWhile (fun c => c == 32 || c == 9) = spaces := by
      rw [List.append_assoc]
      apply takeWhile_exact
      · intro z hz; rcases hsp z hz with rfl | rfl <;> rfl
      · intro z hz
        apply numText_spaces s
        apply hnum
        cases hq : sign ++ ds with
        | nil => exact absurd hq hne
        | cons q qs =>
          rw [hq] at hz
          simp only [List.cons_append, List.head?_cons, Option.some.injEq] at hz
          rw [← hz]; exact List.mem_cons_self ..
    simp only
    rw [htw]
    have hcol : collect s 0 ((spaces ++ (sign ++ ds) ++ c :: t).drop spaces.length) = .ok (sign ++ ds) := by
      rw [List.append_assoc, List.drop_left]
      refine (collect_iff s 0 _ _).mpr ⟨c, t, rfl, hnum, ?_, Or.inl (by omega)⟩
      rw [num_chars]
      apply decide_eq_false
      rintro (h | h | ⟨h1, h2⟩)
      · exact c1 h
      · exact c2 h
      · exact c3 h1 h2
    have hcv := (convert_iff s (sign ++ ds) hnum x).mpr ⟨sign, ds, neg, rfl, hs, hd, hall, hm⟩
    rw [hcol]
    show (if sign ++ ds = [] then _ else _) = _
    rw [if_neg hne, hcv]
    simp only [List.length_append]
    congr 2
    omega

/-! ## Fixed point numbers -/

/-- The digits of a base. -/
def digitsOf (hex : Bool) : Bytes := if hex then hexDigits else digits

theorem fixp_chars (hex : Bool) : ∀ c : UInt8, (isDec c || (hex && ((97 ≤ c && c ≤ 102) || (65 ≤ c && c ≤ 70)))) = decide (c ∈ digitsOf hex) := by
  cases hex
  · exact all256 (by decide +kernel)
  · exact all256 (by decide +kernel)

theorem fixpDigits_iff (hex : Bool) (k : Nat) (dot : Bool) (b : Bytes) (m : Nat) :
    fixpDigits hex k dot b = some m ↔ ∃ ds r, b = ds ++ r ∧ m = k + ds.length ∧ (∀ d ∈ ds, d = 46 ∨ d ∈ digitsOf hex) ∧ ds.count 46 + (if dot then 1 else 0) ≤ 1 ∧ (k = 0 → ds.head? ≠ some 46) ∧
      (∀ c, r.head? = some c → c ≠ 46 ∧ c ∉ digitsOf hex) := by
  induction b generalizing k dot m with
  | nil =>
    constructor
    · intro h; cases h
      exact ⟨[], [], rfl, rfl, by simp, by cases dot <;> simp, by simp, by simp⟩
    · rintro ⟨ds, r, h, rfl, _⟩
      have := List.append_eq_nil_iff.mp h.symm
      rw [this.1]; rfl
  | cons x b ih =>
    have hdot : (46 : UInt8) ∉ digitsOf hex := by cases hex <;> decide
    rw [fixpDigits, fixp_chars]
    by_cases hx : x ∈ digitsOf hex
    · rw [if_pos (decide_eq_true hx), ih]
      have hx46 : x ≠ 46 := fun h => hdot (h ▸ hx)
      constructor
      · rintro ⟨ds, r, rfl, rfl, h1, h2, h3, h4⟩
        refine ⟨x :: ds, r, rfl, by simp only [List.length_cons]; omega, ?_, ?_, ?_, h4⟩
        · intro d hd
          cases hd with
          | head => exact Or.inr hx
          | tail _ hd => exact h1 d hd
        · rw [List.count_cons_of_ne hx46]; exact h2
        · intro _ h; simp only [List.head?_cons, Option.some.injEq] at h; exact hx46 h
      · rintro ⟨ds, r, h, rfl, h1, h2, h3, h4⟩
        cases ds with
        | nil => cases r with
          | nil => cases h
          | cons y r => cases h; exact absurd hx (h4 x rfl).2
        | cons y ds =>
          cases h
          refine ⟨ds, r, rfl, by simp only [List.length_cons]; omega, fun d hd => h1 d (List.mem_cons_of_mem _ hd), ?_, fun h => by omega, h4⟩
          rw [List.count_cons_of_ne hx46] at h2; exact h2
    · rw [if_neg (by simpa using hx)]
      by_cases hd : x = 46
      · subst hd
        rw [if_pos (by rfl)]
        by_cases hk : k = 0 ∨ dot = true
        · rw [if_pos hk]
          constructor
          · intro h; cases h
          · rintro ⟨ds, r, h, rfl, h1, h2, h3, h4⟩
            cases ds with
            | nil => cases r with
              | nil => cases h
              | cons y r => cases h; exact absurd rfl (h4 _ rfl).1
            | cons y ds =>
              cases h
              rcases hk with hk | hk
              · exact absurd rfl (h3 hk)
              · rw [hk, List.count_cons_self] at h2; simp at h2
        · rw [if_neg hk, ih]
          have hk' : k ≠ 0 ∧ dot = false := ⟨fun h => hk (Or.inl h), by cases dot; rfl; exact absurd (Or.inr rfl) hk⟩
          rw [hk'.2]
          constructor
          · rintro ⟨ds, r, rfl, rfl, h1, h2, h3, h4⟩
            refine ⟨46 :: ds, r, rfl, by simp only [List.length_cons]; omega, ?_, ?_, fun h => absurd h hk'.1, h4⟩
            · intro d hd
              cases hd with
              | head => exact Or.inl rfl
              | tail _ hd => exact h1 d hd
            · rw [List.count_cons_self]; simpa using h2
          · rintro ⟨ds, r, h, rfl, h1, h2, h3, h4⟩
            cases ds with
            | nil => cases r with
              | nil => cases h
              | cons y r => cases h; exact absurd rfl (h4 _ rfl).1
            | cons y ds =>
              cases h
              refine ⟨ds, r, rfl, by simp only [List.length_cons]; omega, fun d hd => h1 d (List.mem_cons_of_mem _ hd), ?_, fun h => by omega, h4⟩
              rw [List.count_cons_self] at h2; simpa using h2
      · rw [if_neg (by simpa using hd)]
        constructor
        · intro h; cases h
          exact ⟨[], x :: b, rfl, rfl, by simp, by cases dot <;> simp, by simp, fun c hc => by cases hc; exact ⟨hd, hx⟩⟩
        · rintro ⟨ds, r, h, rfl, h1, h2, h3, h4⟩
          cases ds with
          | nil => rfl
          | cons y ds =>
            cases h
            rcases h1 x (List.mem_cons_self ..) with h | h
            · exact absurd h hd
            · exact absurd h hx

theorem fixpNumber_iff (hex : Bool) (b : Bytes) (m : Nat) :
    fixpNumber hex b = some m ↔ ∃ sign ds neg r, b = sign ++ ds ++ r ∧ m = sign.length + ds.length ∧ Sign true sign neg ∧ ds ≠ [] ∧ ds.head? ≠ some 46 ∧ ds.count 46 ≤ 1 ∧
      (∀ d ∈ ds, d = 46 ∨ d ∈ digitsOf hex) ∧ (∀ c, r.head? = some c → c ≠ 46 ∧ c ∉ digitsOf hex) := by
  have rest : ∀ (r : Bytes) (k : Nat), (∃ m, fixpDigits hex 0 false r = some (m + 1) ∧ k = m + 1) ↔ ∃ ds t, r = ds ++ t ∧ k = ds.length ∧ ds ≠ [] ∧ ds.head? ≠ some 46 ∧ ds.count 46 ≤ 1 ∧
      (∀ d ∈ ds, d = 46 ∨ d ∈ digitsOf hex) ∧ (∀ c, t.head? = some c → c ≠ 46 ∧ c ∉ digitsOf hex) := by
    intro r k
    constructor
    · rintro ⟨m, e, rfl⟩
      obtain ⟨ds, t, h1, h2, h3, h4, h5, h6⟩ := (fixpDigits_iff hex 0 false r (m + 1)).mp e
      exact ⟨ds, t, h1, by omega, by intro h; rw [h] at h2; simp at h2, h5 rfl, by simpa using h4, h3, h6⟩
    · rintro ⟨ds, t, h1, h2, h3, h4, h5, h6, h7⟩
      obtain ⟨m, hm⟩ : ∃ m, ds.length = m + 1 := by
        cases ds with
        | nil => exact absurd rfl h3
        | cons x ds => exact ⟨ds.length, rfl⟩
      exact ⟨m, (fixpDigits_iff hex 0 false r (m + 1)).mpr ⟨ds, t, h1, by omega, h6, by simpa using h5, fun _ => h4, h7⟩, by omega⟩
  have body : ∀ (r : Bytes) (a m : Nat), (if r = [] then none else match fixpDigits hex 0 false r with | none => none | some 0 => none | some (k + 1) => some (a + (k + 1))) = some m ↔
      ∃ k, (∃ q, fixpDigits hex 0 false r = some (q + 1) ∧ k = q + 1) ∧ m = a + k := by
    intro r a m
    constructor
    · intro e
      split at e
      · cases e
      · split at e
        · cases e
        · cases e
        · rename_i k hk
          cases e
          exact ⟨_, ⟨k, hk, rfl⟩, rfl⟩
    · rintro ⟨k, ⟨q, e, rfl⟩, rfl⟩
      rw [if_neg, e]
      intro h; rw [h] at e; simp [fixpDigits] at e
  unfold fixpNumber
  simp only
  refine (body _ _ m).trans ?_
  constructor
  · rintro ⟨k, hk, rfl⟩
    obtain ⟨ds, t, h1, h2, h3⟩ := (rest _ k).mp hk
    by_cases hs : (b.head? == some 45 || b.head? == some 43) = true
    · rw [if_pos hs] at h1
      rw [if_pos hs]
      cases b with
      | nil => cases hs
      | cons c b =>
        rw [List.drop_one, List.tail_cons] at h1
        rw [h1]
        simp only [List.head?_cons, Bool.or_eq_true, beq_iff_eq, Option.some.injEq] at hs
        rcases hs with rfl | rfl
        · exact ⟨[45], ds, true, t, rfl, by simp [h2], Or.inr (Or.inr ⟨rfl, rfl, rfl⟩), h3⟩
        · exact ⟨[43], ds, false, t, rfl, by simp [h2], Or.inr (Or.inl ⟨rfl, rfl⟩), h3⟩
    · rw [if_neg hs] at h1
      rw [if_neg hs]
      exact ⟨[], ds, false, t, by rw [h1]; rfl, by simp [h2], Or.inl ⟨rfl, rfl⟩, h3⟩
  · rintro ⟨sign, ds, neg, t, rfl, rfl, hs, h3⟩
    rcases hs with ⟨rfl, _⟩ | ⟨rfl, _⟩ | ⟨_, rfl, _⟩
    · have : ¬ ((([] ++ ds ++ t : Bytes).head? == some 45 || ([] ++ ds ++ t : Bytes).head? == some 43) = true) := by
        cases ds with
        | nil => exact absurd rfl h3.1
        | cons d ds =>
          have : ∀ d, (d = 46 ∨ d ∈ digitsOf hex) → ¬ ((some d == some (45 : UInt8) || some d == some 43) = true) := by
            intro d hd
            rcases hd with rfl | hd
            · decide
            · revert hd; revert d; cases hex <;> decide
          exact this d (h3.2.2.2.1 d (List.mem_cons_self ..))
      rw [if_neg this, if_neg this]
      exact ⟨ds.length, (rest _ _).mpr ⟨ds, t, rfl, rfl, h3⟩, by simp⟩
    · exact ⟨ds.length, (rest _ _).mpr ⟨ds, t, rfl, rfl, h3⟩, by simp⟩
    · exact ⟨ds.length, (rest _ _).mpr ⟨ds, t, rfl, rfl, h3⟩, by simp⟩

end Verif.ArrayTree
