import Verif.Convert.Spec
import Verif.Types.Props
import Verif.Http.LineExact
/-!
# Lemmas about conversions
-/
namespace Verif.Convert
open Verif Types Types.Spec Endian Spec

theorem ints_cons (le : Bool) (d : Bytes) (h : 8 ≤ d.length) : ints le d = hostInt le (d.take 8) :: ints le (d.drop 8) := by
  match d, h with
  | a :: b :: c :: e :: f :: g :: i :: j :: t, _ =>
    cases le
    · simp [ints, hostInt, ofBytes_eq]
    · simp [ints, hostInt, ← first_ofBytes]

theorem ints_short (le : Bool) (d : Bytes) (h : d.length < 8) : ints le d = [] := by
  unfold ints
  split
  · simp only [List.length_cons] at h; omega
  · rfl

theorem ints_length (le : Bool) : ∀ (n : Nat) (d : Bytes), d.length = 8 * n → (ints le d).length = n
  | 0, d, h => by rw [ints_short le d (by omega)]; rfl
  | n + 1, d, h => by
    rw [ints_cons le d (by omega), List.length_cons, ints_length le n _ (by simp; omega)]

theorem ints_get (le : Bool) : ∀ (i : Nat) (d : Bytes), 8 * i + 8 ≤ d.length → (ints le d)[i]? = some (hostInt le ((d.drop (8 * i)).take 8))
  | 0, d, h => by rw [ints_cons le d (by omega)]; simp
  | i + 1, d, h => by
    rw [ints_cons le d (by omega), List.getElem?_cons_succ, ints_get le i _ (by simp; omega), List.drop_drop]
    congr 4
    omega

/-! ## Decimal -/

theorem decimal_text (n : Nat) : Http.decimal n = text n := by
  unfold Http.decimal text
  simp

theorem printNumber_text (signed : Bool) (x : UInt64) : printNumber signed x = text (meaning signed x) := by
  unfold printNumber meaning
  cases signed
  · simp [decimal_text]
  · simp only [true_and, if_true]
    have hlt : x.toInt64 < 0 ↔ x.toInt64.toInt < 0 := by
      rw [Int64.lt_iff_toInt_lt]; rfl
    by_cases h : x.toInt64 < 0
    · rw [if_pos h]
      unfold text Http.decimal
      rw [if_pos (hlt.mp h)]
      rfl
    · rw [if_neg h]
      have h1 : ¬x.toInt64.toInt < 0 := fun hh => h (hlt.mpr hh)
      have h2 : (x.toNat : Int) = x.toInt64.toInt := by
        have : x.toInt64.toInt = (x.toNat : Int).bmod (2 ^ 64) := by
          rw [← toInt64_ofNat, UInt64.ofNat_toNat]
        rw [this, Int.bmod_def]
        rw [this, Int.bmod_def] at h1
        have := x.toNat_lt
        split at h1 <;> split <;> omega
      rw [decimal_text, h2]

theorem text_length (signed : Bool) (x : UInt64) : (text (meaning signed x)).length ≤ 20 := by
  unfold text
  have hb : (meaning signed x).natAbs < 2 ^ 64 ∧ (meaning signed x < 0 → (meaning signed x).natAbs ≤ 2 ^ 63) := by
    unfold meaning
    have := x.toNat_lt
    cases signed
    · simp only [Bool.false_eq_true, if_false]; omega
    · simp only [if_true]
      have h1 := x.toInt64.toInt_lt
      have h2 := x.toInt64.le_toInt
      omega
  generalize (meaning signed x) = n at hb
  have hl : ∀ k m, m < 10 ^ (k + 1) → (Nat.toDigits 10 m).length ≤ k + 1 := fun k m hm => by
    rw [Nat.length_toDigits_le_iff (by omega) (by omega)]; exact hm
  by_cases h : n < 0
  · simp only [if_pos h, List.length_append, List.length_map, List.length_cons, List.length_nil]
    have := hl 18 n.natAbs (by have := hb.2 h; omega)
    omega
  · simp only [if_neg h, List.length_append, List.length_map, List.length_nil]
    have := hl 19 n.natAbs (by omega)
    omega

theorem slot_padded (signed : Bool) (x : UInt64) : slot signed x = padded (meaning signed x) := by
  unfold slot padded
  rw [printNumber_text]

theorem padded_length (signed : Bool) (x : UInt64) : (padded (meaning signed x)).length = 20 := by
  have := text_length signed x
  simp only [padded, List.length_append, List.length_replicate]
  omega

theorem number_some (h : Host) (v : Value) (i : Nat) (hi : 8 * i + 8 ≤ v.data.length) : number h v i = (ints h.le v.data)[i]? := by
  rw [ints_get _ _ _ hi]
  unfold number
  rw [if_pos hi]

theorem slots_eq (h : Host) (v : Value) : ∀ n i, 8 * (i + n) ≤ v.data.length →
    slots h v i n = .ok ((((ints h.le v.data).drop i).take n).flatMap fun x => padded (meaning (isSigned v.flags) x))
  | 0, _, _ => by simp [slots]
  | n + 1, i, hi => by
    unfold slots
    have hg := ints_get h.le i v.data (by omega)
    rw [number_some h v i (by omega), hg]
    simp only
    rw [slots_eq h v n (i + 1) (by omega)]
    obtain ⟨hlt, he⟩ := List.getElem?_eq_some_iff.mp hg
    simp only
    rw [List.drop_eq_getElem_cons hlt, he, List.take_succ_cons, List.flatMap_cons, slot_padded]

theorem chars_ok (h : Host) (v : Value) : ∀ n i, 8 * (i + n) ≤ v.data.length →
    chars h v i n = if (((ints h.le v.data).drop i).take n).all (· ≤ 0xff) then .ok ((((ints h.le v.data).drop i).take n).map (·.toUInt8)) else .no
  | 0, _, _ => by simp [chars]
  | n + 1, i, hi => by
    unfold chars
    have hg := ints_get h.le i v.data (by omega)
    rw [number_some h v i (by omega), hg]
    simp only
    rw [chars_ok h v n (i + 1) (by omega)]
    obtain ⟨hlt, he⟩ := List.getElem?_eq_some_iff.mp hg
    rw [List.drop_eq_getElem_cons hlt, he, List.take_succ_cons, List.all_cons, List.map_cons]
    generalize hostInt h.le _ = x
    by_cases hx : x > 0xff
    · have : ¬x ≤ 0xff := UInt64.not_le.mpr hx
      simp [hx, this]
    · have : x ≤ 0xff := UInt64.not_lt.mp hx
      simp only [if_neg hx, this, decide_true, Bool.true_and]
      cases hq : ((List.take n (List.drop (i + 1) (ints h.le v.data))).all fun x => decide (x ≤ 255))
      · simp only [Bool.false_eq_true, if_false]
      · simp only [if_true]

/-! ## Reading -/

theorem digitsValue_eq (d : Bytes) : digitsValue d = Spec.digitsValue d := by
  have : ∀ (d : Bytes) (a : Nat), d.foldl (fun n (c : UInt8) => n * 10 + (c.toNat - 48)) a = a * 10 ^ d.length + Spec.digitsValue d := by
    intro d
    induction d with
    | nil => intro a; simp [Spec.digitsValue]
    | cons c t ih =>
      intro a
      rw [List.foldl_cons, ih, Spec.digitsValue, List.length_cons, Nat.add_mul, Nat.pow_succ]
      have : a * 10 * 10 ^ t.length = a * (10 ^ t.length * 10) := by rw [Nat.mul_assoc, Nat.mul_comm 10]
      omega
  unfold digitsValue
  rw [this]
  omega

theorem spaces_split (s : Bytes) : ∃ k, s = List.replicate k 32 ++ s.dropWhile (· = 32) := by
  induction s with
  | nil => exact ⟨0, rfl⟩
  | cons c t ih =>
    by_cases h : c = 32
    · subst h
      obtain ⟨k, hk⟩ := ih
      refine ⟨k + 1, ?_⟩
      rw [List.dropWhile_cons_of_pos (by simp), List.replicate_succ, List.cons_append, ← hk]
    · exact ⟨0, by rw [List.dropWhile_cons_of_neg (by simpa using h)]; rfl⟩

theorem spaces_drop (k : Nat) (t : Bytes) (h : ∀ c, t.head? = some c → c ≠ 32) : (List.replicate k 32 ++ t).dropWhile (· = 32) = t := by
  induction k with
  | zero =>
    cases t with
    | nil => rfl
    | cons c t => rw [List.replicate_zero, List.nil_append, List.dropWhile_cons_of_neg (by simpa using h c rfl)]
  | succ k ih => rw [List.replicate_succ, List.cons_append, List.dropWhile_cons_of_pos (by simp), ih]

theorem digits_all (d : Bytes) : d.all (fun c => 48 ≤ c && c ≤ 57) = true ↔ ∀ c ∈ d, 48 ≤ c ∧ c ≤ 57 := by
  simp [List.all_eq_true]

theorem parse_iff (s : Bytes) (n : Int) : parseNumber s = some n ↔ Reads s n := by
  constructor
  · intro h
    obtain ⟨k, hk⟩ := spaces_split s
    unfold parseNumber at h
    simp only at h
    generalize s.dropWhile (· = 32) = t at hk h
    generalize hr : takeSign t = r at h
    obtain ⟨neg, d⟩ := r
    simp only at h
    split at h
    · cases h
    rename_i hn
    have hd1 : d ≠ [] := fun e => hn (.inl e)
    have hd2 := (digits_all d).mp (by
      cases hx : d.all (fun c => 48 ≤ c && c ≤ 57)
      · exact absurd (.inr (by rw [hx]; rfl)) hn
      · rfl)
    unfold takeSign at hr
    rw [digitsValue_eq] at h
    refine ⟨k, d, hd1, hd2, ?_⟩
    split at hr
    · cases hr; exact .inr (.inr ⟨hk, by simpa using h.symm⟩)
    · cases hr; exact .inr (.inl ⟨hk, by simpa using h.symm⟩)
    · cases hr; exact .inl ⟨hk, by simpa using h.symm⟩
  · rintro ⟨k, d, hd1, hd2, h⟩
    have ha := (digits_all d).mpr hd2
    unfold parseNumber
    rcases h with ⟨rfl, rfl⟩ | ⟨rfl, rfl⟩ | ⟨rfl, rfl⟩
    · rw [spaces_drop]
      · have hm : takeSign d = (false, d) := by
          unfold takeSign
          split
          · exact absurd (hd2 45 (by simp)).1 (by decide)
          · exact absurd (hd2 43 (by simp)).1 (by decide)
          · rfl
        simp only [hm]
        rw [if_neg (by rw [ha]; simp [hd1]), digitsValue_eq]
        simp
      · intro c hc
        cases d with
        | nil => exact absurd rfl hd1
        | cons a t =>
          cases hc
          rintro rfl
          exact absurd (hd2 32 (by simp)).1 (by decide)
    · rw [spaces_drop _ _ (by intro c hc; cases hc; decide)]
      simp only [takeSign]
      rw [if_neg (by rw [ha]; simp [hd1]), digitsValue_eq]
      simp
    · rw [spaces_drop _ _ (by intro c hc; cases hc; decide)]
      simp only [takeSign]
      rw [if_neg (by rw [ha]; simp [hd1]), digitsValue_eq]
      simp

theorem reads_unique {s : Bytes} {n n' : Int} (h : Reads s n) (h' : Reads s n') : n = n' := by
  have := (parse_iff s n).mpr h
  rw [(parse_iff s n').mpr h'] at this
  exact (Option.some.inj this).symm

theorem reads_nonneg {s : Bytes} {n : Int} (h : Reads s n) (hs : (45 : UInt8) ∉ s) : 0 ≤ n := by
  obtain ⟨k, d, _, _, ⟨rfl, rfl⟩ | ⟨rfl, rfl⟩ | ⟨rfl, rfl⟩⟩ := h
  · omega
  · omega
  · exact absurd (by simp) hs

theorem reads_bytes {s : Bytes} {n : Int} (h : Reads s n) : s ≠ [] ∧ ∀ c ∈ s, (48 ≤ c ∧ c ≤ 57) ∨ c = 32 ∨ c = 43 ∨ c = 45 := by
  obtain ⟨k, d, hd, hc, ⟨rfl, _⟩ | ⟨rfl, _⟩ | ⟨rfl, _⟩⟩ := h
  · refine ⟨by simp [hd], fun c hm => ?_⟩
    rcases List.mem_append.mp hm with h | h
    · exact .inr (.inl (List.eq_of_mem_replicate h))
    · exact .inl (hc c h)
  · refine ⟨by simp, fun c hm => ?_⟩
    rcases List.mem_append.mp hm with h | h
    · exact .inr (.inl (List.eq_of_mem_replicate h))
    · rcases List.mem_cons.mp h with h | h
      · exact .inr (.inr (.inl h))
      · exact .inl (hc c h)
  · refine ⟨by simp, fun c hm => ?_⟩
    rcases List.mem_append.mp hm with h | h
    · exact .inr (.inl (List.eq_of_mem_replicate h))
    · rcases List.mem_cons.mp h with h | h
      · exact .inr (.inr (.inr h))
      · exact .inl (hc c h)

theorem clamp_meaning (signed : Bool) (n : Int) (h : signed = false → 0 ≤ n) : meaning signed (clamp signed n) = fit signed n := by
  unfold meaning clamp fit
  cases signed
  · have := h rfl
    simp only [Bool.false_eq_true, if_false]
    rw [UInt64.toNat_ofNat']
    omega
  · simp only [if_true]
    have he : ∀ x : Int, -2 ^ 63 ≤ x → x < 2 ^ 63 → x.toInt64.toUInt64.toInt64.toInt = x := by
      intro x h1 h2
      rw [Int64.toInt64_toUInt64, Int.toInt64, Int64.toInt_ofInt_of_le h1 h2]
    split
    · rw [he _ (by omega) (by omega)]; omega
    · split
      · rw [he _ (by omega) (by omega)]; omega
      · rw [he _ (by omega) (by omega)]; omega

theorem parts_length (size : Nat) : ∀ n b, (parts b size n).length = n
  | 0, _ => rfl
  | n + 1, b => by simp [parts, parts_length size n]

theorem parts_flatten (size : Nat) : ∀ n (b : Bytes), b.length = size * n → (parts b size n).flatten = b
  | 0, b, h => by
    have : b = [] := List.length_eq_zero_iff.mp (by omega)
    simp [parts, this]
  | n + 1, b, h => by
    rw [parts, List.flatten_cons, parts_flatten size n _ (by rw [List.length_drop, h, Nat.mul_succ]; omega), List.take_append_drop]

theorem strLoop_some (h : Host) (signed : Bool) (size : Nat) : ∀ n b d, strLoop h signed size n b = some d →
    ∃ ns : List Int, ns.length = n ∧ (∀ p ∈ (parts b size n).zip ns, Reads p.1 p.2) ∧ d = (ns.map (clamp signed)).flatMap (hostBytes h.le)
  | 0, b, d, he => by
    simp only [strLoop, Option.some.injEq] at he
    exact ⟨[], rfl, by simp [parts], by simp [← he]⟩
  | n + 1, b, d, he => by
    unfold strLoop at he
    split at he
    · cases he
    rename_i x hx
    cases hr : strLoop h signed size n (b.drop size) with
    | none => rw [hr] at he; cases he
    | some t =>
      rw [hr] at he
      obtain ⟨ns, h1, h2, h3⟩ := strLoop_some h signed size n _ t hr
      simp only [Option.map_some, Option.some.injEq] at he
      refine ⟨x :: ns, by simp [h1], ?_, by rw [← he, h3]; simp⟩
      intro p hp
      rw [parts, List.zip_cons_cons] at hp
      rcases List.mem_cons.mp hp with rfl | hp
      · exact (parse_iff _ _).mp hx
      · exact h2 p hp

theorem strLoop_exists (h : Host) (signed : Bool) (size : Nat) : ∀ n b (ns : List Int), ns.length = n →
    (∀ p ∈ (parts b size n).zip ns, Reads p.1 p.2) → ∃ d, strLoop h signed size n b = some d
  | 0, b, _, _, _ => ⟨[], rfl⟩
  | n + 1, b, [], hl, _ => by simp at hl
  | n + 1, b, x :: ns, hl, hr => by
    rw [parts, List.zip_cons_cons] at hr
    obtain ⟨d, hd⟩ := strLoop_exists h signed size n (b.drop size) ns (by simpa using hl) (fun p hp => hr p (List.mem_cons_of_mem _ hp))
    have := (parse_iff _ _).mpr (hr (b.take size, x) (by simp))
    exact ⟨_, by rw [strLoop]; simp only [this, hd, Option.map_some]; rfl⟩

/-! ## Hexadecimal -/

theorem hex_eq (b : Bytes) : (b.flatMap fun c => [hexDigit (c.toNat / 16), hexDigit (c.toNat % 16)]) = hex b := by
  unfold hex
  congr 1
  funext c
  have : ∀ c : UInt8, [hexDigit (c.toNat / 16), hexDigit (c.toNat % 16)] = [digit (c >>> 4), digit (c &&& 15)] :=
    all256 (by decide +kernel)
  exact this c

theorem hex_length (b : Bytes) : (hex b).length = 2 * b.length := by
  unfold hex
  induction b with
  | nil => rfl
  | cons c t ih =>
    rw [List.flatMap_cons, List.length_append, ih]
    simp only [List.length_cons, List.length_nil]
    omega

end Verif.Convert
