import Verif.Form.Spec
import Verif.HttpUtil.Lemmas

/-! # Lemmas about forms -/
namespace Verif.Form
open Verif Verif.HttpUtil Verif.Form.Spec

theorem hex_digit : ∀ c : UInt8, ((hexValue c).all fun x => isDigit 16 c && decide (digitValue c = x) && decide (x < 16)) = true :=
  all256 (by decide +kernel)

theorem hex_digit' (c : UInt8) (x : Nat) (h : hexValue c = some x) : isDigit 16 c = true ∧ digitValue c = x ∧ x < 16 := by
  have := hex_digit c
  rw [h] at this
  simp at this
  exact ⟨this.1.1, this.1.2, this.2⟩

theorem strtoullRaw_hex (a b : UInt8) (x y : Nat) (ha : hexValue a = some x) (hb : hexValue b = some y) :
    strtoullRaw 16 [a, b] = some (16 * x + y, 2) ∧ 16 * x + y ≤ 255 := by
  obtain ⟨da, va, la⟩ := hex_digit' a x ha
  obtain ⟨db, vb, lb⟩ := hex_digit' b y hb
  unfold strtoullRaw
  simp only [List.takeWhile, da, db, strtoull, List.foldl, va, vb, List.length]
  refine ⟨?_, by omega⟩
  simp only [Nat.zero_mul, Nat.zero_add, show ¬ (1 + 1 : Nat) = 0 by decide, show ¬ (1 + 1 : Nat) > 63 by decide, if_false]
  rw [if_pos (by omega), Nat.mul_comm]

/-- The next character, if there is one, is not white space. -/
def Next (r : Bytes) : Prop := ∀ c t, r = c :: t → isSpace c = false

theorem plain_facts (c : UInt8) (h : Plain c) : c ≠ 37 ∧ c ≠ 38 ∧ c ≠ 43 ∧ c ≠ 61 ∧ isSpace c = false := by
  unfold Plain at h
  simp at h
  simp [isSpace, h]

theorem writes_next (t s r : Bytes) (h : Writes t s) (hr : Next r) : Next (t ++ r) := by
  intro c u e
  cases h with
  | nil => exact hr c u e
  | plain c' t s hp h => simp at e; rw [← e.1]; exact (plain_facts _ hp).2.2.2.2
  | plus t s h => simp at e; rw [← e.1]; decide
  | hex a b x y t s ha hb h => simp at e; rw [← e.1]; decide

theorem nearEnd_false (r : Bytes) (h : Next r) (hn : r ≠ []) : nearEnd r = false := by
  cases r with
  | nil => exact absurd rfl hn
  | cons c t => exact h c t rfl

theorem loop_plain (c : UInt8) (r buf : Bytes) (target : Bool) (acc : List Field) (h : Plain c) :
    loop (c :: r) buf target acc = if r = [] then .ok (flush target acc (buf ++ [c])) else loop r (buf ++ [c]) target acc := by
  obtain ⟨h1, h2, h3, h4, h5⟩ := plain_facts c h
  conv => lhs; unfold loop
  simp [h1, h2, h3, h4, h5]

theorem loop_plus (r buf : Bytes) (target : Bool) (acc : List Field) :
    loop (43 :: r) buf target acc = if r = [] then .ok (flush target acc (buf ++ [32])) else loop r (buf ++ [32]) target acc := by
  conv => lhs; unfold loop
  simp [show isSpace 43 = false by decide]

theorem loop_hex (a b : UInt8) (x y : Nat) (r buf : Bytes) (target : Bool) (acc : List Field) (ha : hexValue a = some x)
    (hb : hexValue b = some y) (hr : Next r) :
    loop (37 :: a :: b :: r) buf target acc = if r = [] then .ok (flush target acc (buf ++ [UInt8.ofNat (16 * x + y)]))
      else loop r (buf ++ [UInt8.ofNat (16 * x + y)]) target acc := by
  obtain ⟨h1, h2⟩ := strtoullRaw_hex a b x y ha hb
  rw [loop]
  simp only [h1, if_true]
  rw [if_neg (by omega)]
  by_cases hn : r = []
  · subst hn; simp [nearEnd]
  · rw [nearEnd_false r hr hn, if_neg hn]; simp

/-- What comes before a separator is added to the buffer. -/
theorem loop_writes (t s r buf : Bytes) (target : Bool) (acc : List Field) (h : Writes t s) (hr : Next r) (hn : r ≠ []) :
    loop (t ++ r) buf target acc = loop r (buf ++ s) target acc := by
  induction h generalizing buf with
  | nil => simp
  | plain c t s hp h ih =>
    rw [List.cons_append, loop_plain _ _ _ _ _ hp, if_neg (by simp [hn]), ih]; simp
  | plus t s h ih => rw [List.cons_append, loop_plus, if_neg (by simp [hn]), ih]; simp
  | hex a b x y t s ha hb h ih =>
    rw [List.cons_append, List.cons_append, List.cons_append, loop_hex _ _ _ _ _ _ _ _ ha hb (writes_next _ _ _ h hr),
      if_neg (by simp [hn]), ih]; simp

theorem next_nil : Next [] := by intro c t h; simp at h

/-- What comes last is stored. -/
theorem loop_last (t s buf : Bytes) (target : Bool) (acc : List Field) (h : Writes t s) (hs : s ≠ []) :
    loop t buf target acc = .ok (flush target acc (buf ++ s)) := by
  induction h generalizing buf with
  | nil => exact absurd rfl hs
  | plain c t s hp h ih =>
    rw [loop_plain _ _ _ _ _ hp]
    by_cases ht : t = []
    · subst ht; cases h; simp
    · rw [if_neg ht, ih]
      · simp
      · intro e; subst e; cases h; exact ht rfl
  | plus t s h ih =>
    rw [loop_plus]
    by_cases ht : t = []
    · subst ht; cases h; simp
    · rw [if_neg ht, ih]
      · simp
      · intro e; subst e; cases h; exact ht rfl
  | hex a b x y t s ha hb h ih =>
    have hx : Next t := by simpa using writes_next t s [] h next_nil
    rw [loop_hex _ _ _ _ _ _ _ _ ha hb hx]
    by_cases ht : t = []
    · subst ht; cases h; simp
    · rw [if_neg ht, ih]
      · simp
      · intro e; subst e; cases h; exact ht rfl

theorem next_eq (u : Bytes) : Next (61 :: u) := by intro c t h; simp at h; rw [← h.1]; decide
theorem next_amp (u : Bytes) : Next (38 :: u) := by intro c t h; simp at h; rw [← h.1]; decide

/-- The field which is read. -/
def heard (f : Field) : Field := { f with value := if f.value.head? = some 0 then [] else f.value }

theorem flush_name (acc : List Field) (n : Bytes) (h : n ≠ []) : flush false acc n = acc ++ [⟨n, []⟩] := by simp [flush, pushName, h]

theorem flush_value (acc : List Field) (n v : Bytes) : flush true (acc ++ [⟨n, []⟩]) v = acc ++ [heard ⟨n, v⟩] := by
  simp only [flush, if_true, setValue, heard]
  by_cases h0 : v.head? = some 0
  · simp [h0]
  · by_cases h1 : v = []
    · simp [h1]
    · simp [h0, h1]

theorem loop_eq (r buf : Bytes) (acc : List Field) (h : buf ≠ []) :
    loop (61 :: r) buf false acc = if r = [] then .ok (acc ++ [⟨buf, []⟩]) else loop r [] true (acc ++ [⟨buf, []⟩]) := by
  conv => lhs; unfold loop
  simp [h, pushName, show isSpace 61 = false by decide]

theorem loop_amp (r buf : Bytes) (target : Bool) (acc : List Field) :
    loop (38 :: r) buf target acc = if r = [] then .ok (flush target acc buf) else loop r [] false (flush target acc buf) := by
  conv => lhs; unfold loop
  simp [show isSpace 38 = false by decide]

theorem writes_nonempty (t s : Bytes) (h : Writes t s) (hs : s ≠ []) : t ≠ [] := by
  intro e; subst e; cases h; exact hs rfl

theorem writes_empty (t : Bytes) (h : Writes t []) : t = [] := by cases h; rfl

theorem loop_field_last (t : Bytes) (f : Field) (acc : List Field) (h : WritesField t f) :
    loop t [] false acc = .ok (acc ++ [heard f]) := by
  cases h with
  | bare _ n hn hne => rw [loop_last t n [] false acc hn hne, List.nil_append, flush_name _ _ hne]; rfl
  | valued t u n v ht hne hu =>
    rw [loop_writes t n _ _ _ _ ht (next_eq u) (by simp), List.nil_append, loop_eq _ _ _ hne]
    by_cases hv : v = []
    · subst hv; rw [if_pos (writes_empty u hu)]; rfl
    · rw [if_neg (writes_nonempty u v hu hv), loop_last u v [] true _ hu hv, List.nil_append, flush_value]

theorem loop_field (t r : Bytes) (f : Field) (acc : List Field) (h : WritesField t f) (hr : r ≠ []) :
    loop (t ++ 38 :: r) [] false acc = loop r [] false (acc ++ [heard f]) := by
  cases h with
  | bare _ n hn hne =>
    rw [loop_writes t n _ _ _ _ hn (next_amp r) (by simp), List.nil_append, loop_amp, if_neg hr, flush_name _ _ hne]; rfl
  | valued t u n v ht hne hu =>
    rw [List.append_assoc, List.cons_append, loop_writes t n _ _ _ _ ht (next_eq _) (by simp), List.nil_append, loop_eq _ _ _ hne,
      if_neg (by simp), loop_writes u v _ _ _ _ hu (next_amp r) (by simp), List.nil_append, loop_amp, if_neg hr, flush_value]

theorem writesField_nonempty (t : Bytes) (f : Field) (h : WritesField t f) : t ≠ [] := by
  cases h with
  | bare _ n hn hne => exact writes_nonempty _ _ hn hne
  | valued t u n v ht hne hu => simp

theorem writesForm_nonempty (t : Bytes) (fs : List Field) (h : WritesForm t fs) (hf : fs ≠ []) : t ≠ [] := by
  cases h with
  | empty => exact absurd rfl hf
  | one t f h => exact writesField_nonempty _ _ h
  | more t u f fs h _ _ => simp

theorem loop_form (t : Bytes) (fs acc : List Field) (h : WritesForm t fs) :
    loop t [] false acc = .ok (acc ++ fs.map heard) := by
  induction h generalizing acc with
  | empty => simp [loop]
  | one t f h => rw [loop_field_last t f acc h]; rfl
  | more t u f fs h hn hu ih => rw [loop_field t u f acc h (writesForm_nonempty u fs hu hn), ih]; simp

theorem writesField_next (t r : Bytes) (f : Field) (h : WritesField t f) (hr : Next r) : Next (t ++ r) := by
  cases h with
  | bare _ n hn hne => exact writes_next _ _ _ hn hr
  | valued t u n v ht hne hu => rw [List.append_assoc]; exact writes_next _ _ _ ht (next_eq _)

theorem writesForm_next (t : Bytes) (fs : List Field) (h : WritesForm t fs) : Next t := by
  cases h with
  | empty => exact next_nil
  | one t f h => simpa using writesField_next t [] f h next_nil
  | more t u f fs h _ _ => exact writesField_next t _ f h (next_amp u)

theorem dropWhile_next (t : Bytes) (h : Next t) : t.dropWhile isSpace = t := by
  cases t with
  | nil => rfl
  | cons c t => rw [List.dropWhile_cons, h c t rfl]; rfl

theorem parse_form (t : Bytes) (fs : List Field) (h : WritesForm t fs) : parse t = .ok (fs.map heard) := by
  unfold parse
  rw [dropWhile_next t (writesForm_next t fs h), loop_form t fs [] h]; rfl

theorem hexDigit_value : ∀ c : UInt8,
    hexValue (hexDigit (c >>> 4)) = some (c.toNat / 16) ∧ hexValue (hexDigit (c &&& 15)) = some (c.toNat % 16) :=
  all256 (by decide +kernel)

theorem unreserved_plain : ∀ c : UInt8, (isAlnum c || isUnreservedMark c) = true → Plain c := by
  unfold Plain; exact all256 (by decide +kernel)

theorem encode_writes (s : Bytes) : Writes (encode s) s := by
  induction s with
  | nil => exact .nil
  | cons c s ih =>
    unfold encode at *
    rw [List.flatMap_cons]
    unfold encodeByte
    split
    · rename_i hc; exact .plain c _ _ (unreserved_plain c hc) ih
    · have := Writes.hex _ _ _ _ _ _ (hexDigit_value c).1 (hexDigit_value c).2 ih
      rw [show 16 * (c.toNat / 16) + c.toNat % 16 = c.toNat by omega, UInt8.ofNat_toNat] at this
      exact this

theorem fieldText_writes (f : Field) (h : f.name ≠ []) : WritesField (fieldText f) f := by
  obtain ⟨n, v⟩ := f
  dsimp only at h
  unfold fieldText
  simp only [h, ne_eq, not_false_eq_true, if_true]
  by_cases hv : v = []
  · subst hv; simpa using WritesField.bare _ n (encode_writes n) h
  · simpa [hv] using WritesField.valued _ _ n v (encode_writes n) h (encode_writes v)

theorem toForm_writes (fs : List Field) (h : ∀ f ∈ fs, f.name ≠ []) : WritesForm (toForm fs) fs := by
  induction fs with
  | nil => exact .empty
  | cons f r ih =>
    cases r with
    | nil => exact .one _ _ (fieldText_writes f (h f (by simp)))
    | cons g r =>
      have := WritesForm.more _ _ f (g :: r) (fieldText_writes f (h f (by simp))) (by simp) (ih fun x hx => h x (by simp [hx]))
      simpa [toForm] using this

end Verif.Form
