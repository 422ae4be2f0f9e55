import Verif.Nullsafe.Spec

/-!
# Strings are split, searched, compared, trimmed and printed exactly (C151)
-/
namespace Verif.Nullsafe
open Verif Verif.Nullsafe.Spec

/-! ## Splitting -/

/-- Parts of a text after what is already in the first part. -/
def parts (c : UInt8) : Bytes → Bytes → List Bytes
  | acc, [] => [acc]
  | acc, x :: r => if x = c then acc :: parts c [] r else parts c (acc ++ [x]) r

theorem parts_ne (c : UInt8) (acc s : Bytes) : parts c acc s ≠ [] := by
  induction s generalizing acc with
  | nil => simp [parts]
  | cons x r ih => unfold parts; split <;> simp [ih]

theorem join_cons (c : UInt8) (x : Bytes) (l : List Bytes) (h : l ≠ []) : join c (x :: l) = x ++ c :: join c l := by
  cases l with
  | nil => exact absurd rfl h
  | cons a r => rfl

theorem flagged_cons (x : Bytes) (l : List Bytes) (h : l ≠ []) : flagged (x :: l) = (x, false) :: flagged l := by
  cases l with
  | nil => exact absurd rfl h
  | cons a r => rfl

theorem parts_join (c : UInt8) (acc s : Bytes) : join c (parts c acc s) = acc ++ s := by
  induction s generalizing acc with
  | nil => simp [parts, join]
  | cons x r ih =>
    unfold parts
    split
    · rename_i h
      rw [join_cons _ _ _ (parts_ne _ _ _), ih, h]; rfl
    · rw [ih]; simp

theorem parts_clean (c : UInt8) (acc s : Bytes) (h : c ∉ acc) : ∀ p ∈ parts c acc s, c ∉ p := by
  induction s generalizing acc with
  | nil => simpa [parts] using h
  | cons x r ih =>
    unfold parts
    split
    · intro p hp
      rcases List.mem_cons.mp hp with h1 | h1
      · exact h1 ▸ h
      · exact ih [] (by simp) p h1
    · rename_i hx
      exact ih _ (by simp only [List.mem_append, List.mem_singleton, not_or]; exact ⟨h, fun e => hx e.symm⟩)

/-- Outcome of calls up to the first which fails. -/
def outOf {α : Type} (u : List α × Int) : Out α := .ok u.1 u.2

theorem outOf_cons {α : Type} (cb : α → Int) (a : α) (l : List α) (h : cb a = 0) :
    outOf (upTo cb (a :: l)) = (outOf (upTo cb l)).cons a := by
  simp [outOf, upTo, h, Out.cons]

theorem outOf_stop {α : Type} (cb : α → Int) (a : α) (l : List α) (h : cb a ≠ 0) :
    outOf (upTo cb (a :: l)) = .ok [a] (cb a) := by
  simp [outOf, upTo, h]

theorem slice_succ (s : Bytes) (start i : Nat) (h : start ≤ i) (hi : i < s.length) :
    (s.drop start).take (i + 1 - start) = (s.drop start).take (i - start) ++ [s[i]] := by
  have e : i + 1 - start = (i - start) + 1 := by omega
  rw [e, List.take_add_one]
  have : (s.drop start)[i - start]? = some s[i] := by
    rw [List.getElem?_drop, show start + (i - start) = i by omega, List.getElem?_eq_getElem hi]
  rw [this]; rfl

theorem splitLoop_end (s : Bytes) (c : UInt8) (cb : Bytes × Bool → Int) (start : Nat) :
    splitLoop s c cb s.length start = .ok [] 0 := by
  rw [splitLoop]; simp

theorem splitLoop_eq (s : Bytes) (c : UInt8) (cb : Bytes × Bool → Int) (n i start : Nat) (hn : s.length - i = n + 1)
    (hs : start ≤ i) :
    splitLoop s c cb i start = outOf (upTo cb (flagged (parts c ((s.drop start).take (i - start)) (s.drop i)))) := by
  induction n generalizing i start with
  | zero =>
    have hi : i < s.length := by omega
    have hl : s.length - 1 = i := by omega
    have he : i + 1 = s.length := by omega
    have hd : s.drop i = [s[i]] := by rw [List.drop_eq_getElem_cons hi, List.drop_eq_nil_of_le (by omega)]
    have hg : s.getD i 0 = s[i] := by simp [List.getD_eq_getElem?_getD, hi]
    rw [splitLoop]
    simp only [hi, dite_true, hg, hl, if_true, hd, parts]
    by_cases hf : s[i] = c
    · simp only [hf, if_true, true_and, Nat.sub_self, List.take_zero, flagged]
      by_cases h1 : cb ((s.drop start).take (i - start), false) = 0
      · rw [outOf_cons cb _ _ h1]
        simp only [h1, ne_eq, not_true, if_false]
        by_cases h2 : cb ([], true) = 0
        · rw [outOf_cons cb _ _ h2]
          simp only [h2, not_true, if_false]
          rw [he, splitLoop_end]; rfl
        · rw [outOf_stop cb _ _ h2]; simp [h2]
      · rw [outOf_stop cb _ _ h1]; simp [h1]
    · simp only [hf, if_false, false_and, flagged]
      rw [slice_succ s start i hs hi]
      by_cases h2 : cb ((s.drop start).take (i - start) ++ [s[i]], true) = 0
      · rw [outOf_cons cb _ _ h2]
        simp only [h2, ne_eq, not_true, if_false]
        rw [he, splitLoop_end]; rfl
      · rw [outOf_stop cb _ _ h2]; simp [h2]
  | succ n ih =>
    have hi : i < s.length := by omega
    have hl : ¬ s.length - 1 = i := by omega
    have hd : s.drop i = s[i] :: s.drop (i + 1) := List.drop_eq_getElem_cons hi
    have hg : s.getD i 0 = s[i] := by simp [List.getD_eq_getElem?_getD, hi]
    rw [splitLoop]
    simp only [hi, dite_true, hg, hl, if_false, hd, parts]
    by_cases hf : s[i] = c
    · simp only [hf, if_true, true_and]
      rw [flagged_cons _ _ (parts_ne _ _ _)]
      by_cases h1 : cb ((s.drop start).take (i - start), false) = 0
      · rw [outOf_cons cb _ _ h1]
        simp only [h1, ne_eq, not_true, if_false]
        rw [ih (i + 1) (i + 1) (by omega) (by omega)]
        simp
      · rw [outOf_stop cb _ _ h1]; simp [h1]
    · simp only [hf, if_false, false_and]
      rw [ih (i + 1) start (by omega) (by omega), slice_succ s start i hs hi]

/-- **C151.** A text which is not empty is split in parts without the separator, which joined with separators are the text. The parts are given in order, with the last said to be the last, until the
receiver of the parts fails. -/
theorem split_exact (s : Bytes) (c : UInt8) (h : s ≠ []) :
    ∃ ps, ps ≠ [] ∧ join c ps = s ∧ (∀ p ∈ ps, c ∉ p) ∧
      ∀ callback, split s c callback = .ok (upTo callback (flagged ps)).1 (upTo callback (flagged ps)).2 := by
  refine ⟨parts c [] s, parts_ne _ _ _, by rw [parts_join]; rfl, parts_clean c [] s (by simp), ?_⟩
  intro cb
  have hp : 0 < s.length := List.length_pos_iff.mpr h
  have := splitLoop_eq s c cb (s.length - 1) 0 0 (by omega) (Nat.le_refl 0)
  simpa [split, outOf] using this

/-- **C151.** A text which is empty gives no part, not even an empty one which is the last. -/
theorem split_empty (c : UInt8) (callback : Bytes × Bool → Int) : split [] c callback = .ok [] 0 := by
  unfold split; rw [splitLoop]; simp

example : split [97, 59, 59, 98, 59] 59 (fun _ => 0) = .ok [([97], false), ([], false), ([98], false), ([], true)] 0 := by
  simp [split, splitLoop, Out.cons]

/-- **C151.** The parts are unique: the separator decides where a text is split. -/
theorem parts_unique (c : UInt8) (ps qs : List Bytes) (hp : ps ≠ []) (hq : qs ≠ []) (cp : ∀ p ∈ ps, c ∉ p) (cq : ∀ p ∈ qs, c ∉ p)
    (h : join c ps = join c qs) : ps = qs := by
  have key : ∀ (a b r t : Bytes), c ∉ a → c ∉ b → a ++ c :: r = b ++ c :: t → a = b ∧ r = t := by
    intro a
    induction a with
    | nil =>
      intro b r t _ hb e
      cases b with
      | nil => simpa using e
      | cons y b => simp at e; exact absurd (by simp [e.1]) hb
    | cons x a ih =>
      intro b r t ha hb e
      cases b with
      | nil => simp at e; exact absurd (by simp [e.1]) ha
      | cons y b =>
        simp only [List.cons_append, List.cons.injEq] at e
        simp only [List.mem_cons, not_or] at ha hb
        obtain ⟨e1, e2⟩ := ih b r t ha.2 hb.2 e.2
        exact ⟨by rw [e.1, e1], e2⟩
  induction ps generalizing qs with
  | nil => exact absurd rfl hp
  | cons p ps ih =>
    cases qs with
    | nil => exact absurd rfl hq
    | cons q qs =>
      have hcp := cp p (by simp)
      have hcq := cq q (by simp)
      by_cases h1 : ps = []
      · by_cases h2 : qs = []
        · subst h1; subst h2; simpa [join] using h
        · subst h1
          rw [join_cons _ _ _ h2] at h
          simp only [join] at h
          exact absurd (by rw [h]; simp) hcp
      · by_cases h2 : qs = []
        · subst h2
          rw [join_cons _ _ _ h1] at h
          simp only [join] at h
          exact absurd (by rw [← h]; simp) hcq
        · rw [join_cons _ _ _ h1, join_cons _ _ _ h2] at h
          obtain ⟨e1, e2⟩ := key _ _ _ _ hcp hcq h
          rw [e1, ih qs h1 h2 (fun x hx => cp x (by simp [hx])) (fun x hx => cq x (by simp [hx])) e2]

example : join 59 [[97], []] = [97, 59] := rfl

/-! ## Searching -/

/-- Positions found from an index. -/
def places (s needle : Bytes) : Nat → Nat → List Nat
  | 0, _ => []
  | n + 1, i => if (s.drop i).take needle.length = needle then i :: places s needle n (i + 1) else places s needle n (i + 1)

theorem places_mem (s needle : Bytes) (n i p : Nat) :
    p ∈ places s needle n i ↔ i ≤ p ∧ p < i + n ∧ (s.drop p).take needle.length = needle := by
  induction n generalizing i with
  | zero => simp [places]; omega
  | succ n ih =>
    unfold places
    split
    · rename_i h
      rw [List.mem_cons, ih]
      constructor
      · rintro (h1 | h1)
        · subst h1; exact ⟨Nat.le_refl _, by omega, h⟩
        · exact ⟨by omega, by omega, h1.2.2⟩
      · rintro ⟨h1, h2, h3⟩
        by_cases e : p = i
        · exact .inl e
        · exact .inr ⟨by omega, by omega, h3⟩
    · rename_i h
      rw [ih]
      constructor
      · rintro ⟨h1, h2, h3⟩; exact ⟨by omega, by omega, h3⟩
      · rintro ⟨h1, h2, h3⟩
        have e : p ≠ i := fun e => h (e ▸ h3)
        exact ⟨by omega, by omega, h3⟩

theorem places_sorted (s needle : Bytes) (n i : Nat) : (places s needle n i).Pairwise (· < ·) := by
  induction n generalizing i with
  | zero => simp [places]
  | succ n ih =>
    unfold places
    split
    · refine List.pairwise_cons.mpr ⟨?_, ih (i + 1)⟩
      intro p hp
      have := (places_mem _ _ _ _ _).mp hp
      omega
    · exact ih (i + 1)

theorem findLoop_eq (s needle : Bytes) (cb : Nat → Int) (hne : needle ≠ []) (hl : needle.length ≤ s.length) (n i : Nat)
    (hn : s.length - needle.length + 1 - i = n) :
    findLoop s needle cb (s.length - needle.length) i = outOf (upTo cb (places s needle n i)) := by
  have hnp : 0 < needle.length := List.length_pos_iff.mpr hne
  induction n generalizing i with
  | zero =>
    rw [findLoop]
    have : ¬ i ≤ s.length - needle.length := by omega
    simp [this, places, outOf, upTo]
  | succ n ih =>
    have hi : i ≤ s.length - needle.length := by omega
    have hil : i < s.length := by omega
    have h0 : s[i]? = some s[i] := List.getElem?_eq_getElem hil
    have h1 : needle[0]? = some needle[0] := List.getElem?_eq_getElem hnp
    rw [findLoop]
    simp only [hi, dite_true, h0, h1]
    have hfirst : (s.drop i).take needle.length = needle → s[i] = needle[0] := by
      intro e
      have e2 : ((s.drop i).take needle.length)[0]? = needle[0]? := by rw [e]
      rw [List.getElem?_take_of_lt hnp, List.getElem?_drop, Nat.add_zero, h0, h1] at e2
      exact Option.some.inj e2
    unfold places
    by_cases hm : (s.drop i).take needle.length = needle
    · have := hfirst hm
      simp only [hm, this, and_self, if_true]
      by_cases h2 : cb i = 0
      · rw [outOf_cons cb _ _ h2, ← ih (i + 1) (by omega)]; simp [h2]
      · rw [outOf_stop cb _ _ h2]; simp [h2]
    · simp only [hm, and_false, if_false]
      exact ih (i + 1) (by omega)

theorem at_iff (s needle : Bytes) (p : Nat) (hne : needle ≠ []) :
    At s needle p ↔ (s.drop p).take needle.length = needle := by
  constructor
  · rintro ⟨a, b, e, rfl⟩
    rw [e, List.append_assoc, List.drop_left, List.take_left]
  · intro h
    have hnp : 0 < needle.length := List.length_pos_iff.mpr hne
    have hl : p < s.length := by
      have := congrArg List.length h
      simp at this; omega
    refine ⟨s.take p, (s.drop p).drop needle.length, ?_, by simp; omega⟩
    have e1 : (s.drop p).take needle.length ++ (s.drop p).drop needle.length = s.drop p := List.take_append_drop _ _
    rw [h] at e1
    rw [List.append_assoc, e1, List.take_append_drop]

theorem at_length (s needle : Bytes) (p : Nat) (h : At s needle p) : p + needle.length ≤ s.length := by
  obtain ⟨a, b, e, rfl⟩ := h
  rw [e]; simp

/-- **C151.** Every place where a needle is, and no other, is given in order, also where places overlap, until the receiver of the places fails. -/
theorem find_exact (s needle : Bytes) (h : needle ≠ []) :
    ∃ ps : List Nat, ps.Pairwise (· < ·) ∧ (∀ p, p ∈ ps ↔ At s needle p) ∧
      ∀ callback, find s needle callback = .ok (upTo callback ps).1 (upTo callback ps).2 := by
  by_cases hl : needle.length > s.length
  · refine ⟨[], List.Pairwise.nil, ?_, ?_⟩
    · intro p
      constructor
      · intro hp; cases hp
      · intro hp; have := at_length _ _ _ hp; omega
    · intro cb; simp [find, hl, upTo]
  · refine ⟨places s needle (s.length - needle.length + 1) 0, places_sorted _ _ _ _, ?_, ?_⟩
    · intro p
      rw [places_mem, at_iff s needle p h]
      constructor
      · exact fun x => x.2.2
      · intro x
        have := at_length _ _ _ ((at_iff s needle p h).mpr x)
        exact ⟨by omega, by omega, x⟩
    · intro cb
      have := findLoop_eq s needle cb h (by omega) (s.length - needle.length + 1) 0 (by omega)
      simpa [find, hl, outOf] using this

/-- **C151.** A needle which is empty is read outside of. -/
theorem find_empty (s : Bytes) (callback : Nat → Int) : find s [] callback = .fault := by
  unfold find; rw [findLoop]; simp

example : find [97, 97, 97] [97, 97] (fun _ => 0) = .ok [0, 1] 0 := by simp [find, findLoop, Out.cons]
example : find [97, 97, 97] [97, 97] (fun _ => 7) = .ok [0] 7 := by simp [find, findLoop]

/-- **C151.** A search for a character gives the text from its first place. -/
theorem chr_exact (s : Bytes) (c : UInt8) :
    (chr s c = none ↔ c ∉ s) ∧ (∀ r, chr s c = some r ↔ ∃ a, s = a ++ r ∧ c ∉ a ∧ r.head? = some c) := by
  induction s with
  | nil =>
    refine ⟨by simp [chr], fun r => ?_⟩
    simp only [chr, reduceCtorEq, false_iff]
    rintro ⟨a, e, _, h⟩
    have : r = [] := by simpa using (List.append_eq_nil_iff.mp e.symm).2
    subst this; cases h
  | cons x s ih =>
    unfold chr
    by_cases hx : x = c
    · subst hx
      refine ⟨by simp, fun r => ?_⟩
      simp only [if_true, Option.some.injEq]
      constructor
      · rintro rfl; exact ⟨[], rfl, by simp, rfl⟩
      · rintro ⟨a, e, h1, h2⟩
        cases a with
        | nil => simpa using e
        | cons y a => simp at e; exact absurd (by simp [e.1]) h1
    · simp only [hx, if_false]
      refine ⟨by rw [ih.1]; simp [Ne.symm hx], fun r => ?_⟩
      rw [ih.2 r]
      constructor
      · rintro ⟨a, e, h1, h2⟩
        exact ⟨x :: a, by rw [e]; rfl, by simp [Ne.symm hx, h1], h2⟩
      · rintro ⟨a, e, h1, h2⟩
        cases a with
        | nil =>
          simp only [List.nil_append] at e
          rw [← e] at h2
          exact absurd (by simpa using h2) hx
        | cons y a =>
          simp only [List.cons_append, List.cons.injEq] at e
          exact ⟨a, e.2, fun hc => h1 (by simp [hc]), h2⟩

example : chr [97, 61, 98, 61] 61 = some [61, 98, 61] := rfl

/-! ## Comparing -/

theorem cmpLoop_iff (f : UInt8 → UInt8) (s t : Bytes) (h : s.length = t.length) : cmpLoop f s t = false ↔ s.map f = t.map f := by
  induction s generalizing t with
  | nil =>
    cases t with
    | nil => simp [cmpLoop]
    | cons _ _ => simp at h
  | cons a s ih =>
    cases t with
    | nil => simp at h
    | cons b t =>
      unfold cmpLoop
      simp only [List.length_cons, Nat.add_right_cancel_iff] at h
      by_cases e : f a = f b
      · simp [e, ih t h]
      · simp [e]

/-- **C151.** Texts compare as equal exactly if they are the same. -/
theorem cmpto_iff (s t : Bytes) : cmpto s t = false ↔ s = t := by
  unfold cmpto
  by_cases h0 : s.length = 0 ∧ t.length = 0
  · simp only [h0, and_self, if_true, true_iff]
    rw [List.length_eq_zero_iff.mp h0.1, List.length_eq_zero_iff.mp h0.2]
  · by_cases hl : s.length = t.length
    · rw [if_neg h0, if_neg (by simp [hl]), cmpLoop_iff id s t hl]; simp
    · rw [if_neg h0, if_pos hl]
      simp only [Bool.true_eq_false, false_iff]
      exact fun e => hl (by rw [e])

/-- **C151.** Texts compare as equal without regard to case exactly if they are the same with capital letters from A to Z made small. -/
theorem cmpto_case_iff (s t : Bytes) :
    cmptoCase s t = false ↔ s.map (fun c => if 65 ≤ c ∧ c ≤ 90 then c + 32 else c) = t.map (fun c => if 65 ≤ c ∧ c ≤ 90 then c + 32 else c) := by
  unfold cmptoCase
  by_cases h0 : s.length = 0 ∧ t.length = 0
  · simp only [h0, and_self, if_true, true_iff]
    rw [List.length_eq_zero_iff.mp h0.1, List.length_eq_zero_iff.mp h0.2]
  · by_cases hl : s.length = t.length
    · rw [if_neg h0, if_neg (by simp [hl]), cmpLoop_iff toLower s t hl]; rfl
    · rw [if_neg h0, if_pos hl]
      simp only [Bool.true_eq_false, false_iff]
      exact fun e => hl (by have := congrArg List.length e; simpa using this)

example : cmptoCase [71, 69, 116] [103, 101, 84] = false := by decide
example : cmpto [71, 0] [71] = true := by decide

/-- **C151.** A text begins with another exactly if the other followed by something is the text. -/
theorem begins_iff (s sub : Bytes) : beginsWith s sub = true ↔ ∃ r, s = sub ++ r := by
  unfold beginsWith
  constructor
  · intro h
    split at h
    · cases h
    · have e := eq_of_beq h
      exact ⟨s.drop sub.length, by have := List.take_append_drop sub.length s; rw [e] at this; exact this.symm⟩
  · rintro ⟨r, rfl⟩
    simp

example : beginsWith [97, 98] [97] = true := by decide

/-! ## Printing, copying and trimming -/

/-- **C151.** What is printed to a buffer with room ends with a zero byte, has no other, fits in the buffer, is as long as the text or fills the buffer, and has all bytes of the text which are not zero in their places. -/
theorem print_exact (size : Nat) (s : Bytes) (h : 0 < size) :
    ∃ out, print size s = some (out ++ [0]) ∧ 0 ∉ out ∧ out.length = min s.length (size - 1) ∧
      ∀ i : Nat, i < out.length → out[i]? = if s[i]? = some 0 then some 78 else s[i]? := by
  have hs : size ≠ 0 := by omega
  refine ⟨(s.take (min s.length (size - 1))).map (fun c => if c = 0 then 78 else c), ?_, ?_, by simp, ?_⟩
  · unfold print
    rw [if_neg hs]
    by_cases h0 : s.length = 0
    · simp [h0]
    · rw [if_neg h0]
      by_cases h1 : s.length > size - 1
      · simp only [h1, if_true]; rw [Nat.min_eq_right (by omega)]
      · simp only [h1, if_false]; rw [Nat.min_eq_left (by omega)]
  · intro hm
    obtain ⟨c, _, e⟩ := List.mem_map.mp hm
    by_cases hc : c = 0
    · rw [if_pos hc] at e; exact absurd e (by decide)
    · rw [if_neg hc] at e; exact hc e
  · intro i hi
    simp only [List.length_map, List.length_take] at hi
    rw [List.getElem?_map, List.getElem?_take_of_lt (by omega)]
    have hil : i < s.length := by omega
    rw [List.getElem?_eq_getElem hil]
    by_cases hc : s[i] = 0 <;> simp [hc]

example : print 4 [97, 0, 98, 99] = some [97, 78, 98, 0] := by decide

/-- **C151.** As much of a text as there is room for is copied, and no more. -/
theorem copyto_exact (size : Nat) (s : Bytes) :
    (copyto size s).length = min size s.length ∧ ∃ r, s = copyto size s ++ r := by
  unfold copyto
  split
  · rename_i h
    refine ⟨?_, s, rfl⟩
    rcases h with h | h <;> simp [h]
  · refine ⟨?_, _, (List.take_append_drop _ s).symm⟩
    rw [List.length_take]; split <;> omega

example : copyto 2 [97, 98, 99] = [97, 98] := by decide

theorem trimLoop_exact (set s : Bytes) (n : Nat) (hn : n ≤ s.length) :
    ∃ r, s.take n = trimLoop set s n ++ r ∧ (∀ c ∈ r, c ∈ set) ∧ (∀ c, (trimLoop set s n).getLast? = some c → c ∉ set) := by
  induction n with
  | zero => exact ⟨[], by simp [trimLoop], by simp, by simp [trimLoop]⟩
  | succ n ih =>
    have hg : s.getD n 0 = s[n] := by simp [List.getD_eq_getElem?_getD, show n < s.length by omega]
    have ht : s.take (n + 1) = s.take n ++ [s[n]] := by
      rw [List.take_add_one, List.getElem?_eq_getElem (by omega)]; rfl
    unfold trimLoop
    by_cases hc : set.contains (s.getD n 0) = true
    · rw [if_pos hc]
      obtain ⟨r, h1, h2, h3⟩ := ih (by omega)
      refine ⟨r ++ [s[n]], by rw [ht, h1, List.append_assoc], ?_, h3⟩
      intro c hm
      rcases List.mem_append.mp hm with hm | hm
      · exact h2 c hm
      · rw [List.mem_singleton.mp hm, ← hg]; exact List.contains_iff_mem.mp hc
    · rw [if_neg hc]
      refine ⟨[], by simp, by simp, ?_⟩
      intro c hl hm
      rw [ht, List.getLast?_concat] at hl
      rw [hg] at hc
      exact hc (List.contains_iff_mem.mpr (by rw [Option.some.inj hl]; exact hm))

/-- **C151.** Trimming removes characters of the set from the end until the last is not in the set. Nothing is removed from the beginning. -/
theorem trim_set_exact (set s : Bytes) :
    ∃ r, s = trimSet set s ++ r ∧ (∀ c ∈ r, c ∈ set) ∧ (∀ c, (trimSet set s).getLast? = some c → c ∉ set) := by
  unfold trimSet
  split
  · rename_i h
    rw [List.length_eq_zero_iff.mp h]
    exact ⟨[], rfl, by simp, by simp⟩
  · have := trimLoop_exact set s s.length (Nat.le_refl _)
    rwa [List.take_length] at this

/-- **C151.** Trimming removes all spaces at the end, and nothing else. -/
theorem trim_exact (s : Bytes) :
    ∃ n, s = trim s ++ List.replicate n 32 ∧ (trim s).getLast? ≠ some 32 := by
  obtain ⟨r, h1, h2, h3⟩ := trim_set_exact [32] s
  refine ⟨r.length, ?_, fun e => h3 32 e (by simp)⟩
  have : r = List.replicate r.length 32 := List.eq_replicate_iff.mpr ⟨rfl, fun c hc => by simpa using h2 c hc⟩
  rw [← this]; exact h1

example : trim [32, 97, 32, 32] = [32, 97] := by decide
example : trim [32, 32] = [] := by decide

/-! ## Binary or text -/

theorem countLoop_eq (m : Nat) (s : Bytes) (k n : Nat) :
    countLoop m s k n = if 0 ∈ s.take m then none
      else some (k + (s.take m).countP (fun c => decide (c > 127)), n + (s.take m).length) := by
  induction m generalizing s k n with
  | zero => simp [countLoop]
  | succ m ih =>
    cases s with
    | nil => simp [countLoop]
    | cons c r =>
      unfold countLoop
      by_cases hc : c = 0
      · simp [hc]
      · rw [if_neg hc, ih]
        simp only [List.take_succ_cons, List.mem_cons, Ne.symm hc, false_or, List.countP_cons, List.length_cons]
        by_cases hz : 0 ∈ r.take m
        · simp [hz]
        · simp only [hz, if_false]
          by_cases hg : c > 127
          · simp only [hg, if_true, decide_true]; congr 2 <;> omega
          · simp only [hg, if_false, decide_false]; congr 2; simp; omega

/-- **C151.** A string is taken for binary data exactly if there is a zero byte among the first 512 bytes, or at least three of ten of these are not ASCII. -/
theorem binary_iff (s : Bytes) :
    likelyBinary s = true ↔ 0 ∈ s.take 512 ∨
      (s ≠ [] ∧ 3 * (s.take 512).length ≤ 10 * (s.take 512).countP (fun c => decide (c > 127))) := by
  unfold likelyBinary
  rw [countLoop_eq]
  by_cases hz : 0 ∈ s.take 512
  · simp [hz]
  · simp only [hz, if_false, Nat.zero_add, false_or, Bool.and_eq_true, decide_eq_true_eq, ge_iff_le]
    have : (s.take 512).length ≠ 0 ↔ s ≠ [] := by
      rw [List.length_take]
      cases s <;> simp <;> omega
    rw [this]

example : likelyBinary [195, 166, 97, 98, 99, 100] = true := by decide
example : likelyBinary [195, 97, 98, 99] = false := by decide

end Verif.Nullsafe
