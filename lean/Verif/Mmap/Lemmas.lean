import Verif.Mmap.Spec
/-!
# Memory maps: the index blocks of a heap
-/
namespace Verif.Mmap
open Verif

/-! ## Words in memory -/

theorem load_congr {m m' : Mem} {p : Nat} (h : ∀ q, p ≤ q → q < p + 8 → m' q = m q) :
    load64 m' p = load64 m p := by
  unfold load64
  rw [h p (by omega) (by omega), h (p + 1) (by omega) (by omega), h (p + 2) (by omega) (by omega),
    h (p + 3) (by omega) (by omega), h (p + 4) (by omega) (by omega), h (p + 5) (by omega) (by omega),
    h (p + 6) (by omega) (by omega), h (p + 7) (by omega) (by omega)]

theorem load_lt (m : Mem) (p : Nat) : load64 m p < 2 ^ 64 := by
  unfold load64
  have := (m p).toNat_lt; have := (m (p + 1)).toNat_lt; have := (m (p + 2)).toNat_lt
  have := (m (p + 3)).toNat_lt; have := (m (p + 4)).toNat_lt; have := (m (p + 5)).toNat_lt
  have := (m (p + 6)).toNat_lt; have := (m (p + 7)).toNat_lt
  omega

theorem load_zero {m : Mem} {p : Nat} (h : ∀ q, p ≤ q → m q = 0) : load64 m p = 0 := by
  unfold load64
  rw [h p (by omega), h (p + 1) (by omega), h (p + 2) (by omega), h (p + 3) (by omega),
    h (p + 4) (by omega), h (p + 5) (by omega), h (p + 6) (by omega), h (p + 7) (by omega)]
  rfl

theorem store_out {m : Mem} {p v q : Nat} (h : q < p ∨ p + 8 ≤ q) : store64 m p v q = m q := by
  unfold store64
  rw [if_neg (by omega)]

theorem load_store_ne {m : Mem} {p v q : Nat} (h : q + 8 ≤ p ∨ p + 8 ≤ q) :
    load64 (store64 m p v) q = load64 m q :=
  load_congr fun r h1 h2 => store_out (by omega)

theorem load_store {m : Mem} {p v : Nat} (h : v < 2 ^ 64) : load64 (store64 m p v) p = v := by
  have hb : ∀ k, k < 8 → store64 m p v (p + k) = Endian.byteOf v k := by
    intro k hk
    unfold store64
    rw [if_pos (by omega), Nat.add_sub_cancel_left]
  unfold load64
  rw [show store64 m p v p = Endian.byteOf v 0 from hb 0 (by omega), hb 1 (by omega),
    hb 2 (by omega), hb 3 (by omega), hb 4 (by omega), hb 5 (by omega), hb 6 (by omega),
    hb 7 (by omega)]
  simp only [Endian.byteOf_toNat]
  omega

/-! ## Entries of an index -/

/-- An entry of an index: the size of the block, and whether it is in use. -/
abbrev Ent := Nat × Bool

/-- The entries of the index at `idx` are `b`. -/
def Reads (m : Mem) (idx : Nat) (b : List Ent) : Prop :=
  b.length = 64 ∧ ∀ (j : Nat) (e : Ent), b[j]? = some e →
    blockSize m idx j = e.1 ∧ blockUsed m idx j = e.2

/-- The number of bytes taken by the blocks of an index. -/
def total (b : List Ent) : Nat := (b.map Prod.fst).sum

/-- An entry never used. -/
def fresh : Ent := (0, false)

@[simp] theorem total_nil : total [] = 0 := rfl
@[simp] theorem total_cons (e : Ent) (b : List Ent) : total (e :: b) = e.1 + total b := by
  simp [total]
@[simp] theorem total_append (a b : List Ent) : total (a ++ b) = total a + total b := by
  simp [total]
@[simp] theorem total_replicate_zero (n : Nat) (u : Bool) : total (List.replicate n (0, u)) = 0 := by
  induction n with
  | zero => rfl
  | succ n ih => simp [List.replicate_succ, ih]

/-- Every block starts with 16 bytes or more, and ends with a sentinel. -/
def Sents (m : Mem) : Nat → List Ent → Prop
  | _, [] => True
  | p, e :: r => (e.1 ≠ 0 → 16 ≤ e.1 ∧ load64 m (p + e.1 - 8) = sentinel) ∧ Sents m (p + e.1) r

/-- Entries never used come last. -/
def Shape (b : List Ent) : Prop := b.Pairwise fun a c => a = fresh → c = fresh

/-- No entry is left for a new block. -/
def Full (b : List Ent) : Prop := ∀ e, e ∈ b → e ≠ fresh

/-- No entry is in use by the user. -/
def Dead (b : List Ent) : Prop := ∀ e, e ∈ b → (e.1 = 0 ∧ e.2 = true) ∨ (e.1 ≠ 0 ∧ e.2 = false)

theorem sents_append {m : Mem} {a c : List Ent} : ∀ {p : Nat},
    Sents m p (a ++ c) ↔ Sents m p a ∧ Sents m (p + total a) c := by
  induction a with
  | nil => intro p; simp [Sents]
  | cons e a ih =>
    intro p
    simp only [List.cons_append, Sents, ih, total_cons, and_assoc, Nat.add_assoc]

theorem sents_zero {m : Mem} {n : Nat} {u : Bool} : ∀ {p : Nat}, Sents m p (List.replicate n (0, u)) := by
  induction n with
  | zero => intro p; trivial
  | succ n ih => intro p; exact ⟨fun h => absurd rfl h, ih⟩

theorem sents_congr {m m' : Mem} {b : List Ent} : ∀ {p : Nat},
    (∀ q, p ≤ q → q < p + total b → m' q = m q) → Sents m p b → Sents m' p b := by
  induction b with
  | nil => intro p _ _; trivial
  | cons e b ih =>
    intro p h hs
    rw [total_cons] at h
    refine ⟨fun he => ?_, ih (fun q h1 h2 => h q (by omega) (by omega)) hs.2⟩
    have := hs.1 he
    refine ⟨this.1, ?_⟩
    rw [load_congr fun q h1 h2 => h q (by omega) (by omega)]
    exact this.2

theorem reads_congr {m m' : Mem} {idx : Nat} {b : List Ent}
    (h : ∀ q, idx ≤ q → q < idx + 520 → m' q = m q) (hr : Reads m idx b) : Reads m' idx b := by
  refine ⟨hr.1, fun j e he => ?_⟩
  have hj : j < 64 := by
    rw [← hr.1]; exact (List.getElem?_eq_some_iff.mp he).1
  have := hr.2 j e he
  unfold blockSize blockUsed sizeAt at *
  rw [load_congr fun q h1 h2 => h q (by omega) (by omega),
    load_congr (p := idx) fun q h1 h2 => h q (by omega) (by omega)]
  exact this

theorem reads_zero {m : Mem} {idx : Nat} (h : ∀ q, idx ≤ q → m q = 0) :
    Reads m idx (List.replicate 64 fresh) := by
  refine ⟨List.length_replicate, fun j e he => ?_⟩
  have := List.getElem?_eq_some_iff.mp he
  obtain ⟨hj, hx⟩ := this
  rw [List.getElem_replicate] at hx
  subst hx
  unfold blockSize blockUsed sizeAt
  rw [load_zero fun q hq => h q (by omega), load_zero h]
  exact ⟨rfl, Nat.zero_testBit _⟩

theorem reads_setUsed {m : Mem} {idx : Nat} {pre post : List Ent} {e : Ent}
    (hr : Reads m idx (pre ++ e :: post)) :
    Reads (setUsed m idx pre.length) idx (pre ++ (e.1, true) :: post) := by
  have hl : pre.length < 64 := by
    have := hr.1; simp only [List.length_append, List.length_cons] at this; omega
  refine ⟨by have := hr.1; simpa using this, fun j e' he => ?_⟩
  have hj : j < 64 := by
    have h1 := (List.getElem?_eq_some_iff.mp he).1
    have := hr.1; simp only [List.length_append, List.length_cons] at this h1; omega
  have hbits : load64 (setUsed m idx pre.length) idx = load64 m idx ||| 1 <<< pre.length := by
    unfold setUsed
    refine load_store (Nat.or_lt_two_pow (load_lt _ _) ?_)
    rw [Nat.one_shiftLeft]
    exact Nat.pow_lt_pow_right (by omega) hl
  have hsize : blockSize (setUsed m idx pre.length) idx j = blockSize m idx j := by
    unfold blockSize setUsed sizeAt
    exact load_store_ne (by omega)
  unfold blockUsed
  rw [hbits, hsize, Nat.testBit_or, Nat.one_shiftLeft, Nat.testBit_two_pow]
  by_cases hjp : j = pre.length
  · subst hjp
    have h0 := hr.2 pre.length e (by simp)
    rw [List.getElem?_append_right (Nat.le_refl _)] at he
    simp at he
    subst he
    exact ⟨h0.1, by simp⟩
  · have he2 : (pre ++ e :: post)[j]? = some e' := by
      rw [← he]
      by_cases hlt : j < pre.length
      · rw [List.getElem?_append_left hlt, List.getElem?_append_left hlt]
      · rw [List.getElem?_append_right (by omega), List.getElem?_append_right (by omega)]
        obtain ⟨k, hk⟩ : ∃ k, j - pre.length = k + 1 := ⟨j - pre.length - 1, by omega⟩
        rw [hk]; rfl
    have h0 := hr.2 j e' he2
    refine ⟨h0.1, ?_⟩
    rw [decide_eq_false (fun h => hjp h.symm), Bool.or_false]
    exact h0.2

theorem reads_clearUsed {m : Mem} {idx : Nat} {pre post : List Ent} {e : Ent}
    (hr : Reads m idx (pre ++ e :: post)) :
    Reads (clearUsed m idx pre.length) idx (pre ++ (e.1, false) :: post) := by
  have hl : pre.length < 64 := by
    have := hr.1; simp only [List.length_append, List.length_cons] at this; omega
  refine ⟨by have := hr.1; simpa using this, fun j e' he => ?_⟩
  have hj : j < 64 := by
    have h1 := (List.getElem?_eq_some_iff.mp he).1
    have := hr.1; simp only [List.length_append, List.length_cons] at this h1; omega
  have hp : 2 ^ pre.length < 2 ^ 64 := Nat.pow_lt_pow_right (by omega) hl
  have hbits : load64 (clearUsed m idx pre.length) idx
      = load64 m idx &&& (2 ^ 64 - (2 ^ pre.length + 1)) := by
    unfold clearUsed
    exact load_store (Nat.lt_of_le_of_lt Nat.and_le_left (load_lt _ _))
  have hsize : blockSize (clearUsed m idx pre.length) idx j = blockSize m idx j := by
    unfold blockSize clearUsed sizeAt
    exact load_store_ne (by omega)
  unfold blockUsed
  rw [hbits, hsize, Nat.testBit_and, Nat.testBit_two_pow_sub_succ hp, Nat.testBit_two_pow,
    decide_eq_true hj, Bool.true_and]
  by_cases hjp : j = pre.length
  · subst hjp
    have h0 := hr.2 pre.length e (by simp)
    rw [List.getElem?_append_right (Nat.le_refl _)] at he
    simp at he
    subst he
    exact ⟨h0.1, by simp⟩
  · have he2 : (pre ++ e :: post)[j]? = some e' := by
      rw [← he]
      by_cases hlt : j < pre.length
      · rw [List.getElem?_append_left hlt, List.getElem?_append_left hlt]
      · rw [List.getElem?_append_right (by omega), List.getElem?_append_right (by omega)]
        obtain ⟨k, hk⟩ : ∃ k, j - pre.length = k + 1 := ⟨j - pre.length - 1, by omega⟩
        rw [hk]; rfl
    have h0 := hr.2 j e' he2
    refine ⟨h0.1, ?_⟩
    rw [decide_eq_false (fun h => hjp h.symm), Bool.not_false, Bool.and_true]
    exact h0.2

theorem reads_setSize {m : Mem} {idx v : Nat} {pre post : List Ent} {e : Ent} (hv : v < 2 ^ 64)
    (hr : Reads m idx (pre ++ e :: post)) :
    Reads (setSize m idx pre.length v) idx (pre ++ (v, e.2) :: post) := by
  have hl : pre.length < 64 := by
    have := hr.1; simp only [List.length_append, List.length_cons] at this; omega
  refine ⟨by have := hr.1; simpa using this, fun j e' he => ?_⟩
  have hbits : load64 (setSize m idx pre.length v) idx = load64 m idx := by
    unfold setSize sizeAt
    exact load_store_ne (by omega)
  unfold blockUsed
  rw [hbits]
  by_cases hjp : j = pre.length
  · subst hjp
    have h0 := hr.2 pre.length e (by simp)
    rw [List.getElem?_append_right (Nat.le_refl _)] at he
    simp at he
    subst he
    exact ⟨load_store hv, h0.2⟩
  · have he2 : (pre ++ e :: post)[j]? = some e' := by
      rw [← he]
      by_cases hlt : j < pre.length
      · rw [List.getElem?_append_left hlt, List.getElem?_append_left hlt]
      · rw [List.getElem?_append_right (by omega), List.getElem?_append_right (by omega)]
        obtain ⟨k, hk⟩ : ∃ k, j - pre.length = k + 1 := ⟨j - pre.length - 1, by omega⟩
        rw [hk]; rfl
    have h0 := hr.2 j e' he2
    refine ⟨?_, h0.2⟩
    rw [← h0.1]
    unfold blockSize setSize sizeAt
    exact load_store_ne (by omega)

/-- Two memories are the same outside the index at `idx`. -/
def SameBut (m m' : Mem) (idx : Nat) : Prop := ∀ q, q < idx ∨ idx + 520 ≤ q → m' q = m q

theorem sameBut_setUsed {m : Mem} {idx j : Nat} : SameBut m (setUsed m idx j) idx :=
  fun _ h => store_out (by omega)
theorem sameBut_clearUsed {m : Mem} {idx j : Nat} : SameBut m (clearUsed m idx j) idx :=
  fun _ h => store_out (by omega)
theorem sameBut_setSize {m : Mem} {idx j v : Nat} (hj : j < 64) : SameBut m (setSize m idx j v) idx := by
  intro q h
  unfold setSize sizeAt
  exact store_out (by omega)
theorem SameBut.trans {m m' m'' : Mem} {idx : Nat} (h : SameBut m m' idx) (h' : SameBut m' m'' idx) :
    SameBut m m'' idx := fun q hq => (h' q hq).trans (h q hq)

theorem merge_spec {idx : Nat} {post : List Ent} : ∀ (mid pre : List Ent) (m : Mem),
    Reads m idx (pre ++ mid ++ post) →
    Reads (mergeLoop idx mid.length pre.length m) idx
      (pre ++ List.replicate mid.length (0, true) ++ post) ∧
    SameBut m (mergeLoop idx mid.length pre.length m) idx := by
  intro mid
  induction mid with
  | nil => intro pre m h; exact ⟨h, fun _ _ => rfl⟩
  | cons e mid ih =>
    intro pre m h
    rw [List.append_assoc, List.cons_append] at h
    have hl : pre.length < 64 := by
      have := h.1; simp only [List.length_append, List.length_cons] at this; omega
    have h1 := reads_setUsed h
    have h2 := reads_setSize (v := 0) (by omega) h1
    rw [show pre ++ (0, (e.1, true).2) :: (mid ++ post) = (pre ++ [((0 : Nat), true)]) ++ mid ++ post by
      simp] at h2
    have h3 := ih (pre ++ [(0, true)]) _ h2
    rw [List.length_append, List.length_singleton] at h3
    rw [List.length_cons, mergeLoop]
    refine ⟨?_, (sameBut_setUsed.trans (sameBut_setSize hl)).trans h3.2⟩
    have := h3.1
    rw [List.replicate_succ]
    simpa using this

end Verif.Mmap
