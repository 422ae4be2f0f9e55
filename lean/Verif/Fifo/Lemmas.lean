import Verif.Fifo.Spec
/-!
# The linked list in memory
-/
namespace Verif.Fifo
open Verif

variable {α σ : Type}

/-- An entry of the list with its address. -/
structure Node (α : Type) where
  addr : Nat
  data : Option α
  order : UInt64

/-- What a node is without its address. -/
def Node.val (n : Node α) : Option α × UInt64 := (n.data, n.order)

abbrev vals (l : List (Node α)) : Spec.Items α := l.map Node.val
abbrev addrs (l : List (Node α)) : List Nat := l.map Node.addr

/-- List segment: following `next` from `p` gives the nodes `l` and then the pointer `q`. -/
def Seg (cell : Nat → Option (Entry α)) : Option Nat → List (Node α) → Option Nat → Prop
  | p, [], q => p = q
  | p, x :: l, q => p = some x.addr ∧ ∃ nx, cell x.addr = some ⟨x.data, x.order, nx⟩ ∧ Seg cell nx l q

theorem seg_append {cell : Nat → Option (Entry α)} : ∀ {l1 l2 : List (Node α)} {p q : Option Nat},
    Seg cell p (l1 ++ l2) q ↔ ∃ r, Seg cell p l1 r ∧ Seg cell r l2 q
  | [], l2, p, q => by simp [Seg]
  | x :: l1, l2, p, q => by
    simp only [List.cons_append, Seg, seg_append (l1 := l1)]
    constructor
    · rintro ⟨h1, nx, h2, r, h3, h4⟩; exact ⟨r, ⟨h1, nx, h2, h3⟩, h4⟩
    · rintro ⟨r, ⟨h1, nx, h2, h3⟩, h4⟩; exact ⟨h1, nx, h2, r, h3, h4⟩

theorem seg_frame {cell cell' : Nat → Option (Entry α)} : ∀ {l : List (Node α)} {p q : Option Nat},
    (∀ a ∈ addrs l, cell' a = cell a) → Seg cell p l q → Seg cell' p l q
  | [], _, _, _, h => h
  | x :: l, p, q, hf, ⟨h1, nx, h2, h3⟩ =>
    ⟨h1, nx, by rw [hf x.addr (by simp)]; exact h2, seg_frame (fun a ha => hf a (by simp at ha ⊢; exact Or.inr ha)) h3⟩

theorem seg_head {cell : Nat → Option (Entry α)} {l : List (Node α)} {p : Option Nat} (h : Seg cell p l none) :
    p = l.head?.map Node.addr := by
  cases l with
  | nil => exact h
  | cons x l => simpa using h.1

/-- Address of the last node. -/
def lastAddr (l : List (Node α)) : Option Nat := l.getLast?.map Node.addr

theorem lastAddr_append_cons (l : List (Node α)) (x : Node α) (r : List (Node α)) : lastAddr (l ++ x :: r) = lastAddr (x :: r) := by
  unfold lastAddr
  rw [List.getLast?_append]
  cases h : (x :: r).getLast? with
  | none => simp at h
  | some y => rfl

theorem lastAddr_concat (l : List (Node α)) (x : Node α) : lastAddr (l ++ [x]) = some x.addr := by
  rw [lastAddr_append_cons]; rfl

theorem lastAddr_mem {l : List (Node α)} {a : Nat} (h : lastAddr l = some a) : a ∈ addrs l := by
  unfold lastAddr at h
  cases hl : l.getLast? with
  | none => rw [hl] at h; cases h
  | some y =>
    rw [hl] at h
    cases h
    exact List.mem_map_of_mem (List.mem_of_getLast? hl)

/-- A non-empty list is its beginning and its last node. -/
theorem eq_concat {l : List (Node α)} (h : l ≠ []) : ∃ pre x, l = pre ++ [x] :=
  ⟨l.dropLast, l.getLast h, (List.dropLast_concat_getLast h).symm⟩

/-- A well-formed list in memory. -/
structure Shape (m : Mem α) (first last : Option Nat) (l : List (Node α)) : Prop where
  seg : Seg m.cell first l none
  nodup : (addrs l).Nodup
  last : last = lastAddr l
  bound : ∀ a ∈ addrs l, a < m.brk
  clean : ∀ a, m.brk ≤ a → m.cell a = none

/-- A buffer with the given nodes; the count is `k` too large (which it is while entries are being taken out). -/
structure RepK (k : Nat) (m : Mem α) (f : Fifo) (l : List (Node α)) : Prop where
  shape : Shape m f.first f.last l
  count : f.count.toNat = l.length + k

/-- A buffer with the given nodes. -/
abbrev Rep (m : Mem α) (f : Fifo) (l : List (Node α)) : Prop := RepK 0 m f l

/-- Memory after an operation on the list `l`, which is `l'` afterwards: other cells are not touched, entries which are no longer in the
list have been freed, and new ones are newly allocated. -/
structure Step (m : Mem α) (l : List (Node α)) (m' : Mem α) (l' : List (Node α)) : Prop where
  brk : m.brk ≤ m'.brk
  frame : ∀ a, a < m.brk → a ∉ addrs l → m'.cell a = m.cell a
  freed : ∀ a, a ∈ addrs l ∨ m.brk ≤ a → a ∉ addrs l' → m'.cell a = none
  fresh : ∀ a ∈ addrs l', a ∈ addrs l ∨ m.brk ≤ a

theorem Step.refl {m : Mem α} {l : List (Node α)} (hc : ∀ a, m.brk ≤ a → m.cell a = none) : Step m l m l where
  brk := Nat.le_refl _
  frame := fun _ _ _ => rfl
  freed := fun a h hn => h.elim (fun h => absurd h hn) (fun h => hc a h)
  fresh := fun _ h => Or.inl h

theorem Step.trans {m m' m'' : Mem α} {l l' l'' : List (Node α)} (h : Step m l m' l') (g : Step m' l' m'' l'') :
    Step m l m'' l'' where
  brk := Nat.le_trans h.brk g.brk
  frame := fun a ha hn => by
    have hn' : a ∉ addrs l' := fun e => (h.fresh a e).elim hn (fun e => by omega)
    have := h.brk
    rw [g.frame a (by omega) hn', h.frame a ha hn]
  freed := fun a ha hn => by
    by_cases e : a ∈ addrs l'
    · exact g.freed a (Or.inl e) hn
    · by_cases hb : a < m'.brk
      · rw [g.frame a hb e]; exact h.freed a ha e
      · exact g.freed a (Or.inr (by omega)) hn
  fresh := fun a ha => (g.fresh a ha).elim (fun e => h.fresh a e) (fun e => Or.inr (Nat.le_trans h.brk e))

theorem set_cell (m : Mem α) (a : Nat) (e : Option (Entry α)) (b : Nat) :
    (m.set a e).cell b = if b = a then e else m.cell b := rfl

theorem seg_cell {cell : Nat → Option (Entry α)} {l : List (Node α)} {p q : Option Nat} (h : Seg cell p l q) {n : Node α}
    (hn : n ∈ l) : ∃ nx, cell n.addr = some ⟨n.data, n.order, nx⟩ := by
  induction l generalizing p with
  | nil => cases hn
  | cons x l ih =>
    obtain ⟨_, nx, h2, h3⟩ := h
    rcases List.mem_cons.mp hn with rfl | hn
    · exact ⟨nx, h2⟩
    · exact ih h3 hn

/-- Changing the `next` pointer of the last node. -/
theorem seg_relink {cell : Nat → Option (Entry α)} {pre : List (Node α)} {x : Node α} {p q q' : Option Nat}
    (h : Seg cell p (pre ++ [x]) q) (hx : x.addr ∉ addrs pre) :
    Seg (fun b => if b = x.addr then some ⟨x.data, x.order, q'⟩ else cell b) p (pre ++ [x]) q' := by
  rw [seg_append] at h ⊢
  obtain ⟨r, h1, h2, _⟩ := h
  refine ⟨r, seg_frame ?_ h1, h2, q', by simp, rfl⟩
  intro a ha
  rw [if_neg]
  rintro rfl
  exact hx ha

theorem addrs_append (l r : List (Node α)) : addrs (l ++ r) = addrs l ++ addrs r := List.map_append

theorem nodup_mid {pre rest : List (Node α)} {x : Node α} (h : (addrs (pre ++ x :: rest)).Nodup) :
    x.addr ∉ addrs pre ∧ x.addr ∉ addrs rest ∧ (addrs (pre ++ rest)).Nodup ∧ (addrs pre).Nodup ∧
      (∀ a ∈ addrs pre, a ∉ addrs rest) := by
  rw [addrs_append, List.nodup_append] at h
  obtain ⟨h1, h2, h3⟩ := h
  have h2' := List.nodup_cons.mp h2
  refine ⟨fun e => h3 _ e x.addr (by simp) rfl, h2'.1, ?_, h1, fun a ha hr => h3 a ha a (by simp at hr ⊢; exact Or.inr hr) rfl⟩
  rw [addrs_append, List.nodup_append]
  exact ⟨h1, h2'.2, fun a ha b hb => h3 a ha b (by simp at hb ⊢; exact Or.inr hb)⟩

/-- Removing a node. -/
theorem unlink_free {m : Mem α} {f : Fifo} {pre rest : List (Node α)} {x : Node α}
    (h : Shape m f.first f.last (pre ++ x :: rest)) {nx : Option Nat} (hnx : m.cell x.addr = some ⟨x.data, x.order, nx⟩) :
    ∃ m1 m2 f', unlink m f (lastAddr pre) x.addr nx = .ok (m1, f') ∧ m1.free x.addr = .ok m2 ∧
      Shape m2 f'.first f'.last (pre ++ rest) ∧ Step m (pre ++ x :: rest) m2 (pre ++ rest) ∧
      m2.log = m.log ∧ f'.count = f.count ∧ m2.brk = m.brk := by
  obtain ⟨hseg, hnd, hlast, hbound, hclean⟩ := h
  obtain ⟨hx1, hx2, hnd', hndp, hdis⟩ := nodup_mid hnd
  rw [seg_append] at hseg
  obtain ⟨r, hs1, hr, nx', hc, hs2⟩ := hseg
  rw [hnx] at hc
  injection hc with hc
  injection hc with _ _ hc
  subst hc
  subst hr
  -- the last pointer
  have hl' : (if f.last = some x.addr then lastAddr pre else f.last) = lastAddr (pre ++ rest) := by
    rw [hlast, lastAddr_append_cons]
    cases rest with
    | nil => rw [if_pos (by rfl)]; simp
    | cons y r =>
      rw [lastAddr_append_cons, show x :: y :: r = [x] ++ y :: r from rfl, lastAddr_append_cons, if_neg]
      intro e
      exact hx2 (lastAddr_mem e)
  rcases List.eq_nil_or_concat pre with hpre | ⟨pre', y, hpre⟩
  · subst hpre
    have hfirst : f.first = some x.addr := hs1
    refine ⟨m, m.set x.addr none, { f with first := nx, last := if f.last = some x.addr then none else f.last }, ?_, ?_, ?_, ?_, rfl, rfl, rfl⟩
    · unfold unlink
      simp only [lastAddr, List.getLast?_nil, Option.map_none, hfirst, if_true]
      split <;> rfl
    · unfold Mem.free; rw [hnx]
    · refine ⟨?_, hnd', hl', ?_, ?_⟩
      · apply seg_frame _ hs2
        intro a ha
        rw [set_cell, if_neg]
        rintro rfl
        exact hx2 ha
      · intro a ha; exact hbound a (by simp at ha ⊢; exact Or.inr ha)
      · intro a ha
        rw [set_cell]
        split
        · rfl
        · exact hclean a ha
    · refine ⟨Nat.le_refl _, ?_, ?_, ?_⟩
      · intro a _ hn
        rw [set_cell, if_neg]
        rintro rfl
        exact hn (by simp)
      · intro a ha hn
        rw [set_cell]
        split
        · rfl
        · rename_i hne
          rcases ha with ha | ha
          · simp at ha hn
            rcases ha with ha | ⟨n, hn1, hn2⟩
            · exact absurd ha hne
            · exact absurd hn2 (hn n hn1)
          · exact hclean a ha
      · intro a ha; left; simp at ha ⊢; exact Or.inr ha
  · rw [List.concat_eq_append] at hpre
    subst hpre
    obtain ⟨hy1, _⟩ := nodup_mid (pre := pre') (x := y) (rest := []) hndp
    obtain ⟨ny, hyc⟩ := seg_cell hs1 (n := y) (by simp)
    have hyx : y.addr ≠ x.addr := fun e => hx1 (by rw [← e]; simp)
    have hfirst : f.first ≠ some x.addr := by
      intro e
      rw [e] at hs1
      cases pre' with
      | nil => have := hs1.1; injection this with this; exact hyx this.symm
      | cons z p => have := hs1.1; injection this with this; exact hx1 (by rw [this]; simp)
    refine ⟨m.set y.addr (some ⟨y.data, y.order, nx⟩), (m.set y.addr (some ⟨y.data, y.order, nx⟩)).set x.addr none,
      { f with last := if f.last = some x.addr then some y.addr else f.last }, ?_, ?_, ?_, ?_, rfl, rfl, rfl⟩
    · unfold unlink Mem.setNext
      rw [lastAddr_concat]
      simp only [hyc, hfirst, if_false, Out.bind]
      split <;> rfl
    · unfold Mem.free; rw [set_cell, if_neg (Ne.symm hyx), hnx]
    · refine ⟨?_, hnd', ?_, ?_, ?_⟩
      · show Seg _ f.first _ _
        rw [seg_append]
        refine ⟨nx, ?_, ?_⟩
        · apply seg_frame _ (seg_relink (q' := nx) hs1 hy1)
          intro a ha
          rw [set_cell, if_neg]
          · rfl
          · rintro rfl; exact hx1 ha
        · apply seg_frame _ hs2
          intro a ha
          rw [set_cell, if_neg, set_cell, if_neg]
          · rintro rfl; exact hdis y.addr (by simp) ha
          · rintro rfl; exact hx2 ha
      · rw [lastAddr_concat] at hl'; exact hl'
      · intro a ha; exact hbound a (by simp at ha ⊢; grind)
      · intro a ha
        rw [set_cell]
        split
        · rfl
        · rw [set_cell, if_neg]
          · exact hclean a ha
          · rintro rfl
            have := hbound y.addr (by simp)
            change m.brk ≤ _ at ha
            omega
    · refine ⟨Nat.le_refl _, ?_, ?_, ?_⟩
      · intro a _ hn
        rw [set_cell, if_neg, set_cell, if_neg]
        · rintro rfl; exact hn (by simp)
        · rintro rfl; exact hn (by simp)
      · intro a ha hn
        rw [set_cell]
        split
        · rfl
        · rename_i hne
          rw [set_cell, if_neg]
          · rcases ha with ha | ha
            · simp at ha hn; grind
            · exact hclean a ha
          · rintro rfl; exact hn (by simp)
      · intro a ha; left; simp at ha ⊢; grind

end Verif.Fifo
