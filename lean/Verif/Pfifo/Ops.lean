import Verif.Pfifo.Lemmas
/-!
# The invariant is kept by each of the steps
-/
namespace Verif.Pfifo
open Verif Fifo

variable {α : Type} {N : Nat} {solo : Prop} {s : Sys α} {mn wq : List (Node α)} {ch : Nat → List (Node α)}

theorem disj_mk (h1 : ∀ a, a ∈ addrs mn → a ∉ addrs wq) (h2 : ∀ r a, a ∈ addrs mn → a ∉ addrs (ch r))
    (h3 : ∀ r a, a ∈ addrs wq → a ∉ addrs (ch r)) (h4 : ∀ r q, r ≠ q → ∀ a, a ∈ addrs (ch r) → a ∉ addrs (ch q)) :
    ∀ o o' a, a ∈ addrs (part mn wq ch o) → a ∈ addrs (part mn wq ch o') → o = o' := by
  intro o o' a ha hb
  cases o <;> cases o' <;> simp only [part] at ha hb
  · rfl
  · exact absurd hb (h1 a ha)
  · exact absurd hb (h2 _ a ha)
  · exact absurd ha (h1 a hb)
  · rfl
  · exact absurd hb (h3 _ a ha)
  · exact absurd ha (h2 _ a hb)
  · exact absurd ha (h3 _ a hb)
  · rename_i r q
    by_cases e : r = q
    · rw [e]
    · exact absurd hb (h4 r q e a ha)

theorem Inv.d1 (h : Inv N solo s mn wq ch) : ∀ a, a ∈ addrs mn → a ∉ addrs wq := fun a ha hb => by
  cases h.disj .main .wq a ha hb
theorem Inv.d2 (h : Inv N solo s mn wq ch) : ∀ r a, a ∈ addrs mn → a ∉ addrs (ch r) := fun r a ha hb => by
  cases h.disj .main (.rd r) a ha hb
theorem Inv.d3 (h : Inv N solo s mn wq ch) : ∀ r a, a ∈ addrs wq → a ∉ addrs (ch r) := fun r a ha hb => by
  cases h.disj .wq (.rd r) a ha hb
theorem Inv.d4 (h : Inv N solo s mn wq ch) : ∀ r q, r ≠ q → ∀ a, a ∈ addrs (ch r) → a ∉ addrs (ch q) := fun r q hne a ha hb => by
  cases h.disj (.rd r) (.rd q) a ha hb
  exact hne rfl

theorem addrs_nil : addrs ([] : List (Node α)) = [] := rfl

theorem mem_addrs_append {l1 l2 : List (Node α)} {a : Nat} : a ∈ addrs (l1 ++ l2) ↔ a ∈ addrs l1 ∨ a ∈ addrs l2 := by
  rw [addrs_append, List.mem_append]

theorem nodup_addrs_append {l1 l2 : List (Node α)} (h1 : (addrs l1).Nodup) (h2 : (addrs l2).Nodup)
    (hd : ∀ a, a ∈ addrs l1 → a ∉ addrs l2) : (addrs (l1 ++ l2)).Nodup := by
  rw [addrs_append, List.nodup_append]
  exact ⟨h1, h2, fun a ha b hb e => hd a ha (e ▸ hb)⟩

theorem seg_ne_nil {cell : Nat → Option (Entry α)} {p : Option Nat} {l : List (Node α)} (h : Seg cell p l none) :
    p = none ↔ l = [] := by
  cases l with
  | nil => exact ⟨fun _ => rfl, fun _ => h⟩
  | cons x l => obtain ⟨rfl, _⟩ := h; simp

theorem lastAddr_eq_none {l : List (Node α)} : lastAddr l = none ↔ l = [] := by
  unfold lastAddr; simp

/-- The list to which an entry is added at the end. -/
theorem append_new {m : Mem α} {first last : Option Nat} {l : List (Node α)} (d : α) (hs : Seg m.cell first l none)
    (hl : l ≠ [] → last = lastAddr l) (hnd : (addrs l).Nodup) (hb : ∀ a ∈ addrs l, a < m.brk) :
    ∃ m', (if first = none then Res.ok (newEntry m d).2 else setNext (newEntry m d).2 last (some m.brk)) = .ok m' ∧
      Seg m'.cell (if first = none then some m.brk else first) (l ++ [⟨m.brk, some d, 0⟩]) none ∧
      m'.brk = m.brk + 1 ∧ m'.log = m.log ∧ (∀ a, a ∉ addrs l → a ≠ m.brk → m'.cell a = m.cell a) ∧
      (∀ a, a ≠ m.brk → (m'.cell a = none ↔ m.cell a = none)) := by
  have hcell : ∀ a, (newEntry m d).2.cell a = if a = m.brk then some ⟨some d, 0, none⟩ else m.cell a := fun a => rfl
  by_cases e : first = none
  · rw [if_pos e, if_pos e]
    have := (seg_ne_nil hs).1 e
    subst this
    refine ⟨_, rfl, ⟨rfl, none, by rw [hcell, if_pos rfl], rfl⟩, rfl, rfl, ?_, ?_⟩
    · intro a _ ha; rw [hcell, if_neg ha]
    · intro a ha; rw [hcell, if_neg ha]
  · rw [if_neg e, if_neg e]
    have hne : l ≠ [] := fun e' => e ((seg_ne_nil hs).2 e')
    have hs' : Seg (newEntry m d).2.cell first l none := seg_frame (fun a ha => by
      rw [hcell, if_neg]; rintro rfl; exact absurd (hb _ ha) (by omega)) hs
    obtain ⟨m', h1, h2, h3, h4, h5, h6⟩ := join (p2 := some m.brk) (l2 := [⟨m.brk, some d, 0⟩]) (q := none) hs' hne (hl hne) hnd
      ⟨rfl, none, by rw [hcell, if_pos rfl], rfl⟩ (fun a ha hb' => by
        simp at hb'; subst hb'; exact absurd (hb _ ha) (by omega))
    refine ⟨m', h1, h2, h3, h4, ?_, ?_⟩
    · intro a ha hne'; rw [h5 a ha, hcell, if_neg hne']
    · intro a ha; rw [h6 a, hcell, if_neg ha]

theorem fresh (h : Inv N solo s mn wq ch) (o : Owner) : s.b.m.brk ∉ addrs (part mn wq ch o) := fun e =>
  Nat.lt_irrefl _ (h.bound o _ e)

theorem addrs_single (x : Node α) : addrs [x] = [x.addr] := rfl

/-- `rrr_fifo_protected_write`. -/
theorem inv_write (h : Inv N solo s mn wq ch) (d : α) :
    (write s.b d = .full ∧ LIMIT ≤ s.b.count + 1) ∨
    ∃ b', write s.b d = .ok b' ∧ Inv N solo { s with b := b' } (mn ++ [⟨s.b.m.brk, some d, 0⟩]) wq ch ∧ b'.m.log = s.b.m.log := by
  obtain ⟨m', h1, h2, h3, h4, h5, h6⟩ := append_new d h.mainSeg (fun _ => h.mainLast) (h.nodup .main) (h.bound .main)
  have hlink : link { s.b with m := (newEntry s.b.m d).2 } s.b.m.brk =
      .ok { s.b with m := m', first := if s.b.first = none then some s.b.m.brk else s.b.first, last := some s.b.m.brk } := by
    unfold link
    cases hf : s.b.first with
    | none => rw [hf, if_pos rfl] at h1; injection h1 with h1; subst h1; simp
    | some a => rw [hf, if_neg (by simp)] at h1; simp only [h1, Res.bind]; simp
  by_cases hc : s.b.count + 1 < LIMIT
  · right
    refine ⟨_, by unfold write; simp only [newEntry] at hlink ⊢; rw [hlink]; simp only [Res.bind]; rw [if_pos hc], ?_, h4⟩
    have hfr : ∀ o, s.b.m.brk ∉ addrs (part mn wq ch o) := fresh h
    have hin : ∀ a, a ∈ addrs (mn ++ [(⟨s.b.m.brk, some d, 0⟩ : Node α)]) ↔ a ∈ addrs mn ∨ a = s.b.m.brk := by
      intro a; rw [mem_addrs_append, addrs_single]; simp
    have hcell : ∀ a, a ∉ addrs mn → a ≠ s.b.m.brk → m'.cell a = s.b.m.cell a := h5
    have hfirst : s.b.first ≠ none → (if s.b.first = none then some s.b.m.brk else s.b.first) = s.b.first := fun e => by rw [if_neg e]
    refine ⟨h2, by rw [lastAddr_concat], ?_, h.wqLast, ?_, ?_, ?_, ?_, ?_, h.idle, h.alone, ?_, h.wcount, ?_, h.wqData⟩
    · exact seg_frame (fun a ha => hcell a (fun e => h.d1 a e ha) (fun e => hfr .wq (e ▸ ha))) h.wqSeg
    · intro o
      cases o with
      | main =>
        refine nodup_addrs_append (h.nodup .main) (by simp) ?_
        intro a ha hb
        simp at hb
        exact hfr .main (hb ▸ ha)
      | wq => exact h.nodup .wq
      | rd r => exact h.nodup (.rd r)
    · apply disj_mk
      · intro a ha hb
        rcases (hin a).1 ha with ha | ha
        · exact h.d1 a ha hb
        · exact hfr .wq (ha ▸ hb)
      · intro r a ha hb
        rcases (hin a).1 ha with ha | ha
        · exact h.d2 r a ha hb
        · exact hfr (.rd r) (ha ▸ hb)
      · exact h.d3
      · exact h.d4
    · intro a ha
      by_cases e : a = s.b.m.brk
      · exact ⟨.main, (hin a).2 (Or.inr e)⟩
      · have : s.b.m.cell a ≠ none := fun e' => ha ((h6 a e).2 e')
        obtain ⟨o, ho⟩ := h.live a this
        cases o with
        | main => exact ⟨.main, (hin a).2 (Or.inl ho)⟩
        | wq => exact ⟨.wq, ho⟩
        | rd r => exact ⟨.rd r, ho⟩
    · intro o a ha
      show a < m'.brk
      rw [h3]
      cases o with
      | main =>
        rcases (hin a).1 ha with ha | ha
        · have := h.bound .main a ha; omega
        · omega
      | wq => have := h.bound .wq a ha; omega
      | rd r => have := h.bound (.rd r) a ha; omega
    · intro r
      exact (h.rdOk r).frame (fun a ha => hcell a (fun e => h.d2 r a e ha) (fun e => hfr (.rd r) (e ▸ ha))) (fun _ => hfirst)
    · show s.b.count + 1 = _
      rw [h.count, List.length_append]
      simp only [List.length_cons, List.length_nil]
      omega
    · intro x hx
      rcases List.mem_append.1 hx with hx | hx
      · exact h.mainData x hx
      · rw [List.mem_singleton.1 hx]; rfl
  · left
    refine ⟨by unfold write; simp only [newEntry] at hlink ⊢; rw [hlink]; simp only [Res.bind]; rw [if_neg hc], by omega⟩

/-- `rrr_fifo_protected_write_delayed`. -/
theorem inv_delayed (h : Inv N solo s mn wq ch) (d : α) :
    (writeDelayed s.b d = .full ∧ LIMIT ≤ s.b.wcount + 1) ∨
    ∃ b', writeDelayed s.b d = .ok b' ∧ Inv N solo { s with b := b' } mn (wq ++ [⟨s.b.m.brk, some d, 0⟩]) ch ∧ b'.m.log = s.b.m.log := by
  obtain ⟨m', h1, h2, h3, h4, h5, h6⟩ := append_new d h.wqSeg h.wqLast (h.nodup .wq) (h.bound .wq)
  have hlink : linkDelayed { s.b with m := (newEntry s.b.m d).2 } s.b.m.brk =
      .ok { s.b with m := m', wfirst := if s.b.wfirst = none then some s.b.m.brk else s.b.wfirst, wlast := some s.b.m.brk } := by
    unfold linkDelayed
    cases hf : s.b.wfirst with
    | none => rw [hf, if_pos rfl] at h1; injection h1 with h1; subst h1; simp
    | some a => rw [hf, if_neg (by simp)] at h1; simp only [h1, Res.bind]; simp [hf]
  by_cases hc : s.b.wcount + 1 < LIMIT
  · right
    refine ⟨_, by unfold writeDelayed; simp only [newEntry] at hlink ⊢; rw [hlink]; simp only [Res.bind]; rw [if_pos hc], ?_, h4⟩
    have hfr : ∀ o, s.b.m.brk ∉ addrs (part mn wq ch o) := fresh h
    have hin : ∀ a, a ∈ addrs (wq ++ [(⟨s.b.m.brk, some d, 0⟩ : Node α)]) ↔ a ∈ addrs wq ∨ a = s.b.m.brk := by
      intro a; rw [mem_addrs_append, addrs_single]; simp
    have hcell : ∀ a, a ∉ addrs wq → a ≠ s.b.m.brk → m'.cell a = s.b.m.cell a := h5
    refine ⟨?_, h.mainLast, h2, fun _ => by rw [lastAddr_concat], ?_, ?_, ?_, ?_, ?_, h.idle, h.alone, h.count, ?_, h.mainData, ?_⟩
    · exact seg_frame (fun a ha => hcell a (fun e => h.d1 a ha e) (fun e => hfr .main (e ▸ ha))) h.mainSeg
    · intro o
      cases o with
      | wq =>
        refine nodup_addrs_append (h.nodup .wq) (by simp) ?_
        intro a ha hb
        simp at hb
        exact hfr .wq (hb ▸ ha)
      | main => exact h.nodup .main
      | rd r => exact h.nodup (.rd r)
    · apply disj_mk
      · intro a ha hb
        rcases (hin a).1 hb with hb | hb
        · exact h.d1 a ha hb
        · exact hfr .main (hb ▸ ha)
      · exact h.d2
      · intro r a ha hb
        rcases (hin a).1 ha with ha | ha
        · exact h.d3 r a ha hb
        · exact hfr (.rd r) (ha ▸ hb)
      · exact h.d4
    · intro a ha
      by_cases e : a = s.b.m.brk
      · exact ⟨.wq, (hin a).2 (Or.inr e)⟩
      · have : s.b.m.cell a ≠ none := fun e' => ha ((h6 a e).2 e')
        obtain ⟨o, ho⟩ := h.live a this
        cases o with
        | wq => exact ⟨.wq, (hin a).2 (Or.inl ho)⟩
        | main => exact ⟨.main, ho⟩
        | rd r => exact ⟨.rd r, ho⟩
    · intro o a ha
      show a < m'.brk
      rw [h3]
      cases o with
      | wq =>
        rcases (hin a).1 ha with ha | ha
        · have := h.bound .wq a ha; omega
        · omega
      | main => have := h.bound .main a ha; omega
      | rd r => have := h.bound (.rd r) a ha; omega
    · intro r
      exact (h.rdOk r).frame (fun a ha => hcell a (fun e => h.d3 r a e ha) (fun e => hfr (.rd r) (e ▸ ha))) (fun _ _ => rfl)
    · show s.b.wcount + 1 = _
      rw [h.wcount, List.length_append]; rfl
    · intro x hx
      rcases List.mem_append.1 hx with hx | hx
      · exact h.wqData x hx
      · rw [List.mem_singleton.1 hx]; rfl
  · left
    refine ⟨by unfold writeDelayed; simp only [newEntry] at hlink ⊢; rw [hlink]; simp only [Res.bind]; rw [if_neg hc], by omega⟩

/-- `__rrr_fifo_write_queue_merge_nolock`. -/
theorem inv_merge (h : Inv N solo s mn wq ch) :
    (merge s.b = .full ∧ LIMIT ≤ s.b.count + s.b.wcount) ∨
    ∃ b', merge s.b = .ok b' ∧ Inv N solo { s with b := b' } (mn ++ wq) [] ch ∧ b'.m.log = s.b.m.log ∧ b'.m.brk = s.b.m.brk := by
  cases hw : s.b.wfirst with
  | none =>
    right
    have hq := (seg_ne_nil h.wqSeg).1 hw
    subst hq
    refine ⟨s.b, by simp only [merge, hw], ?_, rfl, rfl⟩
    rw [List.append_nil]
    exact h
  | some w =>
    have hwne : wq ≠ [] := fun e => by have := (seg_ne_nil h.wqSeg).2 e; rw [hw] at this; cases this
    obtain ⟨m', hj, h2, h3, h4, h5, h6⟩ : ∃ m', mergeLink s.b =
          .ok { s.b with m := m', first := if mn = [] then s.b.wfirst else s.b.first, last := s.b.wlast } ∧
        Seg m'.cell (if mn = [] then s.b.wfirst else s.b.first) (mn ++ wq) none ∧ m'.brk = s.b.m.brk ∧ m'.log = s.b.m.log ∧
        (∀ a, a ∉ addrs mn → m'.cell a = s.b.m.cell a) ∧ (∀ a, m'.cell a = none ↔ s.b.m.cell a = none) := by
      unfold mergeLink
      cases hl : s.b.last with
      | none =>
        have : mn = [] := lastAddr_eq_none.1 (h.mainLast ▸ hl)
        subst this
        exact ⟨s.b.m, by simp, h.wqSeg, rfl, rfl, fun _ _ => rfl, fun _ => Iff.rfl⟩
      | some l =>
        have hne : mn ≠ [] := fun e => by have := h.mainLast; rw [lastAddr_eq_none.2 e, hl] at this; cases this
        obtain ⟨m', g1, g2, g3, g4, g5, g6⟩ := join h.mainSeg hne h.mainLast (h.nodup .main) h.wqSeg h.d1
        rw [hl] at g1
        exact ⟨m', by simp only [g1, Res.bind, if_neg hne], by rw [if_neg hne]; exact g2, g3, g4, g5, g6⟩
    by_cases hc : s.b.count + s.b.wcount < LIMIT
    · right
      refine ⟨_, by unfold merge; rw [hw]; simp only [hj, Res.bind]; rw [if_pos hc], ?_, h4, h3⟩
      refine ⟨h2, ?_, rfl, fun e => absurd rfl e, ?_, ?_, ?_, ?_, ?_, h.idle, h.alone, ?_, rfl, ?_, ?_⟩
      · show s.b.wlast = _
        rw [h.wqLast hwne]
        obtain ⟨y, l, rfl⟩ := List.exists_cons_of_ne_nil hwne
        rw [lastAddr_append_cons]
      · intro o
        cases o with
        | main => exact nodup_addrs_append (h.nodup .main) (h.nodup .wq) h.d1
        | wq => exact List.nodup_nil
        | rd r => exact h.nodup (.rd r)
      · apply disj_mk
        · intro a _ hb; cases hb
        · intro r a ha
          rcases mem_addrs_append.1 ha with ha | ha
          · exact h.d2 r a ha
          · exact h.d3 r a ha
        · intro r a ha; cases ha
        · exact h.d4
      · intro a ha
        have : s.b.m.cell a ≠ none := fun e' => ha ((h6 a).2 e')
        obtain ⟨o, ho⟩ := h.live a this
        cases o with
        | main => exact ⟨.main, mem_addrs_append.2 (Or.inl ho)⟩
        | wq => exact ⟨.main, mem_addrs_append.2 (Or.inr ho)⟩
        | rd r => exact ⟨.rd r, ho⟩
      · intro o a ha
        show a < m'.brk
        rw [h3]
        cases o with
        | main =>
          rcases mem_addrs_append.1 ha with ha | ha
          · exact h.bound .main a ha
          · exact h.bound .wq a ha
        | wq => cases ha
        | rd r => exact h.bound (.rd r) a ha
      · intro r
        refine (h.rdOk r).frame (fun a ha => h5 a (fun e => h.d2 r a e ha)) ?_
        intro _ hf
        show (if mn = [] then s.b.wfirst else s.b.first) = s.b.first
        rw [if_neg]
        intro e
        exact hf ((seg_ne_nil h.mainSeg).2 e)
      · show s.b.count + s.b.wcount = (mn ++ wq).length + tot N fun r => load (s.rd r) (ch r)
        have h1 := h.count
        have h2 := h.wcount
        rw [List.length_append]
        omega
      · intro x hx
        rcases List.mem_append.1 hx with hx | hx
        · exact h.mainData x hx
        · exact h.wqData x hx
      · intro x hx; cases hx
    · left
      refine ⟨by unfold merge; rw [hw]; simp only [hj, Res.bind]; rw [if_neg hc], by omega⟩

end Verif.Pfifo
