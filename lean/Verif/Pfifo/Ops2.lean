import Verif.Pfifo.Ops
/-!
# The invariant is kept by the steps of the readers
-/
namespace Verif.Pfifo
open Verif Fifo

variable {α : Type} {N : Nat} {solo : Prop} {s : Sys α} {mn wq : List (Node α)} {ch : Nat → List (Node α)}

/-- Give a reader other entries. -/
def upd {β : Type} (f : Nat → β) (r : Nat) (x : β) : Nat → β := fun q => if q = r then x else f q

theorem upd_self {β : Type} (f : Nat → β) (r : Nat) (x : β) : upd f r x r = x := if_pos rfl
theorem upd_ne {β : Type} (f : Nat → β) {r q : Nat} (x : β) (h : q ≠ r) : upd f r x q = f q := if_neg h

theorem tot_setRd {r : Nat} (hr : r < N) (f : Rd → List (Node α) → Nat) (x : Rd) (c : List (Node α)) :
    (tot N fun q => f ((s.setRd r x).rd q) (upd ch r c q)) + f (s.rd r) (ch r) = (tot N fun q => f (s.rd q) (ch q)) + f x c := by
  have := tot_set (n := N) (r := r) hr (f := fun q => f ((s.setRd r x).rd q) (upd ch r c q)) (g := fun q => f (s.rd q) (ch q))
    (fun q hq => by simp only [Sys.setRd, if_neg hq, upd_ne _ _ hq])
  simp only [upd_self] at this
  rw [show (s.setRd r x).rd r = x from if_pos rfl] at this
  exact this

theorem lastAddr_drop {l : List (Node α)} {k : Nat} (h : l.drop k ≠ []) : lastAddr (l.drop k) = lastAddr l := by
  obtain ⟨y, t, e⟩ := List.exists_cons_of_ne_nil h
  conv => rhs; rw [← List.take_append_drop k l, e, lastAddr_append_cons]
  rw [e]

theorem take_succ_of_drop {l rest : List (Node α)} {x : Node α} {k : Nat} (h : l.drop k = x :: rest) :
    l.take (k + 1) = l.take k ++ [x] ∧ l.drop (k + 1) = rest := by
  have h1 : (l.drop k).take 1 = [x] := by rw [h]; rfl
  have h2 : (l.drop k).drop 1 = rest := by rw [h]; rfl
  constructor
  · rw [List.take_add, h1]
  · rw [← h2, List.drop_drop]

/-- What is taken, in memory. -/
theorem take_split {cell : Nat → Option (Entry α)} {first last : Option Nat} {l : List (Node α)} (hs : Seg cell first l none)
    (hl : last = lastAddr l) (k : Nat) :
    ∃ stop le first' last', Seg cell first (l.take (k + 1)) stop ∧ Seg cell first' (l.drop (k + 1)) none ∧
      last' = lastAddr (l.drop (k + 1)) ∧ (l.take (k + 1) ≠ [] → le = lastAddr (l.take (k + 1))) ∧ stop = first' ∧
      (match (l.drop k).head?.map Node.addr with
        | some a => ∃ e, cell a = some e ∧ first' = e.next ∧ (last' = if e.next = none then none else last) ∧ stop = e.next ∧ le = some a
        | none => first' = none ∧ last' = none ∧ stop = none ∧ le = last) := by
  cases hd : l.drop k with
  | nil =>
    have hlen : l.length ≤ k := List.drop_eq_nil_iff.1 hd
    rw [List.take_of_length_le (by omega), List.drop_eq_nil_iff.2 (by omega : l.length ≤ k + 1)]
    exact ⟨none, last, none, none, hs, rfl, rfl, fun _ => hl, rfl, rfl, rfl, rfl, rfl⟩
  | cons x rest =>
    obtain ⟨h1, h2⟩ := take_succ_of_drop hd
    rw [h1, h2]
    have hsplit : l = l.take k ++ (x :: rest) := by rw [← hd, List.take_append_drop]
    rw [hsplit, seg_append] at hs
    obtain ⟨p, hs1, rfl, nx, hc, hs2⟩ := hs
    refine ⟨nx, some x.addr, nx, if nx = none then none else last, ?_, hs2, ?_, ?_, rfl, ?_⟩
    · rw [seg_append]; exact ⟨_, hs1, rfl, nx, hc, rfl⟩
    · split
      · rename_i e; rw [lastAddr_eq_none.2 ((seg_ne_nil hs2).1 e)]
      · rename_i e
        have hne : rest ≠ [] := fun e' => e ((seg_ne_nil hs2).2 e')
        rw [hl, ← lastAddr_drop (k := k + 1) (by rw [h2]; exact hne), h2]
    · intro _; rw [lastAddr_concat]
    · exact ⟨_, hc, rfl, rfl, rfl, rfl⟩

theorem addrs_take {l : List (Node α)} {k a : Nat} (h : a ∈ addrs (l.take k)) : a ∈ addrs l := by
  have := (mem_addrs_append (l1 := l.take k) (l2 := l.drop k)).2 (Or.inl h)
  rwa [List.take_append_drop] at this

theorem addrs_drop {l : List (Node α)} {k a : Nat} (h : a ∈ addrs (l.drop k)) : a ∈ addrs l := by
  have := (mem_addrs_append (l1 := l.take k) (l2 := l.drop k)).2 (Or.inr h)
  rwa [List.take_append_drop] at this

theorem addrs_take_drop {l : List (Node α)} {k a : Nat} (hn : (addrs l).Nodup) (h : a ∈ addrs (l.take k)) : a ∉ addrs (l.drop k) := by
  intro hd
  rw [← List.take_append_drop k l, addrs_append, List.nodup_append] at hn
  exact hn.2.2 a h a hd rfl

theorem nodup_sub {l : List (Node α)} {k : Nat} (hn : (addrs l).Nodup) : (addrs (l.take k)).Nodup ∧ (addrs (l.drop k)).Nodup := by
  rw [← List.take_append_drop k l, addrs_append, List.nodup_append] at hn
  exact ⟨hn.1, hn.2.1⟩

/-- The reader takes entries. -/
theorem inv_take (h : Inv N solo s mn wq ch) {r : Nat} (hr : r < N) (hidle : s.rd r = .idle) (hsolo : solo → r = 0) :
    (take s.b = .full ∧ LIMIT ≤ s.b.count + s.b.wcount) ∨
    ∃ b' cur stop last, take s.b = .ok (b', .loop cur stop last 0) ∧
      Inv N solo ({ s with b := b' }.setRd r (.loop cur stop last 0)) ((mn ++ wq).drop MAX_READS) [] (upd ch r ((mn ++ wq).take MAX_READS)) ∧
      b'.m.log = s.b.m.log := by
  rcases inv_merge h with ⟨hm, hl⟩ | ⟨b1, hm, h1, hlog, hbrk⟩
  · left; exact ⟨by unfold take; rw [hm]; rfl, hl⟩
  · right
    generalize hL : mn ++ wq = L at h1 ⊢
    obtain ⟨stop, le, first', last', g1, g2, g3, g4, g5, g6⟩ := take_split h1.mainSeg h1.mainLast (MAX_READS - 1)
    have e500 : MAX_READS - 1 + 1 = MAX_READS := rfl
    rw [e500] at g1 g2 g3 g4
    have htake : take s.b = .ok ({ b1 with first := first', last := last' }, .loop b1.first stop le 0) := by
      unfold take
      rw [hm]
      have hw := walk_seg (MAX_READS - 1) h1.mainSeg
      simp only [Res.bind]
      rw [hw]
      simp only
      cases hh : (L.drop (MAX_READS - 1)).head?.map Node.addr with
      | none =>
        rw [hh] at g6
        obtain ⟨rfl, rfl, rfl, rfl⟩ := g6
        rfl
      | some a =>
        rw [hh] at g6
        obtain ⟨e, hc, rfl, rfl, rfl, rfl⟩ := g6
        have hc' : b1.m.cell a = some e := hc
        simp only [hc']
    refine ⟨_, _, _, _, htake, ?_, hlog⟩
    have hch : ch r = [] := by have := h.rdOk r; rw [hidle] at this; exact this
    have hin : ∀ q a, a ∈ addrs (upd ch r (L.take MAX_READS) q) → (q = r ∧ a ∈ addrs (L.take MAX_READS)) ∨ (q ≠ r ∧ a ∈ addrs (ch q)) := by
      intro q a ha
      by_cases e : q = r
      · subst e; rw [upd_self] at ha; exact Or.inl ⟨rfl, ha⟩
      · rw [upd_ne _ _ e] at ha; exact Or.inr ⟨e, ha⟩
    have hLn := h1.nodup .main
    refine ⟨g2, g3, h1.wqSeg, h1.wqLast, ?_, ?_, ?_, ?_, ?_, ?_, ?_, ?_, h1.wcount, ?_, h1.wqData⟩
    · intro o
      cases o with
      | main => exact (nodup_sub hLn).2
      | wq => exact List.nodup_nil
      | rd q =>
        simp only [part]
        by_cases e : q = r
        · subst e; rw [upd_self]; exact (nodup_sub hLn).1
        · rw [upd_ne _ _ e]; exact h1.nodup (.rd q)
    · apply disj_mk
      · intro a _ hb; cases hb
      · intro q a ha hb
        rcases hin q a hb with ⟨_, hb⟩ | ⟨_, hb⟩
        · exact addrs_take_drop hLn hb ha
        · exact h1.d2 q a (addrs_drop ha) hb
      · intro q a ha; cases ha
      · intro q q' hne a ha hb
        rcases hin q a ha with ⟨e1, ha⟩ | ⟨_, ha⟩
        · rcases hin q' a hb with ⟨e2, hb⟩ | ⟨_, hb⟩
          · exact hne (e1.trans e2.symm)
          · exact h1.d2 q' a (addrs_take ha) hb
        · rcases hin q' a hb with ⟨_, hb⟩ | ⟨_, hb⟩
          · exact h1.d2 q a (addrs_take hb) ha
          · exact h1.d4 q q' hne a ha hb
    · intro a ha
      obtain ⟨o, ho⟩ := h1.live a ha
      cases o with
      | main =>
        change a ∈ addrs L at ho
        rw [← List.take_append_drop MAX_READS L] at ho
        rcases mem_addrs_append.1 ho with ho | ho
        · exact ⟨.rd r, by simp only [part, upd_self]; exact ho⟩
        · exact ⟨.main, ho⟩
      | wq => exact ⟨.wq, ho⟩
      | rd q =>
        have : q ≠ r := by rintro rfl; simp only [part, hch] at ho; cases ho
        exact ⟨.rd q, by simp only [part, upd_ne _ _ this]; exact ho⟩
    · intro o a ha
      cases o with
      | main => exact h1.bound .main a (addrs_drop ha)
      | wq => cases ha
      | rd q =>
        rcases hin q a ha with ⟨_, ha⟩ | ⟨_, ha⟩
        · exact h1.bound .main a (addrs_take ha)
        · exact h1.bound (.rd q) a ha
    · intro q
      simp only [Sys.setRd]
      by_cases e : q = r
      · subst e
        rw [if_pos rfl, upd_self]
        refine ⟨g1, g4, ?_, ?_, ?_⟩
        · intro a ha hst
          rw [g5] at hst
          subst hst
          have : a ∈ addrs (L.drop MAX_READS) := by
            have := seg_head g2
            cases hd : L.drop MAX_READS with
            | nil => rw [hd] at this; cases this
            | cons x t => rw [hd] at this; cases this; simp
          exact addrs_take_drop hLn ha this
        · intro hst
          refine ⟨?_, fun _ => g5.symm⟩
          have : L.drop MAX_READS ≠ [] := fun e' => hst (g5.trans ((seg_ne_nil g2).2 e'))
          have hlen : ¬ L.length ≤ MAX_READS := fun e' => this (List.drop_eq_nil_iff.2 e')
          rw [List.length_take]
          omega
        · intro x hx
          exact h1.mainData x (List.mem_of_mem_take hx)
      · rw [if_neg e, upd_ne _ _ e]
        by_cases hs : solo
        · rw [h.alone hs q (by rw [← hsolo hs]; exact e)]
          have := h1.rdOk q
          rw [show ({ s with b := b1 } : Sys α).rd q = .idle from h.alone hs q (by rw [← hsolo hs]; exact e)] at this
          exact this
        · exact (h1.rdOk q).frame (fun _ _ => rfl) (fun hs' => absurd hs' hs)
    · intro q hq
      simp only [Sys.setRd]
      rw [if_neg (by omega)]
      exact h.idle q hq
    · intro hs q hq
      simp only [Sys.setRd]
      rw [if_neg (by rw [hsolo hs]; exact hq)]
      exact h.alone hs q hq
    · have hc := h1.count
      change b1.count = L.length + tot N fun q => load (s.rd q) (ch q) at hc
      show b1.count = (L.drop MAX_READS).length + tot N fun q => _
      have ht := tot_setRd (s := s) (ch := ch) hr load (.loop b1.first stop le 0) (L.take MAX_READS)
      rw [hidle, load_idle, load_loop, List.length_take] at ht
      rw [List.length_drop]
      simp only [Sys.setRd] at ht ⊢
      omega
    · intro x hx
      exact h1.mainData x (List.mem_of_mem_drop hx)

end Verif.Pfifo
