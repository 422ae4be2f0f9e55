import Verif.Pfifo.Ops2
/-!
# The invariant is kept by the steps of the readers, after the entries have been taken
-/
namespace Verif.Pfifo
open Verif Fifo

variable {α : Type} {N : Nat} {solo : Prop} {s : Sys α} {mn wq : List (Node α)} {ch : Nat → List (Node α)}

theorem mem_upd {r : Nat} {c : List (Node α)} {q a : Nat} (ha : a ∈ addrs (upd ch r c q)) :
    (q = r ∧ a ∈ addrs c) ∨ (q ≠ r ∧ a ∈ addrs (ch q)) := by
  by_cases e : q = r
  · subst e; rw [upd_self] at ha; exact Or.inl ⟨rfl, ha⟩
  · rw [upd_ne _ _ e] at ha; exact Or.inr ⟨e, ha⟩

/-- Steps in which a reader only changes what it has taken. -/
theorem inv_local (h : Inv N solo s mn wq ch) {r : Nat} (hact : s.rd r ≠ .idle) {m' : Mem α} {x : Rd} {c : List (Node α)}
    {count' : Nat} {deleted' : UInt64} {log' : List (Event α)} (hbrk : m'.brk = s.b.m.brk)
    (hcell : ∀ a, a ∉ addrs (ch r) → m'.cell a = s.b.m.cell a) (hsub : ∀ a ∈ addrs c, a ∈ addrs (ch r))
    (hnd : (addrs c).Nodup) (hlive : ∀ a ∈ addrs (ch r), m'.cell a ≠ none → a ∈ addrs c)
    (hok : RdOk solo m'.cell s.b.first x c) (hcount : count' + load (s.rd r) (ch r) = s.b.count + load x c) :
    Inv N solo ({ s with b := { s.b with m := m', count := count', deleted := deleted' }, log := log' }.setRd r x) mn wq
      (upd ch r c) := by
  have hr : r < N := Nat.lt_of_not_le fun e => hact (h.idle r e)
  have hsolo : solo → r = 0 := fun hs => by
    by_cases e : r = 0
    · exact e
    · exact absurd (h.alone hs r e) hact
  refine ⟨?_, h.mainLast, ?_, h.wqLast, ?_, ?_, ?_, ?_, ?_, ?_, ?_, ?_, h.wcount, h.mainData, h.wqData⟩
  · exact seg_frame (fun a ha => hcell a (h.d2 r a ha)) h.mainSeg
  · exact seg_frame (fun a ha => hcell a (h.d3 r a ha)) h.wqSeg
  · intro o
    cases o with
    | main => exact h.nodup .main
    | wq => exact h.nodup .wq
    | rd q =>
      simp only [part]
      by_cases e : q = r
      · subst e; rw [upd_self]; exact hnd
      · rw [upd_ne _ _ e]; exact h.nodup (.rd q)
  · have hold : ∀ q a, a ∈ addrs (upd ch r c q) → a ∈ addrs (ch q) := fun q a ha => by
      rcases mem_upd ha with ⟨e, ha⟩ | ⟨_, ha⟩
      · rw [e]; exact hsub a ha
      · exact ha
    exact disj_mk h.d1 (fun q a ha hb => h.d2 q a ha (hold q a hb)) (fun q a ha hb => h.d3 q a ha (hold q a hb))
      (fun q q' hne a ha hb => h.d4 q q' hne a (hold q a ha) (hold q' a hb))
  · intro a ha
    by_cases hin : a ∈ addrs (ch r)
    · exact ⟨.rd r, by simp only [part, upd_self]; exact hlive a hin ha⟩
    · have ha' : m'.cell a ≠ none := ha
      rw [hcell a hin] at ha'
      obtain ⟨o, ho⟩ := h.live a ha'
      cases o with
      | main => exact ⟨.main, ho⟩
      | wq => exact ⟨.wq, ho⟩
      | rd q =>
        have : q ≠ r := by rintro rfl; exact hin ho
        exact ⟨.rd q, by simp only [part, upd_ne _ _ this]; exact ho⟩
  · intro o a ha
    show a < m'.brk
    rw [hbrk]
    cases o with
    | main => exact h.bound .main a ha
    | wq => exact h.bound .wq a ha
    | rd q =>
      rcases mem_upd ha with ⟨_, ha⟩ | ⟨_, ha⟩
      · exact h.bound (.rd r) a (hsub a ha)
      · exact h.bound (.rd q) a ha
  · intro q
    simp only [Sys.setRd]
    by_cases e : q = r
    · subst e; rw [if_pos rfl, upd_self]; exact hok
    · rw [if_neg e, upd_ne _ _ e]
      exact (h.rdOk q).frame (fun a ha => hcell a (fun hb => h.d4 q r e a ha hb)) (fun _ _ => rfl)
  · intro q hq
    simp only [Sys.setRd]
    rw [if_neg (by omega)]
    exact h.idle q hq
  · intro hs q hq
    simp only [Sys.setRd]
    rw [if_neg (by rw [hsolo hs]; exact hq)]
    exact h.alone hs q hq
  · have ht := tot_setRd (s := s) (ch := ch) hr load x c
    have hc := h.count
    show count' = mn.length + tot N fun q => load ((s.setRd r x).rd q) (upd ch r c q)
    omega

/-- The callback is called, or the loop ends. -/
theorem inv_next (h : Inv N solo s mn wq ch) {r : Nat} {cur stop last : Option Nat} {n : Nat} (hrd : s.rd r = .loop cur stop last n)
    {ret : UInt32} (hleg : Legal ret) (hq : n + 1 = MAX_READS → stopping ret = true → solo) :
    (ch r = [] ∧ s.step (.next r ret) = .ok (s.setRd r (.ending n 0)) ∧ Inv N solo (s.setRd r (.ending n 0)) mn wq (upd ch r [])) ∨
    ∃ x rest nx, ch r = x :: rest ∧ x.data.isSome ∧
      s.step (.next r ret) = .ok ({ s with log := s.log ++ [Event.given r x.data (n + 1) ret] }.setRd r (.called x.addr nx stop last (n + 1) ret)) ∧
      Inv N solo ({ s with log := s.log ++ [Event.given r x.data (n + 1) ret] }.setRd r (.called x.addr nx stop last (n + 1) ret)) mn wq
        (upd ch r (x :: rest)) := by
  have hact : s.rd r ≠ .idle := by rw [hrd]; intro e; cases e
  have hok := h.rdOk r
  rw [hrd] at hok
  obtain ⟨h1, h2, h3, h4, h5⟩ := hok
  cases hc : ch r with
  | nil =>
    left
    rw [hc] at h1
    have hcs : cur = stop := h1
    refine ⟨rfl, by simp only [Sys.step, hrd, if_pos hcs], ?_⟩
    have := inv_local (x := .ending n 0) (c := []) (count' := s.b.count) (deleted' := s.b.deleted) (log' := s.log) h hact (m' := s.b.m) rfl
      (fun _ _ => rfl) (by simp) (by simp) (fun a ha => by rw [hc] at ha; cases ha) rfl (by rw [hrd, hc]; rfl)
    exact this
  | cons x rest =>
    right
    rw [hc] at h1 h2 h3 h4 h5
    have h1' := h1
    obtain ⟨rfl, nx, hcx, h1⟩ := h1
    refine ⟨x, rest, nx, rfl, h5 x (by simp), ?_, ?_⟩
    · have hne : ¬ some x.addr = stop := fun e => h3 x.addr (by simp) e.symm
      simp only [Sys.step, hrd, if_neg hne, hcx]
    · refine inv_local (count' := s.b.count) (deleted' := s.b.deleted) h hact (m' := s.b.m) rfl (fun _ _ => rfl) (by rw [hc]; exact fun _ h => h)
        (by rw [← hc]; exact h.nodup (.rd r)) (fun a ha _ => by rw [hc] at ha; exact ha) ?_ ?_
      · refine ⟨x, rest, rfl, rfl, hcx, h1, h2 (by simp), h3, ?_, fun y hy => h5 y (List.mem_cons_of_mem _ hy), hleg, hq⟩
        intro hst
        obtain ⟨g1, g2⟩ := h4 hst
        refine ⟨?_, g2⟩
        rw [List.length_cons] at g1
        omega
      · rw [hrd, hc, load_loop, load_called, List.length_cons]
        omega

theorem legal_release {ret : UInt32} (h : Legal ret) :
    (stopping (ret &&& ~~~FREE) = stopping ret) ∧ (stopping (ret &&& ~~~FREE) = false → ret &&& ~~~FREE = 0) ∧
    (has ret FREE = false → stopping ret = false → ret = 0) := by
  obtain ⟨f, t, c, g, rfl⟩ := h
  revert f t c g
  decide

/-- What is freed by the release step. -/
def releases (ret : UInt32) (d : Option α) : List (Ev α) :=
  if has ret FREE then (match d with | some x => [.decref x] | none => []) else []

theorem has_zero (f : UInt32) : has 0 f = false := by
  unfold has
  simp

/-- The data is freed or released. -/
theorem inv_release (h : Inv N solo s mn wq ch) {r : Nat} {cur : Nat} {next stop last : Option Nat} {n : Nat} {ret : UInt32}
    (hrd : s.rd r = .called cur next stop last n ret) :
    ∃ x rest d' b' ret', ch r = x :: rest ∧ s.step (.release r) = .ok ({ s with b := b' }.setRd r (.released cur next stop last n ret')) ∧
      Inv N solo ({ s with b := b' }.setRd r (.released cur next stop last n ret')) mn wq (upd ch r (⟨x.addr, d', x.order⟩ :: rest)) ∧
      b'.m.log = s.b.m.log ++ releases ret x.data := by
  have hact : s.rd r ≠ .idle := by rw [hrd]; intro e; cases e
  have hok := h.rdOk r
  rw [hrd] at hok
  obtain ⟨x, rest, hc, hx, hcx, h4, h5, h6, h7, h8, h9, h10⟩ := hok
  obtain ⟨l1, l2, l3⟩ := legal_release h9
  have hndr := h.nodup (.rd r)
  simp only [part, hc] at hndr
  have hxr : x.addr ∉ addrs rest := (List.nodup_cons.1 hndr).1
  have main : ∀ (d' : Option α) (m' : Mem α) (ret' : UInt32), m'.brk = s.b.m.brk →
      (∀ a, m'.cell a = if a = cur then some ⟨d', x.order, next⟩ else s.b.m.cell a) →
      (stopping ret' = true → d' = none) → (stopping ret' = false → ret' = 0) → (stopping ret' = stopping ret) →
      Inv N solo ({ s with b := { s.b with m := m' } }.setRd r (.released cur next stop last n ret')) mn wq
        (upd ch r (⟨x.addr, d', x.order⟩ :: rest)) := by
    intro d' m' ret' e1 e2 e3 e4 e5
    refine inv_local (count' := s.b.count) (deleted' := s.b.deleted) (log' := s.log) h hact e1 ?_ ?_ ?_ ?_ ?_ ?_
    · intro a ha
      rw [e2, if_neg]
      rintro rfl
      exact ha (by rw [hc, ← hx]; simp)
    · intro a ha; rw [hc]; exact ha
    · exact hndr
    · intro a ha _; rw [hc] at ha; exact ha
    · refine ⟨⟨x.addr, d', x.order⟩, rest, rfl, hx, by rw [e2, if_pos rfl], ?_, ?_, ?_, h7, h8, e3, e4, fun e hs => h10 e (by rw [← e5]; exact hs)⟩
      · refine seg_frame (fun a ha => ?_) h4
        rw [e2, if_neg]
        rintro rfl
        exact hxr (hx ▸ ha)
      · rw [h5, hc]
        cases rest with
        | nil => rfl
        | cons y t =>
          rw [show x :: y :: t = [x] ++ y :: t from rfl, lastAddr_append_cons,
            show (⟨x.addr, d', x.order⟩ : Node α) :: y :: t = [⟨x.addr, d', x.order⟩] ++ y :: t from rfl, lastAddr_append_cons]
      · rw [hc] at h6; exact h6
    · rw [hrd, hc, load_called, load_released]
  by_cases e0 : ret = 0
  · subst e0
    refine ⟨x, rest, x.data, s.b, 0, hc, ?_, ?_, by simp [releases, has_zero]⟩
    · simp only [Sys.step, hrd, release, if_true, Res.bind]
    · exact main x.data s.b.m 0 rfl (fun a => by split <;> simp_all) (fun e => absurd e (by decide)) (fun _ => rfl) rfl
  · cases hf : has ret FREE with
    | true =>
      refine ⟨x, rest, none, { s.b with m := (s.b.m.decref x.data).set cur (some ⟨none, x.order, next⟩) }, ret &&& ~~~FREE, hc, ?_, ?_, ?_⟩
      · simp only [Sys.step, hrd, release, if_neg e0, hcx, hf, if_true, Res.bind]
      · refine main none _ _ ?_ ?_ (fun _ => rfl) l2 l1
        · cases x.data <;> rfl
        · intro a
          rw [set_cell]
          cases x.data <;> rfl
      · cases hd : x.data <;> simp [Mem.decref, Mem.set, releases, hf]
    | false =>
      refine ⟨x, rest, none, { s.b with m := s.b.m.set cur (some ⟨none, x.order, next⟩) }, ret, hc, ?_, ?_, ?_⟩
      · simp only [Sys.step, hrd, release, if_neg e0, hcx, hf, Res.bind]; rfl
      · exact main none _ _ rfl (fun a => set_cell _ _ _ _) (fun _ => rfl) (l3 hf) rfl
      · simp [Mem.set, releases, hf]

/-- After the loop. -/
theorem inv_done (h : Inv N solo s mn wq ch) {r : Nat} {n : Nat} {ret : UInt32} (hrd : s.rd r = .ending n ret) :
    ∃ b', s.step (.done r) = .ok ({ s with b := b', log := s.log ++ [Event.returned r ret] }.setRd r .idle) ∧
      Inv N solo ({ s with b := b', log := s.log ++ [Event.returned r ret] }.setRd r .idle) mn wq (upd ch r []) ∧ b'.m.log = s.b.m.log := by
  have hact : s.rd r ≠ .idle := by rw [hrd]; intro e; cases e
  have hr : r < N := Nat.lt_of_not_le fun e => hact (h.idle r e)
  have hok := h.rdOk r
  rw [hrd] at hok
  have hc : ch r = [] := hok
  have hle := tot_le (f := fun q => load (s.rd q) (ch q)) hr
  simp only [hrd, load_ending] at hle
  have hcount := h.count
  refine ⟨{ s.b with count := s.b.count - n, deleted := s.b.deleted + UInt64.ofNat n }, ?_, ?_, rfl⟩
  · simp only [Sys.step, hrd, done]
    rw [if_neg (by omega)]
    rfl
  · refine inv_local (m' := s.b.m) h hact rfl (fun _ _ => rfl) (by simp) (by simp) (fun a ha => by rw [hc] at ha; cases ha) rfl ?_
    rw [hrd, load_ending, load_idle]
    omega

/-- The entry is done and the reader goes on. -/
theorem inv_finish_go (h : Inv N solo s mn wq ch) {r : Nat} {cur : Nat} {next stop last : Option Nat} {n : Nat} {ret : UInt32}
    (hrd : s.rd r = .released cur next stop last n ret) (hst : stopping ret = false) :
    ∃ b' x rest, ch r = x :: rest ∧ s.step (.finish r) = .ok ({ s with b := b' }.setRd r (.loop next stop last n)) ∧
      Inv N solo ({ s with b := b' }.setRd r (.loop next stop last n)) mn wq (upd ch r rest) ∧ b'.m.log = s.b.m.log := by
  have hact : s.rd r ≠ .idle := by rw [hrd]; intro e; cases e
  have hok := h.rdOk r
  rw [hrd] at hok
  obtain ⟨x, rest, hc, hx, hcx, h4, h5, h6, h7, h8, h9, h10, h11⟩ := hok
  have hndr := h.nodup (.rd r)
  simp only [part, hc] at hndr
  have hxr : x.addr ∉ addrs rest := (List.nodup_cons.1 hndr).1
  refine ⟨{ s.b with m := s.b.m.set cur none }, x, rest, hc, ?_, ?_, rfl⟩
  · simp only [Sys.step, hrd, finish, h10 hst, discard, hcx, Res.bind]
    rfl
  · refine inv_local (count' := s.b.count) (deleted' := s.b.deleted) (log' := s.log) (m' := s.b.m.set cur none) h hact rfl ?_ ?_ ?_ ?_ ?_ ?_
    · intro a ha
      rw [set_cell, if_neg]
      rintro rfl
      exact ha (by rw [hc, ← hx]; simp)
    · intro a ha; rw [hc]; exact List.mem_cons_of_mem _ ha
    · exact (List.nodup_cons.1 hndr).2
    · intro a ha hne
      rw [hc] at ha
      rcases List.mem_cons.1 ha with ha | ha
      · exfalso; apply hne; rw [set_cell, if_pos (by rw [ha, hx])]
      · exact ha
    · refine ⟨seg_frame (fun a ha => ?_) h4, ?_, ?_, h7, h8⟩
      · rw [set_cell, if_neg]
        rintro rfl
        exact hxr (hx ▸ ha)
      · intro hne
        obtain ⟨y, t, rfl⟩ := List.exists_cons_of_ne_nil hne
        rw [h5, hc, show x :: y :: t = [x] ++ y :: t from rfl, lastAddr_append_cons]
      · intro a ha
        exact h6 a (by rw [hc]; exact List.mem_cons_of_mem _ ha)
    · rw [hrd, hc, load_released, load_loop]

/-- Putting the rest back, in memory. -/
theorem putBack_seg (h : Inv N solo s mn wq ch) {r : Nat} {cur : Nat} {next stop last : Option Nat} {n : Nat} {ret : UInt32}
    {x : Node α} {rest : List (Node α)} (hc : ch r = x :: rest) (hx : x.addr = cur)
    (hcx : s.b.m.cell cur = some ⟨x.data, x.order, next⟩) (h4 : Seg s.b.m.cell next rest stop) (h5 : last = lastAddr (x :: rest))
    (h7 : stop ≠ none → n + rest.length = MAX_READS ∧ (solo → s.b.first = stop))
    (h11 : n = MAX_READS → stopping ret = true → solo) (hst : stopping ret = true) :
    ∃ m' first' last', putBack s.b next last = .ok { s.b with m := m', first := first', last := last' } ∧
      Seg m'.cell first' (rest ++ mn) none ∧ last' = lastAddr (rest ++ mn) ∧ m'.brk = s.b.m.brk ∧ m'.log = s.b.m.log ∧
      (∀ a, a ∉ addrs (x :: rest) → m'.cell a = s.b.m.cell a) ∧ (∀ a, m'.cell a = none ↔ s.b.m.cell a = none) ∧
      (∃ nx', m'.cell cur = some ⟨x.data, x.order, nx'⟩) := by
  have hndr := h.nodup (.rd r)
  simp only [part, hc] at hndr
  have hxr : x.addr ∉ addrs rest := (List.nodup_cons.1 hndr).1
  cases hn : next with
  | none =>
    have hrest : rest = [] := by
      cases rest with
      | nil => rfl
      | cons y t => rw [hn] at h4; exact absurd h4.1 (by simp)
    subst hrest
    exact ⟨s.b.m, s.b.first, s.b.last, rfl, h.mainSeg, h.mainLast, rfl, rfl, fun _ _ => rfl, fun _ => Iff.rfl, next, hcx⟩
  | some w =>
    cases rest with
    | nil =>
      -- the last entry that was taken, and there were more in the buffer
      have hns : next = stop := h4
      have hsn : stop ≠ none := by rw [← hns, hn]; simp
      obtain ⟨g1, g2⟩ := h7 hsn
      have hs : solo := h11 (by simpa using g1) hst
      have hf : s.b.first = some w := by rw [g2 hs, ← hns, hn]
      have hl : last = some cur := by rw [h5, ← hx]; rfl
      have hbl : s.b.last ≠ none := by
        rw [h.mainLast]
        intro e
        have := (seg_ne_nil h.mainSeg).2 (lastAddr_eq_none.1 e)
        rw [hf] at this
        cases this
      refine ⟨s.b.m.set cur (some ⟨x.data, x.order, some w⟩), some w, s.b.last, ?_, ?_, h.mainLast, rfl, rfl, ?_, ?_, some w, ?_⟩
      · simp only [putBack, hl, setNext, hcx, Res.bind, if_neg hbl, hf]
      · rw [← hf]
        refine seg_frame (fun a ha => ?_) h.mainSeg
        rw [set_cell, if_neg]
        rintro rfl
        exact h.d2 r a ha (by rw [hc, ← hx]; simp)
      · intro a ha
        rw [set_cell, if_neg]
        rintro rfl
        exact ha (by rw [← hx]; simp)
      · intro a
        rw [set_cell]
        split
        · rename_i e; subst e; rw [hcx]; simp
        · rfl
      · rw [set_cell, if_pos rfl]
    | cons y t =>
      have hl : last = lastAddr (y :: t) := by rw [h5, show x :: y :: t = [x] ++ y :: t from rfl, lastAddr_append_cons]
      obtain ⟨m', g1, g2, g3, g4, g5, g6⟩ := join h4 (by simp) hl (List.nodup_cons.1 hndr).2 h.mainSeg
        (fun a ha hb => h.d2 r a hb (by rw [hc]; exact List.mem_cons_of_mem _ ha))
      refine ⟨m', some w, if s.b.last = none then last else s.b.last, ?_, by rw [← hn]; exact g2, ?_, g3, g4, ?_, g6, next, ?_⟩
      · simp only [putBack, g1, Res.bind]
      · cases mn with
        | nil => rw [if_pos (by rw [h.mainLast]; rfl), List.append_nil, hl]
        | cons z u =>
          rw [lastAddr_append_cons, if_neg, h.mainLast]
          rw [h.mainLast]
          intro e
          exact absurd (lastAddr_eq_none.1 e) (by simp)
      · intro a ha
        exact g5 a (fun e => ha (List.mem_cons_of_mem _ e))
      · rw [g5 cur (by rw [← hx]; exact hxr)]; exact hcx

/-- The entry is done and the reader stops. -/
theorem inv_finish_stop (h : Inv N solo s mn wq ch) {r : Nat} {cur : Nat} {next stop last : Option Nat} {n : Nat} {ret : UInt32}
    (hrd : s.rd r = .released cur next stop last n ret) (hst : stopping ret = true) :
    ∃ b' x rest, ch r = x :: rest ∧ s.step (.finish r) = .ok ({ s with b := b' }.setRd r (.ending n (ret &&& ~~~STOP))) ∧
      Inv N solo ({ s with b := b' }.setRd r (.ending n (ret &&& ~~~STOP))) (rest ++ mn) wq (upd ch r []) ∧ b'.m.log = s.b.m.log := by
  have hact : s.rd r ≠ .idle := by rw [hrd]; intro e; cases e
  have hr : r < N := Nat.lt_of_not_le fun e => hact (h.idle r e)
  have hsolo : solo → r = 0 := fun hs => by
    by_cases e : r = 0
    · exact e
    · exact absurd (h.alone hs r e) hact
  have hok := h.rdOk r
  rw [hrd] at hok
  obtain ⟨x, rest, hc, hx, hcx, h4, h5, h6, h7, h8, h9, h10, h11⟩ := hok
  have hndr := h.nodup (.rd r)
  simp only [part, hc] at hndr
  have hxr : x.addr ∉ addrs rest := (List.nodup_cons.1 hndr).1
  obtain ⟨m', first', last', g1, g2, g3, g4, g5, g6, g7, nx', g8⟩ := putBack_seg (last := last) h hc hx hcx h4 (by rw [h5, hc]) h7 h11 hst
  have hdata : x.data = none := h9 hst
  refine ⟨{ s.b with m := m'.set cur none, first := first', last := last' }, x, rest, hc, ?_, ?_, g5⟩
  · simp only [Sys.step, hrd, finish, hst, if_true, g1, Res.bind, destroy, g8, hdata, Mem.decref]
  · have hcell : ∀ a, a ∉ addrs (ch r) → (m'.set cur none).cell a = s.b.m.cell a := by
      intro a ha
      rw [hc] at ha
      rw [set_cell, if_neg, g6 a ha]
      rintro rfl
      exact ha (by rw [← hx]; simp)
    have hrc : ∀ a, a ∈ addrs rest → a ∈ addrs (ch r) := fun a ha => by rw [hc]; exact List.mem_cons_of_mem _ ha
    have hnil : ∀ q a, a ∈ addrs (upd ch r [] q) → q ≠ r ∧ a ∈ addrs (ch q) := by
      intro q a ha
      rcases mem_upd ha with ⟨_, ha⟩ | ha
      · cases ha
      · exact ha
    refine ⟨?_, g3, ?_, h.wqLast, ?_, ?_, ?_, ?_, ?_, ?_, ?_, ?_, h.wcount, ?_, h.wqData⟩
    · refine seg_frame (fun a ha => ?_) g2
      show (m'.set cur none).cell a = _
      rw [set_cell, if_neg]
      rintro rfl
      rcases mem_addrs_append.1 ha with ha | ha
      · exact hxr (hx ▸ ha)
      · exact h.d2 r a ha (by rw [hc, ← hx]; simp)
    · exact seg_frame (fun a ha => hcell a (h.d3 r a ha)) h.wqSeg
    · intro o
      cases o with
      | main => exact nodup_addrs_append (List.nodup_cons.1 hndr).2 (h.nodup .main) (fun a ha hb => h.d2 r a hb (hrc a ha))
      | wq => exact h.nodup .wq
      | rd q =>
        simp only [part]
        by_cases e : q = r
        · subst e; rw [upd_self]; exact List.nodup_nil
        · rw [upd_ne _ _ e]; exact h.nodup (.rd q)
    · apply disj_mk
      · intro a ha hb
        rcases mem_addrs_append.1 ha with ha | ha
        · exact h.d3 r a hb (hrc a ha)
        · exact h.d1 a ha hb
      · intro q a ha hb
        obtain ⟨hne, hb⟩ := hnil q a hb
        rcases mem_addrs_append.1 ha with ha | ha
        · exact h.d4 q r hne a hb (hrc a ha)
        · exact h.d2 q a ha hb
      · intro q a ha hb
        exact h.d3 q a ha (hnil q a hb).2
      · intro q q' hne a ha hb
        exact h.d4 q q' hne a (hnil q a ha).2 (hnil q' a hb).2
    · intro a ha
      have ha' : (m'.set cur none).cell a ≠ none := ha
      have hac : a ≠ cur := fun e => ha' (by rw [set_cell, if_pos e])
      rw [set_cell, if_neg hac] at ha'
      obtain ⟨o, ho⟩ := h.live a (fun e => ha' ((g7 a).2 e))
      cases o with
      | main => exact ⟨.main, mem_addrs_append.2 (Or.inr ho)⟩
      | wq => exact ⟨.wq, ho⟩
      | rd q =>
        by_cases e : q = r
        · subst e
          simp only [part, hc] at ho
          rcases List.mem_cons.1 ho with ho | ho
          · exact absurd (ho.trans hx) hac
          · exact ⟨.main, mem_addrs_append.2 (Or.inl ho)⟩
        · exact ⟨.rd q, by simp only [part, upd_ne _ _ e]; exact ho⟩
    · intro o a ha
      show a < m'.brk
      rw [g4]
      cases o with
      | main =>
        rcases mem_addrs_append.1 ha with ha | ha
        · exact h.bound (.rd r) a (hrc a ha)
        · exact h.bound .main a ha
      | wq => exact h.bound .wq a ha
      | rd q => exact h.bound (.rd q) a (hnil q a ha).2
    · intro q
      simp only [Sys.setRd]
      by_cases e : q = r
      · subst e; rw [if_pos rfl, upd_self]; rfl
      · rw [if_neg e, upd_ne _ _ e]
        by_cases hs : solo
        · have hi := h.alone hs q (by rw [← hsolo hs]; exact e)
          have := h.rdOk q
          rw [hi] at this ⊢
          exact this
        · exact (h.rdOk q).frame (fun a ha => hcell a (fun hb => h.d4 q r e a ha hb)) (fun hs' => absurd hs' hs)
    · intro q hq
      simp only [Sys.setRd]
      rw [if_neg (by omega)]
      exact h.idle q hq
    · intro hs q hq
      simp only [Sys.setRd]
      rw [if_neg (by rw [hsolo hs]; exact hq)]
      exact h.alone hs q hq
    · have ht := tot_setRd (s := s) (ch := ch) hr load (.ending n (ret &&& ~~~STOP)) []
      rw [hrd, hc, load_released, load_ending] at ht
      have hcount := h.count
      show s.b.count = (rest ++ mn).length + tot N fun q => load ((s.setRd r (.ending n (ret &&& ~~~STOP))).rd q) (upd ch r [] q)
      rw [List.length_append]
      omega
    · intro y hy
      rcases List.mem_append.1 hy with hy | hy
      · exact h8 y hy
      · exact h.mainData y hy

end Verif.Pfifo
