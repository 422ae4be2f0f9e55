import Verif.Pfifo.World
/-!
# The buffer between instances (C91, C92, C93)
-/
namespace Verif.Pfifo
open Verif Fifo

variable {α : Type}

/-- **C91.** One reader and any number of writers. Whatever the steps and whatever the callback of the reader returns, nothing is accessed which has been freed and the program does not end; the only thing
that can go wrong is that a 32-bit counter is full, after that many messages. All that has been given to the reader is what was written, in the same order, each message once, when all writers use the
same write function; and when no entries are counted anymore, everything has been given. -/
theorem single_reader (as : List (Act α)) (hl : ∀ a ∈ as, LegalAct a) (hs : ∀ a ∈ as, SoloAct a)
    (hk : (∀ d, Act.delayed d ∉ as) ∨ (∀ d, Act.write d ∉ as)) :
    (Sys.init.run as = .full ∧ LIMIT ≤ (writes as).length) ∨
    ∃ s, Sys.init.run as = .ok s ∧
      ∃ left, (writes as).map some = given s.log ++ left ∧
        (s.rd 0 = .idle → left = chain s.b.m.cell s.b.count s.b.first ++ chain s.b.m.cell s.b.wcount s.b.wfirst) ∧
        (s.b.count = 0 → s.b.wcount = 0 → left = []) := by
  have h0 := good_run (N := readers as) (solo := True) (ow := ∀ d, Act.delayed d ∉ as) (od := ∀ d, Act.write d ∉ as)
    (good_init (α := α)) hl (fun _ => hs) (Or.inl trivial) (fun r hr => readers_bound hr) id id
  rcases h0 with ⟨h1, h2⟩ | ⟨s, mn, wq, ch, h1, h⟩
  · left
    exact ⟨h1, by simpa using h2⟩
  · right
    refine ⟨s, h1, _, h.ord trivial hk, ?_, ?_⟩
    · intro hi
      have hi' : AllIdle s := fun r => by
        by_cases e : r = 0
        · rw [e]; exact hi
        · exact h.inv.alone trivial r e
      rw [chain_seg h.inv.mainSeg (by rw [h.idle_counts hi']; exact Nat.le_refl _), chain_seg h.inv.wqSeg (by rw [h.inv.wcount]; exact Nat.le_refl _), hi]
      rfl
    · intro hc hw
      have e1 := h.inv.count
      have e2 := h.inv.wcount
      have e3 : wq = [] := List.length_eq_zero_iff.1 (by omega)
      have e4 : mn = [] := List.length_eq_zero_iff.1 (by omega)
      have e5 := tot_le (f := fun r => load (s.rd r) (ch r)) (readers_pos as)
      simp only [load] at e5
      have e6 : (pend (s.rd 0) (ch 0)).length = 0 := by
        simp only [load] at e1
        omega
      rw [List.length_eq_zero_iff.1 e6, e3, e4]
      rfl

/-- **C91.** In the same setting, when the reader calls the buffer and there is something which it has not been given, it is given the oldest of those messages. -/
theorem single_reader_progress (as : List (Act α)) (hl : ∀ a ∈ as, LegalAct a) (hs : ∀ a ∈ as, SoloAct a)
    (hk : (∀ d, Act.delayed d ∉ as) ∨ (∀ d, Act.write d ∉ as)) {s : Sys α} (h1 : Sys.init.run as = .ok s) (hi : s.rd 0 = .idle)
    {d : α} {rest : List α} (hd : (writes as).map some = given s.log ++ some d :: rest.map some) {ret : UInt32} (hr : Legal ret)
    (hroom : (writes as).length < LIMIT) :
    ∃ s', s.run [.take 0, .next 0 ret] = .ok s' ∧ s'.log = s.log ++ [.given 0 (some d) 1 ret] := by
  have h0 := good_run (N := readers as) (solo := True) (ow := ∀ d, Act.delayed d ∉ as) (od := ∀ d, Act.write d ∉ as)
    (good_init (α := α)) hl (fun _ => hs) (Or.inl trivial) (fun r hr => readers_bound hr) id id
  rcases h0 with ⟨h1', _⟩ | ⟨s', mn, wq, ch, h1', h⟩
  · rw [h1] at h1'; cases h1'
  · rw [h1] at h1'
    obtain rfl := Res.ok.inj h1'
    have htotal := h.total
    rw [List.nil_append] at htotal
    have ho := h.ord trivial hk
    rw [List.nil_append, hd, hi, pend_idle, List.map_nil, List.nil_append, ← List.map_append] at ho
    have ho := List.append_cancel_left ho
    rcases inv_take h.inv (readers_pos as) hi (fun _ => rfl) with ⟨_, e⟩ | ⟨b', cur, stop, last, e1, e2, e3⟩
    · omega
    · have hst : s.step (.take 0) = .ok ({ s with b := b' }.setRd 0 (.loop cur stop last 0)) := by
        simp only [Sys.step, hi, e1, Res.bind]
      rcases inv_next e2 (r := 0) (setRd_self _ _ _) hr (fun e => by simp [MAX_READS] at e) with ⟨e, _, _⟩ | ⟨x, c, nx, e, _, e4, _⟩
      · exfalso
        rw [upd_self] at e
        cases hm : mn ++ wq with
        | nil => rw [hm] at ho; cases ho
        | cons x l => rw [hm] at e; simp [MAX_READS] at e
      · rw [upd_self] at e
        refine ⟨_, by simp only [Sys.run, hst, Res.bind]; rw [e4], ?_⟩
        have hx : x.data = some d := by
          cases hm : mn ++ wq with
          | nil => rw [hm] at ho; cases ho
          | cons y l =>
            rw [hm] at e ho
            simp only [MAX_READS, List.take_succ_cons, List.cons.injEq] at e
            rw [List.map_cons] at ho
            rw [← e.1]
            exact (List.cons.inj ho).1.symm
        show s.log ++ [Event.given 0 x.data (0 + 1) ret] = _
        rw [hx]

/-- **C92 (partial).** Any number of readers and writers, as long as no callback ends the reading with the 500th entry of a call, which is the last one that a call can give. Nothing is accessed which has been freed and the program does not
end; each message is given at most as many times as it was written, to one of the readers, and exactly as many when all have returned and nothing is counted. What is missing is the case with the 500th entry, see
`two_readers_stop_at_limit`. -/
theorem many_readers_partial (as : List (Act α)) (hl : ∀ a ∈ as, LegalAct a) (hq : Quiet Sys.init as) :
    (Sys.init.run as = .full ∧ LIMIT ≤ (writes as).length) ∨
    ∃ s, Sys.init.run as = .ok s ∧
      (∀ p, (given s.log).countP p ≤ ((writes as).map some).countP p) ∧
      (AllIdle s → ∀ p, ((writes as).map some).countP p =
        (given s.log ++ chain s.b.m.cell s.b.count s.b.first ++ chain s.b.m.cell s.b.wcount s.b.wfirst).countP p) ∧
      (s.b.count = 0 → s.b.wcount = 0 → ∀ p, ((writes as).map some).countP p = (given s.log).countP p) := by
  have h0 := good_run (N := readers as) (solo := False) (ow := False) (od := False)
    (good_init (α := α)) hl (fun h => h.elim) (Or.inr hq) (fun r hr => readers_bound hr) (fun h => h.elim) (fun h => h.elim)
  rcases h0 with ⟨h1, h2⟩ | ⟨s, mn, wq, ch, h1, h⟩
  · left
    exact ⟨h1, by simpa using h2⟩
  · right
    refine ⟨s, h1, ?_, ?_, ?_⟩
    · intro p
      have := h.bal p
      rw [List.nil_append] at this
      omega
    · intro hi p
      have := h.bal p
      rw [List.nil_append, tot_zero (fun r _ => by rw [hi r, pend_idle, cnt_nil])] at this
      rw [chain_seg h.inv.mainSeg (by rw [h.idle_counts hi]; exact Nat.le_refl _), chain_seg h.inv.wqSeg (by rw [h.inv.wcount]; exact Nat.le_refl _),
        List.countP_append, List.countP_append]
      exact this
    · intro hc hw p
      have e1 := h.inv.count
      have e2 := h.inv.wcount
      have e3 : wq = [] := List.length_eq_zero_iff.1 (by omega)
      have e4 : mn = [] := List.length_eq_zero_iff.1 (by omega)
      have := h.bal p
      rw [List.nil_append, e3, e4, tot_zero (fun r hr => ?_)] at this
      · simpa using this
      · have e5 := tot_le (f := fun r => load (s.rd r) (ch r)) hr
        simp only [load] at e5
        have e6 : (pend (s.rd r) (ch r)).length = 0 := by
          simp only [load] at e1
          omega
        rw [List.length_eq_zero_iff.1 e6]
        rfl

/-- **C93.** The data is freed exactly as the callbacks have said: at any time when all readers have returned, the free function has been called as many times for a message as callbacks have returned `SEARCH_FREE` for it, and
destroying the buffer then calls it once for each message which is still there and leaves no entry in memory. -/
theorem memory_partial (as : List (Act α)) (hl : ∀ a ∈ as, LegalAct a) (hq : (∀ a ∈ as, SoloAct a) ∨ Quiet Sys.init as)
    {s : Sys α} (hs : Sys.init.run as = .ok s) (hi : AllIdle s) (hroom : (writes as).length < LIMIT) :
    (∀ p, (freed s.b.m.log).countP p = (toFree s.log).countP p) ∧
    ∃ b', clear s.b = .ok b' ∧ Empty b'.m ∧ b'.count = 0 ∧
      freed b'.m.log = freed s.b.m.log ++ (chain s.b.m.cell s.b.count s.b.first ++ chain s.b.m.cell s.b.wcount s.b.wfirst) ∧
      ∀ p, (given s.log).countP p + (freed b'.m.log).countP p = ((writes as).map some).countP p + (toFree s.log).countP p := by
  have h0 := good_run (N := readers as) (solo := ∀ a ∈ as, SoloAct a) (ow := False) (od := False)
    (good_init (α := α)) hl id hq (fun r hr => readers_bound hr) (fun h => h.elim) (fun h => h.elim)
  rcases h0 with ⟨h1, h2⟩ | ⟨s', mn, wq, ch, h1, h⟩
  · rw [hs] at h1; cases h1
  · rw [hs] at h1
    obtain rfl := Res.ok.inj h1
    have hf : ∀ p, (freed s.b.m.log).countP p = (toFree s.log).countP p := fun p => by
      have := h.fre p
      rw [tot_zero (fun r _ => by rw [hi r, freeing_idle, cnt_nil])] at this
      omega
    refine ⟨hf, ?_⟩
    have htotal := h.total
    rw [List.nil_append] at htotal
    rcases good_clear h hi with ⟨_, e⟩ | ⟨b', e1, e2, e3, e4, e5⟩
    · omega
    · refine ⟨b', e1, e2, e4, ?_, ?_⟩
      · rw [e5, chain_seg h.inv.mainSeg (by rw [h.idle_counts hi]; exact Nat.le_refl _), chain_seg h.inv.wqSeg (by rw [h.inv.wcount]; exact Nat.le_refl _)]
      · intro p
        have := h.bal p
        rw [List.nil_append, tot_zero (fun r _ => by rw [hi r, pend_idle, cnt_nil])] at this
        rw [e5, List.countP_append, List.countP_append, hf p]
        simp only [cnt] at this
        omega

end Verif.Pfifo
