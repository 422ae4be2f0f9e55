import Verif.Wake.Lemmas
/-!
# Readers are woken up (C95)
-/
namespace Verif.Wake
open Verif

theorem amount_of_quiet {c : Cfg} {st : St} {r : Nat} (hq : quiet c st r) : amountFor r st.todo = 0 ∧ inWrite c st r = 0 := by
  refine ⟨amountFor_zero hq.2, ?_⟩
  unfold inWrite
  have : (c.senders r).map st.wr = (c.senders r).map (fun _ => 0) := List.map_congr_left hq.1
  rw [this]
  induction c.senders r with
  | nil => rfl
  | cons a t ih => simpa using ih

/-- **C95.** When each buffer has one reader and no write function fails half-way, then in every state which any schedule can reach, and when the writers of a reader are not just inside a write function,
the number the reader has been told (in the event descriptor, deferred, or in the handler) is exactly the number of messages which wait for it: it neither misses one nor polls for one which is not there. -/
theorem told_exactly_partial (c : Cfg) (hc : c.Sound) (hp : c.Private) (as : List Act) (hl : ∀ a ∈ as, NoFail a) {st : St} (hr : St.init.run c as = some st) (r : Nat)
    (hq : quiet c st r) : waiting c st r = (st.q r).fd + (st.q r).deferred + (match (st.q r).h with | .idle => 0 | .loop n _ => n | .poll n a _ => n + a) := by
  have k := inv_run hc hp hl (inv_init c) hr
  have hb := k.bal r
  have := amount_of_quiet hq
  rw [this.1, this.2] at hb
  rw [hb]
  unfold credit held
  cases (st.q r).h <;> rfl

/-- **C95.** Under the same conditions a reader for which a message waits does not sleep, except if its module paused when a part of what it had been told was deferred. -/
theorem awake_unless_paused_partial (c : Cfg) (hc : c.Sound) (hp : c.Private) (as : List Act) (hl : ∀ a ∈ as, NoFail a) {st : St} (hr : St.init.run c as = some st) (r : Nat)
    (hq : quiet c st r) (hw : 0 < waiting c st r) : ¬ asleep st r ∨ ((st.q r).paused = true ∧ 0 < (st.q r).deferred) := by
  have k := inv_run hc hp hl (inv_init c) hr
  have hb := k.bal r
  have hz := amount_of_quiet hq
  rw [hz.1, hz.2] at hb
  rcases Classical.em (asleep st r) with ⟨h1, h2, h3⟩ | h
  · right
    have e := k.ev r
    have hadd : (st.q r).added = true := by
      cases h : (st.q r).added with
      | true => rfl
      | false => rw [(e.off h).2.1] at h3; cases h3
    simp only [EvQ.callable, hadd, Bool.or_eq_false_iff, Bool.true_and, decide_eq_false_iff_not] at h2
    simp only [credit, h1, held] at hb
    have hd : 0 < (st.q r).deferred := by omega
    rcases e.def_ h1 hd with h | h
    · rw [h2.1] at h; cases h
    · exact ⟨h, hd⟩
  · exact Or.inl h

/-- **C95.** A reader whose module does not pause does not sleep while a message waits for it. -/
theorem awake_partial (c : Cfg) (hc : c.Sound) (hp : c.Private) (as : List Act) (hl : ∀ a ∈ as, NoFail a) {st : St} (hr : St.init.run c as = some st) (r : Nat)
    (hn : ∀ a ∈ as, NoPause r a) (hq : quiet c st r) (hw : 0 < waiting c st r) : ¬ asleep st r := by
  rcases awake_unless_paused_partial c hc hp as hl hr r hq hw with h | h
  · exact h
  · have := paused_run hn (show (St.init.q r).paused = false from rfl) hr
    rw [this] at h
    cases h.1

theorem run_append {c : Cfg} {as bs : List Act} : ∀ {st : St}, st.run c (as ++ bs) = (st.run c as).bind (fun s => s.run c bs) := by
  induction as with
  | nil => intro st; rfl
  | cons a t ih =>
    intro st
    simp only [List.cons_append, St.run]
    cases st.step c a with
    | none => rfl
    | some s => exact ih

/-- Something waits: some sender has a message. -/
theorem exists_left {c : Cfg} {st : St} {r : Nat} (h : 0 < waiting c st r) : ∃ s ∈ c.senders r, 0 < st.left s (c.key s r) := by
  unfold waiting at h
  generalize c.senders r = l at h
  induction l with
  | nil => simp at h
  | cons a t ih =>
    rw [List.map_cons, List.sum_cons] at h
    rcases Nat.eq_zero_or_pos (st.left a (c.key a r)) with h0 | h0
    · obtain ⟨s, hs, h1⟩ := ih (by omega)
      exact ⟨s, List.mem_cons_of_mem _ hs, h1⟩
    · exact ⟨a, List.mem_cons_self, h0⟩

/-- What stays the same while only the reader takes steps. -/
structure Alone (c : Cfg) (r : Nat) (st : St) : Prop where
  inv : Inv c st
  quiet : quiet c st r
  pause : (st.q r).paused = false

theorem alone_step {c : Cfg} (hc : c.Sound) (hp : c.Private) {r : Nat} {st st' : St} {a : Act} (ha : OfReader r a) (hn : NoPause r a) (k : Alone c r st) (h : st.step c a = some st') :
    Alone c r st' := by
  have hf : NoFail a := by cases a <;> first | exact ha.elim | trivial
  refine ⟨inv_step hc hp hf k.inv h, ?_, paused_step hn k.pause h⟩
  have hs : st'.todo = st.todo ∧ st'.wr = st.wr := by
    cases a with
    | store s => exact ha.elim
    | done s rnd => exact ha.elim
    | fail s => exact ha.elim
    | over s n rnd => exact ha.elim
    | pass i => exact ha.elim
    | dispatch r' p =>
      simp only [St.step] at h
      split at h
      · split at h
        · obtain rfl := Option.some.inj h; exact ⟨rfl, rfl⟩
        · cases h
      · cases h
    | call r' => obtain ⟨e, he, rfl⟩ := Option.map_eq_some_iff.1 h; exact ⟨rfl, rfl⟩
    | give r' s =>
      simp only [St.step] at h
      split at h
      · obtain ⟨e, he, rfl⟩ := Option.map_eq_some_iff.1 h; exact ⟨rfl, rfl⟩
      · cases h
    | ret r' => obtain ⟨e, he, rfl⟩ := Option.map_eq_some_iff.1 h; exact ⟨rfl, rfl⟩
    | fin r' => obtain ⟨e, he, rfl⟩ := Option.map_eq_some_iff.1 h; exact ⟨rfl, rfl⟩
    | fire r' =>
      simp only [St.step] at h
      split at h
      · split at h
        · obtain rfl := Option.some.inj h; exact ⟨rfl, rfl⟩
        · cases h
      · cases h
  unfold Wake.quiet
  rw [hs.1, hs.2]
  exact k.quiet

/-- Steps of the reader alone from `st` to `st'`. -/
def Reach (c : Cfg) (r : Nat) (st st' : St) : Prop := ∃ bs, (∀ a ∈ bs, OfReader r a ∧ NoPause r a) ∧ st.run c bs = some st'

theorem Reach.refl (c : Cfg) (r : Nat) (st : St) : Reach c r st st := ⟨[], by simp, rfl⟩

theorem Reach.cons {c : Cfg} {r : Nat} {st s1 st' : St} {a : Act} (ha : OfReader r a) (hn : NoPause r a) (h : st.step c a = some s1) (t : Reach c r s1 st') : Reach c r st st' := by
  obtain ⟨bs, h1, h2⟩ := t
  refine ⟨a :: bs, fun b hb => ?_, ?_⟩
  · rcases List.mem_cons.1 hb with e | e
    · subst e; exact ⟨ha, hn⟩
    · exact h1 b e
  · rw [St.run, h]; exact h2

theorem Reach.trans {c : Cfg} {r : Nat} {a b d : St} (h1 : Reach c r a b) (h2 : Reach c r b d) : Reach c r a d := by
  obtain ⟨x, hx, ex⟩ := h1
  obtain ⟨y, hy, ey⟩ := h2
  refine ⟨x ++ y, fun z hz => ?_, ?_⟩
  · rcases List.mem_append.1 hz with h | h
    · exact hx z h
    · exact hy z h
  · rw [run_append, ex]; exact ey

theorem credit_alone {c : Cfg} {r : Nat} {st : St} (k : Alone c r st) : waiting c st r = credit (st.q r) := by
  have hb := k.inv.bal r
  have hz := amount_of_quiet k.quiet
  rw [hz.1, hz.2] at hb
  exact hb

/-- In the module's function, with something to poll for: a message is given. -/
theorem one_poll {c : Cfg} (hc : c.Sound) (hp : c.Private) {r : Nat} {st : St} (k : Alone c r st) {n a t : Nat} (hh : (st.q r).h = .poll n a t) (ha : 0 < a) :
    ∃ st', Reach c r st st' ∧ Alone c r st' ∧ waiting c st' r + 1 = waiting c st r := by
  have hcr := credit_alone k
  have hpos : 0 < waiting c st r := by
    rw [hcr]; simp only [credit, hh, held]; omega
  obtain ⟨s, hs, hl⟩ := exists_left hpos
  have he : (st.q r).take = some { st.q r with h := .poll n (a - 1) t } := by
    unfold EvQ.take; rw [hh]; exact if_pos ha
  have hst : st.step c (.give r s) = some { (st.setQ r { st.q r with h := .poll n (a - 1) t }) with left := fun s' b => if s' = s ∧ b = c.key s r then st.left s' b - 1 else st.left s' b } := by
    simp only [St.step]
    rw [if_pos ⟨hs, hl⟩, he]
    rfl
  have k' := alone_step hc hp (a := .give r s) rfl trivial k hst
  refine ⟨_, Reach.cons (a := .give r s) rfl trivial hst (Reach.refl _ _ _), k', ?_⟩
  rw [credit_alone k', hcr]
  have := (evok_take (k.inv.ev r) he).2
  show credit (upd st.q r _ r) + 1 = _
  rw [upd_same]
  exact this

theorem setQ_q (st : St) (r : Nat) (e : EvQ) : (st.setQ r e).q r = e := by
  show upd st.q r e r = e
  rw [upd_same]

/-- At the loop with something to do. -/
theorem one_loop {c : Cfg} (hc : c.Sound) (hp : c.Private) {r : Nat} {st : St} (k : Alone c r st) {n t : Nat} (hh : (st.q r).h = .loop n t) (hn : 0 < n) (ht : 0 < t) :
    ∃ st', Reach c r st st' ∧ Alone c r st' ∧ waiting c st' r + 1 = waiting c st r := by
  have he : (st.q r).call = some { st.q r with h := .poll (n - min n 0xffff) (min n 0xffff) (t - 1) } := by
    unfold EvQ.call; rw [hh]; exact if_pos ⟨hn, ht⟩
  have hst : st.step c (.call r) = some (st.setQ r { st.q r with h := .poll (n - min n 0xffff) (min n 0xffff) (t - 1) }) := by
    simp only [St.step]; rw [he]; rfl
  have k' := alone_step hc hp (a := .call r) rfl trivial k hst
  obtain ⟨s2, r2, k2, w2⟩ := one_poll hc hp k' (n := n - min n 0xffff) (a := min n 0xffff) (t := t - 1) (by rw [setQ_q]) (by omega)
  exact ⟨s2, Reach.cons (a := .call r) rfl trivial hst r2, k2, w2⟩

/-- Not in the handler. -/
theorem one_idle {c : Cfg} (hc : c.Sound) (hp : c.Private) {r : Nat} {st : St} (k : Alone c r st) (hh : (st.q r).h = .idle) (hw : 0 < waiting c st r) :
    ∃ st', Reach c r st st' ∧ Alone c r st' ∧ waiting c st' r + 1 = waiting c st r := by
  have hcr := credit_alone k
  have e := k.inv.ev r
  have hadd : (st.q r).added = true := by
    cases h : (st.q r).added with
    | true => rfl
    | false => have := (e.off h).1; rw [k.pause] at this; cases this
  have hcall : (st.q r).callable = true := by
    unfold EvQ.callable
    rw [hadd]
    rw [hcr] at hw
    simp only [credit, hh, held] at hw
    rcases Nat.eq_zero_or_pos (st.q r).deferred with h0 | h0
    · have : 0 < (st.q r).fd := by omega
      simp [this]
    · rcases e.def_ hh h0 with h | h
      · rw [h]; rfl
      · rw [k.pause] at h; cases h
  have hst : st.step c (.dispatch r false) = some (st.setQ r ((st.q r).dispatch false)) := by
    simp only [St.step]; rw [hh]; exact if_pos hcall
  have k' := alone_step hc hp (a := .dispatch r false) rfl (fun _ => rfl) k hst
  have hd : ∃ n, 0 < n ∧ ((st.q r).dispatch false).h = .loop n 5 := by
    rw [hcr] at hw
    simp only [credit, hh, held] at hw
    unfold EvQ.dispatch
    rw [if_neg (by decide)]
    rcases Nat.eq_zero_or_pos (st.q r).deferred with h0 | h0
    · refine ⟨(st.q r).fd, by omega, ?_⟩
      rw [if_neg (show ¬ 0 < (st.q r).deferred by omega)]
    · refine ⟨(st.q r).deferred, h0, ?_⟩
      rw [if_pos h0]
  obtain ⟨n, hn, hl⟩ := hd
  obtain ⟨s2, r2, k2, w2⟩ := one_loop hc hp k' (n := n) (t := 5) (by rw [setQ_q]; exact hl) hn (by decide)
  exact ⟨s2, Reach.cons (a := .dispatch r false) rfl (fun _ => rfl) hst r2, k2, w2⟩

theorem one_more {c : Cfg} (hc : c.Sound) (hp : c.Private) {r : Nat} {st : St} (k : Alone c r st) (hw : 0 < waiting c st r) :
    ∃ st', Reach c r st st' ∧ Alone c r st' ∧ waiting c st' r + 1 = waiting c st r := by
  have floop : ∀ {st : St}, Alone c r st → 0 < waiting c st r → ∀ {n t : Nat}, (st.q r).h = .loop n t → ∃ st', Reach c r st st' ∧ Alone c r st' ∧ waiting c st' r + 1 = waiting c st r := by
    intro st k hw n t hh
    by_cases h : 0 < n ∧ 0 < t
    · exact one_loop hc hp k hh h.1 h.2
    · obtain ⟨e', he, hi⟩ : ∃ e', (st.q r).fin = some e' ∧ e'.h = .idle := by
        unfold EvQ.fin
        rw [hh]
        simp only [if_neg h]
        split
        · exact ⟨_, rfl, rfl⟩
        · exact ⟨_, rfl, rfl⟩
      have hst : st.step c (.fin r) = some (st.setQ r e') := by simp only [St.step]; rw [he]; rfl
      have k' := alone_step hc hp (a := .fin r) rfl trivial k hst
      have hw' : 0 < waiting c (st.setQ r e') r := hw
      obtain ⟨s2, r2, k2, w2⟩ := one_idle hc hp k' (by rw [setQ_q]; exact hi) hw'
      exact ⟨s2, Reach.cons (a := .fin r) rfl trivial hst r2, k2, w2⟩
  cases hh : (st.q r).h with
  | idle => exact one_idle hc hp k hh hw
  | loop n t => exact floop k hw hh
  | poll n a t =>
    rcases Nat.eq_zero_or_pos a with h0 | h0
    · have he : (st.q r).ret = some { st.q r with h := .loop (n + a) t } := by unfold EvQ.ret; rw [hh]
      have hst : st.step c (.ret r) = some (st.setQ r { st.q r with h := .loop (n + a) t }) := by simp only [St.step]; rw [he]; rfl
      have k' := alone_step hc hp (a := .ret r) rfl trivial k hst
      obtain ⟨s2, r2, k2, w2⟩ := floop k' hw (n := n + a) (t := t) (by rw [setQ_q])
      exact ⟨s2, Reach.cons (a := .ret r) rfl trivial hst r2, k2, w2⟩
    · exact one_poll hc hp k hh h0

/-- **C95.** Nor is it ever stuck: whatever has happened, a reader whose module does not pause can, by steps of its own thread only, go on until no message waits for it. -/
theorem drains_partial (c : Cfg) (hc : c.Sound) (hp : c.Private) (as : List Act) (hl : ∀ a ∈ as, NoFail a) {st : St} (hr : St.init.run c as = some st) (r : Nat)
    (hn : ∀ a ∈ as, NoPause r a) (hq : quiet c st r) :
    ∃ bs st', (∀ b ∈ bs, OfReader r b) ∧ st.run c bs = some st' ∧ waiting c st' r = 0 := by
  have k : Alone c r st := ⟨inv_run hc hp hl (inv_init c) hr, hq, paused_run hn rfl hr⟩
  have key : ∀ (n : Nat) (st : St), Alone c r st → waiting c st r = n → ∃ st', Reach c r st st' ∧ waiting c st' r = 0 := by
    intro n
    induction n with
    | zero => intro st _ h; exact ⟨st, Reach.refl _ _ _, h⟩
    | succ n ih =>
      intro st k h
      obtain ⟨s1, r1, k1, w1⟩ := one_more hc hp k (by omega)
      obtain ⟨s2, r2, w2⟩ := ih s1 k1 (by omega)
      exact ⟨s2, r1.trans r2, w2⟩
  obtain ⟨st', ⟨bs, h1, h2⟩, h3⟩ := key _ st k rfl
  exact ⟨bs, st', fun b hb => (h1 b hb).1, h2, h3⟩

/-- **C95.** The amounts which are passed to `rrr_event_pass` are not zero, fit in its `uint8_t` argument, and add up to the number of messages. -/
theorem amounts (k : Nat) : (∀ x ∈ chunks k, 0 < x ∧ x ≤ 255) ∧ (chunks k).sum = k := ⟨chunks_le k, chunks_sum k⟩

end Verif.Wake
