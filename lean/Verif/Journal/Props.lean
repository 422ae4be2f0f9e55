import Verif.Journal.Spec

/-!
# The journal (C150)
-/
namespace Verif.Journal
open Verif Verif.Journal.Spec

theorem reverse_rec {α : Type} {motive : List α → Prop} (l : List α) (nil : motive []) (append_singleton : ∀ l a, motive l → motive (l ++ [a])) : motive l := by
  rw [← List.reverse_reverse l]
  induction l.reverse with
  | nil => exact nil
  | cons a r ih => rw [List.reverse_cons]; exact append_singleton _ _ ih

theorem map_some_injective {α : Type} {a b : List α} (h : a.map some = b.map some) : a = b := by
  induction a generalizing b with
  | nil => cases b with
    | nil => rfl
    | cons => cases h
  | cons x r ih => cases b with
    | nil => cases h
    | cons y t => simp at h; rw [h.1, ih (by simpa using h.2)]

theorem suppress_iff (c : Conf) (e : Entry) : (c.debuglevel ≠ 0 ∧ c.debuglevel ≠ debuglevel1 c ∧ e.level > 3) ↔ ¬ Passed c e := by
  unfold Passed debuglevel1
  constructor
  · rintro ⟨h1, h2, h3⟩ (h | h | h)
    · exact h1 h
    · rw [h] at h2; exact h2 rfl
    · omega
  · intro h
    simp only [not_or] at h
    refine ⟨h.1, ?_, by omega⟩
    split <;> omega

theorem fields_prefix (e : Entry) (x : List (String × Value)) : getStr (fields e ++ x) "log_prefix" = some e.pre := by
  unfold getStr fields
  simp [List.find?]

theorem fields_message (c : Conf) (e : Entry) (t : Nat) : waiting c ⟨t, fields e⟩ = some (messageOf c e t) := by
  have h := fields_prefix e []
  rw [List.append_nil] at h
  unfold waiting
  rw [h]
  simp only [Option.map_some, messageOf, fields, Option.some.injEq, Message.mk.injEq, true_and]
  have hl : (if e.line < 0 then 0 else e.line.toNat) = e.line.toNat := by split <;> omega
  rw [hl]
  rfl

theorem expected_append (c : Conf) (a b : List Op) : expected c (a ++ b) = expected c a ++ expected c b := by
  induction a with
  | nil => rfl
  | cons x r ih =>
    cases x with
    | log e t f => simp only [List.cons_append, expected]; split <;> simp [ih]
    | round => exact ih
    | write => exact ih

theorem logs_append (a b : List Op) : logs (a ++ b) = logs a + logs b := by
  induction a with
  | nil => simp [logs]
  | cons x r ih => cases x <;> simp only [List.cons_append, logs, ih] <;> omega

theorem run_append (c : Conf) (ops : List Op) (op : Op) : run c (ops ++ [op]) = step c (run c ops) op := by
  unfold run; rw [List.foldl_append]; rfl

/-- Everything which is logged, from whatever threads and whenever, becomes exactly one message, in order, which is delivered or waits to be: as long as nothing fails,
and names of prefixes are short enough for topics. -/
theorem journal_complete_partial (c : Conf) (ops : List Op) (hf : ∀ e t f, Op.log e t f ∈ ops → f = .none ∧ e.pre.length ≤ 65523) :
    (run c ops).delivered.map some ++ (run c ops).queue.map (waiting c) = (expected c ops).map some ∧ (run c ops).stopped = false ∧ (run c ops).error = false ∧ (run c ops).inHook = false ∧
      ∀ q ∈ (run c ops).queue, ∃ e, q.fields = fields e ∧ e.pre.length ≤ 65523 := by
  induction ops using reverse_rec with
  | nil => exact ⟨rfl, rfl, rfl, rfl, by simp [run]⟩
  | append_singleton ops op ih =>
    obtain ⟨h1, h2, h3, h4, h5⟩ := ih fun e t f h => hf e t f (by simp [h])
    rw [run_append, expected_append]
    generalize run c ops = s at h1 h2 h3 h4 h5
    cases op with
    | log e t f =>
      obtain ⟨rfl, hp⟩ := hf e t f (by simp)
      unfold step hook
      simp only [suppress_iff, h4, Bool.false_eq_true, if_false]
      by_cases hpass : Passed c e
      · rw [if_neg (by simpa using hpass)]
        refine ⟨?_, h2, h3, rfl, ?_⟩
        · simp only [List.map_append, List.map_cons, List.map_nil, fields_message, expected, if_pos hpass]
          rw [← List.append_assoc, h1]
        · intro q hq
          rcases List.mem_append.mp hq with hq | hq
          · exact h5 q hq
          · exact ⟨e, by rw [List.mem_singleton.mp hq], hp⟩
      · rw [if_pos hpass]
        refine ⟨?_, h2, h3, rfl, h5⟩
        simp only [expected, if_neg hpass, List.append_nil]
        exact h1
    | round =>
      simp only [expected, List.append_nil]
      unfold step
      simp only [h2, h3, Bool.false_eq_true, false_or, if_false]
      split
      · exact ⟨h1, h2, h3, h4, h5⟩
      · exact ⟨h1, rfl, rfl, h4, h5⟩
    | write =>
      simp only [expected, List.append_nil]
      unfold step
      simp only
      split
      · unfold writeOne
        cases hq : s.queue with
        | nil => rw [hq] at h1 h5; exact ⟨by simpa [hq] using h1, h2, h3, h4, by simp [hq]⟩
        | cons q r =>
          rw [hq] at h1 h5
          obtain ⟨e, he, hl⟩ := h5 q (by simp)
          simp only
          rw [he, fields_prefix]
          simp only
          have hlen : ¬ (topicPrefix ++ e.pre).length > 65535 := by
            rw [List.length_append]
            have : topicPrefix.length = 12 := rfl
            omega
          rw [if_neg hlen]
          refine ⟨?_, h2, h3, h4, fun x hx => h5 x (by simp [hx])⟩
          have hw : waiting c q = some ⟨topicPrefix ++ e.pre, q.time, fields e ++ [("log_hostname", .str c.hostname)]⟩ := by
            unfold waiting
            have h := fields_prefix e []
            rw [List.append_nil] at h
            rw [he, h]
            rfl
          rw [← h1]
          simp [hw]
      · exact ⟨h1, h2, h3, h4, h5⟩

/-- In particular: what is delivered is what was logged, in order, with nothing left out between. -/
theorem journal_in_order_partial (c : Conf) (ops : List Op) (hf : ∀ e t f, Op.log e t f ∈ ops → f = .none ∧ e.pre.length ≤ 65523) :
    (run c ops).delivered <+: expected c ops := by
  have h := (journal_complete_partial c ops hf).1
  refine ⟨(expected c ops).drop (run c ops).delivered.length, ?_⟩
  have hlen : (run c ops).delivered.length ≤ (expected c ops).length := by
    have := congrArg List.length h
    simp at this
    omega
  have ht := congrArg (List.take (run c ops).delivered.length) h
  rw [List.take_append_of_le_length (by simp), List.take_of_length_le (by simp), ← List.map_take] at ht
  have hd : (run c ops).delivered = (expected c ops).take (run c ops).delivered.length := map_some_injective ht
  conv => lhs; lhs; rw [hd]
  exact List.take_append_drop _ _

/-- Everything which is logged is counted, and counted either as suppressed or as processed. -/
theorem journal_counted (c : Conf) (ops : List Op) : (run c ops).total = logs ops ∧ (run c ops).total = (run c ops).suppressed + (run c ops).processed := by
  induction ops using reverse_rec with
  | nil => exact ⟨rfl, rfl⟩
  | append_singleton ops op ih =>
    rw [run_append, logs_append]
    generalize run c ops = s at ih
    obtain ⟨h1, h2⟩ := ih
    cases op with
    | log e t f =>
      simp only [step, logs]
      unfold hook
      simp only
      split
      · exact ⟨by rw [← h1], by simp only; omega⟩
      · split
        · exact ⟨by rw [← h1], by simp only; omega⟩
        · cases f <;> exact ⟨by rw [← h1], by simp only; omega⟩
    | round =>
      simp only [step, logs]
      split
      · exact ⟨h1, h2⟩
      · split <;> exact ⟨h1, h2⟩
    | write =>
      simp only [step, logs]
      split
      · unfold writeOne
        cases hq : s.queue with
        | nil => exact ⟨h1, h2⟩
        | cons q r =>
          simp only
          cases getStr (q.fields ++ [("log_hostname", Value.str c.hostname)]) "log_prefix" with
          | none => exact ⟨h1, h2⟩
          | some p => simp only; split <;> exact ⟨h1, h2⟩
      · exact ⟨h1, h2⟩

/-- A round with nothing logged meanwhile writes everything which waits, up to 400 messages. -/
theorem round_writes (c : Conf) (s : State) (n : Nat) (hw : s.writing = true) (hq : ∀ q ∈ s.queue, ∃ e, q.fields = fields e ∧ e.pre.length ≤ 65523)
    (hn : n ≤ s.queue.length) (hc : s.count + n ≤ 400) :
    ((List.replicate n Op.write).foldl (step c) s).queue = s.queue.drop n ∧
    ((List.replicate n Op.write).foldl (step c) s).delivered.map some = s.delivered.map some ++ (s.queue.take n).map (waiting c) := by
  induction n generalizing s with
  | zero => exact ⟨rfl, by simp⟩
  | succ n ih =>
    rw [List.replicate_succ, List.foldl_cons]
    cases hs : s.queue with
    | nil => rw [hs] at hn; simp at hn
    | cons q r =>
      rw [hs] at hq hn
      obtain ⟨e, he, hl⟩ := hq q (by simp)
      have hlen : ¬ (topicPrefix ++ e.pre).length > 65535 := by
        rw [List.length_append]
        have : topicPrefix.length = 12 := rfl
        omega
      have hstep : step c s .write = { s with queue := r, delivered := s.delivered ++ [⟨topicPrefix ++ e.pre, q.time, q.fields ++ [("log_hostname", .str c.hostname)]⟩], count := s.count + 1, writing := r.length > 0 && s.count + 1 < 400 } := by
        simp only [step, hw, if_true]
        unfold writeOne
        rw [hs]
        simp only
        rw [he, fields_prefix]
        simp only
        rw [if_neg hlen]
      have hwq : waiting c q = some ⟨topicPrefix ++ e.pre, q.time, q.fields ++ [("log_hostname", .str c.hostname)]⟩ := by
        unfold waiting
        have h := fields_prefix e []
        rw [List.append_nil] at h
        rw [he, h]
        rfl
      cases n with
      | zero =>
        rw [hstep]
        exact ⟨by simp, by simp [hwq]⟩
      | succ m =>
        simp only [List.length_cons] at hn
        have := ih (step c s .write) (by rw [hstep]; simp only [Bool.and_eq_true, decide_eq_true_eq]; omega) (by rw [hstep]; exact fun x hx => hq x (by simp [hx])) (by rw [hstep]; simp only; omega)
          (by rw [hstep]; simp only; omega)
        rw [this.1, this.2, hstep]
        exact ⟨by simp, by simp [hwq]⟩

/-- C150 does not hold: when an entry cannot be allocated, nothing which is logged afterwards is delivered, and the module runs on without any error. -/
theorem silent_forever (c : Conf) (s : State) (h : s.inHook = true) (ops : List Op) :
    (ops.foldl (step c) s).inHook = true ∧ (ops.foldl (step c) s).queue <:+ s.queue ∧ (ops.foldl (step c) s).processed = s.processed ∧ (ops.foldl (step c) s).error = s.error := by
  induction ops generalizing s with
  | nil => exact ⟨h, List.suffix_refl _, rfl, rfl⟩
  | cons op r ih =>
    rw [List.foldl_cons]
    have key : (step c s op).inHook = true ∧ (step c s op).queue <:+ s.queue ∧ (step c s op).processed = s.processed ∧ (step c s op).error = s.error := by
      cases op with
      | log e t f =>
        simp only [step]
        unfold hook
        simp only [h, if_true]
        split <;> exact ⟨rfl, List.suffix_refl _, rfl, rfl⟩
      | round =>
        simp only [step]
        split
        · exact ⟨h, List.suffix_refl _, rfl, rfl⟩
        · split <;> exact ⟨h, List.suffix_refl _, rfl, rfl⟩
      | write =>
        simp only [step]
        split
        · unfold writeOne
          cases hq : s.queue with
          | nil => exact ⟨h, by simp [hq], rfl, rfl⟩
          | cons q t =>
            simp only
            cases getStr (q.fields ++ [("log_hostname", Value.str c.hostname)]) "log_prefix" with
            | none => exact ⟨h, List.suffix_cons _ _, rfl, rfl⟩
            | some p => simp only; split <;> exact ⟨h, List.suffix_cons _ _, rfl, rfl⟩
        · exact ⟨h, List.suffix_refl _, rfl, rfl⟩
    obtain ⟨k1, k2, k3, k4⟩ := key
    obtain ⟨h1, h2, h3, h4⟩ := ih _ k1
    exact ⟨h1, h2.trans k2, by rw [h3, k3], by rw [h4, k4]⟩

/-- A failed allocation causes this, and no error is noted. -/
theorem entry_failure (c : Conf) (s : State) (e : Entry) (t : Nat) (hp : Passed c e) (h : s.inHook = false) :
    (hook c s e t .entry).inHook = true ∧ (hook c s e t .entry).error = s.error ∧ (hook c s e t .entry).queue = s.queue := by
  unfold hook
  simp only [suppress_iff, h, Bool.false_eq_true, if_false]
  rw [if_neg (by simpa using hp)]
  exact ⟨rfl, rfl, rfl⟩

/-- When a value cannot be stored, the thread ends in the next round. -/
theorem value_failure (c : Conf) (s : State) (e : Entry) (t : Nat) (hp : Passed c e) (h : s.inHook = false) (hw : s.writing = false) :
    (step c (step c s (.log e t .value)) .round).stopped = true := by
  have : (step c s (.log e t .value)).error = true ∧ (step c s (.log e t .value)).writing = false := by
    simp only [step]
    unfold hook
    simp only [suppress_iff, h, Bool.false_eq_true, if_false]
    rw [if_neg (by simpa using hp)]
    exact ⟨rfl, hw⟩
  obtain ⟨h1, h2⟩ := this
  generalize step c s (.log e t .value) = s' at h1 h2
  simp only [step, h1, h2, Bool.false_eq_true, or_false, if_true]
  by_cases hs : s'.stopped = true
  · rw [if_pos hs]; exact hs
  · rw [if_neg hs]

/-- C150 does not hold: a prefix which is too long for a topic ends the module, and what was logged is lost. -/
theorem long_prefix_stops (c : Conf) (s : State) (q : Queued) (r : List Queued) (e : Entry) (hw : s.writing = true) (hq : s.queue = q :: r) (he : q.fields = fields e) (hl : 65523 < e.pre.length) :
    (step c s .write).stopped = true ∧ (step c s .write).queue = r ∧ (step c s .write).delivered = s.delivered := by
  simp only [step, hw, if_true]
  unfold writeOne
  rw [hq]
  simp only
  rw [he, fields_prefix]
  simp only
  have hlen : (topicPrefix ++ e.pre).length > 65535 := by
    rw [List.length_append]
    have : topicPrefix.length = 12 := rfl
    omega
  rw [if_pos hlen]
  exact ⟨rfl, rfl, rfl⟩

/-! ## Examples -/

def conf : Conf := ⟨1, [104]⟩
def entry (n : Nat) : Entry := ⟨[102], -1, n, 0, [112], [109]⟩

example : expected conf [.log (entry 7) 1 .none, .round, .log (entry 2) 2 .none, .write] = [messageOf conf (entry 7) 1, messageOf conf (entry 2) 2] := by decide +kernel

example : (run conf [.log (entry 7) 1 .none, .round, .log (entry 2) 2 .none, .write]).delivered = [messageOf conf (entry 7) 1] ∧
    (run conf [.log (entry 7) 1 .none, .round, .log (entry 2) 2 .none, .write]).queue.length = 1 := by decide +kernel

example : expected ⟨2, []⟩ [.log (entry 7) 1 .none, .log (entry 3) 2 .none] = [messageOf ⟨2, []⟩ (entry 3) 2] := by decide +kernel

example : (run conf [.log (entry 7) 1 .entry, .log (entry 2) 2 .none, .round, .write, .round, .write]).delivered = [] ∧
    (run conf [.log (entry 7) 1 .entry, .log (entry 2) 2 .none, .round, .write, .round, .write]).stopped = false := by decide +kernel

end Verif.Journal
