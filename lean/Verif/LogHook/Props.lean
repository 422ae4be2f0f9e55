import Verif.LogHook.Spec
import Verif.LogHook.Lemmas

/-! # Log messages reach hooks -/
namespace Verif.LogHook
open Spec

theorem calling_iff (p : Pc) : Calling p ↔ p.calls = true := by cases p <;> simp [Calling, Pc.calls]

/-- C145. No thread waits for a lock which it has, for every schedule, however hooks log. -/
theorem never_stuck (acts : List Act) (t : Nat) : (run acts).pc t ≠ .stuck := (inv_run acts).notStuck t

/-- C145. Hooks are called by one thread at a time. -/
theorem one_caller (acts : List Act) (t u : Nat) (ht : Calling ((run acts).pc t)) (hu : Calling ((run acts).pc u)) : t = u := by
  have h := inv_run acts
  have a := (h.locked t).mp (holds_of_calls _ ((calling_iff _).mp ht))
  have b := (h.locked u).mp (holds_of_calls _ ((calling_iff _).mp hu))
  rw [a] at b
  exact Option.some.inj b

/-! ## Hooks which are gone -/

theorem step_gone (s : State) (h : Inv s) (a : Act) (x : Nat) (hx : x ∈ s.gone) :
    x ∈ (step s a).gone ∧ (step s a).called.filter (·.1 == x) = s.called.filter (·.1 == x) := by
  unfold step
  split
  · exact ⟨hx, rfl⟩
  · cases a with
    | log t m => simp only [logAct]; (repeat' split) <;> exact ⟨hx, rfl⟩
    | register t => simp only [registerAct]; (repeat' split) <;> exact ⟨hx, rfl⟩
    | unregister t y => simp only [unregisterAct]; (repeat' split) <;> exact ⟨hx, rfl⟩
    | cancel t => simp only [cancelAct]; (repeat' split) <;> exact ⟨hx, rfl⟩
    | step t =>
      simp only [stepAct]
      split
      case h_4 m k hp =>
        split
        · rename_i y hy
          refine ⟨hx, ?_⟩
          have hm : y ∈ s.hooks := List.mem_of_getElem? hy
          have : y ≠ x := fun e => (h.gone x hx).2 (e ▸ hm)
          simp [List.filter_append, this]
        · exact ⟨hx, rfl⟩
      all_goals (repeat' split)
      all_goals first
        | exact ⟨hx, rfl⟩
        | exact ⟨List.mem_append_left _ hx, rfl⟩

/-- C145. A hook is not called any more once it was unregistered, whatever other threads are doing. -/
theorem gone_not_called (a b : List Act) (x : Nat) (hx : x ∈ (run a).gone) :
    (run (a ++ b)).called.filter (·.1 == x) = (run a).called.filter (·.1 == x) := by
  have key : ∀ (b : List Act) (s : State), Inv s → x ∈ s.gone → (b.foldl step s).called.filter (·.1 == x) = s.called.filter (·.1 == x) := by
    intro b
    induction b with
    | nil => intro s _ _; rfl
    | cons c l ih =>
      intro s h hx
      obtain ⟨h1, h2⟩ := step_gone s h c x hx
      rw [List.foldl_cons, ih _ (inv_step s h c) h1, h2]
  unfold run
  rw [List.foldl_append]
  exact key b _ (inv_run a) hx

/-- Two threads log, a hook is registered, called, and unregistered while a message waits. -/
def sample : List Act :=
  [.register 9, .step 9, .step 9, .log 1 10, .step 1, .step 1, .log 1 11, .step 1, .log 2 20, .step 2, .step 1, .step 1, .unregister 9 1, .step 9, .step 9,
   .step 2, .step 2, .step 2]

example : 1 ∈ (run sample).gone ∧ (run sample).called = [(1, 10)] ∧ (run sample).skipped = [11] ∧ (run sample).aborted = false ∧
    (run sample).outcome = [⟨1, 10, some [1], false⟩, ⟨2, 20, some [], false⟩] := by decide +kernel

/-! ## Messages are delivered to all hooks -/

theorem step_logged (s : State) (a : Act) (t : Nat) :
    ((step s a).outcome.filter (·.thread == t)).map Entry.message ++ pending ((step s a).pc t) =
      ((s.outcome.filter (·.thread == t)).map Entry.message ++ pending (s.pc t)) ++ logged t s [a] := by
  unfold step logged
  cases ha : s.aborted with
  | true => cases a <;> simp [logged]
  | false =>
    simp only [Bool.false_eq_true, if_false, logged, List.append_nil]
    cases a with
    | log u m =>
      by_cases e : u = t
      · subst e
        simp only [logAct]
        split
        · rename_i hp
          split <;> simp [pc_at, pending, hp, State.at]
        · rename_i hp
          split <;> simp [pc_at, pending, hp, State.at]
        · rename_i h1 _
          simp [show ¬ s.pc u = .idle from h1]
      · simp only [logAct, e, false_and, if_false, List.append_nil]
        (repeat' split) <;> simp [pc_at, State.at, Ne.symm e]
    | register u =>
      by_cases e : u = t
      · subst e
        simp only [registerAct]
        (repeat' split) <;> simp_all [pc_at, pending, State.at]
      · simp only [registerAct]
        (repeat' split) <;> simp [pc_at, State.at, Ne.symm e]
    | unregister u x =>
      by_cases e : u = t
      · subst e
        simp only [unregisterAct]
        (repeat' split) <;> simp_all [pc_at, pending, State.at]
      · simp only [unregisterAct]
        (repeat' split) <;> simp [pc_at, State.at, Ne.symm e]
    | cancel u =>
      by_cases e : u = t
      · subst e
        simp only [cancelAct]
        (repeat' split) <;> simp_all [pc_at, pending, State.at]
      · simp only [cancelAct]
        (repeat' split) <;> simp [pc_at, State.at, Ne.symm e]
    | step u =>
      by_cases e : u = t
      · subst e
        simp only [stepAct]
        (repeat' split) <;> simp_all [pc_at, pending, State.at]
      · simp only [stepAct]
        (repeat' split) <;> simp [pc_at, State.at, Ne.symm e, e]

/-- C145. Every message a thread logs outside of hooks has an outcome, once and in order, except for one which the thread is about to deliver. -/
theorem accounted (acts : List Act) (t : Nat) :
    ((run acts).outcome.filter (·.thread == t)).map Entry.message ++ pending ((run acts).pc t) = logged t {} acts := by
  have key : ∀ (acts : List Act) (s : State), ((acts.foldl step s).outcome.filter (·.thread == t)).map Entry.message ++ pending ((acts.foldl step s).pc t) =
      ((s.outcome.filter (·.thread == t)).map Entry.message ++ pending (s.pc t)) ++ logged t s acts := by
    intro acts
    induction acts with
    | nil => intro s; simp [logged]
    | cons a l ih =>
      intro s
      rw [List.foldl_cons, ih, step_logged]
      simp [logged]
  have := key acts {}
  simpa [run, pending] using this

example : logged 1 {} sample = [10] ∧ logged 2 {} sample = [20] := by decide +kernel

/-- The message which a thread is delivering and the number of hooks which it has called. -/
def progress : Pc → Option (Nat × Nat)
  | .call m k => some (m, k)
  | .inHook m k | .nested m k _ => some (m, k + 1)
  | _ => none

def Cur (s : State) (m k : Nat) : Prop := ∃ b c u, s.outcome = b ++ ⟨u, m, some s.hooks, false⟩ :: c ∧ (∀ e ∈ c, e.hooks = none) ∧
  s.called = deliveries b ++ (s.hooks.take k).map (·, m)

/-- Calls which have been made, and those which are left. -/
structure Trace (s : State) : Prop where
  quiet : (∀ t, progress (s.pc t) = none) → s.called = deliveries s.outcome
  busy : ∀ t m k, progress (s.pc t) = some (m, k) → Cur s m k

theorem deliveries_append (a b : List Entry) : deliveries (a ++ b) = deliveries a ++ deliveries b := by simp [deliveries]

theorem deliveries_lost (c : List Entry) (h : ∀ e ∈ c, e.hooks = none) : deliveries c = [] := by
  unfold deliveries
  rw [List.flatMap_eq_nil_iff]
  intro e he
  rw [h e he]

theorem progress_calls (p : Pc) : progress p = none ↔ p.calls = false := by cases p <;> simp [progress, Pc.calls]

/-- Steps which do not call hooks or change them. -/
theorem trace_same (s s' : State) (h : Trace s) (hc : s'.called = s.called) (hh : s'.hooks = s.hooks) (l : List Entry)
    (ho : s'.outcome = s.outcome ++ l) (hl : ∀ e ∈ l, e.hooks = none) (hp : ∀ t, progress (s'.pc t) = progress (s.pc t)) : Trace s' := by
  constructor
  · intro hq
    rw [hc, ho, deliveries_append, deliveries_lost l hl, List.append_nil]
    exact h.quiet fun t => by rw [← hp]; exact hq t
  · intro t m k e
    rw [hp] at e
    obtain ⟨b, c, u, h1, h2, h3⟩ := h.busy t m k e
    refine ⟨b, c ++ l, u, ?_, ?_, ?_⟩
    · rw [ho, h1, hh]; simp
    · intro e he
      rcases List.mem_append.mp he with he | he
      · exact h2 e he
      · exact hl e he
    · rw [hc, h3, hh]

theorem progress_at (s : State) (t : Nat) (p : Pc) (h : progress p = progress (s.pc t)) (u : Nat) : progress ((s.at t p).pc u) = progress (s.pc u) := by
  rw [pc_at]
  split
  · rename_i e; rw [e, h]
  · rfl

/-- If a thread has the lock then no other one is calling. -/
theorem others_quiet (s : State) (h : Inv s) (t u : Nat) (ht : (s.pc t).holds = true) (hu : u ≠ t) : progress (s.pc u) = none := by
  rw [progress_calls]
  cases hc : (s.pc u).calls with
  | false => rfl
  | true =>
    have a := (h.locked t).mp ht
    have b := (h.locked u).mp (holds_of_calls _ hc)
    rw [a] at b
    exact absurd (Option.some.inj b).symm hu

theorem trace_stepAct (s : State) (hi : Inv s) (h : Trace s) (t : Nat) : Trace (stepAct s t) := by
  have same : ∀ p : Pc, progress p = progress (s.pc t) → Trace (s.at t p) := fun p hp =>
    trace_same s _ h rfl rfl [] (by simp [State.at]) (by simp) (progress_at s t p hp)
  unfold stepAct
  split
  · rename_i m raced hp
    split
    · exact trace_same s _ h rfl rfl [⟨t, m, none, raced⟩] rfl (by simp) (progress_at s t .idle (by rw [hp]; rfl))
    · exact same _ (by rw [hp]; rfl)
  · rename_i m hp
    split
    · exact trace_same s _ h rfl rfl [] (by simp [State.at]) (by simp) (progress_at s t (.got m) (by rw [hp]; rfl))
    · exact h
  · rename_i m hp
    have hq : s.called = deliveries s.outcome := h.quiet fun u => by
      by_cases e : u = t
      · rw [e, hp]; rfl
      · exact others_quiet s hi t u (by rw [hp]; rfl) e
    constructor
    · intro hn
      have := hn t
      simp [State.at, progress] at this
    · intro u m' k e
      by_cases eu : u = t
      · subst eu
        simp only [State.at, if_true, progress, Option.some.injEq, Prod.mk.injEq] at e
        obtain ⟨rfl, rfl⟩ := e
        exact ⟨s.outcome, [], u, rfl, by simp, by simp [State.at, hq]⟩
      · have := others_quiet s hi t u (by rw [hp]; rfl) eu
        simp [State.at, eu, this] at e
  · rename_i m k hp
    have hb := h.busy t m k (by rw [hp]; rfl)
    obtain ⟨b, c, v, h1, h2, h3⟩ := hb
    split
    · rename_i x hx
      constructor
      · intro hn
        have := hn t
        simp [State.at, progress] at this
      · intro u m' k' e
        by_cases eu : u = t
        · subst eu
          simp only [State.at, if_true, progress, Option.some.injEq, Prod.mk.injEq] at e
          obtain ⟨rfl, rfl⟩ := e
          refine ⟨b, c, v, h1, h2, ?_⟩
          change s.called ++ [(x, m)] = _ ++ (s.hooks.take (k + 1)).map _
          rw [h3, List.take_add_one, hx]
          simp
        · have := others_quiet s hi t u (by rw [hp]; rfl) eu
          simp [State.at, eu, this] at e
    · rename_i hx
      constructor
      · intro _
        change s.called = deliveries s.outcome
        rw [h1, h3, deliveries_append, List.take_of_length_le (by simpa using hx)]
        have : deliveries (⟨v, m, some s.hooks, false⟩ :: c) = s.hooks.map (·, m) ++ deliveries c := by simp [deliveries]
        rw [this, deliveries_lost c h2, List.append_nil]
      · intro u m' k' e
        by_cases eu : u = t
        · subst eu; simp [State.at, progress] at e
        · have := others_quiet s hi t u (by rw [hp]; rfl) eu
          simp [State.at, eu, this] at e
  · rename_i m k hp; exact same _ (by rw [hp]; rfl)
  · rename_i m k n hp
    split
    · exact trace_same s _ h rfl rfl [] (by simp [State.at]) (by simp) (progress_at s t (.inHook m k) (by rw [hp]; rfl))
    · rename_i hh; exact absurd (hi.holder t (by rw [hp]; rfl)) hh
  · rename_i hp
    split
    · exact trace_same s _ h rfl rfl [] (by simp [State.at]) (by simp) (progress_at s t .regHeld (by rw [hp]; rfl))
    · exact h
  · rename_i hp
    have hq : s.called = deliveries s.outcome := h.quiet fun u => by
      by_cases e : u = t
      · rw [e, hp]; rfl
      · exact others_quiet s hi t u (by rw [hp]; rfl) e
    split
    · refine ⟨fun _ => hq, ?_⟩
      intro u m' k' e
      by_cases eu : u = t
      · subst eu; simp [State.at, progress] at e
      · have := others_quiet s hi t u (by rw [hp]; rfl) eu
        simp [State.at, eu, this] at e
    · exact trace_same s _ h rfl rfl [] (by simp) (by simp) (fun _ => rfl)
  · rename_i x hp
    split
    · exact trace_same s _ h rfl rfl [] (by simp [State.at]) (by simp) (progress_at s t (.unregHeld x) (by rw [hp]; rfl))
    · exact h
  · rename_i x hp
    have hq : s.called = deliveries s.outcome := h.quiet fun u => by
      by_cases e : u = t
      · rw [e, hp]; rfl
      · exact others_quiet s hi t u (by rw [hp]; rfl) e
    split
    · refine ⟨fun _ => hq, ?_⟩
      intro u m' k' e
      by_cases eu : u = t
      · subst eu; simp [State.at, progress] at e
      · have := others_quiet s hi t u (by rw [hp]; rfl) eu
        simp [State.at, eu, this] at e
    · exact trace_same s _ h rfl rfl [] (by simp) (by simp) (fun _ => rfl)
  · exact h

theorem trace_step (s : State) (hi : Inv s) (h : Trace s) (a : Act) (ha : ∀ t, a ≠ .cancel t) : Trace (step s a) := by
  unfold step
  split
  · exact h
  · cases a with
    | cancel t => exact absurd rfl (ha t)
    | step t => exact trace_stepAct s hi h t
    | log t m =>
      simp only [logAct]
      split
      · rename_i hp
        split
        · exact trace_same s _ h rfl rfl [] (by simp [State.at]) (by simp) (progress_at s t (.got m) (by rw [hp]; rfl))
        · exact trace_same s _ h rfl rfl [] (by simp [State.at]) (by simp) (progress_at s t _ (by rw [hp]; rfl))
      · rename_i hp
        split
        · exact h
        · exact trace_same s _ h rfl rfl [] (by simp [State.at]) (by simp) (progress_at s t _ (by rw [hp]; rfl))
      · exact h
    | register t =>
      simp only [registerAct]
      split
      · rename_i hp
        split
        · exact trace_same s _ h rfl rfl [] (by simp) (by simp) (fun _ => rfl)
        · exact trace_same s _ h rfl rfl [] (by simp [State.at]) (by simp) (progress_at s t _ (by rw [hp]; rfl))
      · exact h
    | unregister t x =>
      simp only [unregisterAct]
      split
      · rename_i hp
        exact trace_same s _ h rfl rfl [] (by simp [State.at]) (by simp) (progress_at s t _ (by rw [hp]; rfl))
      · exact h

/-- C145. Every message for which the lock was taken is delivered to all hooks which there were, once to each, and one message after the other, so that
all hooks see messages in the same order. For every schedule in which no thread is cancelled in a hook, and whenever no thread is calling hooks. -/
theorem all_delivered (acts : List Act) (hc : ∀ t, .cancel t ∉ acts) (hq : ∀ t, ¬ Calling ((run acts).pc t)) :
    (run acts).called = deliveries (run acts).outcome := by
  have key : ∀ (acts : List Act) (s : State), (∀ t, .cancel t ∉ acts) → Inv s → Trace s → Trace (acts.foldl step s) := by
    intro acts
    induction acts with
    | nil => exact fun s _ _ h => h
    | cons a l ih =>
      intro s hl hi h
      simp only [List.mem_cons, not_or] at hl
      exact ih _ (fun t => (hl t).2) (inv_step s hi a) (trace_step s hi h a fun t e => (hl t).1 e.symm)
  refine (key acts {} hc inv_init ⟨fun _ => rfl, by intro t m k e; simp [progress] at e⟩).quiet fun t => ?_
  rw [progress_calls]
  have := hq t
  rw [calling_iff] at this
  change ((run acts).pc t).calls = false
  simpa using this

example : (∀ t, .cancel t ∉ sample) ∧ deliveries (run sample).outcome = [(1, 10)] := by
  refine ⟨?_, by decide +kernel⟩
  intro t; simp [sample]

/-! ## Messages which are not delivered -/

theorem tried_raced (s : State) (hr : ∀ t m, s.pc t ≠ .tried m true) (ho : ∀ e ∈ s.outcome, e.raced = false) (a : Act)
    (h : ∀ t m, a = .log t m → ¬ Race s) : (∀ t m, (step s a).pc t ≠ .tried m true) ∧ ∀ e ∈ (step s a).outcome, e.raced = false := by
  have move : ∀ (t : Nat) (p : Pc), (∀ m, p ≠ .tried m true) → ∀ u m, (s.at t p).pc u ≠ .tried m true := by
    intro t p hp u m
    rw [pc_at]
    split
    · exact hp m
    · exact hr u m
  unfold step
  split
  · exact ⟨hr, ho⟩
  · cases a with
    | log t m =>
      simp only [logAct]
      split
      · split
        · exact ⟨move _ _ (by simp), ho⟩
        · rename_i u hl
          have hw : (s.pc u).window = false := by
            have := h t m rfl
            unfold Race at this
            cases hw : (s.pc u).window with
            | false => rfl
            | true =>
              exfalso; apply this
              refine ⟨u, hl, ?_⟩
              cases hp : s.pc u <;> rw [hp] at hw <;> simp_all [Pc.window]
          refine ⟨move _ _ ?_, ho⟩
          intro m' e
          rw [hw] at e
          simp at e
      · split
        · exact ⟨hr, ho⟩
        · exact ⟨move _ _ (by simp), ho⟩
      · exact ⟨hr, ho⟩
    | register t => simp only [registerAct]; (repeat' split) <;> first | exact ⟨hr, ho⟩ | exact ⟨move _ _ (by simp), ho⟩
    | unregister t x => simp only [unregisterAct]; (repeat' split) <;> first | exact ⟨hr, ho⟩ | exact ⟨move _ _ (by simp), ho⟩
    | cancel t => simp only [cancelAct]; (repeat' split) <;> first | exact ⟨hr, ho⟩ | exact ⟨move _ _ (by simp), ho⟩
    | step t =>
      simp only [stepAct]
      split
      · rename_i m raced hp
        have hf : raced = false := by
          cases raced with
          | false => rfl
          | true => exact absurd hp (hr t m)
        split
        · refine ⟨move _ _ (by simp), ?_⟩
          intro e he
          rcases List.mem_append.mp he with he | he
          · exact ho e he
          · simp only [List.mem_singleton] at he; rw [he]; exact hf
        · exact ⟨move _ _ (by simp), ho⟩
      · split
        · exact ⟨move _ _ (by simp), ho⟩
        · exact ⟨hr, ho⟩
      · refine ⟨move _ _ (by simp), ?_⟩
        intro e he
        rcases List.mem_append.mp he with he | he
        · exact ho e he
        · simp only [List.mem_singleton] at he; rw [he]
      all_goals (repeat' split)
      all_goals first
        | exact ⟨hr, ho⟩
        | exact ⟨move _ _ (by simp), ho⟩

/-- C145. No message which is logged outside of hooks is lost, unless it is logged while another thread has the lock and has not made that known. -/
theorem none_lost_partial (acts : List Act) (h : ∀ p t m, p ++ [.log t m] <+: acts → ¬ Race (run p)) :
    ∀ e ∈ (run acts).outcome, e.hooks ≠ none := by
  have key : ∀ (n : Nat) (acts : List Act), acts.length = n → (∀ p t m, p ++ [.log t m] <+: acts → ¬ Race (run p)) →
      (∀ t m, (run acts).pc t ≠ .tried m true) ∧ ∀ e ∈ (run acts).outcome, e.raced = false := by
    intro n
    induction n with
    | zero => intro acts hn _; rw [List.length_eq_zero_iff.mp hn]; simp [run]
    | succ n ih =>
      intro acts hn h
      have hne : acts ≠ [] := by intro e; rw [e] at hn; simp at hn
      have e : acts = acts.dropLast ++ [acts.getLast hne] := (List.dropLast_concat_getLast hne).symm
      obtain ⟨i1, i2⟩ := ih acts.dropLast (by simp [hn]) fun p t m hp => h p t m (hp.trans (List.dropLast_prefix acts))
      rw [e]
      unfold run at *
      rw [List.foldl_append]
      refine tried_raced _ i1 i2 _ ?_
      intro t m ea
      refine h acts.dropLast t m ?_
      have ea' : acts.getLast hne = .log t m := ea
      rw [← ea', ← e]
      exact List.prefix_refl _
  intro e he hn
  have h1 := (inv_run acts).lost e he hn
  have h2 := (key _ acts rfl h).2 e he
  rw [h1] at h2
  cases h2

/-- A second thread logs when the first one is calling hooks. -/
example : ∀ p t m, p ++ [.log t m] <+: [.log 1 10, .step 1, .log 2 20, .step 2, .step 1, .step 2] → ¬ Race (run p) := by
  intro p t m h
  match p with
  | [] => rintro ⟨u, hu, -⟩; simp [run] at hu
  | [a, b] =>
    simp only [List.cons_append, List.nil_append, List.cons_prefix_cons] at h
    obtain ⟨rfl, rfl, -⟩ := h
    rintro ⟨u, hu, h⟩
    have hu' : u = 1 := by
      have : (run [.log 1 10, .step 1]).lock = some 1 := by decide +kernel
      rw [this] at hu; simpa using hu.symm
    subst hu'
    have hp : (run [.log 1 10, .step 1]).pc 1 = .call 10 0 := by decide +kernel
    rw [hp] at h
    simp at h
  | [a] => simp [List.cons_prefix_cons] at h
  | [a, b, c] => simp [List.cons_prefix_cons] at h
  | [a, b, c, d] => simp [List.cons_prefix_cons] at h
  | [a, b, c, d, e] => simp [List.cons_prefix_cons] at h
  | a :: b :: c :: d :: e :: f :: l => have := h.length_le; simp at this

/-- A message is lost: a thread, which was the last one to log, logs when another one has just taken the lock. -/
def losing : List Act :=
  [.register 9, .step 9, .step 9, .log 1 10, .step 1, .step 1, .step 1, .step 1, .log 2 20, .log 1 11, .step 1, .step 2, .step 2, .step 2, .step 2]

theorem message_lost : (∀ t, ¬ Calling ((run losing).pc t)) ∧ logged 1 {} losing = [10, 11] ∧ (run losing).hooks = [1] ∧
    (run losing).called = [(1, 10), (1, 20)] ∧ (run losing).skipped = [] := by
  refine ⟨?_, by decide +kernel⟩
  intro t
  have : ∀ t, (run losing).pc t = .idle := by
    intro t
    by_cases h1 : t = 1
    · subst h1; decide +kernel
    · by_cases h2 : t = 2
      · subst h2; decide +kernel
      · by_cases h9 : t = 9
        · subst h9; decide +kernel
        · simp [run, losing, step, registerAct, stepAct, logAct, State.at, h1, h2, h9, hookMax, Pc.window]
  rw [this t]
  simp [Calling]

/-- Registering a hook has the same effect. -/
theorem message_lost_register : logged 1 {} [.log 1 10, .step 1, .step 1, .register 9, .step 9, .log 1 11, .step 1] = [10, 11] ∧
    (run [.log 1 10, .step 1, .step 1, .register 9, .step 9, .log 1 11, .step 1]).outcome = [⟨1, 10, some [], false⟩, ⟨1, 11, none, true⟩] := by
  decide +kernel

/-! ## The table of hooks -/

theorem registering_step (s : State) (h1 : ∀ t u, Registering (s.pc t) → Registering (s.pc u) → t = u)
    (h2 : ∀ t, Registering (s.pc t) → s.hooks.length < hookMax) (h3 : s.overflow = false) (h4 : s.hooks.length ≤ hookMax) (a : Act)
    (h : ∀ t, a = .register t → ∀ u, ¬ Registering (s.pc u)) :
    (∀ t u, Registering ((step s a).pc t) → Registering ((step s a).pc u) → t = u) ∧
      (∀ t, Registering ((step s a).pc t) → (step s a).hooks.length < hookMax) ∧ (step s a).overflow = false ∧ (step s a).hooks.length ≤ hookMax := by
  have move : ∀ (t : Nat) (p : Pc), (Registering p → Registering (s.pc t)) → ∀ u, Registering ((s.at t p).pc u) → Registering (s.pc u) := by
    intro t p hp u
    rw [pc_at]
    split
    · rename_i e; subst e; exact hp
    · exact id
  have fin : ∀ s' : State, (∀ u, Registering (s'.pc u) → Registering (s.pc u)) → s'.hooks.length ≤ s.hooks.length → s'.overflow = false →
      (∀ t u, Registering (s'.pc t) → Registering (s'.pc u) → t = u) ∧ (∀ t, Registering (s'.pc t) → s'.hooks.length < hookMax) ∧ s'.overflow = false ∧ s'.hooks.length ≤ hookMax :=
    fun s' hp hl ho => ⟨fun t u a b => h1 t u (hp t a) (hp u b), fun t a => Nat.lt_of_le_of_lt hl (h2 t (hp t a)), ho, Nat.le_trans hl h4⟩
  unfold step
  split
  · exact ⟨h1, h2, h3, h4⟩
  · cases a with
    | log t m =>
      simp only [logAct]
      (repeat' split) <;> first | exact ⟨h1, h2, h3, h4⟩ | exact fin _ (move _ _ (by simp [Registering])) (Nat.le_refl _) h3
    | unregister t x =>
      simp only [unregisterAct]
      (repeat' split) <;> first | exact ⟨h1, h2, h3, h4⟩ | exact fin _ (move _ _ (by simp [Registering])) (Nat.le_refl _) h3
    | cancel t =>
      simp only [cancelAct]
      (repeat' split) <;> first | exact ⟨h1, h2, h3, h4⟩ | exact fin _ (move _ _ (by simp [Registering])) (Nat.le_refl _) h3
    | register t =>
      have hn := h t rfl
      simp only [registerAct]
      split
      · split
        · exact ⟨h1, h2, h3, h4⟩
        · rename_i hm
          refine ⟨?_, ?_, h3, h4⟩
          · intro u v hu hv
            have : ∀ w, Registering ((s.at t .regSpin).pc w) → w = t := by
              intro w hw
              rw [pc_at] at hw
              split at hw
              · assumption
              · exact absurd hw (hn w)
            rw [this u hu, this v hv]
          · intro u _
            exact Nat.lt_of_le_of_ne h4 hm
      · exact ⟨h1, h2, h3, h4⟩
    | step t =>
      simp only [stepAct]
      split
      case h_8 hp =>
        have hlt := h2 t (by rw [hp]; trivial)
        rw [if_pos hlt]
        have hq : ∀ u, ¬ Registering ((s.at t .idle).pc u) := by
          intro u hu
          rw [pc_at] at hu
          split at hu
          · exact hu
          · rename_i e; exact e (h1 u t hu (by rw [hp]; trivial))
        exact ⟨fun u v hu _ => absurd hu (hq u), fun u hu => absurd hu (hq u), h3, by simp; omega⟩
      case h_10 hp =>
        split
        · exact fin _ (move _ _ (by simp [Registering])) (List.length_erase_le) h3
        · exact ⟨h1, h2, h3, h4⟩
      all_goals rename_i hp
      all_goals (repeat' split)
      all_goals first
        | exact ⟨h1, h2, h3, h4⟩
        | exact fin _ (move _ _ (by simp [Registering, hp])) (Nat.le_refl _) h3

/-- C145. The table of hooks is not written outside of its bounds, if no two threads register hooks at the same time. -/
theorem table_safe_partial (acts : List Act) (h : ∀ p t, p ++ [.register t] <+: acts → ∀ u, ¬ Registering ((run p).pc u)) :
    (run acts).overflow = false := by
  have key : ∀ (n : Nat) (acts : List Act), acts.length = n → (∀ p t, p ++ [.register t] <+: acts → ∀ u, ¬ Registering ((run p).pc u)) →
      (∀ t u, Registering ((run acts).pc t) → Registering ((run acts).pc u) → t = u) ∧
      (∀ t, Registering ((run acts).pc t) → (run acts).hooks.length < hookMax) ∧ (run acts).overflow = false ∧ (run acts).hooks.length ≤ hookMax := by
    intro n
    induction n with
    | zero => intro acts hn _; rw [List.length_eq_zero_iff.mp hn]; simp [run, Registering]
    | succ n ih =>
      intro acts hn h
      have hne : acts ≠ [] := by intro e; rw [e] at hn; simp at hn
      have e : acts = acts.dropLast ++ [acts.getLast hne] := (List.dropLast_concat_getLast hne).symm
      obtain ⟨i1, i2, i3, i4⟩ := ih acts.dropLast (by simp [hn]) fun p t hp => h p t (hp.trans (List.dropLast_prefix acts))
      rw [e]
      unfold run at *
      rw [List.foldl_append]
      refine registering_step _ i1 i2 i3 i4 _ ?_
      intro t ea
      refine h acts.dropLast t ?_
      have ea' : acts.getLast hne = .register t := ea
      rw [← ea', ← e]
      exact List.prefix_refl _
  exact (key _ acts rfl h).2.2.1

/-- One hook after the other. -/
example : (run ((List.replicate 5 [Act.register 1, .step 1, .step 1]).flatten)).hooks = [1, 2, 3, 4, 5] := by decide +kernel

/-- Two threads register the last hook: each sees that there is room for one. -/
theorem table_overflow : ∃ acts, (run acts).overflow = true ∧ (run acts.dropLast).aborted = false :=
  ⟨(List.replicate 4 [Act.register 1, .step 1, .step 1]).flatten ++ [.register 1, .register 2, .step 1, .step 1, .step 2, .step 2], by decide +kernel⟩

end Verif.LogHook
