import Verif.Threads.StartModel

/-!
# C136: the order in which threads are started
-/
namespace Verif.Threads.Start

namespace Spec
open Verif.Threads.Start

/-- The thread has not yet told that it is initialized. -/
def Initializes (p : Pc) : Prop := p = .waitInit ∨ p = .init ∨ p = .clear .initialized ∨ p = .put .initialized

/-- The thread has passed the wait before its fork, and has not yet told that it has forked. -/
def Forks (p : Pc) : Prop := p = .forking ∨ p = .clear .forked ∨ p = .put .forked

/-- The main thread has not turned to stopping all threads. -/
def Starting (s : State) : Prop := ∀ i, s.main ≠ .stop i ∧ s.main ≠ .done

end Spec
open Spec

/-- A thread by itself. -/
def Ok (t : Th) : Prop :=
  match t.pc with
  | .waitInit | .init | .clear .initialized => t.seen = .new
  | .put _ => t.seen = .none
  | .waitBefore | .forking | .clear .forked => t.seen = .initialized
  | .waitAfter | .running => t.seen = .forked
  | .cleanup | .clear .stopped => t.seen = .new ∨ t.seen = .forked
  | .ended => t.seen = .stopped

def Later (p : Pc) : Prop := Forks p ∨ p = .waitBefore

instance (p : Pc) : Decidable (Initializes p) := by unfold Initializes; infer_instance
instance (p : Pc) : Decidable (Forks p) := by unfold Forks; infer_instance

/-- What is known of a thread which is past the first stage, and past the second. -/
def Past (t : Th) : Prop := ¬ Initializes t.pc
def Past2 (t : Th) : Prop := ¬ Initializes t.pc ∧ ¬ Forks t.pc ∧ t.pc ≠ .waitBefore

structure Sig (t : Th) : Prop where
  ok : Ok t
  fork : Forks t.pc → t.before = true
  run : t.pc = .running → t.after = true

theorem thStep_keeps (l : Bool) (t : Th) : (thStep l t).before = t.before ∧ (thStep l t).after = t.after := by
  unfold thStep
  cases t.pc <;> simp only [] <;> (repeat' split) <;> simp

theorem sig_step {t : Th} (h : Sig t) (l : Bool) : Sig (thStep l t) := by
  obtain ⟨h1, h2, h3⟩ := h
  rcases t with ⟨p, s, st, b, a, sp⟩
  cases p with
  | clear g => cases g <;> constructor <;> simp_all [thStep, Ok, Forks]
  | put g => cases g <;> constructor <;> simp_all [thStep, Ok, Forks, Goal.next, Goal.seen]
  | _ => constructor <;> cases l <;> cases st <;> cases b <;> cases a <;> cases sp <;> simp_all [thStep, Ok, Forks]

theorem past_step {t : Th} (h : Past t) (l : Bool) : Past (thStep l t) := by
  rcases t with ⟨p, s, st, b, a, sp⟩
  cases p with
  | clear g => cases g <;> simp_all [Past, Initializes, thStep]
  | put g => cases g <;> simp_all [Past, Initializes, thStep, Goal.next]
  | _ => cases l <;> cases st <;> cases b <;> cases a <;> cases sp <;> simp_all [Past, Initializes, thStep]

theorem past2_step {t : Th} (h : Past2 t) (l : Bool) : Past2 (thStep l t) := by
  rcases t with ⟨p, s, st, b, a, sp⟩
  cases p with
  | clear g => cases g <;> simp_all [Past2, Initializes, Forks, thStep]
  | put g => cases g <;> simp_all [Past2, Initializes, Forks, thStep, Goal.next]
  | _ => cases l <;> cases st <;> cases b <;> cases a <;> cases sp <;> simp_all [Past2, Initializes, Forks, thStep]

theorem past_of_seen {t : Th} (h : Ok t) (hs : t.seen = .initialized ∨ t.seen = .stopped) : Past t := by
  rcases t with ⟨p, s, st, b, a, sp⟩
  cases p with
  | clear g => cases g <;> simp_all [Past, Initializes, Ok]
  | put g => cases g <;> simp_all [Past, Initializes, Ok]
  | _ => simp_all [Past, Initializes, Ok]

theorem past2_of_seen {t : Th} (h : Ok t) (hs : t.seen = .forked ∨ t.seen = .stopped) : Past2 t := by
  rcases t with ⟨p, s, st, b, a, sp⟩
  cases p with
  | clear g => cases g <;> simp_all [Past2, Initializes, Forks, Ok]
  | put g => cases g <;> simp_all [Past2, Initializes, Forks, Ok]
  | _ => simp_all [Past2, Initializes, Forks, Ok]

/-- What the main thread knows by where it is. -/
def Knows (s : State) : Prop :=
  match s.main with
  | .signalInit _ => ∀ i, (s.th i).before = false ∧ (s.th i).after = false
  | .waitInit i => (∀ k, (s.th k).before = false ∧ (s.th k).after = false) ∧ ∀ k, k < i → k < s.n → Past (s.th k)
  | .signalBefore i => (∀ k, (s.th k).after = false) ∧ (∀ k, k < s.n → Past (s.th k)) ∧ (∀ k, k < i → k < s.n → Past2 (s.th k)) ∧ ∀ k, i ≤ k → (s.th k).before = false
  | .waitForked i => i < s.n ∧ (∀ k, (s.th k).after = false) ∧ (∀ k, k < s.n → Past (s.th k)) ∧ (∀ k, k < i → k < s.n → Past2 (s.th k)) ∧ ∀ k, i < k → (s.th k).before = false
  | .signalAfter | .up => ∀ k, k < s.n → Past2 (s.th k)
  | .stop _ | .done => True

def Inv (s : State) : Prop := (∀ i, Sig (s.th i)) ∧ Knows s

theorem inv_thread {s : State} (h : Inv s) (i : Nat) (l : Bool) : Inv (s.set i (thStep l (s.th i))) := by
  obtain ⟨h1, h2⟩ := h
  have hb : ∀ k, ((s.set i (thStep l (s.th i))).th k).before = (s.th k).before := by
    intro k; simp only [State.set]; split
    · next e => rw [e, (thStep_keeps l _).1]
    · rfl
  have ha : ∀ k, ((s.set i (thStep l (s.th i))).th k).after = (s.th k).after := by
    intro k; simp only [State.set]; split
    · next e => rw [e, (thStep_keeps l _).2]
    · rfl
  have hp : ∀ k, Past (s.th k) → Past ((s.set i (thStep l (s.th i))).th k) := by
    intro k hk; simp only [State.set]; split
    · next e => rw [← e]; exact past_step hk l
    · exact hk
  have hp2 : ∀ k, Past2 (s.th k) → Past2 ((s.set i (thStep l (s.th i))).th k) := by
    intro k hk; simp only [State.set]; split
    · next e => rw [← e]; exact past2_step hk l
    · exact hk
  have hm : (s.set i (thStep l (s.th i))).main = s.main := rfl
  have hn : (s.set i (thStep l (s.th i))).n = s.n := rfl
  refine ⟨?_, ?_⟩
  · intro k; simp only [State.set]; split
    · next e => exact sig_step (h1 i) l
    · exact h1 k
  · revert h2
    unfold Knows
    rw [hm, hn]
    generalize s.set i (thStep l (s.th i)) = s' at *
    cases s.main with
    | signalInit j => exact fun h2 k => by rw [hb, ha]; exact h2 k
    | waitInit j => exact fun h2 => ⟨fun k => by rw [hb, ha]; exact h2.1 k, fun k a b => hp k (h2.2 k a b)⟩
    | signalBefore j => exact fun h2 => ⟨fun k => by rw [ha]; exact h2.1 k, fun k a => hp k (h2.2.1 k a), fun k a b => hp2 k (h2.2.2.1 k a b), fun k a => by rw [hb]; exact h2.2.2.2 k a⟩
    | waitForked j => exact fun h2 => ⟨h2.1, fun k => by rw [ha]; exact h2.2.1 k, fun k a => hp k (h2.2.2.1 k a), fun k a b => hp2 k (h2.2.2.2.1 k a b), fun k a => by rw [hb]; exact h2.2.2.2.2 k a⟩
    | signalAfter => exact fun h2 k a => hp2 k (h2 k a)
    | up => exact fun h2 k a => hp2 k (h2 k a)
    | stop _ => exact id
    | done => exact id

/-- A signal is given. -/
theorem sig_signal {s : State} (h : ∀ i, Sig (s.th i)) (i : Nat) (t : Th) (hp : t.pc = (s.th i).pc) (hs : t.seen = (s.th i).seen)
    (hb : (s.th i).before = true → t.before = true) (ha : (s.th i).after = true → t.after = true) : ∀ k, Sig ((s.set i t).th k) := by
  intro k
  simp only [State.set]
  split
  · obtain ⟨a, b, c⟩ := h i
    refine ⟨?_, fun hf => hb (b (hp ▸ hf)), fun hr => ha (c (hp ▸ hr))⟩
    unfold Ok at a ⊢
    rw [hp, hs]
    exact a
  · exact h k

theorem inv_main {s : State} (h : Inv s) (k : Nat) : Inv (mainStep k s) := by
  obtain ⟨h1, h2⟩ := h
  unfold Knows at h2
  unfold mainStep
  cases hm : s.main with
  | signalInit i =>
    simp only [hm] at h2 ⊢
    split
    · refine ⟨sig_signal h1 i _ rfl rfl id id, ?_⟩
      show ∀ j, _
      intro j
      simp only [State.set]
      split
      · exact h2 i
      · exact h2 j
    · exact ⟨h1, h2, fun k hk => absurd hk (by omega)⟩
  | waitInit i =>
    simp only [hm] at h2 ⊢
    split
    · split
      · next hx =>
        refine ⟨h1, h2.1, fun k hk hn => ?_⟩
        by_cases e : k = i
        · subst e; exact past_of_seen (h1 k).ok hx
        · exact h2.2 k (by omega) hn
      · refine ⟨h1, ?_⟩
        unfold Knows; simp only [hm]; exact h2
    · refine ⟨h1, fun k => (h2.1 k).2, fun k (hk : k < s.n) => h2.2 k (by omega) hk, fun k hk => absurd hk (by omega), fun k _ => (h2.1 k).1⟩
  | signalBefore i =>
    simp only [hm] at h2 ⊢
    split
    · next hi =>
      refine ⟨sig_signal h1 i _ rfl rfl (fun _ => rfl) id, hi, fun k => ?_, fun k hk => ?_, fun k hk hn => ?_, fun k hk => ?_⟩
      · simp only [State.set]; split
        · exact h2.1 i
        · exact h2.1 k
      · simp only [State.set]; split
        · exact h2.2.1 i hi
        · exact h2.2.1 k hk
      · simp only [State.set]; split
        · next e => omega
        · exact h2.2.2.1 k hk hn
      · simp only [State.set]; split
        · next e => omega
        · exact h2.2.2.2 k (by omega)
    · exact ⟨h1, fun k (hk : k < s.n) => h2.2.2.1 k (by omega) hk⟩
  | waitForked i =>
    simp only [hm] at h2 ⊢
    split
    · next hx =>
      refine ⟨h1, h2.2.1, h2.2.2.1, fun k hk hn => ?_, fun k hk => h2.2.2.2.2 k (by omega)⟩
      by_cases e : k = i
      · subst e; exact past2_of_seen (h1 k).ok hx
      · exact h2.2.2.2.1 k (by omega) hn
    · refine ⟨h1, ?_⟩
      unfold Knows; simp only [hm]; exact h2
  | signalAfter =>
    simp only [hm] at h2 ⊢
    split
    · exact ⟨h1, h2⟩
    · refine ⟨sig_signal h1 k _ rfl rfl id (fun _ => rfl), ?_⟩
      unfold Knows
      have : (s.set k { s.th k with after := true }).main = .signalAfter := hm
      simp only [this]
      intro j hj
      simp only [State.set]; split
      · next e => subst e; exact h2 j hj
      · exact h2 j hj
  | up =>
    refine ⟨h1, ?_⟩
    unfold Knows; simp only [hm] at h2 ⊢; exact h2
  | stop i =>
    simp only
    split
    · exact ⟨sig_signal h1 i _ rfl rfl (fun _ => rfl) (fun _ => rfl), trivial⟩
    · exact ⟨h1, trivial⟩
  | done => exact ⟨h1, by unfold Knows; simp only [hm]⟩

theorem inv_run (n : Nat) (acts : List Act) : Inv (run n acts) := by
  have : ∀ (acts : List Act) (s : State), Inv s → Inv (acts.foldl step s) := by
    intro acts
    induction acts with
    | nil => exact fun s h => h
    | cons a l ih =>
      intro s h
      apply ih
      cases a with
      | thread i lv =>
        simp only [step]
        split
        · exact inv_thread h i lv
        · exact h
      | main k => exact inv_main h k
      | quit =>
        simp only [step]
        split
        · exact h
        · exact h
        · exact ⟨h.1, trivial⟩
  refine this acts _ ⟨fun i => ⟨rfl, ?_, ?_⟩, fun i => ⟨rfl, rfl⟩⟩
  · intro h; simp [Forks] at h
  · intro h; cases h

theorem run_n (n : Nat) (acts : List Act) : (run n acts).n = n := by
  have : ∀ (acts : List Act) (s : State), (acts.foldl step s).n = s.n := by
    intro acts
    induction acts with
    | nil => exact fun s => rfl
    | cons a l ih =>
      intro s
      rw [List.foldl_cons, ih]
      cases a with
      | thread i lv => simp only [step]; split <;> rfl
      | main k =>
        simp only [step, mainStep]
        cases s.main <;> simp only [] <;> (repeat' split) <;> rfl
      | quit => simp only [step]; split <;> rfl
  exact this acts _

/-- No thread goes on to fork before all threads are done with their initialization. For any number of threads and every schedule. -/
theorem initialized_before_fork (n : Nat) (acts : List Act) (hs : Starting (run n acts)) (i j : Nat) (hj : j < n) (hf : Forks ((run n acts).th i).pc) :
    ¬ Initializes ((run n acts).th j).pc := by
  obtain ⟨h1, h2⟩ := inv_run n acts
  have hb := (h1 i).fork hf
  have hn := run_n n acts
  unfold Knows at h2
  cases hm : (run n acts).main with
  | signalInit k => simp only [hm] at h2; have := (h2 i).1; rw [hb] at this; cases this
  | waitInit k => simp only [hm] at h2; have := (h2.1 i).1; rw [hb] at this; cases this
  | signalBefore k => simp only [hm] at h2; exact h2.2.1 j (by omega)
  | waitForked k => simp only [hm] at h2; exact h2.2.2.1 j (by omega)
  | signalAfter => simp only [hm] at h2; exact (h2 j (by omega)).1
  | up => simp only [hm] at h2; exact (h2 j (by omega)).1
  | stop k => exact absurd hm (hs k).1
  | done => exact absurd hm (hs 0).2

/-- Threads fork one at a time. For any number of threads and every schedule. -/
theorem one_fork_at_a_time_partial (n : Nat) (acts : List Act) (hs : Starting (run n acts)) (i j : Nat) (hi : i < n) (hj : j < n)
    (hf : Forks ((run n acts).th i).pc) (hg : Forks ((run n acts).th j).pc) : i = j := by
  obtain ⟨h1, h2⟩ := inv_run n acts
  have hb := (h1 i).fork hf
  have hc := (h1 j).fork hg
  have hn := run_n n acts
  unfold Knows at h2
  cases hm : (run n acts).main with
  | signalInit k => simp only [hm] at h2; have := (h2 i).1; rw [hb] at this; cases this
  | waitInit k => simp only [hm] at h2; have := (h2.1 i).1; rw [hb] at this; cases this
  | signalBefore k =>
    simp only [hm] at h2
    by_cases hk : i < k
    · exact absurd hf (h2.2.2.1 i hk (by omega)).2.1
    · have := h2.2.2.2 i (by omega); rw [hb] at this; cases this
  | waitForked k =>
    simp only [hm] at h2
    have key : ∀ x, x < n → Forks ((run n acts).th x).pc → ((run n acts).th x).before = true → x = k := by
      intro x hx hfx hbx
      rcases Nat.lt_trichotomy x k with h | h | h
      · exact absurd hfx (h2.2.2.2.1 x h (by omega)).2.1
      · exact h
      · have := h2.2.2.2.2 x h; rw [hbx] at this; cases this
    rw [key i hi hf hb, key j hj hg hc]
  | signalAfter => simp only [hm] at h2; exact absurd hf (h2 i (by omega)).2.1
  | up => simp only [hm] at h2; exact absurd hf (h2 i (by omega)).2.1
  | stop k => exact absurd hm (hs k).1
  | done => exact absurd hm (hs 0).2

/-- No thread runs before all threads have forked, or have stopped. For any number of threads and every schedule. -/
theorem forked_before_run (n : Nat) (acts : List Act) (hs : Starting (run n acts)) (i j : Nat) (hj : j < n) (hr : ((run n acts).th i).pc = .running) :
    ¬ Initializes ((run n acts).th j).pc ∧ ((run n acts).th j).pc ≠ .waitBefore ∧ ¬ Forks ((run n acts).th j).pc := by
  obtain ⟨h1, h2⟩ := inv_run n acts
  have ha := (h1 i).run hr
  have hn := run_n n acts
  unfold Knows at h2
  cases hm : (run n acts).main with
  | signalInit k => simp only [hm] at h2; have := (h2 i).2; rw [ha] at this; cases this
  | waitInit k => simp only [hm] at h2; have := (h2.1 i).2; rw [ha] at this; cases this
  | signalBefore k => simp only [hm] at h2; have := h2.1 i; rw [ha] at this; cases this
  | waitForked k => simp only [hm] at h2; have := h2.2.1 i; rw [ha] at this; cases this
  | signalAfter => simp only [hm] at h2; obtain ⟨a, b, c⟩ := h2 j (by omega); exact ⟨a, c, b⟩
  | up => simp only [hm] at h2; obtain ⟨a, b, c⟩ := h2 j (by omega); exact ⟨a, c, b⟩
  | stop k => exact absurd hm (hs k).1
  | done => exact absurd hm (hs 0).2

/-- Two threads are initialized, and the first one forks. -/
def firstForks : List Act :=
  [.main 0, .main 0, .main 0, .thread 0 false, .thread 0 false, .thread 0 false, .thread 0 false, .thread 1 false, .thread 1 false, .thread 1 false, .thread 1 false, .main 0, .main 0, .main 0,
   .main 0, .thread 0 false, .thread 1 false]

example : Starting (run 2 firstForks) ∧ Forks ((run 2 firstForks).th 0).pc ∧ ((run 2 firstForks).th 1).pc = .waitBefore := by
  refine ⟨fun i => ?_, ?_, ?_⟩
  · have : (run 2 firstForks).main = .waitForked 0 := by decide +kernel
    rw [this]; simp
  · decide +kernel
  · decide +kernel

/-- Both have forked, and the second one is started first. -/
def secondRuns : List Act := firstForks ++ [.thread 0 false, .thread 0 false, .thread 0 false, .main 0, .main 0, .thread 1 false, .thread 1 false, .thread 1 false, .thread 1 false, .main 0, .main 0, .main 1, .thread 1 false]

example : ((run 2 secondRuns).th 1).pc = .running ∧ ((run 2 secondRuns).th 0).pc = .waitAfter ∧ (run 2 secondRuns).main = .signalAfter := by decide +kernel

/-- When the start fails, all threads are given all signals at once: threads which wait to fork then do so at the same time, although they are told to stop. -/
theorem forks_overlap_when_stopped : ∃ acts, Forks ((run 2 acts).th 0).pc ∧ Forks ((run 2 acts).th 1).pc ∧ ((run 2 acts).th 0).stop = true ∧ ((run 2 acts).th 1).stop = true :=
  ⟨firstForks ++ [.quit, .main 0, .main 0, .thread 1 false], by decide +kernel⟩

end Verif.Threads.Start
