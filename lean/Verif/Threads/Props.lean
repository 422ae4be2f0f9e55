import Verif.Threads.Lemmas
import Verif.Threads.Spec

/-!
# C135: what becomes of a thread when it is stopped
-/
namespace Verif.Threads
open Spec

/-- When the watchdog has been joined, the thread has set `STOPPED` after all its cleanup, or it has been tagged as ghost. For every schedule. -/
theorem joined_stopped_or_ghost (acts : List Act) (h : Joined (run acts)) :
    (run acts).tagged = true ∨ (run acts).word.stopped = true ∧ (∃ old, (run acts).thread = .verify .stopped old) ∨ (run acts).word.stopped = true ∧ ((run acts).thread = .report ∨ (run acts).thread = .ended) := by
  have hi := inv_run acts
  cases ht : (run acts).tagged with
  | true => exact .inl rfl
  | false =>
    have he : (run acts).watchdog = .ended := by
      rcases h with h | h
      · exact hi.done h
      · exact hi.finished h
    have hst := hi.over ht (by rw [he]; rfl)
    have hs := hi.seen ht
    right
    revert hs
    cases (run acts).thread with
    | clear g => cases g <;> simp [Seen, Live, Word.only, hst]
    | put g old => simp [Seen, Word.only, hst]
    | verify g old => cases g <;> simp [Seen, Word.only, hst]
    | _ => simp [Seen, Live, Word.only, hst]

/-- Assertions about states, and the one about threads which start early, fail only for threads which the watchdog has begun to tag as ghosts. For every schedule. -/
theorem abort_only_ghost (acts : List Act) (h : (run acts).aborted = true) : (run acts).tagged = true := (inv_run acts).aborted h

/-- Memory is not used after it was freed, for a thread which got initialized and which was not tagged as ghost. For every schedule. -/
theorem no_use_after_free_partial (acts : List Act) (hr : (run acts).ready = true) (ht : (run acts).tagged = false) : (run acts).misused = false := by
  cases hm : (run acts).misused with
  | false => rfl
  | true =>
    rcases (inv_run acts).misused hm with h | h
    · rw [ht] at h; cases h
    · rw [hr] at h; cases h

/-- Memory is not freed before the watchdog has ended, nor while the thread cleans up, unless it was tagged as ghost. -/
theorem free_after_stop (acts : List Act) (hf : (run acts).freed = true) (ht : (run acts).tagged = false) :
    (run acts).watchdog = .ended ∧ (run acts).word.stopped = true := by
  have hi := inv_run acts
  have he := (hi.free hf).2
  exact ⟨he, hi.over ht (by rw [he]; rfl)⟩

theorem thread_keeps_freed (c : Choice) (s : State) : (threadStep c s).freed = s.freed := by
  rcases s with ⟨⟩; unfold threadStep; dsimp only; repeat' split
  all_goals rfl

theorem cancel_keeps_freed (s : State) : (cancelStep s).freed = s.freed := by
  unfold cancelStep; repeat' split
  all_goals rfl

theorem watchdog_keeps_freed (l : Bool) (s : State) : (watchdogStep l s).freed = s.freed := by
  unfold watchdogStep; repeat' split
  all_goals rfl

theorem quit_keeps_freed (s : State) : (quitStep s).freed = s.freed := by
  unfold quitStep; repeat' split
  all_goals rfl

/-- Memory is not freed when the thread is tagged as ghost at that time. For every schedule. -/
theorem free_not_ghost (acts : List Act) (a : Act) (h0 : (run acts).freed = false) (h1 : (run (acts ++ [a])).freed = true) :
    (run acts).word.ghost = false ∧ (run acts).main = .destroy := by
  unfold run at *
  rw [List.foldl_append] at h1
  generalize List.foldl step {} acts = s at *
  simp only [List.foldl_cons, List.foldl_nil, step] at h1
  split at h1
  · rw [h0] at h1; cases h1
  · cases a with
    | thread c => exact absurd (thread_keeps_freed c s ▸ h1) (by rw [h0]; decide)
    | cancelled => exact absurd (cancel_keeps_freed s ▸ h1) (by rw [h0]; decide)
    | watchdog l => exact absurd (watchdog_keeps_freed l s ▸ h1) (by rw [h0]; decide)
    | quit => exact absurd (quit_keeps_freed s ▸ h1) (by rw [h0]; decide)
    | main =>
      cases hm : s.main with
      | destroy => simpa [mainStep, hm] using h1
      | _ =>
        simp only [mainStep, hm] at h1
        (repeat' split at h1) <;> (rw [h0] at h1; cases h1)

/-- A thread which is tagged as ghost, and does nothing meanwhile, is in no other state afterwards. -/
theorem ghost_only (acts : List Act) (l l' : Bool) (hw : (run acts).watchdog = .clear) (ha : (run acts).aborted = false) :
    (run (acts ++ [.watchdog l, .watchdog l'])).word =
      { (run acts).word with new := false, initialized := false, forked := false, stopped := false, ghost := true } := by
  unfold run at *
  rw [List.foldl_append]
  generalize List.foldl step {} acts = s at *
  simp [step, ha, watchdogStep, hw, Word.clear]

/-- From the start of a thread to its end: it forks, runs, is told to stop, cleans up, and memory is freed. -/
def ordinary : List Act :=
  [.main, .thread .go, .thread .go, .thread .go, .thread .go, .thread .go, .thread .go, .main, .main, .thread .go, .thread .go, .thread .go, .thread .go, .thread .go, .main, .main, .main,
   .watchdog false, .thread .go, .watchdog false, .watchdog false, .watchdog false, .quit, .main, .main, .thread .leave, .watchdog false, .watchdog false, .watchdog false,
   .thread .go, .thread .go, .thread .go, .thread .go, .watchdog false, .watchdog false, .watchdog false, .main, .main]

example : (run ordinary).freed = true ∧ (run ordinary).ready = true ∧ (run ordinary).tagged = false ∧ (run ordinary).misused = false ∧ (run ordinary).aborted = false ∧
    (run ordinary).thread = .ended ∧ Joined (run ordinary) := by unfold Joined; decide +kernel

example : (run ordinary.dropLast).freed = false ∧ (run (ordinary.dropLast ++ [.main])).freed = true := by decide +kernel

/-! ## The stop is heard and comes to an end -/

theorem threadStep_frame (c : Choice) (s : State) : (threadStep c s).watchdog = s.watchdog ∧ (threadStep c s).main = s.main ∧ (threadStep c s).watch = s.watch ∧
    ((threadStep c s).word = s.word ∨ (threadStep c s).word = s.word.clear ∨ ∃ g, (threadStep c s).word = s.word.put g) := by
  rcases s with ⟨w, t, wd, m, wt, ca, fr, ab, mi, re, ta⟩
  cases t <;> simp only [threadStep] <;> (try cases c) <;> (repeat' split) <;>
    refine ⟨by trivial, by trivial, by trivial, ?_⟩ <;>
    first
      | (simp; done)
      | exact .inr (.inr ⟨_, rfl⟩)

theorem cancelStep_frame (s : State) : (cancelStep s).watchdog = s.watchdog ∧ (cancelStep s).main = s.main ∧ (cancelStep s).watch = s.watch ∧ (cancelStep s).word = s.word := by
  unfold cancelStep
  (repeat' split) <;> simp

theorem quitStep_frame (s : State) : (quitStep s).watchdog = s.watchdog ∧ (quitStep s).watch = s.watch ∧ (quitStep s).word = s.word ∧ ((quitStep s).main = s.main ∨ (quitStep s).main = .stop) := by
  unfold quitStep
  (repeat' split) <;> simp

theorem watchdogStep_frame (l : Bool) (s : State) : (watchdogStep l s).main = s.main ∧ (watchdogStep l s).watch = s.watch := by
  rcases s with ⟨w, t, wd, m, wt, ca, fr, ab, mi, re, ta⟩
  cases wd <;> simp only [watchdogStep] <;> (repeat' split) <;> simp

theorem mainStep_frame (s : State) : (mainStep s).watchdog = s.watchdog ∧ (s.watch = true → (mainStep s).watch = true) := by
  rcases s with ⟨w, t, wd, m, wt, ca, fr, ab, mi, re, ta⟩
  cases m <;> simp only [mainStep] <;> (repeat' split) <;> simp

theorem step_stop {s : State} (a : Act) (h : s.word.start = true ∧ s.word.before = true ∧ s.word.after = true ∧ s.word.stop = true) :
    (step s a).word.start = true ∧ (step s a).word.before = true ∧ (step s a).word.after = true ∧ (step s a).word.stop = true := by
  obtain ⟨h1, h2, h3, h4⟩ := h
  have hp : ∀ g, (s.word.put g).start = true ∧ (s.word.put g).before = true ∧ (s.word.put g).after = true ∧ (s.word.put g).stop = true := by
    intro g; cases g <;> exact ⟨h1, h2, h3, h4⟩
  cases ha : s.aborted with
  | true => simp [step, ha, h1, h2, h3, h4]
  | false =>
    simp only [step, ha, Bool.false_eq_true, if_false]
    cases a with
    | thread c =>
      rcases (threadStep_frame c s).2.2.2 with e | e | ⟨g, e⟩ <;> rw [e]
      · exact ⟨h1, h2, h3, h4⟩
      · exact ⟨h1, h2, h3, h4⟩
      · exact hp g
    | cancelled => simp only [(cancelStep_frame s).2.2.2]; exact ⟨h1, h2, h3, h4⟩
    | watchdog l =>
      rcases s with ⟨w, t, wd, m, wt, ca, fr, ab, mi, re, ta⟩
      cases wd <;> simp only [watchdogStep] <;> (repeat' split) <;> first | exact ⟨h1, h2, h3, h4⟩ | simp_all
    | main =>
      rcases s with ⟨w, t, wd, m, wt, ca, fr, ab, mi, re, ta⟩
      cases m <;> simp only [mainStep] <;> (repeat' split) <;> first | exact ⟨h1, h2, h3, h4⟩ | (simp_all)
    | quit => simp only [(quitStep_frame s).2.2.1]; exact ⟨h1, h2, h3, h4⟩

def Main.told : Main → Bool
  | .stopWatchdog | .join | .destroy | .finished => true
  | _ => false

theorem told_signals (acts : List Act) : (run acts).main.told = true →
    (run acts).word.start = true ∧ (run acts).word.before = true ∧ (run acts).word.after = true ∧ (run acts).word.stop = true := by
  apply run_invariant (fun s => s.main.told = true → s.word.start = true ∧ s.word.before = true ∧ s.word.after = true ∧ s.word.stop = true)
  · intro h; cases h
  · intro s a hab ih h
    cases hm : s.main.told with
    | true => exact step_stop a (ih hm)
    | false =>
      simp only [step, hab, Bool.false_eq_true, if_false] at h ⊢
      cases a with
      | thread c => simp only [(threadStep_frame c s).2.1, hm] at h; cases h
      | cancelled => simp only [(cancelStep_frame s).2.1, hm] at h; cases h
      | watchdog l => simp only [(watchdogStep_frame l s).1, hm] at h; cases h
      | main =>
        rcases s with ⟨w, t, wd, m, wt, ca, fr, ab, mi, re, ta⟩
        revert h hm
        cases m <;> simp only [mainStep, Main.told] <;> (repeat' split) <;> simp_all
      | quit =>
        rcases (quitStep_frame s).2.2.2 with e | e
        · simp only [e, hm] at h; cases h
        · simp only [e] at h; cases h

/-- A thread which is told to stop is not left waiting for a signal to go on: whatever it waits for, its next turn takes it further. For every schedule. -/
theorem stop_heard (acts : List Act) (h : Joining (run acts)) (hw : Waits (run acts).thread) (hab : (run acts).aborted = false) (c : Choice) :
    ¬ Waits (step (run acts) (.thread c)).thread := by
  have ht := told_signals acts (by rw [h]; rfl)
  obtain ⟨h1, h2, h3, h4⟩ := ht
  simp only [step, hab, Bool.false_eq_true, if_false, threadStep]
  rcases hw with hw | hw | hw <;> simp [hw, h1, h2, h3, Waits]

example : Joining (run [.quit, .main, .main]) ∧ Waits (run [.quit, .main, .main]).thread ∧ (run [.quit, .main, .main]).aborted = false := by
  unfold Joining Waits; decide +kernel

/-- How far the watchdog is from its end, once the thread is told to stop. -/
def Watchdog.rank : Watchdog → Nat
  | .waitStart => 15 | .lookForked => 14 | .lookInitialized => 13 | .lookTime => 12 | .lookStop => 11 | .checkStopped => 10 | .signal => 9 | .waitStopped => 8 | .waitCancelled => 7
  | .clear => 6 | .put _ => 5 | .verify _ => 4 | .finish => 3 | .ended => 0

theorem rank_step (s : State) (a : Act) (hst : s.word.stop = true) (hw : s.watch = true) (hab : (step s a).aborted = false) :
    (step s a).watchdog.rank ≤ s.watchdog.rank ∧ (a = .watchdog true → (step s a).watchdog.rank ≤ s.watchdog.rank - 1) := by
  have hb : s.aborted = false := by
    cases h : s.aborted with
    | false => rfl
    | true => simp [step, h] at hab
  simp only [step, hb, Bool.false_eq_true, if_false] at hab ⊢
  cases a with
  | thread c => simp [(threadStep_frame c s).1]
  | cancelled => simp [(cancelStep_frame s).1]
  | main => simp [(mainStep_frame s).1]
  | quit => simp [(quitStep_frame s).1]
  | watchdog l =>
    revert hab
    rcases s with ⟨w, t, wd, m, wt, ca, fr, ab, mi, re, ta⟩
    simp only at hst hw hb
    subst hw hb
    cases wd <;> simp only [watchdogStep, hst] <;> (repeat' split) <;> simp_all [Watchdog.rank]

theorem step_watch {s : State} (a : Act) (h : s.watch = true) : (step s a).watch = true := by
  unfold step
  split
  · exact h
  · cases a with
    | thread c => exact (threadStep_frame c s).2.2.1.trans h
    | cancelled => exact (cancelStep_frame s).2.2.1.trans h
    | watchdog l => exact (watchdogStep_frame l s).2.trans h
    | main => exact (mainStep_frame s).2 h
    | quit => exact (quitStep_frame s).2.1.trans h

theorem foldl_aborted (acts : List Act) : ∀ s : State, s.aborted = true → (acts.foldl step s).aborted = true := by
  induction acts with
  | nil => exact fun s h => h
  | cons a l ih =>
    intro s h
    apply ih
    simp [step, h]

theorem rank_run (more : List Act) : ∀ s : State, s.word.start = true ∧ s.word.before = true ∧ s.word.after = true ∧ s.word.stop = true → s.watch = true →
    (more.foldl step s).aborted = true ∨ (more.foldl step s).watchdog.rank ≤ s.watchdog.rank - lateTurns more := by
  induction more with
  | nil => intro s _ _; right; simp [lateTurns]
  | cons a l ih =>
    intro s hs hw
    cases hab : (step s a).aborted with
    | true => exact .inl (foldl_aborted l _ hab)
    | false =>
      have hr := rank_step s a hs.2.2.2 hw hab
      rcases ih (step s a) (step_stop a hs) (step_watch a hw) with h | h
      · exact .inl h
      · right
        simp only [List.foldl_cons]
        have : lateTurns (a :: l) = lateTurns l + if a = .watchdog true then 1 else 0 := by
          unfold lateTurns; rw [List.countP_cons]; simp
        rw [this]
        split
        · next e => have := hr.2 e; omega
        · have := hr.1; omega

theorem joining_watch (acts : List Act) : Joining (run acts) → (run acts).watch = true := by
  apply run_invariant (fun s => s.main = .join → s.watch = true)
  · intro h; cases h
  · intro s a hab ih h
    by_cases hm : s.main = .join
    · exact step_watch a (ih hm)
    · simp only [step, hab, Bool.false_eq_true, if_false] at h ⊢
      cases a with
      | thread c => exact absurd ((threadStep_frame c s).2.1.symm.trans h) hm
      | cancelled => exact absurd ((cancelStep_frame s).2.1.symm.trans h) hm
      | watchdog l => exact absurd ((watchdogStep_frame l s).1.symm.trans h) hm
      | main =>
        rcases s with ⟨w, t, wd, m, wt, ca, fr, ab, mi, re, ta⟩
        revert h hm
        cases m <;> simp only [mainStep] <;> (repeat' split) <;> simp_all
      | quit =>
        rcases (quitStep_frame s).2.2.2 with e | e
        · exact absurd (e.symm.trans h) hm
        · rw [e] at h; cases h

/-- Stopping comes to an end even if the thread hangs: once everyone is told to stop, fifteen turns of the watchdog where the time has come are enough, whatever the thread does or does not do. For
every schedule. -/
theorem stop_ends (acts more : List Act) (h : Joining (run acts)) (hm : 15 ≤ lateTurns more) :
    (run (acts ++ more)).aborted = true ∨ (run (acts ++ more)).watchdog = .ended := by
  have := rank_run more (run acts) (told_signals acts (by rw [h]; rfl)) (joining_watch acts h)
  unfold run at *
  rw [List.foldl_append]
  rcases this with h' | h'
  · exact .inl h'
  · right
    have hb : ∀ wd : Watchdog, wd.rank ≤ 15 := by intro wd; cases wd <;> simp [Watchdog.rank]
    have hz : ∀ wd : Watchdog, wd.rank = 0 → wd = .ended := by intro wd; cases wd <;> simp [Watchdog.rank]
    apply hz
    have := hb (acts.foldl step {}).watchdog
    omega

example : Joining (run [.main, .thread .go, .thread .go, .quit, .main, .main]) ∧ 15 ≤ lateTurns (List.replicate 15 (.watchdog true)) ∧
    (run ([.main, .thread .go, .thread .go, .quit, .main, .main] ++ List.replicate 15 (.watchdog true))).word.ghost = true := by
  unfold Joining; decide +kernel

/-! ## Where it goes wrong -/

/-- A thread which is up and running. -/
def upRunning : List Act :=
  [.main, .thread .go, .thread .go, .thread .go, .thread .go, .thread .go, .thread .go, .main, .main, .thread .go, .thread .go, .thread .go, .thread .go, .thread .go, .main, .main, .main,
   .watchdog false, .thread .go]

example : (run upRunning).thread = .running ∧ (run upRunning).main = .up ∧ (run upRunning).watchdog = .lookStop := by decide +kernel

/-- The thread is told to stop, does not answer and is tagged as ghost. -/
def untilGhost : List Act := upRunning ++ [.quit, .main, .main] ++ List.replicate 10 (.watchdog true)

example : (run (upRunning ++ [.quit, .main, .main] ++ List.replicate 5 (.watchdog true))).watchdog = .clear ∧
    (run (upRunning ++ [.quit, .main, .main] ++ List.replicate 5 (.watchdog true))).aborted = false := by decide +kernel

/-- A ghost which wakes up and stops makes the program abort: the state `STOPPED` is set with the state `GHOST` in place, and an assertion fails. -/
theorem ghost_wakes_aborts : (run (untilGhost ++ [.thread .leave, .thread .go, .thread .go, .thread .go])).aborted = false ∧
    (run (untilGhost ++ [.thread .leave, .thread .go, .thread .go, .thread .go, .thread .go])).aborted = true := by decide +kernel

/-- A thread which stops just when the watchdog gives up makes the program abort although all went well: the watchdog sees that it is not stopped, the thread stops, and then the watchdog sets `GHOST`. -/
theorem stop_when_tagged_aborts : ∃ acts, (run (acts ++ [.thread .go])).thread = .ended ∧ (run (acts ++ [.thread .go])).word.stopped = true ∧ (run (acts ++ [.thread .go])).tagged = false ∧
    (run (acts ++ [.thread .go] ++ [.watchdog true, .watchdog true, .watchdog true])).aborted = true :=
  ⟨upRunning ++ [.quit, .main, .main] ++ List.replicate 5 (.watchdog true) ++ [.thread .leave, .thread .go, .thread .go, .thread .go], by decide +kernel⟩

/-- A thread which is stopped before it was initialized reads its name, for a warning, after it has set `STOPPED`. By then its memory may be freed. -/
theorem use_after_free_not_initialized : ∃ acts, (run acts).misused = true ∧ (run acts).tagged = false ∧ (run acts).aborted = false :=
  ⟨[.quit, .main, .main, .thread .go, .thread .go, .thread .go, .thread .go, .thread .go, .watchdog false, .watchdog false, .watchdog false, .watchdog false, .main, .main, .thread .go, .thread .go],
   by decide +kernel⟩

/-- Memory of a ghost is freed, if it wakes up when memory is to be freed: for a moment there is no state at all. The ghost then writes to what has been freed. -/
theorem use_after_free_ghost : ∃ acts, (run acts).misused = true ∧ (run acts).ready = true ∧ (run acts).aborted = false :=
  ⟨untilGhost ++ [.watchdog true, .thread .leave, .thread .go, .thread .go, .main, .main, .thread .go], by decide +kernel⟩

/-! ## Threads which are well are left alone -/

theorem run_invariant_on (ok : Act → Prop) (P : State → Prop) (h0 : P {}) (hs : ∀ s a, s.aborted = false → ok a → P s → P (step s a)) (acts : List Act) (ha : ∀ a ∈ acts, ok a) : P (run acts) := by
  have : ∀ (acts : List Act) (s : State), (∀ a ∈ acts, ok a) → P s → P (acts.foldl step s) := by
    intro acts
    induction acts with
    | nil => exact fun s _ h => h
    | cons a l ih =>
      intro s hl h
      apply ih _ (fun b hb => hl b (List.mem_cons_of_mem _ hb))
      cases hb : s.aborted with
      | false => exact hs s a hb (hl a List.mem_cons_self) h
      | true => simpa [step, hb] using h
  exact this acts {} ha h0

/-- The watchdog only looks. -/
def Watchdog.looks : Watchdog → Bool
  | .waitStart | .lookStop | .lookForked | .lookTime => true
  | _ => false

def Main.later : Main → Bool
  | .signalAfter | .signalWatchdog | .up => true
  | _ => false

structure Alone (s : State) : Prop where
  main : s.main.alone = true ∨ s.main = .up
  aboard : s.watch = true → s.main.later = true
  ok : Left s.thread ∨ (s.watchdog.looks = true ∧ s.word.stop = false ∧ s.cancel = false ∧ s.tagged = false ∧ (s.main.later = true → s.word.forked = true))

theorem left_thread {s : State} (c : Choice) : Left s.thread → Left (threadStep c s).thread := by
  rcases s with ⟨w, t, wd, m, wt, ca, fr, ab, mi, re, ta⟩
  intro h
  cases t with
  | clear g => exact h
  | put g old => exact h
  | verify g old =>
    simp only [threadStep]
    split
    · rcases h with h | h <;> subst h
      · trivial
      · simp only [afterVerify]; split <;> trivial
    · exact h
  | stopping => cases c <;> trivial
  | cleanup => exact .inr rfl
  | report => trivial
  | ended => trivial
  | _ => exact h.elim

theorem left_cancel {s : State} : Left s.thread → Left (cancelStep s).thread := by
  intro h
  unfold cancelStep
  (repeat' split) <;> first | exact h | trivial

/-- A thread which has not left and is in the last state goes on without changes to it. -/
theorem forked_thread {s : State} (c : Choice) (hs : Seen s.word s.ready s.thread) (hf : s.word.forked = true) (hl : ¬ Left s.thread) :
    (threadStep c s).word = s.word := by
  rcases s with ⟨w, t, wd, m, wt, ca, fr, ab, mi, re, ta⟩
  cases t with
  | clear g => cases g <;> simp_all [Seen, Word.only, Left]
  | put g old => cases g <;> simp_all [Seen, Word.only, Left]
  | verify g old => simp only [threadStep]; split <;> rfl
  | _ => simp only [threadStep] <;> (try cases c) <;> (repeat' split) <;> rfl

theorem threadStep_keeps (c : Choice) (s : State) : (threadStep c s).word.stop = s.word.stop ∧ (threadStep c s).cancel = s.cancel ∧ (threadStep c s).tagged = s.tagged := by
  have hp : ∀ (w : Word) (g : Goal), (w.put g).stop = w.stop := by intro w g; cases g <;> rfl
  rcases s with ⟨w, t, wd, m, wt, ca, fr, ab, mi, re, ta⟩
  cases t <;> simp only [threadStep] <;> (try cases c) <;> (repeat' split) <;> simp [hp, Word.clear]

theorem alone_step (s : State) (a : Act) (hab : s.aborted = false) (hok : a ≠ .quit ∧ a ≠ .watchdog true) (h : Inv s ∧ Alone s) : Inv (step s a) ∧ Alone (step s a) := by
  refine ⟨inv_step s a hab h.1, ?_⟩
  obtain ⟨hi, ⟨hm, hb, hk⟩⟩ := h
  simp only [step, hab, Bool.false_eq_true, if_false]
  cases a with
  | quit => exact absurd rfl hok.1
  | thread c =>
    obtain ⟨f1, f2, f3, _⟩ := threadStep_frame c s
    obtain ⟨k1, k2, k3⟩ := threadStep_keeps c s
    refine ⟨by rw [f2]; exact hm, by rw [f2, f3]; exact hb, ?_⟩
    rcases Classical.em (Left s.thread) with hl | hl
    · exact .inl (left_thread c hl)
    · rcases hk with hk | ⟨g1, g2, g3, g4, g5⟩
      · exact absurd hk hl
      · right
        rw [f1, f2, k1, k2, k3]
        refine ⟨g1, g2, g3, g4, fun hlt => ?_⟩
        rw [forked_thread c (hi.seen g4) (g5 hlt) hl]
        exact g5 hlt
  | cancelled =>
    obtain ⟨f1, f2, f3, f4⟩ := cancelStep_frame s
    refine ⟨by rw [f2]; exact hm, by rw [f2, f3]; exact hb, ?_⟩
    rcases hk with hk | hk
    · exact .inl (left_cancel hk)
    · right
      have : cancelStep s = s := by simp [cancelStep, hk.2.2.1]
      rw [this]; exact hk
  | watchdog l =>
    have hl : l = false := by cases l <;> simp_all
    subst hl
    obtain ⟨f1, f2⟩ := watchdogStep_frame false s
    refine ⟨by rw [f1]; exact hm, by rw [f1, f2]; exact hb, ?_⟩
    have ft : (watchdogStep false s).thread = s.thread := by
      rcases s with ⟨w, t, wd, m, wt, ca, fr, ab, mi, re, ta⟩
      cases wd <;> simp only [watchdogStep] <;> (repeat' split) <;> simp
    rw [ft]
    rcases hk with hk | ⟨g1, g2, g3, g4, g5⟩
    · exact .inl hk
    · right
      have hw : s.watchdog ≠ .waitStart → s.word.forked = true := by
        intro hne
        apply g5
        apply hb
        cases hx : s.watch with
        | true => rfl
        | false => exact absurd (hi.watch hx) hne
      clear hi hb hm hok f1 f2 ft
      rcases s with ⟨w, t, wd, m, wt, ca, fr, ab, mi, re, ta⟩
      simp only at g1 g2 g3 g4 g5 hw
      cases wd <;> simp only [watchdogStep] <;> simp only [Watchdog.looks] at g1 <;> first | (cases g1; done) | ((repeat' split) <;> simp_all [Watchdog.looks])
  | main =>
    rcases Classical.em (Left s.thread) with hl | hl
    · have ft : (mainStep s).thread = s.thread := by
        rcases s with ⟨w, t, wd, m, wt, ca, fr, ab, mi, re, ta⟩
        cases m <;> simp only [mainStep] <;> (repeat' split) <;> simp
      refine ⟨?_, ?_, .inl (by rw [ft]; exact hl)⟩
      · rcases s with ⟨w, t, wd, m, wt, ca, fr, ab, mi, re, ta⟩
        clear hi
        cases m <;> simp only [mainStep] <;> (repeat' split) <;> simp_all [Main.alone]
      · rcases s with ⟨w, t, wd, m, wt, ca, fr, ab, mi, re, ta⟩
        clear hi
        cases m <;> simp only [mainStep] <;> (repeat' split) <;> simp_all [Main.alone, Main.later]
    · rcases hk with hk | ⟨g1, g2, g3, g4, g5⟩
      · exact absurd hk hl
      · have hs := hi.seen g4
        have hst : s.word.stopped = false := by
          revert hs hl
          cases s.thread with
          | clear g => cases g <;> simp +contextual [Seen, Live, Word.only, Left]
          | put g old => simp +contextual [Seen, Word.only]
          | verify g old => cases g <;> simp +contextual [Seen, Word.only, Left]
          | _ => simp +contextual [Seen, Live, Word.only, Left]
        clear hs hi
        rcases s with ⟨w, t, wd, m, wt, ca, fr, ab, mi, re, ta⟩
        simp only at *
        cases m <;> simp only [mainStep] <;> (repeat' split) <;> constructor <;> simp_all [Main.alone, Main.later]

/-- A thread is not told to stop, is not cancelled and is not tagged as ghost as long as it does not leave by itself, is not found to be frozen, and nobody stops the program. This includes the
start, where the state changes while the watchdog may look. For every such schedule. -/
theorem well_left_alone (acts : List Act) (h : ∀ a ∈ acts, a ≠ .quit ∧ a ≠ .watchdog true) (hl : ¬ Left (run acts).thread) :
    (run acts).word.stop = false ∧ (run acts).cancel = false ∧ (run acts).tagged = false ∧ (run acts).aborted = false := by
  have hr := run_invariant_on (fun a => a ≠ .quit ∧ a ≠ .watchdog true) (fun s => Inv s ∧ Alone s) ⟨inv_init, by constructor <;> simp [Main.alone, Main.later, Watchdog.looks]⟩ alone_step acts h
  rcases hr.2.ok with h' | h'
  · exact absurd h' hl
  · refine ⟨h'.2.1, h'.2.2.1, h'.2.2.2.1, ?_⟩
    cases hab : (run acts).aborted with
    | false => rfl
    | true => have := hr.1.aborted hab; rw [h'.2.2.2.1] at this; cases this

example : (∀ a ∈ upRunning, a ≠ .quit ∧ a ≠ .watchdog true) ∧ (run upRunning).thread = .running := by decide +kernel

end Verif.Threads
