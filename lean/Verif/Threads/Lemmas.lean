import Verif.Threads.Model

/-!
# What holds in every state which can be reached
-/
namespace Verif.Threads

theorem run_invariant (P : State → Prop) (h0 : P {}) (hs : ∀ s a, s.aborted = false → P s → P (step s a)) (acts : List Act) : P (run acts) := by
  have : ∀ (acts : List Act) (s : State), P s → P (acts.foldl step s) := by
    intro acts
    induction acts with
    | nil => exact fun s h => h
    | cons a l ih =>
      intro s h
      apply ih
      cases hb : s.aborted with
      | false => exact hs s a hb h
      | true => simpa [step, hb] using h
  exact this acts {} h0

/-- Only one state at a time. -/
def Word.only (w : Word) (new stopped initialized forked : Bool) : Prop :=
  w.new = new ∧ w.stopped = stopped ∧ w.initialized = initialized ∧ w.forked = forked ∧ w.ghost = false

/-- A state from which a thread may stop. -/
def Live (w : Word) (ready : Bool) : Prop :=
  (ready = false ∧ w.only true false false false) ∨ (ready = true ∧ (w.only false false true false ∨ w.only false false false true))

/-- What was there when a new state was set. -/
def Old (old : Word) (ready : Bool) : Goal → Prop
  | .initialized => old.only true false false false ∧ old.start = true ∧ ready = false
  | .forked => old.only false false true false ∧ old.start = true ∧ ready = true
  | .stopping => old.only false false false true ∧ old.start = true ∧ ready = true
  | .stopped => Live old ready ∧ old.start = true

/-- The state which is seen, when the thread is not tagged as ghost. -/
def Seen (w : Word) (ready : Bool) : Thread → Prop
  | .waitInit => w.only true false false false ∧ ready = false
  | .checkStop | .init | .clear .initialized => w.only true false false false ∧ w.start = true ∧ ready = false
  | .waitBefore | .forking | .clear .forked => w.only false false true false ∧ w.start = true ∧ ready = true
  | .waitAfter | .running | .stopping | .clear .stopping => w.only false false false true ∧ w.start = true ∧ ready = true
  | .cleanup | .clear .stopped => Live w ready ∧ w.start = true
  | .put g old => w.only false false false false ∧ w.start = true ∧ Old old ready g
  | .verify .initialized old => w.only false false true false ∧ w.start = true ∧ ready = true ∧ Old old false .initialized
  | .verify .forked old => w.only false false false true ∧ w.start = true ∧ Old old ready .forked
  | .verify .stopping old => w.only false false false true ∧ w.start = true ∧ Old old ready .stopping
  | .verify .stopped old => w.only false true false false ∧ w.start = true ∧ Old old ready .stopped
  | .report => w.only false true false false ∧ w.start = true ∧ ready = false
  | .ended => w.only false true false false ∧ w.start = true

/-- The thread has been told to go on to fork. -/
def Forks : Thread → Prop
  | .forking | .clear .forked | .put .forked _ | .verify .forked _ | .waitAfter | .running | .stopping
  | .clear .stopping | .put .stopping _ | .verify .stopping _ => True
  | _ => False

def Watchdog.over : Watchdog → Bool
  | .finish | .ended => true
  | _ => false

def Watchdog.tags : Watchdog → Bool
  | .put _ | .verify _ => true
  | _ => false

/-- The main thread has not asked the thread to fork. -/
def Main.early : Main → Bool
  | .signalInit | .waitInit | .signalBefore => true
  | _ => false

/-- The main thread has not started the watchdog. -/
def Main.alone : Main → Bool
  | .signalInit | .waitInit | .signalBefore | .waitForked | .signalAfter | .signalWatchdog => true
  | _ => false

/-- The main thread has given the first signal. -/
def Main.begun : Main → Bool
  | .signalInit | .stop => false
  | _ => true

structure Inv (s : State) : Prop where
  seen : s.tagged = false → Seen s.word s.ready s.thread
  asked : s.main.early = true → s.word.before = false ∧ s.word.forked = false
  forks : s.tagged = false → Forks s.thread → s.word.before = true
  alone : s.main.alone = true → s.watch = false ∧ s.tagged = false
  watch : s.watch = false → s.watchdog = .waitStart
  over : s.tagged = false → s.watchdog.over = true → s.word.stopped = true
  tags : s.watchdog.tags = true → s.tagged = true
  free : s.freed = true → s.main = .finished ∧ s.watchdog = .ended
  done : s.main = .destroy → s.watchdog = .ended
  finished : s.main = .finished → s.watchdog = .ended
  aborted : s.aborted = true → s.tagged = true
  misused : s.misused = true → s.tagged = true ∨ s.ready = false
  begun : s.main.begun = true → s.word.start = true
  watched : s.watch = true → s.word.start = true
  cancels : s.cancel = true → s.watch = true
  /-- Once it has been used after it was freed, a thread is at its end or a ghost. -/
  misusedEnd : s.misused = true → s.tagged = true ∨ s.thread = .report ∨ s.thread = .ended

theorem seen_keep {w : Word} {re : Bool} {t : Thread} (w' : Word)
    (h : w'.new = w.new ∧ w'.stopped = w.stopped ∧ w'.initialized = w.initialized ∧ w'.forked = w.forked ∧ w'.ghost = w.ghost)
    (hst : w.start = true → w'.start = true) : Seen w re t → Seen w' re t := by
  obtain ⟨e1, e2, e3, e4, e5⟩ := h
  have eo : ∀ a b c d, w'.only a b c d = w.only a b c d := by intro a b c d; simp only [Word.only, e1, e2, e3, e4, e5]
  have el : Live w' re = Live w re := by simp only [Live, eo]
  unfold Seen
  split <;> simp only [eo, el] <;> simp +contextual [hst]

/-- When memory has been freed, a thread which is not a ghost does nothing but return. -/
theorem freed_end {s : State} (h : Inv s) (hf : s.freed = true) (ht : s.tagged = false) :
    (∃ old, s.thread = .verify .stopped old) ∨ s.thread = .report ∨ s.thread = .ended := by
  have h1 := h.seen ht
  have h2 := h.over ht (by rw [(h.free hf).2]; rfl)
  revert h1
  cases s.thread with
  | clear g => cases g <;> simp [Seen, Live, Word.only, h2]
  | put g old => simp [Seen, Word.only, h2]
  | verify g old => cases g <;> simp [Seen, Word.only, h2]
  | _ => simp [Seen, Live, Word.only, h2]

theorem inv_init : Inv {} := by
  constructor <;> simp [Seen, Word.only, Forks, Main.early, Main.alone, Watchdog.over, Watchdog.tags, Main.begun]

theorem inv_quit {s : State} (h : Inv s) (ha : s.aborted = false) : Inv (quitStep s) := by
  obtain ⟨h1, h2, h3, h4, h5, h6, h7, h8, h9, h10, h11, h12, h14, h15, h16, h13⟩ := h
  rcases s with ⟨w, t, wd, m, wt, ca, fr, ab, mi, re, ta⟩
  cases m <;> constructor <;> simp_all [quitStep, Main.early, Main.alone, Main.begun]

theorem inv_main {s : State} (h : Inv s) (ha : s.aborted = false) : Inv (mainStep s) := by
  obtain ⟨h1, h2, h3, h4, h5, h6, h7, h8, h9, h10, h11, h12, h14, h15, h16, h13⟩ := h
  rcases s with ⟨w, t, wd, m, wt, ca, fr, ab, mi, re, ta⟩
  cases m
  case signalInit =>
    have hs := seen_keep (re := re) (t := t) (w := w) { w with start := true } ⟨rfl, rfl, rfl, rfl, rfl⟩ (fun _ => rfl)
    constructor <;> simp_all [mainStep, Main.early, Main.alone, Main.begun]
  case signalBefore =>
    have hs := seen_keep (re := re) (t := t) (w := w) { w with before := true } ⟨rfl, rfl, rfl, rfl, rfl⟩ id
    constructor <;> simp_all [mainStep, Main.early, Main.alone, Main.begun]
  case signalAfter =>
    have hs := seen_keep (re := re) (t := t) (w := w) { w with after := true } ⟨rfl, rfl, rfl, rfl, rfl⟩ id
    constructor <;> simp_all [mainStep, Main.early, Main.alone, Main.begun]
  case stop =>
    have hs := seen_keep (re := re) (t := t) (w := w) { w with start := true, before := true, after := true, stop := true } ⟨rfl, rfl, rfl, rfl, rfl⟩ (fun _ => rfl)
    constructor <;> simp_all [mainStep, Main.early, Main.alone, Main.begun]
  case waitInit =>
    cases hi : w.initialized || w.stopped <;> constructor <;> simp_all [mainStep, Main.early, Main.alone, Main.begun]
  case waitForked =>
    cases hi : w.forked || w.stopped <;> constructor <;> simp_all [mainStep, Main.early, Main.alone, Main.begun]
  case join =>
    by_cases hi : wd = .ended <;> constructor <;> simp_all [mainStep, Main.early, Main.alone, Main.begun]
  all_goals constructor <;> simp_all [mainStep, Main.early, Main.alone, Main.begun]

set_option maxHeartbeats 2000000 in
theorem inv_watchdog {s : State} (h : Inv s) (ha : s.aborted = false) (late : Bool) : Inv (watchdogStep late s) := by
  obtain ⟨h1, h2, h3, h4, h5, h6, h7, h8, h9, h10, h11, h12, h14, h15, h16, h13⟩ := h
  rcases s with ⟨w, t, wd, m, wt, ca, fr, ab, mi, re, ta⟩
  have keep := seen_keep (re := re) (t := t) (w := w) { w with stop := true } ⟨rfl, rfl, rfl, rfl, rfl⟩ id
  cases wd
  case waitStart => cases wt <;> constructor <;> simp_all [watchdogStep, Watchdog.over, Watchdog.tags]
  case lookStop => cases hw : w.stop <;> constructor <;> simp_all [watchdogStep, Watchdog.over, Watchdog.tags]
  case lookForked => cases hw : w.forked <;> constructor <;> simp_all [watchdogStep, Watchdog.over, Watchdog.tags]
  case lookInitialized => cases hw : w.initialized <;> constructor <;> simp_all [watchdogStep, Watchdog.over, Watchdog.tags]
  case lookTime => cases late <;> constructor <;> simp_all [watchdogStep, Watchdog.over, Watchdog.tags]
  case checkStopped => cases hw : w.stopped <;> constructor <;> simp_all [watchdogStep, Watchdog.over, Watchdog.tags]
  case signal => constructor <;> simp_all [watchdogStep, Watchdog.over, Watchdog.tags]
  case waitStopped => cases hw : w.stopped <;> cases late <;> constructor <;> simp_all [watchdogStep, Watchdog.over, Watchdog.tags]
  case waitCancelled => cases hw : w.stopped <;> cases late <;> constructor <;> simp_all [watchdogStep, Watchdog.over, Watchdog.tags]
  case clear => constructor <;> simp_all [watchdogStep, Watchdog.over, Watchdog.tags, Word.clear]
  case put old => constructor <;> simp_all [watchdogStep, Watchdog.over, Watchdog.tags]
  case verify old => cases hw : old.ghost || old.stopped <;> constructor <;> simp_all [watchdogStep, Watchdog.over, Watchdog.tags]
  case finish => constructor <;> simp_all [watchdogStep, Watchdog.over, Watchdog.tags]
  case ended => constructor <;> simp_all [watchdogStep, Watchdog.over, Watchdog.tags]

set_option maxHeartbeats 2000000 in
theorem inv_cancel {s : State} (h : Inv s) (ha : s.aborted = false) : Inv (cancelStep s) := by
  cases hf : s.freed && !s.tagged with
  | true =>
    rw [Bool.and_eq_true, Bool.not_eq_true'] at hf
    rcases freed_end h hf.1 hf.2 with ⟨old, e⟩ | e | e <;> simpa [cancelStep, e] using h
  | false =>
    obtain ⟨h1, h2, h3, h4, h5, h6, h7, h8, h9, h10, h11, h12, h14, h15, h16, h13⟩ := h
    rcases s with ⟨w, t, wd, m, wt, ca, fr, ab, mi, re, ta⟩
    cases ca
    · constructor <;> simp_all [cancelStep]
    · cases ta
      · cases t <;> constructor <;> simp_all [cancelStep, Forks, Seen, Live, Word.only]
      · cases t <;> constructor <;> simp_all [cancelStep]

set_option maxHeartbeats 2000000 in
theorem inv_thread_tagged {s : State} (h : Inv s) (ha : s.aborted = false) (ht : s.tagged = true) (c : Choice) : Inv (threadStep c s) := by
  obtain ⟨h1, h2, h3, h4, h5, h6, h7, h8, h9, h10, h11, h12, h14, h15, h16, h13⟩ := h
  have hm : s.main.alone = false := by cases hm : s.main.alone <;> simp_all
  have he : s.main.early = false := by revert hm; cases s.main <;> simp [Main.alone, Main.early]
  have hst : ∀ (g : Goal) (w : Word), (w.put g).start = w.start := by intro g w; cases g <;> rfl
  rcases s with ⟨w, t, wd, m, wt, ca, fr, ab, mi, re, ta⟩
  simp only at ht
  subst ht
  clear h1 h3 h6 h12 h13
  have key : ∀ (w' : Word) (t' : Thread) (ab' mi' re' : Bool), w'.start = w.start → Inv ⟨w', t', wd, m, wt, ca, fr, ab', mi', re', true⟩ := by
    intro w' t' ab' mi' re' e
    constructor <;> simp_all
  unfold threadStep
  cases t
  case init => cases c <;> exact key _ _ _ _ _ rfl
  case forking => cases c <;> exact key _ _ _ _ _ rfl
  case running => cases c <;> exact key _ _ _ _ _ rfl
  case stopping => cases c <;> exact key _ _ _ _ _ rfl
  case waitInit => cases hw : w.start <;> simp only [hw] <;> exact key _ _ _ _ _ rfl
  case checkStop => cases hw : w.stop <;> simp only [hw] <;> exact key _ _ _ _ _ rfl
  case waitBefore => cases hw : w.before <;> simp only [hw] <;> exact key _ _ _ _ _ rfl
  case waitAfter => cases hw : w.after <;> simp only [hw] <;> exact key _ _ _ _ _ rfl
  case verify g old => cases hw : verified old g <;> simp only [hw] <;> exact key _ _ _ _ _ rfl
  case put g old => exact key _ _ _ _ _ (hst g w)
  all_goals exact key _ _ _ _ _ rfl

theorem verified_old {old : Word} {re : Bool} {g : Goal} (h : Old old re g) : verified old g = true := by
  rcases old with ⟨a, b, c, d, e, f, g', i, j⟩
  cases g <;> simp [Old, Live, Word.only] at h <;> simp [verified, Word.put] <;> grind

set_option maxHeartbeats 2000000 in
theorem inv_thread_freed {s : State} (h : Inv s) (ha : s.aborted = false) (ht : s.tagged = false) (hf : s.freed = true) (c : Choice) : Inv (threadStep c s) := by
  have he := freed_end h hf ht
  obtain ⟨h1, h2, h3, h4, h5, h6, h7, h8, h9, h10, h11, h12, h14, h15, h16, h13⟩ := h
  rcases s with ⟨w, t, wd, m, wt, ca, fr, ab, mi, re, ta⟩
  simp only at ht hf
  subst ht hf
  rcases he with ⟨old, e⟩ | e | e
  · simp only at e
    subst e
    have hv : verified old .stopped = true := verified_old (h1 rfl).2.2
    have hl := (h1 rfl).2.2.1
    unfold threadStep
    simp only [hv, if_true, afterVerify]
    cases hx : !old.forked && !old.initialized
    · constructor <;> simp_all [Thread.uses, Seen, Forks]
    · have : re = false := by
        rcases hl with hl | hl
        · exact hl.1
        · obtain ⟨_, hl | hl⟩ := hl <;> simp_all [Word.only]
      constructor <;> simp_all [Thread.uses, Seen, Forks]
  · simp only at e
    subst e
    unfold threadStep
    constructor <;> simp_all [Thread.uses, Seen, Forks]
  · simp only at e
    subst e
    unfold threadStep
    constructor <;> simp_all [Thread.uses, Seen, Forks]

theorem inv_live_of {w w' : Word} {t t' : Thread} {wd : Watchdog} {m : Main} {wt ca mi mi' re re' : Bool} (h : Inv ⟨w, t, wd, m, wt, ca, false, false, mi, re, false⟩)
    (e1 : Seen w' re' t') (e2 : w.before = false → w.forked = false → w'.forked = false)
    (e3 : Forks t' → w'.before = true) (e4 : w.stopped = true → w'.stopped = true) (e5 : w'.start = w.start) (e6 : w'.before = w.before)
    (e7 : mi' = true → re' = false ∧ (t' = .report ∨ t' = .ended)) : Inv ⟨w', t', wd, m, wt, ca, false, false, mi', re', false⟩ := by
  obtain ⟨h1, h2, h3, h4, h5, h6, h7, h8, h9, h10, h11, h12, h14, h15, h16, h13⟩ := h
  exact ⟨fun _ => e1, fun he => ⟨e6.trans (h2 he).1, e2 (h2 he).1 (h2 he).2⟩, fun _ => e3, h4, h5, fun _ ho => e4 (h6 rfl ho), h7, (by simp), h9, h10, (by simp),
    fun hm => .inr (e7 hm).1, fun hb => e5.trans (h14 hb), fun hb => e5.trans (h15 hb), h16, fun hm => .inr (e7 hm).2⟩

theorem inv_thread_live {s : State} (h : Inv s) (ha : s.aborted = false) (ht : s.tagged = false) (hf : s.freed = false) (c : Choice) : Inv (threadStep c s) := by
  rcases s with ⟨w, t, wd, m, wt, ca, fr, ab, mi, re, ta⟩
  simp only at ht hf ha
  subst ht hf ha
  have hs : Seen w re t := h.seen rfl
  have hmi : mi = true → re = false ∧ (t = .report ∨ t = .ended) := by
    intro hm
    have a := h.misused hm
    have b := h.misusedEnd hm
    simp at a b
    exact ⟨a, b⟩
  have hfk : Forks t → w.before = true := h.forks rfl
  unfold threadStep
  cases t
  case waitInit => cases hw : w.start <;> simp only [hw] <;> refine inv_live_of h ?_ ?_ ?_ ?_ ?_ ?_ ?_ <;> clear h <;> simp_all [Seen, Forks]
  case checkStop => cases hw : w.stop <;> simp only [hw] <;> refine inv_live_of h ?_ ?_ ?_ ?_ ?_ ?_ ?_ <;> clear h <;> simp_all [Seen, Forks, Live]
  case init => cases c <;> refine inv_live_of h ?_ ?_ ?_ ?_ ?_ ?_ ?_ <;> clear h <;> simp_all [Seen, Forks, Live]
  case waitBefore => cases hw : w.before <;> simp only [hw] <;> refine inv_live_of h ?_ ?_ ?_ ?_ ?_ ?_ ?_ <;> clear h <;> simp_all [Seen, Forks]
  case forking => cases c <;> refine inv_live_of h ?_ ?_ ?_ ?_ ?_ ?_ ?_ <;> clear h <;> simp_all [Seen, Forks]
  case waitAfter => cases hw : w.after <;> simp only [hw] <;> refine inv_live_of h ?_ ?_ ?_ ?_ ?_ ?_ ?_ <;> clear h <;> simp_all [Seen, Forks]
  case running => cases c <;> refine inv_live_of h ?_ ?_ ?_ ?_ ?_ ?_ ?_ <;> clear h <;> simp_all [Seen, Forks, Live]
  case stopping => cases c <;> refine inv_live_of h ?_ ?_ ?_ ?_ ?_ ?_ ?_ <;> clear h <;> simp_all [Seen, Forks, Live]
  case cleanup => refine inv_live_of h ?_ ?_ ?_ ?_ ?_ ?_ ?_ <;> clear h <;> simp_all [Seen, Forks]
  case clear g =>
    have hst : w.stopped = false := by clear h hmi hfk; cases g <;> simp only [Seen, Live, Word.only] at hs <;> grind
    cases g <;> refine inv_live_of h ?_ ?_ ?_ ?_ ?_ ?_ ?_ <;> clear h <;> simp_all [Seen, Forks, Word.clear, Word.only, Old]
  case put g old =>
    have hst : w.stopped = false := hs.1.2.1
    have hfo : w.forked = false := hs.1.2.2.2.1
    cases g <;> refine inv_live_of h ?_ ?_ ?_ ?_ ?_ ?_ ?_ <;> clear h <;> simp_all [Seen, Forks, Word.put, Word.only, Old]
  case verify g old =>
    cases g
    · simp only [verified_old hs.2.2.2, if_true]
      refine inv_live_of h ?_ ?_ ?_ ?_ ?_ ?_ ?_ <;> clear h <;> simp_all [Seen, Forks, afterVerify]
    · simp only [verified_old hs.2.2, if_true]
      refine inv_live_of h ?_ ?_ ?_ ?_ ?_ ?_ ?_ <;> clear h <;> simp_all [Seen, Forks, afterVerify, Old]
    · simp only [verified_old hs.2.2, if_true]
      refine inv_live_of h ?_ ?_ ?_ ?_ ?_ ?_ ?_ <;> clear h <;> simp_all [Seen, Forks, afterVerify, Old]
    · simp only [verified_old hs.2.2, if_true, afterVerify]
      have hl := hs.2.2.1
      have hx : (!old.forked && !old.initialized) = true → re = false := by
        rcases hl with hl | ⟨_, hl | hl⟩
        · exact fun _ => hl.1
        · simp [hl.2.2.1]
        · simp [hl.2.2.2.1]
      cases hy : !old.forked && !old.initialized <;> refine inv_live_of h ?_ ?_ ?_ ?_ ?_ ?_ ?_ <;> clear h <;> simp_all [Seen, Forks]
  case report => refine inv_live_of h ?_ ?_ ?_ ?_ ?_ ?_ ?_ <;> clear h <;> simp_all [Seen, Forks]
  case ended => refine inv_live_of h ?_ ?_ ?_ ?_ ?_ ?_ ?_ <;> clear h <;> simp_all [Seen, Forks]

theorem inv_thread {s : State} (h : Inv s) (ha : s.aborted = false) (c : Choice) : Inv (threadStep c s) := by
  cases ht : s.tagged with
  | true => exact inv_thread_tagged h ha ht c
  | false =>
    cases hf : s.freed with
    | true => exact inv_thread_freed h ha ht hf c
    | false => exact inv_thread_live h ha ht hf c

theorem inv_step (s : State) (a : Act) (ha : s.aborted = false) (h : Inv s) : Inv (step s a) := by
  simp only [step, ha, Bool.false_eq_true, if_false]
  cases a with
  | thread c => exact inv_thread h ha c
  | cancelled => exact inv_cancel h ha
  | watchdog l => exact inv_watchdog h ha l
  | main => exact inv_main h ha
  | quit => exact inv_quit h ha

theorem inv_run (acts : List Act) : Inv (run acts) := run_invariant Inv inv_init inv_step acts

end Verif.Threads
