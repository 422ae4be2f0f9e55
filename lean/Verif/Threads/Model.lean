/-!
# Model of `src/lib/threads.c`: one thread, its watchdog and the main thread

Each step is one access to the word with state and signals (`rrr_atomic_u32_*`, sequentially consistent), or something which others cannot see. Steps of the three
threads are in any order, and time is not modelled: a step of the watchdog says whether the time it waits for has come. A thread which waits and finds nothing does a step which changes nothing.

Not modelled: failure of `pthread_create`, single thread mode, the start signals of the watchdog except the last one, time of the watchdog timer, allocation failure, log messages except
where they read memory, the early routine of a thread (whose failure is not acted upon, L913-915), and cancellation while cleanup handlers run. Of the 16 bits for the state, those which are used are modelled.
-/
namespace Verif.Threads

/-- `struct rrr_thread` `state_and_signal`, `threads.h:40-88`. `forked` is both `RUNNING_FORKED` and `STOPPING`, which are the same bit. -/
structure Word where
  new : Bool := false
  stopped : Bool := false
  initialized : Bool := false
  forked : Bool := false
  ghost : Bool := false
  start : Bool := false
  before : Bool := false
  after : Bool := false
  stop : Bool := false
deriving DecidableEq, Repr

/-- The states which the thread sets by itself. -/
inductive Goal where
  | initialized | forked | stopping | stopped
deriving DecidableEq, Repr

/-- `fetch_and` with the mask for signals, `threads.c:205`. -/
def Word.clear (w : Word) : Word := { w with new := false, stopped := false, initialized := false, forked := false, ghost := false }

/-- `fetch_or` with the new state, `threads.c:206`. -/
def Word.put (w : Word) : Goal → Word
  | .initialized => { w with initialized := true }
  | .forked => { w with forked := true }
  | .stopping => { w with forked := true }
  | .stopped => { w with stopped := true }

/-- The assertions after the state has been set, `threads.c:208-211`. The old state includes the signals. -/
def verified (old : Word) (g : Goal) : Bool := old != ({} : Word).put g && !old.stopped && !old.ghost

/-- Where the thread is. -/
inductive Thread where
  | waitInit                          -- L924
  | checkStop                         -- L925
  | init                              -- in the start routine, before it is initialized
  | waitBefore                        -- L501, L532
  | forking                           -- L534, or nothing
  | waitAfter                         -- L503-509, L537
  | running
  | stopping                          -- the module cleans up, `p_httpserver.c:2257`
  | cleanup                           -- L890-898, L879-888
  | clear (g : Goal)                  -- L205
  | put (g : Goal) (old : Word)       -- L206
  | verify (g : Goal) (old : Word)    -- L208-217
  | report                            -- L218, the name is read
  | ended
deriving DecidableEq, Repr

/-- Where the watchdog is. -/
inductive Watchdog where
  | waitStart                         -- L728
  | lookStop                          -- L755
  | lookForked                        -- L760
  | lookInitialized                   -- L761
  | lookTime                          -- L766-787
  | checkStopped                      -- L792
  | signal                            -- L804
  | waitStopped                       -- L813-830
  | waitCancelled                     -- L840-867
  | clear                             -- L862, L205
  | put (old : Word)                  -- L206
  | verify (old : Word)               -- L208
  | finish                            -- L874
  | ended
deriving DecidableEq, Repr

/-- Where the main thread is. -/
inductive Main where
  | signalInit                        -- L570
  | waitInit                          -- L409-425
  | signalBefore                      -- L590
  | waitForked                        -- L453
  | signalAfter                       -- L625
  | signalWatchdog                    -- L645
  | up
  | stop                              -- L346
  | stopWatchdog                      -- L346, for the watchdog
  | join                              -- L365
  | destroy                           -- L383-392
  | finished
deriving DecidableEq, Repr

structure State where
  word : Word := { new := true }
  thread : Thread := .waitInit
  watchdog : Watchdog := .waitStart
  main : Main := .signalInit
  /-- The start signal of the watchdog. -/
  watch : Bool := false
  cancel : Bool := false
  freed : Bool := false
  /-- An assertion has failed, or `RRR_BUG`. -/
  aborted : Bool := false
  /-- Memory has been used after it was freed. -/
  misused : Bool := false
  /-- The thread has been initialized. -/
  ready : Bool := false
  /-- The watchdog has begun to tag the thread as ghost. -/
  tagged : Bool := false
deriving DecidableEq, Repr

/-- What the thread does where it can choose. -/
inductive Choice where
  | go | linger | leave
deriving DecidableEq, Repr

inductive Act where
  | thread (c : Choice)
  /-- The cancellation which is requested takes effect. -/
  | cancelled
  | watchdog (late : Bool)
  | main
  /-- The main thread stops all threads: it was told to, or the start failed. -/
  | quit
deriving DecidableEq, Repr

/-- The thread reads or writes memory which it shares. -/
def Thread.uses : Thread → Bool
  | .verify _ _ => false
  | .ended => false
  | _ => true

/-- After the state has been set. -/
def afterVerify (old : Word) : Goal → Thread
  | .initialized => .waitBefore
  | .forked => .waitAfter
  | .stopping => .stopping
  | .stopped => if !old.forked && !old.initialized then .report else .ended

/-- `threads.c:907-939 __rrr_thread_start_routine_intermediate`, `:496-540 rrr_thread_start_condition_helper_*`, `:197-221 rrr_thread_state_set`. -/
def threadStep (c : Choice) (s : State) : State :=
  let s := { s with misused := s.misused || (s.freed && s.thread.uses) }
  match s.thread with
  | .waitInit => if s.word.start then { s with thread := .checkStop } else s
  | .checkStop => if s.word.stop then { s with thread := .cleanup } else { s with thread := .init }
  | .init => match c with
    | .go => { s with thread := .clear .initialized }
    | .linger => s
    | .leave => { s with thread := .cleanup }
  | .waitBefore => if s.word.before then { s with thread := .forking } else s
  | .forking => match c with
    | .go => { s with thread := .clear .forked }
    | _ => s
  | .waitAfter => if s.word.after then { s with thread := .running } else s
  | .running => match c with
    | .go => { s with thread := .clear .stopping }
    | .linger => s
    | .leave => { s with thread := .cleanup }
  | .stopping => match c with
    | .leave => { s with thread := .cleanup }
    | _ => s
  | .cleanup => { s with thread := .clear .stopped }
  | .clear g => { s with thread := .put g s.word, word := s.word.clear }
  | .put g old => { s with thread := .verify g old, word := s.word.put g, ready := s.ready || decide (g = .initialized) }
  | .verify g old => if verified old g then { s with thread := afterVerify old g } else { s with aborted := true }
  | .report => { s with thread := .ended }
  | .ended => s

/-- `pthread_cancel` takes effect where the thread may be cancelled, and the cleanup handlers are run. -/
def cancelStep (s : State) : State :=
  if !s.cancel then s
  else match s.thread with
    | .waitInit | .checkStop | .init | .waitBefore | .forking | .waitAfter | .running | .stopping =>
      { s with thread := .cleanup, misused := s.misused || s.freed }
    | _ => s

/-- `threads.c:705-877 __rrr_thread_watchdog_entry`. Whether the thread is frozen, and whether the times to cancel and to tag it as ghost have come, is given. -/
def watchdogStep (late : Bool) (s : State) : State :=
  match s.watchdog with
  | .waitStart => if s.watch then { s with watchdog := .lookStop } else s
  | .lookStop => if s.word.stop then { s with watchdog := .checkStopped } else { s with watchdog := .lookForked }
  | .lookForked => if s.word.forked then { s with watchdog := .lookTime } else { s with watchdog := .lookInitialized }
  | .lookInitialized => if s.word.initialized then { s with watchdog := .lookTime } else { s with watchdog := .checkStopped }
  | .lookTime => if late then { s with watchdog := .checkStopped } else { s with watchdog := .lookStop }
  | .checkStopped => if s.word.stopped then { s with watchdog := .finish } else { s with watchdog := .signal }
  | .signal => { s with watchdog := .waitStopped, word := { s.word with stop := true } }
  | .waitStopped =>
    if s.word.stopped then { s with watchdog := .waitCancelled }
    else if late then { s with watchdog := .waitCancelled, cancel := true }
    else s
  | .waitCancelled =>
    if s.word.stopped then { s with watchdog := .finish }
    else if late then { s with watchdog := .clear }
    else s
  | .clear => { s with watchdog := .put s.word, word := s.word.clear, tagged := true }
  | .put old => { s with watchdog := .verify old, word := { s.word with ghost := true } }
  | .verify old => if old.ghost || old.stopped then { s with aborted := true } else { s with watchdog := .finish }
  | .finish => { s with watchdog := .ended }
  | .ended => s

/-- `threads.c:559-651 rrr_thread_collection_signal_start_procedure_all`, `:323-396 rrr_thread_collection_destroy`. -/
def mainStep (s : State) : State :=
  match s.main with
  | .signalInit => { s with main := .waitInit, word := { s.word with start := true } }
  | .waitInit =>
    if s.word.forked then { s with aborted := true }
    else if s.word.initialized || s.word.stopped then { s with main := .signalBefore } else s
  | .signalBefore => { s with main := .waitForked, word := { s.word with before := true } }
  | .waitForked => if s.word.forked || s.word.stopped then { s with main := .signalAfter } else s
  | .signalAfter => { s with main := .signalWatchdog, word := { s.word with after := true } }
  | .signalWatchdog => { s with main := .up, watch := true }
  | .up => s
  | .stop => { s with main := .stopWatchdog, word := { s.word with start := true, before := true, after := true, stop := true } }
  | .stopWatchdog => { s with main := .join, watch := true }
  | .join => if s.watchdog = .ended then { s with main := .destroy } else s
  | .destroy => { s with main := .finished, freed := !s.word.ghost }
  | .finished => s

/-- The main thread goes on to stop all threads, from anywhere in the start procedure (L574, L595, L617) or later. -/
def quitStep (s : State) : State :=
  match s.main with
  | .stop | .stopWatchdog | .join | .destroy | .finished => s
  | _ => { s with main := .stop }

def step (s : State) (a : Act) : State :=
  if s.aborted then s
  else match a with
    | .thread c => threadStep c s
    | .cancelled => cancelStep s
    | .watchdog late => watchdogStep late s
    | .main => mainStep s
    | .quit => quitStep s

/-- A schedule. -/
def run (acts : List Act) : State := acts.foldl step {}

end Verif.Threads
