import Verif.Channel.Inv
/-!
# The channel delivers in order (C24)
-/
namespace Verif.Channel
open Verif

/-! ## For all interleavings -/

/-- C24: Whatever the order in which the steps of the writer and of the reader are taken, and whichever
of the calls they make fail, the messages delivered are at all times the first ones of those which
have been put, in the same order, each whole and unchanged. Empty messages are left out, see
`empty_reorders`. -/
theorem in_order_partial (acts : List Act) (hn : NonEmpty acts) :
    (run init acts).delivered <+: sent (run init acts) := by
  have h := (run_inv init_inv init_safe acts hn).order
  rw [h]; exact List.take_prefix _ _

/-- C24: There are never more than 1024 messages in the channel, so with 1024 messages in the channel
no further message is put until one has been delivered. -/
theorem bounded_partial (acts : List Act) (hn : NonEmpty acts) :
    (sent (run init acts)).length ≤ (run init acts).delivered.length + slots :=
  (run_inv init_inv init_safe acts hn).room

/-- No callback is ever given less memory than the size it is told, not even when there are empty
messages. -/
theorem never_overrun (acts : List Act) : (run init acts).overrun = false :=
  (run_safe init_safe acts).safe

/-- The count of the channel is the number of messages in it whenever neither process is inside a
call. -/
theorem count_exact_partial (acts : List Act) (hn : NonEmpty acts) (hq : Quiet (run init acts)) :
    (run init acts).count = pending (run init acts) := by
  have h := run_inv init_inv init_safe acts hn
  have hc := h.count
  rw [hq.1, hq.2] at hc
  simp only [wLag, rLag] at hc
  have := h.le
  rw [hc]; unfold pending; omega

/-! ## A process which runs alone makes progress -/

theorem run_append (s : State) (a b : List Act) : run s (a ++ b) = run (run s a) b := by
  simp [run, List.foldl_append]

theorem run_cons (s : State) (a : Act) (b : List Act) : run s (a :: b) = run (step s a) b := rfl

/-- Nobody holds a lock when nobody is in a critical section. -/
theorem unlocked {s : State} (h : Inv s) (hw : ∀ m b, s.writer ≠ .locked m b)
    (hr : ∀ b, s.reader ≠ .locked b) (i : Nat) : (s.blocks i).lock = none := by
  cases hl : (s.blocks i).lock with
  | none => rfl
  | some w =>
    cases w with
    | writer => obtain ⟨m, e⟩ := h.lock.w i hl; exact absurd e (hw m i)
    | reader => exact absurd (h.lock.r i hl) (hr i)

/-- What the writer does when nothing fails. -/
abbrev go : Act := .writer true .given true true

theorem idle_run (s : State) (h : s.writer = .idle) (n : Nat) :
    run s (List.replicate n go) = s := by
  induction n with
  | zero => rfl
  | succ n ih =>
    rw [List.replicate_succ, run_cons]
    have : step s go = s := by show stepWriter s _ _ _ _ = s; unfold stepWriter; rw [h]
    rw [this]; exact ih

theorem allocate_given (b : Block) (n : Nat) : (allocate b n true .given).2 = true := by
  unfold allocate
  dsimp only
  generalize (if b.store.isShm then decide (shmMinReuse ≤ n ∧ n ≤ b.capacity)
    else decide (n ≤ b.capacity)) = r
  cases r
  · by_cases h : shmLimit < n <;> simp [h]
  · rfl

theorem locking_run {s : State} (h : Inv s) {m : Bytes} {b : Nat}
    (hw : s.writer = .locking m b) (hr : s.reader = .idle) :
    (run s (List.replicate 4 go)).writer = .idle ∧
    (run s (List.replicate 4 go)).reader = .idle ∧
    (run s (List.replicate 4 go)).delivered = s.delivered ∧
    (run s (List.replicate 4 go)).writes = s.writes ++
      [(m, if (sent s).length < s.delivered.length + 1024 then .ok else .full)] := by
  have hl : (s.blocks b).lock = none :=
    unlocked h (fun m b e => by rw [hw] at e; cases e) (fun b e => by rw [hr] at e; cases e) b
  have hwok := h.wok
  simp only [WriterOk, hw] at hwok
  have hwp := h.wpos
  rw [hw] at hwp
  simp only [wLag, Nat.sub_zero] at hwp
  have hb : b = (sent s).length % 1024 := by rw [hwok.2, hwp]
  have h1 : step s go = { s.set b { s.blocks b with lock := some .writer } with writer := .locked m b } := by
    show stepWriter s _ _ _ _ = _
    unfold stepWriter
    rw [hw]; dsimp only
    rw [if_neg (by rw [hl]; exact fun e => e rfl)]
  rw [List.replicate_succ, run_cons, h1]
  generalize hs1 : ({ s.set b { s.blocks b with lock := some .writer } with writer := .locked m b } : State) = s1
  have w1 : s1.writer = .locked m b := by rw [← hs1]
  have z1 : (s1.blocks b).size = (s.blocks b).size := by rw [← hs1]; simp [State.set]
  have r1 : s1.reader = .idle := by rw [← hs1]; exact hr
  have d1 : s1.delivered = s.delivered := by rw [← hs1]; rfl
  have ws1 : s1.writes = s.writes := by rw [← hs1]; rfl
  rw [← d1, ← ws1]
  by_cases hf : (sent s).length < s.delivered.length + 1024
  · have hz : (s1.blocks b).size = 0 := by
      rw [z1]
      refine h.ring.free b (fun k a c e => ?_)
      omega
    have hal := allocate_given (s1.blocks b) m.length
    generalize hab : allocate (s1.blocks b) m.length true .given = ab at hal
    obtain ⟨b', ok⟩ := ab
    simp only at hal
    subst hal
    rw [d1, if_pos hf]
    rw [List.replicate_succ, run_cons]
    have h2 : step s1 go = { ({ s1 with overrun := s1.overrun || decide (b'.store.room < m.length) }).set b
        { b' with lock := none, cleanup := false, size := m.length, data := m }
        with writer := .stored m } := by
      show stepWriter s1 _ _ _ _ = _
      unfold stepWriter
      rw [w1]; dsimp only
      rw [if_neg (by rw [hz]; exact fun e => e rfl), hab]
      rfl
    rw [h2]
    refine ⟨rfl, r1, d1, rfl⟩
  · have hz : (s1.blocks b).size ≠ 0 := by
      rw [z1]
      have hroom := h.room
      obtain ⟨m', _, c1, c2, _⟩ := h.ring.held s.delivered.length (Nat.le_refl _) (by omega)
      have : s.delivered.length % 1024 = b := by omega
      rw [this] at c2
      rw [c2]
      cases m' with
      | nil => exact absurd rfl c1
      | cons x y => simp
    rw [d1, if_neg hf]
    rw [List.replicate_succ, run_cons]
    have h2 : step s1 go = (s1.set b { s1.blocks b with lock := none }).writeReturns m .full := by
      show stepWriter s1 _ _ _ _ = _
      unfold stepWriter
      rw [w1]; dsimp only
      rw [if_pos hz]
    rw [h2, idle_run _ rfl]
    exact ⟨rfl, r1, d1, rfl⟩

theorem cleaning_run {s : State} (h : Inv s) {m : Bytes} {b i : Nat} (hi : i ≤ 1024)
    (hw : s.writer = .cleaning m b i) (hr : s.reader = .idle) :
    ∃ s', run s (List.replicate (1025 - i) go) = s' ∧ s'.writer = .locking m b ∧ Inv s' ∧
      s'.reader = .idle ∧ s'.delivered = s.delivered ∧ s'.writes = s.writes := by
  obtain ⟨n, hn⟩ : ∃ n, n = 1024 - i := ⟨_, rfl⟩
  induction n generalizing s i with
  | zero =>
    have : i = 1024 := by omega
    subst this
    refine ⟨{ s with writer := .locking m b }, ?_, rfl, ?_, hr, rfl, rfl⟩
    · show step s go = _
      show stepWriter s _ _ _ _ = _
      unfold stepWriter
      rw [hw]; dsimp only
      unfold cleanOne
      rw [if_neg (by decide)]
    · have := cleanOne_inv h true hw
      unfold cleanOne at this
      rwa [if_neg (by decide)] at this
  | succ n ih =>
    have hlt : i < 1024 := by omega
    have he : 1025 - i = (1025 - (i + 1)) + 1 := by omega
    have hl : (s.blocks i).lock = none :=
      unlocked h (fun m b e => by rw [hw] at e; cases e) (fun b e => by rw [hr] at e; cases e) i
    have hinv := cleanOne_inv h true hw
    have hst : step s go = cleanOne s m b i true := by
      show stepWriter s _ _ _ _ = _
      unfold stepWriter
      rw [hw]
    have hc : (cleanOne s m b i true).writer = .cleaning m b (i + 1) ∧
        (cleanOne s m b i true).reader = s.reader ∧
        (cleanOne s m b i true).delivered = s.delivered ∧
        (cleanOne s m b i true).writes = s.writes := by
      unfold cleanOne
      dsimp only
      rw [if_pos (show i < slots from hlt), if_neg (by rw [hl]; exact fun e => e rfl)]
      split
      · simp [State.set]
      · simp
    obtain ⟨s', e1, e2, e3, e4, e5, e6⟩ := ih hinv (i := i + 1) (by omega) hc.1 (by rw [hc.2.1, hr])
      (by omega)
    refine ⟨s', ?_, e2, e3, e4, by rw [e5, hc.2.2.1], by rw [e6, hc.2.2.2]⟩
    rw [he, List.replicate_succ, run_cons, hst]
    exact e1

theorem soloWrite_run {s : State} (h : Inv s) (hq : Quiet s) {m : Bytes} (hm : m ≠ []) :
    Quiet (run s (soloWrite m)) ∧ (run s (soloWrite m)).delivered = s.delivered ∧
    (run s (soloWrite m)).writes = s.writes ++
      [(m, if (sent s).length < s.delivered.length + 1024 then .ok else .full)] := by
  unfold soloWrite
  rw [run_cons]
  have h1 := startWrite_inv h hm
  have hsent : ∀ s' : State, s'.writes = s.writes → inFlight s'.writer = [] → sent s' = sent s := by
    intro s' e1 e2
    simp only [sent, e1, e2, hq.1]
    rfl
  cases hc : s.cleanup with
  | false =>
    have hs1 : step s (.write m) = { s with cleanup := false, writer := .locking m s.wpos } := by
      show startWrite s m = _
      unfold startWrite
      rw [hq.1, hc]; rfl
    rw [show startWrite s m = step s (.write m) from rfl, hs1] at h1
    rw [hs1]
    have := locking_run h1 rfl hq.2
    rw [hsent { s with cleanup := false, writer := .locking m s.wpos } rfl rfl] at this
    have he : slots + 5 = 4 + 1025 := rfl
    rw [he, ← List.replicate_append_replicate, run_append]
    rw [idle_run _ this.1]
    exact ⟨⟨this.1, this.2.1⟩, this.2.2.1, this.2.2.2⟩
  | true =>
    have hs1 : step s (.write m) = { s with cleanup := false, writer := .cleaning m s.wpos 0 } := by
      show startWrite s m = _
      unfold startWrite
      rw [hq.1, hc]; rfl
    rw [show startWrite s m = step s (.write m) from rfl, hs1] at h1
    rw [hs1]
    obtain ⟨s', e1, e2, e3, e4, e5, e6⟩ := cleaning_run h1 (Nat.zero_le _) rfl hq.2
    have he : slots + 5 = 1025 + 4 := rfl
    rw [he, ← List.replicate_append_replicate, run_append]
    rw [show (1025 : Nat) = 1025 - 0 from rfl, e1]
    have := locking_run e3 e2 e4
    rw [hsent s' e6 (by rw [e2]; rfl), e5, e6] at this
    exact ⟨⟨this.1, this.2.1⟩, this.2.2.1, this.2.2.2⟩

theorem quiet_sent {s : State} (hq : Quiet s) :
    sent s = (s.writes.filter (fun w => wasPut w.2)).map (·.1) := by
  simp [sent, hq.1, inFlight]

/-- C24: A write which is made when there is a free place in the channel puts the message last, after
everything which was put before, when the system gives it the memory and the reader is not in the
middle of a call. -/
theorem write_succeeds_partial (acts : List Act) (hn : NonEmpty acts) (hq : Quiet (run init acts))
    (m : Bytes) (hm : m ≠ []) (hp : pending (run init acts) < slots) :
    (run (run init acts) (soloWrite m)).writes = (run init acts).writes ++ [(m, .ok)] ∧
    sent (run (run init acts) (soloWrite m)) = sent (run init acts) ++ [m] ∧
    (run (run init acts) (soloWrite m)).delivered = (run init acts).delivered ∧
    Quiet (run (run init acts) (soloWrite m)) := by
  have h := run_inv init_inv init_safe acts hn
  have h2 := soloWrite_run h hq hm
  have hle := h.le
  rw [if_pos (by unfold pending slots at hp; omega)] at h2
  refine ⟨h2.2.2, ?_, h2.2.1, h2.1⟩
  rw [quiet_sent h2.1, quiet_sent hq, h2.2.2]
  simp [wasPut]

/-- C24: A write which is made when there are 1024 messages in the channel is refused, and what is in
the channel stays as it is. -/
theorem full_refused_partial (acts : List Act) (hn : NonEmpty acts) (hq : Quiet (run init acts))
    (m : Bytes) (hm : m ≠ []) (hp : pending (run init acts) = slots) :
    (run (run init acts) (soloWrite m)).writes = (run init acts).writes ++ [(m, .full)] ∧
    sent (run (run init acts) (soloWrite m)) = sent (run init acts) ∧
    (run (run init acts) (soloWrite m)).delivered = (run init acts).delivered ∧
    Quiet (run (run init acts) (soloWrite m)) := by
  have h := run_inv init_inv init_safe acts hn
  have h2 := soloWrite_run h hq hm
  rw [if_neg (by unfold pending slots at hp; omega)] at h2
  refine ⟨h2.2.2, ?_, h2.2.1, h2.1⟩
  rw [quiet_sent h2.1, quiet_sent hq, h2.2.2]
  simp [wasPut]

theorem soloRead_run {s : State} (h : Inv s) (hq : Quiet s)
    (hp : s.delivered.length < (sent s).length) :
    ∃ x, (sent s)[s.delivered.length]? = some x ∧
    (run s soloRead).delivered = s.delivered ++ [x] ∧ (run s soloRead).writes = s.writes ∧
    Quiet (run s soloRead) ∧ (run s soloRead).reads = s.reads ++ [.ok] := by
  obtain ⟨x, x1, x2, x3, x4⟩ := h.ring.held _ (Nat.le_refl _) hp
  refine ⟨x, x1, ?_⟩
  have hrp := h.rpos
  have hcnt := h.count
  rw [hq.1, hq.2] at hcnt
  rw [hq.2] at hrp
  simp only [wLag, rLag, Nat.sub_zero] at hrp hcnt
  have hc : s.count ≠ 0 := by omega
  rw [← hrp] at x3 x4
  have hl : (s.blocks s.rpos).lock = none :=
    unlocked h (fun m b e => by rw [hq.1] at e; cases e) (fun b e => by rw [hq.2] at e; cases e) _
  have h1 : step s .read = { s with reader := .locking s.rpos } := by
    show startRead s = _
    unfold startRead
    rw [hq.2]; dsimp only
    rw [if_neg hc]
  have h2 : step { s with reader := .locking s.rpos } (.reader true true) =
      { s.set s.rpos { s.blocks s.rpos with lock := some .reader } with reader := .locked s.rpos } := by
    show stepReader { s with reader := .locking s.rpos } true true = _
    unfold stepReader
    dsimp only
    rw [if_neg (by rw [hl]; exact fun e => e rfl)]
    rfl
  unfold soloRead
  rw [run_cons, h1, List.replicate_succ, run_cons, h2]
  generalize hs2 : ({ s.set s.rpos { s.blocks s.rpos with lock := some .reader } with reader := .locked s.rpos } : State) = s2
  have z2 : (s2.blocks s.rpos).size = x.length := by rw [← hs2, ← x3]; simp [State.set]
  have t2 : (s2.blocks s.rpos).data.take (s2.blocks s.rpos).size = x := by
    rw [← hs2, ← x4]; simp [State.set]
  have r2 : s2.reader = .locked s.rpos := by rw [← hs2]
  have w2 : s2.writer = .idle := by rw [← hs2]; exact hq.1
  have d2 : s2.delivered = s.delivered := by rw [← hs2]; rfl
  have ws2 : s2.writes = s.writes := by rw [← hs2]; rfl
  have rs2 : s2.reads = s.reads := by rw [← hs2]; rfl
  rw [← d2, ← ws2, ← rs2]
  rw [List.replicate_succ, run_cons]
  have hx : x.length ≠ 0 := by cases x with
    | nil => exact absurd rfl x2
    | cons a b => simp
  have h3 : step s2 (.reader true true) =
    { ({ s2 with overrun := s2.overrun || decide ((s2.blocks s.rpos).store.room < (s2.blocks s.rpos).size) }).set s.rpos
            { s2.blocks s.rpos with lock := none, cleanup := decide (maxPersistent < (s2.blocks s.rpos).capacity), size := 0 }
            with delivered := s2.delivered ++ [(s2.blocks s.rpos).data.take (s2.blocks s.rpos).size],
                 reader := .consumed (decide (maxPersistent < (s2.blocks s.rpos).capacity)) } := by
    show stepReader _ _ _ = _
    unfold stepReader
    rw [r2]; dsimp only
    rw [if_neg (by rw [z2]; exact hx), if_neg (by simp), if_pos rfl]
  rw [h3, t2]
  refine ⟨rfl, rfl, ⟨w2, rfl⟩, rfl⟩

/-- C24: A read which is made when there is a message in the channel delivers the oldest one which has
not been delivered. -/
theorem read_succeeds_partial (acts : List Act) (hn : NonEmpty acts) (hq : Quiet (run init acts))
    (hp : pending (run init acts) ≠ 0) :
    ∃ x, (sent (run init acts))[(run init acts).delivered.length]? = some x ∧
      (run (run init acts) soloRead).delivered = (run init acts).delivered ++ [x] ∧
      sent (run (run init acts) soloRead) = sent (run init acts) ∧
      Quiet (run (run init acts) soloRead) := by
  have h := run_inv init_inv init_safe acts hn
  obtain ⟨x, a, b, c, d, _⟩ := soloRead_run h hq (by unfold pending at hp; omega)
  exact ⟨x, a, b, by rw [quiet_sent d, quiet_sent hq, c], d⟩

/-- The reader calls read a number of times. -/
def soloReads : Nat → List Act
  | 0 => []
  | n + 1 => soloRead ++ soloReads n

theorem soloRead_nonEmpty : NonEmpty soloRead := by
  intro m hm
  simp [soloRead] at hm

/-- C24: Reading as many times as there are messages in the channel delivers everything which was
put. -/
theorem drained_partial (acts : List Act) (hn : NonEmpty acts) (hq : Quiet (run init acts)) :
    (run (run init acts) (soloReads (pending (run init acts)))).delivered =
      sent (run init acts) := by
  have h := run_inv init_inv init_safe acts hn
  have hs := run_safe init_safe acts
  generalize run init acts = s at h hs hq
  obtain ⟨n, hp⟩ : ∃ n, n = pending s := ⟨_, rfl⟩
  rw [← hp]
  induction n generalizing s with
  | zero =>
    have h1 := h.le
    have h2 := h.order
    show s.delivered = sent s
    rw [h2, List.take_of_length_le (by unfold pending at hp; omega)]
  | succ n ih =>
    obtain ⟨x, a, b, c, d, _⟩ := soloRead_run h hq (by unfold pending at hp; omega)
    have e : sent (run s soloRead) = sent s := by rw [quiet_sent d, quiet_sent hq, c]
    rw [soloReads, run_append, ← e]
    refine ih _ (run_inv h hs _ soloRead_nonEmpty) (run_safe hs _) d ?_
    unfold pending at hp ⊢
    rw [e, b]
    simp only [List.length_append, List.length_singleton]
    omega

/-! ## Examples -/

/-- Two messages are written while the reader is at work; one is delivered and one is in the channel. -/
def exampleActs : List Act :=
  [.write [1, 2], go, go, go, .write [3], .read, go, .reader true true, go, .write [3],
   .reader true true, go, .reader true true, go, go, .read, go]

example : NonEmpty exampleActs := by
  intro m hm
  simp [exampleActs] at hm
  rcases hm with rfl | rfl | rfl <;> simp
example : (run init exampleActs).delivered = [[1, 2]] ∧ sent (run init exampleActs) = [[1, 2], [3]] := by
  decide +kernel
example : (run init (exampleActs ++ [.reader true true])).reads = [.ok] := by decide +kernel
example : Quiet (run init (soloWrite [7])) ∧ pending (run init (soloWrite [7])) = 1 := by
  have := write_succeeds_partial [] (fun m h => by cases h) ⟨rfl, rfl⟩ [7] (by decide) (by decide)
  refine ⟨this.2.2.2, ?_⟩
  unfold pending
  rw [show run init (soloWrite [7]) = run (run init []) (soloWrite [7]) from rfl, this.2.1, this.2.2.1]
  rfl

/-- A number of messages. -/
def fill : Nat → List Act
  | 0 => []
  | n + 1 => fill n ++ soloWrite [7]

theorem fill_run (n : Nat) (hn : n ≤ 1024) : Quiet (run init (fill n)) ∧
    pending (run init (fill n)) = n ∧ NonEmpty (fill n) := by
  induction n with
  | zero => exact ⟨⟨rfl, rfl⟩, rfl, fun m h => by cases h⟩
  | succ n ih =>
    obtain ⟨h1, h2, h3⟩ := ih (by omega)
    have := write_succeeds_partial (fill n) h3 h1 [7] (by decide) (by rw [h2]; exact hn)
    rw [fill, run_append]
    refine ⟨this.2.2.2, ?_, ?_⟩
    · unfold pending at h2 ⊢
      rw [this.2.1, this.2.2.1, List.length_append, List.length_singleton]
      have := (run_inv init_inv init_safe (fill n) h3).le
      omega
    · intro m hm
      rcases List.mem_append.1 hm with h | h
      · exact h3 m h
      · simp [soloWrite] at h
        rw [h]; decide

/-- The channel can be full. -/
example : ∃ acts, NonEmpty acts ∧ Quiet (run init acts) ∧ pending (run init acts) = slots :=
  ⟨fill 1024, (fill_run 1024 (by decide)).2.2, (fill_run 1024 (by decide)).1,
    (fill_run 1024 (by decide)).2.1⟩

end Verif.Channel
