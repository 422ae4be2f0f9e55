import Verif.Fork.Careful

/-!
# Properties of the notifications about ended children
-/

namespace Verif.Fork

/-- A child which has ended is never missed, whatever the order of forks, ends of children, signals and calls is: as long as it has not been waited for,
the signal has not yet been delivered to the parent, or the next call of the parent waits for its children, or the parent is waiting for them now. -/
theorem never_missed (cap : Nat) (ls : List Label) (s : State) (h : run (start cap) ls = some s) (p c : Nat) (hp : (s.procs p).status = .run) (hc : Ended s p c) :
    (s.procs p).sig = true ∨ (s.procs p).pending = true ∨ Waiting s p :=
  (run_inv _ _ _ (inv_start cap) h).missed p c hp hc.1 hc.2.1 hc.2.2

/-- After a call which waits for children, no other call waits for them until another signal has been delivered or the call is forced. -/
theorem no_needless_call (s s' : State) (p : Nat) (f : Bool) (h : step s (.begin p f) = some s') (ls : List Label) (t : State) (hr : run s' ls = some t) (hd : .deliver p ∉ ls) (hp : p < s.count) :
    step t (.begin p false) = none := by
  have key : ∀ ls : List Label, ∀ u : State, p < u.count → (u.procs p).pending = false → .deliver p ∉ ls → run u ls = some t → (t.procs p).pending = false := by
    intro ls
    induction ls with
    | nil => intro u _ h1 _ h2; cases h2; exact h1
    | cons l r ih =>
      intro u h0 h1 h2 h3
      simp only [run] at h3
      obtain ⟨v, h4, h5⟩ := Option.bind_eq_some_iff.1 h3
      have hv : p < v.count ∧ (v.procs p).pending = false := by
        cases l with
        | choose q => simp only [step] at h4; split at h4 <;> simp at h4; obtain ⟨_, _, rfl⟩ := h4; simp only [upd]; grind
        | deliver q =>
          have : p ≠ q := fun e => h2 (by rw [e]; exact List.mem_cons_self ..)
          simp only [step] at h4; split at h4 <;> simp at h4; subst h4; simp only [upd]; grind
        | _ => simp only [step] at h4; repeat' split at h4
               all_goals first | (cases h4; done) | (cases h4; simp only [upd, gone]; grind)
      exact ih v hv.1 hv.2 (fun e => h2 (List.mem_cons_of_mem _ e)) h5
  have h1 : p < s'.count ∧ (s'.procs p).pending = false := by
    simp only [step] at h; split at h
    · cases h; simp [upd, hp]
    · cases h
  have := key ls s' h1.1 h1.2 hd hr
  simp [step, this]

/-- The state after some steps, as far as it can be printed. -/
def shown (s : State) : List (Nat × Nat × Nat) × List (Nat × Nat × Nat) × List (Status × Bool × Bool) × List Nat :=
  (s.registered, s.log, (List.range s.count).map (fun p => ((s.procs p).status, (s.procs p).sig, (s.procs p).pending)), (List.range s.cap).map fun i => (s.slots i).pid)

-- A child ends while another one is being waited for, and the variable is set again.
example : (run (start 3) [.choose 1, .fork 1, .store 1 7, .choose 1, .fork 1, .store 1 8, .exit 2, .deliver 1, .begin 1 false, .reap 1 2, .endReap 1, .exit 3, .deliver 1, .scan 1]).map shown =
    some ([(1, 2, 7), (1, 3, 8)], [(1, 2, 7)], [(.gone, false, false), (.run, false, true), (.gone, false, false), (.zombie, false, false)], [0, 3, 0]) := by rfl

/-- No child is notified twice. -/
theorem notified_once (cap : Nat) (ls : List Label) (s : State) (h : run (start cap) ls = some s) : (s.log.map fun e => e.2.1).Nodup :=
  (run_inv _ _ _ (inv_start cap) h).logU

/-- The function which is called for a child is the one which was given when it was forked. -/
theorem right_function (cap : Nat) (ls : List Label) (s : State) (h : run (start cap) ls = some s) (q c x : Nat) (hl : (q, c, x) ∈ s.log) :
    (∃ p, (p, c, x) ∈ s.registered) ∧ ∀ p y, (p, c, y) ∈ s.registered → y = x := by
  have hi := run_inv _ _ _ (inv_start cap) h
  obtain ⟨p, hp⟩ := hi.logR q c x hl
  exact ⟨⟨p, hp⟩, fun p' y hy => (hi.regU p' c y p x hy hp).2⟩

/-- In careful runs, every child which has been waited for by its parent is notified as soon as the call is over, unless the function was removed.
During the shutdown, it may be that another call is needed. Missing: runs which are not careful, in which notifications are lost. -/
theorem all_notified_partial (cap : Nat) (ls : List Label) (s : State) (h : run (start cap) ls = some s) (hc : CarefulRun (start cap) ls) (p c x : Nat)
    (hr : (p, c, x) ∈ s.registered) (hp : (s.procs p).status = .run) (hi : (s.procs p).phase = .idle) (hg : (s.procs c).status = .gone) :
    c ∈ s.removed ∨ Notified s c ∨ ∃ i, i < s.cap ∧ (s.slots i).pid = c ∧ (s.slots i).waited = true := by
  have hinv := run_inv _ _ _ (inv_start cap) h
  have hs := run_safe _ _ _ (inv_start cap) (safe_start cap) hc h
  rcases hs.all p c x hr with a | a | ⟨j, a1, a2⟩
  · exact .inl a
  · exact .inr (.inl a)
  · rcases a2 with a2 | a2 | a2 | a2
    · exact .inr (.inr ⟨j, hinv.cap j (by rw [a1]; exact (hinv.reg p c x hr).2.1), a1, a2⟩)
    · exact absurd hg a2
    · exact absurd hp a2
    · rw [hi] at a2; simp [Phase.held] at a2

/-- A child which was waited for during the shutdown is notified by the next call, forced or not. -/
theorem marked_notified (s s' : State) (p i : Nat) (h : step s (.scan p) = some s') (hi : i < s.cap) (hw : (s.slots i).waited = true) (h0 : (s.slots i).pid ≠ 0) (hp : (s.slots i).pid ≠ p) :
    (p, (s.slots i).pid, (s.slots i).notify) ∈ s'.log ∧ (s'.slots i).pid = 0 := by
  simp only [step] at h
  split at h
  case h_2 => cases h
  rename_i f l hf
  have hn : notifies s p f l (s.slots i) = true := by unfold notifies; rw [if_neg (by omega)]; simp [hw]
  cases h
  refine ⟨List.mem_append_right _ ((mem_calls s p f l _ _ _).2 ⟨rfl, i, hi, hn, rfl, rfl⟩), ?_⟩
  simp [hi, hn, Slot.clear]

/-- A child which a call that is not forced has waited for is notified at the end of the call, if it is in the table, and its entry is free again. -/
theorem waited_notified (s s' : State) (p c i : Nat) (l : List Nat) (h : step s (.scan p) = some s') (hf : (s.procs p).phase = .scanning false l) (hc : c ∈ l) (hi : i < s.cap)
    (h0 : c ≠ 0) (hp : c ≠ p) (hs : (s.slots i).pid = c) : (p, c, (s.slots i).notify) ∈ s'.log ∧ (s'.slots i).pid = 0 := by
  have hn : notifies s p false l (s.slots i) = true := by unfold notifies; rw [if_neg (by omega)]; simp [hs, hc]
  simp only [step, hf] at h
  cases h
  refine ⟨List.mem_append_right _ ((mem_calls s p false l _ _ _).2 ⟨rfl, i, hi, hn, hs, rfl⟩), ?_⟩
  simp [hi, hn, Slot.clear]

/-- The loop of `waitpid` ends when no child which has ended is left. -/
theorem wait_complete (s s' : State) (p c : Nat) (h : step s (.endReap p) = some s') : ¬ Ended s p c := by
  intro hx
  simp only [step] at h
  split at h
  case h_2 => cases h
  split at h
  case isFalse => cases h
  rename_i hc
  simp only [List.all_eq_true, List.mem_range, Bool.not_eq_true'] at hc
  have := hc c hx.1
  rw [(waits_iff s p c).2 hx] at this
  cases this

/-- In careful runs, no child is notified before it has ended. Missing: runs which are not careful. -/
theorem notified_ended_partial (cap : Nat) (ls : List Label) (s : State) (h : run (start cap) ls = some s) (hc : CarefulRun (start cap) ls) (c : Nat) (hn : Notified s c) :
    (s.procs c).status = .gone := by
  obtain ⟨q, x, hn⟩ := hn
  exact (run_safe _ _ _ (inv_start cap) (safe_start cap) hc h).logGone q c x hn

/-- `Careful` as a function. -/
def carefully (s : State) : Label → Bool
  | .choose _ => (List.range s.count).all fun q => (s.procs q).forking == .none
  | .exit c => (List.range s.count).all fun q => match (s.procs q).forking with | .forked _ d => d != c | _ => true
  | .reap p _ => match (s.procs p).phase with | .reaping true _ => false | _ => true
  | _ => true

def carefullyRun (s : State) : List Label → Bool
  | [] => true
  | l :: r => carefully s l && match step s l with | some s' => carefullyRun s' r | none => true

theorem carefully_run (s : State) (ls : List Label) (h : carefullyRun s ls = true) : CarefulRun s ls := by
  induction ls generalizing s with
  | nil => trivial
  | cons l r ih =>
    simp only [carefullyRun, Bool.and_eq_true] at h
    refine ⟨?_, fun s' hs => ih s' (by rw [hs] at h; exact h.2)⟩
    have h := h.1
    cases l with
    | choose p => intro q hq; simp only [carefully, List.all_eq_true, List.mem_range, beq_iff_eq] at h; exact h q hq
    | exit c =>
      intro q i hq he
      simp only [carefully, List.all_eq_true, List.mem_range] at h
      have := h q hq
      simp [he] at this
    | reap p c => intro l he; simp [carefully, he] at h
    | _ => trivial

-- Two processes fork, and all children are notified, the last one after the shutdown has waited for it.
def careful : List Label := [.choose 1, .fork 1, .store 1 7, .choose 2, .fork 2, .store 2 8, .choose 1, .fork 1, .store 1 9, .exit 3, .exit 4, .deliver 2, .deliver 1,
  .begin 2 false, .reap 2 3, .endReap 2, .scan 2, .begin 1 false, .reap 1 4, .endReap 1, .scan 1, .exit 2, .mark 1, .begin 1 true, .endReap 1, .scan 1]

example : CarefulRun (start 2) careful := carefully_run _ _ (by decide +kernel)
example : CarefulRun (start 3) careful := carefully_run _ _ (by decide +kernel)
example : (run (start 3) careful).map (fun s => (s.log, (shown s).2.2.2)) = some ([(2, 3, 8), (1, 4, 9), (1, 2, 7)], [0, 0, 0]) := by decide +kernel

/-- Steps of the shutdown are not done. -/
def NoMark (ls : List Label) : Prop := ∀ p, .mark p ∉ ls

/-- Before the shutdown, the functions are called in the process which forked the child. Missing: during the shutdown, another process may call the function. -/
theorem parent_notified_partial (cap : Nat) (ls : List Label) (s : State) (h : run (start cap) ls = some s) (hm : NoMark ls) (e : Nat × Nat × Nat) (he : e ∈ s.log) : e ∈ s.registered := by
  have key : ∀ ls : List Label, ∀ t : State, Inv t → (∀ i, (t.slots i).waited = false) → (∀ p, (t.procs p).status = .run → p ≠ 0) → (∀ e ∈ t.log, e ∈ t.registered) → NoMark ls →
      run t ls = some s → ∀ e ∈ s.log, e ∈ s.registered := by
    intro ls
    induction ls with
    | nil => intro t _ _ _ h4 _ hr; cases hr; exact h4
    | cons l r ih =>
      intro t hi h2 h3 h4 hm hr
      simp only [run] at hr
      obtain ⟨u, h5, h6⟩ := Option.bind_eq_some_iff.1 hr
      have hi' := inv_step t u l hi h5
      refine ih u hi' ?_ (fun p hp h0 => by rw [h0, hi'.zero] at hp; cases hp) ?_ (fun p hp => hm p (List.mem_cons_of_mem _ hp)) h6
      · cases l with
        | mark p => exact absurd (List.mem_cons_self ..) (hm p)
        | choose p => simp only [step] at h5; split at h5 <;> simp at h5; obtain ⟨_, _, rfl⟩ := h5; exact h2
        | unregister p c =>
          simp only [step] at h5
          split at h5
          · cases h5
            intro i; dsimp only
            cases (List.range t.cap).find? (fun i => (t.slots i).pid == c) with
            | some k =>
              simp only [upd]; split
              · rfl
              · exact h2 i
            | none => exact h2 i
          · cases h5
        | scan p =>
          simp only [step] at h5
          split at h5
          · cases h5; intro i; dsimp only; split
            · rfl
            · exact h2 i
          · cases h5
        | store p x =>
          simp only [step] at h5
          split at h5
          · split at h5
            · cases h5; intro i; simp only [upd]; split <;> exact h2 _
            · cases h5
          · cases h5
        | _ => simp only [step] at h5; repeat' split at h5
               all_goals first | cases h5; done | (cases h5; exact h2)
      · cases l with
        | mark p => exact absurd (List.mem_cons_self ..) (hm p)
        | choose p => simp only [step] at h5; split at h5 <;> simp at h5; obtain ⟨_, _, rfl⟩ := h5; exact h4
        | scan p =>
          simp only [step] at h5
          split at h5
          · rename_i f l hf
            have hrun := hi.idle p
            cases h5
            rintro ⟨q, c, x⟩ he
            rcases List.mem_append.1 he with he | he
            · exact h4 _ he
            · obtain ⟨rfl, i, e1, e2, rfl, rfl⟩ := (mem_calls t p f l q c x).1 he
              have e4 := notifies_pos _ _ _ _ _ e2
              have e5 := hi.slot i e4.1
              have hq : (t.procs q).status = .run := by
                cases hst : (t.procs q).status with
                | run => rfl
                | _ => have := (hrun (by rw [hst]; decide)).1; rw [hf] at this; cases this
              have hpar : (t.procs (t.slots i).pid).parent = q := by
                unfold notifies at e2
                rw [if_neg (by omega), h2 i] at e2
                cases f with
                | true => simp only [Bool.false_eq_true, if_false, if_true] at e2; exact ((waits_iff _ _ _).1 e2).2.1
                | false => simp at e2; exact (hi.listS q false l _ hf e2).2.2
              have : (t.slots i).parent = q := by
                rcases e5.2.2 with e | ⟨e, -⟩
                · rw [← e, hpar]
                · exact absurd (hpar.symm.trans e) (h3 q hq)
              rw [← this]; exact e5.1
          · cases h5
        | store p x =>
          simp only [step] at h5
          split at h5
          · split at h5
            · cases h5; exact fun e he => List.mem_append_left _ (h4 e he)
            · cases h5
          · cases h5
        | _ => simp only [step] at h5; repeat' split at h5
               all_goals first | cases h5; done | (cases h5; exact h4)
  exact key ls (start cap) (inv_start cap) (fun _ => rfl) (fun p hp h0 => by rw [h0] at hp; simp [start] at hp) (by simp [start]) hm h e he

example : NoMark [.choose 1, .fork 1, .store 1 7] := by intro p; simp

/-- During the shutdown, the function of a child of the main process is called in another child. -/
theorem notified_elsewhere : (run (start 3) [.choose 1, .fork 1, .store 1 7, .choose 1, .fork 1, .store 1 8, .exit 3, .mark 1, .begin 2 true, .endReap 2, .scan 2]).map
    (fun s => (s.registered, s.log)) = some ([(1, 2, 7), (1, 3, 8)], [(2, 3, 8)]) := by rfl

/-- A child which ends shortly before a forced call is waited for, but its function is not called. -/
theorem lost_forced : (run (start 3) [.choose 1, .fork 1, .store 1 7, .exit 2, .deliver 1, .begin 1 true, .reap 1 2, .endReap 1, .scan 1]).map
    (fun s => (s.registered, s.log, s.removed, (s.procs 2).status, (s.procs 1).phase, (s.slots 0).pid)) = some ([(1, 2, 7)], [], [], .gone, .idle, 2) := by rfl

/-- A child which ends before `rrr_fork` has returned in the parent is waited for, but its function is not called. -/
theorem lost_early : (run (start 3) [.choose 1, .fork 1, .exit 2, .deliver 1, .begin 1 false, .reap 1 2, .endReap 1, .scan 1, .store 1 7]).map
    (fun s => (s.registered, s.log, s.removed, (s.procs 2).status, (s.procs 1).phase, (s.slots 0).pid)) = some ([(1, 2, 7)], [], [], .gone, .idle, 2) := by rfl

/-- Two processes which fork at the same time use the same entry, and the function of the first child is not called. -/
theorem lost_overwritten : (run (start 3) [.choose 1, .fork 1, .store 1 7, .choose 1, .choose 2, .fork 1, .fork 2, .store 1 8, .store 2 9, .exit 3, .deliver 1,
    .begin 1 false, .reap 1 3, .endReap 1, .scan 1]).map
    (fun s => (s.registered, s.log, s.removed, (s.procs 3).status, (s.slots 1).pid)) = some ([(1, 2, 7), (1, 3, 8), (2, 4, 9)], [], [], .gone, 4) := by rfl

/-- When this happens during the shutdown, the function is called for a child which has not ended. -/
theorem notified_alive : (run (start 3) [.choose 1, .fork 1, .store 1 7, .choose 1, .choose 2, .fork 1, .fork 2, .store 1 8, .exit 3, .mark 1, .store 2 9, .begin 1 true, .endReap 1, .scan 1]).map
    (fun s => (s.log, (s.procs 4).status)) = some ([(1, 4, 9)], .run) := by decide +kernel

/-- The child has been waited for, nobody remembers it, and its entry is still in the table. -/
structure Lost (s : State) (c j : Nat) : Prop where
  gone : (s.procs c).status = .gone
  bound : c < s.count
  pos : c ≠ 0
  held : ∀ p, c ∉ (s.procs p).phase.held
  entry : (s.slots j).pid = c
  waited : (s.slots j).waited = false
  forked : ∀ p d, (s.procs p).forking ≠ .forked j d
  chosen : ∀ p, (s.procs p).forking ≠ .chosen j
  silent : ¬ Notified s c

/-- Holds with the entry of a child which is lost. -/
theorem lost_step (s s' : State) (l : Label) (c j : Nat) (hi : Inv s) (hl : Lost s c j) (hu : ∀ q, l ≠ .unregister q c) (h : step s l = some s') : Lost s' c j := by
  obtain ⟨g, b, z, hh, en, w, fo, ch, si⟩ := hl
  unfold Notified at si
  have hz : ∀ p, (s.procs p).forking ≠ .forked j c := fun p => fo p c
  cases l with
  | choose p =>
    simp only [step] at h
    split at h
    case isFalse => cases h
    obtain ⟨i, ha, h⟩ := Option.map_eq_some_iff.1 h
    have ⟨e1, e2⟩ := allocate_some s i ha
    cases h
    constructor <;> (try simp only [upd, Notified]) <;> grind
  | fork p =>
    simp only [step] at h
    repeat' split at h
    all_goals first | (cases h; done) | (cases h; constructor <;> (try simp only [upd, Notified]) <;> grind [Phase.held])
  | store p x =>
    simp only [step] at h
    repeat' split at h
    all_goals first | (cases h; done) | (cases h; constructor <;> (try simp only [upd, Notified]) <;> grind [Phase.held])
  | exit d =>
    simp only [step] at h
    repeat' split at h
    all_goals first | (cases h; done) | (cases h; constructor <;> (try simp only [upd, Notified]) <;> grind [Phase.held])
  | init d =>
    simp only [step] at h
    repeat' split at h
    all_goals first | (cases h; done) | (cases h; constructor <;> (try simp only [upd, Fork.gone, Notified]) <;> grind [Phase.held])
  | deliver p =>
    simp only [step] at h
    repeat' split at h
    all_goals first | (cases h; done) | (cases h; constructor <;> (try simp only [upd, Notified]) <;> grind [Phase.held])
  | begin p f =>
    simp only [step] at h
    repeat' split at h
    all_goals first | (cases h; done) | (cases h; cases f <;> constructor <;> (try simp only [upd, Notified]) <;> grind [Phase.held])
  | reap p d =>
    simp only [step] at h
    split at h
    case h_2 => cases h
    rename_i f l hf
    split at h
    case isFalse => cases h
    rename_i hw
    rw [waits_iff] at hw
    have hne : c ≠ d := by intro e; rw [e, hw.2.2] at g; cases g
    have hp := hh p
    cases h
    cases f <;> constructor <;> (try simp only [upd, Fork.gone, Notified]) <;> grind [Phase.held]
  | endReap p =>
    simp only [step] at h
    split at h
    case h_2 => cases h
    rename_i f l hf
    split at h
    case isFalse => cases h
    have hp := hh p
    cases h
    cases f <;> constructor <;> (try simp only [upd, Notified]) <;> grind [Phase.held]
  | scan p =>
    simp only [step] at h
    split at h
    case h_2 => cases h
    rename_i f l hf
    have hw : waits s p c = false := by
      cases hx : waits s p c with
      | false => rfl
      | true => rw [((waits_iff _ _ _).1 hx).2.2] at g; cases g
    have hn : notifies s p f l (s.slots j) = false := by
      unfold notifies
      split
      · rfl
      · rw [w, en, hw]
        cases f with
        | true => rfl
        | false => have := hh p; rw [hf] at this; simpa [Phase.held] using this
    have hm := mem_calls s p f l
    have hsu := hi.slotU
    cases h
    constructor
    case silent =>
      rintro ⟨q, x, hx⟩
      rcases List.mem_append.1 hx with hx | hx
      · exact si ⟨q, x, hx⟩
      · obtain ⟨-, i, -, e2, e3, -⟩ := (hm q c x).1 hx
        rw [hsu i j (by omega) (by omega), hn] at e2
        cases e2
    all_goals (clear hm hsu; try simp only [hn]); grind [Phase.held]
  | unregister p d =>
    have hd : d ≠ c := fun e => hu p (by rw [e])
    simp only [step] at h
    split at h
    case isFalse => cases h
    cases h
    cases hx : (List.range s.cap).find? (fun i => (s.slots i).pid == d) with
    | none => constructor <;> (try simp only [upd, Notified]) <;> grind
    | some i =>
      have := List.find?_some hx
      have hij : j ≠ i := by intro e; subst e; simp at this; omega
      constructor <;> (try simp only [upd, Notified]) <;> grind
  | mark p =>
    simp only [step] at h
    split at h
    case isFalse => cases h
    have hw : waits s p c = false := by
      cases hx : waits s p c with
      | false => rfl
      | true => rw [((waits_iff _ _ _).1 hx).2.2] at g; cases g
    cases h
    constructor <;> (try simp only [Notified]) <;> grind

/-- A notification which is lost never comes, and the entry is never free again, unless the function is removed: whatever the program does afterwards,
the child is not notified, and its number, which may now be that of another process, stays in the table to which signals are sent. -/
theorem lost_forever (cap : Nat) (ls ks : List Label) (s s' : State) (c j : Nat) (h : run (start cap) ls = some s) (hl : Lost s c j) (hk : run s ks = some s') (hu : ∀ q, .unregister q c ∉ ks) :
    ¬ Notified s' c ∧ (s'.slots j).pid = c := by
  have hi := run_inv _ _ _ (inv_start cap) h
  clear h
  induction ks generalizing s with
  | nil => cases hk; exact ⟨hl.silent, hl.entry⟩
  | cons l r ih =>
    simp only [run] at hk
    obtain ⟨t, h1, h2⟩ := Option.bind_eq_some_iff.1 hk
    refine ih t (lost_step s t l c j hi hl (fun q e => hu q (by rw [e]; exact List.mem_cons_self ..)) h1) h2 (fun q hq => hu q (List.mem_cons_of_mem _ hq)) (inv_step s t l hi h1)

/-- Every child which a forced call finds in the loop of `waitpid` is lost. -/
theorem forced_lost (cap : Nat) (ls : List Label) (s s' : State) (h : run (start cap) ls = some s) (p c j : Nat) (l : List Nat) (hf : (s.procs p).phase = .scanning true l) (hc : c ∈ l)
    (he : (s.slots j).pid = c) (h0 : c ≠ 0) (hw : (s.slots j).waited = false) (hn : ∀ q, (s.procs q).forking = .none) (hs : step s (.scan p) = some s') : Lost s' c j := by
  have hi := run_inv _ _ _ (inv_start cap) h
  have ⟨l1, l2, l3⟩ := hi.listS p true l c hf hc
  have hl : Lost s c j := by
    refine ⟨l2, l1, h0, ?_, he, hw, ?_, ?_, ?_⟩
    · intro q
      by_cases hq : p = q
      · subst hq; rw [hf]; simp [Phase.held]
      · have : (s.procs q).phase = .idle := by
          have := hi.one p q (by rw [hf]; simp); grind
        rw [this]; simp [Phase.held]
    · intro q d; rw [hn]; simp
    · intro q; rw [hn]; simp
    · rintro ⟨q, x, hx⟩; exact (hi.slot j (by omega)).2.1 q x (he ▸ hx)
  exact lost_step s s' (.scan p) c j hi hl (fun q => by simp) hs

end Verif.Fork
