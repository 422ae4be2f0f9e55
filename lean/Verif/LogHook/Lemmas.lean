import Verif.LogHook.Model

/-! # Lemmas about the delivery of log messages -/
namespace Verif.LogHook

/-- The thread has the lock. -/
def Pc.holds : Pc → Bool
  | .got _ | .call _ _ | .inHook _ _ | .nested _ _ _ | .regHeld | .unregHeld _ => true
  | _ => false

/-- The thread is calling hooks. -/
def Pc.calls : Pc → Bool
  | .call _ _ | .inHook _ _ | .nested _ _ _ => true
  | _ => false

structure Inv (s : State) : Prop where
  locked : ∀ t, (s.pc t).holds = true ↔ s.lock = some t
  holder : ∀ t, (s.pc t).calls = true → s.holder = some t
  notStuck : ∀ t, s.pc t ≠ .stuck
  raced : ∀ t m, s.pc t = .tried m false → s.holder ≠ some t
  lost : ∀ x ∈ s.outcome, x.hooks = none → x.raced = true
  fresh : ∀ h ∈ s.hooks, h < s.handlePos
  gone : ∀ h ∈ s.gone, h < s.handlePos ∧ h ∉ s.hooks
  nodup : s.hooks.Nodup

theorem inv_init : Inv {} := by
  constructor <;> simp [Pc.holds, Pc.calls]

theorem pc_at (s : State) (t u : Nat) (p : Pc) : (s.at t p).pc u = if u = t then p else s.pc u := rfl

theorem holds_of_calls (p : Pc) : p.calls = true → p.holds = true := by cases p <;> simp [Pc.calls, Pc.holds]
theorem window_or_calls (p : Pc) : p.holds = true → p.window = false → p.calls = true := by cases p <;> simp [Pc.calls, Pc.holds, Pc.window]

/-- A thread which does not have the lock goes somewhere without it. -/
theorem inv_move (s : State) (h : Inv s) (t : Nat) (p : Pc) (h0 : (s.pc t).holds = false) (h1 : p.holds = false) (h2 : p ≠ .stuck)
    (h3 : ∀ m, p = .tried m false → s.holder ≠ some t) : Inv (s.at t p) := by
  have hc : p.calls = false := by cases hp : p.calls <;> simp_all [holds_of_calls]
  constructor
  · intro u
    have := h.locked u
    rw [pc_at]
    by_cases e : u = t
    · subst e; rw [if_pos rfl, h1]; rw [h0] at this; simpa [State.at] using this
    · rw [if_neg e]; exact this
  · intro u
    rw [pc_at]
    by_cases e : u = t
    · rw [if_pos e, hc]; simp
    · rw [if_neg e]; exact h.holder u
  · intro u
    rw [pc_at]
    by_cases e : u = t
    · rw [if_pos e]; exact h2
    · rw [if_neg e]; exact h.notStuck u
  · intro u m
    rw [pc_at]
    by_cases e : u = t
    · subst e; rw [if_pos rfl]; exact h3 m
    · rw [if_neg e]; exact h.raced u m
  · exact h.lost
  · exact h.fresh
  · exact h.gone
  · exact h.nodup

/-- A thread takes the lock. -/
theorem inv_take (s : State) (h : Inv s) (t : Nat) (p : Pc) (hl : s.lock = none) (h1 : p.holds = true) (h2 : p.window = true) :
    Inv { s.at t p with lock := some t } := by
  have hc : p.calls = false := by cases p <;> simp_all [Pc.calls, Pc.window]
  constructor
  · intro u
    have := h.locked u
    rw [hl] at this
    change ((s.at t p).pc u).holds = true ↔ some t = some u
    rw [pc_at]
    by_cases e : u = t
    · subst e; simp [h1]
    · rw [if_neg e, this]; simp [Ne.symm e]
  · intro u
    change ((s.at t p).pc u).calls = true → _
    rw [pc_at]
    by_cases e : u = t
    · rw [if_pos e, hc]; simp
    · rw [if_neg e]; exact h.holder u
  · intro u
    change (s.at t p).pc u ≠ _
    rw [pc_at]
    by_cases e : u = t
    · rw [if_pos e]; intro x; subst x; simp [Pc.window] at h2
    · rw [if_neg e]; exact h.notStuck u
  · intro u m
    change (s.at t p).pc u = _ → _
    rw [pc_at]
    by_cases e : u = t
    · rw [if_pos e]; intro x; subst x; simp [Pc.window] at h2
    · rw [if_neg e]; exact h.raced u m
  · exact h.lost
  · exact h.fresh
  · exact h.gone
  · exact h.nodup

/-- A thread gives the lock back. -/
theorem inv_release (s : State) (h : Inv s) (t : Nat) (p : Pc) (hl : (s.pc t).holds = true) (h1 : p = .idle ∨ p = .dead) (hooks gone : List Nat)
    (pos : Nat) (hf : ∀ x ∈ hooks, x < pos) (hg : ∀ x ∈ gone, x < pos ∧ x ∉ hooks) (hn : hooks.Nodup) :
    Inv { s.at t p with lock := none, hooks := hooks, gone := gone, handlePos := pos } := by
  have hp : p.holds = false ∧ p.calls = false ∧ p ≠ .stuck ∧ ∀ m, p ≠ .tried m false := by rcases h1 with rfl | rfl <;> simp [Pc.calls, Pc.holds]
  have hl' := (h.locked t).mp hl
  constructor
  · intro u
    have := h.locked u
    change ((s.at t p).pc u).holds = true ↔ none = some u
    rw [pc_at]
    by_cases e : u = t
    · rw [if_pos e, hp.1]; simp
    · rw [if_neg e, this, hl']; simp [Ne.symm e]
  · intro u
    change ((s.at t p).pc u).calls = true → _
    rw [pc_at]
    by_cases e : u = t
    · rw [if_pos e, hp.2.1]; simp
    · rw [if_neg e]; exact h.holder u
  · intro u
    change (s.at t p).pc u ≠ _
    rw [pc_at]
    by_cases e : u = t
    · rw [if_pos e]; exact hp.2.2.1
    · rw [if_neg e]; exact h.notStuck u
  · intro u m
    change (s.at t p).pc u = _ → _
    rw [pc_at]
    by_cases e : u = t
    · rw [if_pos e]; exact fun x => absurd x (hp.2.2.2 m)
    · rw [if_neg e]; exact h.raced u m
  · exact h.lost
  · exact hf
  · exact hg
  · exact hn

/-- A thread which is calling hooks goes on, or begins to. -/
theorem inv_calls (s : State) (h : Inv s) (t : Nat) (p : Pc) (hl : (s.pc t).holds = true) (h1 : p.calls = true) :
    Inv { s.at t p with holder := some t } := by
  have hl' := (h.locked t).mp hl
  constructor
  · intro u
    have := h.locked u
    change ((s.at t p).pc u).holds = true ↔ s.lock = some u
    rw [pc_at]
    by_cases e : u = t
    · subst e; rw [if_pos rfl, hl']; simp [holds_of_calls _ h1]
    · rw [if_neg e, this]
  · intro u
    change ((s.at t p).pc u).calls = true → some t = some u
    rw [pc_at]
    by_cases e : u = t
    · intro _; rw [e]
    · rw [if_neg e]
      intro hu
      have := (h.locked u).mp (holds_of_calls _ hu)
      rw [← this, hl']
  · intro u
    change (s.at t p).pc u ≠ _
    rw [pc_at]
    by_cases e : u = t
    · rw [if_pos e]; intro x; subst x; simp [Pc.calls] at h1
    · rw [if_neg e]; exact h.notStuck u
  · intro u m
    change (s.at t p).pc u = _ → some t ≠ some u
    rw [pc_at]
    by_cases e : u = t
    · rw [if_pos e]; intro x; subst x; simp [Pc.calls] at h1
    · rw [if_neg e]; intro _; simpa using Ne.symm e
  · exact h.lost
  · exact h.fresh
  · exact h.gone
  · exact h.nodup

/-- What is noted about the history does not matter. -/
theorem inv_ghost (s : State) (h : Inv s) (c l k o a) (hl : ∀ x ∈ l, Entry.hooks x = none → x.raced = true) :
    Inv { s with called := c, outcome := l, skipped := k, overflow := o, aborted := a } :=
  ⟨h.locked, h.holder, h.notStuck, h.raced, hl, h.fresh, h.gone, h.nodup⟩

theorem eta_holder (s : State) (t : Nat) (h : s.holder = some t) : { s with holder := some t } = s := by
  cases s; simp_all

theorem inv_log (s : State) (h : Inv s) (t m : Nat) : Inv (logAct s t m) := by
  unfold logAct
  split
  · rename_i hp
    split
    · rename_i hl; exact inv_take s h t _ hl rfl rfl
    · rename_i u hl
      refine inv_move s h t _ (by simp [hp, Pc.holds]) rfl (by simp) ?_
      intro m' e
      simp only [Pc.tried.injEq] at e
      have hu := (h.locked u).mpr hl
      have := h.holder u (window_or_calls _ hu e.2)
      rw [this]
      intro x
      simp only [Option.some.injEq] at x
      subst x
      rw [hp] at hu; simp [Pc.holds] at hu
  · rename_i m' k hp
    split
    · exact h
    · have hh := h.holder t (by simp [hp, Pc.calls])
      have := inv_calls s h t (.nested m' k m) (by simp [hp, Pc.holds]) rfl
      rwa [eta_holder (s.at t _) t hh] at this
  · exact h

theorem inv_register (s : State) (h : Inv s) (t : Nat) : Inv (registerAct s t) := by
  unfold registerAct
  split
  · rename_i hp
    split
    · exact inv_ghost s h _ _ _ _ _ h.lost
    · exact inv_move s h t _ (by simp [hp, Pc.holds]) rfl (by simp) (by simp)
  · exact h

theorem inv_unregister (s : State) (h : Inv s) (t x : Nat) : Inv (unregisterAct s t x) := by
  unfold unregisterAct
  split
  · rename_i hp
    exact inv_move s h t _ (by simp [hp, Pc.holds]) rfl (by simp) (by simp)
  · exact h

theorem inv_cancel (s : State) (h : Inv s) (t : Nat) : Inv (cancelAct s t) := by
  unfold cancelAct
  split
  · rename_i hp
    exact inv_release s h t _ (by simp [hp, Pc.holds]) (.inr rfl) s.hooks s.gone s.handlePos h.fresh h.gone h.nodup
  · exact h

theorem inv_stepAct (s : State) (h : Inv s) (t : Nat) : Inv (stepAct s t) := by
  unfold stepAct
  split
  · rename_i m raced hp
    split
    · rename_i hh
      have h1 := inv_move s h t .idle (by simp [hp, Pc.holds]) rfl (by simp) (by simp)
      refine inv_ghost _ h1 _ _ _ _ _ ?_
      intro x hx hn
      simp only [List.mem_append, List.mem_singleton] at hx
      rcases hx with hx | rfl
      · exact h.lost x hx hn
      · cases raced with
        | true => rfl
        | false => exact absurd hh (h.raced t m hp)
    · exact inv_move s h t _ (by simp [hp, Pc.holds]) rfl (by simp) (by simp)
  · rename_i m hp
    split
    · rename_i hl; exact inv_take s h t _ hl rfl rfl
    · exact h
  · rename_i m hp
    have := inv_calls s h t (.call m 0) (by simp [hp, Pc.holds]) rfl
    refine inv_ghost _ this _ _ _ _ _ ?_
    intro x hx hn
    simp only [List.mem_append, List.mem_singleton] at hx
    rcases hx with hx | rfl
    · exact h.lost x hx hn
    · simp at hn
  · rename_i m k hp
    split
    · have hh := h.holder t (by simp [hp, Pc.calls])
      have := inv_calls s h t (.inHook m k) (by simp [hp, Pc.holds]) rfl
      rw [eta_holder (s.at t _) t hh] at this
      exact inv_ghost _ this _ _ _ _ _ h.lost
    · exact inv_release s h t _ (by simp [hp, Pc.holds]) (.inl rfl) s.hooks s.gone s.handlePos h.fresh h.gone h.nodup
  · rename_i m k hp
    have hh := h.holder t (by simp [hp, Pc.calls])
    have := inv_calls s h t (.call m (k + 1)) (by simp [hp, Pc.holds]) rfl
    rwa [eta_holder (s.at t _) t hh] at this
  · rename_i m k n hp
    have hh := h.holder t (by simp [hp, Pc.calls])
    rw [if_pos hh]
    have := inv_calls s h t (.inHook m k) (by simp [hp, Pc.holds]) rfl
    rw [eta_holder (s.at t _) t hh] at this
    exact inv_ghost _ this _ _ _ _ _ h.lost
  · rename_i hp
    split
    · rename_i hl; exact inv_take s h t _ hl rfl rfl
    · exact h
  · rename_i hp
    split
    · refine inv_release s h t _ (by simp [hp, Pc.holds]) (.inl rfl) (s.hooks ++ [s.handlePos]) s.gone (s.handlePos + 1) ?_ ?_ ?_
      · intro x hx
        simp only [List.mem_append, List.mem_singleton] at hx
        rcases hx with hx | rfl
        · have := h.fresh x hx; omega
        · omega
      · intro x hx
        have := h.gone x hx
        refine ⟨by omega, ?_⟩
        simp only [List.mem_append, List.mem_singleton, not_or]
        exact ⟨this.2, by omega⟩
      · rw [List.nodup_append]
        refine ⟨h.nodup, by simp, ?_⟩
        intro x hx y hy e
        simp at hy
        have := h.fresh x hx
        omega
    · exact inv_ghost s h _ _ _ _ _ h.lost
  · rename_i x hp
    split
    · rename_i hl; exact inv_take s h t _ hl rfl rfl
    · exact h
  · rename_i x hp
    split
    · rename_i hc
      refine inv_release s h t _ (by simp [hp, Pc.holds]) (.inl rfl) (s.hooks.erase x) (s.gone ++ [x]) s.handlePos ?_ ?_ (h.nodup.erase x)
      · intro y hy; exact h.fresh y (List.mem_of_mem_erase hy)
      · intro y hy
        simp only [List.mem_append, List.mem_singleton] at hy
        rcases hy with hy | rfl
        · exact ⟨(h.gone y hy).1, fun e => (h.gone y hy).2 (List.mem_of_mem_erase e)⟩
        · exact ⟨h.fresh y (by simpa using hc), by rw [h.nodup.mem_erase_iff]; simp⟩
    · exact inv_ghost s h _ _ _ _ _ h.lost
  · exact h

theorem inv_step (s : State) (h : Inv s) (a : Act) : Inv (step s a) := by
  unfold step
  split
  · exact h
  · cases a with
    | log t m => exact inv_log s h t m
    | register t => exact inv_register s h t
    | unregister t x => exact inv_unregister s h t x
    | step t => exact inv_stepAct s h t
    | cancel t => exact inv_cancel s h t

theorem inv_foldl (acts : List Act) (s : State) (h : Inv s) : Inv (acts.foldl step s) := by
  induction acts generalizing s with
  | nil => exact h
  | cons a l ih => exact ih _ (inv_step s h a)

theorem inv_run (acts : List Act) : Inv (run acts) := inv_foldl acts {} inv_init

end Verif.LogHook
