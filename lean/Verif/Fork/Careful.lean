import Verif.Fork.Lemmas

namespace Verif.Fork

/-- The children which a call which is not forced has waited for and not yet notified. -/
def Phase.held : Phase → List Nat
  | .reaping false l => l
  | .scanning false l => l
  | _ => []

/-- Holds in every state of careful runs. -/
structure Safe (s : State) : Prop where
  excl : ∀ p q, (s.procs p).forking ≠ .none → (s.procs q).forking ≠ .none → p = q
  chosenFree : ∀ p i, (s.procs p).forking = .chosen i → (s.slots i).pid = 0
  forkedFree : ∀ p i c, (s.procs p).forking = .forked i c → (s.slots i).pid = 0 ∧ (s.procs c).status = .run
  free : ∀ i, (s.slots i).pid = 0 → (s.slots i).waited = false
  waitedGone : ∀ i, (s.slots i).waited = true → (s.procs (s.slots i).pid).status = .gone
  logGone : ∀ q c h, (q, c, h) ∈ s.log → (s.procs c).status = .gone
  forcedR : ∀ p l, (s.procs p).phase = .reaping true l → l = []
  forcedS : ∀ p l, (s.procs p).phase = .scanning true l → l = []
  all : ∀ p c h, (p, c, h) ∈ s.registered → c ∈ s.removed ∨ (∃ q h', (q, c, h') ∈ s.log) ∨ ∃ j, (s.slots j).pid = c ∧
    ((s.slots j).waited = true ∨ (s.procs c).status ≠ .gone ∨ (s.procs p).status ≠ .run ∨ c ∈ (s.procs p).phase.held)

theorem safe_start (cap : Nat) : Safe (start cap) := by
  constructor <;> simp [start, Slot.clear] <;> grind

theorem Inv.none {s : State} (hi : Inv s) (h : ∀ q, q < s.count → (s.procs q).forking = .none) (q : Nat) : (s.procs q).forking = .none := by
  by_cases hp : q < s.count
  · exact h q hp
  · exact (hi.idle q (by rw [hi.bound q (by omega)]; decide)).2

theorem safe_choose (s s' : State) (p : Nat) (hi : Inv s) (hs : Safe s) (hcare : Careful s (.choose p)) (h : step s (.choose p) = some s') : Safe s' := by
  simp only [step] at h
  split at h
  case isFalse => cases h
  rename_i hc
  obtain ⟨i, ha, h⟩ := Option.map_eq_some_iff.1 h
  have ⟨e1, e2⟩ := allocate_some s i ha
  have hcare := hi.none hcare
  cases h
  constructor
  case excl => have h0 := hs.excl; have h1 := hi.idle; clear hi hs; simp only [upd, gone, List.mem_append, Bool.and_eq_true]; grind [Slot.clear]
  case chosenFree => have h0 := hs.chosenFree; have h1 := hs.excl; clear hi hs; simp only [upd, gone, List.mem_append, Bool.and_eq_true]; grind [Slot.clear]
  case forkedFree => have h0 := hs.forkedFree; have h1 := hs.chosenFree; have h2 := hs.excl; have h3 := hi.forked; clear hi hs; simp only [upd, gone, List.mem_append, Bool.and_eq_true]; grind [Slot.clear]
  case free => have h0 := hs.free; clear hi hs; simp only [upd, gone, List.mem_append, Bool.and_eq_true]; grind [Slot.clear]
  case waitedGone => have h0 := hs.waitedGone; have h1 := hi.cap; have h2 := hi.slot; clear hi hs; simp only [upd, gone, List.mem_append, Bool.and_eq_true]; grind [Slot.clear]
  case logGone => have h0 := hs.logGone; have h1 := hi.logR; have h2 := hi.reg; clear hi hs; simp only [upd, gone, List.mem_append, Bool.and_eq_true]; grind [Slot.clear]
  case forcedR => have h0 := hs.forcedR; clear hi hs; simp only [upd, gone, List.mem_append, Bool.and_eq_true]; grind [Slot.clear]
  case forcedS => have h0 := hs.forcedS; have h1 := hs.forcedR; clear hi hs; simp only [upd, gone, List.mem_append, Bool.and_eq_true]; grind [Slot.clear]
  case all =>
    intro p' c' h' hr
    have b := hi.bound; have z := hi.zero; have e := hi.reg; have u := hi.regU; have sl := hi.slot
    have a := hs.all p' c' h'
    clear hi hs
    simp only [upd, gone, List.mem_append] at *
    grind [Phase.held]

theorem safe_fork (s s' : State) (p : Nat) (hi : Inv s) (hs : Safe s) (hcare : Careful s (.fork p)) (h : step s (.fork p) = some s') : Safe s' := by
  simp only [step] at h
  split at h
  case h_2 => cases h
  rename_i i hf
  split at h
  case isFalse => cases h
  rename_i hc
  cases h
  constructor
  case excl => have h0 := hs.excl; have h1 := hi.idle; clear hi hs; simp only [upd, gone, List.mem_append, Bool.and_eq_true]; grind [Slot.clear]
  case chosenFree => have h0 := hs.chosenFree; have h1 := hs.excl; clear hi hs; simp only [upd, gone, List.mem_append, Bool.and_eq_true]; grind [Slot.clear]
  case forkedFree => have h0 := hs.forkedFree; have h1 := hs.chosenFree; have h2 := hs.excl; have h3 := hi.forked; have h4 := hi.bound; clear hi hs; simp only [upd, gone, List.mem_append, Bool.and_eq_true]; grind [Slot.clear]
  case free => have h0 := hs.free; clear hi hs; simp only [upd, gone, List.mem_append, Bool.and_eq_true]; grind [Slot.clear]
  case waitedGone => have h0 := hs.waitedGone; have h1 := hi.cap; have h2 := hi.slot; have h3 := hs.free; have h4 := hi.reg; have h5 := hi.bound; have h6 := hi.zero; clear hi hs; simp only [upd, gone, List.mem_append, Bool.and_eq_true]; grind [Slot.clear]
  case logGone => have h0 := hs.logGone; have h1 := hi.logR; have h2 := hi.reg; have h3 := hi.bound; clear hi hs; simp only [upd, gone, List.mem_append, Bool.and_eq_true]; grind [Slot.clear]
  case forcedR => have h0 := hs.forcedR; clear hi hs; simp only [upd, gone, List.mem_append, Bool.and_eq_true]; grind [Slot.clear]
  case forcedS => have h0 := hs.forcedS; have h1 := hs.forcedR; clear hi hs; simp only [upd, gone, List.mem_append, Bool.and_eq_true]; grind [Slot.clear]
  case all =>
    intro p' c' h' hr
    have b := hi.bound; have z := hi.zero; have e := hi.reg; have u := hi.regU; have sl := hi.slot
    have a := hs.all p' c' h'
    clear hi hs
    simp only [upd, gone, List.mem_append] at *
    grind [Phase.held]

theorem safe_store (s s' : State) (p x : Nat) (hi : Inv s) (hs : Safe s) (hcare : Careful s (.store p x)) (h : step s (.store p x) = some s') : Safe s' := by
  simp only [step] at h
  split at h
  case h_2 => cases h
  rename_i i c hf
  split at h
  case isFalse => cases h
  rename_i hc
  have hfree := hi.free hc.2.2
  cases h
  constructor
  case excl => have h0 := hs.excl; have h1 := hi.idle; clear hi hs; simp only [upd, gone, List.mem_append, Bool.and_eq_true]; grind [Slot.clear]
  case chosenFree => have h0 := hs.chosenFree; have h1 := hs.excl; have h2 := hi.forked; clear hi hs; simp only [upd, gone, List.mem_append, Bool.and_eq_true]; grind [Slot.clear]
  case forkedFree => have h0 := hs.forkedFree; have h1 := hs.chosenFree; have h2 := hs.excl; have h3 := hi.forked; clear hi hs; simp only [upd, gone, List.mem_append, Bool.and_eq_true]; grind [Slot.clear]
  case free => have h0 := hs.free; have h1 := hs.forkedFree; have h2 := hi.forked; clear hi hs; simp only [upd, gone, List.mem_append, Bool.and_eq_true]; grind [Slot.clear]
  case waitedGone => have h0 := hs.waitedGone; have h1 := hi.cap; have h2 := hi.slot; have h3 := hs.forkedFree; have h4 := hs.free; clear hi hs; simp only [upd, gone, List.mem_append, Bool.and_eq_true]; grind [Slot.clear]
  case logGone => have h0 := hs.logGone; have h1 := hi.logR; have h2 := hi.reg; clear hi hs; simp only [upd, gone, List.mem_append, Bool.and_eq_true]; grind [Slot.clear]
  case forcedR => have h0 := hs.forcedR; clear hi hs; simp only [upd, gone, List.mem_append, Bool.and_eq_true]; grind [Slot.clear]
  case forcedS => have h0 := hs.forcedS; have h1 := hs.forcedR; clear hi hs; simp only [upd, gone, List.mem_append, Bool.and_eq_true]; grind [Slot.clear]
  case all =>
    intro p' c' h' hr
    have a := hs.all p' c' h'
    have ⟨f1, f2⟩ := hs.forkedFree p i c hf
    have e := hi.reg p' c' h'
    clear hi hs
    simp only [upd, List.mem_append, List.mem_singleton, Prod.mk.injEq] at *
    rcases hr with hr | ⟨rfl, rfl, rfl⟩
    · grind
    · exact .inr (.inr ⟨i, by simp, by grind⟩)

theorem safe_exit (s s' : State) (c : Nat) (hi : Inv s) (hs : Safe s) (hcare : Careful s (.exit c)) (h : step s (.exit c) = some s') : Safe s' := by
  simp only [step] at h
  split at h
  case isFalse => cases h
  rename_i hc
  have hcare : ∀ q i, (s.procs q).forking ≠ .forked i c := by
    intro q i hq
    by_cases h1 : q < s.count
    · exact hcare q i h1 hq
    · have := (hi.idle q (by rw [hi.bound q (by omega)]; decide)).2
      rw [this] at hq; cases hq
  cases h
  constructor
  case excl => have h0 := hs.excl; have h1 := hi.idle; clear hi hs; simp only [upd, gone, List.mem_append, Bool.and_eq_true]; grind [Slot.clear]
  case chosenFree => have h0 := hs.chosenFree; have h1 := hs.excl; clear hi hs; simp only [upd, gone, List.mem_append, Bool.and_eq_true]; grind [Slot.clear]
  case forkedFree => have h0 := hs.forkedFree; have h1 := hs.chosenFree; have h2 := hs.excl; have h3 := hi.forked; have h4 := hi.bound; have h5 := hi.idle; clear hi hs; simp only [upd, gone, List.mem_append, Bool.and_eq_true]; grind [Slot.clear]
  case free => have h0 := hs.free; clear hi hs; simp only [upd, gone, List.mem_append, Bool.and_eq_true]; grind [Slot.clear]
  case waitedGone => have h0 := hs.waitedGone; have h1 := hi.cap; have h2 := hi.slot; clear hi hs; simp only [upd, gone, List.mem_append, Bool.and_eq_true]; grind [Slot.clear]
  case logGone => have h0 := hs.logGone; have h1 := hi.logR; have h2 := hi.reg; clear hi hs; simp only [upd, gone, List.mem_append, Bool.and_eq_true]; grind [Slot.clear]
  case forcedR => have h0 := hs.forcedR; clear hi hs; simp only [upd, gone, List.mem_append, Bool.and_eq_true]; grind [Slot.clear]
  case forcedS => have h0 := hs.forcedS; have h1 := hs.forcedR; clear hi hs; simp only [upd, gone, List.mem_append, Bool.and_eq_true]; grind [Slot.clear]
  case all =>
    intro p' c' h' hr
    rcases hs.all p' c' h' hr with a | a | ⟨j, a1, a2⟩
    · exact .inl a
    · exact .inr (.inl a)
    · refine .inr (.inr ⟨j, a1, ?_⟩)
      clear hi hs
      rcases a2 with a2 | a2 | a2 | a2
      · exact .inl a2
      · refine .inr (.inl ?_); grind
      · refine .inr (.inr (.inl ?_)); grind
      · refine .inr (.inr (.inr ?_)); grind [Phase.held]

theorem safe_init (s s' : State) (c : Nat) (hi : Inv s) (hs : Safe s) (hcare : Careful s (.init c)) (h : step s (.init c) = some s') : Safe s' := by
  simp only [step] at h
  split at h
  case isFalse => cases h
  rename_i hc
  rw [waits_iff] at hc; unfold Ended at hc
  cases h
  constructor
  case excl => have h0 := hs.excl; have h1 := hi.idle; clear hi hs; simp only [upd, gone, List.mem_append, Bool.and_eq_true]; grind [Slot.clear]
  case chosenFree => have h0 := hs.chosenFree; have h1 := hs.excl; clear hi hs; simp only [upd, gone, List.mem_append, Bool.and_eq_true]; grind [Slot.clear]
  case forkedFree => have h0 := hs.forkedFree; have h1 := hs.chosenFree; have h2 := hs.excl; have h3 := hi.forked; clear hi hs; simp only [upd, gone, List.mem_append, Bool.and_eq_true]; grind [Slot.clear]
  case free => have h0 := hs.free; clear hi hs; simp only [upd, gone, List.mem_append, Bool.and_eq_true]; grind [Slot.clear]
  case waitedGone => have h0 := hs.waitedGone; have h1 := hi.cap; have h2 := hi.slot; clear hi hs; simp only [upd, gone, List.mem_append, Bool.and_eq_true]; grind [Slot.clear]
  case logGone => have h0 := hs.logGone; have h1 := hi.logR; have h2 := hi.reg; clear hi hs; simp only [upd, gone, List.mem_append, Bool.and_eq_true]; grind [Slot.clear]
  case forcedR => have h0 := hs.forcedR; clear hi hs; simp only [upd, gone, List.mem_append, Bool.and_eq_true]; grind [Slot.clear]
  case forcedS => have h0 := hs.forcedS; have h1 := hs.forcedR; clear hi hs; simp only [upd, gone, List.mem_append, Bool.and_eq_true]; grind [Slot.clear]
  case all =>
    intro p' c' h' hr
    have b := hi.bound; have z := hi.zero; have e := hi.reg; have u := hi.regU; have sl := hi.slot
    have a := hs.all p' c' h'
    clear hi hs
    simp only [upd, gone, List.mem_append] at *
    grind [Phase.held]

theorem safe_deliver (s s' : State) (p : Nat) (hi : Inv s) (hs : Safe s) (hcare : Careful s (.deliver p)) (h : step s (.deliver p) = some s') : Safe s' := by
  simp only [step] at h
  split at h
  case isFalse => cases h
  rename_i hc
  cases h
  constructor
  case excl => have h0 := hs.excl; have h1 := hi.idle; clear hi hs; simp only [upd, gone, List.mem_append, Bool.and_eq_true]; grind [Slot.clear]
  case chosenFree => have h0 := hs.chosenFree; have h1 := hs.excl; clear hi hs; simp only [upd, gone, List.mem_append, Bool.and_eq_true]; grind [Slot.clear]
  case forkedFree => have h0 := hs.forkedFree; have h1 := hs.chosenFree; have h2 := hs.excl; have h3 := hi.forked; clear hi hs; simp only [upd, gone, List.mem_append, Bool.and_eq_true]; grind [Slot.clear]
  case free => have h0 := hs.free; clear hi hs; simp only [upd, gone, List.mem_append, Bool.and_eq_true]; grind [Slot.clear]
  case waitedGone => have h0 := hs.waitedGone; have h1 := hi.cap; have h2 := hi.slot; clear hi hs; simp only [upd, gone, List.mem_append, Bool.and_eq_true]; grind [Slot.clear]
  case logGone => have h0 := hs.logGone; have h1 := hi.logR; have h2 := hi.reg; clear hi hs; simp only [upd, gone, List.mem_append, Bool.and_eq_true]; grind [Slot.clear]
  case forcedR => have h0 := hs.forcedR; clear hi hs; simp only [upd, gone, List.mem_append, Bool.and_eq_true]; grind [Slot.clear]
  case forcedS => have h0 := hs.forcedS; have h1 := hs.forcedR; clear hi hs; simp only [upd, gone, List.mem_append, Bool.and_eq_true]; grind [Slot.clear]
  case all =>
    intro p' c' h' hr
    have b := hi.bound; have z := hi.zero; have e := hi.reg; have u := hi.regU; have sl := hi.slot
    have a := hs.all p' c' h'
    clear hi hs
    simp only [upd, gone, List.mem_append] at *
    grind [Phase.held]

theorem safe_begin (s s' : State) (p : Nat) (f : Bool) (hi : Inv s) (hs : Safe s) (hcare : Careful s (.begin p f)) (h : step s (.begin p f) = some s') : Safe s' := by
  simp only [step] at h
  split at h
  case isFalse => cases h
  rename_i hc
  have hfree := hi.free hc.2.2.2.2
  cases h
  constructor
  case excl => have h0 := hs.excl; have h1 := hi.idle; clear hi hs; simp only [upd, gone, List.mem_append, Bool.and_eq_true]; grind [Slot.clear]
  case chosenFree => have h0 := hs.chosenFree; have h1 := hs.excl; clear hi hs; simp only [upd, gone, List.mem_append, Bool.and_eq_true]; grind [Slot.clear]
  case forkedFree => have h0 := hs.forkedFree; have h1 := hs.chosenFree; have h2 := hs.excl; have h3 := hi.forked; clear hi hs; simp only [upd, gone, List.mem_append, Bool.and_eq_true]; grind [Slot.clear]
  case free => have h0 := hs.free; clear hi hs; simp only [upd, gone, List.mem_append, Bool.and_eq_true]; grind [Slot.clear]
  case waitedGone => have h0 := hs.waitedGone; have h1 := hi.cap; have h2 := hi.slot; clear hi hs; simp only [upd, gone, List.mem_append, Bool.and_eq_true]; grind [Slot.clear]
  case logGone => have h0 := hs.logGone; have h1 := hi.logR; have h2 := hi.reg; clear hi hs; simp only [upd, gone, List.mem_append, Bool.and_eq_true]; grind [Slot.clear]
  case forcedR => have h0 := hs.forcedR; clear hi hs; simp only [upd, gone, List.mem_append, Bool.and_eq_true]; grind [Slot.clear]
  case forcedS => have h0 := hs.forcedS; have h1 := hs.forcedR; clear hi hs; simp only [upd, gone, List.mem_append, Bool.and_eq_true]; grind [Slot.clear]
  case all =>
    intro p' c' h' hr
    have b := hi.bound; have z := hi.zero; have e := hi.reg; have u := hi.regU; have sl := hi.slot
    have a := hs.all p' c' h'
    clear hi hs
    simp only [upd, gone, List.mem_append] at *
    grind [Phase.held]

theorem safe_reap (s s' : State) (p c : Nat) (hi : Inv s) (hs : Safe s) (hcare : Careful s (.reap p c)) (h : step s (.reap p c) = some s') : Safe s' := by
  simp only [step] at h
  split at h
  case h_2 => cases h
  rename_i f l hf
  split at h
  case isFalse => cases h
  rename_i hc
  rw [waits_iff] at hc; unfold Ended at hc
  have hp := hi.idle p
  have hcare : f = false := by
    cases f
    · rfl
    · exact absurd hf (hcare l)
  subst hcare
  cases h
  constructor
  case excl => have h0 := hs.excl; have h1 := hi.idle; clear hi hs; simp only [upd, gone, List.mem_append, Bool.and_eq_true]; grind [Slot.clear]
  case chosenFree => have h0 := hs.chosenFree; have h1 := hs.excl; clear hi hs; simp only [upd, gone, List.mem_append, Bool.and_eq_true]; grind [Slot.clear]
  case forkedFree => have h0 := hs.forkedFree; have h1 := hs.chosenFree; have h2 := hs.excl; have h3 := hi.forked; clear hi hs; simp only [upd, gone, List.mem_append, Bool.and_eq_true]; grind [Slot.clear]
  case free => have h0 := hs.free; clear hi hs; simp only [upd, gone, List.mem_append, Bool.and_eq_true]; grind [Slot.clear]
  case waitedGone => have h0 := hs.waitedGone; have h1 := hi.cap; have h2 := hi.slot; clear hi hs; simp only [upd, gone, List.mem_append, Bool.and_eq_true]; grind [Slot.clear]
  case logGone => have h0 := hs.logGone; have h1 := hi.logR; have h2 := hi.reg; clear hi hs; simp only [upd, gone, List.mem_append, Bool.and_eq_true]; grind [Slot.clear]
  case forcedR => have h0 := hs.forcedR; clear hi hs; simp only [upd, gone, List.mem_append, Bool.and_eq_true]; grind [Slot.clear]
  case forcedS => have h0 := hs.forcedS; have h1 := hs.forcedR; clear hi hs; simp only [upd, gone, List.mem_append, Bool.and_eq_true]; grind [Slot.clear]
  case all =>
    intro p' c' h' hr
    have b := hi.bound; have z := hi.zero; have e := hi.reg; have u := hi.regU; have sl := hi.slot
    have a := hs.all p' c' h'
    clear hi hs
    simp only [upd, gone, List.mem_append] at *
    grind [Phase.held]

theorem safe_endReap (s s' : State) (p : Nat) (hi : Inv s) (hs : Safe s) (hcare : Careful s (.endReap p)) (h : step s (.endReap p) = some s') : Safe s' := by
  simp only [step] at h
  split at h
  case h_2 => cases h
  rename_i f l hf
  split at h
  case isFalse => cases h
  rename_i hc
  clear hc
  cases h
  constructor
  case excl => have h0 := hs.excl; have h1 := hi.idle; clear hi hs; simp only [upd, gone, List.mem_append, Bool.and_eq_true]; grind [Slot.clear]
  case chosenFree => have h0 := hs.chosenFree; have h1 := hs.excl; clear hi hs; simp only [upd, gone, List.mem_append, Bool.and_eq_true]; grind [Slot.clear]
  case forkedFree => have h0 := hs.forkedFree; have h1 := hs.chosenFree; have h2 := hs.excl; have h3 := hi.forked; clear hi hs; simp only [upd, gone, List.mem_append, Bool.and_eq_true]; grind [Slot.clear]
  case free => have h0 := hs.free; clear hi hs; simp only [upd, gone, List.mem_append, Bool.and_eq_true]; grind [Slot.clear]
  case waitedGone => have h0 := hs.waitedGone; have h1 := hi.cap; have h2 := hi.slot; clear hi hs; simp only [upd, gone, List.mem_append, Bool.and_eq_true]; grind [Slot.clear]
  case logGone => have h0 := hs.logGone; have h1 := hi.logR; have h2 := hi.reg; clear hi hs; simp only [upd, gone, List.mem_append, Bool.and_eq_true]; grind [Slot.clear]
  case forcedR => have h0 := hs.forcedR; clear hi hs; simp only [upd, gone, List.mem_append, Bool.and_eq_true]; grind [Slot.clear]
  case forcedS => have h0 := hs.forcedS; have h1 := hs.forcedR; clear hi hs; simp only [upd, gone, List.mem_append, Bool.and_eq_true]; grind [Slot.clear]
  case all =>
    intro p' c' h' hr
    rcases hs.all p' c' h' hr with a | a | ⟨j, a1, a2⟩
    · exact .inl a
    · exact .inr (.inl a)
    · refine .inr (.inr ⟨j, a1, ?_⟩)
      clear hi hs
      simp only [upd]; cases f <;> grind [Phase.held]

theorem safe_unregister (s s' : State) (p c : Nat) (hi : Inv s) (hs : Safe s) (hcare : Careful s (.unregister p c)) (h : step s (.unregister p c) = some s') : Safe s' := by
  simp only [step] at h
  split at h
  case isFalse => cases h
  rename_i hc
  have hfree := hi.free hc.2.2.2
  cases h
  cases hx : (List.range s.cap).find? (fun i => (s.slots i).pid == c) with
  | none =>
    constructor
    case excl => have h0 := hs.excl; have h1 := hi.idle; clear hi hs; simp only [upd, gone, List.mem_append, Bool.and_eq_true]; grind [Slot.clear]
    case chosenFree => have h0 := hs.chosenFree; have h1 := hs.excl; clear hi hs; simp only [upd, gone, List.mem_append, Bool.and_eq_true]; grind [Slot.clear]
    case forkedFree => have h0 := hs.forkedFree; have h1 := hs.chosenFree; have h2 := hs.excl; have h3 := hi.forked; clear hi hs; simp only [upd, gone, List.mem_append, Bool.and_eq_true]; grind [Slot.clear]
    case free => have h0 := hs.free; clear hi hs; simp only [upd, gone, List.mem_append, Bool.and_eq_true]; grind [Slot.clear]
    case waitedGone => have h0 := hs.waitedGone; have h1 := hi.cap; have h2 := hi.slot; clear hi hs; simp only [upd, gone, List.mem_append, Bool.and_eq_true]; grind [Slot.clear]
    case logGone => have h0 := hs.logGone; have h1 := hi.logR; have h2 := hi.reg; clear hi hs; simp only [upd, gone, List.mem_append, Bool.and_eq_true]; grind [Slot.clear]
    case forcedR => have h0 := hs.forcedR; clear hi hs; simp only [upd, gone, List.mem_append, Bool.and_eq_true]; grind [Slot.clear]
    case forcedS => have h0 := hs.forcedS; have h1 := hs.forcedR; clear hi hs; simp only [upd, gone, List.mem_append, Bool.and_eq_true]; grind [Slot.clear]
    case all =>
      intro p' c' h' hr
      rcases hs.all p' c' h' hr with a | a | ⟨j, a1, a2⟩
      · exact .inl (List.mem_append_left _ a)
      · exact .inr (.inl a)
      · refine .inr (.inr ⟨j, a1, ?_⟩)
        clear hi hs
        simp only [upd]
        grind [Phase.held]
  | some i =>
    have hz := List.find?_some hx
    simp only [beq_iff_eq] at hz
    constructor
    case excl => have h0 := hs.excl; have h1 := hi.idle; clear hi hs; simp only [upd, gone, List.mem_append, Bool.and_eq_true]; grind [Slot.clear]
    case chosenFree => have h0 := hs.chosenFree; have h1 := hs.excl; clear hi hs; simp only [upd, gone, List.mem_append, Bool.and_eq_true]; grind [Slot.clear]
    case forkedFree => have h0 := hs.forkedFree; have h1 := hs.chosenFree; have h2 := hs.excl; have h3 := hi.forked; clear hi hs; simp only [upd, gone, List.mem_append, Bool.and_eq_true]; grind [Slot.clear]
    case free => have h0 := hs.free; clear hi hs; simp only [upd, gone, List.mem_append, Bool.and_eq_true]; grind [Slot.clear]
    case waitedGone => have h0 := hs.waitedGone; have h1 := hi.cap; have h2 := hi.slot; clear hi hs; simp only [upd, gone, List.mem_append, Bool.and_eq_true]; grind [Slot.clear]
    case logGone => have h0 := hs.logGone; have h1 := hi.logR; have h2 := hi.reg; clear hi hs; simp only [upd, gone, List.mem_append, Bool.and_eq_true]; grind [Slot.clear]
    case forcedR => have h0 := hs.forcedR; clear hi hs; simp only [upd, gone, List.mem_append, Bool.and_eq_true]; grind [Slot.clear]
    case forcedS => have h0 := hs.forcedS; have h1 := hs.forcedR; clear hi hs; simp only [upd, gone, List.mem_append, Bool.and_eq_true]; grind [Slot.clear]
    case all =>
      intro p' c' h' hr
      rcases hs.all p' c' h' hr with a | a | ⟨j, a1, a2⟩
      · exact .inl (List.mem_append_left _ a)
      · exact .inr (.inl a)
      · by_cases hj : j = i
        · exact .inl (by rw [← a1, hj, hz]; simp)
        refine .inr (.inr ⟨j, by simp [upd, hj, a1], ?_⟩)
        clear hi hs
        simp only [upd, hj, if_false]
        grind [Phase.held]

theorem safe_mark (s s' : State) (p : Nat) (hi : Inv s) (hs : Safe s) (hcare : Careful s (.mark p)) (h : step s (.mark p) = some s') : Safe s' := by
  simp only [step] at h
  split at h
  case isFalse => cases h
  rename_i hc
  have hfree := hi.free hc.2.2.2
  have hw := waits_iff s p
  unfold Ended at hw
  have hl : ∀ i, i < s.cap → (s.slots i).waited = false → listed s (s.slots i).pid = true := by
    intro i h1 h2; simp only [listed, List.any_eq_true, List.mem_range, Bool.and_eq_true, beq_iff_eq]; exact ⟨i, h1, rfl, by simp [h2]⟩
  cases h
  constructor
  case excl => have h0 := hs.excl; have h1 := hi.idle; clear hi hs; simp only [upd, gone, List.mem_append, Bool.and_eq_true]; grind [Slot.clear]
  case chosenFree => have h0 := hs.chosenFree; have h1 := hs.excl; clear hi hs; simp only [upd, gone, List.mem_append, Bool.and_eq_true]; grind [Slot.clear]
  case forkedFree => have h0 := hs.forkedFree; have h1 := hs.chosenFree; have h2 := hs.excl; have h3 := hi.forked; clear hi hs; simp only [upd, gone, List.mem_append, Bool.and_eq_true]; grind [Slot.clear]
  case free => have h0 := hs.free; clear hi hs; simp only [upd, gone, List.mem_append, Bool.and_eq_true]; grind [Slot.clear]
  case waitedGone => have h0 := hs.waitedGone; have h1 := hi.cap; have h2 := hi.slot; clear hi hs; simp only [upd, gone, List.mem_append, Bool.and_eq_true]; grind [Slot.clear]
  case logGone => have h0 := hs.logGone; have h1 := hi.logR; have h2 := hi.reg; clear hi hs; simp only [upd, gone, List.mem_append, Bool.and_eq_true]; grind [Slot.clear]
  case forcedR => have h0 := hs.forcedR; clear hi hs; simp only [upd, gone, List.mem_append, Bool.and_eq_true]; grind [Slot.clear]
  case forcedS => have h0 := hs.forcedS; have h1 := hs.forcedR; clear hi hs; simp only [upd, gone, List.mem_append, Bool.and_eq_true]; grind [Slot.clear]
  case all =>
    intro p' c' h' hr
    have hz := (hi.reg p' c' h' hr).2.1
    rcases hs.all p' c' h' hr with a | a | ⟨j, a1, a2⟩
    · exact .inl a
    · exact .inr (.inl a)
    · refine .inr (.inr ⟨j, by dsimp only; split <;> exact a1, ?_⟩)
      clear hi hs
      grind

theorem safe_scan (s s' : State) (p : Nat) (hi : Inv s) (hs : Safe s) (hcare : Careful s (.scan p)) (h : step s (.scan p) = some s') : Safe s' := by
  simp only [step] at h
  split at h
  case h_2 => cases h
  rename_i f l hf
  have hw := waits_iff s p
  unfold Ended at hw
  have hp := notifies_pos s p f l
  have hm := mem_calls s p f l
  have hlist := hi.listS p f l
  have hcn : notifies s p f l Slot.clear = false := by simp [notifies, Slot.clear]
  have hno : ∀ x : Slot, notifies s p f l x = true → x.waited = true ∨ (f = true ∧ waits s p x.pid = true ∧ x.waited = false) ∨ (f = false ∧ x.pid ∈ l) := by
    intro x; unfold notifies; grind [List.contains_iff_mem]
  have hl : ∀ i, i < s.cap → (s.slots i).waited = false → listed s (s.slots i).pid = true := by
    intro i h1 h2; simp only [listed, List.any_eq_true, List.mem_range, Bool.and_eq_true, beq_iff_eq]; exact ⟨i, h1, rfl, by simp [h2]⟩
  have hrun : (s.procs p).status = .run := by
    have := hi.idle p; grind
  rw [show (((List.range s.cap).map s.slots).filter (notifies s p f l)).map (fun x => (p, x.pid, x.notify)) = calls s p f l from rfl] at h
  cases h
  constructor
  case excl => have h0 := hs.excl; have h1 := hi.idle; clear hi hs; simp only [upd, gone, List.mem_append, Bool.and_eq_true]; grind [Slot.clear]
  case chosenFree => have h0 := hs.chosenFree; have h1 := hs.excl; clear hi hs; simp only [upd, gone, List.mem_append, Bool.and_eq_true]; grind [Slot.clear]
  case forkedFree => have h0 := hs.forkedFree; have h1 := hs.chosenFree; have h2 := hs.excl; have h3 := hi.forked; clear hi hs; simp only [upd, gone, List.mem_append, Bool.and_eq_true]; grind [Slot.clear]
  case free => have h0 := hs.free; clear hi hs; simp only [upd, gone, List.mem_append, Bool.and_eq_true]; grind [Slot.clear]
  case waitedGone => have h0 := hs.waitedGone; have h1 := hi.cap; have h2 := hi.slot; clear hi hs; simp only [upd, gone, List.mem_append, Bool.and_eq_true]; grind [Slot.clear]
  case logGone =>
    intro q c h hx
    have h1 : (s.procs c).status = .gone ∨ (f = true ∧ c ≠ 0 ∧ c ≠ p ∧ waits s p c = true ∧ listed s c = true) := by
      rcases List.mem_append.1 hx with hx | hx
      · exact .inl (hs.logGone q c h hx)
      · obtain ⟨-, i, e1, e2, e3, -⟩ := (hm q c h).1 hx
        have e4 := hp _ e2
        have e5 := hl i e1
        subst e3
        rcases hno _ e2 with e | ⟨e, e', e''⟩ | ⟨e, e'⟩
        · exact .inl (hs.waitedGone i e)
        · exact .inr ⟨e, e4.1, e4.2, e', e5 e''⟩
        · exact .inl (hlist _ hf e').2.1
    clear hi hs hm hlist hno hl hp hcn
    grind
  case forcedR => have h0 := hs.forcedR; clear hi hs; simp only [upd, gone, List.mem_append, Bool.and_eq_true]; grind [Slot.clear]
  case forcedS => have h0 := hs.forcedS; have h1 := hs.forcedR; clear hi hs; simp only [upd, gone, List.mem_append, Bool.and_eq_true]; grind [Slot.clear]
  case all =>
    intro p' c' h' hr
    have hz := hi.reg p' c' h' hr
    rcases hs.all p' c' h' hr with a | ⟨q, x, a⟩ | ⟨j, a1, a2⟩
    · exact .inl a
    · exact .inr (.inl ⟨q, x, List.mem_append_left _ a⟩)
    · have hj : j < s.cap := hi.cap j (by omega)
      by_cases hn : notifies s p f l (s.slots j) = true
      · exact .inr (.inl ⟨p, (s.slots j).notify, List.mem_append_right _ ((hm _ _ _).2 ⟨rfl, j, hj, hn, a1, rfl⟩)⟩)
      · refine .inr (.inr ⟨j, by simp [hn, a1], ?_⟩)
        have hu : ∀ i, (s.slots i).pid = c' → i = j := fun i e => hi.slotU i j (by omega) (by omega)
        have ho := hi.one p p'
        clear hi hs hm hlist
        simp only [hn, Bool.false_eq_true, and_false, if_false]
        rcases a2 with a2 | a2 | a2 | a2
        · exact .inl a2
        · refine .inr (.inl ?_)
          by_cases hcp : c' = p
          · simp only [hcp, if_true]; simp [hrun]
          · simp only [hcp, if_false]
            by_cases hq : (f && c' != 0 && waits s p c' && listed s c') = true
            · exfalso
              simp only [Bool.and_eq_true] at hq
              have hlw : (s.slots j).waited = false := by
                have := hq.2
                simp only [listed, List.any_eq_true, List.mem_range, Bool.and_eq_true, beq_iff_eq, Bool.not_eq_true'] at this
                obtain ⟨i, -, e1, e2⟩ := this
                exact hu i e1 ▸ e2
              exact hn (by unfold notifies; rw [if_neg (by omega), hlw, a1]; simp [hq])
            · simp only [hq]; exact a2
        · refine .inr (.inr (.inl ?_)); grind
        · exfalso
          have hpp : p = p' := ho (by rw [hf]; simp) (by intro e; rw [e] at a2; simp [Phase.held] at a2)
          subst hpp
          rw [hf] at a2
          cases f with
          | true => simp [Phase.held] at a2
          | false =>
            have hl2 : c' ∈ l := by simpa [Phase.held] using a2
            by_cases hw' : (s.slots j).waited = true
            · exact hn (by unfold notifies; rw [if_neg (by omega)]; simp [hw'])
            · exact hn (by unfold notifies; rw [if_neg (by omega), a1]; simp [hl2])

theorem safe_step (s s' : State) (l : Label) (hi : Inv s) (hs : Safe s) (hc : Careful s l) (h : step s l = some s') : Safe s' := by
  cases l with
  | choose p => exact safe_choose s s' p hi hs hc h
  | fork p => exact safe_fork s s' p hi hs hc h
  | store p x => exact safe_store s s' p x hi hs hc h
  | exit c => exact safe_exit s s' c hi hs hc h
  | init c => exact safe_init s s' c hi hs hc h
  | deliver p => exact safe_deliver s s' p hi hs hc h
  | begin p f => exact safe_begin s s' p f hi hs hc h
  | reap p c => exact safe_reap s s' p c hi hs hc h
  | endReap p => exact safe_endReap s s' p hi hs hc h
  | scan p => exact safe_scan s s' p hi hs hc h
  | unregister p c => exact safe_unregister s s' p c hi hs hc h
  | mark p => exact safe_mark s s' p hi hs hc h

theorem run_safe (s s' : State) (ls : List Label) (hi : Inv s) (hs : Safe s) (hc : CarefulRun s ls) (h : run s ls = some s') : Safe s' := by
  induction ls generalizing s with
  | nil => cases h; exact hs
  | cons l r ih =>
    simp only [run] at h
    obtain ⟨t, h1, h2⟩ := Option.bind_eq_some_iff.1 h
    exact ih t (inv_step s t l hi h1) (safe_step s t l hi hs hc.1 h1) (hc.2 t h1) h2

end Verif.Fork
