import Verif.Fork.Spec

namespace Verif.Fork

theorem waits_iff (s : State) (p c : Nat) : waits s p c = true ↔ Ended s p c := by
  simp [waits, Ended, and_assoc]

/-- Holds in every state. -/
structure Inv (s : State) : Prop where
  bound : ∀ c, s.count ≤ c → (s.procs c).status = .gone
  zero : (s.procs 0).status = .gone
  pos : 0 < s.count
  par : ∀ c, (s.procs c).parent < s.count
  idle : ∀ p, (s.procs p).status ≠ .run → (s.procs p).phase = .idle ∧ (s.procs p).forking = .none
  one : ∀ p q, (s.procs p).phase ≠ .idle → (s.procs q).phase ≠ .idle → p = q
  missed : ∀ p c, (s.procs p).status = .run → c < s.count → (s.procs c).parent = p → (s.procs c).status = .zombie →
    (s.procs p).sig = true ∨ (s.procs p).pending = true ∨ (s.procs p).phase.waiting = true
  cap : ∀ i, (s.slots i).pid ≠ 0 → i < s.cap
  capC : ∀ p i, (s.procs p).forking = .chosen i → i < s.cap
  capF : ∀ p i c, (s.procs p).forking = .forked i c → i < s.cap
  forked : ∀ p i c, (s.procs p).forking = .forked i c → c < s.count ∧ c ≠ 0 ∧ c ≠ p ∧ (s.procs c).parent = p ∧
    (∀ j, (s.slots j).pid ≠ c) ∧ (∀ q h, (q, c, h) ∉ s.log) ∧ (∀ q h, (q, c, h) ∉ s.registered)
  slot : ∀ i, (s.slots i).pid ≠ 0 → ((s.slots i).parent, (s.slots i).pid, (s.slots i).notify) ∈ s.registered ∧ (∀ q h, (q, (s.slots i).pid, h) ∉ s.log) ∧
    ((s.procs (s.slots i).pid).parent = (s.slots i).parent ∨ (s.procs (s.slots i).pid).parent = 0 ∧ (s.procs (s.slots i).parent).status ≠ .run)
  slotU : ∀ i j, (s.slots i).pid ≠ 0 → (s.slots i).pid = (s.slots j).pid → i = j
  reg : ∀ p c h, (p, c, h) ∈ s.registered → c < s.count ∧ c ≠ 0 ∧ c ≠ p ∧ p < s.count ∧ p ≠ 0
  regU : ∀ p c h p' h', (p, c, h) ∈ s.registered → (p', c, h') ∈ s.registered → p = p' ∧ h = h'
  logR : ∀ q c h, (q, c, h) ∈ s.log → ∃ p, (p, c, h) ∈ s.registered
  logU : (s.log.map fun e => e.2.1).Nodup
  listR : ∀ p f l c, (s.procs p).phase = .reaping f l → c ∈ l → c < s.count ∧ (s.procs c).status = .gone ∧ (s.procs c).parent = p
  listS : ∀ p f l c, (s.procs p).phase = .scanning f l → c ∈ l → c < s.count ∧ (s.procs c).status = .gone ∧ (s.procs c).parent = p

theorem inv_start (cap : Nat) : Inv (start cap) := by
  constructor <;> simp [start, Slot.clear, Ended] <;> grind

theorem Inv.free {s : State} (h : Inv s) (hu : unlocked s = true) (p : Nat) : (s.procs p).phase = .idle := by
  by_cases hp : p < s.count
  · simp only [unlocked, List.all_eq_true, List.mem_range, beq_iff_eq] at hu
    exact hu p hp
  · exact (h.idle p (by rw [h.bound p (by omega)]; decide)).1

theorem allocate_some (s : State) (i : Nat) (h : allocate s = some i) : i < s.cap ∧ (s.slots i).pid = 0 := by
  unfold allocate at h
  have := List.find?_some h
  have := List.mem_of_find?_eq_some h
  simp_all

theorem inv_choose (s s' : State) (p : Nat) (hi : Inv s) (h : step s (.choose p) = some s') : Inv s' := by
  simp only [step] at h
  split at h
  case isFalse => cases h
  rename_i hc
  obtain ⟨i, ha, h⟩ := Option.map_eq_some_iff.1 h
  have ⟨e1, e2⟩ := allocate_some s i ha
  cases h
  constructor
  case missed =>
    intro q d; have a := hi.missed q d; have b := hi.bound; have z := hi.zero; have pa := hi.par
    simp only [upd, gone]; clear hi; grind [Phase.waiting]
  case logU => exact hi.logU
  case bound => have h0 := hi.bound; clear hi; simp only [upd, gone]; grind [Slot.clear]
  case zero => have h0 := hi.zero; have h1 := hi.bound; clear hi; simp only [upd, gone]; grind [Slot.clear]
  case pos => have h0 := hi.pos; clear hi; simp only [upd, gone]; grind [Slot.clear]
  case par => have h0 := hi.par; have h1 := hi.pos; clear hi; simp only [upd, gone]; grind [Slot.clear]
  case idle => have h0 := hi.idle; have h1 := hi.bound; clear hi; simp only [upd, gone]; grind [Slot.clear]
  case one => have h0 := hi.one; have h1 := hi.idle; clear hi; simp only [upd, gone]; grind [Slot.clear]
  case cap => have h0 := hi.cap; have h1 := hi.capF; clear hi; simp only [upd, gone]; grind [Slot.clear]
  case capC => have h0 := hi.capC; clear hi; simp only [upd, gone]; grind [Slot.clear]
  case capF => have h0 := hi.capF; have h1 := hi.capC; clear hi; simp only [upd, gone]; grind [Slot.clear]
  case forked => have h0 := hi.forked; clear hi; simp only [upd, gone]; grind [Slot.clear]
  case slot => have h0 := hi.slot; have h1 := hi.forked; clear hi; simp only [upd, gone]; grind [Slot.clear]
  case slotU => have h0 := hi.slotU; have h1 := hi.forked; clear hi; simp only [upd, gone]; grind [Slot.clear]
  case reg => have h0 := hi.reg; have h1 := hi.forked; have h2 := hi.bound; have h3 := hi.zero; clear hi; simp only [upd, gone]; grind [Slot.clear]
  case regU => have h0 := hi.regU; have h1 := hi.forked; clear hi; simp only [upd, gone]; grind [Slot.clear]
  case logR => have h0 := hi.logR; clear hi; simp only [upd, gone]; grind [Slot.clear]
  case listR => have h0 := hi.listR; have h1 := hi.bound; clear hi; simp only [upd, gone]; grind [Slot.clear]
  case listS => have h0 := hi.listS; have h1 := hi.bound; clear hi; simp only [upd, gone]; grind [Slot.clear]

theorem inv_fork (s s' : State) (p : Nat) (hi : Inv s) (h : step s (.fork p) = some s') : Inv s' := by
  simp only [step] at h
  split at h
  case h_2 => cases h
  rename_i i hf
  split at h
  case isFalse => cases h
  rename_i hc
  cases h
  constructor
  case missed =>
    intro q d; have a := hi.missed q d; have b := hi.bound; have z := hi.zero; have pa := hi.par
    simp only [upd, gone]; clear hi; grind [Phase.waiting]
  case logU => exact hi.logU
  case bound => have h0 := hi.bound; clear hi; simp only [upd, gone]; grind [Slot.clear]
  case zero => have h0 := hi.zero; have h1 := hi.bound; clear hi; simp only [upd, gone]; grind [Slot.clear]
  case pos => have h0 := hi.pos; clear hi; simp only [upd, gone]; grind [Slot.clear]
  case par => have h0 := hi.par; have h1 := hi.pos; clear hi; simp only [upd, gone]; grind [Slot.clear]
  case idle => have h0 := hi.idle; have h1 := hi.bound; clear hi; simp only [upd, gone]; grind [Slot.clear]
  case one => have h0 := hi.one; have h1 := hi.idle; clear hi; simp only [upd, gone]; grind [Slot.clear]
  case cap => have h0 := hi.cap; have h1 := hi.capF; clear hi; simp only [upd, gone]; grind [Slot.clear]
  case capC => have h0 := hi.capC; clear hi; simp only [upd, gone]; grind [Slot.clear]
  case capF => have h0 := hi.capF; have h1 := hi.capC; clear hi; simp only [upd, gone]; grind [Slot.clear]
  case forked => have h0 := hi.forked; have h1 := hi.reg; have h2 := hi.slot; have h3 := hi.logR; have h4 := hi.bound; have h5 := hi.idle; clear hi; simp only [upd, gone]; grind [Slot.clear]
  case slot => have h0 := hi.slot; have h1 := hi.forked; have h2 := hi.reg; clear hi; simp only [upd, gone]; grind [Slot.clear]
  case slotU => have h0 := hi.slotU; have h1 := hi.forked; clear hi; simp only [upd, gone]; grind [Slot.clear]
  case reg => have h0 := hi.reg; have h1 := hi.forked; have h2 := hi.bound; have h3 := hi.zero; clear hi; simp only [upd, gone]; grind [Slot.clear]
  case regU => have h0 := hi.regU; have h1 := hi.forked; clear hi; simp only [upd, gone]; grind [Slot.clear]
  case logR => have h0 := hi.logR; clear hi; simp only [upd, gone]; grind [Slot.clear]
  case listR => have h0 := hi.listR; have h1 := hi.bound; have h2 := hi.idle; clear hi; simp only [upd, gone]; grind [Slot.clear]
  case listS => have h0 := hi.listS; have h1 := hi.bound; have h2 := hi.idle; clear hi; simp only [upd, gone]; grind [Slot.clear]

theorem inv_store (s s' : State) (p x : Nat) (hi : Inv s) (h : step s (.store p x) = some s') : Inv s' := by
  simp only [step] at h
  split at h
  case h_2 => cases h
  rename_i i c hf
  split at h
  case isFalse => cases h
  rename_i hc
  have hfree := hi.free hc.2.2
  cases h
  constructor
  case missed =>
    intro q d; have a := hi.missed q d; have b := hi.bound; have z := hi.zero; have pa := hi.par
    simp only [upd, gone]; clear hi; grind [Phase.waiting]
  case logU => exact hi.logU
  case bound => have h0 := hi.bound; clear hi; simp only [upd, gone]; grind [Slot.clear]
  case zero => have h0 := hi.zero; have h1 := hi.bound; clear hi; simp only [upd, gone]; grind [Slot.clear]
  case pos => have h0 := hi.pos; clear hi; simp only [upd, gone]; grind [Slot.clear]
  case par => have h0 := hi.par; have h1 := hi.pos; clear hi; simp only [upd, gone]; grind [Slot.clear]
  case idle => have h0 := hi.idle; have h1 := hi.bound; clear hi; simp only [upd, gone]; grind [Slot.clear]
  case one => have h0 := hi.one; have h1 := hi.idle; clear hi; simp only [upd, gone]; grind [Slot.clear]
  case cap => have h0 := hi.cap; have h1 := hi.capF; clear hi; simp only [upd, gone]; grind [Slot.clear]
  case capC => have h0 := hi.capC; clear hi; simp only [upd, gone]; grind [Slot.clear]
  case capF => have h0 := hi.capF; have h1 := hi.capC; clear hi; simp only [upd, gone]; grind [Slot.clear]
  case forked => have h0 := hi.forked; clear hi; simp only [upd, gone]; grind [Slot.clear]
  case slot => have h0 := hi.slot; have h1 := hi.forked; clear hi; simp only [upd, gone]; grind [Slot.clear]
  case slotU => have h0 := hi.slotU; have h1 := hi.forked; clear hi; simp only [upd, gone]; grind [Slot.clear]
  case reg => have h0 := hi.reg; have h1 := hi.forked; have h2 := hi.bound; have h3 := hi.zero; clear hi; simp only [upd, gone]; grind [Slot.clear]
  case regU => have h0 := hi.regU; have h1 := hi.forked; clear hi; simp only [upd, gone]; grind [Slot.clear]
  case logR => have h0 := hi.logR; clear hi; simp only [upd, gone]; grind [Slot.clear]
  case listR => have h0 := hi.listR; have h1 := hi.bound; clear hi; simp only [upd, gone]; grind [Slot.clear]
  case listS => have h0 := hi.listS; have h1 := hi.bound; clear hi; simp only [upd, gone]; grind [Slot.clear]

theorem inv_exit (s s' : State) (c : Nat) (hi : Inv s) (h : step s (.exit c) = some s') : Inv s' := by
  simp only [step] at h
  split at h
  case isFalse => cases h
  rename_i hc
  cases h
  constructor
  case missed =>
    intro q d; have a := hi.missed q d; have b := hi.bound; have z := hi.zero; have pa := hi.par
    simp only [upd, gone]; clear hi; grind [Phase.waiting]
  case logU => exact hi.logU
  case bound => have h0 := hi.bound; clear hi; simp only [upd, gone]; grind [Slot.clear]
  case zero => have h0 := hi.zero; have h1 := hi.bound; clear hi; simp only [upd, gone]; grind [Slot.clear]
  case pos => have h0 := hi.pos; clear hi; simp only [upd, gone]; grind [Slot.clear]
  case par => have h0 := hi.par; have h1 := hi.pos; clear hi; simp only [upd, gone]; grind [Slot.clear]
  case idle => have h0 := hi.idle; have h1 := hi.bound; clear hi; simp only [upd, gone]; grind [Slot.clear]
  case one => have h0 := hi.one; have h1 := hi.idle; clear hi; simp only [upd, gone]; grind [Slot.clear]
  case cap => have h0 := hi.cap; have h1 := hi.capF; clear hi; simp only [upd, gone]; grind [Slot.clear]
  case capC => have h0 := hi.capC; clear hi; simp only [upd, gone]; grind [Slot.clear]
  case capF => have h0 := hi.capF; have h1 := hi.capC; clear hi; simp only [upd, gone]; grind [Slot.clear]
  case forked => have h0 := hi.forked; have h1 := hi.idle; clear hi; simp only [upd, gone]; grind [Slot.clear]
  case slot => have h0 := hi.slot; have h1 := hi.forked; have h2 := hi.bound; have h3 := hi.zero; clear hi; simp only [upd, gone]; grind [Slot.clear]
  case slotU => have h0 := hi.slotU; have h1 := hi.forked; clear hi; simp only [upd, gone]; grind [Slot.clear]
  case reg => have h0 := hi.reg; have h1 := hi.forked; have h2 := hi.bound; have h3 := hi.zero; clear hi; simp only [upd, gone]; grind [Slot.clear]
  case regU => have h0 := hi.regU; have h1 := hi.forked; clear hi; simp only [upd, gone]; grind [Slot.clear]
  case logR => have h0 := hi.logR; clear hi; simp only [upd, gone]; grind [Slot.clear]
  case listR => have h0 := hi.listR; have h1 := hi.bound; have h2 := hi.one; have h3 := hi.idle; clear hi; simp only [upd, gone]; grind [Slot.clear]
  case listS => have h0 := hi.listS; have h1 := hi.bound; have h2 := hi.one; have h3 := hi.idle; clear hi; simp only [upd, gone]; grind [Slot.clear]

theorem inv_init (s s' : State) (c : Nat) (hi : Inv s) (h : step s (.init c) = some s') : Inv s' := by
  simp only [step] at h
  split at h
  case isFalse => cases h
  rename_i hc
  rw [waits_iff] at hc; unfold Ended at hc
  cases h
  constructor
  case missed =>
    intro q d; have a := hi.missed q d; have b := hi.bound; have z := hi.zero; have pa := hi.par
    simp only [upd, gone]; clear hi; grind [Phase.waiting]
  case logU => exact hi.logU
  case bound => have h0 := hi.bound; clear hi; simp only [upd, gone]; grind [Slot.clear]
  case zero => have h0 := hi.zero; have h1 := hi.bound; clear hi; simp only [upd, gone]; grind [Slot.clear]
  case pos => have h0 := hi.pos; clear hi; simp only [upd, gone]; grind [Slot.clear]
  case par => have h0 := hi.par; have h1 := hi.pos; clear hi; simp only [upd, gone]; grind [Slot.clear]
  case idle => have h0 := hi.idle; have h1 := hi.bound; clear hi; simp only [upd, gone]; grind [Slot.clear]
  case one => have h0 := hi.one; have h1 := hi.idle; clear hi; simp only [upd, gone]; grind [Slot.clear]
  case cap => have h0 := hi.cap; have h1 := hi.capF; clear hi; simp only [upd, gone]; grind [Slot.clear]
  case capC => have h0 := hi.capC; clear hi; simp only [upd, gone]; grind [Slot.clear]
  case capF => have h0 := hi.capF; have h1 := hi.capC; clear hi; simp only [upd, gone]; grind [Slot.clear]
  case forked => have h0 := hi.forked; clear hi; simp only [upd, gone]; grind [Slot.clear]
  case slot => have h0 := hi.slot; have h1 := hi.forked; clear hi; simp only [upd, gone]; grind [Slot.clear]
  case slotU => have h0 := hi.slotU; have h1 := hi.forked; clear hi; simp only [upd, gone]; grind [Slot.clear]
  case reg => have h0 := hi.reg; have h1 := hi.forked; have h2 := hi.bound; have h3 := hi.zero; clear hi; simp only [upd, gone]; grind [Slot.clear]
  case regU => have h0 := hi.regU; have h1 := hi.forked; clear hi; simp only [upd, gone]; grind [Slot.clear]
  case logR => have h0 := hi.logR; clear hi; simp only [upd, gone]; grind [Slot.clear]
  case listR => have h0 := hi.listR; have h1 := hi.bound; clear hi; simp only [upd, gone]; grind [Slot.clear]
  case listS => have h0 := hi.listS; have h1 := hi.bound; clear hi; simp only [upd, gone]; grind [Slot.clear]

theorem inv_deliver (s s' : State) (p : Nat) (hi : Inv s) (h : step s (.deliver p) = some s') : Inv s' := by
  simp only [step] at h
  split at h
  case isFalse => cases h
  rename_i hc
  cases h
  constructor
  case missed =>
    intro q d; have a := hi.missed q d; have b := hi.bound; have z := hi.zero; have pa := hi.par
    simp only [upd, gone]; clear hi; grind [Phase.waiting]
  case logU => exact hi.logU
  case bound => have h0 := hi.bound; clear hi; simp only [upd, gone]; grind [Slot.clear]
  case zero => have h0 := hi.zero; have h1 := hi.bound; clear hi; simp only [upd, gone]; grind [Slot.clear]
  case pos => have h0 := hi.pos; clear hi; simp only [upd, gone]; grind [Slot.clear]
  case par => have h0 := hi.par; have h1 := hi.pos; clear hi; simp only [upd, gone]; grind [Slot.clear]
  case idle => have h0 := hi.idle; have h1 := hi.bound; clear hi; simp only [upd, gone]; grind [Slot.clear]
  case one => have h0 := hi.one; have h1 := hi.idle; clear hi; simp only [upd, gone]; grind [Slot.clear]
  case cap => have h0 := hi.cap; have h1 := hi.capF; clear hi; simp only [upd, gone]; grind [Slot.clear]
  case capC => have h0 := hi.capC; clear hi; simp only [upd, gone]; grind [Slot.clear]
  case capF => have h0 := hi.capF; have h1 := hi.capC; clear hi; simp only [upd, gone]; grind [Slot.clear]
  case forked => have h0 := hi.forked; clear hi; simp only [upd, gone]; grind [Slot.clear]
  case slot => have h0 := hi.slot; have h1 := hi.forked; clear hi; simp only [upd, gone]; grind [Slot.clear]
  case slotU => have h0 := hi.slotU; have h1 := hi.forked; clear hi; simp only [upd, gone]; grind [Slot.clear]
  case reg => have h0 := hi.reg; have h1 := hi.forked; have h2 := hi.bound; have h3 := hi.zero; clear hi; simp only [upd, gone]; grind [Slot.clear]
  case regU => have h0 := hi.regU; have h1 := hi.forked; clear hi; simp only [upd, gone]; grind [Slot.clear]
  case logR => have h0 := hi.logR; clear hi; simp only [upd, gone]; grind [Slot.clear]
  case listR => have h0 := hi.listR; have h1 := hi.bound; clear hi; simp only [upd, gone]; grind [Slot.clear]
  case listS => have h0 := hi.listS; have h1 := hi.bound; clear hi; simp only [upd, gone]; grind [Slot.clear]

theorem inv_begin (s s' : State) (p : Nat) (f : Bool) (hi : Inv s) (h : step s (.begin p f) = some s') : Inv s' := by
  simp only [step] at h
  split at h
  case isFalse => cases h
  rename_i hc
  have hfree := hi.free hc.2.2.2.2
  cases h
  constructor
  case missed =>
    intro q d; have a := hi.missed q d; have b := hi.bound; have z := hi.zero; have pa := hi.par
    simp only [upd, gone]; clear hi; grind [Phase.waiting]
  case logU => exact hi.logU
  case bound => have h0 := hi.bound; clear hi; simp only [upd, gone]; grind [Slot.clear]
  case zero => have h0 := hi.zero; have h1 := hi.bound; clear hi; simp only [upd, gone]; grind [Slot.clear]
  case pos => have h0 := hi.pos; clear hi; simp only [upd, gone]; grind [Slot.clear]
  case par => have h0 := hi.par; have h1 := hi.pos; clear hi; simp only [upd, gone]; grind [Slot.clear]
  case idle => have h0 := hi.idle; have h1 := hi.bound; clear hi; simp only [upd, gone]; grind [Slot.clear]
  case one => have h0 := hi.one; have h1 := hi.idle; clear hi; simp only [upd, gone]; grind [Slot.clear]
  case cap => have h0 := hi.cap; have h1 := hi.capF; clear hi; simp only [upd, gone]; grind [Slot.clear]
  case capC => have h0 := hi.capC; clear hi; simp only [upd, gone]; grind [Slot.clear]
  case capF => have h0 := hi.capF; have h1 := hi.capC; clear hi; simp only [upd, gone]; grind [Slot.clear]
  case forked => have h0 := hi.forked; clear hi; simp only [upd, gone]; grind [Slot.clear]
  case slot => have h0 := hi.slot; have h1 := hi.forked; clear hi; simp only [upd, gone]; grind [Slot.clear]
  case slotU => have h0 := hi.slotU; have h1 := hi.forked; clear hi; simp only [upd, gone]; grind [Slot.clear]
  case reg => have h0 := hi.reg; have h1 := hi.forked; have h2 := hi.bound; have h3 := hi.zero; clear hi; simp only [upd, gone]; grind [Slot.clear]
  case regU => have h0 := hi.regU; have h1 := hi.forked; clear hi; simp only [upd, gone]; grind [Slot.clear]
  case logR => have h0 := hi.logR; clear hi; simp only [upd, gone]; grind [Slot.clear]
  case listR => have h0 := hi.listR; have h1 := hi.bound; clear hi; simp only [upd, gone]; grind [Slot.clear]
  case listS => have h0 := hi.listS; have h1 := hi.bound; clear hi; simp only [upd, gone]; grind [Slot.clear]

theorem inv_reap (s s' : State) (p c : Nat) (hi : Inv s) (h : step s (.reap p c) = some s') : Inv s' := by
  simp only [step] at h
  split at h
  case h_2 => cases h
  rename_i f l hf
  split at h
  case isFalse => cases h
  rename_i hc
  rw [waits_iff] at hc; unfold Ended at hc
  cases h
  constructor
  case missed =>
    intro q d; have a := hi.missed q d; have b := hi.bound; have z := hi.zero; have pa := hi.par
    simp only [upd, gone]; clear hi; grind [Phase.waiting]
  case logU => exact hi.logU
  case bound => have h0 := hi.bound; clear hi; simp only [upd, gone]; grind [Slot.clear]
  case zero => have h0 := hi.zero; have h1 := hi.bound; clear hi; simp only [upd, gone]; grind [Slot.clear]
  case pos => have h0 := hi.pos; clear hi; simp only [upd, gone]; grind [Slot.clear]
  case par => have h0 := hi.par; have h1 := hi.pos; clear hi; simp only [upd, gone]; grind [Slot.clear]
  case idle => have h0 := hi.idle; have h1 := hi.bound; clear hi; simp only [upd, gone]; grind [Slot.clear]
  case one => have h0 := hi.one; have h1 := hi.idle; clear hi; simp only [upd, gone]; grind [Slot.clear]
  case cap => have h0 := hi.cap; have h1 := hi.capF; clear hi; simp only [upd, gone]; grind [Slot.clear]
  case capC => have h0 := hi.capC; clear hi; simp only [upd, gone]; grind [Slot.clear]
  case capF => have h0 := hi.capF; have h1 := hi.capC; clear hi; simp only [upd, gone]; grind [Slot.clear]
  case forked => have h0 := hi.forked; clear hi; simp only [upd, gone]; grind [Slot.clear]
  case slot => have h0 := hi.slot; have h1 := hi.forked; clear hi; simp only [upd, gone]; grind [Slot.clear]
  case slotU => have h0 := hi.slotU; have h1 := hi.forked; clear hi; simp only [upd, gone]; grind [Slot.clear]
  case reg => have h0 := hi.reg; have h1 := hi.forked; have h2 := hi.bound; have h3 := hi.zero; clear hi; simp only [upd, gone]; grind [Slot.clear]
  case regU => have h0 := hi.regU; have h1 := hi.forked; clear hi; simp only [upd, gone]; grind [Slot.clear]
  case logR => have h0 := hi.logR; clear hi; simp only [upd, gone]; grind [Slot.clear]
  case listR => have h0 := hi.listR; have h1 := hi.bound; clear hi; simp only [upd, gone]; grind [Slot.clear]
  case listS => have h0 := hi.listS; have h1 := hi.bound; clear hi; simp only [upd, gone]; grind [Slot.clear]

theorem inv_endReap (s s' : State) (p : Nat) (hi : Inv s) (h : step s (.endReap p) = some s') : Inv s' := by
  simp only [step] at h
  split at h
  case h_2 => cases h
  rename_i f l hf
  split at h
  case isFalse => cases h
  rename_i hc
  have hn : ∀ c, c < s.count → (s.procs c).parent = p → (s.procs c).status ≠ .zombie := by
    intro c h1 h2 h3
    simp only [List.all_eq_true, List.mem_range, Bool.not_eq_true'] at hc
    have := hc c h1
    rw [(waits_iff s p c).2 ⟨h1, h2, h3⟩] at this
    cases this
  clear hc
  cases h
  constructor
  case missed =>
    intro q d; have a := hi.missed q d; have b := hi.bound; have z := hi.zero; have pa := hi.par
    simp only [upd, gone]; clear hi; grind [Phase.waiting]
  case logU => exact hi.logU
  case bound => have h0 := hi.bound; clear hi; simp only [upd, gone]; grind [Slot.clear]
  case zero => have h0 := hi.zero; have h1 := hi.bound; clear hi; simp only [upd, gone]; grind [Slot.clear]
  case pos => have h0 := hi.pos; clear hi; simp only [upd, gone]; grind [Slot.clear]
  case par => have h0 := hi.par; have h1 := hi.pos; clear hi; simp only [upd, gone]; grind [Slot.clear]
  case idle => have h0 := hi.idle; have h1 := hi.bound; clear hi; simp only [upd, gone]; grind [Slot.clear]
  case one => have h0 := hi.one; have h1 := hi.idle; clear hi; simp only [upd, gone]; grind [Slot.clear]
  case cap => have h0 := hi.cap; have h1 := hi.capF; clear hi; simp only [upd, gone]; grind [Slot.clear]
  case capC => have h0 := hi.capC; clear hi; simp only [upd, gone]; grind [Slot.clear]
  case capF => have h0 := hi.capF; have h1 := hi.capC; clear hi; simp only [upd, gone]; grind [Slot.clear]
  case forked => have h0 := hi.forked; clear hi; simp only [upd, gone]; grind [Slot.clear]
  case slot => have h0 := hi.slot; have h1 := hi.forked; clear hi; simp only [upd, gone]; grind [Slot.clear]
  case slotU => have h0 := hi.slotU; have h1 := hi.forked; clear hi; simp only [upd, gone]; grind [Slot.clear]
  case reg => have h0 := hi.reg; have h1 := hi.forked; have h2 := hi.bound; have h3 := hi.zero; clear hi; simp only [upd, gone]; grind [Slot.clear]
  case regU => have h0 := hi.regU; have h1 := hi.forked; clear hi; simp only [upd, gone]; grind [Slot.clear]
  case logR => have h0 := hi.logR; clear hi; simp only [upd, gone]; grind [Slot.clear]
  case listR => have h0 := hi.listR; have h1 := hi.bound; clear hi; simp only [upd, gone]; grind [Slot.clear]
  case listS => have h0 := hi.listS; have h1 := hi.bound; have h2 := hi.listR; clear hi; simp only [upd, gone]; grind [Slot.clear]

theorem inv_unregister (s s' : State) (p c : Nat) (hi : Inv s) (h : step s (.unregister p c) = some s') : Inv s' := by
  simp only [step] at h
  split at h
  case isFalse => cases h
  rename_i hc
  have hfree := hi.free hc.2.2.2
  cases h
  cases hx : (List.range s.cap).find? (fun i => (s.slots i).pid == c) with
  | none =>
    constructor
    case missed =>
      intro q d; have a := hi.missed q d; have b := hi.bound; have z := hi.zero; have pa := hi.par
      simp only [upd, gone]; clear hi; grind [Phase.waiting]
    case logU => exact hi.logU
    case bound => have h0 := hi.bound; clear hi; simp only [upd, gone]; grind [Slot.clear]
    case zero => have h0 := hi.zero; have h1 := hi.bound; clear hi; simp only [upd, gone]; grind [Slot.clear]
    case pos => have h0 := hi.pos; clear hi; simp only [upd, gone]; grind [Slot.clear]
    case par => have h0 := hi.par; have h1 := hi.pos; clear hi; simp only [upd, gone]; grind [Slot.clear]
    case idle => have h0 := hi.idle; have h1 := hi.bound; clear hi; simp only [upd, gone]; grind [Slot.clear]
    case one => have h0 := hi.one; have h1 := hi.idle; clear hi; simp only [upd, gone]; grind [Slot.clear]
    case cap => have h0 := hi.cap; have h1 := hi.capF; clear hi; simp only [upd, gone]; grind [Slot.clear]
    case capC => have h0 := hi.capC; clear hi; simp only [upd, gone]; grind [Slot.clear]
    case capF => have h0 := hi.capF; have h1 := hi.capC; clear hi; simp only [upd, gone]; grind [Slot.clear]
    case forked => have h0 := hi.forked; clear hi; simp only [upd, gone]; grind [Slot.clear]
    case slot => have h0 := hi.slot; have h1 := hi.forked; clear hi; simp only [upd, gone]; grind [Slot.clear]
    case slotU => have h0 := hi.slotU; have h1 := hi.forked; clear hi; simp only [upd, gone]; grind [Slot.clear]
    case reg => have h0 := hi.reg; have h1 := hi.forked; have h2 := hi.bound; have h3 := hi.zero; clear hi; simp only [upd, gone]; grind [Slot.clear]
    case regU => have h0 := hi.regU; have h1 := hi.forked; clear hi; simp only [upd, gone]; grind [Slot.clear]
    case logR => have h0 := hi.logR; clear hi; simp only [upd, gone]; grind [Slot.clear]
    case listR => have h0 := hi.listR; have h1 := hi.bound; clear hi; simp only [upd, gone]; grind [Slot.clear]
    case listS => have h0 := hi.listS; have h1 := hi.bound; clear hi; simp only [upd, gone]; grind [Slot.clear]
  | some i =>
    constructor
    case missed =>
      intro q d; have a := hi.missed q d; have b := hi.bound; have z := hi.zero; have pa := hi.par
      simp only [upd, gone]; clear hi; grind [Phase.waiting]
    case logU => exact hi.logU
    case bound => have h0 := hi.bound; clear hi; simp only [upd, gone]; grind [Slot.clear]
    case zero => have h0 := hi.zero; have h1 := hi.bound; clear hi; simp only [upd, gone]; grind [Slot.clear]
    case pos => have h0 := hi.pos; clear hi; simp only [upd, gone]; grind [Slot.clear]
    case par => have h0 := hi.par; have h1 := hi.pos; clear hi; simp only [upd, gone]; grind [Slot.clear]
    case idle => have h0 := hi.idle; have h1 := hi.bound; clear hi; simp only [upd, gone]; grind [Slot.clear]
    case one => have h0 := hi.one; have h1 := hi.idle; clear hi; simp only [upd, gone]; grind [Slot.clear]
    case cap => have h0 := hi.cap; have h1 := hi.capF; clear hi; simp only [upd, gone]; grind [Slot.clear]
    case capC => have h0 := hi.capC; clear hi; simp only [upd, gone]; grind [Slot.clear]
    case capF => have h0 := hi.capF; have h1 := hi.capC; clear hi; simp only [upd, gone]; grind [Slot.clear]
    case forked => have h0 := hi.forked; clear hi; simp only [upd, gone]; grind [Slot.clear]
    case slot => have h0 := hi.slot; have h1 := hi.forked; clear hi; simp only [upd, gone]; grind [Slot.clear]
    case slotU => have h0 := hi.slotU; have h1 := hi.forked; clear hi; simp only [upd, gone]; grind [Slot.clear]
    case reg => have h0 := hi.reg; have h1 := hi.forked; have h2 := hi.bound; have h3 := hi.zero; clear hi; simp only [upd, gone]; grind [Slot.clear]
    case regU => have h0 := hi.regU; have h1 := hi.forked; clear hi; simp only [upd, gone]; grind [Slot.clear]
    case logR => have h0 := hi.logR; clear hi; simp only [upd, gone]; grind [Slot.clear]
    case listR => have h0 := hi.listR; have h1 := hi.bound; clear hi; simp only [upd, gone]; grind [Slot.clear]
    case listS => have h0 := hi.listS; have h1 := hi.bound; clear hi; simp only [upd, gone]; grind [Slot.clear]

theorem inv_mark (s s' : State) (p : Nat) (hi : Inv s) (h : step s (.mark p) = some s') : Inv s' := by
  simp only [step] at h
  split at h
  case isFalse => cases h
  rename_i hc
  have hfree := hi.free hc.2.2.2
  have hw := waits_iff s p
  unfold Ended at hw
  cases h
  constructor
  case missed =>
    intro q d; have a := hi.missed q d; have b := hi.bound; have z := hi.zero; have pa := hi.par
    simp only [upd, gone]; clear hi; grind [Phase.waiting]
  case logU => exact hi.logU
  case bound => have h0 := hi.bound; clear hi; simp only [upd, gone]; grind [Slot.clear]
  case zero => have h0 := hi.zero; have h1 := hi.bound; clear hi; simp only [upd, gone]; grind [Slot.clear]
  case pos => have h0 := hi.pos; clear hi; simp only [upd, gone]; grind [Slot.clear]
  case par => have h0 := hi.par; have h1 := hi.pos; clear hi; simp only [upd, gone]; grind [Slot.clear]
  case idle => have h0 := hi.idle; have h1 := hi.bound; clear hi; simp only [upd, gone]; grind [Slot.clear]
  case one => have h0 := hi.one; have h1 := hi.idle; clear hi; simp only [upd, gone]; grind [Slot.clear]
  case cap => have h0 := hi.cap; have h1 := hi.capF; clear hi; simp only [upd, gone]; grind [Slot.clear]
  case capC => have h0 := hi.capC; clear hi; simp only [upd, gone]; grind [Slot.clear]
  case capF => have h0 := hi.capF; have h1 := hi.capC; clear hi; simp only [upd, gone]; grind [Slot.clear]
  case forked => have h0 := hi.forked; clear hi; simp only [upd, gone]; grind [Slot.clear]
  case slot => have h0 := hi.slot; have h1 := hi.forked; clear hi; simp only [upd, gone]; grind [Slot.clear]
  case slotU => have h0 := hi.slotU; have h1 := hi.forked; clear hi; simp only [upd, gone]; grind [Slot.clear]
  case reg => have h0 := hi.reg; have h1 := hi.forked; have h2 := hi.bound; have h3 := hi.zero; clear hi; simp only [upd, gone]; grind [Slot.clear]
  case regU => have h0 := hi.regU; have h1 := hi.forked; clear hi; simp only [upd, gone]; grind [Slot.clear]
  case logR => have h0 := hi.logR; clear hi; simp only [upd, gone]; grind [Slot.clear]
  case listR => have h0 := hi.listR; have h1 := hi.bound; clear hi; simp only [upd, gone]; grind [Slot.clear]
  case listS => have h0 := hi.listS; have h1 := hi.bound; clear hi; simp only [upd, gone]; grind [Slot.clear]

/-- The functions which are called at the end of `rrr_fork_handle_sigchld_and_notify_if_needed`. -/
def calls (s : State) (p : Nat) (f : Bool) (l : List Nat) : List (Nat × Nat × Nat) :=
  (((List.range s.cap).map s.slots).filter (notifies s p f l)).map fun x => (p, x.pid, x.notify)

theorem mem_calls (s : State) (p : Nat) (f : Bool) (l : List Nat) (q c h : Nat) :
    (q, c, h) ∈ calls s p f l ↔ q = p ∧ ∃ i, i < s.cap ∧ notifies s p f l (s.slots i) = true ∧ (s.slots i).pid = c ∧ (s.slots i).notify = h := by
  simp only [calls, List.mem_map, List.mem_filter, List.mem_range, Prod.mk.injEq]
  constructor
  · rintro ⟨x, ⟨⟨i, hi, rfl⟩, hn⟩, rfl, rfl, rfl⟩
    exact ⟨rfl, i, hi, hn, rfl, rfl⟩
  · rintro ⟨rfl, i, hi, hn, rfl, rfl⟩
    exact ⟨_, ⟨⟨i, hi, rfl⟩, hn⟩, rfl, rfl, rfl⟩

theorem notifies_pos (s : State) (p : Nat) (f : Bool) (l : List Nat) (x : Slot) (h : notifies s p f l x = true) : x.pid ≠ 0 ∧ x.pid ≠ p := by
  unfold notifies at h
  split at h
  · cases h
  · grind

theorem calls_nodup (s : State) (p : Nat) (f : Bool) (l : List Nat) (hi : Inv s) : ((calls s p f l).map fun e => e.2.1).Nodup := by
  unfold calls
  rw [List.filter_map, List.map_map, List.map_map]
  rw [List.Nodup, List.pairwise_map]
  have hn : ((List.range s.cap).filter (notifies s p f l ∘ s.slots)).Nodup := List.Pairwise.filter _ List.nodup_range
  refine List.Pairwise.imp_of_mem ?_ hn
  intro a b ha hb hab he
  simp only [List.mem_filter, Function.comp] at ha hb he
  exact hab (hi.slotU a b (notifies_pos s p f l _ ha.2).1 he)

theorem inv_scan (s s' : State) (p : Nat) (hi : Inv s) (h : step s (.scan p) = some s') : Inv s' := by
  simp only [step] at h
  split at h
  case h_2 => cases h
  rename_i f l hf
  have hw := waits_iff s p
  unfold Ended at hw
  have hp := notifies_pos s p f l
  have hm := mem_calls s p f l
  have hnd := calls_nodup s p f l hi
  have ho : ∀ q, q ≠ p → (s.procs q).phase = .idle := by
    intro q hq
    have := hi.one p q (by rw [hf]; simp)
    grind
  rw [show (((List.range s.cap).map s.slots).filter (notifies s p f l)).map (fun x => (p, x.pid, x.notify)) = calls s p f l from rfl] at h
  generalize calls s p f l = k at h hm hnd
  generalize hno : notifies s p f l = no at h hm hp
  cases h
  constructor
  case missed =>
    intro q d; have a := hi.missed q d; have b := hi.bound; have z := hi.zero; have pa := hi.par
    simp only [upd, gone, Bool.and_eq_true]; clear hi; grind [Phase.waiting]
  case logU =>
    have h1 := hi.slot
    have h2 := hi.logU
    rw [List.map_append, List.nodup_append]
    refine ⟨h2, hnd, ?_⟩
    intro a ha b hb
    simp only [List.mem_map, Prod.exists] at ha hb
    obtain ⟨q, c, x, e1, rfl⟩ := ha
    obtain ⟨q', c', x', e2, rfl⟩ := hb
    have := (hm _ _ _).1 e2
    grind
  case bound => have h0 := hi.bound; clear hi; simp only [upd, gone, List.mem_append, Bool.and_eq_true]; grind [Slot.clear]
  case zero => have h0 := hi.zero; have h1 := hi.bound; clear hi; simp only [upd, gone, List.mem_append, Bool.and_eq_true]; grind [Slot.clear]
  case pos => have h0 := hi.pos; clear hi; simp only [upd, gone, List.mem_append, Bool.and_eq_true]; grind [Slot.clear]
  case par => have h0 := hi.par; have h1 := hi.pos; clear hi; simp only [upd, gone, List.mem_append, Bool.and_eq_true]; grind [Slot.clear]
  case idle => have h0 := hi.idle; have h1 := hi.bound; clear hi; simp only [upd, gone, List.mem_append, Bool.and_eq_true]; grind [Slot.clear]
  case one => have h0 := hi.one; have h1 := hi.idle; clear hi; simp only [upd, gone, List.mem_append, Bool.and_eq_true]; grind [Slot.clear]
  case cap => have h0 := hi.cap; have h1 := hi.capF; clear hi; simp only [upd, gone, List.mem_append, Bool.and_eq_true]; grind [Slot.clear]
  case capC => have h0 := hi.capC; clear hi; simp only [upd, gone, List.mem_append, Bool.and_eq_true]; grind [Slot.clear]
  case capF => have h0 := hi.capF; have h1 := hi.capC; clear hi; simp only [upd, gone, List.mem_append, Bool.and_eq_true]; grind [Slot.clear]
  case forked => have h0 := hi.forked; clear hi; simp only [upd, gone, List.mem_append, Bool.and_eq_true]; grind [Slot.clear]
  case slot =>
    intro i
    by_cases hx : i < s.cap ∧ no (s.slots i) = true
    · simp [hx, Slot.clear]
    · simp only [hx, if_false]
      intro h0
      obtain ⟨h1, h2, h3⟩ := hi.slot i h0
      refine ⟨h1, ?_, ?_⟩
      · intro q h
        simp only [List.mem_append, not_or]
        refine ⟨h2 q h, fun hk => ?_⟩
        obtain ⟨-, j, hj, hn, he, -⟩ := (hm _ _ _).1 hk
        exact hx (hi.slotU i j h0 he.symm ▸ ⟨hj, hn⟩)
      · clear hm hnd hno hp hi; simp only [Bool.and_eq_true]; grind
  case slotU => have h0 := hi.slotU; have h1 := hi.forked; clear hi; simp only [upd, gone, List.mem_append, Bool.and_eq_true]; grind [Slot.clear]
  case reg => have h0 := hi.reg; have h1 := hi.forked; have h2 := hi.bound; have h3 := hi.zero; clear hi; simp only [upd, gone, List.mem_append, Bool.and_eq_true]; grind [Slot.clear]
  case regU => have h0 := hi.regU; have h1 := hi.forked; clear hi; simp only [upd, gone, List.mem_append, Bool.and_eq_true]; grind [Slot.clear]
  case logR => have h0 := hi.logR; have h1 := hi.slot; clear hi; simp only [upd, gone, List.mem_append, Bool.and_eq_true]; grind [Slot.clear]
  case listR => have h0 := hi.listR; have h1 := hi.bound; clear hi; simp only [upd, gone, List.mem_append, Bool.and_eq_true]; grind [Slot.clear]
  case listS => have h0 := hi.listS; have h1 := hi.bound; clear hi; simp only [upd, gone, List.mem_append, Bool.and_eq_true]; grind [Slot.clear]

theorem inv_step (s s' : State) (l : Label) (hi : Inv s) (h : step s l = some s') : Inv s' := by
  cases l with
  | choose p => exact inv_choose s s' p hi h
  | fork p => exact inv_fork s s' p hi h
  | store p x => exact inv_store s s' p x hi h
  | exit c => exact inv_exit s s' c hi h
  | init c => exact inv_init s s' c hi h
  | deliver p => exact inv_deliver s s' p hi h
  | begin p f => exact inv_begin s s' p f hi h
  | reap p c => exact inv_reap s s' p c hi h
  | endReap p => exact inv_endReap s s' p hi h
  | scan p => exact inv_scan s s' p hi h
  | unregister p c => exact inv_unregister s s' p c hi h
  | mark p => exact inv_mark s s' p hi h

theorem run_inv (s s' : State) (ls : List Label) (hi : Inv s) (h : run s ls = some s') : Inv s' := by
  induction ls generalizing s with
  | nil => cases h; exact hi
  | cons l r ih =>
    simp only [run] at h
    obtain ⟨t, h1, h2⟩ := Option.bind_eq_some_iff.1 h
    exact ih t (inv_step s t l hi h1) h2

end Verif.Fork
