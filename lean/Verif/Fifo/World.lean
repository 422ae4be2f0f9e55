import Verif.Fifo.Ops2
/-!
# Programs which use FIFO buffers

A program has any number of buffers, all in the same memory, and does any sequence of operations on them with
any callbacks. The callbacks share one state of type `σ`, which they may read and change.
-/
namespace Verif.Fifo
open Verif

variable {α σ : Type}

/-- Change a function at one place. -/
def update {β : Type} (f : Nat → β) (i : Nat) (b : β) : Nat → β := fun j => if j = i then b else f j

@[simp] theorem update_same {β : Type} (f : Nat → β) (i : Nat) (b : β) : update f i b i = b := by simp [update]
theorem update_other {β : Type} (f : Nat → β) {i j : Nat} (b : β) (h : j ≠ i) : update f i b j = f j := by simp [update, h]
theorem update_self {β : Type} (f : Nat → β) (i : Nat) : update f i (f i) = f := by
  funext j; by_cases h : j = i
  · subst h; simp
  · rw [update_other _ _ h]

/-- One call of a function of `fifo.c` on buffer number `i` (`t` and `s`), with the behaviour of its callback. -/
inductive Op (α σ : Type) where
  | write (i : Nat) (gives : σ → List (WRes α) × σ)
  | search (i : Nat) (cb : σ → Option α → UInt32 × σ)
  | forward (i : Nat) (cb : σ → Option α → FRes α σ)
  | read (i : Nat) (cb : σ → Option α → UInt32 × σ)
  | readMinimum (i : Nat) (min : UInt64) (cb : σ → Option α → UInt32 × σ)
  | clear (i : Nat) (cb : σ → Option α → UInt32 × Option α × σ)
  | merge (t s : Nat)
  | replace (i : Nat) (cb : σ → Option α → UInt64 → RRes α σ) (add : σ → Option (List (WRes α)))

/-- Memory, the buffers, the state of the callbacks and the last return value. -/
structure World (α σ : Type) where
  mem : Mem α
  bufs : Nat → Fifo
  st : σ
  ret : UInt32

/-- All buffers initialised, nothing allocated. -/
def World.init (st : σ) : World α σ := ⟨⟨fun _ => none, 0, []⟩, fun _ => .init, st, 0⟩

/-- Do one call. -/
def step [DecidableEq α] (w : World α σ) : Op α σ → Out (World α σ)
  | .write i gives =>
    (write (gives w.st).1 w.mem (w.bufs i)).bind fun (m, f, r) => .ok ⟨m, update w.bufs i f, (gives w.st).2, r⟩
  | .search i cb => (search cb w.mem (w.bufs i) w.st).bind fun (m, f, st, r) => .ok ⟨m, update w.bufs i f, st, r⟩
  | .forward i cb => (readClearForwardAll cb w.mem (w.bufs i) w.st).bind fun (m, f, st, r) => .ok ⟨m, update w.bufs i f, st, r⟩
  | .read i cb => (read cb w.mem (w.bufs i) w.st).bind fun (st, r) => .ok ⟨w.mem, w.bufs, st, r⟩
  | .readMinimum i min cb => (readMinimum cb none min w.mem (w.bufs i) w.st).bind fun (st, r) => .ok ⟨w.mem, w.bufs, st, r⟩
  | .clear i cb => (clear cb w.mem (w.bufs i) w.st).bind fun (m, f, st) => .ok ⟨m, update w.bufs i f, st, 0⟩
  | .merge t s => (merge w.mem (w.bufs t) (w.bufs s)).bind fun (m, f, g, r) => .ok ⟨m, update (update w.bufs t f) s g, w.st, r⟩
  | .replace i cb add => (searchAndReplace cb add w.mem (w.bufs i) w.st).bind fun (m, f, st, r) => .ok ⟨m, update w.bufs i f, st, r⟩

/-- Do several calls. -/
def run [DecidableEq α] (w : World α σ) : List (Op α σ) → Out (World α σ)
  | [] => .ok w
  | op :: ops => (step w op).bind fun w => run w ops

namespace Spec

/-- Contents of the buffers, reference count calls so far, state of the callbacks and last return value. -/
structure State (α σ : Type) where
  items : Nat → Items α
  log : List (Ev α)
  st : σ
  ret : UInt32

/-- All buffers empty. -/
def State.init (st : σ) : State α σ := ⟨fun _ => [], [], st, 0⟩

/-- What a call means. -/
def step [DecidableEq α] (s : State α σ) : Op α σ → Option (State α σ)
  | .write i gives => (write (gives s.st).1 (s.items i)).map fun r => ⟨update s.items i r.1, s.log ++ r.2.1, (gives s.st).2, r.2.2⟩
  | .search i cb => (search cb s.st (s.items i)).map fun r => ⟨update s.items i r.items, s.log ++ r.log, r.st, r.ret⟩
  | .forward i cb => (forward cb s.st [] (s.items i)).map fun r => ⟨update s.items i r.items, s.log ++ r.log, r.st, r.ret⟩
  | .read i cb => (read cb s.st 0 (s.items i)).map fun r => ⟨s.items, s.log, r.1, r.2⟩
  | .readMinimum i min cb => (readMinimum cb min 0 s.st (s.items i)).map fun r => ⟨s.items, s.log, r.1, r.2⟩
  | .clear i cb => (clear cb s.st (s.items i)).map fun r => ⟨update s.items i [], s.log ++ r.1, r.2, 0⟩
  | .merge t u => some ⟨update (update s.items t (s.items t ++ s.items u)) u [], s.log, s.st, 0⟩
  | .replace i cb add => (replaceAndAdd cb add s.st (s.items i)).map fun r => ⟨update s.items i r.items, s.log ++ r.log, r.st, r.ret⟩

/-- What several calls mean. -/
def run [DecidableEq α] (s : State α σ) : List (Op α σ) → Option (State α σ)
  | [] => some s
  | op :: ops => (step s op).bind fun s => run s ops

/-- The count stays below 2^32, and buffers are not merged with themselves. Search and replace does not take an entry when one has been
replaced since the last one which was kept. -/
def Fits (s : State α σ) : Op α σ → Prop
  | .write i gives => (s.items i).length + (gives s.st).1.length < 2 ^ 32
  | .forward i cb => ∃ w, (∀ st d, (((cb st d).wrote).map List.length).sum ≤ w) ∧ (s.items i).length * (w + 1) < 2 ^ 32
  | .merge t u => t ≠ u ∧ (s.items t).length + (s.items u).length < 2 ^ 32
  | .replace i cb add => (s.items i).length + 1 < 2 ^ 32 ∧ (∀ st ws, add st = some ws → (s.items i).length + ws.length < 2 ^ 32) ∧
      replaceSafe cb false s.st (s.items i) = true
  | _ => True

/-- `Fits` holds all the time. -/
def FitsAll [DecidableEq α] (s : State α σ) : List (Op α σ) → Prop
  | [] => True
  | op :: ops => Fits s op ∧ ∀ s', step s op = some s' → FitsAll s' ops

end Spec

/-- The buffers in memory are what the specification says, and no other entry is allocated. -/
structure Match (s : Spec.State α σ) (w : World α σ) : Prop where
  intro ::
  nodes : ∃ nodes : Nat → List (Node α), (∀ i, Rep w.mem (w.bufs i) (nodes i)) ∧ (∀ i, vals (nodes i) = s.items i) ∧
    (∀ i j, i ≠ j → Apart (nodes i) (nodes j)) ∧ (∀ a, w.mem.cell a ≠ none → ∃ i, a ∈ addrs (nodes i))
  log : w.mem.log = s.log
  st : w.st = s.st
  ret : w.ret = s.ret

theorem match_init (st : σ) : Match (Spec.State.init st : Spec.State α σ) (.init st) := by
  refine ⟨⟨fun _ => [], fun i => ⟨⟨rfl, List.nodup_nil, rfl, by simp, fun a _ => rfl⟩, rfl⟩, fun _ => rfl, ?_, ?_⟩, rfl, rfl, rfl⟩
  · intro i j _ a ha; simp at ha
  · intro a ha; exact absurd rfl ha

/-- One buffer has been changed. -/
theorem match_did {s : Spec.State α σ} {w : World α σ} {nodes : Nat → List (Node α)} (i : Nat)
    (h1 : ∀ i, Rep w.mem (w.bufs i) (nodes i)) (h2 : ∀ i, vals (nodes i) = s.items i) (h3 : ∀ i j, i ≠ j → Apart (nodes i) (nodes j))
    (h4 : ∀ a, w.mem.cell a ≠ none → ∃ i, a ∈ addrs (nodes i)) (hlog : w.mem.log = s.log) {items : Spec.Items α} {g : List (Ev α)} {m' : Mem α} {f' : Fifo}
    (hd : Did w.mem (nodes i) items g m' f') (st : σ) (ret : UInt32) :
    Match ⟨update s.items i items, s.log ++ g, st, ret⟩ ⟨m', update w.bufs i f', st, ret⟩ := by
  obtain ⟨⟨l', d1, d2, d3⟩, d4⟩ := hd
  refine ⟨⟨update nodes i l', ?_, ?_, ?_, ?_⟩, by rw [d4, hlog], rfl, rfl⟩
  · intro j
    by_cases hj : j = i
    · subst hj; simpa using d1
    · simp only [update_other _ _ hj]
      exact ⟨((h1 j).shape.keep d3 (h3 j i hj) d1.shape.clean).1, (h1 j).count⟩
  · intro j
    by_cases hj : j = i
    · subst hj; simpa using d2
    · simp only [update_other _ _ hj]; exact h2 j
  · have hap : ∀ j, j ≠ i → Apart (nodes j) l' := fun j hj => ((h1 j).shape.keep d3 (h3 j i hj) d1.shape.clean).2
    intro j k hjk
    by_cases hj : j = i
    · subst hj
      rw [update_same, update_other _ _ (Ne.symm hjk)]
      intro a ha hk
      exact hap k (Ne.symm hjk) a hk ha
    · rw [update_other _ _ hj]
      by_cases hk : k = i
      · subst hk; rw [update_same]; exact hap j hj
      · rw [update_other _ _ hk]; exact h3 j k hjk
  · intro a ha
    by_cases hl : a ∈ addrs l'
    · exact ⟨i, by simpa using hl⟩
    · by_cases hi : a ∈ addrs (nodes i)
      · exact absurd (d3.freed a (Or.inl hi) hl) ha
      · by_cases hb : a < w.mem.brk
        · have := d3.frame a hb hi
          obtain ⟨j, hj⟩ := h4 a (by rw [← this]; exact ha)
          have hne : j ≠ i := by rintro rfl; exact hi hj
          exact ⟨j, by rw [update_other _ _ hne]; exact hj⟩
        · exact absurd (d3.freed a (Or.inr (by omega)) hl) ha

theorem Agrees.out {β γ δ ε : Type} {s : Option β} {o : Out γ} {R : β → γ → Prop} {g : β → δ} {k : γ → Out ε} {R' : δ → ε → Prop}
    (h : Agrees s o R) (hk : ∀ r p, R r p → ∃ q, k p = .ok q ∧ R' (g r) q) : Agrees (s.map g) (o.bind k) R' := by
  cases s with
  | none => have : o = .bug := h; subst this; rfl
  | some r => obtain ⟨p, rfl, hr⟩ := h; exact hk r p hr

theorem step_match [DecidableEq α] (op : Op α σ) {s : Spec.State α σ} {w : World α σ} (h : Match s w) (hf : Spec.Fits s op) :
    Agrees (Spec.step s op) (step w op) Match := by
  obtain ⟨⟨nodes, h1, h2, h3, h4⟩, hlog, hst, hret⟩ := h
  have hlen : ∀ i, (s.items i).length = (nodes i).length := fun i => by rw [← h2]; simp
  cases op with
  | write i gives =>
    unfold Spec.step step
    simp only
    simp only [Spec.Fits, hlen] at hf
    rw [← h2 i, hst]
    refine (write_spec _ w.mem (w.bufs i) (nodes i) (h1 i) (by simpa using hf)).out ?_
    rintro r ⟨m', f', rt⟩ ⟨q1, q2, _⟩
    refine ⟨_, rfl, ?_⟩
    simp only at q1
    subst q1
    exact match_did i h1 h2 h3 h4 hlog q2 _ _
  | search i cb =>
    unfold Spec.step step
    simp only
    rw [← h2 i, hst]
    refine (search_spec cb w.mem (w.bufs i) (nodes i) s.st (h1 i)).out ?_
    rintro r ⟨m', f', st', rt⟩ ⟨q0, q1, q2⟩
    refine ⟨_, rfl, ?_⟩
    simp only at q0 q1
    subst q0
    subst q1
    exact match_did i h1 h2 h3 h4 hlog q2 _ _
  | forward i cb =>
    unfold Spec.step step
    simp only
    obtain ⟨k, hk1, hk2⟩ := hf
    rw [hlen] at hk2
    rw [← h2 i, hst]
    refine (forward_spec cb k hk1 w.mem (w.bufs i) (nodes i) s.st (h1 i) hk2).out ?_
    rintro r ⟨m', f', st', rt⟩ ⟨q0, q1, q2⟩
    refine ⟨_, rfl, ?_⟩
    simp only at q0 q1
    subst q0
    subst q1
    exact match_did i h1 h2 h3 h4 hlog q2 _ _
  | read i cb =>
    unfold Spec.step step
    simp only
    rw [← h2 i, hst]
    refine (read_spec cb w.mem (w.bufs i) (nodes i) s.st (h1 i)).out ?_
    rintro r p rfl
    exact ⟨_, rfl, ⟨nodes, h1, h2, h3, h4⟩, hlog, rfl, rfl⟩
  | readMinimum i min cb =>
    unfold Spec.step step
    simp only
    rw [← h2 i, hst]
    refine (readMinimum_spec cb min w.mem (w.bufs i) (nodes i) s.st (h1 i)).out ?_
    rintro r p rfl
    exact ⟨_, rfl, ⟨nodes, h1, h2, h3, h4⟩, hlog, rfl, rfl⟩
  | clear i cb =>
    unfold Spec.step step
    simp only
    rw [← h2 i, hst]
    refine (clear_spec cb w.mem (w.bufs i) (nodes i) s.st (h1 i)).out ?_
    rintro r ⟨m', f', st'⟩ ⟨q0, q2⟩
    refine ⟨_, rfl, ?_⟩
    simp only at q0
    subst q0
    exact match_did i h1 h2 h3 h4 hlog q2 _ _
  | merge t u =>
    obtain ⟨hne, hlt⟩ := hf
    rw [hlen, hlen] at hlt
    obtain ⟨m', t', e1, e2, e3, e4, e5⟩ := merge_spec w.mem (w.bufs t) (w.bufs u) (nodes t) (nodes u) (h1 t) (h1 u) (h3 t u hne) hlt
    unfold Spec.step step
    simp only
    rw [e1]
    refine ⟨_, rfl, ⟨update (update nodes t (nodes t ++ nodes u)) u [], ?_, ?_, ?_, ?_⟩, by simp [e5, hlog], hst, rfl⟩
    · intro j
      by_cases hu : j = u
      · subst hu; simpa using e3
      · simp only [update_other _ _ hu]
        by_cases ht : j = t
        · subst ht; simpa using e2
        · simp only [update_other _ _ ht]
          refine ⟨((h1 j).shape.keep (l := nodes t ++ nodes u) e4 ?_ e3.shape.clean).1, (h1 j).count⟩
          intro a ha
          rw [addrs_append, List.mem_append, not_or]
          exact ⟨h3 j t ht a ha, h3 j u hu a ha⟩
    · intro j
      by_cases hu : j = u
      · subst hu; simp
      · simp only [update_other _ _ hu]
        by_cases ht : j = t
        · subst ht; simp [← h2]
        · simp only [update_other _ _ ht]; exact h2 j
    · intro j k hjk a ha hk
      by_cases hju : j = u
      · subst hju; simp at ha
      · by_cases hku : k = u
        · subst hku; simp at hk
        · simp only [update_other _ _ hju, update_other _ _ hku] at ha hk
          by_cases hjt : j = t
          · subst hjt
            simp only [update_same, update_other _ _ (Ne.symm hjk)] at ha hk
            rw [addrs_append, List.mem_append] at ha
            rcases ha with ha | ha
            · exact h3 j k hjk a ha hk
            · exact h3 u k (Ne.symm hku) a ha hk
          · by_cases hkt : k = t
            · subst hkt
              simp only [update_same, update_other _ _ hjt] at ha hk
              rw [addrs_append, List.mem_append] at hk
              rcases hk with hk | hk
              · exact h3 j k hjk a ha hk
              · exact h3 j u hju a ha hk
            · simp only [update_other _ _ hjt, update_other _ _ hkt] at ha hk
              exact h3 j k hjk a ha hk
    · intro a ha
      by_cases hn : a ∈ addrs (nodes t ++ nodes u)
      · exact ⟨t, by rw [update_other _ _ hne]; simpa using hn⟩
      · by_cases hb : a < w.mem.brk
        · have := e4.frame a hb hn
          obtain ⟨j, hj⟩ := h4 a (by rw [← this]; exact ha)
          rw [addrs_append, List.mem_append, not_or] at hn
          have hjt : j ≠ t := by rintro rfl; exact hn.1 hj
          have hju : j ≠ u := by rintro rfl; exact hn.2 hj
          exact ⟨j, by rw [update_other _ _ hju, update_other _ _ hjt]; exact hj⟩
        · exact absurd (e4.freed a (Or.inr (by omega)) hn) ha
  | replace i cb add =>
    obtain ⟨f1, f2, f3⟩ := hf
    unfold Spec.step step
    simp only
    rw [← h2 i, hst]
    refine (replace_spec cb add w.mem (w.bufs i) (nodes i) s.st (h1 i) (by rw [← hlen]; exact f1)
      (fun st ws e => by rw [← hlen]; exact f2 st ws e) (by rw [h2]; exact f3)).out ?_
    rintro r ⟨m', f', st', rt⟩ ⟨q0, q1, q2⟩
    refine ⟨_, rfl, ?_⟩
    simp only at q0 q1
    subst q0
    subst q1
    exact match_did i h1 h2 h3 h4 hlog q2 _ _

theorem run_match [DecidableEq α] : ∀ (ops : List (Op α σ)) {s : Spec.State α σ} {w : World α σ}, Match s w → Spec.FitsAll s ops →
    Agrees (Spec.run s ops) (run w ops) Match
  | [], s, w, h, _ => ⟨w, rfl, h⟩
  | op :: ops, s, w, h, hf => by
    unfold Spec.run run
    have := step_match op h hf.1
    cases hs : Spec.step s op with
    | none => rw [hs] at this; rw [show step w op = .bug from this]; rfl
    | some s' =>
      rw [hs] at this
      obtain ⟨w', e, hm⟩ := this
      rw [e]
      exact run_match ops hm (hf.2 s' hs)

end Verif.Fifo
