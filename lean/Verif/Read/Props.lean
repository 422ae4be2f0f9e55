import Verif.Read.Spec
/-!
# C44: the messages a reader gets do not depend on how the data is split into reads
-/
namespace Verif.Read
open Verif

/-- The bytes a session holds. -/
def Sess.pending (s : Sess) : Bytes := s.buf.getD (s.overshoot.getD [])

/-- What is demanded of the callbacks, for streams `Ok` in the given state. Verdicts other than "incomplete" on a beginning of the stream
stay the same when more of it is there, sizes are not zero, and the user does not look
beyond the message. -/
structure Fits {σ : Type} (u : User σ) (Ok : σ → Bytes → Prop) : Prop where
  stable : ∀ {st s b}, Ok st s → b <+: s → b ≠ [] → u.tgt st b ≠ .incomplete → u.tgt st s = u.tgt st b
  pos : ∀ {st s n}, Ok st s → u.tgt st s = .size n → 0 < n
  skip : ∀ {st s b k}, Ok st s → b <+: s → b ≠ [] → u.tgt st b = .skip k → 0 < k ∧ k ≤ b.length
  own : ∀ {st s b n}, Ok st s → b <+: s → b ≠ [] → u.tgt st b = .size n → n ≤ s.length →
    u.complete st b (s.take n) = u.complete st (s.take n) (s.take n)
  next : ∀ {st s n st'}, Ok st s → s ≠ [] → u.tgt st s = .size n → n ≤ s.length →
    u.complete st (s.take n) (s.take n) = some st' → Ok st' (s.drop n)
  nextSkip : ∀ {st s k}, Ok st s → s ≠ [] → u.tgt st s = .skip k → Ok st (s.drop k)

/-- What the user's callbacks make of a stream, as a specification. -/
def User.deliverAll {σ : Type} (u : User σ) (st : σ) (stream : Bytes) : σ × Spec.End :=
  Spec.deliverAll u.tgt (fun st msg => u.complete st msg msg) st stream

section
variable {σ : Type} {u : User σ} {Ok : σ → Bytes → Prop}

theorem deliver_fuel (h : Fits u Ok) : ∀ (f1 f2 : Nat) {st : σ} {s : Bytes}, Ok st s → s.length < f1 → s.length < f2 →
    Spec.deliver u.tgt (fun st msg => u.complete st msg msg) f1 st s =
    Spec.deliver u.tgt (fun st msg => u.complete st msg msg) f2 st s
  | 0, _, _, _, _, h1, _ => by omega
  | _ + 1, 0, _, _, _, _, h2 => by omega
  | f1 + 1, f2 + 1, st, s, hok, h1, h2 => by
    unfold Spec.deliver
    by_cases hs : s = []
    · simp only [hs, if_true]
    · rw [if_neg hs, if_neg hs]
      cases ht : u.tgt st s with
      | incomplete => rfl
      | error => rfl
      | skip k =>
        have := h.skip hok (List.prefix_refl s) hs ht
        exact deliver_fuel h f1 f2 (h.nextSkip hok hs ht) (by rw [List.length_drop]; omega) (by rw [List.length_drop]; omega)
      | size n =>
        have hp := h.pos hok ht
        by_cases hl : s.length < n
        · simp only [hl, if_true]
        · simp only [hl, if_false]
          cases hc : u.complete st (s.take n) (s.take n) with
          | none => rfl
          | some st' =>
            exact deliver_fuel h f1 f2 (h.next hok hs ht (by omega) hc) (by rw [List.length_drop]; omega)
              (by rw [List.length_drop]; omega)

theorem deliverAll_nil (st : σ) : u.deliverAll st [] = (st, .waiting []) := rfl

theorem deliverAll_incomplete {st : σ} {s : Bytes} (ht : u.tgt st s = .incomplete) :
    u.deliverAll st s = (st, .waiting s) := by
  unfold User.deliverAll Spec.deliverAll Spec.deliver
  by_cases hs : s = []
  · simp [hs]
  · rw [if_neg hs, ht]

theorem deliverAll_error {st : σ} {s : Bytes} (hs : s ≠ []) (ht : u.tgt st s = .error) :
    u.deliverAll st s = (st, .closed) := by
  unfold User.deliverAll Spec.deliverAll Spec.deliver
  rw [if_neg hs, ht]

theorem deliverAll_short {st : σ} {s : Bytes} {n : Nat} (ht : u.tgt st s = .size n) (hl : s.length < n) :
    u.deliverAll st s = (st, .waiting s) := by
  unfold User.deliverAll Spec.deliverAll Spec.deliver
  by_cases hs : s = []
  · simp [hs]
  · rw [if_neg hs, ht]; simp [hl]

theorem deliverAll_skip (h : Fits u Ok) {st : σ} {s : Bytes} {k : Nat} (hok : Ok st s) (hs : s ≠ [])
    (ht : u.tgt st s = .skip k) : u.deliverAll st s = u.deliverAll st (s.drop k) := by
  have hk := h.skip hok (List.prefix_refl s) hs ht
  unfold User.deliverAll
  rw [Spec.deliverAll, Spec.deliver, if_neg hs, ht]
  exact deliver_fuel h _ _ (h.nextSkip hok hs ht) (by rw [List.length_drop]; omega) (by omega)

theorem deliverAll_refused {st : σ} {s : Bytes} {n : Nat} (hs : s ≠ []) (ht : u.tgt st s = .size n)
    (hl : n ≤ s.length) (hc : u.complete st (s.take n) (s.take n) = none) : u.deliverAll st s = (st, .closed) := by
  unfold User.deliverAll Spec.deliverAll Spec.deliver
  rw [if_neg hs, ht]
  simp only [Nat.not_lt.mpr hl, if_false, hc]

theorem deliverAll_size (h : Fits u Ok) {st st' : σ} {s : Bytes} {n : Nat} (hok : Ok st s) (hs : s ≠ [])
    (ht : u.tgt st s = .size n) (hl : n ≤ s.length) (hc : u.complete st (s.take n) (s.take n) = some st') :
    u.deliverAll st s = u.deliverAll st' (s.drop n) := by
  have hp := h.pos hok ht
  unfold User.deliverAll
  rw [Spec.deliverAll, Spec.deliver, if_neg hs, ht]
  simp only [Nat.not_lt.mpr hl, if_false, hc]
  exact deliver_fuel h _ _ (h.next hok hs ht hl hc) (by rw [List.length_drop]; omega) (by omega)

/-- Invariant of a session between calls. -/
structure Inv (u : User σ) (st : σ) (s : Sess) : Prop where
  excl : ∀ b, s.buf = some b → s.overshoot = none
  room : ∀ b, s.buf = some b → b.length ≤ s.size ∧ s.size ≤ s.cap
  known : ∀ b, s.buf = some b → s.target ≠ 0 →
    s.seen <+: b ∧ s.seen ≠ [] ∧ u.tgt st s.seen = .size s.target ∧ b.length < s.target
  unknown : ∀ b, s.buf = some b → s.target = 0 → b ≠ [] ∧ u.tgt st b = .incomplete
  some_over : ∀ o, s.overshoot = some o → o ≠ []

theorem inv_init (u : User σ) (st : σ) : Inv u st Sess.init := by
  constructor <;> simp [Sess.init]

/-- Measure which every useful call decreases. -/
def measure (s : Sess) (rest : List Bytes) : Nat :=
  rest.length + (s.pending ++ rest.flatten).length + (if s.overshoot.isSome then 1 else 0)

theorem newSize_ge (step : Nat) (s : Sess) (n : Nat) : s.size + n ≤ newSize step s n := by
  have key : ∀ e, n ≤ if n > e then n else e := by intro e; split <;> omega
  exact Nat.add_le_add_left (key _) _

/-- Outcome of processing which the theorems allow, for a session which held and was given `b` in total
and with `tail` still to come. -/
def Good (u : User σ) (Ok : σ → Bytes → Prop) (st : σ) (b tail : Bytes) : Ret × Sess × σ → Prop
  | (.ok, s', st') => Inv u st' s' ∧ Ok st' (s'.pending ++ tail) ∧ s'.buf = none ∧ s'.pending.length < b.length ∧
      u.deliverAll st (b ++ tail) = u.deliverAll st' (s'.pending ++ tail)
  | (.incomplete, s', st') => Inv u st' s' ∧ Ok st' (s'.pending ++ tail) ∧
      (s'.pending.length < b.length ∨ (s'.pending = b ∧ s'.overshoot = none)) ∧
      u.deliverAll st (b ++ tail) = u.deliverAll st' (s'.pending ++ tail)
  | (.closed, _, st') => u.deliverAll st (b ++ tail) = (st', .closed)
  | (.bug, _, _) => False
  | (.oob, _, _) => False

theorem finish_good (h : Fits u Ok) {st : σ} {s : Sess} {b tail : Bytes} (hok : Ok st (b ++ tail))
    (hov : s.overshoot = none) (hroom : b.length ≤ s.size ∧ s.size ≤ s.cap) (hpre : s.seen <+: b) (hne : s.seen ≠ [])
    (ht : u.tgt st s.seen = .size s.target) : Good u Ok st b tail (finish u st s b) := by
  have hbne : b ≠ [] := by
    intro e
    subst e
    exact hne (List.prefix_nil.mp hpre)
  have hsne : b ++ tail ≠ [] := by simp [hbne]
  have hpre' : s.seen <+: b ++ tail := hpre.trans (List.prefix_append _ _)
  have htt : u.tgt st (b ++ tail) = .size s.target := by rw [h.stable hok hpre' hne (by rw [ht]; simp), ht]
  have hpos := h.pos hok htt
  unfold finish
  rw [if_neg (by rw [hov]; simp)]
  dsimp only
  by_cases hgt : b.length > s.target
  · simp only [hgt, if_true]
    have hlen : (b.take s.target).length = s.target := by rw [List.length_take]; omega
    rw [if_pos ⟨hlen, hpos⟩]
    have hle : s.target ≤ (b ++ tail).length := by rw [List.length_append]; omega
    have htake : (b ++ tail).take s.target = b.take s.target := List.take_append_of_le_length (by omega)
    have hdrop : (b ++ tail).drop s.target = b.drop s.target ++ tail := List.drop_append_of_le_length (by omega)
    have hown := h.own hok hpre' hne ht hle
    rw [htake] at hown
    rw [hown]
    cases hc : u.complete st (b.take s.target) (b.take s.target) with
    | none => exact deliverAll_refused hsne htt hle (by rw [htake]; exact hc)
    | some st' =>
      have hc' : u.complete st ((b ++ tail).take s.target) ((b ++ tail).take s.target) = some st' := by rw [htake]; exact hc
      refine ⟨⟨by simp, by simp, by simp, by simp, ?_⟩, ?_, rfl, ?_, ?_⟩
      · intro o ho
        cases ho
        intro e
        have := congrArg List.length e
        rw [List.length_drop] at this
        simp at this
        omega
      · have := h.next hok hsne htt hle hc'
        rw [hdrop] at this
        exact this
      · simp only [Sess.pending, Option.getD_none, Option.getD_some, List.length_drop]; omega
      · rw [deliverAll_size h hok hsne htt hle hc', hdrop]; rfl
  · simp only [hgt, if_false]
    by_cases heq : b.length = s.target
    · rw [if_pos ⟨heq, hpos⟩]
      have hle : s.target ≤ (b ++ tail).length := by rw [List.length_append]; omega
      have htake : (b ++ tail).take s.target = b := by rw [← heq, List.take_left]
      have hdrop : (b ++ tail).drop s.target = tail := by rw [← heq, List.drop_left]
      have hown := h.own hok hpre' hne ht hle
      rw [htake] at hown
      rw [hown]
      cases hc : u.complete st b b with
      | none => exact deliverAll_refused hsne htt hle (by rw [htake]; exact hc)
      | some st' =>
        have hc' : u.complete st ((b ++ tail).take s.target) ((b ++ tail).take s.target) = some st' := by rw [htake]; exact hc
        have hpend : ({ s with buf := none, target := 0, overshoot := s.overshoot } : Sess).pending = [] := by
          simp [Sess.pending, hov]
        refine ⟨⟨by simp, by simp, by simp, by simp, by simp [hov]⟩, ?_, rfl, ?_, ?_⟩
        · have := h.next hok hsne htt hle hc'
          rw [hdrop] at this
          rw [hpend]
          exact this
        · rw [hpend]; exact List.length_pos_iff.mpr hbne
        · rw [deliverAll_size h hok hsne htt hle hc', hdrop, hpend]; rfl
    · rw [if_neg (fun hh => heq hh.1)]
      refine ⟨⟨?_, ?_, ?_, ?_, by simp [hov]⟩, ?_, ?_, ?_⟩
      · intro _ _; exact hov
      · intro b' hb'; cases hb'; exact hroom
      · intro b' hb' _; cases hb'; exact ⟨hpre, hne, ht, by show b.length < s.target; omega⟩
      · intro b' _ h0; exact absurd h0 (Nat.pos_iff_ne_zero.mp hpos)
      · exact hok
      · right; exact ⟨rfl, hov⟩
      · rfl

theorem process_good (h : Fits u Ok) {st : σ} {s : Sess} {data tail : Bytes} (hinv : Inv u st s)
    (hok : Ok st (s.pending ++ data ++ tail)) (hmode : s.overshoot.isSome = true ∧ data = [] ∨ s.overshoot = none ∧ data ≠ [])
    (hmax : u.max = 0 ∨ (s.pending ++ data).length ≤ u.max) :
    Good u Ok st (s.pending ++ data) tail (process u st s data) := by
  -- the session after the data was added
  have key : ∃ s2, append u.step (prepare u.step s data.length) ((prepare u.step s data.length).buf.getD []) data = some s2 ∧
      s2.buf = some (s.pending ++ data) ∧ s2.overshoot = none ∧ ((s.pending ++ data).length ≤ s2.size ∧ s2.size ≤ s2.cap) ∧
      (s2.target ≠ 0 → s2.seen <+: s.pending ++ data ∧ s2.seen ≠ [] ∧ u.tgt st s2.seen = .size s2.target) := by
    cases hb : s.buf with
    | some b =>
      have hov := hinv.excl b hb
      have hd : data ≠ [] := by rcases hmode with ⟨h1, _⟩ | ⟨_, h2⟩; (simp [hov] at h1); exact h2
      have hpr : prepare u.step s data.length = s := by unfold prepare; rw [hb]
      have hpend : s.pending = b := by simp [Sess.pending, hb]
      obtain ⟨hr1, hr2⟩ := hinv.room b hb
      have hk : s.target ≠ 0 → s.seen <+: b ++ data ∧ s.seen ≠ [] ∧ u.tgt st s.seen = .size s.target := fun h0 =>
        let ⟨a1, a2, a3, _⟩ := hinv.known b hb h0
        ⟨a1.trans (List.prefix_append _ _), a2, a3⟩
      rw [hpr, hpend]
      unfold append
      rw [if_neg hd, hb]
      dsimp only [Option.getD_some]
      have hns := newSize_ge u.step s data.length
      by_cases hgt : data.length + b.length > s.size
      · simp only [hgt, if_true]
        rw [if_neg (by omega)]
        exact ⟨_, rfl, rfl, hov, by simp only [List.length_append]; omega, hk⟩
      · simp only [hgt, if_false]
        rw [if_neg (by omega)]
        exact ⟨_, rfl, rfl, hov, by simp only [List.length_append]; omega, hk⟩
    | none =>
      cases ho : s.overshoot with
      | some o =>
        have hd : data = [] := by rcases hmode with ⟨_, h1⟩ | ⟨h2, _⟩; exact h1; (rw [ho] at h2; cases h2)
        have hpend : s.pending = o := by simp [Sess.pending, hb, ho]
        unfold prepare
        rw [hb, ho]
        dsimp only
        rw [hpend, hd]
        unfold append
        rw [if_pos rfl]
        exact ⟨_, rfl, by simp, rfl, by simp, by simp⟩
      | none =>
        have hd : data ≠ [] := by rcases hmode with ⟨h1, _⟩ | ⟨_, h2⟩; (simp [ho] at h1); exact h2
        have hpend : s.pending = [] := by simp [Sess.pending, hb, ho]
        unfold prepare
        rw [hb, ho]
        dsimp only
        rw [hpend]
        unfold append
        rw [if_neg hd]
        dsimp only [Option.getD_some, List.nil_append, List.length_nil, Nat.add_zero]
        by_cases hgt : data.length > u.step
        · simp only [hgt, if_true]
          have hns := newSize_ge u.step { s with buf := some [], size := u.step, cap := data.length, target := 0, overshoot := none } data.length
          simp only at hns
          rw [if_neg (by simp only [Nat.not_lt, Nat.zero_add]; omega)]
          exact ⟨_, rfl, rfl, rfl, by simp only; omega, by simp⟩
        · simp only [hgt, if_false]
          rw [if_neg (by simp only [Nat.not_lt, Nat.zero_add]; omega)]
          exact ⟨_, rfl, rfl, rfl, by simp only; omega, by simp⟩
  obtain ⟨s2, e1, e2, e3, e4, e5⟩ := key
  have hbne : s.pending ++ data ≠ [] := by
    rcases hmode with ⟨h1, _⟩ | ⟨_, h2⟩
    · obtain ⟨o, ho⟩ := Option.isSome_iff_exists.mp h1
      have : s.pending = o := by
        cases hb : s.buf with
        | none => simp [Sess.pending, hb, ho]
        | some b => have := hinv.excl b hb; rw [ho] at this; cases this
      rw [this]
      simp [hinv.some_over o ho]
    · simp [h2]
  unfold process
  dsimp only
  rw [e1]
  dsimp only
  rw [e2]
  dsimp only [Option.getD_some]
  generalize hB : s.pending ++ data = b at *
  have hpre : b <+: b ++ tail := List.prefix_append _ _
  have hsne : b ++ tail ≠ [] := by simp [hbne]
  rw [if_neg (by omega)]
  by_cases h0 : s2.target = 0
  · rw [if_pos h0]
    cases ht : u.tgt st b with
    | error =>
      have := h.stable hok hpre hbne (by rw [ht]; simp)
      exact deliverAll_error hsne (by rw [this, ht])
    | incomplete =>
      refine ⟨⟨?_, ?_, ?_, ?_, by simp [e3]⟩, ?_, ?_, ?_⟩
      · intro _ _; exact e3
      · intro b' hb'; rw [e2] at hb'; cases hb'; exact e4
      · intro _ _ h1; exact absurd h0 h1
      · intro b' hb' _; rw [e2] at hb'; cases hb'; exact ⟨hbne, ht⟩
      · simp only [Sess.pending, e2, Option.getD_some]; exact hok
      · right; simp only [Sess.pending, e2, Option.getD_some]; exact ⟨trivial, e3⟩
      · simp only [Sess.pending, e2, Option.getD_some]
    | skip k =>
      obtain ⟨hk0, hkl⟩ := h.skip hok hpre hbne ht
      have hts := h.stable hok hpre hbne (by rw [ht]; simp)
      rw [ht] at hts
      dsimp only
      rw [if_neg (by omega), if_neg (by omega), if_neg (by omega)]
      have hdrop : (b ++ tail).drop k = b.drop k ++ tail := List.drop_append_of_le_length hkl
      have hpend : ({ s2 with buf := none, overshoot := if b.length - k > 0 then some (b.drop k) else s2.overshoot } :
          Sess).pending = b.drop k := by
        simp only [Sess.pending, Option.getD_none]
        split
        · rfl
        · rw [e3]
          symm
          exact List.drop_eq_nil_of_le (by omega)
      refine ⟨⟨by simp, by simp, by simp, by simp, ?_⟩, ?_, ?_, ?_⟩
      · intro o ho
        dsimp only at ho
        split at ho
        · cases ho
          intro e
          have := congrArg List.length e
          rw [List.length_drop] at this
          simp at this
          omega
        · rw [e3] at ho; cases ho
      · rw [hpend, ← hdrop]; exact h.nextSkip hok hsne hts
      · left; rw [hpend, List.length_drop]; omega
      · rw [hpend, ← hdrop]; exact deliverAll_skip h hok hsne hts
    | size n =>
      have hts := h.stable hok hpre hbne (by rw [ht]; simp)
      rw [ht] at hts
      dsimp only
      have := h.pos hok hts
      rw [if_neg (by omega)]
      exact finish_good h hok e3 e4 (List.prefix_refl b) hbne ht
  · rw [if_neg h0]
    obtain ⟨a1, a2, a3⟩ := e5 h0
    exact finish_good h hok e3 e4 a1 a2 a3

/-- What is shown of a connection: nothing bad happens, and what remains to be read leads to the same
result as the whole stream. -/
def ConnGood (u : User σ) (Ok : σ → Bytes → Prop) (goal : σ × Spec.End) : Conn σ → Prop
  | .open s st chunks => Inv u st s ∧ Ok st (s.pending ++ chunks.flatten) ∧
      (u.max = 0 ∨ (s.pending ++ chunks.flatten).length ≤ u.max) ∧ u.deliverAll st (s.pending ++ chunks.flatten) = goal
  | .closed st => goal = (st, .closed)
  | .bug => False
  | .oob => False

/-- Calls still of use. -/
def Conn.measure : Conn σ → Nat
  | .open s _ chunks => Read.measure s chunks
  | _ => 0

/-- Nothing is left to do. -/
def Conn.done : Conn σ → Prop
  | .open s _ chunks => chunks = [] ∧ s.overshoot = none
  | .closed _ => True
  | _ => False

theorem next_good (h : Fits u Ok) {goal : σ × Spec.End} {c : Conn σ} (hc : ConnGood u Ok goal c) :
    ConnGood u Ok goal (next u c) ∧ ((next u c).measure < c.measure ∨ (c.done ∧ next u c = c)) := by
  cases c with
  | closed st => exact ⟨hc, Or.inr ⟨trivial, rfl⟩⟩
  | bug => exact absurd hc id
  | oob => exact absurd hc id
  | «open» s st chunks =>
    obtain ⟨hinv, hok, hmax, hgoal⟩ := hc
    by_cases hov : s.overshoot.isSome = true
    · have hp := process_good (data := []) (tail := chunks.flatten) h hinv (by simpa using hok) (Or.inl ⟨hov, rfl⟩)
        (by rw [List.length_append] at hmax; simp only [List.append_nil]; omega)
      rw [List.append_nil] at hp
      cases hr : process u st s [] with
      | mk r rest =>
        obtain ⟨s', st'⟩ := rest
        rw [hr] at hp
        cases r with
        | ok =>
          have e : next u (.open s st chunks) = .open s' st' chunks := by simp [next, call, hov, hr]
          rw [e]
          obtain ⟨p1, p2, p3, p4, p5⟩ := hp
          refine ⟨⟨p1, p2, ?_, by rw [← p5]; exact hgoal⟩, Or.inl ?_⟩
          · rw [List.length_append] at hmax ⊢; omega
          · simp only [Conn.measure, Read.measure, hov, if_true, List.length_append, Bool.false_eq_true, if_false]
            split <;> omega
        | incomplete =>
          have e : next u (.open s st chunks) = .open s' st' chunks := by simp [next, call, hov, hr]
          rw [e]
          obtain ⟨p1, p2, p3, p5⟩ := hp
          refine ⟨⟨p1, p2, ?_, by rw [← p5]; exact hgoal⟩, Or.inl ?_⟩
          · rw [List.length_append] at hmax ⊢
            rcases p3 with p3 | p3
            · omega
            · rw [p3.1]; exact hmax
          · simp only [Conn.measure, Read.measure, hov, if_true, List.length_append, Bool.false_eq_true, if_false]
            rcases p3 with p3 | ⟨p3, p4⟩
            · split <;> omega
            · rw [p3, p4]; simp
        | closed =>
          have e : next u (.open s st chunks) = .closed st' := by simp [next, call, hov, hr]
          rw [e]
          refine ⟨?_, Or.inl ?_⟩
          · exact hgoal.symm.trans hp
          · simp only [Conn.measure, Read.measure, hov, if_true]; omega
        | bug => exact absurd hp id
        | oob => exact absurd hp id
    · have hov' : s.overshoot = none := by simpa using hov
      cases chunks with
      | nil =>
        have : next u (.open s st []) = .open s st [] := by
          simp [next, call, hov']
        rw [this]
        exact ⟨⟨hinv, hok, hmax, hgoal⟩, Or.inr ⟨⟨rfl, hov'⟩, rfl⟩⟩
      | cons d rest =>
        by_cases hd : d = []
        · subst hd
          have : next u (.open s st ([] :: rest)) = .open s st rest := by
            simp [next, call, hov']
          rw [this]
          refine ⟨⟨hinv, by simpa using hok, by simpa using hmax, by simpa using hgoal⟩, Or.inl ?_⟩
          simp only [Conn.measure, Read.measure, List.flatten_cons, List.nil_append, List.length_cons]
          omega
        · have hp := process_good (data := d) (tail := rest.flatten) h hinv (by simpa [List.append_assoc] using hok)
            (Or.inr ⟨hov', hd⟩) (by
              rw [List.flatten_cons, ← List.append_assoc, List.length_append] at hmax; omega)
          rw [List.flatten_cons, ← List.append_assoc] at hgoal hmax
          have hlen : 0 < d.length := List.length_pos_iff.mpr hd
          cases hr : process u st s d with
          | mk r x =>
            obtain ⟨s', st'⟩ := x
            rw [hr] at hp
            cases r with
            | ok =>
              have e : next u (.open s st (d :: rest)) = .open s' st' rest := by simp [next, call, hov', hr, hd]
              rw [e]
              obtain ⟨p1, p2, p3, p4, p5⟩ := hp
              refine ⟨⟨p1, p2, ?_, by rw [← p5]; exact hgoal⟩, Or.inl ?_⟩
              · rw [List.length_append] at hmax ⊢; omega
              · rw [List.length_append] at p4
                simp only [Conn.measure, Read.measure, hov', List.flatten_cons, List.length_append, Option.isSome_none,
                  Bool.false_eq_true, if_false, if_true, List.length_cons]
                split <;> omega
            | incomplete =>
              have e : next u (.open s st (d :: rest)) = .open s' st' rest := by simp [next, call, hov', hr, hd]
              rw [e]
              obtain ⟨p1, p2, p3, p5⟩ := hp
              refine ⟨⟨p1, p2, ?_, by rw [← p5]; exact hgoal⟩, Or.inl ?_⟩
              · rw [List.length_append] at hmax ⊢
                rcases p3 with p3 | p3
                · omega
                · rw [p3.1]; exact hmax
              · simp only [Conn.measure, Read.measure, hov', List.flatten_cons, List.length_append, Option.isSome_none,
                  Bool.false_eq_true, if_false, if_true, List.length_cons]
                rcases p3 with p3 | ⟨p3, p4⟩
                · rw [List.length_append] at p3
                  split <;> omega
                · rw [p3, p4]; simp; omega
            | closed =>
              have e : next u (.open s st (d :: rest)) = .closed st' := by simp [next, call, hov', hr, hd]
              rw [e]
              refine ⟨?_, Or.inl ?_⟩
              · exact hgoal.symm.trans hp
              · simp only [Conn.measure, Read.measure, List.length_cons]; omega
            | bug => exact absurd hp id
            | oob => exact absurd hp id

theorem calls_good (h : Fits u Ok) {goal : σ × Spec.End} : ∀ (n : Nat) {c : Conn σ}, ConnGood u Ok goal c →
    ConnGood u Ok goal (calls u n c) ∧ (c.measure < n → (calls u n c).done)
  | 0, c, hc => ⟨hc, by omega⟩
  | n + 1, c, hc => by
    obtain ⟨h1, h2⟩ := next_good h hc
    obtain ⟨h3, h4⟩ := calls_good h n h1
    refine ⟨h3, fun hm => ?_⟩
    show (calls u n (next u c)).done
    rcases h2 with h2 | ⟨h2, h2'⟩
    · exact h4 (by omega)
    · -- nothing left to do: stays
      have : ∀ m, calls u m c = c := by
        intro m
        induction m with
        | zero => rfl
        | succ m ih => show calls u m (next u c) = c; rw [h2', ih]
      rw [h2', this]
      exact h2

theorem inv_pending_waiting (h : Fits u Ok) {st : σ} {s : Sess} (hinv : Inv u st s) (hok : Ok st s.pending)
    (hov : s.overshoot = none) : u.deliverAll st s.pending = (st, .waiting s.pending) := by
  cases hb : s.buf with
  | none => simp only [Sess.pending, hb, hov, Option.getD_none]; rfl
  | some b =>
    have hp : s.pending = b := by simp [Sess.pending, hb]
    rw [hp] at hok ⊢
    by_cases h0 : s.target = 0
    · exact deliverAll_incomplete (hinv.unknown b hb h0).2
    · obtain ⟨a1, a2, a3, a4⟩ := hinv.known b hb h0
      have := h.stable hok a1 a2 (by rw [a3]; simp)
      exact deliverAll_short (by rw [this, a3]) a4

/-- **C44** Whatever the chunks in which a stream arrives: after enough calls of the framework the
user's callbacks have been given exactly the messages of the stream, one after another, every
byte was given to them once and in order, and what is left is held for later; or the connection was
closed at the message where the callbacks refuse. No call aborts or writes outside of a buffer, whatever
the sizes. -/
theorem chunks_irrelevant (u : User σ) (Ok : σ → Bytes → Prop) (h : Fits u Ok) (st : σ) (chunks : List Bytes)
    (hok : Ok st chunks.flatten) (hmax : u.max = 0 ∨ chunks.flatten.length ≤ u.max) (n : Nat)
    (hn : chunks.length + chunks.flatten.length < n) :
    (∃ s st', calls u n (.open .init st chunks) = .open s st' [] ∧ s.overshoot = none ∧
      u.deliverAll st chunks.flatten = (st', .waiting s.pending)) ∨
    (∃ st', calls u n (.open .init st chunks) = .closed st' ∧ u.deliverAll st chunks.flatten = (st', .closed)) := by
  have h0 : ConnGood u Ok (u.deliverAll st chunks.flatten) (.open .init st chunks) :=
    ⟨inv_init u st, hok, hmax, rfl⟩
  have hm : Conn.measure (.open Sess.init st chunks) < n := by
    simp only [Conn.measure, Read.measure, Sess.init, Sess.pending]; simpa using hn
  obtain ⟨h1, h2⟩ := calls_good h n h0
  have h2 := h2 hm
  cases hc : calls u n (.open .init st chunks) with
  | «open» s st' rest =>
    rw [hc] at h1 h2
    obtain ⟨rfl, hov⟩ := h2
    obtain ⟨a1, a2, _, a4⟩ := h1
    rw [List.flatten_nil, List.append_nil] at a2 a4
    left
    refine ⟨s, st', rfl, hov, ?_⟩
    rw [← a4]
    exact inv_pending_waiting h a1 a2 hov
  | closed st' => rw [hc] at h1; exact Or.inr ⟨st', rfl, h1⟩
  | bug => rw [hc] at h1; exact absurd h1 id
  | oob => rw [hc] at h1; exact absurd h1 id

/-- **C44** At every moment in between, the callbacks have got a beginning of what they get in
the end: continuing from the current state with the bytes held and still to come gives the result for
the whole stream. -/
theorem always_on_track (u : User σ) (Ok : σ → Bytes → Prop) (h : Fits u Ok) (st : σ) (chunks : List Bytes)
    (hok : Ok st chunks.flatten) (hmax : u.max = 0 ∨ chunks.flatten.length ≤ u.max) (n : Nat) :
    match calls u n (.open .init st chunks) with
    | .open s st' rest => u.deliverAll st' (s.pending ++ rest.flatten) = u.deliverAll st chunks.flatten
    | .closed st' => u.deliverAll st chunks.flatten = (st', .closed)
    | .bug => False
    | .oob => False := by
  have h0 : ConnGood u Ok (u.deliverAll st chunks.flatten) (.open .init st chunks) :=
    ⟨inv_init u st, hok, hmax, rfl⟩
  have h1 := (calls_good h n h0).1
  cases hc : calls u n (.open .init st chunks) with
  | «open» s st' rest => rw [hc] at h1; exact h1.2.2.2
  | closed st' => rw [hc] at h1; exact h1
  | bug => rw [hc] at h1; exact h1
  | oob => rw [hc] at h1; exact h1

end

/-- A user with one length byte in front of each message, which collects the messages and
refuses those starting with 0xff. Zero bytes in front of a message are skipped. -/
def lengthByte (step max : Nat) : User (List Bytes) where
  tgt _ b := match b with
    | [] => .incomplete
    | 0 :: _ => .skip 1
    | n :: _ => .size (n.toNat + 1)
  complete st _ msg := if msg.getD 1 0 = 0xff then none else some (st ++ [msg.drop 1])
  step := step
  max := max

theorem lengthByte_fits (step max : Nat) : Fits (lengthByte step max) (fun _ _ => True) where
  stable := by
    rintro st s b - ⟨t, rfl⟩ hb -
    cases b with
    | nil => exact absurd rfl hb
    | cons x b => unfold lengthByte; dsimp only [List.cons_append]; split <;> simp_all
  pos := by
    rintro st s n - ht
    unfold lengthByte at ht
    dsimp only at ht
    split at ht <;> cases ht
    omega
  skip := by
    rintro st s b k - - hb ht
    unfold lengthByte at ht
    dsimp only at ht
    split at ht <;> cases ht
    simp
  own := by intros; rfl
  next := by intros; trivial
  nextSkip := by intros; trivial

-- the hypotheses of both theorems hold for this user and any stream
example (chunks : List Bytes) (n : Nat) (hn : chunks.length + chunks.flatten.length < n) :=
  chunks_irrelevant (lengthByte 10 0) _ (lengthByte_fits 10 0) [] chunks trivial (Or.inl rfl) n hn
-- two messages and a half, in chunks which do not respect the borders
example : (lengthByte 10 0).deliverAll [] [2, 7, 8, 0, 1, 9, 3, 1] = ([[7, 8], [9]], .waiting [3, 1]) := by decide +kernel
example : (match calls (lengthByte 10 0) 20 (.open .init [] [[2], [7, 8, 0, 1], [9, 3], [1]]) with
    | .open s st [] => some (st, s.pending) | _ => none) = some ([[7, 8], [9]], [3, 1]) := by decide +kernel
example : calls (lengthByte 10 0) 20 (.open .init [] [[1, 5, 2], [255, 3]]) = .closed [[5]] := by decide +kernel

/-- **C44** The hypothesis on `read_max_size` is needed: the limit is compared with everything in the
buffer and not with one message, so that with a limit the same two small messages are accepted or the
connection is closed, depending on whether they arrive in one read. -/
theorem max_size_depends_on_chunks :
    calls (lengthByte 10 4) 20 (.open .init [] [[2, 7, 8, 2, 9, 9]]) = .closed [] ∧
    (match calls (lengthByte 10 4) 20 (.open .init [] [[2, 7, 8], [2, 9, 9]]) with
      | .open s st [] => some (st, s.pending) | _ => none) = some ([[7, 8], [9, 9]], []) := by decide +kernel

end Verif.Read
