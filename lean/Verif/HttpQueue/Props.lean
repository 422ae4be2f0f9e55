import Verif.HttpQueue.Spec

/-!
# Messages to be sent with HTTP are sent, kept or given up exactly as configured (C152)
-/
namespace Verif.HttpQueue
open Verif Verif.HttpQueue.Spec

/-! ## Processing of a queue -/

theorem attempts_cons (env : Nat → Bool × Res) (k t : Nat) (e : Entry) (r : List Entry) :
    attempts env k (t + 1) (e :: r) = (e, (env k).2) :: attempts env (k + 1) t r := by
  simp [attempts, List.range'_succ]

/-- What is to be shown of a processed queue. -/
def Exact (drop : Bool) (env : Nat → Bool × Res) (k : Nat) (q : List Entry) (d : Done) : Prop :=
  d.tried ≤ q.length ∧
  d.sent = ((attempts env k d.tried q).filter (fun a => a.2 == .ok)).map (·.1) ∧
  d.lost = ((attempts env k d.tried q).filter (fun a => GivenUp drop a.2)).map (·.1) ∧
  d.kept = ((attempts env k d.tried q).filter (fun a => Again drop a.2)).map (·.1) ++ q.drop d.tried

theorem loop_exact (drop : Bool) (env : Nat → Bool × Res) (k : Nat) (max : Int) (q : List Entry) :
    Exact drop env k q (processLoop drop env k max q) := by
  induction q generalizing k max with
  | nil => simp [processLoop, Exact, attempts]
  | cons e r ih =>
    unfold processLoop
    split
    · simp [Exact, attempts]
    · simp only
      generalize hd : (if max = 0 then ({ kept := r } : Done) else processLoop drop env (k + 1) (if (env k).2 = .busy then max - 1 + 1 else max - 1) r) = d
      have hx : Exact drop env (k + 1) r d := by
        subst hd
        split
        · simp [Exact, attempts]
        · exact ih _ _
      obtain ⟨h1, h2, h3, h4⟩ := hx
      cases hr : (env k).2 with
      | ok =>
        refine ⟨by simpa using h1, ?_, ?_, ?_⟩ <;> simp only [attempts_cons, hr, List.drop_succ_cons]
        · rw [h2]; simp
        · rw [h3]; simp [GivenUp]
        · rw [h4]; simp [Again]
      | busy =>
        refine ⟨by simpa using h1, ?_, ?_, ?_⟩ <;> simp only [attempts_cons, hr, List.drop_succ_cons]
        · rw [h2]; simp
        · rw [h3]; simp [GivenUp]
        · rw [h4]; simp [Again]
      | hard =>
        refine ⟨by simpa using h1, ?_, ?_, ?_⟩ <;> simp only [attempts_cons, hr, List.drop_succ_cons]
        · rw [h2]; simp
        · rw [h3]; simp [GivenUp]
        · rw [h4]; simp [Again]
      | soft =>
        cases drop with
        | true =>
          refine ⟨by simpa using h1, ?_, ?_, ?_⟩ <;> simp only [attempts_cons, hr, List.drop_succ_cons, if_true]
          · rw [h2]; simp
          · rw [h3]; simp [GivenUp]
          · rw [h4]; simp [Again]
        | false =>
          refine ⟨by simpa using h1, ?_, ?_, ?_⟩ <;> simp only [attempts_cons, hr, List.drop_succ_cons, Bool.false_eq_true, if_false]
          · rw [h2]; simp
          · rw [h3]; simp [GivenUp]
          · rw [h4]; simp [Again]

/-- **C152.** Of the messages of a queue, the first ones are tried in order, each once. Those for which the request is sent are removed, those with hard errors are given up, and also those with soft errors if so
configured. The others remain in order, with those not tried after them. -/
theorem process_exact (drop : Bool) (env : Nat → Bool × Res) (q : List Entry) :
    ∃ t, t = (process drop env q).tried ∧ t ≤ q.length ∧
      (process drop env q).sent = ((attempts env 0 t q).filter (fun a => a.2 == .ok)).map (·.1) ∧
      (process drop env q).lost = ((attempts env 0 t q).filter (fun a => GivenUp drop a.2)).map (·.1) ∧
      (process drop env q).kept = ((attempts env 0 t q).filter (fun a => Again drop a.2)).map (·.1) ++ q.drop t :=
  ⟨_, rfl, loop_exact drop env 0 256 q⟩

example : process true (fun k => (k == 4, if k = 1 then .busy else if k = 2 then .soft else .ok)) [⟨0, 0, 0⟩, ⟨1, 0, 0⟩, ⟨2, 0, 0⟩, ⟨3, 0, 0⟩, ⟨4, 0, 0⟩] =
    { kept := [⟨1, 0, 0⟩, ⟨4, 0, 0⟩], sent := [⟨0, 0, 0⟩, ⟨3, 0, 0⟩], lost := [⟨2, 0, 0⟩], tried := 4 } := by decide

/-- How many attempts were not refused at once. -/
def served (env : Nat → Bool × Res) (k t : Nat) : Nat := ((List.range' k t).filter (fun i => (env i).2 != .busy)).length

theorem served_succ (env : Nat → Bool × Res) (k t : Nat) : served env k (t + 1) = (if (env k).2 = .busy then 0 else 1) + served env (k + 1) t := by
  unfold served
  rw [List.range'_succ, List.filter_cons]
  by_cases h : (env k).2 = .busy
  · simp [h]
  · simp [h]; omega

theorem tried_cons (drop : Bool) (env : Nat → Bool × Res) (k : Nat) (max : Int) (e : Entry) (r : List Entry) (h : (env k).1 = false) :
    (processLoop drop env k max (e :: r)).tried =
      (if max = 0 then ({ kept := r } : Done) else processLoop drop env (k + 1) (if (env k).2 = .busy then max - 1 + 1 else max - 1) r).tried + 1 := by
  rw [processLoop]
  simp only [h, Bool.false_eq_true, if_false]
  cases (env k).2 <;> cases drop <;> rfl

theorem loop_tried (drop : Bool) (env : Nat → Bool × Res) (k : Nat) (max : Nat) (q : List Entry) :
    ∃ t, (processLoop drop env k max q).tried = t ∧ (∀ i, k ≤ i → i < k + t → (env i).1 = false) ∧ served env k t ≤ max + 1 ∧
      (t < q.length → (env (k + t)).1 = true ∨ max ≤ served env k t) := by
  induction q generalizing k max with
  | nil => exact ⟨0, rfl, by omega, by simp [served], by simp⟩
  | cons e r ih =>
    by_cases hs : (env k).1 = true
    · exact ⟨0, by rw [processLoop]; simp [hs], by omega, by simp [served], fun _ => .inl (by simpa using hs)⟩
    · have hs' : (env k).1 = false := by simpa using hs
      rw [tried_cons drop env k max e r hs']
      by_cases hm : (max : Int) = 0
      · have hm' : max = 0 := by omega
        rw [if_pos hm]
        refine ⟨1, rfl, ?_, ?_, fun _ => .inr (by omega)⟩
        · intro i h1 h2
          rw [show i = k by omega]; exact hs'
        · rw [served_succ]; simp only [served]; split <;> simp
      · rw [if_neg hm]
        by_cases hb : (env k).2 = .busy
        · rw [if_pos hb, show (max : Int) - 1 + 1 = (max : Int) by omega]
          obtain ⟨t, h1, h2, h3, h4⟩ := ih (k + 1) max
          refine ⟨t + 1, by rw [h1], ?_, ?_, ?_⟩
          · intro i a b
            by_cases hi : i = k
            · rw [hi]; exact hs'
            · exact h2 i (by omega) (by omega)
          · rw [served_succ, if_pos hb]; omega
          · intro hl
            rw [served_succ, if_pos hb, show k + (t + 1) = k + 1 + t by omega]
            rcases h4 (by simpa using hl) with h | h
            · exact .inl h
            · exact .inr (by omega)
        · rw [if_neg hb, show (max : Int) - 1 = ((max - 1 : Nat) : Int) by omega]
          obtain ⟨t, h1, h2, h3, h4⟩ := ih (k + 1) (max - 1)
          refine ⟨t + 1, by rw [h1], ?_, ?_, ?_⟩
          · intro i a b
            by_cases hi : i = k
            · rw [hi]; exact hs'
            · exact h2 i (by omega) (by omega)
          · rw [served_succ, if_neg hb]; omega
          · intro hl
            rw [served_succ, if_neg hb, show k + (t + 1) = k + 1 + t by omega]
            rcases h4 (by simpa using hl) with h | h
            · exact .inl h
            · exact .inr (by omega)

/-- **C152.** All messages of a queue are tried, unless time is up or 256 were served, not counting those refused because the client is busy. No more than 257 are served, and nothing is tried after time is up. -/
theorem process_tries (drop : Bool) (env : Nat → Bool × Res) (q : List Entry) :
    (∀ i, i < (process drop env q).tried → (env i).1 = false) ∧
    ((List.range (process drop env q).tried).filter (fun i => (env i).2 != .busy)).length ≤ 257 ∧
    ((process drop env q).tried < q.length →
      (env (process drop env q).tried).1 = true ∨ 256 ≤ ((List.range (process drop env q).tried).filter (fun i => (env i).2 != .busy)).length) := by
  obtain ⟨t, h1, h2, h3, h4⟩ := loop_tried drop env 0 256 q
  have e : (process drop env q).tried = t := h1
  rw [e]
  simp only [served, ← List.range_eq_range', Nat.zero_add] at h3 h4
  exact ⟨fun i hi => h2 i (by omega) (by omega), h3, h4⟩

example : (process false (fun _ => (false, .busy)) (List.replicate 3 ⟨0, 0, 0⟩)).tried = 3 := by decide

/-! ## Timeouts -/

/-- **C152, partial.** A message is removed exactly if it is too old, which also removes it from the message database, or else if it has waited too long. This is when sums of times are below 2^64. -/
theorem timeouts_partial (now ttl timeout : Nat) (q : List Entry) (h : ∀ e ∈ q, e.timestamp + ttl < 2 ^ 64 ∧ e.queued + timeout < 2 ^ 64) :
    (check now ttl timeout q).expired = q.filter (TooOld now ttl) ∧
    (check now ttl timeout q).late = q.filter (fun e => !TooOld now ttl e && TooLate now timeout e) ∧
    (check now ttl timeout q).kept = q.filter (fun e => !TooOld now ttl e && !TooLate now timeout e) := by
  induction q with
  | nil => exact ⟨rfl, rfl, rfl⟩
  | cons e r ih =>
    obtain ⟨h1, h2, h3⟩ := ih (fun x hx => h x (by simp [hx]))
    obtain ⟨w1, w2⟩ := h e (by simp)
    have a1 : (ttl ≠ 0 ∧ now > add64 e.timestamp ttl) ↔ TooOld now ttl e = true := by
      unfold TooOld add64
      rw [Nat.mod_eq_of_lt w1]; simp; omega
    have a2 : (timeout ≠ 0 ∧ now > add64 e.queued timeout) ↔ TooLate now timeout e = true := by
      unfold TooLate add64
      rw [Nat.mod_eq_of_lt w2]; simp; omega
    unfold check
    simp only [a1, a2]
    by_cases b1 : TooOld now ttl e = true
    · simp [b1, h1, h2, h3]
    · by_cases b2 : TooLate now timeout e = true
      · simp [b1, b2, h1, h2, h3]
      · simp [b1, b2, h1, h2, h3]

example : check 100 50 20 [⟨0, 49, 90⟩, ⟨1, 60, 79⟩, ⟨2, 60, 80⟩] = { kept := [⟨2, 60, 80⟩], expired := [⟨0, 49, 90⟩], late := [⟨1, 60, 79⟩] } := by decide

/-- Without timeouts, nothing is removed. -/
theorem no_timeouts (now : Nat) (q : List Entry) : check now 0 0 q = { kept := q } := by
  induction q with
  | nil => rfl
  | cons e r ih => unfold check; simp [ih]

/-- **C152.** Not holding in general: a message with a time stamp in the far future is removed as too old. -/
theorem future_expired (now : Nat) (h : 999999 < now) :
    (check now 1000000 0 [⟨0, 2 ^ 64 - 1, now⟩]).expired = [⟨0, 2 ^ 64 - 1, now⟩] := by
  have e : add64 (2 ^ 64 - 1) 1000000 = 999999 := by unfold add64; omega
  simp only [check, e]
  rw [if_pos ⟨by decide, h⟩]

/-! ## Configuration -/

/-- **C152, partial.** The times are those configured when they fit in 64 bits and the factor is not 0. -/
theorem config_partial (ttl ms factor : Nat) (drop : Bool) (h1 : ttl * 1000000 < 2 ^ 64) (h2 : factor * (ms * 1000) < 2 ^ 64) (hf : 0 < factor) :
    config ttl ms factor drop = some { ttl := ttl * 1000000, timeout := ms * 1000, lowTimeout := factor * (ms * 1000), drop := drop } := by
  have h3 : ms * 1000 ≤ factor * (ms * 1000) := Nat.le_mul_of_pos_left _ hf
  have h4 : ms * 1000 < 2 ^ 64 := Nat.lt_of_le_of_lt h3 h2
  unfold config
  simp only [Nat.mod_eq_of_lt h1, Nat.mod_eq_of_lt h4, Nat.mod_eq_of_lt h2]
  rw [if_neg (Nat.not_lt.mpr h3)]

example : config 10 2000 10 false = some { ttl := 10000000, timeout := 2000000, lowTimeout := 20000000, drop := false } := by decide

/-- **C152.** Not holding: the factor 0, which is documented to disable the timeout of messages with low priority, prevents the start if there is a timeout for other messages. -/
theorem factor_zero_refused (ttl ms : Nat) (drop : Bool) (h : 0 < ms) (hw : ms * 1000 < 2 ^ 64) : config ttl ms 0 drop = none := by
  unfold config
  simp only [Nat.mod_eq_of_lt hw, Nat.zero_mul, Nat.zero_mod]
  rw [if_pos (by omega)]

/-- **C152.** Not holding: times which do not fit are accepted and become short. Here 18446744073710 seconds become less than half of a second, and a factor above 10^16 becomes 1. -/
theorem overflow_accepted :
    config 18446744073710 0 10 false = some { ttl := 448384, timeout := 0, lowTimeout := 0, drop := false } ∧
    config 0 1024000 18014398509481985 false = some { ttl := 0, timeout := 1024000000, lowTimeout := 1024000000, drop := false } := by decide

/-- A configuration which is accepted never gives messages with low priority less time, if there is a timeout. -/
theorem low_longer (ttl ms factor : Nat) (drop : Bool) (c : Conf) (h : config ttl ms factor drop = some c) : c.timeout ≤ c.lowTimeout := by
  unfold config at h
  simp only at h
  split at h
  · cases h
  · cases h; simp only; omega

/-! ## Rotation -/

/-- **C152.** Not holding: the list should be rotated at a random place, but its first element always becomes the last, whatever the random number. -/
theorem rotate_one (rand : Nat) (a b : Entry) (r : List Entry) : checkRotate true rand (a :: b :: r) = some (b :: r ++ [a]) := by
  simp [checkRotate, rotate, rotateList]

/-- Rotation at the random place would crash whenever this is the first element of several. -/
theorem rotate_first_crashes (a b : Entry) (r : List Entry) : rotateList (a :: b :: r) 0 = none := by
  simp [rotateList]

/-- **C152.** Rotation as it is never crashes, and keeps all messages. -/
theorem rotate_keeps (need : Bool) (rand : Nat) (q : List Entry) : ∃ p, checkRotate need rand q = some p ∧ p.Perm q := by
  match q with
  | [] => exact ⟨[], by simp [checkRotate], .refl _⟩
  | [a] => exact ⟨[a], by simp [checkRotate], .refl _⟩
  | a :: b :: r =>
    cases need with
    | false => exact ⟨_, by simp [checkRotate], .refl _⟩
    | true => exact ⟨_, rotate_one rand a b r, by
        have : (b :: r ++ [a]).Perm ([a] ++ (b :: r)) := List.perm_append_comm
        simpa using this⟩

/-! ## All queues -/

theorem process_count (drop : Bool) (env : Nat → Bool × Res) (q : List Entry) (x : Entry) :
    (process drop env q).kept.count x + (process drop env q).sent.count x + (process drop env q).lost.count x = q.count x := by
  unfold process
  generalize (256 : Int) = max
  generalize 0 = k
  induction q generalizing k max with
  | nil => simp [processLoop]
  | cons e r ih =>
    unfold processLoop
    split
    · simp
    · simp only
      generalize hd : (if max = 0 then ({ kept := r } : Done) else processLoop drop env (k + 1) (if (env k).2 = .busy then max - 1 + 1 else max - 1) r) = d
      have hx : d.kept.count x + d.sent.count x + d.lost.count x = r.count x := by
        subst hd
        split
        · simp
        · exact ih _ _
      cases (env k).2 <;> (try cases drop) <;> simp [List.count_cons] <;> omega

theorem check_count (now ttl timeout : Nat) (q : List Entry) (x : Entry) :
    (check now ttl timeout q).kept.count x + (check now ttl timeout q).expired.count x + (check now ttl timeout q).late.count x = q.count x := by
  induction q with
  | nil => simp [check]
  | cons e r ih =>
    unfold check
    simp only
    split
    · simp [List.count_cons]; omega
    · split <;> simp [List.count_cons] <;> omega

/-- Everything there is of a message. -/
def total (s : State) (x : Entry) : Nat := waiting s x + s.sent.count x + s.lost.count x + s.expired.count x + s.late.count x

theorem round_total (c : Conf) (v : Env) (s : State) (x : Entry) : ∃ s', round c v s = some s' ∧ total s' x = total s x := by
  unfold round
  simp only
  obtain ⟨p, hp, pp⟩ := rotate_keeps s.msgdbRotate v.rand1 s.msgdb
  rw [hp]
  obtain ⟨p2, hp2, pp2⟩ := rotate_keeps s.lowRotate v.rand2 s.low
  have c1 := process_count c.drop v.redirect s.redirect x
  have c2 := process_count c.drop v.msgdb p x
  have c3 := process_count c.drop v.periodic s.periodic x
  have c4 := process_count c.drop v.senders s.senders x
  have c5 := process_count c.drop v.low p2 x
  have e1 := pp.count_eq x
  have e2 := pp2.count_eq x
  simp only
  split
  · rw [hp2]
    refine ⟨_, rfl, ?_⟩
    simp only [total, waiting, List.count_append]
    omega
  · refine ⟨_, rfl, ?_⟩
    simp only [total, waiting, List.count_append]
    omega

theorem expire_total (c : Conf) (now : Nat) (s : State) (x : Entry) : total (expire c now s) x = total s x := by
  have c1 := check_count now c.ttl c.timeout s.periodic x
  have c2 := check_count now c.ttl c.timeout s.msgdb x
  have c3 := check_count now c.ttl c.timeout s.senders x
  have c4 := check_count now c.ttl c.timeout s.redirect x
  have c5 := check_count now c.ttl c.lowTimeout s.low x
  simp only [total, waiting, expire, List.count_append]
  omega

theorem run_total (c : Conf) (ops : List Op) (s : State) : ∃ s', run c s ops = some s' ∧ ∀ x, total s' x = total s x + (arrivals ops).count x := by
  induction ops generalizing s with
  | nil => exact ⟨s, rfl, by simp [arrivals]⟩
  | cons o r ih =>
    have key : ∃ s1, step c s o = some s1 ∧ ∀ x, total s1 x + (arrivals r).count x = total s x + (arrivals (o :: r)).count x := by
      cases o with
      | arrive f e =>
        refine ⟨_, rfl, fun x => ?_⟩
        cases f <;> simp only [total, waiting, arrive, arrivals, List.count_append, List.count_cons, List.count_nil] <;> omega
      | round v =>
        obtain ⟨s1, h1, _⟩ := round_total c v s ⟨0, 0, 0⟩
        refine ⟨s1, h1, fun x => ?_⟩
        obtain ⟨s2, h2, h3⟩ := round_total c v s x
        rw [h1] at h2; cases h2
        simp only [arrivals]; omega
      | expire now =>
        refine ⟨_, rfl, fun x => ?_⟩
        rw [expire_total]; rfl
    obtain ⟨s1, h1, h2⟩ := key
    obtain ⟨s2, h3, h4⟩ := ih s1
    refine ⟨s2, by simp only [run, h1, h3], fun x => ?_⟩
    have := h2 x; have := h4 x
    omega

/-- **C152.** For every history, the module does not crash, and every message put in a queue is exactly once waiting, sent, given up, too old or too late. Nothing is sent which was not put in a queue. -/
theorem accounted (c : Conf) (ops : List Op) :
    ∃ s, run c {} ops = some s ∧
      ∀ x, waiting s x + s.sent.count x + s.lost.count x + s.expired.count x + s.late.count x = (arrivals ops).count x := by
  obtain ⟨s, h1, h2⟩ := run_total c ops {}
  refine ⟨s, h1, fun x => ?_⟩
  have := h2 x
  have e : total {} x = 0 := by simp [total, waiting]
  rw [e] at this
  simpa [total] using this

/-- **C152.** Where messages are put: in the queue of their kind, behind the others. -/
theorem arrive_where (e : Entry) (s : State) :
    (arrive .redirect e s).redirect = s.redirect ++ [e] ∧ (arrive .msgdb e s).msgdb = s.msgdb ++ [e] ∧ (arrive .msgdbLow e s).low = s.low ++ [e] ∧
    (arrive .periodic e s).periodic = s.periodic ++ [e] ∧ (arrive .senders e s).senders = s.senders ++ [e] ∧ (arrive .sendersLow e s).low = s.low ++ [e] :=
  ⟨rfl, rfl, rfl, rfl, rfl, rfl⟩

/-- **C152.** Messages with low priority wait as long as any other message waits which is not a redirect. -/
theorem low_waits (c : Conf) (v : Env) (s s' : State) (h : round c v s = some s') (hw : s'.msgdb ≠ [] ∨ s'.periodic ≠ [] ∨ s'.senders ≠ []) : s'.low = s.low := by
  unfold round at h
  simp only at h
  split at h
  · cases h
  · split at h
    · rename_i hz
      split at h
      · cases h
      · cases h
        exfalso
        simp only [List.length_eq_zero_iff] at hz
        rcases hw with hw | hw | hw
        · exact hw hz.1
        · exact hw hz.2.2
        · exact hw hz.2.1
    · cases h; rfl

/-- **C152.** When no other messages wait, and the client accepts everything in time, up to 256 messages with low priority are all sent. -/
theorem all_ok (drop : Bool) (q : List Entry) (h : q.length ≤ 256) : process drop (fun _ => (false, .ok)) q = { sent := q, tried := q.length } := by
  have key : ∀ (q : List Entry) (k : Nat) (max : Nat), q.length ≤ max → processLoop drop (fun _ => (false, .ok)) k max q = { sent := q, tried := q.length } := by
    intro q
    induction q with
    | nil => intro k max _; rfl
    | cons e r ih =>
      intro k max hm
      simp only [List.length_cons] at hm
      rw [processLoop]
      have e1 : ¬ (max : Int) = 0 := by omega
      simp only [e1, if_false, Bool.false_eq_true, reduceCtorEq]
      rw [show (max : Int) - 1 = ((max - 1 : Nat) : Int) by omega, ih (k + 1) (max - 1) (by omega)]
      rfl
  exact key q 0 256 h

/-- **C152.** Redirects, then messages from the database, the timer, other modules, and last those with low priority are sent, when the client accepts everything in time. -/
theorem round_all (c : Conf) (s : State) (v : Env) (hv : v.redirect = (fun _ => (false, .ok)) ∧ v.msgdb = (fun _ => (false, .ok)) ∧ v.periodic = (fun _ => (false, .ok)) ∧
      v.senders = (fun _ => (false, .ok)) ∧ v.low = (fun _ => (false, .ok)))
    (hl : s.redirect.length ≤ 256 ∧ s.msgdb.length ≤ 256 ∧ s.periodic.length ≤ 256 ∧ s.senders.length ≤ 256 ∧ s.low.length ≤ 256) :
    ∃ p p2, p.Perm s.msgdb ∧ p2.Perm s.low ∧
      round c v s = some { s with redirect := [], msgdb := [], periodic := [], senders := [], low := [], msgdbRotate := false, lowRotate := false,
                                  sent := s.sent ++ s.redirect ++ p ++ s.periodic ++ s.senders ++ p2 } := by
  obtain ⟨p, hp, pp⟩ := rotate_keeps s.msgdbRotate v.rand1 s.msgdb
  obtain ⟨p2, hp2, pp2⟩ := rotate_keeps s.lowRotate v.rand2 s.low
  refine ⟨p, p2, pp, pp2, ?_⟩
  have l1 := pp.length_eq
  have l2 := pp2.length_eq
  unfold round
  simp only [hv.1, hv.2.1, hv.2.2.1, hv.2.2.2.1, hv.2.2.2.2, hp, hp2, all_ok c.drop s.redirect hl.1, all_ok c.drop p (by omega), all_ok c.drop s.periodic hl.2.2.1,
    all_ok c.drop s.senders hl.2.2.2.1, all_ok c.drop p2 (by omega), List.length_nil, and_self, if_true, List.append_nil]

example : (round { ttl := 0, timeout := 0, lowTimeout := 0, drop := false } ⟨fun _ => (false, .ok), fun _ => (false, .ok), fun _ => (false, .ok), fun _ => (false, .busy), fun _ => (false, .ok), 0, 0⟩
    { senders := [⟨1, 0, 0⟩], low := [⟨2, 0, 0⟩], redirect := [⟨3, 0, 0⟩] }).map (fun s => (s.senders.length, s.low.length, s.sent.length)) = some (1, 1, 1) := by decide

/-- **C152, partial.** Each queue is checked with its own timeout and keeps its messages: those with low priority may wait longer. This is when sums of times are below 2^64. -/
theorem expire_partial (c : Conf) (now : Nat) (s : State)
    (h : ∀ e ∈ s.redirect ++ s.msgdb ++ s.periodic ++ s.senders ++ s.low, e.timestamp + c.ttl < 2 ^ 64 ∧ e.queued + c.timeout < 2 ^ 64 ∧ e.queued + c.lowTimeout < 2 ^ 64) :
    (expire c now s).redirect = s.redirect.filter (fun e => !TooOld now c.ttl e && !TooLate now c.timeout e) ∧
    (expire c now s).msgdb = s.msgdb.filter (fun e => !TooOld now c.ttl e && !TooLate now c.timeout e) ∧
    (expire c now s).periodic = s.periodic.filter (fun e => !TooOld now c.ttl e && !TooLate now c.timeout e) ∧
    (expire c now s).senders = s.senders.filter (fun e => !TooOld now c.ttl e && !TooLate now c.timeout e) ∧
    (expire c now s).low = s.low.filter (fun e => !TooOld now c.ttl e && !TooLate now c.lowTimeout e) := by
  refine ⟨?_, ?_, ?_, ?_, ?_⟩
  · exact (timeouts_partial now c.ttl c.timeout s.redirect (fun e he => ⟨(h e (by simp [he])).1, (h e (by simp [he])).2.1⟩)).2.2
  · exact (timeouts_partial now c.ttl c.timeout s.msgdb (fun e he => ⟨(h e (by simp [he])).1, (h e (by simp [he])).2.1⟩)).2.2
  · exact (timeouts_partial now c.ttl c.timeout s.periodic (fun e he => ⟨(h e (by simp [he])).1, (h e (by simp [he])).2.1⟩)).2.2
  · exact (timeouts_partial now c.ttl c.timeout s.senders (fun e he => ⟨(h e (by simp [he])).1, (h e (by simp [he])).2.1⟩)).2.2
  · exact (timeouts_partial now c.ttl c.lowTimeout s.low (fun e he => ⟨(h e (by simp [he])).1, (h e (by simp [he])).2.2⟩)).2.2

example : (expire { ttl := 0, timeout := 10, lowTimeout := 100, drop := false } 50 { senders := [⟨0, 0, 30⟩, ⟨1, 0, 40⟩], low := [⟨2, 0, 30⟩] }).senders = [⟨1, 0, 40⟩] := by decide

/-- **C152.** After messages arrived from the database, the first of several is tried last in the next round. Otherwise the order remains. -/
theorem round_rotates (c : Conf) (v : Env) (s : State) :
    ∃ s', round c v s = some s' ∧ s'.msgdbRotate = false ∧
      (∀ a b r, s.msgdbRotate = true → s.msgdb = a :: b :: r → s'.msgdb = (process c.drop v.msgdb (b :: r ++ [a])).kept) ∧
      (s.msgdbRotate = false → s'.msgdb = (process c.drop v.msgdb s.msgdb).kept) := by
  obtain ⟨p, hp, pp⟩ := rotate_keeps s.msgdbRotate v.rand1 s.msgdb
  obtain ⟨p2, hp2, pp2⟩ := rotate_keeps s.lowRotate v.rand2 s.low
  have h1 : ∀ a b r, s.msgdbRotate = true → s.msgdb = a :: b :: r → p = b :: r ++ [a] := by
    intro a b r e1 e2
    rw [e1, e2, rotate_one] at hp
    exact (Option.some.inj hp).symm
  have h2 : s.msgdbRotate = false → p = s.msgdb := by
    intro e1
    rw [e1] at hp
    simp [checkRotate] at hp
    exact hp.symm
  unfold round
  simp only [hp, hp2]
  split
  · exact ⟨_, rfl, rfl, fun a b r e1 e2 => by rw [h1 a b r e1 e2], fun e1 => by rw [h2 e1]⟩
  · exact ⟨_, rfl, rfl, fun a b r e1 e2 => by rw [h1 a b r e1 e2], fun e1 => by rw [h2 e1]⟩

end Verif.HttpQueue
