import Verif.Averager.Spec
import Verif.Convert.Lemmas
/-!
# Properties of the averager
-/
namespace Verif.Averager
open Verif Types Types.Spec Msg Spec

/-! ## Numbers from arrays -/

theorem takeWhile_all (b : Bytes) (h : ∀ c ∈ b, c ≠ 0) : b.takeWhile (· ≠ 0) = b := by
  induction b with
  | nil => rfl
  | cons c t ih =>
    rw [List.takeWhile_cons, if_pos (by simpa using h c (by simp)), ih fun x hx => h x (by simp [hx])]

theorem find_eq (vs : List Value) (tag : Bytes) (h : ∀ v ∈ vs, ∀ b ∈ v.tag, b ≠ 0) : getByTag vs tag = vs.find? (fun v => v.tag == tag) := by
  unfold getByTag
  induction vs with
  | nil => rfl
  | cons v vs ih =>
    rw [List.find?_cons, List.find?_cons, ih fun x hx => h x (by simp [hx])]
    unfold isTag
    rw [takeWhile_all _ (h v (by simp))]

theorem get64_eq (le : Bool) (vs : List Value) (tag : Bytes)
    (h : ∀ v ∈ vs, (∀ b ∈ v.tag, b ≠ 0) ∧ (v.ty ∈ [Ty.le, .be, .h, .ustr, .istr] → 8 ≤ v.data.length)) :
    get64 le vs tag = match numberOf le vs tag with | some x => .val x | none => .no := by
  unfold get64 numberOf
  rw [find_eq vs tag fun v hv => (h v hv).1]
  split
  · rename_i hf; rw [hf]
  · rename_i v hf
    rw [hf]
    simp only
    have hv := h v (List.mem_of_find?_eq_some hf)
    have h64 : Convert.is64 v.ty = true ↔ v.ty ∈ [Ty.le, .be, .h, .ustr, .istr] := by
      cases v.ty <;> simp [Convert.is64]
    by_cases ht : v.ty ∈ [Ty.le, .be, .h, .ustr, .istr]
    · rw [if_neg (by simp [h64.mpr ht]), if_pos ht]
      rw [Convert.number_some _ _ _ (by have := hv.2 ht; omega)]
      have : (ints le v.data)[0]? = (ints le v.data).head? := by cases ints le v.data <;> rfl
      simp only
      rw [this]
      have hne : (ints le v.data).head? ≠ none := by
        rw [← this, ← Convert.number_some ⟨le, fun _ => []⟩ v 0 (by have := hv.2 ht; omega)]
        unfold Convert.number
        rw [if_pos (by have := hv.2 ht; omega)]
        simp
      cases hh : (ints le v.data).head? with
      | none => exact absurd hh hne
      | some => rfl
    · rw [if_pos (by cases hb : Convert.is64 v.ty <;> simp_all), if_neg ht]

/-! ## The calculation -/

/-- A calculation after measurements. -/
structure After (k : Calculation) (ps : List Point) : Prop where
  max : k.max.toNat = (ps.map (·.value)).foldl Nat.max 0
  min : k.min.toNat = (ps.map (·.value)).foldl Nat.min (2 ^ 64 - 1)
  sum : k.sum.toNat = (ps.map (·.value)).sum % 2 ^ 64
  entries : k.entries.toNat = ps.length % 2 ^ 64
  begins : k.timestampFrom.toNat = (ps.map (·.begins)).foldl Nat.min (2 ^ 64 - 1)
  ends : k.timestampTo.toNat = (ps.map (·.ends)).foldl Nat.max 0

theorem after_start : After start [] := ⟨rfl, rfl, rfl, rfl, rfl, rfl⟩

theorem max_ge (a x : UInt64) : (if x ≥ a then x else a).toNat = Nat.max a.toNat x.toNat := by
  split
  · rename_i h
    rw [ge_iff_le, UInt64.le_iff_toNat_le] at h
    exact (Nat.max_eq_right h).symm
  · rename_i h
    rw [ge_iff_le, UInt64.le_iff_toNat_le] at h
    exact (Nat.max_eq_left (by omega)).symm

theorem max_gt (a x : UInt64) : (if x > a then x else a).toNat = Nat.max a.toNat x.toNat := by
  split
  · rename_i h
    rw [gt_iff_lt, UInt64.lt_iff_toNat_lt] at h
    exact (Nat.max_eq_right (by omega)).symm
  · rename_i h
    rw [gt_iff_lt, UInt64.lt_iff_toNat_lt] at h
    exact (Nat.max_eq_left (by omega)).symm

theorem min_lt (a x : UInt64) : (if x < a then x else a).toNat = Nat.min a.toNat x.toNat := by
  split
  · rename_i h
    rw [UInt64.lt_iff_toNat_lt] at h
    exact (Nat.min_eq_right (by omega)).symm
  · rename_i h
    rw [UInt64.lt_iff_toNat_lt] at h
    exact (Nat.min_eq_left (by omega)).symm

theorem after_add (k : Calculation) (ps : List Point) (x f t : UInt64) (h : After k ps) :
    After (add k x f t) (ps ++ [⟨x.toNat, f.toNat, t.toNat⟩]) := by
  obtain ⟨h1, h2, h3, h4, h5, h6⟩ := h
  unfold add
  refine ⟨?_, ?_, ?_, ?_, ?_, ?_⟩
  · simp only [List.map_append, List.foldl_append, List.map_cons, List.map_nil, List.foldl_cons, List.foldl_nil]
    rw [max_ge, h1]
  · simp only [List.map_append, List.foldl_append, List.map_cons, List.map_nil, List.foldl_cons, List.foldl_nil]
    rw [min_lt, h2]
  · simp only [List.map_append, List.sum_append, List.map_cons, List.map_nil, List.sum_cons, List.sum_nil]
    rw [UInt64.toNat_add, h3]
    omega
  · simp only [List.length_append, List.length_cons, List.length_nil]
    rw [UInt64.toNat_add, h4]
    show (_ + 1) % _ = _
    omega
  · simp only [List.map_append, List.foldl_append, List.map_cons, List.map_nil, List.foldl_cons, List.foldl_nil]
    rw [min_lt, h5]
  · simp only [List.map_append, List.foldl_append, List.map_cons, List.map_nil, List.foldl_cons, List.foldl_nil]
    rw [max_gt, h6]

theorem processMessage_eq (le : Bool) (k : Calculation) (m : MsgMsg) (ps : List Point) (hm : Readable le m) (h : After k ps) :
    ∃ k', processMessage le k m = .ok k' ∧ After k' (ps ++ (pointOf le m).toList) := by
  obtain ⟨hc, vs, hv, hr⟩ := hm
  unfold processMessage pointOf
  rw [if_neg (by simp [hc]), hv]
  simp only
  rw [get64_eq le vs _ hr, get64_eq le vs _ hr, get64_eq le vs _ hr]
  cases h1 : numberOf le vs tagMeasurement with
  | none => exact ⟨k, rfl, by simpa using h⟩
  | some x =>
    cases h2 : numberOf le vs tagFrom with
    | none => exact ⟨k, rfl, by simpa using h⟩
    | some f =>
      cases h3 : numberOf le vs tagTo with
      | none => exact ⟨k, rfl, by simpa using h⟩
      | some t => exact ⟨_, rfl, after_add k ps x f t h⟩

theorem processAll_eq (le : Bool) (ms : List MsgMsg) : ∀ (k : Calculation) (ps : List Point), (∀ m ∈ ms, Readable le m) → After k ps →
    ∃ k', processAll le ms k = .ok k' ∧ After k' (ps ++ ms.filterMap (pointOf le)) := by
  induction ms with
  | nil => intro k ps _ h; exact ⟨k, rfl, by simpa using h⟩
  | cons m ms ih =>
    intro k ps hr h
    obtain ⟨k1, h1, h2⟩ := processMessage_eq le k m ps (hr m (by simp)) h
    obtain ⟨k2, h3, h4⟩ := ih k1 _ (fun x hx => hr x (by simp [hx])) h2
    refine ⟨k2, ?_, ?_⟩
    · rw [processAll, h1]
      exact h3
    · rw [List.append_assoc] at h4
      rw [List.filterMap_cons]
      cases hp : pointOf le m <;> rw [hp] at h4 <;> simpa using h4

theorem foldl_max (a : Nat) (l : List Nat) : (a :: l).foldl Nat.max 0 = l.foldl max a := by
  rw [List.foldl_cons]
  rw [show Nat.max 0 a = a from Nat.zero_max a]

theorem foldl_min (a : Nat) (l : List Nat) (h : a ≤ 2 ^ 64 - 1) : (a :: l).foldl Nat.min (2 ^ 64 - 1) = l.foldl min a := by
  rw [List.foldl_cons]
  rw [show Nat.min (2 ^ 64 - 1) a = a from Nat.min_eq_right h]

theorem point_bound (le : Bool) (m : MsgMsg) (p : Point) (h : pointOf le m = some p) : p.value ≤ 2 ^ 64 - 1 ∧ p.begins ≤ 2 ^ 64 - 1 := by
  unfold pointOf at h
  split at h
  · split at h
    · simp only [Option.some.injEq] at h
      subst h
      rename_i x f t _ _ _
      have h1 := x.toNat_lt
      have h2 := f.toNat_lt
      exact ⟨by show x.toNat ≤ _; omega, by show f.toNat ≤ _; omega⟩
    · simp at h
  · simp at h

/-! ## The message with averages -/

/-- A value of the message with averages. -/
def wanted (le : Bool) (tag : Bytes) (n : Nat) : Value := ⟨.h, 0, tag, 1, hostBytes le (UInt64.ofNat n), []⟩

theorem hostBytes_length (le : Bool) (x : UInt64) : (hostBytes le x).length = 8 := by
  unfold hostBytes
  split <;> simp [Endian.be64]

theorem spawn_eq (le : Bool) (c : Config) (stamp : UInt64) (k : Calculation) (a : UInt64) (ht : (c.topic.getD []).length ≤ 0xffff) :
    ∃ n, spawn le c stamp k a = .ok n ∧ n.topic = c.topic.getD [] ∧ n.timestamp = stamp ∧ n.class_ = 11 ∧
      toArray le n = .ok [pushed le tagFrom k.timestampFrom, pushed le tagTo k.timestampTo, pushed le tagAverage a, pushed le tagMax k.max, pushed le tagMin k.min] := by
  have hcont : ∀ tag x, Content (pushed le tag x) := by
    intro tag x
    refine ⟨?_, rfl⟩
    show (hostBytes le x).length % 8 = 0
    rw [hostBytes_length]
  have hsize : ∀ tag x, packedSize (pushed le tag x) = 22 + tag.length := by
    intro tag x
    unfold packedSize pushed
    simp only [hostBytes_length]
    simp
    omega
  unfold spawn
  obtain ⟨n, h1, h2, h3, h4, h5, _, _⟩ := (array_roundtrip_partial le
    [pushed le tagFrom k.timestampFrom, pushed le tagTo k.timestampTo, pushed le tagAverage a, pushed le tagMax k.max, pushed le tagMin k.min] stamp (c.topic.getD [])
    (by intro v hv; simp only [List.mem_cons, List.not_mem_nil, or_false] at hv; rcases hv with rfl | rfl | rfl | rfl | rfl <;> exact hcont _ _) ht
    (by
      intro v hv
      simp only [List.mem_cons, List.not_mem_nil, or_false] at hv
      rcases hv with rfl | rfl | rfl | rfl | rfl <;> rw [hsize] <;> decide)).1
    (by
      simp only [List.map_cons, List.map_nil, hsize, List.sum_cons, List.sum_nil, tagFrom, tagTo, tagAverage, tagMax, tagMin, List.length_cons, List.length_nil]
      omega)
  exact ⟨n, h1, h3, h4, h5, h2⟩

/-- The averages are those of the measurements in the list which are not older than the timespan. Missing: sums of 2⁶⁴ and more, and measurements which were averaged before. -/
theorem average_exact_partial (le : Bool) (c : Config) (now stamp : UInt64) (input : List MsgMsg) (hr : ∀ m ∈ input, Readable le m)
    (hspan : c.timespan.toNat * 1000000 ≤ now.toNat) (ht : (c.topic.getD []).length ≤ 0xffff) (ps : List Point)
    (hps : ps = (input.filter fun m => decide (now.toNat ≤ m.timestamp.toNat + c.timespan.toNat * 1000000)).filterMap (pointOf le))
    (hsum : (ps.map (·.value)).sum < 2 ^ 64) (hlen : ps.length < 2 ^ 64) :
    ∃ w, average le c now stamp input = .ok [] w ∧ (ps = [] → w = []) ∧
      (ps ≠ [] → ∃ n a mx mn b e, w = [n] ∧ Averages ps a mx mn b e ∧ n.class_ = 11 ∧ n.topic = c.topic.getD [] ∧ n.timestamp = stamp ∧
        toArray le n = .ok [wanted le tagFrom b, wanted le tagTo e, wanted le tagAverage a, wanted le tagMax mx, wanted le tagMin mn]) := by
  have hmt : maintain c now input = input.filter fun m => decide (now.toNat ≤ m.timestamp.toNat + c.timespan.toNat * 1000000) := by
    unfold maintain
    congr 1
    funext m
    have h1 : (c.timespan * 1000000).toNat = c.timespan.toNat * 1000000 := by
      rw [UInt64.toNat_mul]
      have := now.toNat_lt
      exact Nat.mod_eq_of_lt (by show c.timespan.toNat * 1000000 < _; omega)
    have h2 : (now - c.timespan * 1000000).toNat = now.toNat - c.timespan.toNat * 1000000 := by
      rw [UInt64.toNat_sub_of_le _ _ (by rw [UInt64.le_iff_toNat_le, h1]; exact hspan), h1]
    rw [Bool.eq_iff_iff]
    simp only [Bool.not_eq_true', decide_eq_false_iff_not, decide_eq_true_eq, UInt64.lt_iff_toNat_lt, h2]
    omega
  obtain ⟨k, hk, ha⟩ := processAll_eq le (maintain c now input) start [] (fun m hm => hr m (by rw [hmt] at hm; exact (List.mem_filter.mp hm).1)) after_start
  rw [List.nil_append, hmt, ← hps] at ha
  have hent : k.entries.toNat = ps.length := by rw [ha.entries, Nat.mod_eq_of_lt hlen]
  have hk0 : k.entries = 0 ↔ ps = [] := by
    rw [← List.length_eq_zero_iff, ← hent]
    exact ⟨fun h => by rw [h]; rfl, fun h => UInt64.toNat_inj.mp h⟩
  unfold average
  rw [hk]
  simp only
  by_cases he : ps = []
  · rw [if_pos (hk0.mpr he)]
    exact ⟨[], rfl, fun _ => rfl, fun h => absurd he h⟩
  · rw [if_neg (fun h => he (hk0.mp h))]
    obtain ⟨n, h1, h2, h3, h4, h5⟩ := spawn_eq le c stamp k (k.sum / k.entries) ht
    rw [h1]
    refine ⟨[n], rfl, fun h => absurd h he, fun _ => ⟨n, (k.sum / k.entries).toNat, k.max.toNat, k.min.toNat, k.timestampFrom.toNat, k.timestampTo.toNat, rfl, ?_, h4, h2, h3, ?_⟩⟩
    · have hb : ∀ p ∈ ps, p.value ≤ 2 ^ 64 - 1 ∧ p.begins ≤ 2 ^ 64 - 1 := by
        intro p hp
        rw [hps, List.mem_filterMap] at hp
        obtain ⟨m, _, hm⟩ := hp
        exact point_bound le m p hm
      obtain ⟨p, qs, hpq⟩ : ∃ p qs, ps = p :: qs := by
        cases ps with
        | nil => exact absurd rfl he
        | cons p qs => exact ⟨p, qs, rfl⟩
      refine ⟨?_, ?_, ?_, ?_, ?_⟩
      · rw [UInt64.toNat_div, hent, ha.sum, Nat.mod_eq_of_lt hsum]
      · rw [ha.max, hpq, List.map_cons, foldl_max, List.max?_cons']
      · rw [ha.min, hpq, List.map_cons, foldl_min _ _ (hb p (by simp [hpq])).1, List.min?_cons']
      · rw [ha.begins, hpq, List.map_cons, foldl_min _ _ (hb p (by simp [hpq])).2, List.min?_cons']
      · rw [ha.ends, hpq, List.map_cons, foldl_max, List.max?_cons']
    · unfold wanted
      simp only [UInt64.ofNat_toNat]
      exact h5

/-! ## Histories -/

theorem since_step (os : List Op) (o : Op) : since (os ++ [o]) = match o with
    | .receive m => if m.type = 1 ∧ m.class_ = 11 then since os ++ [m] else since os
    | .average _ _ => [] := by
  have h : ∀ os : List Op, since os = os.foldl (fun ms o => match o with
    | .receive m => if m.type = 1 ∧ m.class_ = 11 then ms ++ [m] else ms
    | .average _ _ => []) [] := by intro os; cases os <;> rfl
  rw [h, h os, List.foldl_append]
  rfl

theorem step_input (le : Bool) (c : Config) (os : List Op) (o : Op) (i w) (h : step le c (since os) o = .ok i w) : i = since (os ++ [o]) := by
  rw [since_step]
  cases o with
  | receive m =>
    simp only [step, receive] at h
    simp only
    split at h
    · rename_i hc
      rw [if_pos hc]
      split at h
      · split at h
        · simp at h; exact h.1.symm
        · split at h <;> simp at h <;> exact h.1.symm
      · simp at h; exact h.1.symm
    · rename_i hc
      rw [if_neg hc]
      split at h <;> simp at h <;> exact h.1.symm
  | average now stamp =>
    simp only [step, average] at h
    simp only
    split at h <;> try simp at h
    split at h
    · simp at h; exact h.1
    · split at h <;> simp at h
      exact h.1

/-- At any time the list has the array messages which came after the last time averages were made. -/
theorem input_since (le : Bool) (c : Config) (os : List Op) (i w : List MsgMsg) (h : run le c [] os = .ok i w) : i = since os := by
  have key : ∀ (os done : List Op) (i w : List MsgMsg), run le c (since done) os = .ok i w → i = since (done ++ os) := by
    intro os
    induction os with
    | nil => intro done i w h; simp [run] at h; simpa using h.1.symm
    | cons o os ih =>
      intro done i w h
      rw [run] at h
      split at h
      · rename_i i1 w1 h1
        have := step_input le c done o i1 w1 h1
        subst this
        split at h
        · rename_i i2 w2 h2
          have := ih (done ++ [o]) i2 w2 h2
          simp only [Step.ok.injEq] at h
          rw [← h.1, this, List.append_assoc]
          rfl
        · rename_i hn
          rw [h] at hn
          exact absurd rfl (hn _ _)
      · rename_i hn
        rw [h] at hn
        exact absurd rfl (hn _ _)
  have := key os [] i w h
  simpa using this

/-- Messages which are not arrays are passed through, or discarded if that is configured. -/
theorem others_pass (le : Bool) (c : Config) (input : List MsgMsg) (m : MsgMsg) (h : ¬(m.type = 1 ∧ m.class_ = 11)) :
    step le c input (.receive m) = .ok input (if c.discard then [] else [m]) := by
  simp only [step, receive, if_neg h]
  cases c.discard <;> rfl

/-! ## Examples and where averages are wrong -/

/-- A message with a measurement. -/
def exampleMessage (le : Bool) (flags : UInt8) (time x f t : UInt64) : MsgMsg :=
  messageOf le [⟨.h, flags, tagMeasurement, 1, hostBytes le x, []⟩, ⟨.h, 0, tagFrom, 1, hostBytes le f, []⟩, ⟨.h, 0, tagTo, 1, hostBytes le t, []⟩] time []

/-- The timespan is 15 seconds, the default. -/
def exampleConfig : Config := ⟨15, false, false, none⟩

example : Readable true (exampleMessage true 0 90000000 7 3 4) ∧ pointOf true (exampleMessage true 0 90000000 7 3 4) = some ⟨7, 3, 4⟩ := by
  refine ⟨⟨by decide +kernel, _, (by decide +kernel : toArray true (exampleMessage true 0 90000000 7 3 4) = .ok
    [⟨.h, 0, tagMeasurement, 1, hostBytes true 7, []⟩, ⟨.h, 0, tagFrom, 1, hostBytes true 3, []⟩, ⟨.h, 0, tagTo, 1, hostBytes true 4, []⟩]), by decide +kernel⟩, by decide +kernel⟩

/-- The numbers in written messages. -/
def numbers (le : Bool) : Step → List (List Nat)
  | .ok _ w => w.map fun m => match toArray le m with
    | .ok vs => vs.map fun v => ((ints le v.data).headD 0).toNat
    | _ => []
  | _ => []

/-- Measurements 7 and 10, of the times 3 to 4 and 5 to 6: the average is 8. -/
example : numbers true (run true exampleConfig [] [.receive (exampleMessage true 0 90000000 7 3 4), .receive (exampleMessage true 0 95000000 10 5 6), .average 100000000 100000000]) =
    [[3, 6, 8, 10, 7]] := by decide +kernel

/-- A measurement which has been averaged once is forgotten. With the default timespan of 15 seconds and interval of 10 seconds, the second message at 100 seconds does not have the measurement of
89 seconds. -/
theorem forgotten : numbers true (run true exampleConfig [] [.receive (exampleMessage true 0 89000000 7 3 4), .average 90000000 90000000,
      .receive (exampleMessage true 0 95000000 10 5 6), .average 100000000 100000000]) = [[3, 4, 7, 7, 7], [5, 6, 10, 10, 10]] ∧
    pointOf true (exampleMessage true 0 89000000 7 3 4) = some ⟨7, 3, 4⟩ ∧ (100000000 : Nat) ≤ 89000000 + 15 * 1000000 := by
  decide +kernel

/-- The sum overflows: the average of 2⁶³ and 2⁶³ is 0. -/
theorem sum_overflows : numbers true (run true exampleConfig [] [.receive (exampleMessage true 0 90000000 9223372036854775808 3 4),
      .receive (exampleMessage true 0 95000000 9223372036854775808 5 6), .average 100000000 100000000]) =
    [[3, 6, 0, 9223372036854775808, 9223372036854775808]] := by decide +kernel

/-- Signed measurements are not understood: of -2 and 4 the maximum is 2⁶⁴ - 2 and the minimum is 4. -/
theorem signed_wrong : numbers true (run true exampleConfig [] [.receive (exampleMessage true 1 90000000 18446744073709551614 3 4),
      .receive (exampleMessage true 1 95000000 4 5 6), .average 100000000 100000000]) = [[3, 6, 1, 18446744073709551614, 4]] := by decide +kernel

/-- An array without a measurement, which the manual says is passed through, is lost, and so is one with nothing but a measurement. -/
theorem others_lost : ∀ tag ∈ [([97] : Bytes), tagMeasurement],
    run true exampleConfig [] [.receive (messageOf true [⟨.h, 0, tag, 1, hostBytes true 5, []⟩] 90000000 []), .average 100000000 100000000] = .ok [] [] := by
  decide +kernel

/-- A timespan longer than the time since 1970 makes all measurements too old. -/
theorem long_timespan : run true ⟨200, false, false, none⟩ [] [.receive (exampleMessage true 0 90000000 7 3 4), .average 100000000 100000000] = .ok [] [] := by
  decide +kernel

/-- An array message which cannot be read makes the module unlock a mutex twice and stop. -/
theorem unreadable_unlocks : step true exampleConfig [⟨⟨31, 2, 0⟩, 100000000, setClass (setType 0 1) 11, 7, 0, [1]⟩] (.average 100000000 100000000) = .unlocked := by
  decide +kernel

end Verif.Averager
