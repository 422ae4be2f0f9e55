import Verif.Chunk.Progress
/-!
# C111: socket clients, C112: net transport

`clientRun` and `transportRun` are the connections after a history of events: data are given to be sent (`push`), the connection is to be closed when all is sent (`finish`), and there is room for more in the kernel (`write`, with the
answers of the kernel, any answers). The bytes which the kernel took are in `wire`, each with the number of the data it comes from. `given`, `stream` and `own` are in `Spec.lean`.
-/
namespace Verif.Chunk
open Spec

/-! ## C111 -/

/-- Whatever the kernel answers, and whenever data are given: the bytes which have been sent are the beginning of the data given, one after the other in the order they were given. None is left out, doubled or changed. -/
theorem client_in_order (ops : List Op) : (clientRun ops).wire <+: stream 0 (given ops) := by
  obtain ⟨A, B, e, _, _, _, h⟩ := (client_good ops).any
  exact ⟨e, h⟩

/-- While the connection is open and the write event is off, all data given have been sent: nothing waits without an event. -/
theorem client_nothing_waits (ops : List Op) (hc : (clientRun ops).closed = false) (ha : (clientRun ops).armed = false) : (clientRun ops).wire = stream 0 (given ops) := by
  obtain ⟨A, B, pos, h1, h2, h3, h4, h5, h6⟩ := (client_good ops).live hc
  cases B with
  | nil =>
    rw [h4, h1]
    simp [part]
  | cons d t => rw [h6 (by simp)] at ha; cases ha

/-- The callbacks are told of the data which are sent in the order they were given, and only when all their bytes have been taken. -/
theorem client_told (ops : List Op) : ∃ k, k ≤ (given ops).length ∧ (clientRun ops).told = List.range k ∧ stream 0 ((given ops).take k) <+: (clientRun ops).wire := by
  obtain ⟨A, B, e, h1, h2, h3, _⟩ := (client_good ops).any
  refine ⟨A.length, by rw [h1]; simp, h2, ?_⟩
  rw [h1, List.take_left]
  exact h3

/-- When there is room in the kernel, one event sends all that was given, and the callbacks are told about all of it. -/
theorem client_finishes (ops : List Op) (m : Nat) (o : List Sys) (hc : (clientRun ops).closed = false) (hm : ∀ d ∈ given ops, d.length ≤ m) (ho : Room (given ops).length m o) :
    (clientRun (ops ++ [.write o])).wire = stream 0 (given ops) ∧ ((clientRun ops).armed = true → (clientRun (ops ++ [.write o])).told = List.range (given ops).length) := by
  have hg := client_good ops
  rw [client_append]
  simp only [List.foldl_cons, List.foldl_nil, clientStep]
  cases ha : (clientRun ops).armed with
  | false =>
    simp only [hc, Bool.not_false, Bool.or_true, if_true]
    exact ⟨client_nothing_waits ops hc ha, fun h => by simp at h⟩
  | true =>
    simp only [hc, Bool.not_true, Bool.or_false, Bool.false_eq_true, if_false]
    obtain ⟨A, B, pos, h1, h2, _⟩ := hg.live hc
    have hr : (sendList o (clientRun ops).normal).1 = .ok := by
      refine sendList_room (m := m) _ _ ⟨?_, ho.2⟩ ?_
      · have := ho.1
        rw [h2, queue_length]
        rw [h1] at this
        simp at this
        omega
      · intro c hcm
        rw [h2] at hcm
        exact hm _ (by rw [h1]; simp [queue_data c hcm])
    obtain ⟨k1, k2, _⟩ := clientWrite_ok hg hc o hr
    exact ⟨k1, fun _ => k2⟩

/-- Without an error from the kernel an event of any kind closes the connection only if this was asked for, and then all that was given has been sent. -/
theorem client_closes (ops : List Op) (op : Op) (ho : ∀ o, op = .write o → NoError o) (hc : (clientRun ops).closed = false) (hcl : (clientRun (ops ++ [op])).closed = true) :
    Op.finish ∈ ops ∧ (clientRun (ops ++ [op])).wire = stream 0 (given ops) := by
  rw [client_append] at hcl ⊢
  simp only [List.foldl_cons, List.foldl_nil, clientStep] at hcl ⊢
  cases op with
  | push u d => simp [hc, pushChunk] at hcl
  | finish => simp [hc] at hcl
  | write o =>
    cases ha : (clientRun ops).armed with
    | false => simp only [hc, ha] at hcl; simp [hc] at hcl
    | true =>
      simp only [hc, ha, Bool.not_true, Bool.or_false, Bool.false_eq_true, if_false] at hcl ⊢
      obtain ⟨h1, h2⟩ := clientWrite_close (client_good ops) hc o (ho o rfl) hcl
      exact ⟨client_finish ops h2, h1⟩

/-- Three data are given; the first event takes part of the second, the next event takes the rest, and the connection is closed. -/
def history : List Op := [.push false [1, 2], .push false [3, 4, 5], .write [.wrote 2, .intr, .wrote 1], .push false [6], .finish, .write [.wrote 2, .wrote 9]]

example : (clientRun (history.take 4)).wire = [(0, 1), (0, 2), (1, 3)] ∧ (clientRun (history.take 4)).told = [0] ∧ (clientRun (history.take 4)).closed = false ∧ (clientRun (history.take 4)).armed = true := by decide
example : (clientRun history).wire = stream 0 [[1, 2], [3, 4, 5], [6]] ∧ (clientRun history).closed = true ∧ (clientRun history).told = [0, 1, 2] := by decide
example : Room (given (history.take 4)).length 3 (List.replicate 3 (.wrote 7)) ∧ ∀ d ∈ given (history.take 4), d.length ≤ 3 :=
  ⟨⟨by decide, fun x hx => ⟨7, (List.mem_replicate.mp hx).2, by omega⟩⟩, by decide⟩
example : (clientRun [.push false [1], .write [.wrote 1]]).closed = false ∧ (clientRun [.push false [1], .write [.wrote 1]]).armed = false := by decide
example : NoError [.wrote 2, .wrote 9] ∧ (clientRun (history.take 5)).closed = false := ⟨by intro x hx; simp at hx; rcases hx with rfl | rfl <;> simp, by decide⟩

/-! ## C112 -/

/-- No history makes the process abort because more was written than there was. -/
theorem transport_never_aborts (ops : List Op) : transportRun ops ≠ none := by
  obtain ⟨s, h, _⟩ := transport_fair ops
  rw [h]; simp

/-- The bytes of each piece of data are sent in order from its beginning; none is left out, doubled or changed. (Full statement: `wire` is the beginning of all data in order, as for socket clients. Urgent data are to be before others,
but not inside of them. See `urgent_inside` and `next_inside`.) -/
theorem transport_each_partial (ops : List Op) (s : St) (h : transportRun ops = some s) (i : Nat) (d : Bytes) (hi : (given ops)[i]? = some d) : own i s.wire <+: d := by
  obtain ⟨s', h1, h2⟩ := transport_fair ops
  rw [h] at h1; cases h1
  exact h2.any i d hi

/-- There are no bytes of anything else. -/
theorem transport_nothing_else (ops : List Op) (s : St) (h : transportRun ops = some s) : ∀ x ∈ s.wire, x.1 < (given ops).length := by
  obtain ⟨s', h1, h2⟩ := transport_fair ops
  rw [h] at h1; cases h1
  intro x hx
  by_cases hlt : x.1 < (given ops).length
  · exact hlt
  · have := h2.none x.1 (List.getElem?_eq_none (by omega))
    simp only [own, List.map_eq_nil_iff, List.filter_eq_nil_iff] at this
    exact absurd (decide_eq_true rfl) (this x hx)

/-- While the connection is open and the write event is off, all data given have been sent completely. -/
theorem transport_nothing_waits (ops : List Op) (s : St) (h : transportRun ops = some s) (hc : s.closed = false) (ha : s.armed = false) : ∀ i d, (given ops)[i]? = some d → own i s.wire = d := by
  obtain ⟨s', h1, h2⟩ := transport_fair ops
  rw [h] at h1; cases h1
  have hnil : s.high ++ s.normal = [] := by
    by_cases hn : s.high ++ s.normal = []
    · exact hn
    · rw [h2.armed hc hn] at ha; cases ha
  intro i d hi
  exact h2.sent hc i d hi (by rw [hnil]; simp [ids])

/-- If there is room in the kernel, all data given have been sent after as many events as there are data. (One event takes at most a number of chunks.) -/
theorem transport_finishes (ops : List Op) (s : St) (h : transportRun ops = some s) (hc : s.closed = false) (m : Nat) (o : List Sys) (hm : ∀ d ∈ given ops, d.length ≤ m) (ho : Room (given ops).length m o) :
    ∃ s', transportRun (ops ++ List.replicate (given ops).length (.write o)) = some s' ∧ ∀ i d, (given ops)[i]? = some d → own i s'.wire = d := by
  obtain ⟨s0, h1, h2⟩ := transport_fair ops
  rw [h] at h1; cases h1
  obtain ⟨s', g1, _, _, g4⟩ := transport_rounds hm ho (given ops).length s h2 hc (fair_length h2)
  refine ⟨s', ?_, g4⟩
  unfold transportRun at h ⊢
  rw [List.foldlM_append, h]
  exact g1

theorem transportStep_finish (s s' : St) (op : Op) (hs : transportStep s op = some s') (h : s'.finish = true) : s.finish = true ∨ op = .finish := by
  cases op with
  | push u d =>
    simp only [transportStep, pushChunk] at hs
    cases hs
    left
    split at h
    · exact h
    · split at h <;> exact h
  | finish => exact Or.inr rfl
  | write o =>
    left
    rw [transportStep] at hs
    split at hs
    · cases hs; exact h
    · unfold transportWrite at hs
      cases hp : passAll o s with
      | none => rw [hp] at hs; cases hs
      | some x =>
        obtain ⟨r, s1⟩ := x
        rw [hp] at hs
        cases hs
        have : s1.finish = s.finish := by
          unfold passAll at hp
          split at hp
          · cases hp
          · split at hp
            · cases hp
            · cases hp; rfl
        rw [← this]; exact h

theorem transport_finish (ops : List Op) (s : St) (hr : transportRun ops = some s) (h : s.finish = true) : Op.finish ∈ ops := by
  have : ∀ (ops : List Op) (s s' : St), ops.foldlM transportStep s = some s' → s'.finish = true → s.finish = true ∨ Op.finish ∈ ops := by
    intro ops
    induction ops with
    | nil => intro s s' hr h; cases hr; exact Or.inl h
    | cons op t ih =>
      intro s s' hr h
      rw [List.foldlM_cons] at hr
      cases hs : transportStep s op with
      | none => rw [hs] at hr; cases hr
      | some s1 =>
        rw [hs] at hr
        rcases ih s1 s' hr h with h | h
        · rcases transportStep_finish s s1 op hs h with h | h
          · exact Or.inl h
          · exact Or.inr (by simp [h])
        · exact Or.inr (by simp [h])
  rcases this ops {} s hr h with h | h
  · cases h
  · exact h

/-- Without an error from the kernel an event of any kind closes the connection only if this was asked for, and then all that was given has been sent. -/
theorem transport_closes (ops : List Op) (s s' : St) (op : Op) (ho : ∀ o, op = .write o → NoError o) (h : transportRun ops = some s) (hc : s.closed = false) (h' : transportRun (ops ++ [op]) = some s') (hcl : s'.closed = true) :
    Op.finish ∈ ops ∧ ∀ i d, (given ops)[i]? = some d → own i s'.wire = d := by
  obtain ⟨s0, h1, hg⟩ := transport_fair ops
  rw [h] at h1; cases h1
  have hst : transportStep s op = some s' := by
    have h0 := h'
    unfold transportRun at h h0
    rw [List.foldlM_append, h] at h0
    cases hx : transportStep s op with
    | none => simp [hx] at h0
    | some y => simp [hx] at h0; rw [h0]
  obtain ⟨o, rfl⟩ : ∃ o, op = .write o := by
    cases op with
    | push u d => simp [transportStep, hc, pushChunk] at hst; rw [← hst] at hcl; cases u <;> simp at hcl
    | finish => simp [transportStep, hc] at hst; rw [← hst] at hcl; simp [hc] at hcl
    | write o => exact ⟨o, rfl⟩
  replace ho := ho o rfl
  rw [transportStep] at hst
  split at hst
  · cases hst; rw [hc] at hcl; cases hcl
  · obtain ⟨r, l, l', w, k1, k2⟩ := passAll_moved hg o
    have hr : r = .ok := by
      have k3 := k1
      unfold passAll at k3
      split at k3
      · cases k3
      · rename_i hp
        obtain ⟨e1, e2⟩ := passList_noError _ _ _ _ _ _ _ _ _ ho rfl hp
        split at k3
        · cases k3
        · rename_i hp2
          obtain ⟨e3, _⟩ := passList_noError _ _ _ _ _ _ _ _ _ e2 e1 hp2
          simp only [Option.some.injEq, Prod.mk.injEq] at k3
          rw [← k3.1]
          exact e3
    unfold transportWrite at hst
    rw [k1] at hst
    simp only at hst
    cases hst
    subst hr
    simp only [decide_eq_true_eq] at hcl
    by_cases hid : l = [] ∧ l' = []
    · refine ⟨transport_finish ops s h ?_, ?_⟩
      · cases hf : s.finish with
        | true => rfl
        | false => simp [hf] at hcl
      · have hf := fair_moved hg hc k2 (armed := true) (closed := false) fun _ _ => rfl
        intro i d hi
        exact hf.sent rfl i d hi (by simp only; rw [hid.1, hid.2]; simp [ids])
    · simp [hid] at hcl

/-- If no data are urgent and the kernel takes all of every write until it has no more room within the event, then the bytes which have been sent are the beginning of the data given in order, and all of them when the connection is open
and the write event is off. (Full statement: also with urgent data, which may be first but not inside of others, and for any answers of the kernel. See `urgent_inside` and `next_inside`.) -/
theorem transport_in_order_partial (ops : List Op) (m : Nat) (hu : NoUrgent ops) (hm : ∀ d ∈ given ops, d.length ≤ m) (ho : ∀ o, Op.write o ∈ ops → Steady m o) :
    ∃ s, transportRun ops = some s ∧ s.wire <+: stream 0 (given ops) ∧ (s.closed = false → s.armed = false → s.wire = stream 0 (given ops)) := by
  obtain ⟨s, h1, h2⟩ := transport_inOrder ops hu hm ho
  refine ⟨s, h1, h2.any, fun hc ha => ?_⟩
  obtain ⟨s', h3, h4⟩ := transport_fair ops
  rw [h1] at h3; cases h3
  have hnil : s.normal = [] := by
    by_cases hn : s.normal = []
    · exact hn
    · rw [h4.armed hc (by simp [hn])] at ha; cases ha
  have := h2.live hc
  rw [hnil] at this
  simpa [pend] using this

/-- The same history as above, in which the kernel is steady. -/
def quiet : List Op := [.push false [1, 2], .push false [3, 4, 5], .write [.wrote 3, .wrote 1, .again], .push false [6], .finish, .write [.wrote 3, .wrote 9]]

example : (transportRun (quiet.take 4)).map (fun s => (s.wire, s.closed)) = some ([(0, 1), (0, 2), (1, 3)], false) := by decide
example : (transportRun quiet).map (fun s => (s.wire, s.closed, s.armed)) = some (stream 0 [[1, 2], [3, 4, 5], [6]], true, false) := by decide
example : NoUrgent quiet ∧ (∀ d ∈ given quiet, d.length ≤ 3) ∧ ∀ o, Op.write o ∈ quiet → Steady 3 o := by
  refine ⟨by intro d h; simp [quiet] at h, by decide, ?_⟩
  intro o h
  simp [quiet] at h
  rcases h with rfl | rfl
  · exact ⟨[.wrote 3], 1, [.again], rfl, by simp, by simp⟩
  · exact ⟨[.wrote 3], 9, [], rfl, by simp, by simp⟩
example : Room (given (quiet.take 4)).length 3 (List.replicate 3 (.wrote 3)) := ⟨by decide, fun x hx => ⟨3, (List.mem_replicate.mp hx).2, by omega⟩⟩

/-- Urgent data are sent inside of other data, also when the kernel is steady: the first event takes a part of the first data, and then urgent data are given. (`mqtt_broker.c` and `mqtt_client.c` send PINGRESP, PINGREQ and CONNACK this way,
`mqtt_common.c` sends acknowledgements.) -/
theorem urgent_inside : (transportRun [.push false [1, 2, 3], .write [.wrote 1], .push true [9], .write [.wrote 3, .wrote 3]]).map (·.wire) = some [(0, 1), (1, 9), (0, 2), (0, 3)] ∧ Steady 3 [.wrote 1] ∧ Steady 3 [.wrote 3, .wrote 3] :=
  ⟨by decide, ⟨[], 1, [], rfl, by simp, by simp⟩, ⟨[.wrote 3], 3, [], rfl, by simp, by simp⟩⟩

/-- With nothing urgent, when the kernel takes a part of the first data, has no room for a while and then takes more in the same event, the next data are sent inside of the first. -/
theorem next_inside : ∃ o s, transportRun [.push false [1, 2], .push false [3], .write o] = some s ∧ NoError o ∧ s.wire = [(0, 1), (1, 3)] ∧ ¬ s.wire <+: stream 0 (given [.push false [1, 2], .push false [3], .write o]) := by
  refine ⟨.wrote 1 :: (List.replicate 8 .again ++ [.wrote 1]), _, rfl, ?_, by decide, by decide⟩
  intro x hx
  simp at hx
  rcases hx with rfl | rfl | rfl <;> simp

/-- An error is not seen when it is about urgent data and other data can be sent after it: the connection stays open. -/
theorem error_not_seen : (transportRun [.push true [1], .push false [2], .write [.broken, .wrote 1]]).map (fun s => (s.wire, s.closed)) = some ([(1, 2)], false) := by decide

end Verif.Chunk
