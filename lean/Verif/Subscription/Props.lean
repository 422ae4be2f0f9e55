import Verif.Subscription.Model
import Verif.Topic.Props
/-!
# C06: a session's subscription list is a map keyed by filter
-/
namespace Verif.Subscription
open Verif

/-! ## Specification -/

/-- A subscription map: for each filter at most one subscription. -/
abbrev SubMap := Bytes → Option Sub

/-- Effect of an operation on the map, when there is room. -/
def specStep (m : SubMap) : Op → SubMap
  | .add s _ => fun f => if f = s.filter then some s else m f
  | .remove t => fun f => if f = t then none else m f

/-- The map held by a collection: the subscription with that filter, if any. -/
def Holds (c : Coll) (m : SubMap) : Prop :=
  (c.map (·.filter)).Nodup ∧ ∀ f s, m f = some s ↔ (s ∈ c ∧ s.filter = f)

/-! ## Lemmas -/

theorem replaceFirst_none {s : Sub} {c : Coll} : replaceFirst s c = none ↔ ∀ x ∈ c, x.filter ≠ s.filter := by
  induction c with
  | nil => simp [replaceFirst]
  | cons x xs ih =>
    rw [replaceFirst]
    by_cases h : x.filter = s.filter
    · simp [h]
    · simp [h, ih]

theorem replaceFirst_some {s : Sub} {c c' : Coll} (h : replaceFirst s c = some c') :
    ∃ pre x post, c = pre ++ x :: post ∧ x.filter = s.filter ∧ (∀ y ∈ pre, y.filter ≠ s.filter) ∧
      c' = pre ++ s :: post := by
  induction c generalizing c' with
  | nil => simp [replaceFirst] at h
  | cons x xs ih =>
    rw [replaceFirst] at h
    by_cases hx : x.filter = s.filter
    · simp only [hx, if_true, Option.some.injEq] at h
      exact ⟨[], x, xs, rfl, hx, by simp, h.symm⟩
    · rw [if_neg hx] at h
      cases hr : replaceFirst s xs with
      | none => rw [hr] at h; contradiction
      | some xs' =>
        rw [hr] at h
        simp only [Option.map_some, Option.some.injEq] at h
        obtain ⟨pre, y, post, h1, h2, h3, h4⟩ := ih hr
        refine ⟨x :: pre, y, post, by simp [h1], h2, ?_, by rw [← h, h4]; rfl⟩
        intro z hz
        rcases List.mem_cons.mp hz with rfl | hz
        · exact hx
        · exact h3 z hz

theorem filters_replace (pre post : Coll) (x s : Sub) (h : x.filter = s.filter) :
    (pre ++ s :: post).map (·.filter) = (pre ++ x :: post).map (·.filter) := by
  simp [h]

/-! ## C06 -/

/-- **C06** Adding a subscription: it is refused exactly when the filter is new and
the list is full; otherwise the list afterwards holds the updated map. If the
filter was present, `replaced` is reported and the filters keep their places. -/
theorem addUnique_spec (c : Coll) (m : SubMap) (s : Sub) (e : Bool) (h : Holds c m) :
    ((addUnique c s e).1 = .refused ↔ m s.filter = none ∧ 65536 ≤ c.length) ∧
    ((addUnique c s e).1 = .refused → (addUnique c s e).2 = c) ∧
    ((addUnique c s e).1 ≠ .refused → Holds (addUnique c s e).2 (specStep m (.add s e))) ∧
    ((addUnique c s e).1 = .replaced ↔ m s.filter ≠ none) ∧
    ((addUnique c s e).1 = .replaced →
      (addUnique c s e).2.map (·.filter) = c.map (·.filter)) ∧
    ((addUnique c s e).1 = .ok →
      (addUnique c s e).2.map (·.filter) =
        if e then c.map (·.filter) ++ [s.filter] else s.filter :: c.map (·.filter)) := by
  obtain ⟨hnd, hm⟩ := h
  have hnone : m s.filter = none ↔ ∀ x ∈ c, x.filter ≠ s.filter := by
    constructor
    · intro h x hx e
      have := (hm s.filter x).mpr ⟨hx, e⟩
      rw [h] at this; contradiction
    · intro h
      cases hms : m s.filter with
      | none => rfl
      | some x => exact absurd ((hm _ _).mp hms).2 (h x ((hm _ _).mp hms).1)
  unfold addUnique
  by_cases hc : c = []
  · subst hc
    have hn : m s.filter = none := hnone.mpr (by simp)
    rw [if_pos rfl]
    refine ⟨by simp, by simp, fun _ => ⟨by simp, ?_⟩, by simp [hn], by simp, ?_⟩
    · intro f x
      simp only [specStep]
      by_cases hf : f = s.filter
      · subst hf
        simp only [if_true, Option.some.injEq, List.mem_singleton]
        exact ⟨fun h => ⟨h.symm, by rw [h]⟩, fun h => h.1.symm⟩
      · rw [if_neg hf, hm]
        simp only [List.not_mem_nil, false_and, List.mem_singleton, false_iff]
        rintro ⟨rfl, h⟩; exact hf h.symm
    · intro _; cases e <;> rfl
  · rw [if_neg hc]
    cases hr : replaceFirst s c with
    | some c' =>
      simp only
      obtain ⟨pre, x, post, h1, h2, h3, h4⟩ := replaceFirst_some hr
      have hsome : m s.filter ≠ none := by
        intro h0
        exact (hnone.mp h0) x (by rw [h1]; simp) h2
      have hfil : c'.map (·.filter) = c.map (·.filter) := by
        rw [h4, h1]; exact filters_replace _ _ _ _ h2
      refine ⟨by simp [hsome], by simp, fun _ => ⟨by rw [hfil]; exact hnd, ?_⟩, by simp [hsome],
        fun _ => hfil, by simp⟩
      intro f y
      simp only [specStep]
      rw [h1] at hnd
      have hpost : ∀ z ∈ post, z.filter ≠ s.filter := by
        intro z hz he
        have := List.nodup_append.mp (by simpa using hnd)
        have h5 := (List.nodup_cons.mp this.2.1).1
        apply h5
        rw [h2, ← he]
        exact List.mem_map_of_mem hz
      by_cases hf : f = s.filter
      · subst hf
        simp only [if_true, Option.some.injEq, h4, List.mem_append, List.mem_cons]
        constructor
        · rintro rfl; exact ⟨Or.inr (Or.inl rfl), rfl⟩
        · rintro ⟨hz | rfl | hz, he⟩
          · exact absurd he (h3 y hz)
          · rfl
          · exact absurd he (hpost y hz)
      · rw [if_neg hf, hm, h4, h1]
        simp only [List.mem_append, List.mem_cons]
        constructor
        · rintro ⟨hz | rfl | hz, he⟩
          · exact ⟨Or.inl hz, he⟩
          · exact absurd (he.symm.trans h2) hf
          · exact ⟨Or.inr (Or.inr hz), he⟩
        · rintro ⟨hz | rfl | hz, he⟩
          · exact ⟨Or.inl hz, he⟩
          · exact absurd he.symm hf
          · exact ⟨Or.inr (Or.inr hz), he⟩
    | none =>
      simp only
      have hno := replaceFirst_none.mp hr
      have hn : m s.filter = none := hnone.mpr hno
      have hcm : collMax = 65536 := by unfold collMax; rfl
      by_cases hfull : c.length ≥ collMax
      · rw [if_pos hfull]
        rw [hcm] at hfull
        simp [hn, hfull]
      · rw [if_neg hfull]
        rw [hcm] at hfull
        have hfresh : s.filter ∉ c.map (·.filter) := by
          intro hmem
          obtain ⟨x, hx, he⟩ := List.mem_map.mp hmem
          exact hno x hx he
        have hmap : ∀ c' : Coll, (∀ y, y ∈ c' ↔ y = s ∨ y ∈ c) →
            ∀ f y, specStep m (.add s e) f = some y ↔ y ∈ c' ∧ y.filter = f := by
          intro c' hc' f y
          simp only [specStep]
          by_cases hf : f = s.filter
          · subst hf
            rw [if_pos rfl, hc']
            constructor
            · intro h; simp at h; subst h; exact ⟨Or.inl rfl, rfl⟩
            · rintro ⟨rfl | hz, he⟩
              · rfl
              · exact absurd he (hno y hz)
          · rw [if_neg hf, hm, hc']
            constructor
            · rintro ⟨hz, he⟩; exact ⟨Or.inr hz, he⟩
            · rintro ⟨rfl | hz, he⟩
              · exact absurd he.symm hf
              · exact ⟨hz, he⟩
        cases e with
        | true =>
          refine ⟨by simp [hn]; omega, by simp, fun _ => ⟨?_, ?_⟩, by simp [hn], by simp, by simp⟩
          · show ((c ++ [s]).map (·.filter)).Nodup
            rw [List.map_append, List.nodup_append]
            refine ⟨hnd, by simp, ?_⟩
            intro a ha b hb
            simp at hb; subst hb
            rintro rfl; exact hfresh ha
          · exact hmap (c ++ [s]) (by intro y; simp [or_comm])
        | false =>
          refine ⟨by simp [hn]; omega, by simp, fun _ => ⟨?_, ?_⟩, by simp [hn], by simp, by simp⟩
          · show ((s :: c).map (·.filter)).Nodup
            rw [List.map_cons, List.nodup_cons]
            exact ⟨hfresh, hnd⟩
          · exact hmap (s :: c) (by intro y; simp)

/-- **C06** Removing a filter removes exactly that entry, reports whether it was
there, keeps the order of the others and never aborts. -/
theorem removeTopic_spec (c : Coll) (m : SubMap) (t : Bytes) (h : Holds c m) :
    ∃ n c', removeTopic c t = some (n, c') ∧ Holds c' (specStep m (.remove t)) ∧
      (n = 1 ∧ m t ≠ none ∨ n = 0 ∧ m t = none) ∧ c' = c.filter (fun s => s.filter ≠ t) := by
  obtain ⟨hnd, hm⟩ := h
  have hcnt : (c.filter (fun s => s.filter = t)).length = if m t = none then 0 else 1 := by
    have hc2 : (c.filter (fun s => decide (s.filter = t))).length = (c.map (·.filter)).count t := by
      rw [List.count, List.countP_map, List.countP_eq_length_filter]
      congr 2
      funext s
      rw [Bool.eq_iff_iff]; simp
    rw [hc2]
    cases hmt : m t with
    | none =>
      simp only [if_true]
      rw [List.count_eq_zero]
      intro hmem
      obtain ⟨x, hx, he⟩ := List.mem_map.mp hmem
      have := (hm t x).mpr ⟨hx, he⟩
      rw [hmt] at this; contradiction
    | some x =>
      simp only [reduceCtorEq, if_false]
      have hx := (hm t x).mp hmt
      rw [List.Nodup.count hnd, if_pos]
      rw [← hx.2]; exact List.mem_map_of_mem hx.1
  unfold removeTopic
  simp only
  rw [hcnt]
  refine ⟨if m t = none then 0 else 1, c.filter (fun s => s.filter ≠ t), ?_, ⟨?_, ?_⟩, ?_, rfl⟩
  · rw [if_neg]; split <;> omega
  · exact List.Sublist.nodup (List.Sublist.map _ List.filter_sublist) hnd
  · intro f s
    simp only [specStep, List.mem_filter, decide_eq_true_eq]
    by_cases hf : f = t
    · subst hf
      simp only [if_true, reduceCtorEq, false_iff]
      rintro ⟨⟨_, h1⟩, h2⟩; exact h1 h2
    · rw [if_neg hf, hm]
      constructor
      · rintro ⟨a, b⟩; exact ⟨⟨a, by rw [b]; exact hf⟩, b⟩
      · rintro ⟨⟨a, _⟩, b⟩; exact ⟨a, b⟩
  · split
    · rename_i h0; exact Or.inr ⟨rfl, h0⟩
    · rename_i h0; exact Or.inl ⟨rfl, h0⟩

/-- The map after a history, where an addition of a new filter is without effect
when 65536 filters are present (`n` counts them). -/
inductive History : SubMap → List Op → SubMap → Prop
  | nil {m} : History m [] m
  | cons {m op ops m'} : History (specStep m op) ops m' → History m (op :: ops) m'
  | refused {m s e ops m'} : m s.filter = none → (∃ l : List Bytes, l.Nodup ∧ 65536 ≤ l.length ∧ ∀ f ∈ l, m f ≠ none) →
      History m ops m' → History m (.add s e :: ops) m'

/-- **C06** After any sequence of subscribe and unsubscribe operations on an empty
list: no abort, at most one subscription per filter, and for each filter the
options of the latest subscribe not followed by an unsubscribe. -/
theorem run_spec (ops : List Op) :
    ∃ c m, run [] ops = some c ∧ History (fun _ => none) ops m ∧ Holds c m := by
  have key : ∀ (ops : List Op) (c : Coll) (m : SubMap), Holds c m →
      ∃ c' m', run c ops = some c' ∧ History m ops m' ∧ Holds c' m' := by
    intro ops
    induction ops with
    | nil => intro c m h; exact ⟨c, m, rfl, .nil, h⟩
    | cons op ops ih =>
      intro c m h
      cases op with
      | add s e =>
        obtain ⟨h1, h2, h3, _⟩ := addUnique_spec c m s e h
        by_cases hr : (addUnique c s e).1 = .refused
        · obtain ⟨c', m', a, b, d⟩ := ih c m h
          refine ⟨c', m', ?_, .refused (h1.mp hr).1 ⟨c.map (·.filter), h.1, by simpa using (h1.mp hr).2, ?_⟩ b, d⟩
          · simp only [run, step, h2 hr]; exact a
          · intro f hf
            obtain ⟨x, hx, he⟩ := List.mem_map.mp hf
            rw [(h.2 f x).mpr ⟨hx, he⟩]; simp
        · obtain ⟨c', m', a, b, d⟩ := ih _ _ (h3 hr)
          exact ⟨c', m', by simp only [run, step]; exact a, .cons b, d⟩
      | remove t =>
        obtain ⟨n, c1, e1, e2, _⟩ := removeTopic_spec c m t h
        obtain ⟨c', m', a, b, d⟩ := ih _ _ e2
        exact ⟨c', m', by simp only [run, step, e1, Option.map_some]; exact a, .cons b, d⟩
  exact key ops [] (fun _ => none) ⟨by simp, by simp⟩

/-- **C06** As long as fewer than 65536 operations have been made, nothing is refused
and the resulting map is exactly the fold of the operations. -/
theorem run_eq_fold (ops : List Op) (hlen : ops.length ≤ 65536) :
    ∃ c, run [] ops = some c ∧ Holds c (ops.foldl specStep (fun _ => none)) := by
  have key : ∀ (ops : List Op) (c : Coll) (m : SubMap), Holds c m → c.length + ops.length ≤ 65536 →
      ∃ c', run c ops = some c' ∧ Holds c' (ops.foldl specStep m) := by
    intro ops
    induction ops with
    | nil => intro c m h _; exact ⟨c, rfl, h⟩
    | cons op ops ih =>
      intro c m h hl
      simp only [List.length_cons] at hl
      cases op with
      | add s e =>
        obtain ⟨h1, h2, h3, h4, h5, h6⟩ := addUnique_spec c m s e h
        have hr : (addUnique c s e).1 ≠ .refused := by
          intro hr; have := (h1.mp hr).2; omega
        have hlen' : (addUnique c s e).2.length ≤ c.length + 1 := by
          cases hx : (addUnique c s e).1 with
          | refused => exact absurd hx hr
          | replaced => have := congrArg List.length (h5 hx); simp at this; omega
          | ok =>
            have := congrArg List.length (h6 hx)
            cases e <;> simp at this <;> omega
        obtain ⟨c', a, b⟩ := ih _ _ (h3 hr) (by omega)
        exact ⟨c', by simp only [run, step]; exact a, b⟩
      | remove t =>
        obtain ⟨n, c1, e1, e2, _, e4⟩ := removeTopic_spec c m t h
        have : c1.length ≤ c.length := by rw [e4]; exact List.length_filter_le _ _
        obtain ⟨c', a, b⟩ := ih _ _ e2 (by omega)
        exact ⟨c', by simp only [run, step, e1, Option.map_some]; exact a, b⟩
  exact key ops [] (fun _ => none) ⟨by simp, by simp⟩ (by simpa using hlen)

example : run [] [.add ⟨[0x61], 0, 0, 0, 1⟩ true, .add ⟨[0x62], 0, 0, 0, 1⟩ true,
    .add ⟨[0x61], 0, 0, 0, 2⟩ true, .remove [0x62]] = some [⟨[0x61], 0, 0, 0, 2⟩] := by decide +kernel

/-! ## Delivery: which subscriptions a publish reaches (C42) -/

/-- A subscription created by the code and a valid topic. -/
def SubOk (s : Sub) : Prop := ∃ retain rap nl qos, new s.filter retain rap nl qos = some s ∧ (0 : UInt8) ∉ s.filter

/-- **C42** Publishing to a collection calls the delivery callback for exactly the
subscriptions whose filter matches, in list order, each once, and never aborts. -/
theorem matchPublish_eq (c : Coll) (topic : Bytes) (hc : ∀ s ∈ c, SubOk s)
    (ht : Topic.validateName topic = true) :
    matchPublish c topic = some (c.filter (fun s => Topic.matchStr s.filter topic = .match)) := by
  induction c with
  | nil => rfl
  | cons s c ih =>
    have ih := ih (fun x hx => hc x (by simp [hx]))
    obtain ⟨retain, rap, nl, qos, hn, hz⟩ := hc s (by simp)
    have hv : Topic.filterValidateName s.filter = true ∧ s.filter ≠ [] := by
      unfold new at hn
      split at hn
      · contradiction
      · split at hn
        · contradiction
        · split at hn
          · contradiction
          · rename_i h1 h2; exact ⟨by simpa using h1, h2⟩
    have hna := Topic.matchStr_no_abort s.filter topic hv.2 hz hv.1
    rw [matchPublish, ht, if_neg (by simp)]
    cases hm : Topic.matchStr s.filter topic with
    | abort => exact absurd hm hna
    | «match» => simp [ih, hm]
    | mismatch => simp [ih, hm]

/-! ## Copying a request's subscriptions into the session -/

/-- Finding: when the session's list is full, `append_unique_copy_from_collection`
still calls the new-subscription callback and reports success although the
subscription was not stored. -/
theorem appendCopy_refused_reported_ok (c : Coll) (s : Sub) (hfull : 65536 ≤ c.length)
    (hfresh : ∀ x ∈ c, x.filter ≠ s.filter) (hq : s.qos ≤ 2) :
    appendCopy (σ := List Sub) false (some fun st x => (true, st ++ [x])) c [s] [] = (true, c, [s]) := by
  have hc : c ≠ [] := by rintro rfl; simp at hfull
  have hcm : collMax = 65536 := by unfold collMax; rfl
  have ha : addUnique c s true = (.refused, c) := by
    unfold addUnique
    rw [if_neg hc, replaceFirst_none.mpr hfresh]
    simp only
    rw [if_pos (by rw [hcm]; exact hfull)]
  rw [appendCopy, if_neg (by simp; omega), ha]
  simp [appendCopy]

/-- The subscriptions a request newly creates in a map: those with a valid QoS
whose filter is not there at their turn. -/
def specNew (m : SubMap) : List Sub → List Sub
  | [] => []
  | s :: rest =>
    if s.qos ≤ 2 then
      (if m s.filter = none then [s] else []) ++ specNew (specStep m (.add s true)) rest
    else specNew m rest

/-- **C06** Copying a request's subscriptions into a session with room for them
stores exactly the valid ones (QoS at most 2, later ones replacing earlier ones
with the same filter) and announces exactly the filters which were new. -/
theorem appendCopy_spec (src : Coll) : ∀ (c : Coll) (m : SubMap) (acc : List Sub), Holds c m →
    c.length + src.length ≤ 65536 →
    ∃ c', appendCopy (σ := List Sub) false (some fun st x => (true, st ++ [x])) c src acc =
        (true, c', acc ++ specNew m src) ∧
      Holds c' ((src.filter (fun s => s.qos ≤ 2)).foldl (fun m s => specStep m (.add s true)) m) := by
  induction src with
  | nil => intro c m acc h _; exact ⟨c, by simp [appendCopy, specNew], h⟩
  | cons s src ih =>
    intro c m acc h hl
    simp only [List.length_cons] at hl
    by_cases hq : s.qos ≤ 2
    · simp only [appendCopy, List.filter_cons, hq, decide_true, if_true, List.foldl_cons, specNew]
      rw [if_neg (by omega)]
      obtain ⟨h1, h2, h3, h4, h5, h6⟩ := addUnique_spec c m s true h
      have hr : (addUnique c s true).1 ≠ .refused := by
        intro hr; have := (h1.mp hr).2; omega
      cases hx : (addUnique c s true).1 with
      | refused => exact absurd hx hr
      | replaced =>
        simp only
        have := congrArg List.length (h5 hx); simp at this
        rw [if_neg (h4.mp hx), List.nil_append]
        exact ih _ _ _ (h3 hr) (by omega)
      | ok =>
        simp only [if_true]
        have := congrArg List.length (h6 hx); simp at this
        have hn : m s.filter = none := by
          cases hm : m s.filter with
          | none => rfl
          | some x =>
            have := h4.mpr (by rw [hm]; simp)
            rw [hx] at this; contradiction
        rw [if_pos hn, ← List.append_assoc]
        exact ih _ _ _ (h3 hr) (by omega)
    · simp only [appendCopy, List.filter_cons, specNew]
      rw [if_pos ⟨trivial, by omega⟩, if_neg hq]
      have : decide (s.qos ≤ 2) = false := by simp; omega
      rw [this]
      exact ih c m acc h (by omega)

example : appendCopy (σ := List Sub) false (some fun st x => (true, st ++ [x])) [⟨[0x61], 0, 0, 0, 1⟩]
    [⟨[0x61], 0, 0, 0, 2⟩, ⟨[0x62], 0, 0, 0, 3⟩, ⟨[0x63], 0, 0, 0, 0⟩] [] =
    (true, [⟨[0x61], 0, 0, 0, 2⟩, ⟨[0x63], 0, 0, 0, 0⟩], [⟨[0x63], 0, 0, 0, 0⟩]) := by decide +kernel

/-- The answers to an unsubscribe request: entries already refused keep their
reason, the others get 0 (removed) or 0x11 (no subscription existed). -/
def specUnsub (m : SubMap) : List (Bytes × Nat) → List (Bytes × Nat)
  | [] => []
  | (f, reason) :: rest =>
    if reason = 0 then
      (f, if m f = none then 0x11 else 0) :: specUnsub (specStep m (.remove f)) rest
    else (f, reason) :: specUnsub m rest

/-- How many subscriptions the request removes. -/
def specUnsubCount (m : SubMap) : List (Bytes × Nat) → Nat
  | [] => 0
  | (f, reason) :: rest =>
    if reason = 0 then
      (if m f = none then 0 else 1) + specUnsubCount (specStep m (.remove f)) rest
    else specUnsubCount m rest

/-- **C06** Unsubscribe requests: each entry is answered with "removed" or "no
subscription existed" according to the map, and exactly the requested filters go. -/
theorem removeMatching_spec (req : List (Bytes × Nat)) : ∀ (c : Coll) (m : SubMap), Holds c m →
    ∃ c', removeMatching c req = some (specUnsubCount m req, c', specUnsub m req) ∧
      Holds c' ((req.filter (fun r => r.2 = 0)).foldl (fun m r => specStep m (.remove r.1)) m) := by
  induction req with
  | nil => intro c m h; exact ⟨c, rfl, h⟩
  | cons r req ih =>
    intro c m h
    obtain ⟨f, reason⟩ := r
    by_cases hr : reason = 0
    · subst hr
      obtain ⟨k, c1, e1, e2, e3, _⟩ := removeTopic_spec c m f h
      obtain ⟨c', a, b⟩ := ih _ _ e2
      refine ⟨c', ?_, by simpa using b⟩
      simp only [removeMatching, ne_eq, not_true_eq_false, if_false, e1, a, Option.map_some, specUnsub,
        specUnsubCount, if_true]
      rcases e3 with ⟨hk, hm⟩ | ⟨hk, hm⟩
      · rw [if_neg (by omega), if_neg hm, if_neg hm, Nat.add_comm]
      · rw [if_pos hk, if_pos hm, if_pos hm, Nat.zero_add]
    · obtain ⟨c', a, b⟩ := ih c m h
      refine ⟨c', ?_, by simpa [hr] using b⟩
      simp [removeMatching, specUnsub, specUnsubCount, hr, a]

example : removeMatching [⟨[0x61], 0, 0, 0, 1⟩, ⟨[0x62], 0, 0, 0, 1⟩] [([0x61], 0), ([0x61], 0), ([0x62], 0x83)] =
    some (1, [⟨[0x62], 0, 0, 0, 1⟩], [([0x61], 0), ([0x61], 0x11), ([0x62], 0x83)]) := by decide +kernel

end Verif.Subscription
