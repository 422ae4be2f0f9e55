import Verif.MqttClient.Spec

/-!
# What the MQTT client publishes, and which commands it follows (C153)
-/
namespace Verif.MqttClient
open Verif Verif.MqttClient.Spec

/-! ## Topics -/

theorem cstr_clean (b : Bytes) (h : 0 ∉ b) : cstr b = b := by
  unfold cstr
  induction b with
  | nil => rfl
  | cons x r ih =>
    simp only [List.mem_cons, not_or] at h
    rw [List.takeWhile_cons, ih h.2]
    simp [Ne.symm h.1]

theorem head_clean (b : Bytes) (h : 0 ∉ b) : b.head? ≠ some 0 := by
  cases b with
  | nil => simp
  | cons x r => simp only [List.mem_cons, not_or] at h; simp [Ne.symm h.1]

/-- **C153, partial.** The topic is the configured one followed by that of the message if so configured, always the configured one if so configured, or else the one of the message, or the configured one if it has none.
A message is dropped exactly if there is no topic, or none to follow the configured one. This is for topics without zero bytes. -/
theorem topic_partial (c : Conf) (m : Msg) (ha : Accepted c) (h : 0 ∉ m.topic) :
    (∀ t, c.prepend = true → c.topic = some t → m.topic ≠ [] → topicOf c m = .ok (t ++ m.topic)) ∧
    (∀ t, c.force = true → c.topic = some t → topicOf c m = .ok t) ∧
    (c.force = false → c.prepend = false → m.topic ≠ [] → topicOf c m = .ok m.topic) ∧
    (∀ t, c.prepend = false → m.topic = [] → c.topic = some t → topicOf c m = .ok t) ∧
    (topicOf c m = .drop ↔ m.topic = [] ∧ (c.prepend = true ∨ c.topic = none)) ∧ topicOf c m ≠ .bug := by
  have e1 := cstr_clean _ h
  have e2 := head_clean _ h
  have l0 : m.topic.length > 0 ↔ m.topic ≠ [] := List.length_pos_iff
  have l1 : m.topic.length = 0 ↔ m.topic = [] := List.length_eq_zero_iff
  obtain ⟨a1, a2⟩ := ha
  unfold topicOf
  rw [if_neg e2, e1]
  simp only [l0, l1]
  cases hf : c.force <;> cases hp : c.prepend <;> cases ht : c.topic <;> by_cases hm : m.topic = [] <;> simp_all

/-- **C153.** Not holding in general: a topic which begins with a zero byte aborts the program, and a topic with a zero byte elsewhere is cut. -/
theorem topic_zero (c : Conf) (m : Msg) :
    (∀ r, m.topic = 0 :: r → topicOf c m = .bug) ∧
    (∀ x a r, x ≠ 0 → 0 ∉ a → m.topic = x :: a ++ 0 :: r → c.force = false → c.prepend = false → topicOf c m = .ok (x :: a)) := by
  refine ⟨?_, ?_⟩
  · intro r h; simp [topicOf, h]
  · intro x a r hx ha h hf hp
    have e : cstr m.topic = x :: a := by
      rw [h]
      unfold cstr
      have : ∀ b : Bytes, 0 ∉ b → (b ++ 0 :: r).takeWhile (· ≠ 0) = b := by
        intro b
        induction b with
        | nil => intro _; simp
        | cons y b ih =>
          intro hb
          simp only [List.mem_cons, not_or] at hb
          rw [List.cons_append, List.takeWhile_cons, ih hb.2]
          simp [Ne.symm hb.1]
      exact this (x :: a) (by simp [Ne.symm hx, ha])
    unfold topicOf
    rw [e, hf, hp, h]
    simp [hx]

example : Accepted { topic := some [116], force := false, prepend := true, retainTag := none, method := .plain, qos := 0, v5 := true, isCommand := fun _ => false, validFilter := fun _ => true } :=
  ⟨by simp, by simp⟩

/-! ## Retained messages -/

/-- **C153.** The retain flag is set exactly if a tag is configured for this and the message has a value with it. Then, if the first such value is the text `clear`, there is no payload. Otherwise the expiry interval is the number of
the value, and the message is dropped if this does not fit in 32 bits. -/
theorem retain_exact (c : Conf) (m : Msg) (tag : Bytes) (l : List Val) (hc : c.retainTag = some tag) (hm : m.array = some l) :
    ((∀ v ∈ l, v.tag ≠ tag) → retainOf c m = .ok (false, none, false)) ∧
    (∀ a v b, l = a ++ v :: b → (∀ x ∈ a, x.tag ≠ tag) → v.tag = tag →
      (v.str = some clear → retainOf c m = .ok (true, none, true)) ∧
      (v.str ≠ some clear → v.num < 2 ^ 32 → retainOf c m = .ok (true, some v.num, false)) ∧
      (v.str ≠ some clear → 2 ^ 32 ≤ v.num → retainOf c m = .drop)) := by
  refine ⟨?_, ?_⟩
  · intro h
    have : l.find? (fun v => v.tag = tag) = none := by
      rw [List.find?_eq_none]; intro x hx; simpa using h x hx
    simp [retainOf, hc, hm, this]
  · intro a v b e ha hv
    have : l.find? (fun v => v.tag = tag) = some v := by
      rw [e, List.find?_append]
      have : a.find? (fun v => v.tag = tag) = none := by
        rw [List.find?_eq_none]; intro x hx; simpa using ha x hx
      rw [this]; simp [hv]
    refine ⟨?_, ?_, ?_⟩
    · intro h; simp [retainOf, hc, hm, this, h]
    · intro h1 h2
      have h3 : ¬ v.num > 4294967295 := by omega
      simp only [retainOf, hc, hm, this, h1, h3, if_false]
    · intro h1 h2
      have h3 : v.num > 4294967295 := by omega
      simp only [retainOf, hc, hm, this, h1, h3, if_false, if_true]

/-- Nothing is retained without a configured tag, or if the message is not an array. -/
theorem retain_none (c : Conf) (m : Msg) (h : c.retainTag = none ∨ m.array = none) : retainOf c m = .ok (false, none, false) := by
  unfold retainOf
  rcases h with h | h
  · rw [h]
  · rw [h]; cases c.retainTag <;> rfl

/-- **C153.** What is published has the topic, flags and payload above, and the configured quality of service. There is no payload exactly when a retained message is cleared. -/
theorem publish_exact (c : Conf) (m : Msg) (p : Pub) :
    publish c m = .ok p ↔ topicOf c m = .ok p.topic ∧ p.qos = c.qos ∧
      ((retainOf c m = .ok (p.retain, p.expiry, true) ∧ p.payload = none) ∨
       (retainOf c m = .ok (p.retain, p.expiry, false) ∧ ∃ x, payloadOf c m = .ok x ∧ p.payload = some x)) := by
  unfold publish
  cases p with
  | mk t q r e y =>
  cases ht : topicOf c m with
  | bug => simp
  | drop => simp
  | ok t' =>
    cases hr : retainOf c m with
    | bug => simp
    | drop => simp
    | ok w =>
      obtain ⟨r', e', n⟩ := w
      cases n with
      | true =>
        simp only [Out.ok.injEq, Pub.mk.injEq, Prod.mk.injEq]
        constructor
        · rintro ⟨h1, h2, h3, h4, h5⟩; exact ⟨h1, h2.symm, .inl ⟨⟨h3, h4, trivial⟩, h5.symm⟩⟩
        · rintro ⟨h1, h2, h3 | h3⟩
          · exact ⟨h1, h2.symm, h3.1.1, h3.1.2.1, h3.2.symm⟩
          · exact absurd h3.1.2.2 (by simp)
      | false =>
        cases hp : payloadOf c m with
        | bug => simp
        | drop => simp
        | ok x =>
          simp only [Out.ok.injEq, Pub.mk.injEq, Prod.mk.injEq]
          constructor
          · rintro ⟨h1, h2, h3, h4, h5⟩; exact ⟨h1, h2.symm, .inr ⟨⟨h3, h4, trivial⟩, x, rfl, h5.symm⟩⟩
          · rintro ⟨h1, h2, h3 | h3⟩
            · exact absurd h3.1.2.2 (by simp)
            · obtain ⟨⟨h4, h5, _⟩, y', h6, h7⟩ := h3
              exact ⟨h1, h2.symm, h4, h5, by rw [h7, h6]⟩

/-- **C153.** The payload is the whole message, or the values of an array, as configured; otherwise the data of a message which has data and is not an array. -/
theorem payload_exact (c : Conf) (m : Msg) :
    (c.method = .message → payloadOf c m = .ok (.message m)) ∧
    (∀ tags l, c.method = .values tags → m.array = some l → payloadOf c m = .ok (.values tags l)) ∧
    (∀ tags, c.method = .values tags → m.array = none → payloadOf c m = .drop) ∧
    (c.method = .plain → m.array = none → m.data ≠ [] → payloadOf c m = .ok (.data m.data)) ∧
    (c.method = .plain → m.array ≠ none ∨ m.data = [] → payloadOf c m = .ok (.text m)) := by
  refine ⟨?_, ?_, ?_, ?_, ?_⟩
  · intro h; simp [payloadOf, h]
  · intro tags l h1 h2; simp [payloadOf, h1, h2]
  · intro tags h1 h2; simp [payloadOf, h1, h2]
  · intro h1 h2 h3; simp [payloadOf, h1, h2, List.length_pos_iff, h3]
  · intro h1 h2
    rcases h2 with h2 | h2 <;> simp [payloadOf, h1, h2]

/-! ## Commands -/

theorem addUnique_mem (l : List Bytes) (t x : Bytes) : x ∈ addUnique l t ↔ x ∈ l ∨ x = t := by
  unfold addUnique
  split
  · rename_i h
    have := List.contains_iff_mem.mp h
    constructor
    · exact .inl
    · rintro (h | rfl)
      · exact h
      · exact this
  · simp

theorem fold_mem (f l : List Bytes) (x : Bytes) : x ∈ f.foldl addUnique l ↔ x ∈ l ∨ x ∈ f := by
  induction f generalizing l with
  | nil => simp
  | cons t f ih => rw [List.foldl_cons, ih, addUnique_mem, List.mem_cons]; grind

theorem filters_eq (c : Conf) (l : List Val) (texts acc : List Bytes) (h : Filters c l texts) : filters c.validFilter l acc = .ok (texts.foldl addUnique acc) := by
  induction l generalizing texts acc with
  | nil =>
    have := h.all
    cases texts with
    | nil => rfl
    | cons _ _ => simp at this
  | cons v l ih =>
    have ht := h.all
    cases texts with
    | nil => simp at ht
    | cons t texts =>
      simp only [List.map_cons, List.cons.injEq] at ht
      unfold filters
      rw [ht.1]
      simp only [h.tags v (by simp), if_true, h.valid t (by simp)]
      exact ih texts _ ⟨ht.2, fun v hv => h.tags v (by simp [hv]), fun t ht => h.valid t (by simp [ht])⟩

/-- The array is a command. -/
def IsCommand (l : List Val) (cmd : Bytes) : Prop := ∃ v, l.find? (fun v => v.tag = tagCommand) = some v ∧ v.str = some cmd

/-- **C153, partial.** A command to subscribe with valid topic filters adds exactly these to the subscriptions, and asks the server for all of them. -/
theorem subscribe_partial (c : Conf) (subs : List Bytes) (m : Msg) (l : List Val) (texts : List Bytes) (hm : m.array = some l) (hc : IsCommand l cmdSubscribe)
    (hf : Filters c (l.filter (fun v => v.tag ≠ tagCommand)) texts) (hn : texts ≠ []) :
    ∃ s', command c subs m = .ok (s', some (.subscribe s')) ∧ ∀ t, t ∈ s' ↔ t ∈ subs ∨ t ∈ texts := by
  obtain ⟨v, h1, h2⟩ := hc
  refine ⟨(texts.foldl addUnique []).foldl addUnique subs, ?_, ?_⟩
  · unfold command
    rw [hm]
    simp only [h1, h2, if_true, filters_eq c _ texts [] hf]
    rw [if_neg]
    intro e
    obtain ⟨t, r, rfl⟩ := List.exists_cons_of_ne_nil hn
    have : t ∈ ((t :: r).foldl addUnique []).foldl addUnique subs := (fold_mem _ _ _).mpr (.inr ((fold_mem _ _ _).mpr (.inr (by simp))))
    rw [e] at this; cases this
  · intro t; simp [fold_mem]

/-- **C153, partial.** A command to unsubscribe with valid topic filters asks the server for this. Before version 5 exactly these are removed from the subscriptions, and with version 5 they remain until the server has answered. -/
theorem unsubscribe_partial (c : Conf) (subs : List Bytes) (m : Msg) (l : List Val) (texts : List Bytes) (hm : m.array = some l) (hc : IsCommand l cmdUnsubscribe)
    (hf : Filters c (l.filter (fun v => v.tag ≠ tagCommand)) texts) (hn : texts ≠ []) :
    ∃ s' f, command c subs m = .ok (s', some (.unsubscribe f)) ∧ (∀ t, t ∈ f ↔ t ∈ texts) ∧ (c.v5 = true → s' = subs) ∧ (c.v5 = false → ∀ t, t ∈ s' ↔ t ∈ subs ∧ t ∉ texts) := by
  obtain ⟨v, h1, h2⟩ := hc
  have hmem : ∀ t, t ∈ texts.foldl addUnique [] ↔ t ∈ texts := by intro t; simp [fold_mem]
  refine ⟨if c.v5 then subs else subs.filter (fun t => !(texts.foldl addUnique []).contains t), texts.foldl addUnique [], ?_, hmem, ?_, ?_⟩
  · unfold command
    rw [hm]
    have e1 : ¬ cmdUnsubscribe = cmdSubscribe := by decide
    have e2 : ¬ texts.foldl addUnique [] = [] := by
      intro e
      obtain ⟨t, r, rfl⟩ := List.exists_cons_of_ne_nil hn
      have := (hmem t).mpr (by simp)
      rw [e] at this; cases this
    simp only [h1, h2, e1, if_false, if_true, filters_eq c _ texts [] hf, e2]
  · intro h; simp [h]
  · intro h t
    simp [h, List.mem_filter, fold_mem]

/-- **C153.** A command to disconnect asks for this, with the will to be published exactly if there is a value with the tag for it. -/
theorem disconnect_exact (c : Conf) (subs : List Bytes) (m : Msg) (l : List Val) (hm : m.array = some l) (hc : IsCommand l cmdDisconnect) :
    ∃ w, command c subs m = .ok (subs, some (.disconnect w)) ∧ (w = true ↔ ∃ v ∈ l, v.tag = tagWill) := by
  obtain ⟨v, h1, h2⟩ := hc
  refine ⟨(l.filter (fun v => v.tag ≠ tagCommand)).any (fun v => v.tag = tagWill), by
    unfold command
    rw [hm]
    have e1 : ¬ cmdDisconnect = cmdSubscribe := by decide
    have e2 : ¬ cmdDisconnect = cmdUnsubscribe := by decide
    simp only [h1, h2, e1, e2, if_false, if_true], ?_⟩
  simp only [List.any_eq_true, List.mem_filter, decide_eq_true_eq]
  constructor
  · rintro ⟨v, hv, e⟩; exact ⟨v, hv.1, e⟩
  · rintro ⟨v, hv, e⟩
    exact ⟨v, ⟨hv, by rw [e]; decide⟩, e⟩

/-- **C153.** A message which is not an array, or has no command or an unknown one, does nothing. -/
theorem unknown_ignored (c : Conf) (subs : List Bytes) (m : Msg)
    (h : ∀ l, m.array = some l → ∀ cmd, cmd = cmdSubscribe ∨ cmd = cmdUnsubscribe ∨ cmd = cmdDisconnect → ¬ IsCommand l cmd) : command c subs m = .ok (subs, none) := by
  unfold command
  cases hm : m.array with
  | none => rfl
  | some l =>
    simp only
    cases hv : l.find? (fun v => v.tag = tagCommand) with
    | none => rfl
    | some v =>
      simp only
      cases hs : v.str with
      | none => rfl
      | some cmd =>
        have key : ∀ x, x = cmdSubscribe ∨ x = cmdUnsubscribe ∨ x = cmdDisconnect → cmd ≠ x := fun x hx e => h l hm x hx ⟨v, hv, by rw [hs, e]⟩
        simp only [key _ (.inl rfl), key _ (.inr (.inl rfl)), key _ (.inr (.inr rfl)), if_false]

/-- **C153.** Not holding: a command to subscribe or unsubscribe with a further value which is not a topic filter crashes the program, although only a warning is intended. -/
theorem unknown_value_crashes (c : Conf) (subs : List Bytes) (m : Msg) (l : List Val) (cmd : Bytes) (hk : cmd = cmdSubscribe ∨ cmd = cmdUnsubscribe) (hm : m.array = some l) (hc : IsCommand l cmd)
    (a : List Val) (v : Val) (b : List Val) (texts : List Bytes) (hl : l.filter (fun v => v.tag ≠ tagCommand) = a ++ v :: b) (hf : Filters c a texts) (hv : v.tag ≠ tagFilter ∨ v.str = none) :
    command c subs m = .fault := by
  have key : ∀ (a : List Val) (texts acc : List Bytes), Filters c a texts → filters c.validFilter (a ++ v :: b) acc = .fault := by
    intro a
    induction a with
    | nil =>
      intro texts acc _
      simp only [List.nil_append]
      unfold filters
      cases hs : v.str with
      | none => rfl
      | some t =>
        simp only
        rcases hv with hv | hv
        · rw [if_neg hv]
        · rw [hs] at hv; cases hv
    | cons x a ih =>
      intro texts acc h
      have ht := h.all
      cases texts with
      | nil => simp at ht
      | cons t texts =>
        simp only [List.map_cons, List.cons.injEq] at ht
        simp only [List.cons_append]
        unfold filters
        rw [ht.1]
        simp only [h.tags x (by simp), if_true, h.valid t (by simp)]
        exact ih texts _ ⟨ht.2, fun v hv => h.tags v (by simp [hv]), fun t ht => h.valid t (by simp [ht])⟩
  obtain ⟨w, h1, h2⟩ := hc
  unfold command
  rw [hm]
  simp only [h1, h2]
  rw [hl, key a texts [] hf]
  rcases hk with rfl | rfl
  · simp
  · have e1 : ¬ cmdUnsubscribe = cmdSubscribe := by decide
    simp [e1]

example : command { topic := none, force := false, prepend := false, retainTag := none, method := .plain, qos := 0, v5 := true, isCommand := fun _ => true, validFilter := fun _ => true } []
    { topic := [], array := some [⟨tagCommand, some cmdSubscribe, 0⟩, ⟨tagFilter, some [97], 0⟩, ⟨[120], some [98], 0⟩], data := [] } = .fault := by decide

example : command { topic := none, force := false, prepend := false, retainTag := none, method := .plain, qos := 0, v5 := false, isCommand := fun _ => true, validFilter := fun _ => true } [[97], [98]]
    { topic := [], array := some [⟨tagCommand, some cmdUnsubscribe, 0⟩, ⟨tagFilter, some [97], 0⟩], data := [] } = .ok ([[98]], some (.unsubscribe [[97]])) := by decide

/-! ## The queue -/

/-- What holds of the module. -/
structure Good (c : Conf) (s : State) (arrived : List Msg) : Prop where
  discard : s.discard = false
  order : s.handled ++ s.queue = arrived
  sent : s.sent = s.handled.filterMap (packet c)

theorem handle_ok (c : Conf) (a : Ans) (s s' : State) (m : Msg) (h : handle c a s m = .ok s') :
    s'.queue = s.queue ∧ s'.handled = s.handled ∧ s'.discard = s.discard ∧ s'.sent = s.sent ++ (packet c m).toList := by
  unfold handle at h
  unfold packet
  split at h
  · rename_i hi
    rw [if_pos hi]
    split at h
    · cases h
    · cases h
    · split at h <;> cases h
      exact ⟨rfl, rfl, rfl, by simp⟩
  · rename_i hi
    rw [if_neg hi]
    split at h
    · cases h
    · rename_i hp; cases h; rw [hp]; exact ⟨rfl, rfl, rfl, by simp⟩
    · rename_i p hp
      rw [hp]
      split at h
      · cases h
      · cases h; exact ⟨rfl, rfl, rfl, rfl⟩

theorem handle_fail (c : Conf) (a : Ans) (s s' : State) (m : Msg) (h : handle c a s m = .fail s') :
    s'.queue = s.queue ∧ s'.handled = s.handled ∧ s'.discard = s.discard ∧ s'.sent = s.sent := by
  unfold handle at h
  split at h
  · split at h
    · cases h
    · cases h; exact ⟨rfl, rfl, rfl, rfl⟩
    · split at h <;> cases h <;> exact ⟨rfl, rfl, rfl, rfl⟩
  · split at h
    · cases h
    · cases h
    · split at h
      · cases h; exact ⟨rfl, rfl, rfl, rfl⟩
      · cases h

theorem queue_good (c : Conf) (env : Nat → Ans) (k : Nat) (s : State) (q : List Msg) (arrived : List Msg)
    (hd : s.discard = false) (ho : s.handled ++ q = arrived) (hs : s.sent = s.handled.filterMap (packet c)) :
    (∀ s', processQueue c env k s q = .ok s' → Good c s' arrived ∧ s'.queue = []) ∧ (∀ s', processQueue c env k s q = .fail s' → Good c s' arrived) := by
  induction q generalizing k s with
  | nil =>
    refine ⟨?_, ?_⟩
    · intro s' h; cases h; exact ⟨⟨hd, ho, hs⟩, rfl⟩
    · intro s' h; cases h
  | cons m r ih =>
    unfold processQueue
    cases hh : handle c (env k) s m with
    | crash => exact ⟨fun s' h => (by cases h), fun s' h => (by cases h)⟩
    | fail s1 =>
      obtain ⟨_, h2, h3, h4⟩ := handle_fail c (env k) s s1 m hh
      refine ⟨fun s' h => (by cases h), fun s' h => ?_⟩
      cases h
      exact ⟨by rw [← hd, ← h3], by simp only [h2]; exact ho, by simp only [h4, h2]; exact hs⟩
    | ok s1 =>
      obtain ⟨_, h2, h3, h4⟩ := handle_ok c (env k) s s1 m hh
      exact ih (k + 1) { s1 with handled := s1.handled ++ [m] } (by rw [← hd, ← h3])
        (by simp only [h2, List.append_assoc, List.cons_append, List.nil_append]; exact ho)
        (by
          simp only [h4, h2, List.filterMap_append, hs]
          congr 1)

theorem step_arrive (c : Conf) (s : State) (m : Msg) (env : Nat → Ans) (h : s.discard = false) :
    step c s (.arrive m env) = if s.disabled = true then .ok { s with queue := s.queue ++ [m] } else processQueue c env 0 { s with queue := s.queue ++ [m] } (s.queue ++ [m]) := by
  simp only [step]
  rw [if_neg (by rw [h]; decide)]

theorem step_good (c : Conf) (s : State) (o : Op) (arrived : List Msg) (h : Good c s arrived) (hk : Keeping [o]) :
    (∀ s', step c s o = .ok s' → Good c s' (arrived ++ arrivals [o])) ∧ (∀ s', step c s o = .fail s' → Good c s' (arrived ++ arrivals [o])) := by
  cases o with
  | arrive m env =>
    have ho : s.handled ++ (s.queue ++ [m]) = arrived ++ [m] := by rw [← List.append_assoc, h.order]
    rw [step_arrive c s m env h.discard]
    simp only [arrivals]
    by_cases hd : s.disabled = true
    · rw [if_pos hd]
      exact ⟨fun s' e => (by cases e; exact ⟨h.discard, ho, h.sent⟩), fun s' e => (by cases e)⟩
    · rw [if_neg hd]
      have := queue_good c env 0 { s with queue := s.queue ++ [m] } (s.queue ++ [m]) (arrived ++ [m]) h.discard ho h.sent
      exact ⟨fun s' e => (this.1 s' e).1, this.2⟩
  | periodic =>
    simp only [step, arrivals, List.append_nil]
    exact ⟨fun s' e => by cases e; exact ⟨h.discard, h.order, h.sent⟩, fun s' e => by cases e⟩
  | connecting =>
    simp only [step, arrivals, List.append_nil]
    exact ⟨fun s' e => by cases e; exact ⟨h.discard, h.order, h.sent⟩, fun s' e => by cases e⟩
  | connected env =>
    simp only [step, arrivals, List.append_nil]
    have := queue_good c env 0 { s with disabled := false } s.queue arrived h.discard h.order h.sent
    exact ⟨fun s' e => (this.1 s' e).1, this.2⟩
  | discard on =>
    cases on with
    | true => exact absurd hk (by simp [Keeping])
    | false =>
      simp only [step, arrivals, List.append_nil]
      exact ⟨fun s' e => by cases e; exact ⟨rfl, h.order, h.sent⟩, fun s' e => by cases e⟩

theorem keeping_cons (o : Op) (r : List Op) (h : Keeping (o :: r)) : Keeping [o] ∧ Keeping r := by
  cases o with
  | discard on => cases on <;> simp_all [Keeping]
  | _ => exact ⟨trivial, h⟩

theorem arrivals_cons (o : Op) (r : List Op) : arrivals (o :: r) = arrivals [o] ++ arrivals r := by
  cases o <;> rfl

theorem run_good (c : Conf) (ops : List Op) (s s' : State) (arrived : List Msg) (h : Good c s arrived) (hk : Keeping ops) (hr : run c s ops = some s') :
    Good c s' (arrived ++ arrivals ops) := by
  induction ops generalizing s arrived with
  | nil => cases hr; simpa [arrivals] using h
  | cons o r ih =>
    obtain ⟨k1, k2⟩ := keeping_cons o r hk
    rw [arrivals_cons, ← List.append_assoc]
    have hg := step_good c s o arrived h k1
    unfold run at hr
    cases hs : step c s o with
    | crash => rw [hs] at hr; cases hr
    | fail s1 => rw [hs] at hr; exact ih s1 _ (hg.2 s1 hs) k2 hr
    | ok s1 => rw [hs] at hr; exact ih s1 _ (hg.1 s1 hs) k2 hr

/-- **C153, partial.** For every history without discarding which does not crash, messages are handled once and in order, those not handled wait in order, and exactly the packets of handled messages which are not commands
are given to the session, in order. -/
theorem in_order_partial (c : Conf) (ops : List Op) (s : State) (hk : Keeping ops) (hr : run c {} ops = some s) :
    s.handled ++ s.queue = arrivals ops ∧ s.sent = s.handled.filterMap (packet c) := by
  have := run_good c ops {} s [] ⟨rfl, rfl, rfl⟩ hk hr
  exact ⟨by simpa using this.order, this.sent⟩

/-- **C153.** When sending is not disabled and nothing fails, a message which arrives and all which wait before it are handled at once. -/
theorem arrival_handles (c : Conf) (s s' : State) (m : Msg) (env : Nat → Ans) (arrived : List Msg) (h : Good c s arrived) (hd : s.disabled = false) (hs : step c s (.arrive m env) = .ok s') :
    s'.queue = [] ∧ s'.handled = arrived ++ [m] := by
  rw [step_arrive c s m env h.discard, if_neg (by rw [hd]; decide)] at hs
  have ho : s.handled ++ (s.queue ++ [m]) = arrived ++ [m] := by rw [← List.append_assoc, h.order]
  obtain ⟨h1, h2⟩ := (queue_good c env 0 { s with queue := s.queue ++ [m] } (s.queue ++ [m]) (arrived ++ [m]) h.discard ho h.sent).1 s' hs
  exact ⟨h2, by have := h1.order; rw [h2, List.append_nil] at this; exact this⟩

/-- **C153.** Not holding: a message which arrives while sending is disabled is not handled when sending is enabled again. It waits, however many periodic events there are, until another message arrives or the connection is made again. -/
theorem waits_for_next (c : Conf) (s : State) (m : Msg) (env : Nat → Ans) (n : Nat) (hd : s.disabled = true) (hn : s.discard = false) :
    run c s (.arrive m env :: List.replicate (n + 1) .periodic) = some { s with queue := s.queue ++ [m], disabled := false } := by
  have key : ∀ (n : Nat) (t : State), run c t (List.replicate (n + 1) .periodic) = some { t with disabled := false } := by
    intro n
    induction n with
    | zero => intro t; rfl
    | succ n ih =>
      intro t
      rw [List.replicate_succ]
      simp only [run, step]
      rw [ih]
  simp only [run, step, hn, hd, Bool.false_eq_true, if_false, if_true]
  rw [key]

/-- **C153.** Not holding: while messages are discarded, twice as many are noted as there are. -/
theorem discard_count (c : Conf) (l : List Msg) (env : Nat → Ans) (s : State) (hd : s.discard = true) (hq : s.queue = []) :
    run c s (l.map (fun m => .arrive m env)) = some { s with discarded := s.discarded + 2 * l.length } := by
  induction l generalizing s with
  | nil => simp [run]
  | cons m l ih =>
    simp only [List.map_cons, run, step, hd, if_true, hq, List.nil_append, List.length_singleton]
    rw [ih _ rfl rfl]
    simp only [List.length_cons, hd, hq]
    congr 2
    omega

example : (run { topic := some [116], force := false, prepend := false, retainTag := none, method := .plain, qos := 1, v5 := true, isCommand := fun _ => false, validFilter := fun _ => true } {}
    [.arrive ⟨[97], none, [1]⟩ (fun _ => ⟨false, false⟩), .connected (fun _ => ⟨false, false⟩), .arrive ⟨[], none, [2]⟩ (fun _ => ⟨true, false⟩), .connected (fun _ => ⟨false, true⟩)]).map (fun s => (s.sent, s.queue.length, s.disabled)) =
    some ([⟨[97], 1, false, none, some (.data [1])⟩, ⟨[116], 1, false, none, some (.data [2])⟩], 0, true) := by decide

end Verif.MqttClient
