import Verif.SendLoop.Model
/-!
# C106: the send loop keeps order and loses nothing
-/
namespace Verif.SendLoop
open Verif

/-! ## Sorting -/

theorem smallest_mem (m : Entry) (l : List Entry) : smallest m l = m ∨ smallest m l ∈ l := by
  induction l generalizing m with
  | nil => exact Or.inl rfl
  | cons e r ih =>
    rw [smallest]
    rcases ih (if e.index < m.index then e else m) with h | h
    · rw [h]
      split
      · exact Or.inr (List.mem_cons_self ..)
      · exact Or.inl rfl
    · exact Or.inr (List.mem_cons_of_mem _ h)

theorem smallest_le (m : Entry) (l : List Entry) : (smallest m l).index ≤ m.index ∧ ∀ x ∈ l, (smallest m l).index ≤ x.index := by
  induction l generalizing m with
  | nil => exact ⟨Nat.le_refl _, fun x h => by cases h⟩
  | cons e r ih =>
    rw [smallest]
    obtain ⟨h1, h2⟩ := ih (if e.index < m.index then e else m)
    have h3 : (if e.index < m.index then e else m).index ≤ m.index ∧ (if e.index < m.index then e else m).index ≤ e.index := by
      split <;> omega
    refine ⟨by omega, ?_⟩
    intro x hx
    cases hx with
    | head => omega
    | tail _ hx => exact h2 x hx

theorem smallest_self (e : Entry) (r : List Entry) : smallest e (e :: r) ∈ e :: r := by
  rcases smallest_mem e (e :: r) with h | h
  · rw [h]; exact List.mem_cons_self ..
  · exact h

theorem sort_perm (n : Nat) (l : List Entry) (h : l.length ≤ n) : (sort n l).Perm l := by
  induction n generalizing l with
  | zero =>
    have : l = [] := List.length_eq_zero_iff.mp (by omega)
    subst this; exact List.Perm.refl _
  | succ n ih =>
    cases l with
    | nil => exact List.Perm.refl _
    | cons e r =>
      rw [sort]
      have hm := smallest_self e r
      have hl : ((e :: r).erase (smallest e (e :: r))).length ≤ n := by
        rw [List.length_erase_of_mem hm]; simp only [List.length_cons] at h ⊢; omega
      exact ((ih _ hl).cons _).trans (List.perm_cons_erase hm).symm

theorem sort_sorted (n : Nat) (l : List Entry) (h : l.length ≤ n) : (sort n l).Pairwise (fun a b => a.index ≤ b.index) := by
  induction n generalizing l with
  | zero => exact List.Pairwise.nil
  | succ n ih =>
    cases l with
    | nil => exact List.Pairwise.nil
    | cons e r =>
      rw [sort]
      have hm := smallest_self e r
      have hl : ((e :: r).erase (smallest e (e :: r))).length ≤ n := by
        rw [List.length_erase_of_mem hm]; simp only [List.length_cons] at h ⊢; omega
      refine List.Pairwise.cons ?_ (ih _ hl)
      intro x hx
      exact (smallest_le e (e :: r)).2 x (List.mem_of_mem_erase ((sort_perm n _ hl).mem_iff.mp hx))

theorem order_perm (c : Params) (l : List Entry) : (order c l).Perm l := by
  unfold order
  split
  · exact sort_perm _ _ (Nat.le_refl _)
  · exact List.Perm.refl _

/-! ## One run -/

theorem runLoop_perm (c : Params) (o : Entry → Turn) (l : List Entry) : ((runLoop c o l).1 ++ (runLoop c o l).2.1.map (·.1)).Perm l := by
  induction l with
  | nil => exact List.Perm.refl _
  | cons e r ih =>
    rw [runLoop]
    split
    · split
      · exact List.perm_append_comm
      · simp
    · split
      · exact List.perm_middle.trans (ih.cons _)
      · exact ih.cons _

theorem fated_split (l : List (Entry × Fate)) : ((fated (· == .handed) l).map (·.1) ++ (fated (· != .handed) l).map (·.1)).Perm (l.map (·.1)) := by
  induction l with
  | nil => exact List.Perm.refl _
  | cons x r ih =>
    unfold fated at *
    cases h : x.2 == Fate.handed with
    | true =>
      rw [List.filter_cons_of_pos (p := fun x : Entry × Fate => x.2 == .handed) h, List.filter_cons_of_neg (p := fun x : Entry × Fate => x.2 != .handed) (by simp [bne, h])]
      exact ih.cons _
    | false =>
      rw [List.filter_cons_of_neg (p := fun x : Entry × Fate => x.2 == .handed) (by simp [h]), List.filter_cons_of_pos (p := fun x : Entry × Fate => x.2 != .handed) (by simp [bne, h])]
      exact List.perm_middle.trans (ih.cons _)

/-- The indexes of all messages the loop knows of: queued, held by the callback, finished, dropped or returned. -/
def State.all (s : State) : List Nat := s.queue.map (·.index) ++ s.held.map (·.index) ++ s.done.map (·.index) ++ s.gone.map (·.1.index)

theorem all_giveBack (s : State) (e : Entry) : (s.giveBack e).all.Perm s.all ∧ (s.giveBack e).counter = s.counter := by
  unfold State.giveBack
  split
  · rename_i h
    refine ⟨?_, rfl⟩
    have hp := (List.perm_cons_erase h).map (fun x : Entry => x.index)
    have hc := fun i => List.perm_iff_count.mp hp i
    refine List.perm_iff_count.mpr (fun i => ?_)
    have := hc i
    simp only [State.all, List.map_cons, List.count_append, List.count_cons] at this ⊢
    omega
  · exact ⟨List.Perm.refl _, rfl⟩

theorem all_finish (s : State) (e : Entry) : (s.finish e).all.Perm s.all ∧ (s.finish e).counter = s.counter := by
  unfold State.finish
  split
  · rename_i h
    refine ⟨?_, rfl⟩
    have hp := (List.perm_cons_erase h).map (fun x : Entry => x.index)
    refine List.perm_iff_count.mpr (fun i => ?_)
    have := List.perm_iff_count.mp hp i
    simp only [State.all, List.map_cons, List.map_append, List.map_nil, List.count_append, List.count_cons, List.count_nil] at this ⊢
    omega
  · exact ⟨List.Perm.refl _, rfl⟩

theorem all_run (c : Params) (o : Entry → Turn) (s : State) : (s.run c o).all.Perm s.all := by
  have h1 := ((runLoop_perm c o (order c s.queue)).trans (order_perm c s.queue)).map (fun x : Entry => x.index)
  have h2 := (fated_split (runLoop c o (order c s.queue)).2.1).map (fun x : Entry => x.index)
  refine List.perm_iff_count.mpr (fun i => ?_)
  have h1 := List.perm_iff_count.mp h1 i
  have h2 := List.perm_iff_count.mp h2 i
  have e : ∀ l : List (Entry × Fate), l.map (fun x => x.1.index) = (l.map (·.1)).map (fun x : Entry => x.index) := fun l => by simp
  simp only [State.all, State.run, e, List.map_append, List.count_append] at h1 h2 ⊢
  omega

theorem touch_index (p : Entry → Bool) (now : UInt64) (l : List Entry) : (touch p now l).map (·.index) = l.map (·.index) := by
  unfold touch
  rw [List.map_map]
  refine List.map_congr_left (fun e _ => ?_)
  show (if p e then { e with time := now } else e).index = e.index
  split <;> rfl

theorem all_step (c : Params) (s : State) (e : Ev) (h : s.all.Perm (List.range' 1 s.counter)) : (step c s e).all.Perm (List.range' 1 (step c s e).counter) := by
  cases e with
  | arrive stamp now =>
    show (s.arrive stamp now).all.Perm (List.range' 1 (s.counter + 1))
    rw [List.range'_1_concat]
    refine List.perm_iff_count.mpr (fun i => ?_)
    have := List.perm_iff_count.mp h i
    simp only [State.all, State.arrive, List.map_append, List.map_cons, List.map_nil, List.count_append, Nat.add_comm 1] at this ⊢
    omega
  | run o => exact (all_run c o s).trans h
  | periodic =>
    show (if s.queue.length > 0 then { s with pending := true } else s).all.Perm (List.range' 1 (if s.queue.length > 0 then { s with pending := true } else s).counter)
    split <;> exact h
  | giveBack e => exact (by rw [show step c s (.giveBack e) = s.giveBack e from rfl, (all_giveBack s e).2]; exact (all_giveBack s e).1.trans h)
  | giveBackIf e now =>
    show (if check c now e = .none then s else s.giveBack e).all.Perm (List.range' 1 (if check c now e = .none then s else s.giveBack e).counter)
    split
    · exact h
    · rw [(all_giveBack s e).2]; exact (all_giveBack s e).1.trans h
  | finish e => exact (by rw [show step c s (.finish e) = s.finish e from rfl, (all_finish s e).2]; exact (all_finish s e).1.trans h)
  | touch p now =>
    show (State.all { s with queue := touch p now s.queue, held := touch p now s.held }).Perm (List.range' 1 s.counter)
    unfold State.all at h ⊢
    rw [touch_index, touch_index]
    exact h

theorem steps_append (c : Params) (s : State) (a b : List Ev) : steps c s (a ++ b) = steps c (steps c s a) b := List.foldl_append

/-- C106: whatever happens, each message which has arrived is at exactly one place: it is queued, held by the callback, finished, or dropped or returned; and it is there once. -/
theorem accounted (c : Params) (h : List Ev) : (steps c .new h).all.Perm (List.range' 1 (steps c .new h).counter) := by
  have : ∀ (l : List Ev) (s : State), s.all.Perm (List.range' 1 s.counter) → (steps c s l).all.Perm (List.range' 1 (steps c s l).counter) := by
    intro l
    induction l with
    | nil => exact fun _ h => h
    | cons e r ih => exact fun s h => ih _ (all_step c s e h)
  exact this h .new (List.Perm.refl _)

/-! ## Order -/

/-- The parameters let an entry stay in the loop only if the callback is not ready: checked by the module ip (p_ip.c:387-398). -/
def Params.sane (c : Params) : Prop := c.timeout = 0 ∨ c.action ≠ .retry

theorem turn_stays {c : Params} (hp : c.preserve = true) (hs : c.sane) (t : Turn) (e : Entry) (h : (turn c t e).1 = none) : (turn c t e).2.1 = true := by
  unfold turn at h ⊢
  cases hc : check c t.now e with
  | ttl => simp [hc] at h
  | timeout =>
    simp only [hc] at h ⊢
    cases ha : c.action with
    | retry =>
      exfalso
      rcases hs with h0 | h0
      · unfold check at hc
        rw [h0] at hc
        split at hc
        · cases hc
        · simp at hc
      · exact h0 ha
    | drop => simp [ha] at h
    | ret => simp [ha] at h
  | none =>
    simp only [hc] at h ⊢
    cases hq : t.push <;> simp [hq] at h ⊢
    exact hp

/-- With preserved order the entries which leave are the first ones. -/
theorem runLoop_prefix {c : Params} (hp : c.preserve = true) (hs : c.sane) (o : Entry → Turn) (l : List Entry) : (runLoop c o l).2.1.map (·.1) ++ (runLoop c o l).1 = l := by
  induction l with
  | nil => rfl
  | cons e r ih =>
    rw [runLoop]
    split
    · split
      · rfl
      · rfl
    · rename_i h
      split
      · show e :: ((runLoop c o r).2.1.map (·.1) ++ (runLoop c o r).1) = _
        rw [ih]
      · rename_i hn
        exact absurd (turn_stays hp hs _ _ hn) h

theorem nodup_all (c : Params) (h : List Ev) : (steps c .new h).all.Nodup := (accounted c h).nodup_iff.mpr (List.nodup_range' (step := 1))

theorem sorted_strict {l : List Entry} (h : l.Pairwise (fun a b => a.index ≤ b.index)) (hn : (l.map (·.index)).Nodup) : l.Pairwise (fun a b => a.index < b.index) := by
  have hn : l.Pairwise (fun a b => a.index ≠ b.index) := List.pairwise_map.mp hn
  refine (h.and hn).imp ?_
  rintro a b ⟨h1, h2⟩
  omega

theorem queue_strict (c : Params) (hp : c.preserve = true) (s : State) (hn : s.all.Nodup) : (order c s.queue).Pairwise (fun a b => a.index < b.index) := by
  refine sorted_strict ?_ ?_
  · unfold order; rw [if_pos hp]; exact sort_sorted _ _ (Nat.le_refl _)
  · have h1 : (s.queue.map (·.index)).Nodup := by
      unfold State.all at hn
      rw [List.append_assoc, List.append_assoc] at hn
      exact (List.nodup_append.mp hn).1
    exact ((order_perm c s.queue).map (·.index)).nodup_iff.mpr h1

/-- What is handed over in a run. -/
def handedIn (c : Params) (s : State) (o : Entry → Turn) : List Entry := (s.run c o).sent.drop s.sent.length

theorem handedIn_eq (c : Params) (s : State) (o : Entry → Turn) : handedIn c s o = (fated (· == .handed) (runLoop c o (order c s.queue)).2.1).map (·.1) := by
  unfold handedIn State.run
  exact List.drop_left

theorem handed_sublist (c : Params) (s : State) (o : Entry → Turn) : (handedIn c s o).Sublist ((runLoop c o (order c s.queue)).2.1.map (·.1)) := by
  rw [handedIn_eq]
  exact (List.filter_sublist).map _

/-- C106: if order is to be preserved, then in each run messages are handed over in the order in which they arrived, and none is handed over before one which stays in the queue and arrived earlier: whatever has been given back before, and
whatever the callback answers. -/
theorem order_preserved (c : Params) (hp : c.preserve = true) (hs : c.sane) (h : List Ev) (o : Entry → Turn) :
    ((steps c .new (h ++ [.run o])).sent.drop (steps c .new h).sent.length).Pairwise (fun a b => a.index < b.index) ∧
    ∀ a ∈ (steps c .new (h ++ [.run o])).sent.drop (steps c .new h).sent.length, ∀ b ∈ (steps c .new (h ++ [.run o])).queue, a.index < b.index := by
  have e : steps c .new (h ++ [.run o]) = (steps c .new h).run c o := by rw [steps_append]; rfl
  have hn := nodup_all c h
  rw [e]
  generalize steps c .new h = s at *
  have hq := queue_strict c hp s hn
  rw [← runLoop_prefix hp hs o (order c s.queue)] at hq
  obtain ⟨h1, h2, h3⟩ := List.pairwise_append.mp hq
  have hsub := handed_sublist c s o
  exact ⟨h1.sublist hsub, fun a ha b hb => h3 a (hsub.subset ha) b hb⟩

/-- No message is given back. -/
def noGiveBack (h : List Ev) : Prop := ∀ x ∈ h, (∀ e, x ≠ .giveBack e) ∧ ∀ e now, x ≠ .giveBackIf e now

structure Ordered (s : State) : Prop where
  sent : s.sent.Pairwise (fun a b => a.index < b.index)
  before : ∀ a ∈ s.sent, ∀ b ∈ s.queue, a.index < b.index
  bound : (∀ a ∈ s.sent, a.index ≤ s.counter) ∧ ∀ b ∈ s.queue, b.index ≤ s.counter
  nodup : (s.queue.map (·.index)).Nodup

theorem ordered_step {c : Params} (hp : c.preserve = true) (hs : c.sane) {s : State} (ho : Ordered s) (x : Ev) (hx : (∀ e, x ≠ .giveBack e) ∧ ∀ e now, x ≠ .giveBackIf e now) : Ordered (step c s x) := by
  cases x with
  | giveBack e => exact absurd rfl (hx.1 e)
  | giveBackIf e now => exact absurd rfl (hx.2 e now)
  | arrive stamp now =>
    refine ⟨ho.sent, ?_, ⟨fun a ha => Nat.le_succ_of_le (ho.bound.1 a ha), ?_⟩, ?_⟩
    · intro a ha b hb
      rcases List.mem_append.mp hb with hb | hb
      · exact ho.before a ha b hb
      · rw [List.mem_singleton.mp hb]
        exact Nat.lt_succ_of_le (ho.bound.1 a ha)
    · intro b hb
      rcases List.mem_append.mp hb with hb | hb
      · exact Nat.le_succ_of_le (ho.bound.2 b hb)
      · rw [List.mem_singleton.mp hb]; exact Nat.le_refl _
    · show ((s.queue ++ ([⟨s.counter + 1, now, stamp⟩] : List Entry)).map (·.index)).Nodup
      rw [List.map_append]
      refine List.nodup_append.mpr ⟨ho.nodup, by simp, ?_⟩
      intro i hi j hj
      obtain ⟨b, hb, rfl⟩ := List.mem_map.mp hi
      simp only [List.map_cons, List.map_nil, List.mem_singleton] at hj
      have := ho.bound.2 b hb
      omega
  | run o =>
    have hq : (order c s.queue).Pairwise (fun a b => a.index < b.index) :=
      sorted_strict (by unfold order; rw [if_pos hp]; exact sort_sorted _ _ (Nat.le_refl _)) (((order_perm c s.queue).map (·.index)).nodup_iff.mpr ho.nodup)
    have hmem : ∀ x, x ∈ order c s.queue ↔ x ∈ s.queue := fun x => (order_perm c s.queue).mem_iff
    have hpre := runLoop_prefix hp hs o (order c s.queue)
    rw [← hpre] at hq
    obtain ⟨h1, h2, h3⟩ := List.pairwise_append.mp hq
    have hsub : ((fated (· == .handed) (runLoop c o (order c s.queue)).2.1).map (·.1)).Sublist ((runLoop c o (order c s.queue)).2.1.map (·.1)) := (List.filter_sublist).map _
    have hin : ∀ x ∈ (runLoop c o (order c s.queue)).2.1.map (·.1), x ∈ s.queue := fun x hx => (hmem x).mp (by rw [← hpre]; exact List.mem_append_left _ hx)
    have hin' : ∀ x ∈ (runLoop c o (order c s.queue)).1, x ∈ s.queue := fun x hx => (hmem x).mp (by rw [← hpre]; exact List.mem_append_right _ hx)
    refine ⟨?_, ?_, ⟨?_, ?_⟩, ?_⟩
    · show (s.sent ++ _).Pairwise _
      refine List.pairwise_append.mpr ⟨ho.sent, h1.sublist hsub, ?_⟩
      intro a ha b hb
      exact ho.before a ha b (hin b (hsub.subset hb))
    · intro a ha b hb
      rcases List.mem_append.mp ha with ha | ha
      · exact ho.before a ha b (hin' b hb)
      · exact h3 a (hsub.subset ha) b hb
    · intro a ha
      rcases List.mem_append.mp ha with ha | ha
      · exact ho.bound.1 a ha
      · exact ho.bound.2 a (hin a (hsub.subset ha))
    · exact fun b hb => ho.bound.2 b (hin' b hb)
    · exact List.pairwise_map.mpr (h2.imp (fun h => Nat.ne_of_lt h))
  | periodic =>
    show Ordered (if s.queue.length > 0 then { s with pending := true } else s)
    split
    · exact ⟨ho.sent, ho.before, ho.bound, ho.nodup⟩
    · exact ho
  | finish e =>
    show Ordered (s.finish e)
    unfold State.finish
    split
    · exact ⟨ho.sent, ho.before, ho.bound, ho.nodup⟩
    · exact ho
  | touch p now =>
    have ht : ∀ b ∈ touch p now s.queue, ∃ b' ∈ s.queue, b.index = b'.index := by
      intro b hb
      obtain ⟨b', hb', e⟩ := List.mem_map.mp hb
      exact ⟨b', hb', by rw [← e]; split <;> rfl⟩
    refine ⟨ho.sent, ?_, ⟨ho.bound.1, ?_⟩, ?_⟩
    · intro a ha b hb
      obtain ⟨b', hb', e⟩ := ht b hb
      rw [e]; exact ho.before a ha b' hb'
    · intro b hb
      obtain ⟨b', hb', e⟩ := ht b hb
      rw [e]; exact ho.bound.2 b' hb'
    · show ((touch p now s.queue).map (·.index)).Nodup
      rw [touch_index]; exact ho.nodup

/-- C106: if order is to be preserved and the callback gives nothing back, then all messages are handed over in the order in which they arrived, over all runs. -/
theorem order_preserved_all (c : Params) (hp : c.preserve = true) (hs : c.sane) (h : List Ev) (hg : noGiveBack h) :
    (steps c .new h).sent.Pairwise (fun a b => a.index < b.index) := by
  have : ∀ (l : List Ev) (s : State), noGiveBack l → Ordered s → Ordered (steps c s l) := by
    intro l
    induction l with
    | nil => exact fun _ _ h => h
    | cons x r ih => exact fun s hl ho => ih _ (fun y hy => hl y (List.mem_cons_of_mem _ hy)) (ordered_step hp hs ho x (hl x (List.mem_cons_self ..)))
  exact (this h .new hg ⟨List.Pairwise.nil, (fun a ha => by cases ha), ⟨(fun a ha => by cases ha), (fun a ha => by cases ha)⟩, List.nodup_nil⟩).sent

/-! ## Reasons -/

theorem runLoop_reason (c : Params) (o : Entry → Turn) (l : List Entry) : ∀ x ∈ (runLoop c o l).2.1, (turn c (o x.1) x.1).1 = some x.2 := by
  induction l with
  | nil => intro x hx; cases hx
  | cons e r ih =>
    rw [runLoop]
    split
    · split
      · rename_i f hf
        intro x hx
        rw [List.mem_singleton.mp hx]; exact hf
      · intro x hx; cases hx
    · split
      · rename_i f hf
        intro x hx
        cases hx with
        | head => exact hf
        | tail _ hx => exact ih x hx
      · exact ih

/-- An entry is too old: its TTL is over. In natural numbers. -/
def Expired (c : Params) (now : UInt64) (e : Entry) : Prop := c.ttl ≠ 0 ∧ e.stamp.toNat + c.ttl.toNat < now.toNat

/-- An entry has timed out. -/
def TimedOut (c : Params) (now : UInt64) (e : Entry) : Prop := c.timeout ≠ 0 ∧ e.time ≠ 0 ∧ e.time.toNat + c.timeout.toNat < now.toNat

theorem ttlOk_iff (stamp now ttl : UInt64) : ttlOk stamp now ttl = false ↔ stamp.toNat + ttl.toNat < now.toNat := by
  unfold ttlOk
  by_cases h : ttl > now
  · rw [if_pos h]
    have : now.toNat < ttl.toNat := UInt64.lt_iff_toNat_lt.mp h
    constructor
    · intro h; cases h
    · intro h; omega
  · rw [if_neg h]
    have hle : ttl ≤ now := UInt64.not_lt.mp h
    have h1 : ttl.toNat ≤ now.toNat := UInt64.le_iff_toNat_le.mp hle
    have h2 : (now - ttl).toNat = now.toNat - ttl.toNat := UInt64.toNat_sub_of_le _ _ hle
    by_cases h3 : stamp < now - ttl
    · rw [if_pos h3]
      have := UInt64.lt_iff_toNat_lt.mp h3
      rw [h2] at this
      constructor
      · intro _; omega
      · intro _; rfl
    · rw [if_neg h3]
      constructor
      · intro h; cases h
      · intro h4
        exfalso
        apply h3
        rw [UInt64.lt_iff_toNat_lt, h2]; omega

theorem check_ttl (c : Params) (now : UInt64) (e : Entry) : check c now e = .ttl ↔ Expired c now e := by
  unfold check Expired
  rw [← ttlOk_iff]
  by_cases h : c.ttl > 0
  · have h0 : c.ttl ≠ 0 := by rintro h1; rw [h1] at h; exact absurd h (by decide)
    cases ht : ttlOk e.stamp now c.ttl with
    | false => simp [h, h0]
    | true =>
      simp only [h]
      simp
      split <;> simp
  · have h0 : c.ttl = 0 := by
      have := UInt64.not_lt.mp h
      exact UInt64.le_zero_iff.mp this
    simp only [h0]
    simp
    split <;> simp

theorem check_timeout (c : Params) (now : UInt64) (e : Entry) (hn : c.timeout ≤ now) : check c now e = .timeout ↔ ¬ Expired c now e ∧ TimedOut c now e := by
  rw [← check_ttl]
  have h2 : (now - c.timeout).toNat = now.toNat - c.timeout.toNat := UInt64.toNat_sub_of_le _ _ hn
  have h3 : (c.timeout > 0 && (e.time > 0 && e.time < now - c.timeout)) = true ↔ TimedOut c now e := by
    unfold TimedOut
    have p : ∀ x : UInt64, (x > 0) ↔ x ≠ 0 := fun x => by
      rw [gt_iff_lt, UInt64.lt_iff_toNat_lt, Ne, ← UInt64.toNat_inj]
      show 0 < x.toNat ↔ ¬ x.toNat = 0
      omega
    have q : e.time < now - c.timeout ↔ e.time.toNat + c.timeout.toNat < now.toNat := by
      rw [UInt64.lt_iff_toNat_lt, h2]; omega
    simp only [Bool.and_eq_true, decide_eq_true_eq, p, q]
  unfold check
  split
  · simp
  · split
    · rename_i h; simp [h3.mp h]
    · rename_i h
      have hn : ¬ TimedOut c now e := fun x => h (h3.mpr x)
      simp [hn]

/-- C106: why a message leaves the queue in a run, as long as the timeout is not longer than the time since 1970: a message is handed over only if it is neither expired nor timed out, it is dropped because of its TTL exactly when it is expired, it is dropped or
returned because of the timeout only if it has timed out and this is the action asked for, and otherwise only after an error of the callback. -/
theorem reasons_partial (c : Params) (h : List Ev) (o : Entry → Turn) (hn : ∀ e, c.timeout ≤ (o e).now) (x : Entry × Fate)
    (hx : x ∈ (steps c .new (h ++ [.run o])).gone.drop (steps c .new h).gone.length ∨ (x.2 = .handed ∧ x.1 ∈ (steps c .new (h ++ [.run o])).sent.drop (steps c .new h).sent.length)) :
    (x.2 = .handed → ¬ Expired c (o x.1).now x.1 ∧ ¬ TimedOut c (o x.1).now x.1 ∧ (o x.1).push = .ok) ∧
    (x.2 = .ttl ↔ Expired c (o x.1).now x.1) ∧
    (x.2 = .timeout → TimedOut c (o x.1).now x.1 ∧ c.action = .drop) ∧
    (x.2 = .returned → TimedOut c (o x.1).now x.1 ∧ c.action = .ret) ∧
    (x.2 = .error → (o x.1).push = .soft ∨ (o x.1).push = .hard) := by
  have e : steps c .new (h ++ [.run o]) = (steps c .new h).run c o := by rw [steps_append]; rfl
  rw [e] at hx
  generalize steps c .new h = s at *
  have hx : x ∈ (runLoop c o (order c s.queue)).2.1 := by
    rcases hx with hx | ⟨h1, h2⟩
    · have : (s.run c o).gone.drop s.gone.length = fated (· != .handed) (runLoop c o (order c s.queue)).2.1 := List.drop_left
      rw [this] at hx
      exact (List.mem_filter.mp hx).1
    · have : (s.run c o).sent.drop s.sent.length = (fated (· == .handed) (runLoop c o (order c s.queue)).2.1).map (·.1) := List.drop_left
      rw [this] at h2
      obtain ⟨y, hy, e⟩ := List.mem_map.mp h2
      obtain ⟨hy1, hy2⟩ := List.mem_filter.mp hy
      have : y = x := Prod.ext e (by rw [h1]; exact eq_of_beq hy2)
      rw [← this]; exact hy1
  have ht := runLoop_reason c o _ x hx
  have c1 := check_ttl c (o x.1).now x.1
  have c2 := check_timeout c (o x.1).now x.1 (hn x.1)
  unfold turn at ht
  cases hc : check c (o x.1).now x.1 with
  | ttl =>
    have he := c1.mp hc
    simp only [hc, Option.some.injEq] at ht
    rw [← ht]
    simp [he]
  | timeout =>
    have he := c2.mp hc
    simp only [hc] at ht
    cases ha : c.action with
    | retry => simp [ha] at ht
    | drop => simp only [ha, Option.some.injEq] at ht; rw [← ht]; simp [he]
    | ret => simp only [ha, Option.some.injEq] at ht; rw [← ht]; simp [he]
  | none =>
    have he : ¬ Expired c (o x.1).now x.1 := fun h => by have := c1.mpr h; rw [hc] at this; cases this
    have ho : ¬ TimedOut c (o x.1).now x.1 := fun h => by have := c2.mpr ⟨he, h⟩; rw [hc] at this; cases this
    simp only [hc] at ht
    cases hq : (o x.1).push <;> simp only [hq, Option.some.injEq] at ht <;> first | (rw [← ht]; simp [he, ho]) | cases ht

/-! ## Something happens -/

/-- C106: as long as something is queued, the run event is waiting. -/
theorem pending_while_queued (c : Params) (h : List Ev) : (steps c .new h).queue ≠ [] → (steps c .new h).pending = true := by
  have key : ∀ (s : State) (x : Ev), (s.queue ≠ [] → s.pending = true) → ((step c s x).queue ≠ [] → (step c s x).pending = true) := by
    intro s x hs
    have gb : ∀ e, ((s.giveBack e).queue ≠ [] → (s.giveBack e).pending = true) := by
      intro e
      unfold State.giveBack
      split
      · exact fun _ => rfl
      · exact hs
    cases x with
    | arrive stamp now => exact fun _ => rfl
    | run o =>
      intro hq
      show (!(runLoop c o (order c s.queue)).1.isEmpty) = true
      have hq : (runLoop c o (order c s.queue)).1 ≠ [] := hq
      simpa using hq
    | periodic =>
      show (if s.queue.length > 0 then { s with pending := true } else s).queue ≠ [] → (if s.queue.length > 0 then { s with pending := true } else s).pending = true
      split
      · exact fun _ => rfl
      · exact hs
    | giveBack e => exact gb e
    | giveBackIf e now =>
      show (if check c now e = .none then s else s.giveBack e).queue ≠ [] → (if check c now e = .none then s else s.giveBack e).pending = true
      split
      · exact hs
      · exact gb e
    | finish e =>
      show (s.finish e).queue ≠ [] → (s.finish e).pending = true
      unfold State.finish
      split
      · exact hs
      · exact hs
    | touch p now =>
      intro hq
      apply hs
      intro h0
      apply hq
      show touch p now s.queue = []
      rw [h0]; rfl
  have : ∀ (l : List Ev) (s : State), (s.queue ≠ [] → s.pending = true) → ((steps c s l).queue ≠ [] → (steps c s l).pending = true) := by
    intro l
    induction l with
    | nil => exact fun _ h => h
    | cons x r ih => exact fun s hs => ih _ (key s x hs)
  exact this h .new (fun h => absurd rfl h)

/-- C106: messages leave no others behind. After a run in which the callback was ready for and did not fail for any message which is neither expired nor timed out, and in which messages which are timed out are dropped or
returned, nothing is left. -/
theorem nothing_left (c : Params) (h : List Ev) (o : Entry → Turn)
    (ho : ∀ e ∈ (steps c .new h).queue, (check c (o e).now e = .none → (o e).push = .ok ∨ (o e).push = .soft) ∧ (check c (o e).now e = .timeout → c.action = .drop ∨ (c.action = .ret ∧ (o e).retOk = true))) :
    (steps c .new (h ++ [.run o])).queue = [] := by
  have e : steps c .new (h ++ [.run o]) = (steps c .new h).run c o := by rw [steps_append]; rfl
  rw [e]
  generalize steps c .new h = s at *
  have key : ∀ l : List Entry, (∀ e ∈ l, (check c (o e).now e = .none → (o e).push = .ok ∨ (o e).push = .soft) ∧ (check c (o e).now e = .timeout → c.action = .drop ∨ (c.action = .ret ∧ (o e).retOk = true))) →
      (runLoop c o l).1 = [] := by
    intro l
    induction l with
    | nil => exact fun _ => rfl
    | cons x r ih =>
      intro hl
      obtain ⟨h1, h2⟩ := hl x (List.mem_cons_self ..)
      have ht : ∃ f, turn c (o x) x = (some f, false, false) := by
        unfold turn
        cases hc : check c (o x).now x with
        | ttl => exact ⟨_, rfl⟩
        | timeout =>
          rcases h2 hc with h | ⟨h, h'⟩
          · rw [h]; exact ⟨_, rfl⟩
          · rw [h, h']; exact ⟨_, rfl⟩
        | none =>
          rcases h1 hc with h | h <;> rw [h] <;> exact ⟨_, rfl⟩
      obtain ⟨f, ht⟩ := ht
      rw [runLoop, ht]
      exact ih (fun e he => hl e (List.mem_cons_of_mem _ he))
  exact key (order c s.queue) (fun e he => ho e ((order_perm c s.queue).mem_iff.mp he))

/-- C106: a hard error drops the message it is about, and only this one. -/
theorem hard_error_drops (c : Params) (h : List Ev) (o : Entry → Turn) (hq : (steps c .new h).queue ≠ [])
    (ho : ∀ e ∈ (steps c .new h).queue, (o e).push = .hard ∧ check c (o e).now e = .none) :
    ∃ e, (e :: (steps c .new (h ++ [.run o])).queue).Perm (steps c .new h).queue ∧ (steps c .new (h ++ [.run o])).gone = (steps c .new h).gone ++ [(e, .error)] := by
  have e : steps c .new (h ++ [.run o]) = (steps c .new h).run c o := by rw [steps_append]; rfl
  rw [e]
  generalize steps c .new h = s at *
  have hp := order_perm c s.queue
  obtain ⟨x, r, hr⟩ : ∃ x r, order c s.queue = x :: r := by
    cases ho : order c s.queue with
    | nil => rw [ho] at hp; exact absurd (hp.symm.eq_nil) hq
    | cons x r => exact ⟨x, r, rfl⟩
  obtain ⟨h1, h2⟩ := ho x (hp.mem_iff.mp (by rw [hr]; exact List.mem_cons_self ..))
  have ht : turn c (o x) x = (some .error, true, true) := by unfold turn; rw [h2]; simp only [h1]
  have hl : runLoop c o (x :: r) = (r, [(x, .error)], true) := by rw [runLoop, ht]; rfl
  refine ⟨x, ?_, ?_⟩
  · show (x :: (runLoop c o (order c s.queue)).1).Perm s.queue
    rw [hr, hl, ← hr]; exact hp
  · show s.gone ++ _ = _
    rw [hr, hl]; rfl

/-- C106: a run in which the callback takes all and nothing has expired or timed out hands over everything. -/
theorem all_handed (c : Params) (h : List Ev) (o : Entry → Turn) (ho : ∀ e ∈ (steps c .new h).queue, (o e).push = .ok ∧ check c (o e).now e = .none) :
    (steps c .new (h ++ [.run o])).queue = [] ∧ ((steps c .new (h ++ [.run o])).sent.drop (steps c .new h).sent.length).Perm (steps c .new h).queue := by
  have e : steps c .new (h ++ [.run o]) = (steps c .new h).run c o := by rw [steps_append]; rfl
  rw [e]
  generalize steps c .new h = s at *
  have key : ∀ l : List Entry, (∀ e ∈ l, (o e).push = .ok ∧ check c (o e).now e = .none) → runLoop c o l = ([], l.map (fun e => (e, Fate.handed)), false) := by
    intro l
    induction l with
    | nil => exact fun _ => rfl
    | cons x r ih =>
      intro hl
      obtain ⟨h1, h2⟩ := hl x (List.mem_cons_self ..)
      have ht : turn c (o x) x = (some .handed, false, false) := by unfold turn; rw [h2]; simp only [h1]
      rw [runLoop, ht, ih (fun e he => hl e (List.mem_cons_of_mem _ he))]
      rfl
  have hk := key (order c s.queue) (fun e he => ho e ((order_perm c s.queue).mem_iff.mp he))
  constructor
  · show (runLoop c o (order c s.queue)).1 = []
    rw [hk]
  · have : (s.run c o).sent.drop s.sent.length = (fated (· == .handed) (runLoop c o (order c s.queue)).2.1).map (·.1) := List.drop_left
    rw [this, hk]
    have : (fated (· == .handed) ((order c s.queue).map (fun e => (e, Fate.handed)))).map (·.1) = order c s.queue := by
      unfold fated
      rw [List.filter_eq_self.mpr]
      · rw [List.map_map]; exact List.map_id' _
      · intro x hx
        obtain ⟨e, _, rfl⟩ := List.mem_map.mp hx
        rfl
    rw [this]
    exact order_perm c s.queue

/-! ## Examples and violations -/

/-- Order is preserved, there is a timeout of 10 s after which messages are returned, and a TTL of 60 s. -/
def exParams : Params := ⟨true, 60000000, 10000000, .ret⟩

/-- Three messages; the callback takes the first, then is not ready; the first is given back; then it takes all, but the third has timed out. -/
def exHistory : List Ev := [.arrive 100000000 100000000, .arrive 100000000 100000001, .arrive 100000000 100000002, .run (fun e => ⟨100000005, if e.index = 1 then .ok else .notReady, true⟩), .giveBack ⟨1, 100000000, 100000000⟩]

example : (steps exParams .new exHistory).queue.map (·.index) = [1, 2, 3] ∧ (steps exParams .new exHistory).sent.map (·.index) = [1] := by decide +kernel
example : (steps exParams .new (exHistory ++ [.run (fun e => ⟨if e.index = 3 then 120000000 else 100000007, .ok, true⟩)])).sent.map (·.index) = [1, 1, 2] ∧
    (steps exParams .new (exHistory ++ [.run (fun e => ⟨if e.index = 3 then 120000000 else 100000007, .ok, true⟩)])).gone.map (fun x => (x.1.index, x.2)) = [(3, .returned)] := by decide +kernel
example : (steps exParams .new (exHistory ++ [.run (fun e => ⟨if e.index = 3 then 120000000 else 100000007, .soft, true⟩)])).queue = [] := by decide +kernel
example : (steps exParams .new (exHistory ++ [.run (fun _ => ⟨100000007, .hard, true⟩)])).queue.map (·.index) = [2, 3] ∧
    ∀ e ∈ (steps exParams .new exHistory).queue, check exParams 100000007 e = .none := by decide +kernel

/-- The parameters of the module file (p_file.c:2112-2124): order is preserved, and the timeout action is never set, so that it is 0. -/
def fileParams (timeout : UInt64) : Params := ⟨true, 0, timeout, .retry⟩

/-- C106 is violated in the module file: a message which was not written in time is not dropped, as the manual says, but stays in the queue for ever, without being written. -/
theorem file_timeout_kept (timeout : UInt64) (s : State) (e : Entry) (he : e ∈ s.queue) (h : List Ev) (hto : ∀ x ∈ h, ∀ o, x = .run o → ∀ e', timeout ≤ (o e').now ∧ TimedOut (fileParams timeout) (o e').now e)
    (htouch : ∀ x ∈ h, ∀ p now, x ≠ .touch p now) : e ∈ (steps (fileParams timeout) s h).queue := by
  induction h generalizing s with
  | nil => exact he
  | cons x r ih =>
    refine ih (step (fileParams timeout) s x) ?_ (fun y hy => hto y (List.mem_cons_of_mem _ hy)) (fun y hy => htouch y (List.mem_cons_of_mem _ hy))
    have gb : ∀ e', e ∈ (s.giveBack e').queue := by
      intro e'
      unfold State.giveBack
      split
      · exact List.mem_cons_of_mem _ he
      · exact he
    cases x with
    | arrive stamp now => exact List.mem_append_left _ he
    | run o =>
      have hr := hto (.run o) (List.mem_cons_self ..) o rfl e
      have hc : check (fileParams timeout) (o e).now e = .timeout := (check_timeout _ _ _ hr.1).mpr ⟨fun h => h.1 rfl, hr.2⟩
      have htn : turn (fileParams timeout) (o e) e = (none, false, false) := by unfold turn; rw [hc]; rfl
      have key : ∀ l : List Entry, e ∈ l → e ∈ (runLoop (fileParams timeout) o l).1 := by
        intro l
        induction l with
        | nil => intro h; cases h
        | cons y r ih =>
          intro hm
          rw [runLoop]
          cases hm with
          | head => rw [htn]; exact List.mem_cons_self ..
          | tail _ hm =>
            split
            · split
              · exact hm
              · exact List.mem_cons_of_mem _ hm
            · split
              · exact ih hm
              · exact List.mem_cons_of_mem _ (ih hm)
      exact key _ ((order_perm _ _).mem_iff.mpr he)
    | periodic =>
      show e ∈ (if s.queue.length > 0 then { s with pending := true } else s).queue
      split <;> exact he
    | giveBack e' => exact gb e'
    | giveBackIf e' now =>
      show e ∈ (if check (fileParams timeout) now e' = .none then s else s.giveBack e').queue
      split
      · exact he
      · exact gb e'
    | finish e' =>
      show e ∈ (s.finish e').queue
      unfold State.finish
      split <;> exact he
    | touch p now => exact absurd rfl (htouch _ (List.mem_cons_self ..) p now)

/-- And a later message is written before it, although order is to be preserved. -/
theorem file_timeout_overtaken : (steps (fileParams 1000) .new [.arrive 100000 100000, .run (fun _ => ⟨100010, .notReady, true⟩), .arrive 200000 200000, .run (fun _ => ⟨200001, .ok, true⟩)]).sent.map (·.index) = [2] ∧
    (steps (fileParams 1000) .new [.arrive 100000 100000, .run (fun _ => ⟨100010, .notReady, true⟩), .arrive 200000 200000, .run (fun _ => ⟨200001, .ok, true⟩)]).queue.map (·.index) = [1] := by decide +kernel

/-- C106 is violated with a timeout longer than the time since 1970: each message times out at once. -/
theorem long_timeout (c : Params) (hc : c.ttl = 0) (hd : c.action = .drop) (now : UInt64) (h0 : now ≠ 0) (ht : now < c.timeout) (o : Entry → Turn) (ho : ∀ e, (o e).now = now) :
    (steps c .new [.arrive now now, .run o]).gone = [(⟨1, now, now⟩, .timeout)] := by
  have h1 : c.timeout > 0 := UInt64.lt_of_le_of_lt (UInt64.le_iff_toNat_le.mpr (Nat.zero_le _)) ht
  have h2 : now > 0 := by
    rw [gt_iff_lt, UInt64.lt_iff_toNat_lt]
    have : now.toNat ≠ 0 := fun h => h0 (UInt64.toNat_inj.mp h)
    show 0 < now.toNat
    omega
  have h3 : now < now - c.timeout := by
    have := UInt64.lt_iff_toNat_lt.mp ht
    have hb := c.timeout.toNat_lt
    rw [UInt64.lt_iff_toNat_lt, UInt64.toNat_sub]
    omega
  have hck : check c now ⟨1, now, now⟩ = .timeout := by
    unfold check
    rw [hc]
    simp [h1, h2, h3]
  have htn : turn c (o ⟨1, now, now⟩) ⟨1, now, now⟩ = (some .timeout, false, false) := by
    unfold turn; rw [ho, hck, hd]
  have hord : order c [⟨1, now, now⟩] = [⟨1, now, now⟩] := List.perm_singleton.mp (order_perm c _)
  have : (steps c .new [.arrive now now, .run o]).gone = [] ++ fated (· != .handed) (runLoop c o (order c [⟨1, now, now⟩])).2.1 := rfl
  rw [this, hord, runLoop, htn]
  rfl

end Verif.SendLoop
