import Verif.Fifo.World
/-!
# Properties of FIFO buffers (C19, C20, C21)
-/
namespace Verif.Fifo
open Verif

variable {α σ : Type}

/-! ## C19 -/

/-- C19: every sequence of operations on any number of buffers, with any callbacks, does to the program what the same operations on lists
do: the callbacks are given the same entries in the same order (they end in the same state), the return values and the reference count
calls are the same, the count of each buffer is the number of entries it holds and no entry is leaked. The program aborts if and
only if a callback returns flags it must not return, and it never follows a bad pointer. -/
theorem fifo_is_queue [DecidableEq α] (ops : List (Op α σ)) (st : σ) (h : Spec.FitsAll (Spec.State.init st) ops) :
    match Spec.run (Spec.State.init st) ops with
    | none => run (World.init st) ops = .bug
    | some s => ∃ w, run (World.init st) ops = .ok w ∧ w.st = s.st ∧ w.ret = s.ret ∧ w.mem.log = s.log ∧
        (∀ i, (w.bufs i).count.toNat = (s.items i).length) ∧ ((∀ i, s.items i = []) → ∀ a, w.mem.cell a = none) := by
  have := run_match ops (match_init st) h
  cases hs : Spec.run (Spec.State.init st) ops with
  | none => rw [hs] at this; exact this
  | some s =>
    rw [hs] at this
    obtain ⟨w, e, ⟨nodes, h1, h2, h3, h4⟩, h5, h6, h7⟩ := this
    refine ⟨w, e, h6, h7, h5, fun i => by rw [(h1 i).count, ← h2]; simp, ?_⟩
    intro hn a
    cases hc : w.mem.cell a with
    | none => rfl
    | some x =>
      obtain ⟨i, hi⟩ := h4 a (by rw [hc]; simp)
      have := h2 i
      rw [hn i] at this
      have : nodes i = [] := by simpa using this
      rw [this] at hi
      simp at hi

/-- The data which has been stored, in the order in which it was stored: `incref` is called once when data is stored. -/
def stored : List (Ev α) → List α
  | [] => []
  | .incref d :: l => d :: stored l
  | .decref _ :: l => stored l

theorem stored_append (a b : List (Ev α)) : stored (a ++ b) = stored a ++ stored b := by
  induction a with
  | nil => rfl
  | cons e a ih => cases e <;> simp [stored, ih]

/-- What a user of one buffer may do: write something, or read and clear with a callback which notes what it is given. It returns any of
the allowed values and may write more data in the meantime, depending on what it has seen so far. -/
inductive Use (α : Type) where
  | put (d : α) (order : UInt64)
  | take (ret : List α → UInt32) (more : List α → List α)

/-- The callback for `take`. -/
def takeCb (ret : List α → UInt32) (more : List α → List α) : List α → Option α → FRes α (List α) := fun seen d =>
  let seen := seen ++ d.toList
  ⟨ret seen, seen, (more seen).map fun x => [⟨0, some x, 0⟩]⟩

/-- The operations. -/
def Use.op : Use α → Op α (List α)
  | .put d order => .write 0 fun seen => ([⟨0, some d, order⟩], seen)
  | .take ret more => .forward 0 (takeCb ret more)

/-- Values which a callback may return: 0, or any of STOP and errors, and FREE. -/
def Allowed (r : UInt32) : Prop := has r GIVE = false ∧ (r &&& ~~~ FREE = 0 ∨ has r (STOP ||| CALLBACK_ERR ||| GLOBAL_ERR) = true)

def Use.Allowed : Use α → Prop
  | .put _ _ => True
  | .take ret _ => ∀ seen, Verif.Fifo.Allowed (ret seen)

theorem writes_plain : ∀ (xs : List α) (l : Spec.Items α),
    Spec.writes (xs.map fun x => [(⟨0, some x, 0⟩ : WRes α)]) l = some (l ++ xs.map fun x => (some x, 0), xs.map .incref)
  | [], l => by simp [Spec.writes]
  | x :: xs, l => by
    have hw : writeCheck 0 = some ⟨false, false, false, false⟩ := rfl
    simp only [List.map_cons, Spec.writes, Spec.write, hw]
    simp [writes_plain xs]

theorem stored_increfs (xs : List α) : stored (xs.map .incref) = xs := by
  induction xs with
  | nil => rfl
  | cons x xs ih => simp [stored, ih]

theorem has_mask (r : UInt32) (f : UInt32) (h : ~~~ FREE &&& f = f) : has (r &&& ~~~ FREE) f = has r f := by
  unfold has
  rw [UInt32.and_assoc, h]

theorem stored_free (c : Bool) (d : Option α) : stored (if c = true then Spec.decref d else []) = [] := by
  cases c <;> cases d <;> rfl

/-- Read and clear: what has been seen and what is left. -/
theorem forward_seen (ret : List α → UInt32) (more : List α → List α) (hr : ∀ seen, Allowed (ret seen)) :
    ∀ (items new : Spec.Items α) (seen : List α), (∀ x ∈ items, x.1.isSome) → (∀ x ∈ new, x.1.isSome) →
    ∃ r, Spec.forward (takeCb ret more) seen new items = some r ∧ (∀ x ∈ r.items, x.1.isSome) ∧
      r.st ++ r.items.filterMap Prod.fst = seen ++ items.filterMap Prod.fst ++ new.filterMap Prod.fst ++ stored r.log
  | [], new, seen, _, hn => ⟨_, rfl, hn, by simp [stored]⟩
  | x :: items, new, seen, hi, hn => by
    obtain ⟨d, hd⟩ := Option.isSome_iff_exists.mp (hi x (by simp))
    unfold Spec.forward
    simp only [takeCb, hd, Option.toList_some, writes_plain, Option.bind_some]
    generalize hs : seen ++ [d] = seen'
    obtain ⟨a1, a2⟩ := hr seen'
    rw [has_mask _ _ (by decide), has_mask _ _ (by decide)]
    rw [if_neg (by simp [a1])]
    have hn' : ∀ y ∈ new ++ (more seen').map (fun x => (some x, (0 : UInt64))), y.1.isSome := by
      intro y hy
      rcases List.mem_append.mp hy with hy | hy
      · exact hn y hy
      · obtain ⟨z, _, rfl⟩ := List.mem_map.mp hy; rfl
    have hfm : ((more seen').map fun x => (some x, (0 : UInt64))).filterMap Prod.fst = more seen' := by
      rw [List.filterMap_map]
      simp [Function.comp_def]
    by_cases h1 : has (ret seen') (STOP ||| CALLBACK_ERR ||| GLOBAL_ERR) = true
    · rw [if_pos h1]
      refine ⟨_, rfl, ?_, ?_⟩
      · intro y hy
        rcases List.mem_append.mp hy with hy | hy
        · exact hi y (by simp [hy])
        · exact hn' y hy
      · simp only [stored_append, stored_increfs, stored_free, List.filterMap_append, List.filterMap_cons, hd, hfm]
        simp [← hs]
    · rw [if_neg h1]
      have h0 : ret seen' &&& ~~~ FREE = 0 := a2.resolve_right h1
      rw [if_neg (by simp [h0])]
      obtain ⟨r, e1, e2, e3⟩ := forward_seen ret more hr items _ seen' (fun y hy => hi y (by simp [hy])) hn'
      refine ⟨r.did _, by rw [e1]; rfl, e2, ?_⟩
      simp only [Spec.Res.did, stored_append, stored_increfs, stored_free]
      rw [e3]
      simp only [List.filterMap_append, List.filterMap_cons, hd, hfm]
      simp [← hs]

theorem use_run [DecidableEq α] : ∀ (us : List (Use α)) (s : Spec.State α (List α)), (∀ u ∈ us, u.Allowed) →
    (∀ x ∈ s.items 0, x.1.isSome) → s.st ++ (s.items 0).filterMap Prod.fst = stored s.log → (∀ i, i ≠ 0 → s.items i = []) →
    ∃ s', Spec.run s (us.map Use.op) = some s' ∧ (∀ x ∈ s'.items 0, x.1.isSome) ∧
      s'.st ++ (s'.items 0).filterMap Prod.fst = stored s'.log ∧ (∀ i, i ≠ 0 → s'.items i = [])
  | [], s, _, h1, h2, h3 => ⟨s, rfl, h1, h2, h3⟩
  | u :: us, s, ha, h1, h2, h3 => by
    have hstep : ∃ s', Spec.step s u.op = some s' ∧ (∀ x ∈ s'.items 0, x.1.isSome) ∧
        s'.st ++ (s'.items 0).filterMap Prod.fst = stored s'.log ∧ (∀ i, i ≠ 0 → s'.items i = []) := by
      cases u with
      | put d order =>
        have hw : writeCheck 0 = some ⟨false, false, false, false⟩ := rfl
        simp only [Use.op, Spec.step, Spec.write, hw]
        refine ⟨_, rfl, ?_, ?_, ?_⟩
        · intro x hx
          simp at hx
          rcases hx with hx | rfl
          · exact h1 x hx
          · rfl
        · simp [stored_append, stored, ← h2]
        · intro i hi; simp [update_other _ _ hi, h3 i hi]
      | take ret more =>
        obtain ⟨r, e1, e2, e3⟩ := forward_seen ret more (ha (.take ret more) List.mem_cons_self) (s.items 0) [] s.st h1 (by simp)
        simp only [Use.op, Spec.step, e1]
        refine ⟨_, rfl, by simpa using e2, ?_, ?_⟩
        · simp only [update_same, stored_append, ← h2, e3]
          simp
        · intro i hi; simp [update_other _ _ hi, h3 i hi]
    obtain ⟨s', e, g1, g2, g3⟩ := hstep
    obtain ⟨s'', e', g⟩ := use_run us s' (fun u hu => ha u (by simp [hu])) g1 g2 g3
    exact ⟨s'', by simp only [List.map_cons, Spec.run, e, Option.bind_some]; exact e', g⟩

/-- Take everything and write nothing. -/
def Use.drain : Use α := .take (fun _ => 0) (fun _ => [])

theorem forward_drain : ∀ (items : Spec.Items α) (seen : List α),
    ∃ r, Spec.forward (takeCb (fun _ => 0) (fun _ => [])) seen [] items = some r ∧ r.items = []
  | [], seen => ⟨_, rfl, rfl⟩
  | x :: items, seen => by
    obtain ⟨r, e1, e2⟩ := forward_drain items (seen ++ x.1.toList)
    refine ⟨r.did [], ?_, e2⟩
    unfold Spec.forward
    simp only [takeCb, List.map_nil, Spec.writes, Option.bind_some]
    rw [show Spec.forward _ _ _ items = some r from e1]
    rfl

/-- C19: entries are delivered exactly once, in write order, whatever the reader does: data is written and read and cleared in any
order; readers stop and fail at any entry, and write more while they read. If the buffer is read to the end at last, what
the readers have been given all in all is what has been stored, in the order in which it was stored. The buffer is then empty, its
count is 0 and all memory has been given back. -/
theorem delivered_once_in_order [DecidableEq α] (us : List (Use α)) (ha : ∀ u ∈ us, u.Allowed)
    (hf : Spec.FitsAll (Spec.State.init []) ((us ++ [Use.drain]).map Use.op)) :
    ∃ w, run (World.init []) ((us ++ [Use.drain]).map Use.op) = .ok w ∧ w.st = stored w.mem.log ∧ (w.bufs 0).count = 0 ∧
      ∀ a, w.mem.cell a = none := by
  have hrun : ∀ (a b : List (Op α (List α))) (s : Spec.State α (List α)), Spec.run s (a ++ b) = (Spec.run s a).bind fun s => Spec.run s b := by
    intro a
    induction a with
    | nil => intro b s; rfl
    | cons x a ih =>
      intro b s
      show (Spec.step s x).bind _ = ((Spec.step s x).bind _).bind _
      cases Spec.step s x with
      | none => rfl
      | some s' => exact ih b s'
  obtain ⟨s, e1, g1, g2, g3⟩ := use_run us (Spec.State.init []) ha (by simp [Spec.State.init]) (by simp [Spec.State.init, stored]) (by simp [Spec.State.init])
  have hd : ∀ u ∈ [Use.drain], (u : Use α).Allowed := by
    intro u hu
    simp at hu
    subst hu
    intro _
    exact ⟨(by decide : has 0 GIVE = false), Or.inl (by show (0 : UInt32) &&& _ = 0; decide)⟩
  obtain ⟨s', e2, k1, k2, k3⟩ := use_run [Use.drain] s hd g1 g2 g3
  have hempty : s'.items 0 = [] := by
    obtain ⟨r, r1, r2⟩ := forward_drain (s.items 0) s.st
    simp only [List.map_cons, List.map_nil, Spec.run, Use.op, Use.drain, Spec.step, r1, Option.map_some, Option.bind_some] at e2
    injection e2 with e2
    rw [← e2]
    simp [r2]
  have h := fifo_is_queue _ _ hf
  rw [List.map_append, hrun, e1, Option.bind_some, e2] at h
  obtain ⟨w, w1, w2, w3, w4, w5, w6⟩ := h
  rw [hempty] at k2
  refine ⟨w, by rw [List.map_append]; exact w1, by rw [w2, w4, ← k2]; simp, ?_, w6 ?_⟩
  · rw [← UInt32.toNat_inj, w5, hempty]; rfl
  · intro i
    by_cases hi : i = 0
    · subst hi; exact hempty
    · exact k3 i hi

/-- Three entries are written, a reader stops after the first one and writes a fourth: the others are read in order. -/
example : ∃ w, run (World.init []) ((([.put 1 0, .put 2 0, .put 3 0, .take (fun _ => STOP) (fun _ => [4])] : List (Use Nat)) ++ [Use.drain]).map Use.op) = .ok w ∧
    w.st = [1, 2, 3, 4] := ⟨_, rfl, rfl⟩

example : Spec.FitsAll (Spec.State.init []) ((([.put 1 0, .put 2 0, .take (fun _ => STOP) (fun _ => [4])] : List (Use Nat)) ++ [Use.drain]).map Use.op) := by
  refine ⟨show 0 + 1 < 2 ^ 32 by decide, ?_⟩
  intro s hs
  cases hs
  refine ⟨show 1 + 1 < 2 ^ 32 by decide, ?_⟩
  intro s hs
  cases hs
  refine ⟨⟨1, fun st d => by simp [takeCb], by decide⟩, ?_⟩
  intro s hs
  cases hs
  refine ⟨⟨0, fun st d => by simp [takeCb], by decide⟩, ?_⟩
  intro s hs
  trivial

example : (Use.take (fun _ => STOP) (fun _ => [4]) : Use Nat).Allowed := fun _ => ⟨(by decide : has STOP GIVE = false), Or.inr (by decide : has STOP (STOP ||| CALLBACK_ERR ||| GLOBAL_ERR) = true)⟩

/-- C19: search with a callback which takes the entries with a given property and keeps the others: they are removed, the others stay in
order, the reference to the entries taken is given back (FREE). -/
theorem search_removes [DecidableEq α] (p : Option α → Bool) (s : Spec.State α σ) (w : World α σ) (i : Nat) (h : Match s w) :
    ∃ w', step w (.search i fun st d => (if p d then GIVE ||| FREE else 0, st)) = .ok w' ∧
      Match { s with items := update s.items i ((s.items i).filter fun x => !p x.1)
                     log := s.log ++ ((s.items i).filter fun x => p x.1).flatMap fun x => Spec.decref x.1
                     ret := 0 } w' := by
  have hs : ∀ (l : Spec.Items α) (st : σ), Spec.search (fun st d => (if p d then GIVE ||| FREE else 0, st)) st l =
      some ⟨l.filter fun x => !p x.1, (l.filter fun x => p x.1).flatMap fun x => Spec.decref x.1, st, 0⟩ := by
    intro l
    induction l with
    | nil => intro st; rfl
    | cons x l ih =>
      intro st
      unfold Spec.search
      simp only
      by_cases hp : p x.1 = true
      · simp only [hp, if_true]
        rw [if_neg (by decide), if_neg (by decide), if_pos (by decide), if_neg (by decide), if_pos (by decide), ih]
        simp [hp, Spec.Res.did]
      · simp only [Bool.not_eq_true] at hp
        simp only [hp, Bool.false_eq_true, if_false, if_true]
        rw [ih]
        simp [hp, Spec.Res.cons]
  have := step_match (.search i fun st d => (if p d then GIVE ||| FREE else 0, st)) h trivial
  simp only [Spec.step, hs] at this
  obtain ⟨w', e, hm⟩ := this
  exact ⟨w', e, hm⟩

example : ∃ w, run (World.init []) [(Use.put 1 0).op, (Use.put 2 0).op, (Use.put 3 0).op,
    .search 0 (fun st d => (if d = some 2 then GIVE ||| FREE else 0, st)), Use.drain.op] = .ok w ∧ w.st = [1, 3] ∧
      w.mem.log = [.incref 1, .incref 2, .incref 3, .decref 2] := ⟨_, rfl, rfl, rfl⟩

/-! ## C20 -/

/-- An ordered write. -/
def ordered (d : α × UInt64) : Op (α × UInt64) σ := .write 0 fun st => ([⟨ORDERED, some d, d.2⟩], st)

/-- Order values do not decrease. -/
abbrev Sorted (l : List (α × UInt64)) : Prop := l.Pairwise fun x y => x.2 ≤ y.2

theorem le_of_not_lt {a b : UInt64} (h : ¬ a < b) : b ≤ a := UInt64.not_lt.mp h

/-- The contents made of some data, with the order values of the data. -/
abbrev itemsOf (l : List (α × UInt64)) : Spec.Items (α × UInt64) := l.map fun d => (some d, d.2)

theorem insert_items (d : α × UInt64) : ∀ l : List (α × UInt64), Sorted l → ∃ l', Spec.insert (some d, d.2) (itemsOf l) = itemsOf l' ∧
    l'.Perm (d :: l) ∧ Sorted l'
  | [], _ => ⟨[d], rfl, .refl _, List.pairwise_singleton _ _⟩
  | x :: l, h => by
    obtain ⟨h1, h2⟩ := List.pairwise_cons.mp h
    show ∃ l', (if x.2 < d.2 then (some x, x.2) :: Spec.insert (some d, d.2) (itemsOf l) else (some d, d.2) :: itemsOf (x :: l)) = _ ∧ _
    by_cases hlt : x.2 < d.2
    · rw [if_pos hlt]
      obtain ⟨l', e, hp, hs⟩ := insert_items d l h2
      refine ⟨x :: l', by rw [e]; rfl, (hp.cons x).trans (.swap _ _ _), List.pairwise_cons.mpr ⟨?_, hs⟩⟩
      intro y hy
      rcases List.mem_cons.mp (hp.mem_iff.mp hy) with rfl | hy
      · exact UInt64.le_of_lt hlt
      · exact h1 y hy
    · rw [if_neg hlt]
      refine ⟨d :: x :: l, rfl, .refl _, List.pairwise_cons.mpr ⟨?_, h⟩⟩
      intro y hy
      rcases List.mem_cons.mp hy with rfl | hy
      · exact le_of_not_lt hlt
      · exact UInt64.le_trans (le_of_not_lt hlt) (h1 y hy)

theorem insertOrdered_items (d : α × UInt64) (l : List (α × UInt64)) (h : Sorted l) :
    ∃ l', Spec.insertOrdered (some d, d.2) (itemsOf l) = itemsOf l' ∧ l'.Perm (d :: l) ∧ Sorted l' := by
  unfold Spec.insertOrdered
  rcases List.eq_nil_or_concat l with rfl | ⟨l0, y, rfl⟩
  · exact ⟨[d], rfl, .refl _, List.pairwise_singleton _ _⟩
  · rw [List.concat_eq_append] at h ⊢
    simp only [itemsOf, List.map_append, List.map_cons, List.map_nil, List.getLast?_concat]
    by_cases hlt : y.2 < d.2
    · rw [if_pos hlt]
      refine ⟨l0 ++ [y] ++ [d], by simp, List.perm_append_comm, List.pairwise_append.mpr ⟨h, List.pairwise_singleton _ _, ?_⟩⟩
      intro a ha b hb
      simp at hb
      subst hb
      rcases List.mem_append.mp ha with ha | ha
      · exact UInt64.le_trans ((List.pairwise_append.mp h).2.2 a ha y (by simp)) (UInt64.le_of_lt hlt)
      · simp at ha
        subst ha
        exact UInt64.le_of_lt hlt
    · rw [if_neg hlt]
      have := insert_items d (l0 ++ [y]) h
      simpa [itemsOf] using this

/-- The callback which notes what it is given. -/
def note : List α → Option α → UInt32 × List α := fun seen d => (0, seen ++ d.toList)

theorem read_note (l : List (α × UInt64)) : ∀ seen, Spec.read note seen 0 (itemsOf l) = some (seen ++ l, 0) := by
  induction l with
  | nil => intro seen; simp [Spec.read]
  | cons x l ih =>
    intro seen
    show Spec.read note (seen ++ [x]) 0 (itemsOf l) = _
    rw [ih]
    simp

theorem ordered_run [DecidableEq α] : ∀ (ds l : List (α × UInt64)) (s : Spec.State (α × UInt64) (List (α × UInt64))), s.items 0 = itemsOf l → Sorted l →
    ∃ s' l', Spec.run s (ds.map ordered) = some s' ∧ s'.items 0 = itemsOf l' ∧ l'.Perm (ds ++ l) ∧ Sorted l' ∧ s'.st = s.st
  | [], l, s, h1, h2 => ⟨s, l, rfl, h1, .refl _, h2, rfl⟩
  | d :: ds, l, s, h1, h2 => by
    obtain ⟨l', e, hp, hs⟩ := insertOrdered_items d l h2
    have hw : writeCheck ORDERED = some ⟨true, false, false, false⟩ := rfl
    have hstep : Spec.step s (ordered d) = some ⟨update s.items 0 (itemsOf l'), s.log ++ [.incref d], s.st, 0⟩ := by
      simp [ordered, Spec.step, Spec.write, hw, h1, e]
    obtain ⟨s', l'', e1, e2, e3, e4, e5⟩ := ordered_run ds l' ⟨update s.items 0 (itemsOf l'), s.log ++ [.incref d], s.st, 0⟩ (by simp) hs
    refine ⟨s', l'', by simp only [List.map_cons, Spec.run, hstep, Option.bind_some]; exact e1, e2, ?_, e4, e5⟩
    refine e3.trans ((hp.append_left ds).trans ?_)
    simpa using List.perm_middle

/-- C20: if every write is an ordered write, reading gives all entries which were written, sorted by order value. -/
theorem ordered_writes_sorted [DecidableEq α] (ds : List (α × UInt64)) (h : ds.length < 2 ^ 32) :
    ∃ w, run (World.init []) (ds.map ordered ++ [.read 0 note]) = .ok w ∧ w.st.Perm ds ∧ Sorted w.st := by
  have hfits : ∀ (ds : List (α × UInt64)) (s : Spec.State (α × UInt64) (List (α × UInt64))), (s.items 0).length + ds.length < 2 ^ 32 →
      Spec.FitsAll s (ds.map ordered ++ [.read 0 note]) := by
    intro ds
    induction ds with
    | nil => intro s _; exact ⟨trivial, fun _ _ => trivial⟩
    | cons d ds ih =>
      intro s hs
      simp only [List.length_cons] at hs
      refine ⟨?_, ?_⟩
      · show (s.items 0).length + 1 < 2 ^ 32; omega
      · intro s' hs'
        apply ih
        have hw : writeCheck ORDERED = some ⟨true, false, false, false⟩ := rfl
        simp only [ordered, Spec.step, Spec.write, hw, Bool.or_self, Bool.false_eq_true, if_false, if_true, Option.map_some] at hs'
        injection hs' with hs'
        rw [← hs']
        simp only [update_same, insertOrdered_length]
        omega
  obtain ⟨s', l', e1, e2, e3, e4, e5⟩ := ordered_run ds [] (Spec.State.init []) rfl List.Pairwise.nil
  have hrun : Spec.run (Spec.State.init []) (ds.map ordered ++ [.read 0 note]) = some ⟨s'.items, s'.log, l', 0⟩ := by
    have hrun : ∀ (a b : List (Op (α × UInt64) (List (α × UInt64)))) (s : Spec.State (α × UInt64) (List (α × UInt64))),
        Spec.run s (a ++ b) = (Spec.run s a).bind fun s => Spec.run s b := by
      intro a
      induction a with
      | nil => intro b s; rfl
      | cons x a ih =>
        intro b s
        show (Spec.step s x).bind _ = ((Spec.step s x).bind _).bind _
        cases Spec.step s x with
        | none => rfl
        | some s' => exact ih b s'
    rw [hrun, e1]
    simp only [Option.bind_some, Spec.run, Spec.step, e2, read_note, Option.map_some, e5]
    simp [Spec.State.init]
  have := fifo_is_queue _ _ (hfits ds (Spec.State.init []) (by simpa [Spec.State.init] using h))
  rw [hrun] at this
  obtain ⟨w, w1, w2, _⟩ := this
  exact ⟨w, w1, by rw [w2]; simpa using e3, by rw [w2]; exact e4⟩

example : ∃ w, run (World.init []) ([(1, 30), (2, 10), (3, 20), (4, 10)].map ordered ++ [.read 0 note]) = .ok w ∧
    w.st = [(4, 10), (2, 10), (3, 20), (1, 30)] := ⟨_, rfl, rfl⟩

/-! ## C21 -/

/-- What a search and replace callback decides about an entry. -/
inductive Verdict (α : Type) where
  | keep
  | give
  | replace (d : α)

/-- The callback: entries which are removed and replaced are released. -/
def verdictCb (v : α → Verdict α) : σ → Option α → UInt64 → RRes α σ := fun st d order =>
  match d.map v with
  | some .give => ⟨GIVE ||| FREE, none, 0, st⟩
  | some (.replace d') => ⟨REPLACE ||| FREE, some d', order, st⟩
  | _ => ⟨0, none, 0, st⟩

/-- What should be left. -/
def left (v : α → Verdict α) (d : α) : Option α :=
  match v d with
  | .keep => some d
  | .give => none
  | .replace d' => some d'

/-- No entry is removed after one has been replaced, unless one has been kept in between. -/
def GiveOk (v : α → Verdict α) : Bool → List α → Prop
  | _, [] => True
  | stale, d :: l =>
    match v d with
    | .keep => GiveOk v false l
    | .give => stale = false ∧ GiveOk v stale l
    | .replace _ => GiveOk v true l

theorem verdictCb_keep {v : α → Verdict α} {d : α} (h : v d = .keep) (st : σ) (o : UInt64) : verdictCb v st (some d) o = ⟨0, none, 0, st⟩ := by
  simp [verdictCb, h]
theorem verdictCb_give {v : α → Verdict α} {d : α} (h : v d = .give) (st : σ) (o : UInt64) :
    verdictCb v st (some d) o = ⟨GIVE ||| FREE, none, 0, st⟩ := by simp [verdictCb, h]
theorem verdictCb_replace {v : α → Verdict α} {d d' : α} (h : v d = .replace d') (st : σ) (o : UInt64) :
    verdictCb v st (some d) o = ⟨REPLACE ||| FREE, some d', o, st⟩ := by simp [verdictCb, h]

theorem verdict_safe (v : α → Verdict α) : ∀ (l : List (α × UInt64)) (stale : Bool) (st : σ), GiveOk v stale (l.map Prod.fst) →
    Spec.replaceSafe (verdictCb v) stale st (l.map fun x => (some x.1, x.2)) = true
  | [], _, _, _ => rfl
  | x :: l, stale, st, h => by
    unfold Spec.replaceSafe
    simp only [List.map_cons]
    cases hv : v x.1 with
    | keep =>
      simp only [List.map_cons, GiveOk, hv] at h
      simp only [verdictCb_keep hv, if_true]
      exact verdict_safe v l false st h
    | give =>
      simp only [List.map_cons, GiveOk, hv] at h
      obtain ⟨rfl, h⟩ := h
      simp only [verdictCb_give hv]
      rw [if_neg (by decide), if_neg (by decide), if_pos (by decide)]
      simpa using Or.inr (verdict_safe v l false st h)
    | replace d' =>
      simp only [List.map_cons, GiveOk, hv] at h
      simp only [verdictCb_replace hv]
      rw [if_neg (by decide), if_neg (by decide), if_neg (by decide), if_pos (by decide)]
      simpa using Or.inr (verdict_safe v l true st h)

theorem verdict_replace [DecidableEq α] (v : α → Verdict α) (hv : ∀ d, v d ≠ .replace d) : ∀ (l : List (α × UInt64)) (st : σ),
    ∃ g, Spec.replace (verdictCb v) st (l.map fun x => (some x.1, x.2)) =
      some ⟨l.filterMap fun x => (left v x.1).map fun d => (some d, x.2), g, st, 0⟩
  | [], st => ⟨[], rfl⟩
  | x :: l, st => by
    obtain ⟨g, ih⟩ := verdict_replace v hv l st
    unfold Spec.replace
    simp only [List.map_cons]
    cases hx : v x.1 with
    | keep =>
      simp only [verdictCb_keep hx, if_true]
      rw [ih]
      exact ⟨g, by simp [left, hx, Spec.Res.cons]⟩
    | give =>
      simp only [verdictCb_give hx]
      rw [if_neg (by decide), if_neg (by decide), if_pos (by decide), if_pos (by decide), if_neg (by decide), if_neg (by decide)]
      rw [ih]
      exact ⟨_, by simp only [Option.map_some, Spec.Res.did, left, hx, List.filterMap_cons, Option.map_none]; rfl⟩
    | replace d' =>
      simp only [verdictCb_replace hx]
      rw [if_neg (by decide), if_neg (by decide), if_pos (by decide), if_neg (by decide),
        if_pos (c := has (REPLACE ||| FREE) FREE = true) (by decide),
        if_neg (by intro e; injection e with e; subst e; exact hv _ hx), if_neg (by decide)]
      rw [ih]
      exact ⟨_, by simp only [Option.map_some, Spec.Res.did, Spec.Res.cons, left, hx, List.filterMap_cons]; rfl⟩

/-- C21: search and replace keeps exactly the kept and replaced entries, in order, with the right count. Partial: only if no entry is
removed after one has been replaced, without one kept in between; without this it is false (`replace_then_give_faults`,
`replace_then_give_loses`). -/
theorem search_and_replace_partial [DecidableEq α] (v : α → Verdict α) (hv : ∀ d, v d ≠ .replace d) (l : List (α × UInt64))
    (s : Spec.State α σ) (w : World α σ) (i : Nat) (h : Match s w) (hi : s.items i = l.map fun x => (some x.1, x.2))
    (hlt : l.length + 1 < 2 ^ 32) (hok : GiveOk v false (l.map Prod.fst)) :
    ∃ w' g, step w (.replace i (verdictCb v) (fun _ => none)) = .ok w' ∧ w'.ret = 0 ∧
      Match ⟨update s.items i (l.filterMap fun x => (left v x.1).map fun d => (some d, x.2)), s.log ++ g, s.st, 0⟩ w' ∧
      (w'.bufs i).count.toNat = (l.filterMap fun x => left v x.1).length := by
  obtain ⟨g, hr⟩ := verdict_replace v hv l s.st
  have := step_match (.replace i (verdictCb v) (fun _ => none)) h
    ⟨by rw [hi]; simpa using hlt, (by simp), by rw [hi]; exact verdict_safe v l false s.st hok⟩
  simp only [Spec.step, Spec.replaceAndAdd, hi, hr, Option.bind_some, Option.map_some] at this
  obtain ⟨w', e, hm⟩ := this
  refine ⟨w', g, e, hm.ret, hm, ?_⟩
  obtain ⟨nodes, h1, h2, _⟩ := hm.nodes
  have h2i := h2 i
  simp only [update_same] at h2i
  rw [(h1 i).count, Nat.add_zero, show (nodes i).length = (vals (nodes i)).length from by simp, h2i]
  have hlen : ∀ l : List (α × UInt64), (l.filterMap fun x => (left v x.1).map fun d => (some d, x.2)).length = (l.filterMap fun x => left v x.1).length := by
    intro l
    induction l with
    | nil => rfl
    | cons x l ih =>
      simp only [List.filterMap_cons]
      cases left v x.1 with
      | none => simpa using ih
      | some d => simpa using ih
  exact hlen l

/-- Verdicts for the examples: 1 is replaced by 11, 2 is removed. -/
def someVerdict : Nat → Verdict Nat := fun d => if d = 1 then .replace 11 else if d = 2 then .give else .keep

example : GiveOk someVerdict false [2, 1, 3, 2, 0] := ⟨rfl, ⟨rfl, trivial⟩⟩

example : ∃ w, run (World.init []) [(Use.put 2 0).op, (Use.put 1 0).op, (Use.put 3 0).op, (Use.put 2 0).op,
    .replace 0 (verdictCb someVerdict) (fun _ => none), .read 0 note] = .ok w ∧ w.st = [11, 3] ∧ (w.bufs 0).count = 2 :=
  ⟨_, rfl, rfl, rfl⟩

/-- C21 does not hold in general: when the first entry is replaced and the second one removed, the second entry is freed but still linked,
and the next read accesses freed memory. -/
theorem replace_then_give_faults : ∃ ops : List (Op Nat (List Nat)), run (World.init []) ops = .fault ∧
    (∃ s, Spec.run (Spec.State.init []) ops = some s ∧ s.st = [11]) :=
  ⟨[(Use.put 1 0).op, (Use.put 2 0).op, .replace 0 (verdictCb someVerdict) (fun _ => none), .read 0 note], rfl, _, rfl, rfl⟩

/-- C21 does not hold in general: when an entry is kept, the next one replaced and the one after that removed, the replaced entry is lost
without error, and the count is wrong. -/
theorem replace_then_give_loses : ∃ ops : List (Op Nat (List Nat)), ∃ w s, run (World.init []) ops = .ok w ∧
    Spec.run (Spec.State.init []) ops = some s ∧ s.st = [3, 11, 4] ∧ w.st = [3, 4] ∧ (w.bufs 0).count = 3 ∧ w.ret = s.ret :=
  ⟨[(Use.put 3 0).op, (Use.put 1 0).op, (Use.put 2 0).op, (Use.put 4 0).op, .replace 0 (verdictCb someVerdict) (fun _ => none), .read 0 note],
    _, _, rfl, rfl, rfl, rfl, rfl, rfl⟩

end Verif.Fifo
