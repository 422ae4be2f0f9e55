import Verif.Slot.Lemmas
/-!
# Every reader gets every entry (C29)
-/
namespace Verif.Slot
open Verif

theorem State.ext {α : Type} {a b : State α} (h1 : a.slot = b.slot) (h2 : a.written = b.written)
    (h3 : a.processed = b.processed) (h4 : a.released = b.released) : a = b := by
  cases a; cases b; simp_all

/-- What one read does. -/
theorem read_inv {α : Type} {ids regs : List Nat} {s : State α} (h : Inv ids regs s) {self : Nat}
    (hid : self ∈ ids) (cb keep : Bool) :
    ∃ s' regs', step s (.read self cb keep) = some s' ∧ Inv ids regs' s' ∧ s'.written = s.written ∧
      (∀ r, r ≠ self → s'.processed r = s.processed r) ∧
      (cb = true → keep = false → s'.processed self = s.written) ∧
      (cb = true → keep = false → ∀ e, s.slot.entry = some e →
        (s'.slot.entry = none ↔ ∀ r ∈ ids, r = self ∨ s.processed r = s.written)) ∧
      (s.slot.entry = none → s'.slot.entry = none) := by
  have hsound := h.sound
  cases he : s.slot.entry with
  | none =>
    refine ⟨s, regs, ?_, h, rfl, fun _ _ => rfl, ?_, fun _ _ e hc => (nomatch hc), fun _ => he⟩
    · unfold step read
      rw [he]
      simp only [Option.some.injEq]
      refine State.ext rfl rfl ?_ ?_
      · funext r; simp
      · rfl
    · intro _ _
      by_cases hm : self ∈ regs
      · exact h.idle he self hm
      · rw [h.late self hid hm, h.kept, he]
        have hlt := h.lt_of_new hid hm
        have : s.released = [] := Classical.byContradiction fun e => by
          have := h.full e; omega
        rw [this]; rfl
  | some e =>
    obtain ⟨regs', slot', i, h1, h2, h3, h4, h5, h6⟩ := register_inv h hid (by rw [he]; exact fun e => nomatch e)
    rw [he] at h4
    have hw : s.written = s.released ++ [e] := by rw [h.kept, he]; rfl
    by_cases hd : didRead slot' (some i) = true
    · have hd' : slot'.hasRead[i]? = some true := by simpa [didRead] using hd
      have hps : s.processed self = s.written := by
        have := h2.proc i self h3
        rw [if_pos hd'] at this
        exact this
      refine ⟨{ s with slot := slot' }, regs', ?_, h2, rfl, fun _ _ => rfl, fun _ _ => hps, ?_,
        fun hc => (nomatch hc)⟩
      · unfold step read
        rw [he]; dsimp only
        rw [h1]; dsimp only
        rw [if_pos hd]
        simp only [Option.some.injEq]
        refine State.ext rfl rfl ?_ ?_
        · funext r; simp
        · show (match (some e), slot'.entry with
            | some e, none => s.released ++ [e]
            | _, _ => s.released) = _
          rw [h4]
      · intro _ _ _ _
        show slot'.entry = none ↔ _
        rw [h4]
        refine ⟨fun hc => (nomatch hc), fun hall => ?_⟩
        have hne : ids ≠ [] := List.ne_nil_of_mem hid
        obtain ⟨r, hr, hr2⟩ := h2.waits (by rw [h4]; exact fun e => nomatch e) hne
        rcases hall r hr with e2 | e2
        · rw [e2] at hr2; exact absurd hps hr2
        · exact absurd e2 hr2
    · have hd' : slot'.hasRead[i]? ≠ some true := by simpa [didRead] using hd
      by_cases hp : cb = true ∧ keep = false
      · obtain ⟨rfl, rfl⟩ := hp
        obtain ⟨f1, f2⟩ := finish_inv h2 (e := e) h4 h3 hd'
        have hps : s.processed self = s.released := by
          have := h2.proc i self h3
          rw [if_neg hd'] at this
          exact this
        refine ⟨_, regs', ?_, f1, rfl, ?_, ?_, ?_, fun hc => (nomatch hc)⟩
        · unfold step read
          rw [he]; dsimp only
          rw [h1]; dsimp only
          rw [if_neg hd, if_neg (by decide), if_neg (by decide)]
          simp only [Option.some.injEq]
          refine State.ext rfl rfl ?_ ?_
          · funext r
            by_cases hr : r = self <;> simp [hr]
          · show (match (some e), (finishRead slot' (some i)).entry with
              | some e, none => s.released ++ [e]
              | _, _ => s.released) = _
            cases (finishRead slot' (some i)).entry <;> rfl
        · intro r hr
          show (if r = self then _ else s.processed r) = s.processed r
          rw [if_neg hr]
        · intro _ _
          show (if self = self then s.processed self ++ [e] else _) = s.written
          rw [if_pos rfl, hps, hw]
        · intro _ _ e' _
          exact f2
      · refine ⟨{ s with slot := slot' }, regs', ?_, h2, rfl, fun _ _ => rfl,
          fun a b => absurd ⟨a, b⟩ hp, fun a b => absurd ⟨a, b⟩ hp, fun hc => (nomatch hc)⟩
        unfold step read
        rw [he]; dsimp only
        rw [h1]; dsimp only
        rw [if_neg hd]
        have hgo : (if (!cb) = true then some (slot', some e) else if keep = true then some (slot', some e)
            else some (finishRead slot' (some i), some e)) = some (slot', some e) := by
          cases cb <;> cases keep <;> simp_all
        rw [hgo]
        simp only [Option.some.injEq]
        refine State.ext rfl rfl ?_ ?_
        · funext r
          show (if r = self ∧ cb = true ∧ keep = false then _ else s.processed r) = _
          rw [if_neg (fun hc => hp hc.2)]
        · show (match (some e), slot'.entry with
            | some e, none => s.released ++ [e]
            | _, _ => s.released) = _
          rw [h4]

theorem run_inv {α : Type} {ids regs : List Nat} {s : State α} (h : Inv ids regs s)
    (ops : List (Op α)) (hr : ReadBy ids ops) :
    ∃ s' regs', run s ops = some s' ∧ Inv ids regs' s' := by
  induction ops generalizing s regs with
  | nil => exact ⟨s, regs, rfl, h⟩
  | cons op ops ih =>
    have hr' : ReadBy ids ops := fun r cb keep hm => hr r cb keep (List.mem_cons_of_mem _ hm)
    cases op with
    | write e put =>
      obtain ⟨s1, hs1⟩ : ∃ s1, step s (.write e put) = some s1 := ⟨_, rfl⟩
      obtain ⟨s', regs', e1, e2⟩ := ih (write_inv h hs1) hr'
      exact ⟨s', regs', by simp [run, hs1, e1], e2⟩
    | read self cb keep =>
      obtain ⟨s1, regs1, hs1, hi, _⟩ := read_inv h (hr self cb keep List.mem_cons_self) cb keep
      obtain ⟨s', regs', e1, e2⟩ := ih hi hr'
      exact ⟨s', regs', by simp [run, hs1, e1], e2⟩

/-- C29: With as many different readers as the slot has been set up for, whatever is written and read,
in whichever order and with whichever results of the callbacks, the program is not ended, every reader
processes the written entries in order and each once, an entry is released only after every reader has
processed it, and no write replaces an entry which has not been released. -/
theorem broadcast (α : Type) (ids : List Nat) (hd : ids.Nodup) (ops : List (Op α))
    (hr : ReadBy ids ops) :
    ∃ s, run (start α ids.length) ops = some s ∧ Sound ids s := by
  obtain ⟨s, regs, h1, h2⟩ := run_inv (start_inv α ids hd) ops hr
  exact ⟨s, h1, h2.sound⟩

/-- C29: When there is an entry in the slot and a reader has not processed it, the next read by that
reader is given this entry, and processes it when its callback succeeds. -/
theorem reader_gets (α : Type) (ids : List Nat) (hd : ids.Nodup) (ops : List (Op α))
    (hr : ReadBy ids ops) (s : State α) (hs : run (start α ids.length) ops = some s) (e : α)
    (he : s.slot.entry = some e) (r : Nat) (hm : r ∈ ids) (hp : s.processed r ≠ s.written) :
    ∃ s', step s (.read r true false) = some s' ∧ s'.processed r = s.processed r ++ [e] ∧
      s'.written = s.written := by
  obtain ⟨s1, regs, h1, h2⟩ := run_inv (start_inv α ids hd) ops hr
  rw [hs] at h1; cases h1
  obtain ⟨s', regs', a, b, c, _, d, _⟩ := read_inv h2 hm true false
  refine ⟨s', a, ?_, c⟩
  have hso := h2.sound
  have hw : s.written = s.released ++ [e] := by rw [h2.kept, he]; rfl
  have h3 : s.processed r = s.released := by
    obtain ⟨t1, ht1⟩ := hso.inOrder r hm
    obtain ⟨t2, ht2⟩ := hso.released r hm
    have hl : t2 = [] := by
      rw [← ht2] at ht1 hp
      rw [hw] at ht1 hp
      rw [List.append_assoc] at ht1
      have := List.append_cancel_left ht1
      cases t2 with
      | nil => rfl
      | cons x xs =>
        simp at this
        obtain ⟨rfl, rfl, rfl⟩ := this
        exact absurd rfl hp
    rw [← ht2, hl, List.append_nil]
  rw [d rfl rfl, h3, hw]

/-- C29: After every reader has read with success there is nothing in the slot, everything which was
written has been released, and every reader has processed everything. -/
theorem all_read_releases (α : Type) (ids : List Nat) (hd : ids.Nodup) (hne : ids ≠ [])
    (ops : List (Op α)) (hr : ReadBy ids ops) (s : State α)
    (hs : run (start α ids.length) ops = some s) :
    ∃ s', run s (ids.map (fun r => Op.read r true false)) = some s' ∧ s'.slot.entry = none ∧
      s'.released = s.written ∧ s'.written = s.written ∧ ∀ r ∈ ids, s'.processed r = s.written := by
  obtain ⟨s1, regs, h1, h2⟩ := run_inv (start_inv α ids hd) ops hr
  rw [hs] at h1; cases h1
  have key : ∀ (l : List Nat) (regs : List Nat) (s : State α), Inv ids regs s → (∀ r ∈ l, r ∈ ids) →
      ∃ s' regs', run s (l.map (fun r => Op.read r true false)) = some s' ∧ Inv ids regs' s' ∧
        s'.written = s.written ∧
        ∀ r ∈ ids, r ∈ l ∨ s.processed r = s.written → s'.processed r = s.written := by
    intro l
    induction l with
    | nil =>
      intro regs s h _
      refine ⟨s, regs, rfl, h, rfl, fun r _ hr => ?_⟩
      rcases hr with e | e
      · cases e
      · exact e
    | cons a l ih =>
      intro regs s h hsub
      obtain ⟨s1, regs1, a1, a2, a3, a4, a5, _⟩ := read_inv h (hsub a List.mem_cons_self) true false
      obtain ⟨s', regs', b1, b2, b3, b4⟩ := ih regs1 s1 a2 (fun r hr => hsub r (List.mem_cons_of_mem _ hr))
      refine ⟨s', regs', by simp [run, a1, b1], b2, by rw [b3, a3], fun r hr hc => ?_⟩
      rw [← a3]
      refine b4 r hr ?_
      by_cases hra : r = a
      · refine .inr ?_
        rw [hra, a5 rfl rfl, a3]
      · rcases hc with e | e
        · rcases List.mem_cons.1 e with e | e
          · exact absurd e hra
          · exact .inl e
        · refine .inr ?_
          rw [a4 r hra, a3]; exact e
  obtain ⟨s', regs', e1, e2, e3, e4⟩ := key ids regs s h2 (fun _ h => h)
  have hall : ∀ r ∈ ids, s'.processed r = s.written := fun r hr => e4 r hr (.inl hr)
  have hnone : s'.slot.entry = none := by
    cases hx : s'.slot.entry with
    | none => rfl
    | some x =>
      obtain ⟨r, hr, hr2⟩ := e2.waits (by rw [hx]; exact fun e => nomatch e) hne
      rw [hall r hr, e3] at hr2
      exact absurd rfl hr2
  refine ⟨s', e1, hnone, ?_, e3, hall⟩
  have := e2.kept
  rw [hnone, e3] at this
  simpa using this.symm

/-- C29: An empty slot takes what is written, a slot with an entry is left as it is. -/
theorem write_when_empty (α : Type) (s : State α) (e : α) :
    (s.slot.entry = none → ∃ s', step s (.write e true) = some s' ∧ s'.slot.entry = some e ∧
      s'.written = s.written ++ [e]) ∧
    (s.slot.entry ≠ none → ∀ put, step s (.write e put) = some s) := by
  constructor
  · intro h
    refine ⟨_, rfl, ?_, ?_⟩ <;> simp [write, h]
  · intro h put
    cases hx : s.slot.entry with
    | none => exact absurd hx h
    | some x => simp [step, write, hx]

/-- One reader more than the slot has been set up for ends the program. -/
theorem too_many (α : Type) (ids : List Nat) (hd : ids.Nodup) (hne : ids ≠ []) (e : α) (r : Nat)
    (hr : r ∉ ids) :
    run (start α ids.length) (Op.write e true :: ids.map (fun r => Op.read r true true) ++
      [Op.read r true false]) = none := by
  obtain ⟨s0, hs0⟩ : ∃ s0, step (start α ids.length) (.write e true) = some s0 := ⟨_, rfl⟩
  have h0 := write_inv (start_inv α ids hd) hs0
  have he0 : s0.slot.entry = some e := by
    simp only [step, Option.some.injEq] at hs0
    rw [← hs0]; rfl
  have key : ∀ (l : List Nat) (regs : List Nat) (s : State α), Inv ids regs s → s.slot.entry = some e →
      (∀ r ∈ l, r ∈ ids) → ∃ s' regs', run s (l.map (fun r => Op.read r true true)) = some s' ∧
        Inv ids regs' s' ∧ s'.slot.entry = some e ∧ (∀ r ∈ l, r ∈ regs') ∧ (∀ r ∈ regs, r ∈ regs') := by
    intro l
    induction l with
    | nil => intro regs s h he _; exact ⟨s, regs, rfl, h, he, fun r h => (by cases h), fun _ h => h⟩
    | cons a l ih =>
      intro regs s h he hsub
      obtain ⟨regs1, slot1, i, h1, h2, h3, h4, h5, h6⟩ := register_inv h (hsub a List.mem_cons_self)
        (by rw [he]; exact fun e => nomatch e)
      have hmono : ∀ r ∈ regs, r ∈ regs1 := by
        intro r hr
        have hp := h.places
        have hp2 := h2.places
        -- The places only grow
        refine Classical.byContradiction fun hn => ?_
        have hpos : 0 < ids.length := List.length_pos_of_mem (h.sub r hr)
        have hlen : s.slot.readers.length ≠ 0 := by
          rw [hp]
          simp only [List.length_append, List.length_map, List.length_replicate]
          have := h.length_le; omega
        unfold readerIndex at h1
        rw [if_neg hlen, hp] at h1
        by_cases hm : a ∈ regs
        · obtain ⟨j, _, g2⟩ := findReader_mem a regs (ids.length - regs.length) 0 hm
          rw [g2] at h1
          simp only [Option.some.injEq, Prod.mk.injEq] at h1
          rw [← h1.1] at hp2
          have hmem : some r ∈ regs1.map some ++ List.replicate (ids.length - regs1.length) none := by
            rw [← hp2]
            exact List.mem_append_left _ (List.mem_map_of_mem hr)
          rcases List.mem_append.1 hmem with e2 | e2
          · obtain ⟨x, hx, hx2⟩ := List.mem_map.1 e2
            cases hx2; exact hn hx
          · exact nomatch (List.eq_of_mem_replicate e2)
        · have hlt := h.lt_of_new (hsub a List.mem_cons_self) hm
          obtain ⟨k, hk⟩ : ∃ k, ids.length - regs.length = k + 1 := ⟨ids.length - regs.length - 1, by omega⟩
          rw [hk, findReader_new a regs k 0 hm] at h1
          simp only [Option.some.injEq, Prod.mk.injEq] at h1
          rw [← h1.1] at hp2
          have hmem : some r ∈ regs1.map some ++ List.replicate (ids.length - regs1.length) none := by
            rw [← hp2]
            exact List.mem_append_left _ (List.mem_map_of_mem (List.mem_append_left _ hr))
          rcases List.mem_append.1 hmem with e2 | e2
          · obtain ⟨x, hx, hx2⟩ := List.mem_map.1 e2
            cases hx2; exact hn hx
          · exact nomatch (List.eq_of_mem_replicate e2)
      have hst : step s (.read a true true) = some { s with slot := slot1 } := by
        unfold step read
        rw [he]; dsimp only
        rw [h1]; dsimp only
        rw [he] at h4
        have : (if didRead slot1 (some i) = true then some (slot1, none)
          else if (!true) = true then some (slot1, some e) else
          if true = true then some (slot1, some e) else some (finishRead slot1 (some i), some e)) =
          some (slot1, if didRead slot1 (some i) = true then none else some e) := by
          split <;> simp
        rw [this]
        simp only [Option.some.injEq]
        refine State.ext rfl rfl ?_ ?_
        · funext r; simp
        · show (match (some e), slot1.entry with
            | some e, none => s.released ++ [e]
            | _, _ => s.released) = _
          rw [h4]
      obtain ⟨s', regs', b1, b2, b3, b4, b5⟩ := ih regs1 { s with slot := slot1 } h2 (h4.trans he)
        (fun r hr => hsub r (List.mem_cons_of_mem _ hr))
      refine ⟨s', regs', by simp [run, hst, b1], b2, b3, ?_, fun x hx => b5 x (hmono x hx)⟩
      intro x hx
      rcases List.mem_cons.1 hx with e2 | e2
      · rw [e2]; exact b5 a (List.mem_iff_getElem?.2 ⟨i, h3⟩)
      · exact b4 x e2
  obtain ⟨s', regs', e1, e2, e3, e4, _⟩ := key ids [] s0 h0 he0 (fun _ h => h)
  have happ : ∀ (a b : List (Op α)) (s : State α), run s (a ++ b) = (run s a).bind (fun s => run s b) := by
    intro a
    induction a with
    | nil => intro b s; rfl
    | cons x xs ih =>
      intro b s
      simp only [List.cons_append, run]
      cases step s x with
      | none => rfl
      | some s2 => exact ih b s2
  rw [happ]
  simp only [run, hs0, Option.bind_some, e1]
  have hl : regs'.length = ids.length :=
    Nat.le_antisymm e2.length_le (nodup_subset_length hd e4)
  have hfind : ∀ (regs : List Nat) (i : Nat), r ∉ regs → findReader r (regs.map some) i = none := by
    intro regs
    induction regs with
    | nil => intro i _; rfl
    | cons x xs ih =>
      intro i hn
      simp only [List.map_cons, findReader]
      rw [if_neg (fun e => hn (by rw [e]; exact List.mem_cons_self)),
        ih (i + 1) (fun e => hn (List.mem_cons_of_mem _ e))]
  have hrd : read s'.slot r true false = none := by
    unfold read
    rw [e3]; dsimp only
    have hpos : 0 < ids.length := List.length_pos_iff.2 hne
    have : readerIndex s'.slot r = none := by
      unfold readerIndex
      rw [e2.places, hl, Nat.sub_self]
      simp only [List.replicate_zero, List.append_nil]
      rw [if_neg (by simp only [List.length_map]; omega), hfind regs' 0 (fun e => hr (e2.sub r e))]
    rw [this]
  simp [step, hrd]

/-! ## Examples -/

/-- Two readers. The second one asks to keep the entry at first, a write is made while the slot is in
use, and the first one reads twice. -/
def exampleOps : List (Op Nat) :=
  [.write 5 true, .read 1 true false, .read 2 true true, .write 6 true, .read 1 true false,
   .read 2 false false, .read 2 true false, .write 7 true, .read 2 true false]

example : ReadBy [1, 2] exampleOps := by
  intro r cb keep h
  simp only [exampleOps, List.mem_cons, Op.read.injEq, List.not_mem_nil, reduceCtorEq, false_or,
    or_false] at h
  simp only [List.mem_cons, List.not_mem_nil, or_false]
  rcases h with h | h | h | h | h | h <;> simp [h.1]
example : (run (start Nat 2) exampleOps).map
    (fun s => (s.written, s.processed 1, s.processed 2, s.released, s.slot.entry)) =
    some ([5, 7], [5], [5, 7], [5], some 7) := by decide +kernel
example : (run (start Nat 2) exampleOps).map (fun s => count s.slot) = some 2 := by decide +kernel
example : run (start Nat 1) [Op.write 3 true, .read 1 true true, .read 2 true false] = none :=
  too_many Nat [1] (by decide) (by decide) 3 2 (by decide)

end Verif.Slot
