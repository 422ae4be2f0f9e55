import Verif.Slot.Spec
/-!
# The invariant of a slot
-/
namespace Verif.Slot
open Verif

theorem nodup_subset_length {l m : List Nat} (hd : l.Nodup) (hs : ∀ a ∈ l, a ∈ m) :
    l.length ≤ m.length := by
  induction l generalizing m with
  | nil => exact Nat.zero_le _
  | cons a l ih =>
    have ha : a ∈ m := hs a List.mem_cons_self
    have hd' := List.nodup_cons.1 hd
    have h1 : l.length ≤ (m.erase a).length := by
      refine ih hd'.2 (fun b hb => ?_)
      have hne : b ≠ a := fun e => hd'.1 (e ▸ hb)
      exact (List.mem_erase_of_ne hne).2 (hs b (List.mem_cons_of_mem _ hb))
    rw [List.length_erase_of_mem ha] at h1
    have : 0 < m.length := List.length_pos_of_mem ha
    simp only [List.length_cons]
    omega

/-- Where in the list the readers find themselves. -/
theorem findReader_mem (self : Nat) (regs : List Nat) (k i : Nat) (h : self ∈ regs) :
    ∃ j, regs[j]? = some self ∧
      findReader self (regs.map some ++ List.replicate k none) i =
        some (regs.map some ++ List.replicate k none, i + j) := by
  induction regs generalizing i with
  | nil => cases h
  | cons r rs ih =>
    simp only [List.map_cons, List.cons_append, findReader]
    by_cases hr : r = self
    · exact ⟨0, by simp [hr], by rw [if_pos hr]; rfl⟩
    · have h' : self ∈ rs := by
        rcases List.mem_cons.1 h with e | e
        · exact absurd e.symm hr
        · exact e
      obtain ⟨j, h1, h2⟩ := ih (i + 1) h'
      refine ⟨j + 1, by simpa using h1, ?_⟩
      rw [if_neg hr, h2]
      simp only [Option.some.injEq, Prod.mk.injEq, true_and]
      omega

theorem findReader_new (self : Nat) (regs : List Nat) (k i : Nat) (h : self ∉ regs) :
    findReader self (regs.map some ++ List.replicate (k + 1) none) i =
      some ((regs ++ [self]).map some ++ List.replicate k none, i + regs.length) := by
  induction regs generalizing i with
  | nil => simp [List.replicate_succ, findReader]
  | cons r rs ih =>
    have hr : ¬ r = self := fun e => h (by rw [e]; exact List.mem_cons_self)
    simp only [List.map_cons, List.cons_append, findReader]
    rw [if_neg hr, ih (i + 1) (fun e => h (List.mem_cons_of_mem _ e))]
    simp only [Option.some.injEq, Prod.mk.injEq, true_and, List.length_cons]
    omega

/-- The invariant. `regs` are the readers which have been given a place. -/
structure Inv {α : Type} (ids regs : List Nat) (s : State α) : Prop where
  places : s.slot.readers = regs.map some ++ List.replicate (ids.length - regs.length) none
  distinct : ids.Nodup
  nodup : regs.Nodup
  sub : ∀ r ∈ regs, r ∈ ids
  flags : s.slot.hasRead.length = ids.length
  kept : s.written = s.released ++ s.slot.entry.toList
  known : s.slot.entry ≠ none → ∀ i : Nat, s.slot.hasRead[i]? = some true → i < regs.length
  full : s.released ≠ [] → regs.length = ids.length
  late : ∀ r ∈ ids, r ∉ regs → s.processed r = []
  proc : ∀ i r : Nat, regs[i]? = some r →
    s.processed r = if s.slot.hasRead[i]? = some true then s.written else s.released
  idle : s.slot.entry = none → ∀ r ∈ regs, s.processed r = s.written
  waits : s.slot.entry ≠ none → ids ≠ [] → ∃ r ∈ ids, s.processed r ≠ s.written

theorem Inv.length_le {α : Type} {ids regs : List Nat} {s : State α} (h : Inv ids regs s) :
    regs.length ≤ ids.length := nodup_subset_length h.nodup h.sub

theorem Inv.lt_of_new {α : Type} {ids regs : List Nat} {s : State α} (h : Inv ids regs s) {r : Nat}
    (hr : r ∈ ids) (hn : r ∉ regs) : regs.length < ids.length := by
  have := nodup_subset_length (l := r :: regs) (m := ids) (List.nodup_cons.2 ⟨hn, h.nodup⟩)
    (fun a ha => by
      rcases List.mem_cons.1 ha with e | e
      · rw [e]; exact hr
      · exact h.sub a e)
  exact this

theorem Inv.sound {α : Type} {ids regs : List Nat} {s : State α} (h : Inv ids regs s) :
    Sound ids s := by
  have hpre : s.released <+: s.written := by rw [h.kept]; exact List.prefix_append _ _
  have hboth : ∀ r ∈ ids, s.processed r <+: s.written ∧ s.released <+: s.processed r := by
    intro r hr
    by_cases hm : r ∈ regs
    · obtain ⟨i, hi⟩ := List.mem_iff_getElem?.1 hm
      rw [h.proc i r hi]
      split
      · exact ⟨List.prefix_refl _, hpre⟩
      · exact ⟨hpre, List.prefix_refl _⟩
    · rw [h.late r hr hm]
      have hlt := h.lt_of_new hr hm
      have : s.released = [] := Classical.byContradiction fun e => by
        have := h.full e; omega
      rw [this]
      exact ⟨List.nil_prefix, List.prefix_refl _⟩
  exact ⟨fun r hr => (hboth r hr).1, fun r hr => (hboth r hr).2, h.kept⟩

theorem start_inv (α : Type) (ids : List Nat) (hd : ids.Nodup) : Inv ids [] (start α ids.length) where
  places := by simp [start, new]
  distinct := hd
  nodup := List.nodup_nil
  sub := fun r h => by cases h
  flags := by simp [start, new]
  kept := rfl
  known := fun h => absurd rfl h
  full := fun h => absurd rfl h
  late := fun _ _ _ => rfl
  proc := fun i r h => by simp at h
  idle := fun _ r h => by cases h
  waits := fun h => absurd rfl h

theorem write_inv {α : Type} {ids regs : List Nat} {s s' : State α} (h : Inv ids regs s) {e : α}
    {put : Bool} (hs : step s (.write e put) = some s') : Inv ids regs s' := by
  simp only [step, Option.some.injEq] at hs
  subst hs
  cases he : s.slot.entry with
  | some x =>
    have hw : write s.slot e put = (s.slot, false) := by unfold write; rw [he]
    rw [hw]; exact h
  | none =>
    cases put with
    | false =>
      have hw : write s.slot e false = (s.slot, false) := by unfold write; rw [he]; rfl
      rw [hw]; exact h
    | true =>
      have hw : write s.slot e true = ({ s.slot with hasRead := s.slot.hasRead.map (fun _ => false), entry := some e, written := s.slot.written + 1 }, true) := by
        unfold write; rw [he]; rfl
      rw [hw]
      have hk := h.kept
      rw [he] at hk
      simp only [Option.toList, List.append_nil] at hk
      have hfl : ∀ i : Nat, ¬ (s.slot.hasRead.map (fun _ => false))[i]? = some true := by
        intro i hi
        rw [List.getElem?_map] at hi
        cases hx : s.slot.hasRead[i]? <;> rw [hx] at hi <;> simp at hi
      exact {
        places := h.places
        distinct := h.distinct
        nodup := h.nodup
        sub := h.sub
        flags := by simp [h.flags]
        kept := by simp [hk]
        known := fun _ i hi => absurd hi (hfl i)
        full := h.full
        late := h.late
        proc := by
          intro i r hi
          show s.processed r = if (s.slot.hasRead.map (fun _ => false))[i]? = some true then _ else s.released
          rw [if_neg (hfl i), ← hk]
          exact h.idle he r (List.mem_iff_getElem?.2 ⟨i, hi⟩)
        idle := fun h => nomatch h
        waits := by
          intro _ hne
          obtain ⟨r, hr⟩ := List.exists_mem_of_ne_nil ids hne
          refine ⟨r, hr, fun e2 => ?_⟩
          have e2 : s.processed r = s.written ++ [e] := e2
          by_cases hm : r ∈ regs
          · rw [h.idle he r hm] at e2
            have := congrArg List.length e2
            simp at this
          · rw [h.late r hr hm] at e2
            simp at e2 }

theorem doneCount_le (l : List Bool) : doneCount l ≤ l.length := List.length_filter_le _ _

theorem doneCount_all (l : List Bool) (h : l.length ≤ doneCount l) (i : Nat) (hi : i < l.length) :
    l[i]? = some true := by
  unfold doneCount at h
  have h2 : (l.filter (· = true)).length = l.length :=
    Nat.le_antisymm (List.length_filter_le _ _) h
  have h3 := List.length_filter_eq_length_iff.1 h2
  rw [List.getElem?_eq_getElem hi]
  have := h3 _ (List.getElem_mem hi)
  simp at this
  rw [this]

theorem doneCount_full (l : List Bool) (h : ∀ i : Nat, i < l.length → l[i]? = some true) :
    doneCount l = l.length := by
  unfold doneCount
  rw [List.length_filter_eq_length_iff]
  intro b hb
  obtain ⟨i, hi⟩ := List.mem_iff_getElem?.1 hb
  have hl : i < l.length := by
    rcases Nat.lt_or_ge i l.length with h' | h'
    · exact h'
    · rw [List.getElem?_eq_none h'] at hi; cases hi
  rw [h i hl] at hi
  cases hi; rfl

/-- After the reader has been given its place. -/
theorem register_inv {α : Type} {ids regs : List Nat} {s : State α} (h : Inv ids regs s) {self : Nat}
    (hid : self ∈ ids) (he : s.slot.entry ≠ none) :
    ∃ regs' slot' i, readerIndex s.slot self = some (slot', some i) ∧
      Inv ids regs' { s with slot := slot' } ∧ regs'[i]? = some self ∧
      slot'.entry = s.slot.entry ∧ slot'.hasRead = s.slot.hasRead ∧ slot'.deleted = s.slot.deleted := by
  have hpos : 0 < ids.length := List.length_pos_of_mem hid
  have hlen : s.slot.readers.length = ids.length := by
    rw [h.places]; simp; have := h.length_le; omega
  by_cases hm : self ∈ regs
  · obtain ⟨j, h1, h2⟩ := findReader_mem self regs (ids.length - regs.length) 0 hm
    refine ⟨regs, s.slot, j, ?_, h, h1, rfl, rfl, rfl⟩
    unfold readerIndex
    rw [if_neg (by omega), h.places, h2]
    simp only [Nat.zero_add]
    rw [← h.places]
  · have hlt := h.lt_of_new hid hm
    obtain ⟨k, hk⟩ : ∃ k, ids.length - regs.length = k + 1 := ⟨ids.length - regs.length - 1, by omega⟩
    have h2 := findReader_new self regs k 0 hm
    have hrel : s.released = [] := Classical.byContradiction fun e => by
      have := h.full e; omega
    refine ⟨regs ++ [self], { s.slot with readers := (regs ++ [self]).map some ++ List.replicate k none },
      regs.length, ?_, ?_, by simp, rfl, rfl, rfl⟩
    · unfold readerIndex
      rw [if_neg (by omega), h.places, hk, h2]
      simp only [Nat.zero_add]
    · exact {
        places := by
          show _ = _
          rw [show ids.length - (regs ++ [self]).length = k by simp; omega]
        distinct := h.distinct
        nodup := by
          rw [List.nodup_append]
          refine ⟨h.nodup, by simp, ?_⟩
          intro a ha b hb e
          simp at hb
          rw [hb] at e; exact hm (e ▸ ha)
        sub := by
          intro r hr
          rcases List.mem_append.1 hr with e | e
          · exact h.sub r e
          · simp at e; rw [e]; exact hid
        flags := h.flags
        kept := h.kept
        known := by
          intro h1 i hi
          have := h.known h1 i hi
          simp; omega
        full := fun e => absurd hrel e
        late := by
          intro r hr hn
          exact h.late r hr (fun e => hn (List.mem_append_left _ e))
        proc := by
          intro i r hi
          rcases Nat.lt_or_ge i regs.length with hl | hl
          · rw [List.getElem?_append_left hl] at hi
            exact h.proc i r hi
          · have hir : i = regs.length := by
              rw [List.getElem?_append_right hl] at hi
              rcases Nat.eq_zero_or_pos (i - regs.length) with e | e
              · omega
              · rw [List.getElem?_eq_none (by simp; omega)] at hi; cases hi
            subst hir
            simp at hi
            subst hi
            rw [h.late _ hid hm]
            rw [if_neg]
            · exact hrel.symm
            · intro hc
              exact absurd (h.known he _ hc) (Nat.lt_irrefl _)
        idle := fun e => absurd e he
        waits := h.waits }

/-- The reader processes the entry. -/
theorem finish_inv {α : Type} {ids regs : List Nat} {s : State α} (h : Inv ids regs s) {self i : Nat}
    {e : α} (he : s.slot.entry = some e) (hi : regs[i]? = some self)
    (hn : s.slot.hasRead[i]? ≠ some true) :
    Inv ids regs { s with
      slot := finishRead s.slot (some i)
      processed := fun r => if r = self then s.processed r ++ [e] else s.processed r
      released := match (finishRead s.slot (some i)).entry with
        | none => s.released ++ [e]
        | some _ => s.released } ∧
    ((finishRead s.slot (some i)).entry = none ↔
      ∀ r ∈ ids, r = self ∨ s.processed r = s.written) := by
  have hil : i < regs.length := by
    rcases Nat.lt_or_ge i regs.length with h' | h'
    · exact h'
    · rw [List.getElem?_eq_none h'] at hi; cases hi
  have hle := h.length_le
  have hselfm : self ∈ regs := List.mem_iff_getElem?.2 ⟨i, hi⟩
  have hlen : s.slot.readers.length = ids.length := by
    rw [h.places]; simp; omega
  have hps : s.processed self = s.released := by rw [h.proc i self hi, if_neg hn]
  have hw : s.written = s.released ++ [e] := by rw [h.kept, he]; rfl
  have hset : ∀ j : Nat, (s.slot.hasRead.set i true)[j]? = some true ↔
      j = i ∨ s.slot.hasRead[j]? = some true := by
    intro j
    rw [List.getElem?_set]
    split
    · rename_i hj
      subst hj
      rw [if_pos (by rw [h.flags]; omega)]; simp
    · rename_i hj
      constructor
      · exact fun e => .inr e
      · rintro (e | e)
        · exact absurd e.symm hj
        · exact e
  have hne : ∀ r j : Nat, regs[j]? = some r → (r = self ↔ j = i) := by
    intro r j hj
    constructor
    · intro e2
      subst e2
      have hjl : j < regs.length := by
        rcases Nat.lt_or_ge j regs.length with h' | h'
        · exact h'
        · rw [List.getElem?_eq_none h'] at hj; cases hj
      exact (List.getElem?_inj hjl h.nodup).1 (by rw [hj, hi])
    · intro e2
      subst e2
      rw [hi] at hj; cases hj; rfl
  have hproc : ∀ j r : Nat, regs[j]? = some r →
      (if r = self then s.processed r ++ [e] else s.processed r) =
        if (s.slot.hasRead.set i true)[j]? = some true then s.written else s.released := by
    intro j r hj
    by_cases hr : r = self
    · rw [if_pos hr, if_pos ((hset j).2 (.inl ((hne r j hj).1 hr))), hr, hps, hw]
    · have hji : j ≠ i := fun e2 => hr ((hne r j hj).2 e2)
      rw [if_neg hr, h.proc j r hj]
      by_cases hx : s.slot.hasRead[j]? = some true
      · rw [if_pos hx, if_pos ((hset j).2 (.inr hx))]
      · rw [if_neg hx, if_neg]
        intro hc
        rcases (hset j).1 hc with e2 | e2
        · exact hji e2
        · exact hx e2
  have hknown : ∀ j : Nat, (s.slot.hasRead.set i true)[j]? = some true → j < regs.length := by
    intro j hj
    rcases (hset j).1 hj with e2 | e2
    · rw [e2]; exact hil
    · exact h.known (by rw [he]; exact fun e => nomatch e) j e2
  have hlate : ∀ r ∈ ids, r ∉ regs →
      (if r = self then s.processed r ++ [e] else s.processed r) = [] := by
    intro r hr hnr
    rw [if_neg (fun e2 : r = self => hnr (e2 ▸ hselfm))]
    exact h.late r hr hnr
  by_cases hd : s.slot.readers.length ≤ doneCount (s.slot.hasRead.set i true)
  · have hf : finishRead s.slot (some i) =
        { s.slot with hasRead := s.slot.hasRead.set i true, entry := none, deleted := s.slot.deleted + 1 } := by
      unfold finishRead
      simp only [Option.isSome_some, if_true]
      rw [if_pos hd]
    rw [hf]
    dsimp only
    have hall : ∀ j : Nat, j < ids.length → (s.slot.hasRead.set i true)[j]? = some true := by
      intro j hj
      refine doneCount_all _ ?_ j (by simp [h.flags, hj])
      rw [List.length_set, h.flags, ← hlen]; exact hd
    have hreg : regs.length = ids.length := by
      rcases Nat.lt_or_ge regs.length ids.length with h' | h'
      · exact absurd (hknown _ (hall _ h')) (Nat.lt_irrefl _)
      · omega
    have hpall : ∀ j r : Nat, regs[j]? = some r →
        (if r = self then s.processed r ++ [e] else s.processed r) = s.written := by
      intro j r hj
      have hjl : j < regs.length := by
        rcases Nat.lt_or_ge j regs.length with h' | h'
        · exact h'
        · rw [List.getElem?_eq_none h'] at hj; cases hj
      rw [hproc j r hj, if_pos (hall j (by omega))]
    refine ⟨{
      places := h.places
      distinct := h.distinct
      nodup := h.nodup
      sub := h.sub
      flags := by simp [h.flags]
      kept := by simp [hw]
      known := fun e2 => absurd rfl e2
      full := fun _ => hreg
      late := hlate
      proc := by
        intro j r hj
        show (if r = self then s.processed r ++ [e] else s.processed r) = _
        rw [hpall j r hj]
        dsimp only
        rw [hw]; simp
      idle := by
        intro _ r hr
        obtain ⟨j, hj⟩ := List.mem_iff_getElem?.1 hr
        exact hpall j r hj
      waits := fun e2 => absurd rfl e2 }, fun _ => ?_, fun _ => rfl⟩
    intro r hr
    by_cases hrs : r = self
    · exact .inl hrs
    · refine .inr ?_
      have hrm : r ∈ regs := Classical.byContradiction fun e2 => by
        have := h.lt_of_new hr e2; omega
      obtain ⟨j, hj⟩ := List.mem_iff_getElem?.1 hrm
      have := hpall j r hj
      rwa [if_neg hrs] at this
  · have hf : finishRead s.slot (some i) = { s.slot with hasRead := s.slot.hasRead.set i true } := by
      unfold finishRead
      simp only [Option.isSome_some, if_true]
      rw [if_neg hd]
    rw [hf]
    dsimp only
    rw [he]
    dsimp only
    have hno : ¬ ∀ r ∈ ids, r = self ∨ s.processed r = s.written := by
      intro hall
      apply hd
      rw [hlen]
      have hgoal : ∀ j : Nat, j < (s.slot.hasRead.set i true).length →
          (s.slot.hasRead.set i true)[j]? = some true := by
        intro j hj
        rw [List.length_set, h.flags] at hj
        have hreg : ids.length ≤ regs.length := by
          refine nodup_subset_length h.distinct (fun r hr => ?_)
          refine Classical.byContradiction fun hnr => ?_
          rcases hall r hr with e2 | e2
          · exact hnr (e2 ▸ hselfm)
          · rw [h.late r hr hnr, hw] at e2
            simp at e2
        have hjl : j < regs.length := by omega
        have hj' : regs[j]? = some regs[j] := List.getElem?_eq_getElem hjl
        rcases hall _ (h.sub _ (List.getElem_mem hjl)) with e2 | e2
        · exact (hset j).2 (.inl ((hne _ j hj').1 e2))
        · refine (hset j).2 (.inr ?_)
          rw [h.proc j _ hj'] at e2
          by_cases hx : s.slot.hasRead[j]? = some true
          · exact hx
          · rw [if_neg hx, hw] at e2
            have := congrArg List.length e2
            simp at this
      rw [doneCount_full _ hgoal]
      simp [h.flags]
    refine ⟨{
      places := h.places
      distinct := h.distinct
      nodup := h.nodup
      sub := h.sub
      flags := by simp [h.flags]
      kept := by simp [hw]
      known := fun _ j hj => hknown j hj
      full := h.full
      late := hlate
      proc := hproc
      idle := fun e2 => by
        cases e2
      waits := by
        intro _ _
        refine Classical.byContradiction fun hc => hno (fun r hr => ?_)
        by_cases hrs : r = self
        · exact .inl hrs
        · refine .inr (Classical.byContradiction fun e2 => hc ⟨r, hr, ?_⟩)
          show (if r = self then _ else s.processed r) ≠ s.written
          rw [if_neg hrs]; exact e2 }, fun e2 => (nomatch e2), fun hall => absurd hall hno⟩

end Verif.Slot
