import Verif.Slot.Props
/-!
# The reference counts of the entries in a slot (C29)

The functions which write to a slot differ in what they do with the reference count of the entry:
`rrr_msg_holder_slot_write` and `rrr_msg_holder_slot_write_clone` give a new entry to the slot,
`rrr_msg_holder_slot_write_incref` first puts the entry of the caller in the slot and counts the
reference of the slot after it has given up the lock, and `rrr_msg_holder_slot_write_from_collection`
takes an entry out of the list of the caller after it has given up the lock.

Entries are numbers, and the number of the next new entry is kept. One writer and any number of readers
are modelled.
-/
namespace Verif.Slot
open Verif

/-- What the writer has left to do after having put an entry in the slot. -/
inductive Pc where
  /-- Nothing. -/
  | idle
  /-- The reference of the slot is to be counted, message_holder_slot.c:479. -/
  | incref (e : Nat)
  /-- The caller has a reference of its own, and gives it up later. -/
  | owns (e : Nat)
  /-- The entry is to be taken out of the list, message_holder_slot.c:498. The pointer to the next entry
  is read from it when the list has more entries, linked_list.h:199-209. -/
  | shift (e : Nat) (more : Bool)

/-- The slot, the reference counts, the entries which have been freed and the entry which the writer
has locked. `bad` is set when memory which has been freed is used. -/
structure RState where
  slot : Slot Nat
  refs : Nat → Nat
  freed : Nat → Bool
  next : Nat
  locked : Option Nat
  pc : Pc
  bad : Bool

/-- A new slot. -/
def rstart (n : Nat) : RState :=
  { slot := new Nat n, refs := fun _ => 0, freed := fun _ => false, next := 0, locked := none,
    pc := .idle, bad := false }

/-- What may happen. -/
inductive ROp where
  /-- `rrr_msg_holder_slot_write` and `rrr_msg_holder_slot_write_clone` -/
  | writeNew (put : Bool)
  /-- `rrr_msg_holder_slot_write_incref` up to when the lock is given up. `held`: the caller holds the
  lock of the entry during the call and until it gives up its reference, as modules do which forward
  an entry from a read callback (message_holder_slot.c:239-242). -/
  | writeIncref (put held : Bool)
  /-- One entry in `rrr_msg_holder_slot_write_from_collection` up to when the lock is given up. -/
  | writeCollection (put more : Bool)
  /-- The writer goes on. -/
  | writer
  /-- `rrr_msg_holder_slot_read` -/
  | read (self : Nat) (cb keep : Bool)

/-- `rrr_msg_holder_decref`, message_holder.c:213-221 -/
def decref (s : RState) (e : Nat) : RState :=
  if s.freed e then { s with bad := true }
  else if s.refs e ≤ 1 then
    { s with refs := fun i => if i = e then 0 else s.refs i,
             freed := fun i => if i = e then true else s.freed i }
  else { s with refs := fun i => if i = e then s.refs e - 1 else s.refs i }

/-- A new entry with one reference, `rrr_msg_holder_new`, message_holder.c:232-287. -/
def fresh (s : RState) : RState :=
  { s with refs := fun i => if i = s.next then 1 else s.refs i, next := s.next + 1 }

/-- One step. `none` when the program is ended by `RRR_BUG`. -/
def rstep (s : RState) : ROp → Option RState
  | .writeNew put => match s.pc with
    | .idle =>
      let f := fresh s
      let r := write s.slot s.next put
      if r.2 then some { f with slot := r.1 } else some (decref { f with slot := r.1 } s.next)
    | _ => some s
  | .writeIncref put held => match s.pc with
    | .idle =>
      let f := fresh s
      let r := write s.slot s.next put
      if r.2 then
        some { f with slot := r.1, pc := .incref s.next, locked := if held then some s.next else none }
      else some { f with slot := r.1, pc := .owns s.next, locked := if held then some s.next else none }
    | _ => some s
  | .writeCollection put more => match s.pc with
    | .idle =>
      let f := fresh s
      let r := write s.slot s.next put
      if r.2 then some { f with slot := r.1, pc := .shift s.next more }
      else some { f with slot := r.1, pc := .owns s.next }
    | _ => some s
  | .writer => match s.pc with
    | .idle => some s
    | .incref e =>
      if s.freed e then some { s with bad := true, pc := .owns e }
      else some { s with refs := fun i => if i = e then s.refs e + 1 else s.refs i, pc := .owns e }
    | .owns e => some { decref s e with pc := .idle, locked := none }
    | .shift e more =>
      if more ∧ s.freed e then some { s with bad := true, pc := .idle } else some { s with pc := .idle }
  | .read self cb keep =>
    match s.slot.entry with
    | none => some s
    | some e =>
      -- The reader waits for the lock of the entry
      if s.locked = some e then some s
      else match read s.slot self cb keep with
        | none => none
        | some (slot, given) =>
          -- The entry is copied
          let s' := { s with slot := slot, bad := s.bad || (given.isSome && s.freed e) }
          if slot.entry = none then some (decref s' e) else some s'

/-- A number of steps. -/
def rrun (s : RState) : List ROp → Option RState
  | [] => some s
  | op :: ops => (rstep s op).bind (fun s => rrun s ops)

/-- The caller of `rrr_msg_holder_slot_write_incref` may be left with an entry which has been freed: the
readers are done with the entry before its reference for the slot is counted. This happens when the
caller does not hold the lock of the entry. -/
theorem incref_races : ∃ ops s, rrun (rstart 1) ops = some s ∧ s.bad = true ∧
    ops = [.writeIncref true false, .read 1 true false, .writer] := by
  refine ⟨_, _, rfl, ?_, rfl⟩
  decide +kernel

/-- `rrr_msg_holder_slot_write_from_collection` reads from an entry which has been freed when the
readers are done with the entry before it has been taken out of the list. -/
theorem collection_races : ∃ ops s, rrun (rstart 1) ops = some s ∧ s.bad = true ∧
    ops = [.writeCollection true true, .read 1 true false, .writer] := by
  refine ⟨_, _, rfl, ?_, rfl⟩
  decide +kernel

/-- The functions are used in the ways which are free of races. -/
def Careful (ops : List ROp) : Prop :=
  (∀ put, ROp.writeIncref put false ∉ ops) ∧ (∀ put, ROp.writeCollection put true ∉ ops)

/-- The invariant of careful use. -/
structure RInv (s : RState) : Prop where
  good : s.bad = false
  above : ∀ i, s.next ≤ i → s.freed i = false
  below : ∀ e, s.slot.entry = some e → e < s.next
  pc : match s.pc with
    | .idle => s.locked = none ∧ ∀ e, s.slot.entry = some e → s.refs e = 1 ∧ s.freed e = false
    | .incref x => s.locked = some x ∧ s.slot.entry = some x ∧ s.refs x = 1 ∧ s.freed x = false
    | .owns x => s.freed x = false ∧ x < s.next ∧
        (s.slot.entry = some x → s.locked = some x ∧ s.refs x = 2) ∧
        (∀ e, s.slot.entry = some e → e ≠ x → s.refs e = 1 ∧ s.freed e = false)
    | .shift x more => s.locked = none ∧ more = false ∧
        ∀ e, s.slot.entry = some e → s.refs e = 1 ∧ s.freed e = false

theorem write_entry {α : Type} (s : Slot α) (e : α) (put : Bool) :
    ((write s e put).2 = true ∧ (write s e put).1.entry = some e ∧ s.entry = none) ∨
    ((write s e put).2 = false ∧ (write s e put).1 = s) := by
  unfold write
  cases s.entry with
  | some x => exact .inr ⟨rfl, rfl⟩
  | none =>
    cases put
    · exact .inr ⟨rfl, rfl⟩
    · exact .inl ⟨rfl, rfl, rfl⟩

theorem readerIndex_entry {α : Type} {s s' : Slot α} {self : Nat} {i : Option Nat}
    (h : readerIndex s self = some (s', i)) : s'.entry = s.entry := by
  unfold readerIndex at h
  split at h
  · cases h; rfl
  · split at h
    · cases h
    · cases h; rfl

/-- A read leaves the entry or takes it out. -/
theorem read_entry {α : Type} {s s' : Slot α} {self : Nat} {cb keep : Bool} {g : Option α}
    (h : read s self cb keep = some (s', g)) : s'.entry = s.entry ∨ (s'.entry = none ∧ g = s.entry) := by
  unfold read at h
  split at h
  · cases h; exact .inl rfl
  · rename_i e he
    split at h
    · cases h
    · rename_i s1 i hs1
      have hent := readerIndex_entry hs1
      split at h
      · cases h; exact .inl hent
      · split at h
        · cases h; exact .inl hent
        · split at h
          · cases h; exact .inl hent
          · cases h
            cases i <;>
            · unfold finishRead
              simp only [Option.isSome_some, Option.isSome_none, if_true, Bool.false_eq_true, if_false]
              split
              · exact .inr ⟨rfl, he.symm⟩
              · exact .inl hent

theorem rstep_inv {s s' : RState} (h : RInv s) {op : ROp} (hc : Careful [op])
    (hs : rstep s op = some s') : RInv s' := by
  cases op with
  | writeNew put =>
    unfold rstep at hs
    have hpc := h.pc
    cases hp : s.pc with
    | idle =>
      rw [hp] at hs hpc
      dsimp only at hs hpc
      have hlt : ∀ e, s.slot.entry = some e → e ≠ s.next := fun e he => Nat.ne_of_lt (h.below e he)
      rcases write_entry s.slot s.next put with ⟨w1, w2, w3⟩ | ⟨w1, w2⟩
      · rw [if_pos w1] at hs
        cases hs
        refine ⟨h.good, fun i hi => h.above i (Nat.le_of_succ_le hi), ?_, ?_⟩
        · intro e he
          have he : (write s.slot s.next put).1.entry = some e := he
          rw [w2] at he; cases he
          exact Nat.lt_succ_self _
        · show match s.pc with
            | .idle => _
            | .incref x => _
            | .owns x => _
            | .shift x more => _
          rw [hp]
          refine ⟨hpc.1, fun e he => ?_⟩
          have he : (write s.slot s.next put).1.entry = some e := he
          rw [w2] at he; cases he
          exact ⟨by simp [fresh], h.above _ (Nat.le_refl _)⟩
      · rw [if_neg (by rw [w1]; decide), w2] at hs
        cases hs
        have hd : decref { fresh s with slot := s.slot } s.next =
            { fresh s with refs := fun i => if i = s.next then 0 else (fresh s).refs i, freed := fun i => if i = s.next then true else s.freed i } := by
          unfold decref
          rw [if_neg (by show ¬ s.freed s.next = true; rw [h.above _ (Nat.le_refl _)]; decide),
            if_pos (by simp [fresh])]
          rfl
        rw [hd]
        refine ⟨h.good, ?_, fun e he => Nat.lt_succ_of_lt (h.below e he), ?_⟩
        · intro i hi
          have hi : s.next + 1 ≤ i := hi
          show (if i = s.next then true else s.freed i) = false
          rw [if_neg (by omega)]; exact h.above i (by omega)
        · show match s.pc with
            | .idle => _
            | .incref x => _
            | .owns x => _
            | .shift x more => _
          rw [hp]
          refine ⟨hpc.1, fun e he => ?_⟩
          have := hpc.2 e he
          have hne := hlt e he
          simp [fresh, hne, this]
    | incref x => rw [hp] at hs; cases hs; exact h
    | owns x => rw [hp] at hs; cases hs; exact h
    | shift x m => rw [hp] at hs; cases hs; exact h
  | writeIncref put held =>
    have hheld : held = true := by
      cases held
      · exact absurd List.mem_cons_self (hc.1 put)
      · rfl
    subst hheld
    unfold rstep at hs
    have hpc := h.pc
    cases hp : s.pc with
    | idle =>
      rw [hp] at hs hpc
      dsimp only at hs hpc
      rcases write_entry s.slot s.next put with ⟨w1, w2, w3⟩ | ⟨w1, w2⟩
      · rw [if_pos w1] at hs
        cases hs
        refine ⟨h.good, fun i hi => h.above i (Nat.le_of_succ_le hi), ?_, ?_⟩
        · intro e he
          have he : (write s.slot s.next put).1.entry = some e := he
          rw [w2] at he; cases he
          exact Nat.lt_succ_self _
        · exact ⟨rfl, w2, by simp [fresh], h.above _ (Nat.le_refl _)⟩
      · rw [if_neg (by rw [w1]; decide), w2] at hs
        cases hs
        refine ⟨h.good, fun i hi => h.above i (Nat.le_of_succ_le hi),
          fun e he => Nat.lt_succ_of_lt (h.below e he), h.above _ (Nat.le_refl _), Nat.lt_succ_self _, ?_, ?_⟩
        · intro he
          exact absurd (h.below _ he) (Nat.lt_irrefl _)
        · intro e he hne
          have := hpc.2 e he
          simp [fresh, hne, this]
    | incref x => rw [hp] at hs; cases hs; exact h
    | owns x => rw [hp] at hs; cases hs; exact h
    | shift x m => rw [hp] at hs; cases hs; exact h
  | writeCollection put more =>
    have hmore : more = false := by
      cases more
      · rfl
      · exact absurd List.mem_cons_self (hc.2 put)
    subst hmore
    unfold rstep at hs
    have hpc := h.pc
    cases hp : s.pc with
    | idle =>
      rw [hp] at hs hpc
      dsimp only at hs hpc
      rcases write_entry s.slot s.next put with ⟨w1, w2, w3⟩ | ⟨w1, w2⟩
      · rw [if_pos w1] at hs
        cases hs
        refine ⟨h.good, fun i hi => h.above i (Nat.le_of_succ_le hi), ?_, hpc.1, rfl, ?_⟩
        · intro e he
          have he : (write s.slot s.next put).1.entry = some e := he
          rw [w2] at he; cases he
          exact Nat.lt_succ_self _
        · intro e he
          have he : (write s.slot s.next put).1.entry = some e := he
          rw [w2] at he; cases he
          exact ⟨by simp [fresh], h.above _ (Nat.le_refl _)⟩
      · rw [if_neg (by rw [w1]; decide), w2] at hs
        cases hs
        refine ⟨h.good, fun i hi => h.above i (Nat.le_of_succ_le hi),
          fun e he => Nat.lt_succ_of_lt (h.below e he), h.above _ (Nat.le_refl _), Nat.lt_succ_self _, ?_, ?_⟩
        · intro he
          exact absurd (h.below _ he) (Nat.lt_irrefl _)
        · intro e he hne
          have := hpc.2 e he
          simp [fresh, hne, this]
    | incref x => rw [hp] at hs; cases hs; exact h
    | owns x => rw [hp] at hs; cases hs; exact h
    | shift x m => rw [hp] at hs; cases hs; exact h
  | writer =>
    unfold rstep at hs
    have hpc := h.pc
    cases hp : s.pc with
    | idle => rw [hp] at hs; cases hs; exact h
    | incref x =>
      rw [hp] at hs hpc
      dsimp only at hs hpc
      rw [if_neg (by rw [hpc.2.2.2]; decide)] at hs
      cases hs
      refine ⟨h.good, h.above, h.below, hpc.2.2.2, h.below _ hpc.2.1, ?_, ?_⟩
      · intro _
        exact ⟨hpc.1, by simp [hpc.2.2.1]⟩
      · intro e he hne
        rw [hpc.2.1] at he; cases he; exact absurd rfl hne
    | owns x =>
      rw [hp] at hs hpc
      dsimp only at hs hpc
      cases hs
      obtain ⟨p1, p2, p3, p4⟩ := hpc
      unfold decref
      rw [if_neg (by rw [p1]; decide)]
      split
      · rename_i hle
        refine ⟨h.good, ?_, h.below, rfl, ?_⟩
        · intro i hi
          have hi : s.next ≤ i := hi
          show (if i = x then true else s.freed i) = false
          rw [if_neg (by omega)]; exact h.above i hi
        · intro e he
          have hne : e ≠ x := fun e2 => by
            rw [e2] at he
            have := (p3 he).2; omega
          have := p4 e he hne
          simp [hne, this]
      · refine ⟨h.good, h.above, h.below, rfl, ?_⟩
        intro e he
        by_cases hex : e = x
        · subst hex
          have := (p3 he).2
          simp [this, p1]
        · have := p4 e he hex
          simp [hex, this]
    | shift x m =>
      rw [hp] at hs hpc
      dsimp only at hs hpc
      rw [if_neg (by rw [hpc.2.1]; exact fun e => nomatch e.1)] at hs
      cases hs
      exact ⟨h.good, h.above, h.below, hpc.1, hpc.2.2⟩
  | read self cb keep =>
    unfold rstep at hs
    dsimp only at hs
    split at hs
    · cases hs; exact h
    · rename_i e he
      split at hs
      · cases hs; exact h
      · rename_i hl
        split at hs
        · cases hs
        · rename_i slot g hrd
          have hrefs : s.refs e = 1 ∧ s.freed e = false ∧ (∀ x, s.pc ≠ .incref x) ∧
              (∀ x, s.pc = .owns x → x ≠ e) := by
            have hpc := h.pc
            cases hp : s.pc with
            | idle =>
              rw [hp] at hpc
              exact ⟨(hpc.2 e he).1, (hpc.2 e he).2, fun x e2 => (nomatch e2), fun x e2 => (nomatch e2)⟩
            | incref x =>
              rw [hp] at hpc
              dsimp only at hpc
              rw [he] at hpc
              have : e = x := by have := hpc.2.1; cases this; rfl
              rw [this] at hl; exact absurd hpc.1 hl
            | owns x =>
              rw [hp] at hpc
              have hne : e ≠ x := fun e2 => by
                subst e2
                exact hl (hpc.2.2.1 he).1
              have := hpc.2.2.2 e he hne
              refine ⟨this.1, this.2, fun x e2 => (nomatch e2), fun y e2 => ?_⟩
              cases e2; exact hne.symm
            | shift x m =>
              rw [hp] at hpc
              exact ⟨(hpc.2.2 e he).1, (hpc.2.2 e he).2, fun x e2 => (nomatch e2), fun x e2 => (nomatch e2)⟩
          have hbad : (s.bad || (g.isSome && s.freed e)) = false := by
            rw [h.good, hrefs.2.1]; simp
          split at hs
          · rename_i hn
            cases hs
            unfold decref
            rw [if_neg (by show ¬ s.freed e = true; rw [hrefs.2.1]; decide),
              if_pos (by show s.refs e ≤ 1; rw [hrefs.1]; exact Nat.le_refl _)]
            have hno : ∀ y : Nat, slot.entry ≠ some y := fun y e2 => by rw [hn] at e2; cases e2
            refine ⟨hbad, ?_, fun y e2 => absurd e2 (hno y), ?_⟩
            · intro i hi
              have hi : s.next ≤ i := hi
              have := h.below e he
              show (if i = e then true else s.freed i) = false
              rw [if_neg (by omega)]; exact h.above i hi
            · have hpc := h.pc
              show match s.pc with
                | .idle => s.locked = none ∧ _
                | .incref x => _
                | .owns x => _
                | .shift x more => s.locked = none ∧ more = false ∧ _
              cases hp : s.pc with
              | idle =>
                rw [hp] at hpc
                exact ⟨hpc.1, fun y e2 => absurd e2 (hno y)⟩
              | incref x => exact absurd hp (hrefs.2.2.1 x)
              | owns x =>
                rw [hp] at hpc
                refine ⟨?_, hpc.2.1, fun e2 => absurd e2 (hno x), fun y e2 => absurd e2 (hno y)⟩
                show (if x = e then true else s.freed x) = false
                rw [if_neg (hrefs.2.2.2 x hp)]; exact hpc.1
              | shift x m =>
                rw [hp] at hpc
                exact ⟨hpc.1, hpc.2.1, fun y e2 => absurd e2 (hno y)⟩
          · rename_i hn
            cases hs
            have hent : slot.entry = s.slot.entry := by
              rcases read_entry hrd with e2 | e2
              · exact e2
              · exact absurd e2.1 hn
            refine ⟨hbad, h.above, fun y e2 => h.below y (hent ▸ e2), ?_⟩
            have hpc := h.pc
            show match s.pc with
              | .idle => s.locked = none ∧ ∀ e, slot.entry = some e → s.refs e = 1 ∧ s.freed e = false
              | .incref x => s.locked = some x ∧ slot.entry = some x ∧ s.refs x = 1 ∧ s.freed x = false
              | .owns x => s.freed x = false ∧ x < s.next ∧
                  (slot.entry = some x → s.locked = some x ∧ s.refs x = 2) ∧
                  (∀ e, slot.entry = some e → e ≠ x → s.refs e = 1 ∧ s.freed e = false)
              | .shift x more => s.locked = none ∧ more = false ∧
                  ∀ e, slot.entry = some e → s.refs e = 1 ∧ s.freed e = false
            rw [hent]; exact hpc

/-- C29: When a module which forwards an entry holds the lock of the entry until it gives up its own
reference, and no more than one entry is written from a list at a time, no memory is used after it has
been freed, for all orders of the steps of the writer and of the readers. -/
theorem careful_safe (n : Nat) (ops : List ROp) (hc : Careful ops) (s : RState)
    (hs : rrun (rstart n) ops = some s) : s.bad = false := by
  have key : ∀ (ops : List ROp) (s0 s : RState), Careful ops → RInv s0 → rrun s0 ops = some s → RInv s := by
    intro ops
    induction ops with
    | nil => intro s0 s _ h hs; cases hs; exact h
    | cons op ops ih =>
      intro s0 s hc h hs
      simp only [rrun] at hs
      cases h1 : rstep s0 op with
      | none => rw [h1] at hs; cases hs
      | some s1 =>
        rw [h1] at hs
        have c1 : Careful [op] := by
          constructor
          · intro put hm
            rw [List.mem_singleton] at hm
            exact hc.1 put (by rw [hm]; exact List.mem_cons_self)
          · intro put hm
            rw [List.mem_singleton] at hm
            exact hc.2 put (by rw [hm]; exact List.mem_cons_self)
        have c2 : Careful ops := ⟨fun put hm => hc.1 put (List.mem_cons_of_mem _ hm),
          fun put hm => hc.2 put (List.mem_cons_of_mem _ hm)⟩
        exact ih s1 s c2 (rstep_inv h c1 h1) hs
  refine (key ops _ _ hc ?_ hs).good
  refine ⟨rfl, fun _ _ => rfl, fun e he => (nomatch he), rfl, fun e he => (nomatch he)⟩

/-- A careful run in which an entry is forwarded and read by two readers. -/
example : Careful [.writeIncref true true, .read 1 true false, .writer, .read 1 true false, .writer,
    .read 1 true false, .read 2 true false, .writeNew true, .read 2 true false] ∧
    (rrun (rstart 2) [.writeIncref true true, .read 1 true false, .writer, .read 1 true false, .writer,
      .read 1 true false, .read 2 true false, .writeNew true, .read 2 true false]).map
      (fun s => (s.bad, s.freed 0, s.slot.entry, s.refs 1)) = some (false, true, some 1, 1) := by
  refine ⟨⟨?_, ?_⟩, by decide +kernel⟩ <;> intro put h <;> simp at h

end Verif.Slot
