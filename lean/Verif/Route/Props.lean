import Verif.Route.Model
/-!
# Backstop, topic filter and next hops (C96)
-/
namespace Verif.Route
open Verif

variable {α : Type}

/-- Nobody polls from itself. -/
def NoLoop : Nat → List Hop → Prop
  | _, [] => True
  | s, h :: t => h.reader ≠ s ∧ NoLoop h.reader t

/-- The reader wants messages like `m`: it has no topic filter, or this matches, or is inverted and does not match. -/
def Wants (i : Inst α) (m : α) : Prop :=
  ∀ f, i.filter = some f → (i.invert = false ∧ f m = true) ∨ (i.invert = true ∧ f m = false)

theorem filterOk_iff (i : Inst α) (r : Nat) (e : Entry α) : filterOk i r e = true ↔ Wants i e.msg ∧ (e.nexthops = [] ∨ r ∈ e.nexthops) := by
  unfold filterOk nexthopOk Wants
  cases hf : i.filter with
  | none => simp
  | some f => cases hi : i.invert <;> simp

theorem mark_keeps (src : Nat) (e : Entry α) : (mark src e).msg = e.msg ∧ (mark src e).nexthops = e.nexthops := by
  unfold mark; split <;> exact ⟨rfl, rfl⟩

theorem pollOne_source (i : Inst α) (r src : Nat) (e : Entry α) : (pollOne i r src e).2.source = some (e.source.getD src) := by
  unfold pollOne
  split
  · rename_i h
    simp only [Bool.and_eq_true, beq_iff_eq] at h
    rw [h.2]; rfl
  · cases h : e.source <;> simp [mark, h]

/-- With `source` set, the poll of this instance is in vain if it has the backstop, and entries keep it. -/
theorem backstop_aux (c : Nat → Inst α) (s : Nat) (hs : (c s).backstop = true) (hd : ∀ r, (c r).dup = false) (t : List Hop) : ∀ (at_ : Nat) (e : Entry α), e.source = some s →
    (∀ h ∈ t, h.way = .same) → (s, true) ∉ travel c at_ e t := by
  induction t with
  | nil => intro _ _ _ _ h; cases h
  | cons x t ih =>
    intro at_ e he hw hm
    have ht : toReader (c at_) e = e := by rw [toReader, hd]; rfl
    simp only [travel, ht] at hm
    rcases List.mem_cons.1 hm with h | h
    · rw [Prod.mk.injEq] at h
      rw [← h.1] at h
      have : (pollOne (c s) s at_ e).1 = false := by
        unfold pollOne
        rw [hs, he]
        simp
      rw [this] at h
      cases h.2
    · split at h
      · refine ih _ _ ?_ (fun y hy => hw y (List.mem_cons_of_mem _ hy)) h
        rw [hw x List.mem_cons_self]
        show (pollOne (c x.reader) x.reader at_ e).2.source = some s
        rw [pollOne_source, he]
        rfl
      · cases h

/-- **C96.** Where messages are passed on as they are (not copied) and no output is duplicated, an instance with the backstop is never given back a message which it made, whatever way this takes. -/
theorem backstop_partial (c : Nat → Inst α) (s : Nat) (m : α) (hops : List Nat) (t : List Hop) (hl : NoLoop s t) (hs : (c s).backstop = true) (hd : ∀ r, (c r).dup = false) (hw : ∀ h ∈ t, h.way = .same) :
    (s, true) ∉ travel c s (new m hops) t := by
  cases t with
  | nil => intro h; cases h
  | cons x t =>
    intro hm
    have ht : toReader (c s) (new m hops) = new m hops := by rw [toReader, hd]; rfl
    simp only [travel, ht] at hm
    rcases List.mem_cons.1 hm with h | h
    · rw [Prod.mk.injEq] at h
      exact hl.1 h.1.symm
    · split at h
      · refine backstop_aux c s hs hd t _ _ ?_ (fun y hy => hw y (List.mem_cons_of_mem _ hy)) h
        rw [hw x List.mem_cons_self]
        show (pollOne (c x.reader) x.reader s (new m hops)).2.source = some s
        rw [pollOne_source]
        rfl
      · cases h

/-- **C96.** A message which an instance made is given to a reader of its output exactly if the reader's topic filter lets it through and the reader is among the next hops, if there are any; duplicated output makes no difference. -/
theorem first_reader (c : Nat → Inst α) (s : Nat) (m : α) (hops : List Nat) (h : Hop) (t : List Hop) :
    (travel c s (new m hops) (h :: t)).head? = some (h.reader, true) ↔ Wants (c h.reader) m ∧ (hops = [] ∨ h.reader ∈ hops) := by
  simp only [travel, List.head?_cons, Option.some.injEq, Prod.mk.injEq, true_and]
  have ht : toReader (c s) (new m hops) = new m hops := by
    unfold toReader
    split <;> rfl
  rw [ht]
  unfold pollOne
  rw [show (new m hops : Entry α).source = none from rfl]
  rw [if_neg (by simp)]
  exact filterOk_iff _ _ _

/-- **C96.** On all of its way: who is given it does not filter it out, and is among the next hops which the instance before it named, if it named any. -/
theorem every_reader (c : Nat → Inst α) (t : List Hop) : ∀ (at_ : Nat) (e : Entry α) (i : Nat) (r : Nat), (travel c at_ e t)[i]? = some (r, true) →
    Wants (c r) e.msg ∧ ((e.nexthops :: t.map Hop.hops)[i]? = some [] ∨ ∃ hs, (e.nexthops :: t.map Hop.hops)[i]? = some hs ∧ r ∈ hs) := by
  induction t with
  | nil => intro _ _ i r h; simp [travel] at h
  | cons x t ih =>
    intro at_ e i r h
    have hmsg : ∀ e : Entry α, (pollOne (c x.reader) x.reader at_ e).2.msg = e.msg := by
      intro e; unfold pollOne; split
      · rfl
      · exact (mark_keeps _ _).1
    have htm : (toReader (c at_) e).msg = e.msg ∧ (toReader (c at_) e).nexthops = e.nexthops := by
      unfold toReader; split <;> exact ⟨rfl, rfl⟩
    simp only [travel] at h
    cases i with
    | zero =>
      simp only [List.getElem?_cons_zero, Option.some.injEq, Prod.mk.injEq] at h
      obtain ⟨h1, h2⟩ := h
      subst h1
      unfold pollOne at h2
      split at h2
      · cases h2
      · have := (filterOk_iff _ _ _).1 h2
        rw [(mark_keeps _ _).1, (mark_keeps _ _).2, htm.1, htm.2] at this
        refine ⟨this.1, ?_⟩
        simp only [List.getElem?_cons_zero, Option.some.injEq]
        rcases this.2 with h | h
        · exact Or.inl h
        · exact Or.inr ⟨_, rfl, h⟩
    | succ n =>
      rw [List.getElem?_cons_succ] at h
      split at h
      · have := ih _ _ n r h
        have hm : (write x.way x.hops (pollOne (c x.reader) x.reader at_ (toReader (c at_) e)).2).msg = e.msg := by
          cases x.way <;> (show (pollOne (c x.reader) x.reader at_ (toReader (c at_) e)).2.msg = e.msg; rw [hmsg, htm.1])
        have hn : (write x.way x.hops (pollOne (c x.reader) x.reader at_ (toReader (c at_) e)).2).nexthops = x.hops := by
          cases x.way <;> rfl
        rw [hm, hn] at this
        simpa using this
      · simp at h

def plain (dup : Bool) : Inst Nat := ⟨true, none, false, dup⟩

/-- Two instances which read from each other. -/
def there_and_back (w : Way) : List Hop := [⟨2, w, []⟩, ⟨1, w, []⟩]

/-- `backstop_partial` applies, and 2 is given the message. -/
example : NoLoop 1 (there_and_back .same) ∧ travel (fun _ => plain false) 1 (new 5 []) (there_and_back .same) = [(2, true), (1, false)] :=
  ⟨⟨by decide, by decide, trivial⟩, by decide⟩

/-- **Violation of C96**: when the output is duplicated the copies for the readers are not marked with where the message comes from, and it is given back to the instance which made it, in spite of the backstop. -/
theorem backstop_fails_if_duplicated : travel (fun _ => plain true) 1 (new 5 []) (there_and_back .same) = [(2, true), (1, true)] := by decide

/-- **Violation of C96**: the same when the module in between writes a copy. -/
theorem backstop_fails_if_copied : travel (fun _ => plain false) 1 (new 5 []) (there_and_back .copy) = [(2, true), (1, true)] := by decide

/-- Filters and next hops: 2 wants messages greater than 3, 3 all others. -/
def cfgF (r : Nat) : Inst Nat := ⟨true, if r = 2 ∨ r = 3 then some (fun m => decide (3 < m)) else none, r == 3, false⟩

example : travel cfgF 1 (new 5 [2]) [⟨2, .same, [4]⟩, ⟨4, .same, []⟩, ⟨3, .same, []⟩, ⟨5, .same, []⟩] = [(2, true), (4, true), (3, false)] ∧
    Wants (cfgF 2) 5 ∧ ¬ Wants (cfgF 3) 5 := by
  refine ⟨by decide, ?_, ?_⟩
  · intro f hf
    cases hf
    left
    exact ⟨rfl, rfl⟩
  · intro h
    rcases h _ rfl with h | h
    · exact absurd h.1 (by decide)
    · exact absurd h.2 (by decide)

end Verif.Route
