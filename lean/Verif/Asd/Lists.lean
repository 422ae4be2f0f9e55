import Verif.Asd.Spec
/-!
# The ordered queues
-/
namespace Verif.Asd
open Verif

variable {β : Type} {key : β → Nat}

/-- In order, each id once. -/
def Sorted (key : β → Nat) (q : List β) : Prop := q.Pairwise (fun a b => key a < key b)

theorem findLoop_some {id : Nat} {q : List β} {e : β} (h : findLoop key id q = some e) : e ∈ q ∧ key e = id := by
  induction q with
  | nil => cases h
  | cons a t ih =>
    unfold findLoop at h
    split at h
    · cases h
    · split at h
      · obtain rfl := Option.some.inj h
        exact ⟨List.mem_cons_self, by assumption⟩
      · exact ⟨List.mem_cons_of_mem _ (ih h).1, (ih h).2⟩

theorem findLoop_none {id : Nat} {q : List β} (hs : Sorted key q) (h : findLoop key id q = none) : ∀ e ∈ q, key e ≠ id := by
  induction q with
  | nil => intro e he; cases he
  | cons a t ih =>
    have hs' := List.pairwise_cons.1 hs
    unfold findLoop at h
    split at h
    · intro e he
      rcases List.mem_cons.1 he with e' | e'
      · subst e'; omega
      · have := hs'.1 e e'; omega
    · split at h
      · cases h
      · intro e he
        rcases List.mem_cons.1 he with e' | e'
        · subst e'; assumption
        · exact ih hs'.2 h e e'

theorem findEntry_some {id : Nat} {q : List β} {e : β} (h : findEntry key q id = some e) : e ∈ q ∧ key e = id := by
  unfold findEntry at h
  split at h
  · cases h
  · split at h
    · cases h
    · exact findLoop_some h

theorem Sorted.head_le {a : β} {t : List β} (hs : Sorted key (a :: t)) : ∀ e ∈ a :: t, key a ≤ key e := by
  intro e he
  rcases List.mem_cons.1 he with h | h
  · subst h; exact Nat.le_refl _
  · exact Nat.le_of_lt ((List.pairwise_cons.1 hs).1 e h)

theorem Sorted.le_last {q : List β} (hs : Sorted key q) {l : β} (hl : q.getLast? = some l) : ∀ e ∈ q, key e ≤ key l := by
  obtain ⟨p, rfl⟩ := List.getLast?_eq_some_iff.1 hl
  intro e he
  rcases List.mem_append.1 he with h | h
  · exact Nat.le_of_lt ((List.pairwise_append.1 hs).2.2 e h l (by simp))
  · simp only [List.mem_singleton] at h; subst h; exact Nat.le_refl _

theorem beforeFirst_ne {id : Nat} {q : List β} (hs : Sorted key q) (h : beforeFirst key q id = true) : ∀ e ∈ q, key e ≠ id := by
  cases q with
  | nil => intro e he; cases he
  | cons a t =>
    simp only [beforeFirst, List.head?_cons, decide_eq_true_eq] at h
    intro e he
    have := hs.head_le e he
    omega

theorem afterLast_ne {id : Nat} {q : List β} (hs : Sorted key q) (h : afterLast key q id = true) : ∀ e ∈ q, key e ≠ id := by
  cases hl : q.getLast? with
  | none =>
    simp only [afterLast, hl] at h
    cases h
  | some l =>
    simp only [afterLast, hl, decide_eq_true_eq] at h
    intro e he
    have := hs.le_last hl e he
    omega

theorem findEntry_none {id : Nat} {q : List β} (hs : Sorted key q) (h : findEntry key q id = none) : ∀ e ∈ q, key e ≠ id := by
  unfold findEntry at h
  split at h
  · exact beforeFirst_ne hs (by assumption)
  · split at h
    · exact afterLast_ne hs (by assumption)
    · exact findLoop_none hs h

theorem findEntry_mem {id : Nat} {q : List β} (hs : Sorted key q) {e : β} (he : e ∈ q) (hk : key e = id) : findEntry key q id = some e := by
  cases h : findEntry key q id with
  | none => exact absurd hk (findEntry_none hs h e he)
  | some e' =>
    have := findEntry_some h
    rw [Option.some.injEq]
    by_cases heq : e' = e
    · exact heq
    · exfalso
      have key2 : ∀ {q : List β}, Sorted key q → ∀ a ∈ q, ∀ b ∈ q, key a = key b → a = b := by
        intro q hs
        induction q with
        | nil => intro a ha; cases ha
        | cons c t ih =>
          have hs' := List.pairwise_cons.1 hs
          intro a ha b hb hab
          rcases List.mem_cons.1 ha with h1 | h1 <;> rcases List.mem_cons.1 hb with h2 | h2
          · rw [h1, h2]
          · subst h1; have := hs'.1 b h2; omega
          · subst h2; have := hs'.1 a h1; omega
          · exact ih hs'.2 a h1 b h2 hab
      exact heq (key2 hs _ this.1 _ he (by omega))

theorem Sorted.inj {q : List β} (hs : Sorted key q) {a b : β} (ha : a ∈ q) (hb : b ∈ q) (h : key a = key b) : a = b := by
  have h1 := findEntry_mem hs ha rfl
  have h2 := findEntry_mem hs hb rfl
  rw [h] at h1
  rw [h1] at h2
  exact Option.some.inj h2

theorem removeLoop_eq {id : Nat} {q : List β} (hs : Sorted key q) : removeLoop key id q = q.filter (fun e => decide (key e ≠ id)) := by
  induction q with
  | nil => rfl
  | cons a t ih =>
    have hs' := List.pairwise_cons.1 hs
    unfold removeLoop
    split
    · rw [List.filter_eq_self.2]
      intro e he
      have := hs.head_le e he
      simp only [decide_eq_true_eq]
      omega
    · split
      · rename_i hk
        rw [List.filter_cons_of_neg (by simp [hk]), List.filter_eq_self.2]
        intro e he
        have := hs'.1 e he
        simp only [decide_eq_true_eq]
        omega
      · rename_i hk
        rw [List.filter_cons_of_pos (by simp [hk]), ih hs'.2]

theorem removeEntry_eq {id : Nat} {q : List β} (hs : Sorted key q) : removeEntry key q id = q.filter (fun e => decide (key e ≠ id)) := by
  unfold removeEntry
  have key1 : (∀ e ∈ q, key e ≠ id) → q = q.filter (fun e => decide (key e ≠ id)) := by
    intro h
    symm
    rw [List.filter_eq_self]
    intro e he
    simpa using h e he
  split
  · exact key1 (beforeFirst_ne hs (by assumption))
  · split
    · exact key1 (afterLast_ne hs (by assumption))
    · exact removeLoop_eq hs

theorem Sorted.filter {q : List β} (hs : Sorted key q) (f : β → Bool) : Sorted key (q.filter f) := List.Pairwise.filter f hs

theorem insertLoop_ok {x : β} {q : List β} (hs : Sorted key q) (hn : ∀ e ∈ q, key e ≠ key x) {l : β} (hl : q.getLast? = some l) (hx : ¬ key l < key x) :
    ∃ q', insertLoop key x q = some q' ∧ Sorted key q' ∧ q'.length = q.length + 1 ∧ ∀ e, e ∈ q' ↔ e = x ∨ e ∈ q := by
  induction q with
  | nil => cases hl
  | cons a t ih =>
    have hs' := List.pairwise_cons.1 hs
    unfold insertLoop
    have hna := hn a List.mem_cons_self
    split
    · rename_i h
      refine ⟨_, rfl, ?_, rfl, ?_⟩
      · refine List.pairwise_cons.2 ⟨?_, hs⟩
        intro b hb
        have := hs.head_le b hb
        omega
      · intro e; simp
    · rename_i h
      cases t with
      | nil =>
        simp only [List.getLast?_singleton, Option.some.injEq] at hl
        subst hl
        omega
      | cons b t' =>
        obtain ⟨q', h1, h2, h3, h4⟩ := ih hs'.2 (fun e he => hn e (List.mem_cons_of_mem _ he)) (by rwa [List.getLast?_cons_cons] at hl)
        refine ⟨a :: q', by rw [h1]; rfl, ?_, ?_, ?_⟩
        · refine List.pairwise_cons.2 ⟨?_, h2⟩
          intro c hc
          rcases (h4 c).1 hc with e | e
          · subst e; omega
          · exact hs'.1 c e
        · simp only [List.length_cons] at h3 ⊢; omega
        · intro e
          rw [List.mem_cons, h4 e]
          simp only [List.mem_cons]
          constructor
          · rintro (h | h | h)
            · exact Or.inr (Or.inl h)
            · exact Or.inl h
            · exact Or.inr (Or.inr h)
          · rintro (h | h | h)
            · exact Or.inr (Or.inl h)
            · exact Or.inl h
            · exact Or.inr (Or.inr h)

theorem insertOrdered_ok {x : β} {q : List β} (hs : Sorted key q) (hn : ∀ e ∈ q, key e ≠ key x) :
    ∃ q', insertOrdered key q x = .ok q' ∧ Sorted key q' ∧ q'.length = q.length + 1 ∧ ∀ e, e ∈ q' ↔ e = x ∨ e ∈ q := by
  have happ : (∀ e ∈ q, key e < key x) → Sorted key (q ++ [x]) ∧ (q ++ [x]).length = q.length + 1 ∧ ∀ e, e ∈ q ++ [x] ↔ e = x ∨ e ∈ q := by
    intro h
    refine ⟨List.pairwise_append.2 ⟨hs, by simp, ?_⟩, by simp, ?_⟩
    · intro a ha b hb
      simp only [List.mem_singleton] at hb
      subst hb
      exact h a ha
    · intro e
      simp only [List.mem_append, List.mem_singleton]
      exact Or.comm
  unfold insertOrdered
  cases hl : q.getLast? with
  | none =>
    have : q = [] := List.getLast?_eq_none_iff.1 hl
    subst this
    simp only [if_true]
    exact ⟨_, rfl, happ (by simp)⟩
  | some l =>
    simp only [decide_eq_true_eq]
    split
    · rename_i h
      refine ⟨_, rfl, happ ?_⟩
      intro e he
      have := hs.le_last hl e he
      omega
    · rename_i h
      obtain ⟨q', h1, h2⟩ := insertLoop_ok hs hn hl h
      rw [h1]
      exact ⟨q', rfl, h2⟩

theorem insertEntry_ok {x : β} {q : List β} (hs : Sorted key q) :
    (∃ e ∈ q, key e = key x ∧ insertEntry key q x = .ok q) ∨
    ((∀ e ∈ q, key e ≠ key x) ∧ ∃ q', insertEntry key q x = .ok q' ∧ Sorted key q' ∧ q'.length = q.length + 1 ∧ ∀ e, e ∈ q' ↔ e = x ∨ e ∈ q) := by
  unfold insertEntry
  cases h : findEntry key q (key x) with
  | some e =>
    have := findEntry_some h
    exact Or.inl ⟨e, this.1, this.2, rfl⟩
  | none =>
    have hn := findEntry_none hs h
    exact Or.inr ⟨hn, insertOrdered_ok hs hn⟩

theorem modify_eq {id : Nat} {f : β → β} {q : List β} (hs : Sorted key q) : modify key id f q = q.map (fun e => if key e = id then f e else e) := by
  induction q with
  | nil => rfl
  | cons a t ih =>
    have hs' := List.pairwise_cons.1 hs
    unfold modify
    split
    · rename_i h
      rw [List.map_cons, if_pos h]
      congr 1
      have : ∀ e ∈ t, (fun e => if key e = id then f e else e) e = e := by
        intro e he
        have := hs'.1 e he
        exact if_neg (by omega)
      rw [List.map_congr_left this, List.map_id']
    · rename_i h
      rw [List.map_cons, if_neg h, ih hs'.2]

theorem Sorted.map {q : List β} (hs : Sorted key q) {f : β → β} (hf : ∀ e, key (f e) = key e) : Sorted key (q.map f) := by
  unfold Sorted
  rw [List.pairwise_map]
  refine List.Pairwise.imp ?_ hs
  intro a b h
  rw [hf, hf]
  exact h

theorem find_mem {id : Nat} {q : List β} {e : β} (h : q.find? (fun e => key e == id) = some e) : e ∈ q ∧ key e = id := by
  refine ⟨List.mem_of_find?_eq_some h, ?_⟩
  simpa using List.find?_some h

end Verif.Asd
