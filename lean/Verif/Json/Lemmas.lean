import Verif.Json.Spec
import Verif.Types.Import
/-!
# What is found while a tree is walked
-/
namespace Verif.Json
open Verif Types Json Spec

/-- What is met, in order: a plain value of a member, a loose value, or an object after all of its members. -/
inductive Item where
  | value (j : J)
  | loose (j : J)
  | object (ms : List (Bytes × J))

/-- Whether a value is plain. -/
def isPlain : J → Bool
  | .arr _ => false
  | .obj _ => false
  | _ => true

theorem isPlain_iff (j : J) : isPlain j = true ↔ Plain j := by cases j <;> simp [isPlain, Plain]

mutual
/-- What is met in a tree. -/
def walk (n : Nat) : J → List (Nat × Item)
  | .arr l => walkElements n l
  | .obj ms => walkMembers n ms ++ [(n, .object ms)]
  | .null => [(n, .loose .null)]
  | .bool b => [(n, .loose (.bool b))]
  | .int i => [(n, .loose (.int i))]
  | .double d => [(n, .loose (.double d))]
  | .str s => [(n, .loose (.str s))]
/-- What is met in the elements of an array. -/
def walkElements (n : Nat) : List J → List (Nat × Item)
  | [] => []
  | j :: l => walk (n + 1) j ++ walkElements n l
/-- What is met in the members of an object. -/
def walkMembers (n : Nat) : List (Bytes × J) → List (Nat × Item)
  | [] => []
  | (_, j) :: ms => (if isPlain j then [(n, .value j)] else walk (n + 1) j) ++ walkMembers n ms
end

/-- What lies within the limit. -/
def visible (max : Nat) (l : List (Nat × Item)) : List Item := (l.filter fun p => p.1 ≤ max).map (·.2)

/-- Whether the value can be put into an array. -/
def convertible (e : Env) : J → Bool
  | .double d => (e.fixp d).isSome
  | _ => true

/-- The values pushed for the members. -/
def valuesOf (e : Env) (ms : List (Bytes × J)) : List Value := ms.filterMap fun p => (push e p.1 p.2).join

/-- What happens with what is met, until the first failure. -/
def feed {σ : Type} (e : Env) (cb : Callback σ) : σ → List Item → Nat × σ
  | s, [] => (0, s)
  | s, .value j :: l => if convertible e j then feed e cb s l else (PARSE_ERROR, s)
  | s, .loose _ :: _ => (PARSE_ERROR, s)
  | s, .object ms :: l => match cb s (valuesOf e ms) with
    | (0, s) => feed e cb s l
    | r => r

/-- Going on after success. -/
def next {σ : Type} (r : Nat × σ) (f : σ → Nat × σ) : Nat × σ :=
  match r with
  | (0, s) => f s
  | r => r

theorem next_next {σ : Type} (r : Nat × σ) (f g : σ → Nat × σ) : next (next r f) g = next r fun s => next (f s) g := by
  obtain ⟨c, s⟩ := r
  cases c <;> rfl

theorem feed_append {σ : Type} (e : Env) (cb : Callback σ) (s : σ) (a b : List Item) :
    feed e cb s (a ++ b) = next (feed e cb s a) fun s => feed e cb s b := by
  induction a generalizing s with
  | nil => rfl
  | cons i a ih =>
    cases i with
    | value j =>
      show (if convertible e j then feed e cb s (a ++ b) else (PARSE_ERROR, s)) = next (if convertible e j then feed e cb s a else (PARSE_ERROR, s)) _
      cases convertible e j
      · rfl
      · exact ih s
    | loose j => rfl
    | object ms =>
      show next (cb s (valuesOf e ms)) (fun s => feed e cb s (a ++ b)) = next (next (cb s (valuesOf e ms)) fun s => feed e cb s a) _
      rw [next_next]
      congr 1
      funext s
      exact ih s

theorem visible_append (max : Nat) (a b : List (Nat × Item)) : visible max (a ++ b) = visible max a ++ visible max b := by
  simp [visible]

mutual
theorem walk_level (n : Nat) : (j : J) → ∀ p ∈ walk n j, n ≤ p.1
  | .arr l => walkElements_level n l
  | .obj ms => by
    intro p hp
    simp only [walk, List.mem_append, List.mem_singleton] at hp
    rcases hp with hp | hp
    · exact walkMembers_level n ms p hp
    · rw [hp]; exact Nat.le_refl n
  | .null => by simp [walk]
  | .bool b => by simp [walk]
  | .int i => by simp [walk]
  | .double d => by simp [walk]
  | .str s => by simp [walk]
theorem walkElements_level (n : Nat) : (l : List J) → ∀ p ∈ walkElements n l, n ≤ p.1
  | [] => by simp [walkElements]
  | j :: l => by
    intro p hp
    simp only [walkElements, List.mem_append] at hp
    rcases hp with hp | hp
    · exact Nat.le_of_succ_le (walk_level (n + 1) j p hp)
    · exact walkElements_level n l p hp
theorem walkMembers_level (n : Nat) : (ms : List (Bytes × J)) → ∀ p ∈ walkMembers n ms, n ≤ p.1
  | [] => by simp [walkMembers]
  | (k, j) :: ms => by
    intro p hp
    simp only [walkMembers, List.mem_append] at hp
    rcases hp with hp | hp
    · cases h : isPlain j
      · rw [h] at hp
        exact Nat.le_of_succ_le (walk_level (n + 1) j p hp)
      · rw [h] at hp
        simp at hp
        rw [hp]; exact Nat.le_refl n
    · exact walkMembers_level n ms p hp
end

theorem visible_walk_high (max n : Nat) (j : J) (h : n > max) : visible max (walk n j) = [] := by
  unfold visible
  rw [List.map_eq_nil_iff, List.filter_eq_nil_iff]
  intro p hp
  have := walk_level n j p hp
  simp; omega

theorem push_plain (e : Env) (k : Bytes) (j : J) (h : isPlain j = true) (hc : convertible e j = true) :
    ∃ v, push e k j = some (some v) := by
  cases j with
  | double d =>
    simp only [push]
    cases hf : e.fixp d with
    | none => simp [convertible, hf] at hc
    | some x => exact ⟨_, rfl⟩
  | arr l => cases h
  | obj ms => cases h
  | _ => exact ⟨_, rfl⟩

theorem push_bad (e : Env) (k : Bytes) (j : J) (hc : convertible e j = false) : push e k j = none := by
  cases j with
  | double d =>
    simp only [push]
    cases hf : e.fixp d with
    | none => rfl
    | some x => simp [convertible, hf] at hc
  | _ => cases hc

theorem push_deep (e : Env) (k : Bytes) (j : J) (h : isPlain j = false) : push e k j = some none := by
  cases j <;> first | rfl | cases h

mutual
/-- What the code does is to feed what is met within the limit. -/
theorem recurse_eq {σ : Type} (e : Env) (max : Nat) (cb : Callback σ) (n : Nat) (s : σ) :
    (j : J) → recurse e max cb n s j = feed e cb s (visible max (walk n j))
  | .arr l => by
    by_cases h : n > max
    · rw [visible_walk_high max n _ h]; simp only [recurse, h, if_true]; rfl
    · simp only [recurse, h, if_false, walk]; exact elements_eq e max cb n s l
  | .obj ms => by
    by_cases h : n > max
    · rw [visible_walk_high max n _ h]; simp only [recurse, h, if_true]; rfl
    · simp only [recurse, h, if_false, walk]
      rw [members_eq e max cb n (by omega) s [] ms, visible_append, feed_append]
      congr 1
      funext s'
      have : visible max [(n, Item.object ms)] = [.object ms] := by
        have : n ≤ max := by omega
        simp [visible, this]
      rw [this, List.nil_append]
      show _ = next (cb s' (valuesOf e ms)) fun s => (0, s)
      obtain ⟨c, s''⟩ := cb s' (valuesOf e ms)
      cases c <;> rfl
  | .null => by simp only [recurse, walk]; exact loose_eq e max cb n s _
  | .bool b => by simp only [recurse, walk]; exact loose_eq e max cb n s _
  | .int i => by simp only [recurse, walk]; exact loose_eq e max cb n s _
  | .double d => by simp only [recurse, walk]; exact loose_eq e max cb n s _
  | .str t => by simp only [recurse, walk]; exact loose_eq e max cb n s _
theorem loose_eq {σ : Type} (e : Env) (max : Nat) (cb : Callback σ) (n : Nat) (s : σ) (j : J) :
    (if n > max then (OK, s) else (PARSE_ERROR, s)) = feed e cb s (visible max [(n, .loose j)]) := by
  by_cases h : n > max
  · have : ¬ n ≤ max := by omega
    simp [visible, h, this, feed, OK]
  · have : n ≤ max := by omega
    simp [visible, h, this, feed]
theorem elements_eq {σ : Type} (e : Env) (max : Nat) (cb : Callback σ) (n : Nat) (s : σ) :
    (l : List J) → elements e max cb n s l = feed e cb s (visible max (walkElements n l))
  | [] => by simp only [elements, walkElements]; rfl
  | j :: l => by
    simp only [elements, walkElements]
    rw [visible_append, feed_append, recurse_eq e max cb (n + 1) s j]
    show next (feed e cb s (visible max (walk (n + 1) j))) (fun s => elements e max cb n s l) = _
    congr 1
    funext s'
    exact elements_eq e max cb n s' l
theorem members_eq {σ : Type} (e : Env) (max : Nat) (cb : Callback σ) (n : Nat) (hn : n ≤ max) (s : σ) (pushed : List Value) :
    (ms : List (Bytes × J)) → members e max cb n s pushed ms =
      next (feed e cb s (visible max (walkMembers n ms))) fun s => cb s (pushed ++ valuesOf e ms)
  | [] => by simp only [members, walkMembers, valuesOf, List.filterMap_nil, List.append_nil]; rfl
  | (k, j) :: ms => by
    simp only [members, walkMembers]
    rw [visible_append, feed_append, next_next]
    cases hp : isPlain j
    · rw [push_deep e k j hp]
      have hv : valuesOf e ((k, j) :: ms) = valuesOf e ms := by simp [valuesOf, push_deep e k j hp]
      rw [hv]
      simp only [Bool.false_eq_true, if_false]
      rw [recurse_eq e max cb (n + 1) s j]
      show next (feed e cb s (visible max (walk (n + 1) j))) (fun s => members e max cb n s pushed ms) = _
      congr 1
      funext s'
      exact members_eq e max cb n hn s' pushed ms
    · have hvis : visible max (if true = true then [(n, Item.value j)] else walk (n + 1) j) = [.value j] := by simp [visible, hn]
      rw [hvis]
      cases hc : convertible e j
      · rw [push_bad e k j hc]
        simp [feed, hc, next, PARSE_ERROR]
      · obtain ⟨v, hv⟩ := push_plain e k j hp hc
        rw [hv]
        have : valuesOf e ((k, j) :: ms) = v :: valuesOf e ms := by simp [valuesOf, hv]
        rw [this]
        simp only [feed, hc, if_true]
        show members e max cb n s (pushed ++ [v]) ms = next (feed e cb s (visible max (walkMembers n ms))) _
        rw [members_eq e max cb n hn s (pushed ++ [v]) ms]
        simp
end

end Verif.Json
