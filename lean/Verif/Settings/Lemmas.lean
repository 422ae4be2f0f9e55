import Verif.Settings.Spec
import Verif.Http.LineExact
/-! Lemmas for settings. -/
namespace Verif.Settings
open Verif Verif.Settings.Spec

theorem find_get (p : Setting → Bool) : ∀ l : List Setting,
    (match l.findIdx? p with | none => none | some i => l[i]?) = l.find? p := by
  intro l
  induction l with
  | nil => rfl
  | cons x l ih =>
    rw [List.findIdx?_cons, List.find?_cons]
    cases hx : p x with
    | true => rfl
    | false =>
      simp only [Bool.false_eq_true, if_false]
      cases hl : l.findIdx? p with
      | none => rw [hl] at ih; simpa using ih
      | some i => rw [hl] at ih; simpa using ih

theorem findUsed_snd (used : List Bool) (s : Store) (n : Bytes) :
    (findUsed used s n).2 = s.list.find? fun x => x.name == n := by
  rw [← find_get]
  unfold findUsed find
  cases s.list.findIdx? fun x => x.name == n <;> rfl

/-- The value which a list of settings has for a name. -/
def look (l : List Setting) (n : Bytes) : Option Data := (l.find? fun x => x.name == n).map (·.data)

theorem find_none {l : List Setting} {n : Bytes} : find l n = none ↔ look l n = none := by
  unfold find look
  rw [List.findIdx?_eq_none_iff, Option.map_eq_none_iff, List.find?_eq_none]
  constructor
  · intro h x hx; simpa using h x hx
  · intro h x hx; simpa using h x hx

theorem look_append {l : List Setting} {n m : Bytes} {d : Data} (h : find l n = none) :
    look (l ++ [⟨n, d⟩]) m = if m = n then some d else look l m := by
  have h' := find_none.mp h
  unfold look at *
  rw [List.find?_append]
  by_cases hm : m = n
  · subst hm
    rw [if_pos rfl]
    rw [Option.map_eq_none_iff] at h'
    rw [h']
    simp
  · rw [if_neg hm]
    cases hl : l.find? fun x => x.name == m with
    | some y => rfl
    | none =>
      have : (n == m) = false := by simp; exact fun e => hm e.symm
      simp [this]

theorem look_set {n m : Bytes} {d : Data} : ∀ {l : List Setting} {i : Nat}, find l n = some i →
    look (l.set i ⟨n, d⟩) m = if m = n then some d else look l m := by
  intro l
  induction l with
  | nil => intro i h; simp [find] at h
  | cons x l ih =>
    intro i h
    unfold find at h ih
    rw [List.findIdx?_cons] at h
    cases hx : x.name == n with
    | true =>
      rw [hx] at h
      simp only [if_true, Option.some.injEq] at h
      subst h
      have hxn : x.name = n := by simpa using hx
      unfold look
      rw [List.set_cons_zero, List.find?_cons, List.find?_cons]
      by_cases hm : m = n
      · subst hm; simp
      · have h1 : (n == m) = false := by simp; exact fun e => hm e.symm
        rw [if_neg hm, hxn, h1]
    | false =>
      rw [hx] at h
      simp only [Bool.false_eq_true, if_false, Option.map_eq_some_iff] at h
      obtain ⟨j, hj, rfl⟩ := h
      have := ih hj
      unfold look at this ⊢
      rw [List.set_cons_succ, List.find?_cons, List.find?_cons]
      cases hxm : x.name == m with
      | true =>
        have hne : m ≠ n := by
          intro e
          subst e
          rw [hxm] at hx
          cases hx
        rw [if_neg hne]
      | false => exact this

/-- The settings are a dictionary of strings. -/
structure Agree (s : Store) (d : Dict) : Prop where
  get : ∀ n, look s.list n = (d.get n).map .str
  count : s.list.length = d.count
  nodup : (s.list.map (·.name)).Nodup

theorem nodup_set {l : List Setting} {n : Bytes} {d : Data} {i : Nat} (h : find l n = some i) :
    (l.set i ⟨n, d⟩).map (·.name) = l.map (·.name) := by
  unfold find at h
  rw [List.findIdx?_eq_some_iff_getElem] at h
  obtain ⟨hi, hn, _⟩ := h
  have hn' : l[i].name = n := by simpa using hn
  apply List.ext_getElem
  · simp
  · intro k h1 h2
    simp only [List.getElem_map, List.getElem_set]
    split
    · rename_i e; subst e; exact hn'.symm
    · rfl

theorem nodup_append {l : List Setting} {n : Bytes} {d : Data} (h : find l n = none)
    (hn : (l.map (·.name)).Nodup) : ((l ++ [Setting.mk n d]).map Setting.name).Nodup := by
  rw [List.map_append, List.nodup_append]
  refine ⟨hn, by simp, ?_⟩
  intro a ha b hb e
  simp only [List.map_cons, List.map_nil, List.mem_singleton] at hb
  obtain ⟨x, hx, hxa⟩ := List.mem_map.mp ha
  unfold find at h
  rw [List.findIdx?_eq_none_iff] at h
  have := h x hx
  simp at this
  exact this (by rw [hxa, e, hb])

theorem add_agree {s : Store} {d : Dict} (ha : Agree s d) (rep : Bool) (n v : Bytes)
    (hn : n.length ≤ 243) :
    (addRaw s n (.str v) rep).2 = (step s.max d ⟨rep, n, v⟩).2 ∧
    Agree (addRaw s n (.str v) rep).1 (step s.max d ⟨rep, n, v⟩).1 ∧
    (addRaw s n (.str v) rep).1.max = s.max := by
  have hlen : ¬ n.length + 1 > maxNameSize := by unfold maxNameSize; omega
  unfold addRaw step Accepts
  cases hf : find s.list n with
  | some i =>
    have hg : d.get n ≠ none := by
      intro e
      have h1 := ha.get n
      rw [e] at h1
      rw [find_none.mpr h1] at hf
      cases hf
    simp only [if_neg hg, if_neg hlen]
    cases rep with
    | false => simp; exact ha
    | true =>
      simp only [if_true]
      refine ⟨trivial, ⟨fun m => ?_, ?_, ?_⟩, trivial⟩
      · show look (s.list.set i ⟨n, .str v⟩) m = _
        rw [look_set hf, ha.get m]
        simp only [Dict.put]
        split <;> rfl
      · simp only [Dict.put, List.length_set, if_neg hg]
        exact ha.count
      · show ((s.list.set i ⟨n, .str v⟩).map (·.name)).Nodup
        rw [nodup_set hf]
        exact ha.nodup
  | none =>
    have hg : d.get n = none := by
      have h1 := ha.get n
      rw [find_none.mp hf] at h1
      exact (Option.map_eq_none_iff.mp h1.symm)
    simp only [if_pos hg, if_neg hlen, ha.count]
    by_cases hc : d.count = s.max
    · rw [if_pos hc, if_neg (by simpa using hc)]
      exact ⟨rfl, ha, rfl⟩
    · rw [if_neg hc, if_pos hc]
      refine ⟨rfl, ⟨fun m => ?_, ?_, ?_⟩, rfl⟩
      · show look (s.list ++ [⟨n, .str v⟩]) m = _
        rw [look_append hf, ha.get m]
        simp only [Dict.put]
        split <;> rfl
      · simp only [Dict.put, List.length_append, hg, if_true]
        rw [ha.count]
        rfl
      · exact nodup_append hf ha.nodup

theorem play_agree : ∀ (ops : List Op) {s : Store} {d : Dict}, Agree s d →
    (∀ op ∈ ops, op.name.length ≤ 243) →
    (play s ops).2 = (run s.max d ops).2 ∧ Agree (play s ops).1 (run s.max d ops).1 := by
  intro ops
  induction ops with
  | nil => intro s d h _; exact ⟨rfl, h⟩
  | cons op ops ih =>
    intro s d h hn
    obtain ⟨rep, n, v⟩ := op
    have hx : (if rep then replaceString s n v else addString s n v) = addRaw s n (.str v) rep := by
      cases rep <;> rfl
    obtain ⟨h1, h2, h3⟩ := add_agree h rep n v (hn _ List.mem_cons_self)
    obtain ⟨h4, h5⟩ := ih h2 (fun op hop => hn op (List.mem_cons_of_mem _ hop))
    simp only [play, run, hx]
    rw [h3] at h4 h5
    exact ⟨by rw [h1, h4], h5⟩

theorem takeWhile_comma {a r : Bytes} (ha : ∀ c ∈ a, c ≠ 44) :
    (a ++ 44 :: r).takeWhile (· != 44) = a ∧ (a ++ 44 :: r).dropWhile (· != 44) = 44 :: r := by
  induction a with
  | nil => simp
  | cons x a ih =>
    have hx : x ≠ 44 := ha x List.mem_cons_self
    have := ih (fun c hc => ha c (List.mem_cons_of_mem _ hc))
    simp [hx, this.1, this.2]

theorem takeWhile_none {a : Bytes} (ha : ∀ c ∈ a, c ≠ 44) : a.takeWhile (· != 44) = a := by
  induction a with
  | nil => rfl
  | cons x a ih =>
    have hx : x ≠ 44 := ha x List.mem_cons_self
    simp [hx, ih (fun c hc => ha c (List.mem_cons_of_mem _ hc))]

/-- A text has no comma, or there is a first one. -/
theorem comma_cases (v : Bytes) : (∀ c ∈ v, c ≠ 44) ∨ ∃ a r, v = a ++ 44 :: r ∧ ∀ c ∈ a, c ≠ 44 := by
  induction v with
  | nil => left; simp
  | cons x v ih =>
    by_cases hx : x = 44
    · right; exact ⟨[], v, by rw [hx]; rfl, by simp⟩
    · rcases ih with h | ⟨a, r, h1, h2⟩
      · left
        intro c hc
        rcases List.mem_cons.mp hc with h' | h'
        · rw [h']; exact hx
        · exact h c h'
      · right
        refine ⟨x :: a, r, by rw [h1]; rfl, ?_⟩
        intro c hc
        rcases List.mem_cons.mp hc with h' | h'
        · rw [h']; exact hx
        · exact h2 c h'

theorem traverse_none {v : Bytes} (hv : v ≠ []) (h : ∀ c ∈ v, c ≠ 44) (k : Nat) :
    traverse (k + 1) v = [v] := by
  have : v.any (· == 44) = false := by
    rw [List.any_eq_false]
    intro c hc
    simp [h c hc]
  simp only [traverse, if_neg hv, this]
  rfl

theorem traverse_comma {a r : Bytes} (ha : ∀ c ∈ a, c ≠ 44) (k : Nat) :
    traverse (k + 1) (a ++ 44 :: r) = a :: traverse k r := by
  have : (a ++ 44 :: r).any (· == 44) = true := by simp
  rw [traverse, if_neg (by simp), if_pos this, (takeWhile_comma ha).1, (takeWhile_comma ha).2]
  rfl

theorem traverse_nil (k : Nat) : traverse k [] = [] := by
  cases k with
  | zero => rfl
  | succ k => simp [traverse]

theorem traverse_fuel : ∀ (k : Nat) (v : Bytes), v.length + 1 ≤ k → traverse k v = splitTraverse v := by
  intro k
  induction k using Nat.strongRecOn with
  | ind k ih =>
    intro v hk
    unfold splitTraverse
    cases k with
    | zero => omega
    | succ k =>
      by_cases hv : v = []
      · rw [hv, traverse_nil, traverse_nil]
      · rcases comma_cases v with h | ⟨a, r, rfl, h⟩
        · rw [traverse_none hv h, traverse_none hv h]
        · rw [traverse_comma h, traverse_comma h]
          simp only [List.length_append, List.length_cons] at hk ⊢
          rw [ih k (by omega) r (by omega), ih (a.length + (r.length + 1)) (by omega) r (by omega)]

theorem split_none {v : Bytes} (hv : v ≠ []) (h : ∀ c ∈ v, c ≠ 44) : splitTraverse v = [v] :=
  traverse_none hv h _

theorem split_comma {a r : Bytes} (ha : ∀ c ∈ a, c ≠ 44) :
    splitTraverse (a ++ 44 :: r) = a :: splitTraverse r := by
  rw [← traverse_fuel ((a ++ 44 :: r).length + 1) _ (Nat.le_refl _), traverse_comma ha,
    traverse_fuel _ _ (by simp)]

theorem array_none {v : Bytes} (h : ∀ c ∈ v, c ≠ 44) : splitArray v = [v] := by
  have : (List.range v.length).filter (fun i => v[i]? == some 44 && decide (i + 1 < v.length)) = [] := by
    rw [List.filter_eq_nil_iff]
    intro i hi
    have hi' := List.mem_range.mp hi
    rw [List.getElem?_eq_getElem hi']
    have := h v[i] (List.getElem_mem hi')
    simp [this]
  simp [splitArray, starts, this, takeWhile_none h]

theorem array_comma {a r : Bytes} (ha : ∀ c ∈ a, c ≠ 44) :
    splitArray (a ++ 44 :: r) = a :: (if r = [] then [] else splitArray r) := by
  have hlen : (a ++ 44 :: r).length = a.length + (1 + r.length) := by simp; omega
  have h1 : (List.range a.length).filter
      (fun i => (a ++ 44 :: r)[i]? == some 44 && decide (i + 1 < (a ++ 44 :: r).length)) = [] := by
    rw [List.filter_eq_nil_iff]
    intro i hi
    have hi' := List.mem_range.mp hi
    rw [List.getElem?_append_left hi', List.getElem?_eq_getElem hi']
    have := ha a[i] (List.getElem_mem hi')
    simp [this]
  have h2 : ∀ i, (a ++ 44 :: r)[a.length + (1 + i)]? = r[i]? := by
    intro i
    rw [List.getElem?_append_right (by omega), show a.length + (1 + i) - a.length = i + 1 by omega]
    rfl
  have hstart : starts (a ++ 44 :: r) =
      0 :: (if r = [] then [] else (starts r).map fun p => a.length + 1 + p) := by
    unfold starts
    conv => lhs; rw [hlen]
    rw [List.range_add, List.filter_append]
    rw [show (List.range a.length).filter
      (fun i => (a ++ 44 :: r)[i]? == some 44 && decide (i + 1 < a.length + (1 + r.length))) = [] by
        rw [← hlen]; exact h1]
    rw [List.range_add, List.map_append (f := fun x => a.length + x), List.filter_append]
    simp only [List.range_one, List.map_cons, List.map_nil, Nat.add_zero, List.nil_append, List.map_map]
    congr 1
    by_cases hr : r = []
    · subst hr
      simp
    · have hpos : 0 < r.length := List.length_pos_iff.mpr hr
      rw [if_neg hr, List.filter_map, List.map_append, List.map_map]
      have e1 : ([a.length].filter fun i =>
          (a ++ 44 :: r)[i]? == some 44 && decide (i + 1 < a.length + (1 + r.length))) = [a.length] := by
        rw [List.filter_cons_of_pos]
        · rfl
        · rw [List.getElem?_append_right (Nat.le_refl _), Nat.sub_self]
          simp
          omega
      rw [e1]
      simp only [List.map_cons, List.map_nil, List.cons_append, List.nil_append, Nat.add_zero]
      congr 1
      have e2 : (List.range r.length).filter ((fun i => (a ++ 44 :: r)[i]? == some 44 &&
          decide (i + 1 < a.length + (1 + r.length))) ∘ ((fun x => a.length + x) ∘ fun x => 1 + x)) =
          (List.range r.length).filter fun i => r[i]? == some 44 && decide (i + 1 < r.length) := by
        apply List.filter_congr
        intro i _
        simp only [Function.comp_apply, h2]
        congr 1
        simp only [decide_eq_decide]
        omega
      rw [e2]
      apply List.map_congr_left
      intro i _
      simp only [Function.comp_apply]
      omega
  unfold splitArray
  rw [hstart, List.map_cons, List.drop_zero, (takeWhile_comma ha).1]
  by_cases hr : r = []
  · rw [if_pos hr, if_pos hr]; rfl
  · rw [if_neg hr, if_neg hr, List.map_map]
    congr 1
    apply List.map_congr_left
    intro p _
    simp only [Function.comp_apply]
    congr 1
    rw [show a.length + 1 + p = a.length + (p + 1) by omega, ← List.drop_drop, List.drop_left]
    rfl

theorem strstr_iff {d : Bytes} (hd : d ≠ []) : ∀ {v a b : Bytes},
    strstr d v = some (a, b) ↔ First d v a b := by
  intro v
  induction v with
  | nil =>
    intro a b
    simp only [strstr, if_neg hd]
    constructor
    · intro h; cases h
    · rintro ⟨h, _⟩
      have := congrArg List.length h
      have : 0 < d.length := List.length_pos_iff.mpr hd
      simp at *
      omega
  | cons c v ih =>
    intro a b
    rw [strstr]
    by_cases hp : d.isPrefixOf (c :: v) = true
    · rw [if_pos hp]
      have hpre := List.isPrefixOf_iff_prefix.mp hp
      constructor
      · intro h
        cases h
        obtain ⟨t, ht⟩ := hpre
        refine ⟨?_, by simp⟩
        rw [← ht, List.drop_left]
        rfl
      · rintro ⟨h, hno⟩
        cases a with
        | nil =>
          have h' : c :: v = d ++ b := h
          rw [h', List.drop_left]
        | cons x a => exact absurd hpre (hno 0 (by simp))
    · rw [if_neg hp]
      have hpre : ¬ d <+: c :: v := fun h => hp (List.isPrefixOf_iff_prefix.mpr h)
      constructor
      · intro h
        rw [Option.map_eq_some_iff] at h
        obtain ⟨⟨a', b'⟩, h1, h2⟩ := h
        cases h2
        obtain ⟨h3, h4⟩ := ih.mp h1
        refine ⟨by rw [h3]; rfl, ?_⟩
        intro k hk
        cases k with
        | zero => exact hpre
        | succ k => exact h4 k (by simpa using hk)
      · rintro ⟨h, hno⟩
        cases a with
        | nil => exact absurd ⟨b, h.symm⟩ hpre
        | cons x a =>
          rw [List.cons_append, List.cons.injEq] at h
          rw [ih.mpr ⟨h.2, fun k hk => hno (k + 1) (by simpa using hk)⟩, h.1]
          rfl

theorem strstr_none {d : Bytes} (hd : d ≠ []) {v : Bytes} :
    strstr d v = none ↔ ¬ d <:+: v := by
  induction v with
  | nil =>
    simp only [strstr, if_neg hd]
    simp [List.infix_nil, hd]
  | cons c v ih =>
    rw [strstr, List.infix_cons_iff]
    by_cases hp : d.isPrefixOf (c :: v) = true
    · rw [if_pos hp]
      simp [List.isPrefixOf_iff_prefix.mp hp]
    · rw [if_neg hp, Option.map_eq_none_iff, ih]
      have hpre : ¬ d <+: c :: v := fun h => hp (List.isPrefixOf_iff_prefix.mpr h)
      simp [hpre]

end Verif.Settings
