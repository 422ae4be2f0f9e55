import Verif.Stats.Spec

/-!
# Lemmas about paths and trees
-/
namespace Verif.Stats
open Verif Spec

theorem parts_ne (p : Bytes) : parts p ≠ [] := by
  cases p with
  | nil => simp [parts]
  | cons c r =>
    unfold parts
    split
    · simp
    · split <;> simp

theorem parts_word (a : Bytes) (ha : slash ∉ a) (rest : Bytes) (hr : rest = [] ∨ ∃ x, rest = slash :: x) :
    parts (a ++ rest) = a :: (match rest with | [] => [] | _ :: x => parts x) := by
  induction a with
  | nil =>
    rcases hr with rfl | ⟨x, rfl⟩
    · rfl
    · simp [parts]
  | cons c r ih =>
    have hc : c ≠ slash := fun h => ha (by simp [h])
    have hr' : slash ∉ r := fun h => ha (List.mem_cons_of_mem _ h)
    rw [List.cons_append, parts, if_neg hc, ih hr']

theorem levels_slash (r : Bytes) : levels (slash :: r) = levels r := by
  simp [levels, parts]

theorem mem_takeWhile_ne {c : UInt8} {p : Bytes} : slash ∉ p.takeWhile (· ≠ slash) := by
  have := List.all_takeWhile (l := p) (p := (· ≠ slash))
  rw [List.all_eq_true] at this
  intro h
  have := this _ h
  simp at this

theorem dropWhile_shape (p : Bytes) : p.dropWhile (· ≠ slash) = [] ∨ ∃ x, p.dropWhile (· ≠ slash) = slash :: x := by
  induction p with
  | nil => exact .inl rfl
  | cons c r ih =>
    by_cases h : c = slash
    · right; exact ⟨r, by rw [List.dropWhile_cons_of_neg (by simp [h]), h]⟩
    · rw [List.dropWhile_cons_of_pos (by simp [h])]; exact ih

theorem firstLevel_nil (p : Bytes) (h : (firstLevel p).1 = []) : levels p = [] ∧ (p ≠ [] → p.getLast? = some slash) := by
  induction p with
  | nil => exact ⟨rfl, fun h => absurd rfl h⟩
  | cons c r ih =>
    unfold firstLevel at h
    split at h
    · next hc =>
      subst hc
      have := ih h
      refine ⟨by rw [levels_slash]; exact this.1, fun _ => ?_⟩
      cases r with
      | nil => rfl
      | cons d r' => rw [List.getLast?_cons_cons]; exact this.2 (by simp)
    · next hc => rw [List.takeWhile_cons_of_pos (by simpa using hc)] at h; cases h

theorem firstLevel_cons (p : Bytes) (h : (firstLevel p).1 ≠ []) :
    levels p = (firstLevel p).1 :: levels (firstLevel p).2 ∧ (p.getLast? = some slash ↔ (firstLevel p).2.getLast? = some slash) ∧ (firstLevel p).2.length < p.length := by
  induction p with
  | nil => exact absurd rfl h
  | cons c r ih =>
    by_cases hc : c = slash
    · subst hc
      have e : firstLevel (slash :: r) = firstLevel r := by simp [firstLevel]
      rw [e] at h ⊢
      obtain ⟨a, b, d⟩ := ih h
      refine ⟨by rw [levels_slash]; exact a, ?_, by simp only [List.length_cons]; omega⟩
      rw [← b]
      cases r with
      | nil => exact absurd rfl h
      | cons x r' => rw [List.getLast?_cons_cons]
    · have e : firstLevel (c :: r) = ((c :: r).takeWhile (· ≠ slash), (c :: r).dropWhile (· ≠ slash)) := by simp only [firstLevel, if_neg hc]
      rw [e] at h ⊢
      simp only at h ⊢
      have hta : (c :: r).takeWhile (· ≠ slash) ++ (c :: r).dropWhile (· ≠ slash) = c :: r := List.takeWhile_append_dropWhile
      have hns : slash ∉ (c :: r).takeWhile (· ≠ slash) := mem_takeWhile_ne (c := c)
      have hsh := dropWhile_shape (c :: r)
      generalize (c :: r).takeWhile (· ≠ slash) = a at *
      generalize (c :: r).dropWhile (· ≠ slash) = d at *
      rw [← hta]
      refine ⟨?_, ?_, ?_⟩
      · unfold levels
        rw [parts_word a hns d hsh]
        rcases hsh with rfl | ⟨x, rfl⟩
        · simp [h, parts]
        · simp [h, parts]
      · rcases hsh with rfl | ⟨x, rfl⟩
        · simp only [List.append_nil, List.getLast?_nil]
          constructor
          · intro hl
            exact absurd (List.mem_of_getLast? hl) hns
          · intro hl; cases hl
        · rw [List.getLast?_append]
          cases hx : (slash :: x).getLast? with
          | none => simp at hx
          | some y => simp
      · rw [List.length_append]
        have := List.length_pos_iff.mpr h
        omega

/-- When a place was last seen. -/
def seenAt : List Bytes → Branch → Option Nat
  | [], b => some b.seen
  | l :: ls, b => match b.kids.find? (·.name = l) with
    | none => none
    | some k => seenAt ls k

theorem insertAux_name (fuel now : Nat) (v path : Bytes) (b : Branch) : (insertAux fuel now v path b).1.name = b.name := by
  cases fuel with
  | zero => rfl
  | succ n =>
    cases b
    unfold insertAux
    (repeat' split) <;> rfl

theorem update_find (l : Bytes) (f : Branch → Branch × Bool) (new : Branch) (hf : ∀ b, (f b).1.name = b.name) (hn : new.name = l) (ks : List Branch) (m : Bytes) :
    (update l f new ks).1.find? (·.name = m) = (if m = l then some (f ((ks.find? (·.name = l)).getD new)).1 else ks.find? (·.name = m)) ∧
    (update l f new ks).2 = (f ((ks.find? (·.name = l)).getD new)).2 := by
  induction ks with
  | nil =>
    refine ⟨?_, rfl⟩
    simp only [update, List.find?_cons, List.find?_nil, hf, hn, Option.getD_none]
    by_cases h : m = l
    · simp [h]
    · simp [h, Ne.symm h]
  | cons k ks ih =>
    by_cases hk : k.name = l
    · have e : update l f new (k :: ks) = ((f k).1 :: ks, (f k).2) := by rw [update, if_pos hk]
      have e2 : (k :: ks).find? (·.name = l) = some k := List.find?_cons_of_pos (by simp [hk])
      rw [e, e2]
      refine ⟨?_, rfl⟩
      have hfk : (f k).1.name = l := (hf k).trans hk
      by_cases h : m = l
      · rw [if_pos h, h, List.find?_cons_of_pos (by simp [hfk])]; rfl
      · rw [if_neg h, List.find?_cons_of_neg (by simp [hfk, Ne.symm h]), List.find?_cons_of_neg (by simp [hk, Ne.symm h])]
    · have e : update l f new (k :: ks) = (k :: (update l f new ks).1, (update l f new ks).2) := by rw [update, if_neg hk]
      have e2 : (k :: ks).find? (·.name = l) = ks.find? (·.name = l) := List.find?_cons_of_neg (by simp [hk])
      rw [e, e2]
      refine ⟨?_, ih.2⟩
      by_cases hm : k.name = m
      · have h : m ≠ l := fun h => hk (hm.trans h)
        rw [if_neg h, List.find?_cons_of_pos (by simp [hm]), List.find?_cons_of_pos (by simp [hm])]
      · rw [List.find?_cons_of_neg (by simp [hm]), ih.1, List.find?_cons_of_neg (by simp [hm])]

/-- What an insertion changes. -/
theorem insertAux_spec (fuel now : Nat) (v : Bytes) : ∀ (path : Bytes) (b : Branch), path.length < fuel →
    ((insertAux fuel now v path b).2 = true ↔ path.getLast? ≠ some slash) ∧
    (∀ ls, valueAt ls (insertAux fuel now v path b).1 = if path.getLast? ≠ some slash ∧ ls = levels path then some v else valueAt ls b) ∧
    (∀ ls, seenAt ls (insertAux fuel now v path b).1 = if ls <+: levels path then some now else seenAt ls b) := by
  induction fuel with
  | zero => intro path b h; omega
  | succ fuel ih =>
    intro path b hlen
    rcases b with ⟨n, s, val, kids⟩
    unfold insertAux
    by_cases hp : path = []
    · subst hp
      simp only [if_true]
      have hl : levels [] = [] := rfl
      refine ⟨by simp, fun ls => ?_, fun ls => ?_⟩
      · cases ls with
        | nil => simp [hl, valueAt, Branch.value]
        | cons l ls => simp [hl, valueAt, Branch.kids]
      · cases ls with
        | nil => simp [hl, seenAt, Branch.seen]
        | cons l ls => simp [hl, seenAt, Branch.kids]
    · rw [if_neg hp]
      by_cases hf : (firstLevel path).1 = []
      · rw [if_pos hf]
        obtain ⟨h1, h2⟩ := firstLevel_nil path hf
        have h2 := h2 hp
        refine ⟨by simp [h2], fun ls => ?_, fun ls => ?_⟩
        · simp only [h2, ne_eq, not_true_eq_false, false_and, if_false]
          cases ls <;> rfl
        · rw [h1]
          cases ls with
          | nil => simp [seenAt, Branch.seen]
          | cons l ls => simp [seenAt, Branch.kids]
      · rw [if_neg hf]
        obtain ⟨h1, h2, h3⟩ := firstLevel_cons path hf
        generalize (firstLevel path).1 = f at *
        generalize (firstLevel path).2 = r at *
        simp only
        have hu := update_find f (insertAux fuel now v r) (.mk f now none []) (insertAux_name fuel now v r) rfl kids
        have hi := fun b => ih r b (by omega)
        have hval0 : ∀ ls, valueAt ls (.mk f now none []) = none := by intro ls; cases ls <;> rfl
        have hval : ∀ ls, valueAt ls ((kids.find? (·.name = f)).getD (.mk f now none [])) = valueAt (f :: ls) (.mk n s val kids) := by
          intro ls
          simp only [valueAt, Branch.kids]
          cases kids.find? (·.name = f) with
          | none => exact hval0 ls
          | some k => rfl
        refine ⟨?_, fun ls => ?_, fun ls => ?_⟩
        · rw [(hu f).2, (hi _).1, ne_eq, ne_eq, h2]
        · rw [h1]
          cases ls with
          | nil => simp [valueAt, Branch.value]
          | cons l ls =>
            by_cases hl : l = f
            · subst hl
              rw [← hval ls]
              simp only [valueAt, Branch.kids, (hu l).1, if_true]
              rw [(hi _).2.1]
              simp only [ne_eq, h2, List.cons.injEq, true_and]
            · simp only [valueAt, Branch.kids, (hu l).1, List.cons.injEq, hl, false_and, and_false, if_false]
        · rw [h1]
          cases ls with
          | nil => simp [seenAt, Branch.seen]
          | cons l ls =>
            by_cases hl : l = f
            · subst hl
              simp only [seenAt, Branch.kids, (hu l).1, if_true]
              rw [(hi _).2.2]
              simp only [List.cons_prefix_cons, true_and]
              by_cases hpre : ls <+: levels r
              · simp [hpre]
              · simp only [hpre, if_false]
                cases kids.find? (·.name = l) with
                | some k => rfl
                | none =>
                  cases ls with
                  | nil => exact absurd (List.nil_prefix) hpre
                  | cons x ls => rfl
            · simp only [seenAt, Branch.kids, (hu l).1, List.cons_prefix_cons, hl, false_and, if_false]

end Verif.Stats
