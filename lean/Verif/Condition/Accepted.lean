import Verif.Condition.Yard
/-!
# Every accepted text

The operator stack is empty when the last parenthesis is closed, and the evaluation stays within its array unless an operator comes before all values.
-/
namespace Verif.Condition
open Verif Spec

/-- What holds while a text is read. -/
structure Sound (y : Yard) : Prop where
  count : y.stack.count .parOpen = y.parLevel
  bottom : y.stack ≠ [] → y.stack.getLast? = some .parOpen
  noClose : .parClose ∉ y.stack
  out : ∀ o, .op o ∈ y.out → o ≠ .parOpen ∧ o ≠ .parClose

theorem sound_empty (y : Yard) (h : Sound y) (hp : y.parLevel = 0) : y.stack = [] := by
  by_cases hs : y.stack = []
  · exact hs
  · have h1 := h.bottom hs
    have h2 := h.count
    rw [hp] at h2
    have := List.mem_of_getLast? h1
    exact absurd this (List.count_eq_zero.mp h2)

theorem closePar_split (out : List Carrier) (st : List Op) (h : .parOpen ∈ st) :
    ∃ P S, st = P ++ .parOpen :: S ∧ (∀ o ∈ P, o ≠ .parOpen) ∧ closePar out st = (out ++ P.map .op, S) := by
  have key : ∃ P S, st = P ++ .parOpen :: S ∧ ∀ o ∈ P, o ≠ .parOpen := by
    induction st with
    | nil => cases h
    | cons o st ih =>
      by_cases ho : o = .parOpen
      · exact ⟨[], st, by simp [ho], by simp⟩
      · obtain ⟨P, S, h1, h2⟩ := ih (by simpa [Ne.symm ho] using h)
        refine ⟨o :: P, S, by simp [h1], ?_⟩
        intro o' ho'
        rcases List.mem_cons.mp ho' with rfl | h'
        · exact ho
        · exact h2 o' h'
  obtain ⟨P, S, rfl, hP⟩ := key
  exact ⟨P, S, rfl, hP, closePar_all out P S hP⟩

theorem popTighter_split (p : Nat) (out : List Carrier) (st : List Op) :
    ∃ P S, st = P ++ S ∧ (∀ o ∈ P, o ≠ .parOpen) ∧ popTighter p out st = (out ++ P.map .op, S) := by
  induction st generalizing out with
  | nil => exact ⟨[], [], rfl, by simp, by simp [popTighter]⟩
  | cons o st ih =>
    by_cases h : o.prio < p ∧ o ≠ .parOpen
    · obtain ⟨P, S, h1, h2, h3⟩ := ih (out ++ [.op o])
      refine ⟨o :: P, S, by simp [h1], ?_, ?_⟩
      · intro o' ho'
        rcases List.mem_cons.mp ho' with rfl | h'
        · exact h.2
        · exact h2 o' h'
      · simp only [popTighter]
        rw [if_pos h, h3]
        simp
    · exact ⟨[], o :: st, rfl, by simp, by simp only [popTighter]; rw [if_neg h]; simp⟩

theorem shuntOp_sound (y y' : Yard) (o : Op) (h : Sound y) (hp : y.parLevel ≠ 0 ∨ o = .parOpen) (hs : shuntOp y o = some y') : Sound y' := by
  unfold shuntOp at hs
  by_cases h1 : o = .parOpen
  · rw [if_pos h1] at hs
    simp at hs
    subst hs h1
    refine ⟨?_, ?_, ?_, h.out⟩
    · simp [h.count]
    · intro _
      cases hst : y.stack with
      | nil => simp
      | cons a st =>
        have := h.bottom (by simp [hst])
        rw [hst] at this
        rw [List.getLast?_cons_cons]
        exact this
    · simp [h.noClose]
  · rw [if_neg h1] at hs
    have hp' : y.parLevel ≠ 0 := hp.resolve_right h1
    have hmem : .parOpen ∈ y.stack := by
      rw [← List.count_pos_iff, h.count]
      omega
    by_cases h2 : o = .parClose
    · rw [if_pos h2, if_neg hp'] at hs
      obtain ⟨P, S, e1, e2, e3⟩ := closePar_split y.out y.stack hmem
      simp only [e3] at hs
      simp at hs
      subst hs
      refine ⟨?_, ?_, ?_, ?_⟩
      · have := h.count
        rw [e1, List.count_append, List.count_cons_self, List.count_eq_zero.mpr (fun hm => e2 _ hm rfl)] at this
        show S.count .parOpen = y.parLevel - 1
        omega
      · intro hS
        have := h.bottom (by rw [e1]; simp)
        rw [e1, List.getLast?_append] at this
        simp only at hS ⊢
        cases S with
        | nil => exact absurd rfl hS
        | cons a S => rw [List.getLast?_cons_cons, List.getLast?_cons] at this; rw [List.getLast?_cons]; simpa using this
      · have := h.noClose
        rw [e1] at this
        intro hm
        exact this (by simp [show Op.parClose ∈ S from hm])
      · intro o' ho'
        simp at ho'
        rcases ho' with ho' | ho'
        · exact h.out o' ho'
        · refine ⟨e2 o' ho', ?_⟩
          intro hc
          subst hc
          exact h.noClose (by rw [e1]; simp [ho'])
    · rw [if_neg h2, if_neg (by intro hn; rw [hn] at hmem; cases hmem)] at hs
      obtain ⟨P, S, e1, e2, e3⟩ := popTighter_split o.prio y.out y.stack
      simp only [e3] at hs
      simp at hs
      subst hs
      have hcS : S.count .parOpen = y.parLevel := by
        have := h.count
        rw [e1, List.count_append, List.count_eq_zero.mpr (fun hm => e2 _ hm rfl)] at this
        omega
      refine ⟨?_, ?_, ?_, ?_⟩
      · show (o :: S).count .parOpen = y.parLevel
        rw [List.count_cons_of_ne h1]
        exact hcS
      · intro _
        have := h.bottom (by intro hn; rw [hn] at hmem; cases hmem)
        cases S with
        | nil => simp at hcS; omega
        | cons a S =>
          show (o :: a :: S).getLast? = _
          rw [List.getLast?_cons_cons]
          rw [e1, List.getLast?_append] at this
          simp only [List.getLast?_cons] at this ⊢
          simpa using this
      · intro hm
        rcases List.mem_cons.mp hm with hm | hm
        · exact h2 hm.symm
        · exact h.noClose (by rw [e1]; simp [hm])
      · intro o' ho'
        simp at ho'
        rcases ho' with ho' | ho'
        · exact h.out o' ho'
        · refine ⟨e2 o' ho', ?_⟩
          intro hc
          subst hc
          exact h.noClose (by rw [e1]; simp [ho'])

theorem shuntValue_sound (y y' : Yard) (v : Bytes) (h : Sound y) (hs : shuntValue y v = some y') : Sound y' := by
  unfold shuntValue at hs
  by_cases hl : v.length > 63
  · rw [if_pos hl] at hs; cases hs
  · rw [if_neg hl] at hs
    cases hs
    exact ⟨h.count, h.bottom, h.noClose, by intro o ho; simp at ho; exact h.out o ho⟩

theorem sound_prev (y : Yard) (b : Bool) (h : Sound y) : Sound { y with prevWasOp := b } := ⟨h.count, h.bottom, h.noClose, h.out⟩

theorem round_sound (y : Yard) (s : Bytes) (h : Sound y) :
    (∀ y' s', round y s = .inl (y', s') → Sound y') ∧ (∀ y' s', round y s = .inr (.left y' s') → Sound y') := by
  unfold round
  dsimp only
  split
  · exact ⟨by (intro _ _ h'; cases h'), by intro _ _ h'; cases h'; exact h⟩
  · split
    · exact ⟨by (intro _ _ h'; cases h'), by intro _ _ h'; cases h'⟩
    · rename_i hn hpar
      split
      · rename_i o s' ho
        have hp : y.parLevel ≠ 0 ∨ o = .parOpen := by
          by_cases hz : y.parLevel = 0
          · right
            have hx : (parseOp (skipSpaces s)).map Prod.fst = some .parOpen := by
              apply Classical.byContradiction
              intro hx
              exact hpar ⟨hz, hx⟩
            unfold nextOp at ho
            split at ho
            · cases ho
            · rw [ho] at hx; simpa using hx
          · exact Or.inl hz
        split
        · exact ⟨by (intro _ _ h'; cases h'), by intro _ _ h'; cases h'⟩
        · rename_i y' hy'
          have := shuntOp_sound _ y' o (sound_prev y true h) hp hy'
          split
          · exact ⟨by (intro _ _ h'; cases h'), by intro _ _ h'; cases h'; exact this⟩
          · exact ⟨by (intro _ _ h'; cases h'; exact this), by intro _ _ h'; cases h'⟩
      · split
        · exact ⟨by (intro _ _ h'; cases h'), by intro _ _ h'; cases h'; exact sound_prev y false h⟩
        · split
          · exact ⟨by (intro _ _ h'; cases h'), by intro _ _ h'; cases h'⟩
          · rename_i y' hy'
            have := shuntValue_sound _ y' _ (sound_prev y false h) hy'
            exact ⟨by (intro _ _ h'; cases h'; exact this), by intro _ _ h'; cases h'⟩

theorem loop_sound (fuel : Nat) : ∀ (y : Yard) (s : Bytes), Sound y → ∀ y' s', interpretLoop fuel y s = .left y' s' → Sound y' := by
  induction fuel with
  | zero => intro y s h y' s' hl; cases hl; exact h
  | succ n ih =>
    intro y s h y' s' hl
    simp only [interpretLoop] at hl
    split at hl
    · cases hl; exact h
    · obtain ⟨h1, h2⟩ := round_sound y s h
      split at hl
      · rename_i y1 s1 hr
        exact ih y1 s1 (h1 y1 s1 hr) y' s' hl
      · rename_i e hr
        subst hl
        exact h2 y' s' hr

/-- An accepted text has no parentheses in its reverse polish notation; it has one value more than operators with two operands; and the stack was empty. -/
theorem interpret_sound (s : Bytes) :
    interpret s ≠ .bug ∧ ∀ l rest, interpret s = .ok (l, rest) →
      (∀ o, .op o ∈ l → o ≠ .parOpen ∧ o ≠ .parClose) ∧ valueCount l = opCount l + 1 := by
  unfold interpret
  cases hl : interpretLoop s.length ⟨[], [], 0, false⟩ s with
  | soft => exact ⟨by simp, by intro l rest h; cases h⟩
  | left y rest =>
    have hs := loop_sound s.length _ s ⟨by simp, by simp, by simp, by simp⟩ y rest hl
    dsimp only
    by_cases hp : y.parLevel = 0
    · rw [if_neg (by simpa using hp)]
      have hst := sound_empty y hs hp
      by_cases ho : y.out = []
      · rw [if_pos ho]
        simp only [finalize, hst, ne_eq, not_true_eq_false, if_false]
        rw [if_pos (by left; decide)]
        refine ⟨by simp, ?_⟩
        intro l r h
        simp at h
        obtain ⟨rfl, _⟩ := h
        exact ⟨by simp, by decide⟩
      · rw [if_neg ho]
        simp only [finalize, hst, ne_eq, not_true_eq_false, if_false]
        by_cases hc : valueCount y.out = opCount y.out + 1
        · rw [if_pos (Or.inl hc)]
          refine ⟨by simp, ?_⟩
          intro l r h
          simp at h
          obtain ⟨rfl, _⟩ := h
          exact ⟨hs.out, hc⟩
        · rw [if_neg (by rintro (h | h); exact hc h; exact ho h)]
          exact ⟨by simp, by intro l r h; cases h⟩
    · rw [if_pos (by simpa using hp)]
      exact ⟨by simp, by intro l r h; cases h⟩

theorem compute_safe (o : Op) (h1 : o ≠ .parOpen) (h2 : o ≠ .parClose) (a : Option Num) (b : Num) : compute o a b ≠ .fault ∧ compute o a b ≠ .bug := by
  by_cases h : o = .bwNot
  · subst h
    rw [compute_eq]
    split
    · split
      · simp
      · simp [wrap, evalSigned]
    · simp [wrap, evalUnsigned]
  · obtain ⟨b', rfl⟩ : ∃ b', o = opOf b' := by
      cases o <;> first
        | (exact absurd rfl h1) | (exact absurd rfl h2) | (exact absurd rfl h)
        | exact ⟨.mul, rfl⟩ | exact ⟨.div, rfl⟩ | exact ⟨.add, rfl⟩ | exact ⟨.sub, rfl⟩ | exact ⟨.shl, rfl⟩
        | exact ⟨.shr, rfl⟩ | exact ⟨.le, rfl⟩ | exact ⟨.ge, rfl⟩ | exact ⟨.lt, rfl⟩ | exact ⟨.gt, rfl⟩ | exact ⟨.eq, rfl⟩ | exact ⟨.ne, rfl⟩
        | exact ⟨.band, rfl⟩ | exact ⟨.bxor, rfl⟩ | exact ⟨.bor, rfl⟩ | exact ⟨.and, rfl⟩ | exact ⟨.andW, rfl⟩ | exact ⟨.or, rfl⟩ | exact ⟨.orW, rfl⟩
    exact compute_no_fault b' a b

/-- With a value at hand an operator stays within the array. -/
theorem evaluateOp_safe (o : Op) (h1 : o ≠ .parOpen) (h2 : o ≠ .parClose) (rs : List Res) (hs : stackOf rs ≠ []) :
    evaluateOp o rs ≠ .fault ∧ evaluateOp o rs ≠ .bug ∧ ∀ rs', evaluateOp o rs = .ok rs' → stackOf rs' ≠ [] := by
  have key : ∀ (x : Ev Num) (rs0 : List Res), x ≠ .fault ∧ x ≠ .bug →
      x.map (fun n => (⟨n, true⟩ :: rs0 : List Res)) ≠ .fault ∧ x.map (fun n => (⟨n, true⟩ :: rs0 : List Res)) ≠ .bug
        ∧ ∀ rs', x.map (fun n => (⟨n, true⟩ :: rs0 : List Res)) = .ok rs' → stackOf rs' ≠ [] := by
    rintro x rs0 ⟨ha, hb⟩
    cases x <;> simp_all [Ev.map, stackOf]
  obtain ⟨b, st, hst⟩ : ∃ b st, stackOf rs = b :: st := by
    cases h : stackOf rs with
    | nil => exact absurd h hs
    | cons b st => exact ⟨b, st, rfl⟩
  by_cases hn : o = .bwNot
  · subst hn
    obtain ⟨rs0, _, e⟩ := evaluateOp_one rs b st hst
    rw [e]
    exact key _ _ (compute_safe _ h1 h2 _ _)
  · have hpr : o.prio ≠ 1 := by
      cases o <;> first | (exact absurd rfl hn) | (exact absurd rfl h1) | (exact absurd rfl h2) | decide
    cases st with
    | nil =>
      obtain ⟨rs0, _, e⟩ := evaluateOp_lone o hpr rs b hst
      rw [e]
      exact key _ _ (compute_safe _ h1 h2 _ _)
    | cons a st =>
      obtain ⟨rs0, _, e⟩ := evaluateOp_two o hpr rs a b st hst
      rw [e]
      exact key _ _ (compute_safe _ h1 h2 _ _)

theorem evaluateValue_safe (env : Bytes → Option Num) (v : Bytes) : evaluateValue env v ≠ .fault ∧ evaluateValue env v ≠ .bug := by
  unfold evaluateValue
  split
  · split <;> simp
  · split
    · simp
    · split <;> simp

theorem evalLoop_safe (env : Bytes → Option Num) (l : List Carrier) (hl : ∀ o, .op o ∈ l → o ≠ .parOpen ∧ o ≠ .parClose) :
    ∀ rs res, stackOf rs ≠ [] → evalLoop env l rs res ≠ .fault ∧ evalLoop env l rs res ≠ .bug := by
  induction l with
  | nil => intro rs res _; simp [evalLoop]
  | cons c l ih =>
    intro rs res hs
    have ih := ih (fun o ho => hl o (by simp [ho]))
    cases c with
    | op o =>
      obtain ⟨h1, h2⟩ := hl o (by simp)
      obtain ⟨k1, k2, k3⟩ := evaluateOp_safe o h1 h2 rs hs
      simp only [evalLoop]
      cases he : evaluateOp o rs with
      | ok rs' => exact ih rs' _ (k3 rs' he)
      | soft => simp
      | undef => simp
      | fault => exact absurd he k1
      | bug => exact absurd he k2
    | val v =>
      obtain ⟨k1, k2⟩ := evaluateValue_safe env v
      simp only [evalLoop]
      cases he : evaluateValue env v with
      | ok n => exact ih _ _ (by simp [stackOf])
      | soft => simp
      | undef => simp
      | fault => exact absurd he k1
      | bug => exact absurd he k2

end Verif.Condition
