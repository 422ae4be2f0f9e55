import Verif.Condition.Accepted
/-!
# Operators of the same precedence
-/
namespace Verif.Condition
open Verif Spec

theorem attach_ind {P : BinOp → Expr → Expr → Expr → Prop}
    (plain : ∀ o l r, attach o l r = .bin o l r → (∀ o2 a b, l = .bin o2 a b → o2.level ≠ o.level) → P o l r (.bin o l r))
    (chain : ∀ o o2 a b r, o2.level = o.level → P o b r (attach o b r) → P o (.bin o2 a b) r (.bin o2 a (attach o b r))) :
    ∀ o l r, P o l r (attach o l r) := by
  intro o l r
  induction l with
  | lit l => exact plain o _ r rfl (by intro _ _ _ h; cases h)
  | not l _ => exact plain o _ r rfl (by intro _ _ _ h; cases h)
  | par l _ => exact plain o _ r rfl (by intro _ _ _ h; cases h)
  | bin o2 a b _ ih =>
    by_cases h : o2.level = o.level
    · have : attach o (.bin o2 a b) r = .bin o2 a (attach o b r) := by rw [attach, if_pos h]
      rw [this]
      exact chain o o2 a b r h ih
    · have : attach o (.bin o2 a b) r = .bin o (.bin o2 a b) r := by rw [attach, if_neg h]
      rw [this]
      exact plain o _ r this (by intro _ _ _ he; cases he; exact h)

theorem attach_toks : ∀ o l r, (attach o l r).toks = l.toks ++ .op o :: r.toks :=
  attach_ind (P := fun o l r e => e.toks = l.toks ++ .op o :: r.toks) (fun o l r _ _ => rfl)
    (fun o o2 a b r _ ih => by simp [Expr.toks, ih])

theorem attach_level : ∀ o l r, (attach o l r).level = o.level :=
  attach_ind (P := fun o _ _ e => e.level = o.level) (fun o l r _ _ => rfl) (fun o o2 a b r h _ => h)

theorem level_pos (o : BinOp) : 2 ≤ o.level := by cases o <;> decide

theorem attach_readsRight : ∀ o l r, l.ReadsRight → r.ReadsRight → l.level ≤ o.level → r.level ≤ o.level → (attach o l r).ReadsRight :=
  attach_ind (P := fun o l r e => l.ReadsRight → r.ReadsRight → l.level ≤ o.level → r.level ≤ o.level → e.ReadsRight)
    (fun o l r _ hne h1 h2 h3 h4 => by
      refine ⟨?_, h4, h1, h2⟩
      cases l with
      | lit l => have := level_pos o; simp [Expr.level]; omega
      | not l => have := level_pos o; simp only [Expr.level]; omega
      | par l => have := level_pos o; simp [Expr.level]; omega
      | bin o2 a b => have := hne o2 a b rfl; simp only [Expr.level] at h3 ⊢; omega)
    (fun o o2 a b r h ih h1 h2 h3 h4 => by
      obtain ⟨k1, k2, k3, k4⟩ := h1
      refine ⟨k1, ?_, k3, ih k4 h2 (by omega) h4⟩
      rw [attach_level]; omega)

theorem attach_lits : ∀ o l r, l.LitsValid → r.LitsValid → (attach o l r).LitsValid :=
  attach_ind (P := fun o l r e => l.LitsValid → r.LitsValid → e.LitsValid) (fun o l r _ _ h1 h2 => ⟨h1, h2⟩)
    (fun o o2 a b r _ ih h1 h2 => ⟨h1.1, ih h1.2 h2⟩)

theorem attach_minus : ∀ o l r, l.NoParMinus → r.NoParMinus → (o = .sub → ¬ l.EndsInPar) → (attach o l r).NoParMinus :=
  attach_ind (P := fun o l r e => l.NoParMinus → r.NoParMinus → (o = .sub → ¬ l.EndsInPar) → e.NoParMinus)
    (fun o l r _ _ h1 h2 h3 => ⟨h3, h1, h2⟩)
    (fun o o2 a b r _ ih h1 h2 h3 => ⟨h1.1, h1.2.1, ih h1.2.2 h2 h3⟩)

theorem attach_endsInPar : ∀ o l r, (attach o l r).EndsInPar ↔ r.EndsInPar :=
  attach_ind (P := fun o l r e => e.EndsInPar ↔ r.EndsInPar) (fun o l r _ _ => Iff.rfl) (fun o o2 a b r _ ih => ih)

theorem attach_hasOp : ∀ o l r, (attach o l r).HasOp :=
  attach_ind (P := fun o l r e => e.HasOp) (fun o l r _ _ => trivial) (fun o o2 a b r _ _ => trivial)

theorem fromRight_level (e : Expr) : e.fromRight.level = e.level := by
  cases e with
  | lit l => rfl
  | not e => rfl
  | par e => rfl
  | bin o l r => exact attach_level _ _ _

theorem fromRight_toks (e : Expr) : e.fromRight.toks = e.toks := by
  induction e with
  | lit l => rfl
  | not e ih => simp [Expr.fromRight, Expr.toks, ih]
  | par e ih => simp [Expr.fromRight, Expr.toks, ih]
  | bin o l r ihl ihr => simp [Expr.fromRight, attach_toks, Expr.toks, ihl, ihr]

theorem fromRight_reads (e : Expr) (h : e.ReadsLeft) : e.fromRight.ReadsRight := by
  induction e with
  | lit l => trivial
  | not e ih => exact ⟨by rw [fromRight_level]; exact h.1, ih h.2⟩
  | par e ih => exact ih h
  | bin o l r ihl ihr =>
    exact attach_readsRight _ _ _ (ihl h.2.2.1) (ihr h.2.2.2) (by rw [fromRight_level]; exact h.1)
      (by rw [fromRight_level]; exact Nat.le_of_lt h.2.1)

theorem fromRight_lits (e : Expr) (h : e.LitsValid) : e.fromRight.LitsValid := by
  induction e with
  | lit l => exact h
  | not e ih => exact ih h
  | par e ih => exact ih h
  | bin o l r ihl ihr => exact attach_lits _ _ _ (ihl h.1) (ihr h.2)

theorem fromRight_endsInPar (e : Expr) : e.fromRight.EndsInPar ↔ e.EndsInPar := by
  induction e with
  | lit l => exact Iff.rfl
  | not e ih => exact ih
  | par e ih => exact Iff.rfl
  | bin o l r ihl ihr => rw [Expr.fromRight, attach_endsInPar]; exact ihr

theorem fromRight_minus (e : Expr) (h : e.NoParMinus) : e.fromRight.NoParMinus := by
  induction e with
  | lit l => exact h
  | not e ih => exact ih h
  | par e ih => exact ih h
  | bin o l r ihl ihr =>
    exact attach_minus _ _ _ (ihl h.2.1) (ihr h.2.2) (fun ho => by rw [fromRight_endsInPar]; exact h.1 ho)

theorem fromRight_hasOp (e : Expr) : e.fromRight.HasOp ↔ e.HasOp := by
  induction e with
  | lit l => exact Iff.rfl
  | not e ih => exact Iff.rfl
  | par e ih => exact ih
  | bin o l r ihl ihr => exact ⟨fun _ => trivial, fun _ => attach_hasOp _ _ _⟩

/-! ## Chains of logical operators -/

/-- What a logical operator computes of small operands. -/
def logical (o : BinOp) (a b : Val) : Val :=
  ⟨a.signed || b.signed, if (if o.level = 10 then a.v ≠ 0 ∧ b.v ≠ 0 else a.v ≠ 0 ∨ b.v ≠ 0) then 1 else 0⟩

theorem combine_logical (o : BinOp) (ho : 10 ≤ o.level) (a b : Val) (ha : a.v < 2 ^ 63) (hb : b.v < 2 ^ 63) :
    combine o a b = .ok (logical o a b) := by
  unfold combine
  have hs : ∀ s, o.apply s a.v b.v = .ok ⟨s, (logical o a b).v⟩ := by
    intro s
    cases o <;> first
      | (exfalso; simp [BinOp.level] at ho; done)
      | (simp only [BinOp.apply, truth, logical, BinOp.level]
         congr 2)
      | (simp only [BinOp.apply, truth, logical, BinOp.level]
         congr 2
         simp)
  by_cases h : a.signed = true ∨ b.signed = true
  · rw [if_pos h, if_neg (by omega), hs]
    have : (a.signed || b.signed) = true := by simpa using h
    simp [logical, this]
  · rw [if_neg h, hs]
    have : (a.signed || b.signed) = false := by simpa using h
    simp [logical, this]

theorem logical_small (o : BinOp) (a b : Val) : (logical o a b).v < 2 ^ 63 := by
  simp only [logical]
  split <;> split <;> omega

theorem logical_assoc (o o2 : BinOp) (h : o2.level = o.level) (a b c : Val) :
    logical o2 a (logical o b c) = logical o (logical o2 a b) c := by
  simp only [logical, h, Bool.or_assoc, Val.mk.injEq, true_and]
  by_cases h10 : o.level = 10 <;> simp only [h10, if_true, if_false] <;> by_cases ha : a.v = 0 <;> by_cases hb : b.v = 0 <;>
    by_cases hc : c.v = 0 <;> simp [ha, hb, hc]

theorem logical_value (env : Bytes → Option Val) (o : BinOp) (ho : 10 ≤ o.level) (l r : Expr) (hl : l.Small env) (hr : r.Small env) :
    (Expr.bin o l r).value env = (l.value env).bind (fun a => (r.value env).bind (fun b => .ok (logical o a b))) := by
  simp only [Expr.value]
  cases hlv : l.value env with
  | ok a =>
    simp only [R.bind]
    cases hrv : r.value env with
    | ok b => simp only; exact combine_logical o ho a b (hl a hlv) (hr b hrv)
    | error => rfl
    | undefined => rfl
  | error => rfl
  | undefined => rfl

theorem bin_small (env : Bytes → Option Val) (o : BinOp) (ho : 10 ≤ o.level) (l r : Expr) (hl : l.Small env) (hr : r.Small env) :
    (Expr.bin o l r).Small env := by
  intro x hx
  rw [logical_value env o ho l r hl hr] at hx
  cases hlv : l.value env with
  | ok a =>
    rw [hlv] at hx
    simp only [R.bind] at hx
    cases hrv : r.value env with
    | ok b => rw [hrv] at hx; simp at hx; subst hx; exact logical_small _ _ _
    | error => rw [hrv] at hx; cases hx
    | undefined => rw [hrv] at hx; cases hx
  | error => rw [hlv] at hx; cases hx
  | undefined => rw [hlv] at hx; cases hx

/-- The operands of a chain are small. -/
def Spine (env : Bytes → Option Val) : Expr → Prop
  | .bin o a b => 10 ≤ o.level → a.Small env ∧ b.Small env ∧ Spine env b
  | _ => True

theorem attach_value (env : Bytes → Option Val) : ∀ o l r, 10 ≤ o.level → Spine env l → l.Small env → r.Small env →
    (attach o l r).value env = (Expr.bin o l r).value env :=
  attach_ind (P := fun o l r e => 10 ≤ o.level → Spine env l → l.Small env → r.Small env → e.value env = (Expr.bin o l r).value env)
    (fun o l r _ _ _ _ _ _ => rfl)
    (fun o o2 a b r h ih ho hsp hl hr => by
      obtain ⟨ha, hb, hsb⟩ := hsp (by omega)
      have ih := ih ho hsb hb hr
      have hsm : (attach o b r).Small env := by
        intro x hx
        rw [ih] at hx
        exact bin_small env o ho b r hb hr x hx
      rw [logical_value env o2 (by omega) a _ ha hsm, logical_value env o ho _ r hl hr, ih,
        logical_value env o ho b r hb hr, logical_value env o2 (by omega) a b ha hb]
      cases a.value env with
      | error => rfl
      | undefined => rfl
      | ok va =>
        cases b.value env with
        | error => rfl
        | undefined => rfl
        | ok vb =>
          cases r.value env with
          | error => rfl
          | undefined => rfl
          | ok vr => simp only [R.bind]; rw [logical_assoc o o2 h])

theorem attach_spine (env : Bytes → Option Val) : ∀ o l r, (10 ≤ o.level → Spine env l) → (10 ≤ o.level → l.Small env ∧ r.Small env) →
    (10 ≤ o.level → Spine env r) → Spine env (attach o l r) :=
  attach_ind (P := fun o l r e => (10 ≤ o.level → Spine env l) → (10 ≤ o.level → l.Small env ∧ r.Small env) → (10 ≤ o.level → Spine env r) → Spine env e)
    (fun o l r _ _ _ h2 h3 => by intro ho; exact ⟨(h2 ho).1, (h2 ho).2, h3 ho⟩)
    (fun o o2 a b r h ih h1 h2 h3 => by
      intro ho2
      have ho : 10 ≤ o.level := by omega
      obtain ⟨ha, hb, hsb⟩ := h1 ho ho2
      refine ⟨ha, ?_, ih (fun _ => hsb) (fun _ => ⟨hb, (h2 ho).2⟩) h3⟩
      intro x hx
      rw [attach_value env o b r ho hsb hb (h2 ho).2] at hx
      exact bin_small env o ho b r hb (h2 ho).2 x hx)

theorem attach_plain (o : BinOp) (l r : Expr) (h : l.level ≠ o.level) : attach o l r = .bin o l r := by
  cases l with
  | bin o2 a b => rw [attach, if_neg (show o2.level ≠ o.level from h)]
  | _ => rfl

theorem fromRight_value (env : Bytes → Option Val) (e : Expr) (h : e.OnlyLogicalChains env) :
    e.fromRight.value env = e.value env ∧ Spine env e.fromRight := by
  induction e with
  | lit l => exact ⟨rfl, trivial⟩
  | not e ih => exact ⟨by simp only [Expr.fromRight, Expr.value, (ih h).1], trivial⟩
  | par e ih => exact ⟨(ih h).1, trivial⟩
  | bin o l r ihl ihr =>
    obtain ⟨h1, h2, h3, h4⟩ := h
    obtain ⟨il, sl⟩ := ihl h3
    obtain ⟨ir, sr⟩ := ihr h4
    have hsm : 10 ≤ o.level → l.fromRight.Small env ∧ r.fromRight.Small env := by
      intro ho
      obtain ⟨ha, hb⟩ := h2 ho
      exact ⟨fun x hx => ha x (by rw [← il]; exact hx), fun x hx => hb x (by rw [← ir]; exact hx)⟩
    refine ⟨?_, attach_spine env o _ _ (fun _ => sl) hsm (fun _ => sr)⟩
    have hplain : (Expr.bin o l.fromRight r.fromRight).value env = (Expr.bin o l r).value env := by
      simp only [Expr.value, il, ir]
    rw [Expr.fromRight, ← hplain]
    by_cases ho : 10 ≤ o.level
    · exact attach_value env o _ _ ho sl (hsm ho).1 (hsm ho).2
    · rw [attach_plain _ _ _ (by rw [fromRight_level]; intro hc; exact ho (h1 hc))]

theorem unchained_fromRight (e : Expr) (h : e.Unchained) : e.fromRight = e := by
  induction e with
  | lit l => rfl
  | not e ih => simp only [Expr.fromRight, ih h.2]
  | par e ih => simp only [Expr.fromRight, ih h]
  | bin o l r ihl ihr =>
    simp only [Expr.fromRight, ihl h.2.2.1, ihr h.2.2.2]
    exact attach_plain _ _ _ (Nat.ne_of_lt h.1)

end Verif.Condition
