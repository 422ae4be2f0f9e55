import Verif.Condition.Text
/-!
# What the shunting yard makes of an expression, and how the result is evaluated
-/
namespace Verif.Condition
open Verif Spec

/-- What an expression has added to the output when its last token has been read. -/
def outOf : Expr → List Carrier
  | .lit l => [.val l.text]
  | .not e => outOf e
  | .bin _ l r => outOf l ++ (pend l).map .op ++ outOf r
  | .par e => outOf e ++ (pend e).map .op
where
  /-- The operators an expression leaves on the stack. -/
  pend : Expr → List Op
  | .lit _ => []
  | .not e => pend e ++ [.bwNot]
  | .bin o _ r => pend r ++ [opOf o]
  | .par _ => []

abbrev pend := outOf.pend

/-- An expression in reverse polish notation. -/
def post : Expr → List Carrier
  | .lit l => [.val l.text]
  | .not e => post e ++ [.op .bwNot]
  | .bin o l r => post l ++ post r ++ [.op (opOf o)]
  | .par e => post e

theorem out_pend (e : Expr) : outOf e ++ (pend e).map .op = post e := by
  induction e with
  | lit l => simp [outOf, outOf.pend, post]
  | not e ih => simp only [outOf, pend, outOf.pend, post, ← ih]; simp
  | bin o l r ihl ihr => simp only [outOf, pend, outOf.pend, post, ← ihl, ← ihr]; simp
  | par e ih => simp only [outOf, pend, outOf.pend, post, ← ih]; simp

theorem opOf_prio (o : BinOp) : (opOf o).prio = o.level := by cases o <;> rfl
theorem opOf_ne (o : BinOp) : opOf o ≠ .parOpen ∧ opOf o ≠ .parClose := by cases o <;> decide

theorem pend_prio (e : Expr) (h : e.ReadsRight) : ∀ o ∈ pend e, o.prio ≤ e.level ∧ o ≠ .parOpen := by
  induction e with
  | lit l => intro o ho; simp [outOf.pend] at ho
  | not e ih =>
    intro o ho
    simp only [pend, outOf.pend, List.mem_append, List.mem_singleton] at ho
    rcases ho with ho | rfl
    · have := ih h.2 o ho
      exact ⟨Nat.le_trans this.1 h.1, this.2⟩
    · exact ⟨Nat.le_refl _, by decide⟩
  | bin b l r _ ihr =>
    intro o ho
    simp only [pend, outOf.pend, List.mem_append, List.mem_singleton] at ho
    rcases ho with ho | rfl
    · have := ihr h.2.2.2 o ho
      exact ⟨Nat.le_trans this.1 h.2.1, this.2⟩
    · exact ⟨by rw [opOf_prio]; exact Nat.le_refl _, (opOf_ne b).1⟩
  | par e _ => intro o ho; simp [outOf.pend] at ho

theorem outOf_ne (e : Expr) : outOf e ≠ [] := by
  induction e with
  | lit l => simp [outOf]
  | not e ih => simpa [outOf] using ih
  | bin o l r ihl ihr => simp [outOf, ihl]
  | par e ih => simp [outOf, ih]

/-- The operators which are on the stack stay there. -/
def Stays (S : List Op) (level : Nat) : Prop := ∀ o st, S = o :: st → o = .parOpen ∨ level ≤ o.prio

theorem popTighter_all (p : Nat) (out : List Carrier) (P S : List Op) (hP : ∀ o ∈ P, o.prio < p ∧ o ≠ .parOpen) (hS : Stays S p) :
    popTighter p out (P ++ S) = (out ++ P.map .op, S) := by
  induction P generalizing out with
  | nil =>
    cases S with
    | nil => simp [popTighter]
    | cons o S =>
      simp only [List.nil_append, popTighter]
      rw [if_neg]
      · simp
      · rintro ⟨h1, h2⟩
        rcases hS o S rfl with h | h
        · exact h2 h
        · omega
  | cons o P ih =>
    simp only [List.cons_append, popTighter]
    rw [if_pos (hP o (by simp)), ih _ (fun o' ho' => hP o' (by simp [ho']))]
    simp

theorem closePar_all (out : List Carrier) (P S : List Op) (hP : ∀ o ∈ P, o ≠ .parOpen) :
    closePar out (P ++ .parOpen :: S) = (out ++ P.map .op, S) := by
  induction P generalizing out with
  | nil => simp [closePar]
  | cons o P ih =>
    simp only [List.cons_append, closePar]
    rw [if_neg (hP o (by simp)), ih _ (fun o' ho' => hP o' (by simp [ho']))]
    simp

theorem shuntOp_op (y : Yard) (o : Op) (P S : List Op) (h1 : o ≠ .parOpen) (h2 : o ≠ .parClose) (hy : y.stack = P ++ S)
    (hP : ∀ o' ∈ P, o'.prio < o.prio ∧ o' ≠ .parOpen) (hS : Stays S o.prio) :
    shuntOp y o = some { y with out := y.out ++ P.map .op, stack := o :: S } := by
  unfold shuntOp
  rw [if_neg h1, if_neg h2, hy]
  by_cases h : P ++ S = []
  · rw [if_pos h]
    simp at h
    simp [h.1, h.2]
  · rw [if_neg h]
    simp only [popTighter_all o.prio y.out P S hP hS]

def endsPar : Expr → Bool
  | .lit _ => false
  | .not e => endsPar e
  | .bin _ _ r => endsPar r
  | .par _ => true

theorem endsPar_iff (e : Expr) : endsPar e = true ↔ e.EndsInPar := by
  induction e with
  | lit l => simp [endsPar, Expr.EndsInPar]
  | not e ih => simpa [endsPar, Expr.EndsInPar] using ih
  | bin o l r _ ihr => simpa [endsPar, Expr.EndsInPar] using ihr
  | par e _ => simp [endsPar, Expr.EndsInPar]

/-- Reading an expression. -/
theorem run_expr (e : Expr) (hr : e.ReadsRight) (hm : e.NoParMinus) (hv : e.LitsValid) : ∀ (out : List Carrier) (S : List Op) (pl : Nat),
    pl ≠ 0 → Stays S e.level → Run ⟨out, S, pl, true⟩ e.toks ⟨out ++ outOf e, pend e ++ S, pl, endsPar e⟩ := by
  induction e with
  | lit l =>
    intro out S pl hpl _
    refine .cons _ _ _ _ _ (by intro l' h'; cases h'; exact hv) ?_ (Or.inl hpl) ?_ ?_ (.nil _)
    · cases l <;> simp [TokOk]
    · simp only [feed, shuntValue]
      rw [if_neg (by have := hv.1; omega)]
      simp [outOf, outOf.pend, endsPar]
    · exact hpl
  | not e ih =>
    intro out S pl hpl hS
    refine .cons _ ⟨out, .bwNot :: S, pl, true⟩ _ _ _ (by intro l h; cases h) trivial (Or.inl hpl) ?_ hpl ?_
    · simp only [feed]
      rw [shuntOp_op _ .bwNot [] S (by decide) (by decide) rfl (by simp) hS]
      simp
    · have := ih hr.2 hm hv out (.bwNot :: S) pl hpl (by intro o st h; cases h; exact Or.inr hr.1)
      simpa [outOf, outOf.pend, endsPar] using this
  | bin o l r ihl ihr =>
    intro out S pl hpl hS
    obtain ⟨h1, h2, h3, h4⟩ := hr
    have hl := ihl h3 hm.2.1 hv.1 out S pl hpl (by
      intro o' st h
      rcases hS o' st h with h | h
      · exact Or.inl h
      · right; simp only [Expr.level] at h; omega)
    refine hl.append ?_
    refine .cons _ ⟨out ++ outOf l ++ (pend l).map .op, opOf o :: S, pl, true⟩ _ _ _ (by intro l h; cases h) ?_ (Or.inl hpl) ?_ hpl ?_
    · cases o <;> simp only [TokOk]
      refine ⟨?_, by simp [outOf_ne]⟩
      have := hm.1 rfl
      rw [← endsPar_iff] at this
      simpa using this
    · simp only [feed]
      rw [shuntOp_op _ (opOf o) (pend l) S (opOf_ne o).1 (opOf_ne o).2 rfl ?_ (by rw [opOf_prio]; exact hS)]
      intro o' ho'
      have := pend_prio l h3 o' ho'
      rw [opOf_prio]
      exact ⟨by omega, this.2⟩
    · have := ihr h4 hm.2.2 hv.2 (out ++ outOf l ++ (pend l).map .op) (opOf o :: S) pl hpl
        (by intro o' st h; cases h; right; rw [opOf_prio]; exact h2)
      simpa [outOf, outOf.pend, endsPar] using this
  | par e ih =>
    intro out S pl hpl hS
    refine .cons _ ⟨out, .parOpen :: S, pl + 1, true⟩ _ _ _ (by intro l h; cases h) trivial (Or.inl hpl) ?_ (by simp) ?_
    · simp [feed, shuntOp]
    · have h := ih hr hm hv out (.parOpen :: S) (pl + 1) (by simp) (by intro o st h; cases h; exact Or.inl rfl)
      refine h.append ?_
      refine .cons _ ⟨out ++ outOf e ++ (pend e).map .op, S, pl, true⟩ _ _ _ (by intro l h; cases h) trivial (Or.inl (by simp)) ?_ hpl ?_
      · simp only [feed, shuntOp]
        rw [if_neg (by decide), if_pos trivial, if_neg (by simp)]
        rw [closePar_all _ _ _ (fun o ho => (pend_prio e hr o ho).2)]
        simp
      · have : (⟨out ++ outOf (.par e), pend (.par e) ++ S, pl, endsPar (.par e)⟩ : Yard)
            = ⟨out ++ outOf e ++ (pend e).map .op, S, pl, true⟩ := by
          simp [outOf, outOf.pend, endsPar]
        rw [this]
        exact .nil _

theorem post_counts (e : Expr) : valueCount (post e) = opCount (post e) + 1 ∧ post e ≠ [] := by
  induction e with
  | lit l => simp [post, valueCount, opCount, List.countP_cons]
  | not e ih =>
    have h1 : valueCount (post (.not e)) = valueCount (post e) := by simp [post, valueCount, List.countP_append, List.countP_cons]
    have h2 : opCount (post (.not e)) = opCount (post e) := by simp [post, opCount, List.countP_append, List.countP_cons, Op.prio]
    rw [h1, h2]
    exact ⟨ih.1, by simp [post]⟩
  | bin o l r ihl ihr =>
    have h1 : valueCount (post (.bin o l r)) = valueCount (post l) + valueCount (post r) := by
      simp [post, valueCount, List.countP_append, List.countP_cons]
    have h2 : opCount (post (.bin o l r)) = opCount (post l) + opCount (post r) + 1 := by
      have : ((opOf o).prio != 1) = true := by cases o <;> rfl
      simp only [post, opCount, List.countP_append, List.countP_cons, this]
      simp
    rw [h1, h2]
    exact ⟨by omega, by simp [post]⟩
  | par e ih => exact ih

/-- The text of an expression in parentheses is accepted, and turned into reverse polish notation. -/
theorem interpret_expr (e : Expr) (text rest : Bytes) (hr : e.ReadsRight) (hm : e.NoParMinus) (hv : e.LitsValid)
    (hs : Spells (.parOpen :: e.toks ++ [.parClose]) text rest) : interpret text = .ok (post e, rest) := by
  have h0 : Run ⟨[], [], 0, false⟩ (.parOpen :: e.toks) ⟨outOf e, pend e ++ [.parOpen], 1, endsPar e⟩ := by
    refine .cons _ ⟨[], [.parOpen], 1, true⟩ _ _ _ (by intro l h; cases h) trivial (Or.inr rfl) ?_ (by simp) ?_
    · simp [feed, shuntOp]
    · have := run_expr e hr hm hv [] [.parOpen] 1 (by simp) (by intro o st h; cases h; exact Or.inl rfl)
      simpa using this
  obtain ⟨f', t', h1, h2, h3⟩ := run_loop _ _ _ [.parClose] h0 text.length text rest hs (Nat.le_refl _)
  have h4 := close_loop ⟨outOf e, pend e ++ [.parOpen], 1, endsPar e⟩ ⟨post e, [], 0, true⟩ f' t' rest h2 h3 (by simp) (by
    simp only [feed, shuntOp]
    rw [if_neg (by decide), if_pos trivial, if_neg (by simp)]
    rw [closePar_all _ _ [] (fun o ho => (pend_prio e hr o ho).2), out_pend]) rfl
  unfold interpret
  rw [h1, h4]
  obtain ⟨hc, hn⟩ := post_counts e
  simp only [ne_eq, not_true_eq_false, if_false, hn]
  unfold finalize
  simp [hc]

/-! ## Evaluation -/

/-- The results which have not been used. -/
def stackOf (rs : List Res) : List Num := (rs.filter (·.evaluated)).map (·.num)

theorem stackOf_unmark (j : Nat) (rs : List Res) (r : Res) (h : rs[j]? = some r) (he : r.evaluated = true) :
    ∃ a b, stackOf rs = a ++ r.num :: b ∧ stackOf (unmark j rs) = a ++ b ∧ stackOf (rs.take j) = a := by
  induction rs generalizing j with
  | nil => simp at h
  | cons x rs ih =>
    cases j with
    | zero =>
      simp at h; subst h
      exact ⟨[], stackOf rs, by simp [stackOf, he], by simp [stackOf, unmark], by simp [stackOf]⟩
    | succ j =>
      obtain ⟨a, b, h1, h2, h3⟩ := ih j (by simpa using h)
      by_cases hx : x.evaluated = true
      · exact ⟨x.num :: a, b, by simp [stackOf, hx] at h1 ⊢; exact h1, by simp [stackOf, hx, unmark] at h2 ⊢; exact h2,
          by simp [stackOf, hx] at h3 ⊢; exact h3⟩
      · exact ⟨a, b, by simp [stackOf, hx] at h1 ⊢; exact h1, by simp [stackOf, hx, unmark] at h2 ⊢; exact h2,
          by simp [stackOf, hx] at h3 ⊢; exact h3⟩

/-- Position of the first unused result. -/
theorem stackOf_cons (rs : List Res) (b : Num) (st : List Num) (h : stackOf rs = b :: st) :
    ∃ pre r post, rs = pre ++ r :: post ∧ (∀ x ∈ pre, x.evaluated = false) ∧ r.evaluated = true ∧ r.num = b ∧ stackOf post = st := by
  induction rs with
  | nil => simp [stackOf] at h
  | cons x rs ih =>
    by_cases hx : x.evaluated = true
    · simp [stackOf, hx] at h
      exact ⟨[], x, rs, rfl, by simp, hx, h.1, by simpa [stackOf] using h.2⟩
    · obtain ⟨pre, r, post, h1, h2, h3⟩ := ih (by simpa [stackOf, hx] using h)
      exact ⟨x :: pre, r, post, by simp [h1], by simpa [hx] using h2, h3⟩

theorem stackOf_nil (rs : List Res) (h : stackOf rs = []) : ∀ x ∈ rs, x.evaluated = false := by
  simpa [stackOf] using h

theorem scan_skip (sg : Bool) (pre rs : List Res) (j : Nat) (b a : Option Nat) (hp : ∀ x ∈ pre, x.evaluated = false)
    (hc : ¬ (b ≠ none ∧ (a ≠ none ∨ sg = true))) : scan sg (pre ++ rs) j b a = scan sg rs (j + pre.length) b a := by
  induction pre generalizing j with
  | nil => simp
  | cons x pre ih =>
    simp only [List.cons_append, scan, hp x (by simp)]
    simp only [Bool.false_eq_true, if_false, if_neg hc]
    rw [ih (j + 1) (fun y hy => hp y (by simp [hy]))]
    simp; congr 1; omega

theorem unmark_append (pre : List Res) (r : Res) (post : List Res) :
    unmark pre.length (pre ++ r :: post) = pre ++ { r with evaluated := false } :: post := by
  induction pre with
  | nil => rfl
  | cons x pre ih => simp [unmark, ih]

theorem stackOf_append (a b : List Res) : stackOf (a ++ b) = stackOf a ++ stackOf b := by simp [stackOf]

theorem stackOf_unused (l : List Res) (h : ∀ x ∈ l, x.evaluated = false) : stackOf l = [] := by
  simpa [stackOf] using h

/-- The result of a computation as the new list of results. -/
def Ev.map {α β : Type} (f : α → β) : Ev α → Ev β
  | .ok a => .ok (f a) | .soft => .soft | .undef => .undef | .fault => .fault | .bug => .bug

theorem evaluateOp_one (rs : List Res) (b : Num) (st : List Num) (h : stackOf rs = b :: st) :
    ∃ rs0, stackOf rs0 = st ∧ evaluateOp .bwNot rs = (compute .bwNot none b).map (fun n => ⟨n, true⟩ :: rs0) := by
  obtain ⟨pre, r, post, rfl, h2, h3, h4, h5⟩ := stackOf_cons rs b st h
  refine ⟨pre ++ { r with evaluated := false } :: post, ?_, ?_⟩
  · rw [stackOf_append, stackOf_unused pre h2]; simpa [stackOf] using h5
  · unfold evaluateOp
    rw [if_neg (by simp)]
    have hsc : scan (Op.bwNot.prio == 1) (pre ++ r :: post) 0 none none = (some pre.length, none) := by
      rw [scan_skip _ pre _ 0 none none h2 (by simp)]
      simp only [scan, h3, if_true]
      simp [Op.prio]
    simp only [hsc]
    simp only [List.getElem?_append_right (Nat.le_refl _), Nat.sub_self, List.getElem?_cons_zero, Option.bind_none, Option.map_none, unmark?,
      unmark_append, h4]
    cases compute .bwNot none b <;> rfl

theorem evaluateOp_two (o : Op) (ho : o.prio ≠ 1) (rs : List Res) (a b : Num) (st : List Num) (h : stackOf rs = b :: a :: st) :
    ∃ rs0, stackOf rs0 = st ∧ evaluateOp o rs = (compute o (some a) b).map (fun n => ⟨n, true⟩ :: rs0) := by
  obtain ⟨pre, r, post, rfl, h2, h3, h4, h5⟩ := stackOf_cons rs b (a :: st) h
  obtain ⟨pre', r', post', rfl, h2', h3', h4', h5'⟩ := stackOf_cons post a st h5
  refine ⟨pre ++ { r with evaluated := false } :: (pre' ++ { r' with evaluated := false } :: post'), ?_, ?_⟩
  · rw [stackOf_append, stackOf_unused pre h2]
    have := stackOf_unused pre' h2'
    have h6 : stackOf (pre' ++ { r' with evaluated := false } :: post') = st := by
      rw [stackOf_append, this]; simpa [stackOf] using h5'
    simpa [stackOf] using h6
  · unfold evaluateOp
    rw [if_neg (by simp)]
    have hb : (o.prio == 1) = false := by simpa using ho
    have hsc : scan (o.prio == 1) (pre ++ r :: (pre' ++ r' :: post')) 0 none none
        = (some pre.length, some (pre.length + 1 + pre'.length)) := by
      rw [hb, scan_skip _ pre _ 0 none none h2 (by simp)]
      simp only [scan, h3, if_true]
      rw [if_neg (by simp), scan_skip _ pre' _ _ _ none h2' (by simp)]
      simp only [scan, h3', if_true]
      simp
    simp only [hsc]
    have e1 : (pre ++ r :: (pre' ++ r' :: post'))[pre.length]? = some r := by
      simp [List.getElem?_append_right]
    have e2 : (pre ++ r :: (pre' ++ r' :: post'))[pre.length + 1 + pre'.length]? = some r' := by
      have : pre ++ r :: (pre' ++ r' :: post') = (pre ++ r :: pre') ++ r' :: post' := by simp
      rw [this, List.getElem?_append_right (by simp; omega)]
      simp; rw [show pre.length + 1 + pre'.length - (pre.length + (pre'.length + 1)) = 0 by omega]; rfl
    have e3 : unmark (pre.length + 1 + pre'.length) (pre ++ r :: (pre' ++ r' :: post'))
        = pre ++ r :: (pre' ++ { r' with evaluated := false } :: post') := by
      have h1 : pre ++ r :: (pre' ++ r' :: post') = (pre ++ r :: pre') ++ r' :: post' := by simp
      have h2 : pre.length + 1 + pre'.length = (pre ++ r :: pre').length := by simp; omega
      rw [h1, h2, unmark_append]
      simp
    simp only [e1, Option.bind_some, e2, Option.map_some, unmark?, e3, unmark_append, h4, h4']
    cases compute o (some a) b <;> rfl

/-- With one unused result, an operator of two operands has none for the other. -/
theorem evaluateOp_lone (o : Op) (ho : o.prio ≠ 1) (rs : List Res) (b : Num) (h : stackOf rs = [b]) :
    ∃ rs0, stackOf rs0 = [] ∧ evaluateOp o rs = (compute o none b).map (fun n => ⟨n, true⟩ :: rs0) := by
  obtain ⟨pre, r, post, rfl, h2, h3, h4, h5⟩ := stackOf_cons rs b [] h
  refine ⟨pre ++ { r with evaluated := false } :: post, ?_, ?_⟩
  · rw [stackOf_append, stackOf_unused pre h2]; simpa [stackOf] using h5
  · unfold evaluateOp
    rw [if_neg (by simp)]
    have hb : (o.prio == 1) = false := by simpa using ho
    have hsc : scan (o.prio == 1) (pre ++ r :: post) 0 none none = (some pre.length, none) := by
      rw [hb, scan_skip _ pre _ 0 none none h2 (by simp)]
      simp only [scan, h3, if_true]
      rw [if_neg (by simp)]
      have := scan_skip false post [] (0 + pre.length + 1) (some (0 + pre.length)) none (stackOf_nil post h5) (by simp)
      simp only [List.append_nil] at this
      simp only [this, scan]
      simp
    simp only [hsc]
    simp only [List.getElem?_append_right (Nat.le_refl _), Nat.sub_self, List.getElem?_cons_zero, Option.bind_none, Option.map_none, unmark?,
      unmark_append, h4]
    cases compute o none b <;> rfl

/-! ## Literals -/

theorem number_eq (base : Nat) (l : Bytes) (h : ∀ c ∈ l, digitValue c = digit c) : ∀ n,
    l.foldl (fun n c => n * base + digitValue c) n = n * base ^ l.length + numeral base l := by
  induction l with
  | nil => intro n; simp [numeral]
  | cons c l ih =>
    intro n
    simp only [List.foldl_cons]
    rw [ih (fun c hc => h c (by simp [hc])), h c (by simp)]
    simp only [List.length_cons, numeral, Nat.pow_succ, Nat.add_mul, Nat.mul_assoc]
    rw [Nat.mul_comm base]
    omega

theorem digit_value (c : UInt8) : HexDigit c → digitValue c = digit c := by
  have : ∀ c : UInt8, HexDigit c → digitValue c = digit c := by unfold HexDigit; exact all256 (by decide +kernel)
  exact this c

theorem number_numeral (base : Nat) (l : Bytes) (h : ∀ c ∈ l, HexDigit c) : number base l = numeral base l := by
  have := number_eq base l (fun c hc => digit_value c (h c hc)) 0
  simpa [number] using this

/-- The values of names. -/
def envVal (env : Bytes → Option Num) : Bytes → Option Val := fun n => (env n).map numVal

theorem evaluateValue_lit (env : Bytes → Option Num) (l : Lit) (hv : l.Valid) :
    decR (evaluateValue env l.text) = l.value (envVal env)
      ∧ evaluateValue env l.text ≠ .fault ∧ evaluateValue env l.text ≠ .bug ∧ evaluateValue env l.text ≠ .undef := by
  cases l with
  | tag n =>
    have e : evaluateValue env (Lit.text (.tag n)) = match env n with | none => .soft | some n => .ok n := by
      unfold evaluateValue
      rw [if_pos (by simp [Lit.text])]
      simp [Lit.text]
      cases env n <;> rfl
    rw [e]
    simp only [Lit.value, envVal]
    cases env n <;> simp [decR]
  | hex x ds =>
    obtain ⟨_, hx, h0, hd⟩ := hv
    have e : evaluateValue env (Lit.text (.hex x ds)) = .ok ⟨BitVec.ofNat 64 (min (numeral 16 ds) (2 ^ 64 - 1)), false⟩ := by
      unfold evaluateValue
      rw [if_neg (by simp [Lit.text]), if_pos]
      · simp only [Lit.text, List.drop_succ_cons, List.drop_zero]
        rw [number_numeral 16 ds hd]
      · refine ⟨by simp [Lit.text], ?_⟩
        simp only [Lit.text, matchWordCase]
        rw [if_pos (Or.inl trivial), if_pos (by rcases hx with rfl | rfl <;> decide)]
        simp
    rw [e]
    refine ⟨?_, by simp, by simp, by simp⟩
    simp only [decR, numVal, Lit.value, BitVec.toNat_ofNat]
    congr 2
    simp
    omega
  | neg ds =>
    obtain ⟨_, h0, hd⟩ := hv
    have e : evaluateValue env (Lit.text (.neg ds)) = .ok ⟨BitVec.ofInt 64 (max (- (numeral 10 ds : Int)) (- 2 ^ 63)), true⟩ := by
      unfold evaluateValue
      rw [if_neg (by simp [Lit.text]), if_neg, if_pos (by simp [Lit.text])]
      · simp only [Lit.text, List.drop_succ_cons, List.drop_zero]
        rw [number_numeral 10 ds (fun c hc => Or.inl (hd c hc))]
      · rintro ⟨_, h⟩
        apply h
        simp only [Lit.text, matchWordCase]
        rw [if_neg (by decide)]
    rw [e]
    refine ⟨?_, by simp, by simp, by simp⟩
    simp only [decR, Lit.value]
    rw [numVal_ofInt]
    omega
  | dec ds =>
    obtain ⟨_, h0, hd⟩ := hv
    have e : evaluateValue env (Lit.text (.dec ds)) = .ok ⟨BitVec.ofNat 64 (min (numeral 10 ds) (2 ^ 64 - 1)), false⟩ := by
      unfold evaluateValue
      cases ds with
      | nil => exact absurd rfl h0
      | cons d ds =>
        have hd0 := digit_ne d (hd d (by simp))
        rw [if_neg (by simp [Lit.text, hd0.1]), if_neg, if_neg (by simp [Lit.text, hd0.2.1])]
        · simp only [Lit.text]
          rw [number_numeral 10 (d :: ds) (fun c hc => Or.inl (hd c hc))]
        · rintro ⟨_, h⟩
          apply h
          simp only [Lit.text, matchWordCase]
          by_cases h48 : (48 : UInt8) = d ∨ (48 : UInt8) = otherCase d
          · rw [if_pos h48]
            cases ds with
            | nil => rfl
            | cons d' ds =>
              have := digit_ne d' (hd d' (by simp))
              simp only [matchWordCase]
              rw [if_neg]
              rintro (h | h)
              · exact this.2.2.1 h.symm
              · rw [this.2.2.2.2.1] at h; cases h
          · rw [if_neg h48]
    rw [e]
    refine ⟨?_, by simp, by simp, by simp⟩
    simp only [decR, numVal, Lit.value, BitVec.toNat_ofNat]
    congr 2
    simp
    omega

/-! ## Expressions -/

instance hasOpDec : (e : Expr) → Decidable e.HasOp
  | .lit _ => isFalse (fun h => h)
  | .not _ => isTrue trivial
  | .bin _ _ _ => isTrue trivial
  | .par e => hasOpDec e

/-- Evaluating the reverse polish notation of an expression puts its value on the stack, or stops with its error. -/
def Evaluates (env : Bytes → Option Num) (e : Expr) (l : List Carrier) (rs : List Res) (res : BitVec 64) : Prop :=
  match e.value (envVal env) with
  | .error => evalLoop env (post e ++ l) rs res = .soft
  | .undefined => evalLoop env (post e ++ l) rs res = .undef
  | .ok v => ∃ n rs', numVal n = v ∧ stackOf rs' = n :: stackOf rs
      ∧ evalLoop env (post e ++ l) rs res = evalLoop env l rs' (if e.HasOp then n.bits else res)

theorem decR_ok {x : Ev Num} {v : Val} (h : decR x = .ok v) : ∃ n, x = .ok n ∧ numVal n = v := by
  cases x <;> simp [decR] at h
  exact ⟨_, rfl, h⟩

theorem decR_error {x : Ev Num} (h : decR x = .error) (h1 : x ≠ .fault) (h2 : x ≠ .bug) : x = .soft := by
  cases x <;> simp_all [decR]

theorem decR_undef {x : Ev Num} (h : decR x = .undefined) (h1 : x ≠ .fault) (h2 : x ≠ .bug) : x = .undef := by
  cases x <;> simp_all [decR]

theorem evaluates (env : Bytes → Option Num) (e : Expr) (hv : e.LitsValid) : ∀ l rs res, Evaluates env e l rs res := by
  induction e with
  | lit l =>
    intro k rs res
    obtain ⟨h1, h2, h3, h4⟩ := evaluateValue_lit env l hv
    unfold Evaluates
    simp only [Expr.value, post, List.singleton_append, evalLoop]
    cases hval : l.value (envVal env) with
    | ok v =>
      rw [hval] at h1
      obtain ⟨n, hn, hnv⟩ := decR_ok h1
      refine ⟨n, ⟨n, true⟩ :: rs, hnv, by simp [stackOf], ?_⟩
      rw [hn]
      rw [if_neg (by intro h; exact h)]
    | error =>
      rw [hval] at h1
      simp only [decR_error h1 h2 h3]
    | undefined =>
      rw [hval] at h1
      simp only [decR_undef h1 h2 h3]
  | not e ih =>
    intro k rs res
    have h := ih hv (.op .bwNot :: k) rs res
    unfold Evaluates at h ⊢
    simp only [Expr.value, post, List.append_assoc, List.singleton_append]
    cases hval : e.value (envVal env) with
    | ok v =>
      rw [hval] at h
      obtain ⟨n, rs', hnv, hst, heq⟩ := h
      simp only [R.bind]
      obtain ⟨m, hm, hmv⟩ := compute_not n
      obtain ⟨rs0, h0, h1⟩ := evaluateOp_one rs' n (stackOf rs) hst
      refine ⟨m, ⟨m, true⟩ :: rs0, by rw [hmv, hnv], by simp [stackOf] at h0 ⊢; exact h0, ?_⟩
      rw [heq]
      simp only [evalLoop, h1, hm, Ev.map]
      rw [if_pos (show Expr.HasOp (.not e) from trivial)]
      simp
    | error => rw [hval] at h; exact h
    | undefined => rw [hval] at h; exact h
  | par e ih =>
    intro k rs res
    exact ih hv k rs res
  | bin o l r ihl ihr =>
    intro k rs res
    have h := ihl hv.1 (post r ++ .op (opOf o) :: k) rs res
    unfold Evaluates at h ⊢
    simp only [Expr.value, post, List.append_assoc, List.singleton_append]
    cases hval : l.value (envVal env) with
    | error => rw [hval] at h; exact h
    | undefined => rw [hval] at h; exact h
    | ok v =>
      rw [hval] at h
      obtain ⟨a, rs1, hav, hst, heq⟩ := h
      simp only [R.bind]
      rw [heq]
      have h' := ihr hv.2 (.op (opOf o) :: k) rs1 (if l.HasOp then a.bits else res)
      unfold Evaluates at h'
      cases hval' : r.value (envVal env) with
      | error => rw [hval'] at h'; exact h'
      | undefined => rw [hval'] at h'; exact h'
      | ok w =>
        rw [hval'] at h'
        obtain ⟨b, rs2, hbv, hst2, heq2⟩ := h'
        rw [hst] at hst2
        obtain ⟨rs0, h0, h1⟩ := evaluateOp_two (opOf o) (by cases o <;> decide) rs2 a b (stackOf rs) hst2
        have hc := compute_combine o a b
        have hnf := compute_no_fault o (some a) b
        simp only
        rw [heq2]
        simp only [evalLoop, h1]
        rw [hav, hbv] at hc
        cases hcv : combine o v w with
        | ok x =>
          rw [hcv] at hc
          obtain ⟨n, hn, hnv⟩ := decR_ok hc
          refine ⟨n, ⟨n, true⟩ :: rs0, hnv, by simp [stackOf] at h0 ⊢; exact h0, ?_⟩
          rw [hn]
          simp only [Ev.map]
          rw [if_pos (show Expr.HasOp (.bin o l r) from trivial)]
          simp
        | error =>
          rw [hcv] at hc
          simp only [decR_error hc hnf.1 hnf.2, Ev.map]
        | undefined =>
          rw [hcv] at hc
          simp only [decR_undef hc hnf.1 hnf.2, Ev.map]

end Verif.Condition
