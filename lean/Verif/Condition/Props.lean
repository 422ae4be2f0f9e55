import Verif.Condition.Chains
/-!
# Properties of condition expressions

C25: a condition has the value of the expression in C. This fails for operators of the same precedence in a row other than the logical ones, for
expressions without operators, and for `-` after a parenthesis. The exact value is stated for all expressions; the agreement with C is `_partial`.

C26: an accepted condition can be evaluated. This fails; the conditions for which it fails are given exactly.
-/
namespace Verif.Condition
open Verif Spec

/-- The result of `rrr_condition_evaluate` for an outcome: the 64 bits of the number, an error return, or undefined. -/
def outcome : R → Ev (BitVec 64)
  | .ok x => .ok (BitVec.ofInt 64 x.v)
  | .error => .soft
  | .undefined => .undef

/-- The number which a name has. -/
def named (env : Bytes → Option Num) : Bytes → Option Val :=
  fun n => (env n).map (fun x => ⟨x.signed, if x.signed then x.bits.toInt else x.bits.toNat⟩)

theorem numVal_bits (n : Num) : BitVec.ofInt 64 (numVal n).v = n.bits := by
  unfold numVal
  cases n.signed
  · simp [BitVec.ofInt_natCast]
  · simp

theorem evaluate_post (env : Bytes → Option Num) (e : Expr) (hv : e.LitsValid) (ho : e.HasOp) :
    evaluate env (post e) = outcome (e.value (named env)) := by
  have h := evaluates env e hv [] [] 0#64
  unfold Evaluates at h
  have hn : named env = envVal env := rfl
  rw [hn]
  unfold evaluate
  rw [List.append_nil] at h
  cases hval : e.value (envVal env) with
  | ok v =>
    rw [hval] at h
    obtain ⟨n, rs', h1, _, h3⟩ := h
    rw [h3, if_pos ho]
    simp only [evalLoop, outcome, ← h1, numVal_bits]
  | error => rw [hval] at h; exact h
  | undefined => rw [hval] at h; exact h

/-- **C25.** Every expression of C in parentheses, with any white-space, is accepted up to the closing parenthesis and has the value of the expression with
operators of the same precedence read from the right; names have the values the message gives them. Not for `-` directly after `)`, and expressions
without operators. -/
theorem condition_exact (e : Expr) (text rest : Bytes) (env : Bytes → Option Num) (hr : e.ReadsLeft) (hv : e.LitsValid)
    (hm : e.NoParMinus) (ho : e.HasOp) (hs : Spells (.parOpen :: e.toks ++ [.parClose]) text rest) :
    ∃ rpn, interpret text = .ok (rpn, rest) ∧ evaluate env rpn = outcome (e.fromRight.value (named env)) := by
  refine ⟨post e.fromRight, interpret_expr e.fromRight text rest (fromRight_reads e hr) (fromRight_minus e hm) (fromRight_lits e hv) ?_, ?_⟩
  · rw [fromRight_toks]; exact hs
  · exact evaluate_post env _ (fromRight_lits e hv) ((fromRight_hasOp e).mpr ho)

/-- **C25, partial.** The value is the one of C when the only operators which follow each other at the same precedence are logical operators with
operands less than 2⁶³. Missing: chains of other operators, which have another value; `-` after `)`, which is refused; expressions without operators, which give 0. -/
theorem condition_value_partial (e : Expr) (text rest : Bytes) (env : Bytes → Option Num) (hr : e.ReadsLeft) (hc : e.OnlyLogicalChains (named env))
    (hv : e.LitsValid) (hm : e.NoParMinus) (ho : e.HasOp) (hs : Spells (.parOpen :: e.toks ++ [.parClose]) text rest) :
    ∃ rpn, interpret text = .ok (rpn, rest) ∧ evaluate env rpn = outcome (e.value (named env)) := by
  obtain ⟨rpn, h1, h2⟩ := condition_exact e text rest env hr hv hm ho hs
  exact ⟨rpn, h1, by rw [h2, (fromRight_value (named env) e hc).1]⟩

theorem unchained_left (e : Expr) (h : e.Unchained) : e.ReadsLeft := by
  induction e with
  | lit l => trivial
  | not e ih => exact ⟨h.1, ih h.2⟩
  | par e ih => exact ih h
  | bin o l r ihl ihr => exact ⟨Nat.le_of_lt h.1, h.2.1, ihl h.2.2.1, ihr h.2.2.2⟩

/-- **C25, partial.** With parentheses around every operand which has an operator of the same precedence, the value is the one of C without further conditions on
the values. -/
theorem condition_unchained_partial (e : Expr) (text rest : Bytes) (env : Bytes → Option Num) (hc : e.Unchained)
    (hv : e.LitsValid) (hm : e.NoParMinus) (ho : e.HasOp) (hs : Spells (.parOpen :: e.toks ++ [.parClose]) text rest) :
    ∃ rpn, interpret text = .ok (rpn, rest) ∧ evaluate env rpn = outcome (e.value (named env)) := by
  obtain ⟨rpn, h1, h2⟩ := condition_exact e text rest env (unchained_left e hc) hv hm ho hs
  exact ⟨rpn, h1, by rw [h2, unchained_fromRight e hc]⟩

/-! ## Every expression can be written -/

/-- Tokens with a space before each. -/
def spaced (ts : List Tok) : Bytes := ts.flatMap (fun t => 32 :: t.text)

theorem spaced_head (ts : List Tok) : ∀ c, (spaced ts).head? = some c → c = 32 := by
  intro c hc
  cases ts with
  | nil => simp [spaced] at hc
  | cons t ts => simp [spaced] at hc; exact hc.symm

theorem words_no_space : ∀ w ∈ words, (32 : UInt8) ∉ w := by decide

theorem prefix_space (w t r : Bytes) (hw : (32 : UInt8) ∉ w) (hr : ∀ c, r.head? = some c → c = 32) (h : w <+: t ++ r) : w.length ≤ t.length := by
  apply Classical.byContradiction
  intro hl
  obtain ⟨s, hs⟩ := h
  cases r with
  | nil =>
    have := congrArg List.length hs
    simp at this; omega
  | cons c r =>
    have hc := hr c rfl
    subst hc
    have h1 : (w ++ s)[t.length]? = some 32 := by rw [hs]; simp
    rw [List.getElem?_append_left (by omega)] at h1
    exact hw (List.mem_of_getElem? h1)

theorem ends_spaced (t : Tok) (ts : List Tok) : Ends t (spaced ts) := by
  have hd : ∀ c, (spaced ts).head? = some c → c = 32 := spaced_head ts
  have hw : ∀ u : Tok, ∀ w ∈ words, w <+: u.text ++ spaced ts → w.length ≤ u.text.length :=
    fun u w hw h => prefix_space w u.text _ (words_no_space w hw) hd h
  cases t with
  | lit l =>
    cases l with
    | dec ds => exact ⟨fun c hc => by rw [hd c hc]; unfold Digit; decide, fun _ c hc => by rw [hd c hc]; decide⟩
    | hex x ds => exact fun c hc => by rw [hd c hc]; unfold HexDigit; decide
    | neg ds => exact fun c hc => by rw [hd c hc]; unfold Digit; decide
    | tag n => trivial
  | parOpen => exact hw .parOpen
  | parClose => exact hw .parClose
  | tilde => exact hw .tilde
  | op o => exact hw (.op o)

/-- Every list of tokens can be written. -/
theorem spells_spaced (ts : List Tok) : Spells ts (spaced ts) [] := by
  induction ts with
  | nil => exact .nil []
  | cons t ts ih =>
    show Spells _ (32 :: (t.text ++ spaced ts)) []
    exact .space _ _ _ _ (Or.inl rfl) (by simp) (.tok _ _ _ _ (ends_spaced t ts) ih)

/-! ## Cases -/

def num (n : Nat) : Expr := .lit (.dec (if n < 10 then [UInt8.ofNat (48 + n)] else [UInt8.ofNat (48 + n / 10), UInt8.ofNat (48 + n % 10)]))

/-- `1 + 2 * 3 == 7 && {a} < 0x10 && ~0 != 5`. -/
def sample : Expr :=
  .bin .and (.bin .and (.bin .eq (.bin .add (num 1) (.bin .mul (num 2) (num 3))) (num 7)) (.bin .lt (.lit (.tag [97])) (.lit (.hex 120 [49, 48]))))
    (.bin .ne (.not (num 0)) (.lit (.dec [53])))

example : sample.ReadsLeft ∧ sample.LitsValid ∧ sample.NoParMinus ∧ sample.HasOp := by
  simp [sample, num, Expr.ReadsLeft, Expr.LitsValid, Expr.NoParMinus, Expr.HasOp, Expr.level, BinOp.level, Lit.Valid, Lit.text, Digit, NameChar, HexDigit]

example : sample.OnlyLogicalChains (named (fun n => if n = [97] then some ⟨5#64, false⟩ else none)) := by
  simp [sample, num, Expr.OnlyLogicalChains, Expr.Small, Expr.level, BinOp.level, Expr.value, Lit.value, numeral, digit, R.bind, combine, BinOp.apply,
    truth, arith, named, complement]
  decide

example : sample.value (named (fun n => if n = [97] then some ⟨5#64, false⟩ else none)) = .ok ⟨false, 1⟩ := by decide
example : sample.value (named (fun n => if n = [97] then some ⟨50#64, false⟩ else none)) = .ok ⟨false, 0⟩ := by decide

/-- `(10 - 3 - 2)` is 9. -/
theorem condition_value_fails : ¬ ∀ (e : Expr) (text rest : Bytes) (env : Bytes → Option Num), e.ReadsLeft → e.LitsValid →
    Spells (.parOpen :: e.toks ++ [.parClose]) text rest →
    ∃ rpn, interpret text = .ok (rpn, rest) ∧ evaluate env rpn = outcome (e.value (named env)) := by
  intro h
  have h1 := h (.bin .sub (.bin .sub (num 10) (num 3)) (num 2)) _ [] (fun _ => none)
    (by simp [num, Expr.ReadsLeft, Expr.level, BinOp.level]) (by simp [num, Expr.LitsValid, Lit.Valid, Lit.text, Digit]) (spells_spaced _)
  obtain ⟨rpn, h2, h3⟩ := h1
  have h4 : interpret (spaced (.parOpen :: (Expr.bin .sub (.bin .sub (num 10) (num 3)) (num 2)).toks ++ [.parClose]))
      = .ok ([.val [49, 48], .val [51], .val [50], .op .sub, .op .sub], []) := by decide
  rw [h4] at h2
  simp at h2
  subst h2
  revert h3
  decide

/-- `(5)` is 0. -/
theorem condition_single : ∃ rpn, interpret [40, 53, 41] = .ok (rpn, []) ∧ evaluate (fun _ => none) rpn = .ok 0#64 :=
  ⟨[.val [53]], by decide, by decide⟩

/-- `((5) - 3)` is refused. -/
theorem condition_parMinus : interpret [40, 40, 53, 41, 32, 45, 32, 51, 41] = .soft := by decide

/-! ## C26 -/

/-- **C26, partial.** No text makes the parser abort. -/
theorem interpret_never_aborts (text : Bytes) : interpret text ≠ .bug := (interpret_sound text).1

/-- **C26, partial.** An accepted condition is evaluated without an access outside of the array of results or abort, exactly unless its reverse polish notation begins
with an operator. Missing: the parser accepts such conditions. -/
theorem accepted_evaluates_partial (text rest : Bytes) (rpn : List Carrier) (env : Bytes → Option Num) (h : interpret text = .ok (rpn, rest)) :
    evaluate env rpn ≠ .bug ∧ (evaluate env rpn = .fault ↔ ∃ o, rpn.head? = some (.op o)) := by
  obtain ⟨h1, h2⟩ := (interpret_sound text).2 rpn rest h
  cases rpn with
  | nil => simp [valueCount] at h2
  | cons c l =>
    cases c with
    | op o => simp [evaluate, evalLoop, evaluateOp]
    | val v =>
      obtain ⟨k1, k2⟩ := evaluateValue_safe env v
      unfold evaluate
      simp only [evalLoop]
      cases he : evaluateValue env v with
      | ok n =>
        have := evalLoop_safe env l (fun o ho => h1 o (by simp [ho])) [⟨n, true⟩] 0#64 (by simp [stackOf])
        simp [this]
      | soft => simp
      | undef => simp
      | fault => exact absurd he k1
      | bug => exact absurd he k2

example : interpret [40, 49, 32, 43, 32, 50, 41, 59] = .ok ([.val [49], .val [50], .op .add], [59]) := by decide

/-- **C26, partial.** Every expression of C is evaluated to a value or an error, or is undefined: there is no access outside of the array. -/
theorem wellformed_evaluates_partial (e : Expr) (text rest : Bytes) (env : Bytes → Option Num) (hr : e.ReadsLeft) (hv : e.LitsValid)
    (hm : e.NoParMinus) (ho : e.HasOp) (hs : Spells (.parOpen :: e.toks ++ [.parClose]) text rest) :
    ∃ rpn, interpret text = .ok (rpn, rest) ∧ evaluate env rpn ≠ .fault ∧ evaluate env rpn ≠ .bug := by
  obtain ⟨rpn, h1, h2⟩ := condition_exact e text rest env hr hv hm ho hs
  refine ⟨rpn, h1, ?_, ?_⟩ <;> (rw [h2]; cases e.fromRight.value (named env) <;> simp [outcome])

/-- `((+) 1 2)` is accepted; evaluating it reads the array of results at index 2³² - 1. -/
theorem accepted_faults : ∃ rpn, interpret [40, 40, 43, 41, 32, 49, 32, 50, 41] = .ok (rpn, []) ∧ evaluate (fun _ => none) rpn = .fault :=
  ⟨[.op .add, .val [49], .val [50]], by decide, by decide⟩

/-- `(* + 1 2 3)` too. -/
theorem accepted_faults_flat : ∃ rpn, interpret [40, 42, 32, 43, 32, 49, 32, 50, 32, 51, 41] = .ok (rpn, []) ∧ evaluate (fun _ => none) rpn = .fault :=
  ⟨[.op .mul, .val [49], .val [50], .val [51], .op .add], by decide, by decide⟩

end Verif.Condition
