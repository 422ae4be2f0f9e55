import Verif.HttpUtil.Spec
import Verif.Bits
/-!
# Lemmas about the HTTP string functions
-/
namespace Verif.HttpUtil
open Verif Spec

/-! ## In place -/

theorem set_out (out m r : Bytes) (v : UInt8) (hm : m ≠ []) :
    (out ++ m ++ r).set out.length v = (out ++ [v]) ++ m.tail ++ r := by
  cases m with
  | nil => exact absurd rfl hm
  | cons x m => simp

theorem getD_mid (a b : Bytes) (i : Nat) : (a ++ b).getD (a.length + i) 0 = b.getD i 0 := by
  simp [List.getElem?_append_right]

/-! ## URL decoding -/

/-- The decoder as a function of lists. -/
def dec : Bytes → Option Bytes
  | [] => some []
  | [c] => if c = 37 then none else some [c]
  | [c, d] => if c = 37 then none else (dec [d]).map (c :: ·)
  | c :: a :: b :: s =>
    if c = 37 then
      match strtoullRaw 16 [a, b] with
      | none => none
      | some (v, _) => (dec s).map (UInt8.ofNat v :: ·)
    else (dec (a :: b :: s)).map (c :: ·)

theorem strtoullRaw_two (a b : UInt8) (v n : Nat) (h : strtoullRaw 16 [a, b] = some (v, n)) : v ≤ 255 := by
  have key : ∀ c, isDigit 16 c = true → digitValue c < 16 := by
    intro c hc
    simp only [isDigit, digitValue, show (16 : Nat) ≠ 10 by decide, if_false, Bool.or_eq_true, Bool.and_eq_true, decide_eq_true_eq,
      UInt8.le_iff_toNat_le] at *
    repeat' split
    all_goals simp only [UInt8.reduceToNat] at *
    all_goals omega
  unfold strtoullRaw at h
  dsimp only at h
  by_cases ha : isDigit 16 a = true
  · by_cases hb : isDigit 16 b = true
    · simp [List.takeWhile, ha, hb, strtoull] at h
      have := key a ha
      have := key b hb
      obtain ⟨h, -⟩ := h
      split at h <;> omega
    · simp [List.takeWhile, ha, hb, strtoull] at h
      have := key a ha
      obtain ⟨h, -⟩ := h
      split at h <;> omega
  · simp [List.takeWhile, ha] at h

theorem decodeLoop_eq : ∀ (fuel : Nat) (out mid rest : Bytes), rest.length ≤ fuel →
    decodeLoop fuel (out ++ mid ++ rest) (out.length + mid.length) out.length
      = match dec rest with | none => .err | some d => .ok (out ++ d) := by
  intro fuel
  induction fuel with
  | zero =>
    intro out mid rest h
    have : rest = [] := List.length_eq_zero_iff.mp (by omega)
    subst this
    simp [decodeLoop, dec]
  | succ fuel ih =>
    intro out mid rest h
    unfold decodeLoop
    dsimp only
    match rest, h with
    | [], _ => simp [dec]
    | [c], h =>
      rw [if_pos (by simp)]
      rw [show out.length + mid.length = (out ++ mid).length + 0 by simp, getD_mid]
      simp only [List.getD_cons_zero]
      by_cases hc : c = 37
      · subst hc
        rw [if_pos rfl, if_pos (by simp; omega)]
        simp [dec]
      · rw [if_neg hc]
        rw [List.append_assoc out mid, ← List.append_nil (mid ++ [c]), ← List.append_assoc out, set_out _ _ _ _ (by simp)]
        have e := ih (out ++ [c]) (mid ++ [c]).tail [] (by simp)
        rw [show (out ++ mid).length + 0 + 1 = (out ++ [c]).length + ((mid ++ [c]).tail).length by simp; omega,
          show out.length + 1 = (out ++ [c]).length by simp, e]
        simp [dec, hc]
    | [c, d], h =>
      rw [if_pos (by simp)]
      rw [show out.length + mid.length = (out ++ mid).length + 0 by simp, getD_mid]
      simp only [List.getD_cons_zero]
      by_cases hc : c = 37
      · subst hc
        rw [if_pos rfl, if_pos (by simp; omega)]
        simp [dec]
      · rw [if_neg hc]
        rw [show out ++ mid ++ [c, d] = out ++ (mid ++ [c]) ++ [d] by simp, set_out _ _ _ _ (by simp)]
        have e := ih (out ++ [c]) (mid ++ [c]).tail [d] (by simp at h ⊢; omega)
        rw [show (out ++ mid).length + 0 + 1 = (out ++ [c]).length + ((mid ++ [c]).tail).length by simp; omega,
          show out.length + 1 = (out ++ [c]).length by simp, e]
        simp only [dec, if_neg hc]
        by_cases hd : d = 37 <;> simp [hd]
    | c :: a :: b :: s, h =>
      rw [if_pos (by simp)]
      rw [show out.length + mid.length = (out ++ mid).length + 0 by simp, getD_mid]
      simp only [List.getD_cons_zero]
      by_cases hc : c = 37
      · subst hc
        rw [if_pos rfl, if_neg (by simp; omega)]
        have e1 : ((out ++ mid ++ 37 :: a :: b :: s).drop ((out ++ mid).length + 0 + 1)).take 2 = [a, b] := by
          rw [show out ++ mid ++ 37 :: a :: b :: s = (out ++ mid ++ [37]) ++ a :: b :: s by simp,
            show (out ++ mid).length + 0 + 1 = (out ++ mid ++ [(37 : UInt8)]).length by simp; omega, List.drop_left]
          simp
        rw [e1]
        simp only [dec, if_true]
        cases hv : strtoullRaw 16 [a, b] with
        | none => simp
        | some vn =>
          obtain ⟨v, n⟩ := vn
          have hle := strtoullRaw_two a b v n hv
          dsimp only
          rw [if_neg (by omega)]
          rw [show out ++ mid ++ 37 :: a :: b :: s = out ++ (mid ++ [37, a, b]) ++ s by simp, set_out _ _ _ _ (by simp)]
          have e := ih (out ++ [UInt8.ofNat v]) (mid ++ [37, a, b]).tail s (by simp at h ⊢; omega)
          rw [show (out ++ mid).length + 0 + 3 = (out ++ [UInt8.ofNat v]).length + ((mid ++ [37, a, b]).tail).length by simp; omega,
            show out.length + 1 = (out ++ [UInt8.ofNat v]).length by simp, e]
          cases dec s <;> simp
      · rw [if_neg hc]
        rw [show out ++ mid ++ c :: a :: b :: s = out ++ (mid ++ [c]) ++ (a :: b :: s) by simp, set_out _ _ _ _ (by simp)]
        have e := ih (out ++ [c]) (mid ++ [c]).tail (a :: b :: s) (by simp at h ⊢; omega)
        rw [show (out ++ mid).length + 0 + 1 = (out ++ [c]).length + ((mid ++ [c]).tail).length by simp; omega,
          show out.length + 1 = (out ++ [c]).length by simp, e]
        rw [dec]
        simp only [if_neg hc]
        cases dec (a :: b :: s) <;> simp

theorem urlDecode_eq (s : Bytes) : urlDecode s = match dec s with | none => .err | some d => .ok d := by
  have := decodeLoop_eq s.length [] [] s (Nat.le_refl _)
  simpa [urlDecode] using this

theorem dec_cons (c : UInt8) (s : Bytes) (h : c ≠ 37) : dec (c :: s) = (dec s).map (c :: ·) := by
  match s with
  | [] => simp [dec, h]
  | [d] => simp [dec, h]
  | d :: e :: s => rw [dec]; simp [h]

/-! ## URI encoding -/

theorem safe_iff (c : UInt8) : (isAlnum c || isUnreservedMark c) = true → c ≠ 37 ∧ UriSafe c := by
  revert c
  unfold UriSafe
  exact all256 (by decide +kernel)

theorem enc_hex (c : UInt8) :
    strtoullRaw 16 [hexDigit (c >>> 4), hexDigit (c &&& 15)] = some (c.toNat, 2)
      ∧ UriSafe (hexDigit (c >>> 4)) ∧ UriSafe (hexDigit (c &&& 15)) := by
  revert c
  unfold UriSafe
  exact all256 (by decide +kernel)

theorem dec_enc (s : Bytes) : dec (s.flatMap encodeByte) = some s := by
  induction s with
  | nil => simp [dec]
  | cons c s ih =>
    rw [List.flatMap_cons]
    unfold encodeByte
    by_cases hc : (isAlnum c || isUnreservedMark c) = true
    · rw [if_pos hc]
      rw [List.singleton_append, dec_cons _ _ (safe_iff c hc).1]
      change (dec (s.flatMap encodeByte)).map _ = _
      rw [ih]; rfl
    · rw [if_neg hc]
      change dec (37 :: _ :: _ :: s.flatMap encodeByte) = _
      rw [dec, if_pos rfl, (enc_hex c).1, ih]
      simp

theorem encodeLoop_eq (size : Nat) : ∀ (s : Bytes) (w : Nat), w + 3 * s.length + 1 ≤ size →
    encodeLoop size w s = some (s.flatMap encodeByte) := by
  intro s
  induction s with
  | nil => intro w _; simp [encodeLoop]
  | cons c s ih =>
    intro w h
    have hl : (encodeByte c).length ≤ 3 := by unfold encodeByte; split <;> simp
    have hh : encodeHigh w c ≤ w + 4 := by unfold encodeHigh; split <;> omega
    simp only [List.length_cons] at h
    simp only [encodeLoop]
    rw [if_neg (by omega), ih _ (by omega)]
    simp

/-! ## Unquote -/

/-- The unquote function as a function of lists. -/
def unq : Option UInt8 → Bytes → Bytes
  | _, [] => []
  | none, [c] => if c = 34 ∨ c = 40 then [] else [c]
  | none, c :: d :: s => if c = 34 ∨ c = 40 then unq (some (if c = 34 then 34 else 41)) (d :: s) else c :: unq none (d :: s)
  | some q, [c] => if c = 92 then [c] else if c = q then [] else [c]
  | some q, c :: d :: s =>
    if c = 92 then (if d = q then q :: unq (some q) s else c :: unq (some q) (d :: s))
    else if c = q then unq none (d :: s) else c :: unq (some q) (d :: s)
termination_by _ s => s.length

theorem unquoteLoop_eq : ∀ (fuel : Nat) (out mid rest : Bytes) (mode : Option UInt8), rest.length ≤ fuel →
    unquoteLoop fuel (out ++ mid ++ rest) (out.length + mid.length) out.length mode = out ++ unq mode rest := by
  intro fuel
  induction fuel with
  | zero =>
    intro out mid rest mode h
    have : rest = [] := List.length_eq_zero_iff.mp (by omega)
    subst this
    simp [unquoteLoop, unq]
  | succ fuel ih =>
    intro out mid rest mode h
    -- one character consumed and one written
    have W : ∀ (v c : UInt8) (r : Bytes) (mode : Option UInt8), rest = c :: r →
        unquoteLoop fuel ((out ++ mid ++ rest).set out.length v) (out.length + mid.length + 1) (out.length + 1) mode
          = out ++ v :: unq mode r := by
      intro v c r mode hr
      subst hr
      rw [show out ++ mid ++ c :: r = out ++ (mid ++ [c]) ++ r by simp, set_out _ _ _ _ (by simp)]
      have e := ih (out ++ [v]) (mid ++ [c]).tail r mode (by simp at h ⊢; omega)
      rw [show out.length + mid.length + 1 = (out ++ [v]).length + ((mid ++ [c]).tail).length by simp; omega,
        show out.length + 1 = (out ++ [v]).length by simp, e]
      simp
    have W2 : ∀ (v c d : UInt8) (r : Bytes) (mode : Option UInt8), rest = c :: d :: r →
        unquoteLoop fuel ((out ++ mid ++ rest).set out.length v) (out.length + mid.length + 2) (out.length + 1) mode
          = out ++ v :: unq mode r := by
      intro v c d r mode hr
      subst hr
      rw [show out ++ mid ++ c :: d :: r = out ++ (mid ++ [c, d]) ++ r by simp, set_out _ _ _ _ (by simp)]
      have e := ih (out ++ [v]) (mid ++ [c, d]).tail r mode (by simp at h ⊢; omega)
      rw [show out.length + mid.length + 2 = (out ++ [v]).length + ((mid ++ [c, d]).tail).length by simp; omega,
        show out.length + 1 = (out ++ [v]).length by simp, e]
      simp
    -- one character skipped
    have S : ∀ (c : UInt8) (r : Bytes) (mode : Option UInt8), rest = c :: r →
        unquoteLoop fuel (out ++ mid ++ rest) (out.length + mid.length + 1) out.length mode = out ++ unq mode r := by
      intro c r mode hr
      subst hr
      have e := ih out (mid ++ [c]) r mode (by simp at h ⊢; omega)
      rw [show out ++ mid ++ c :: r = out ++ (mid ++ [c]) ++ r by simp,
        show out.length + mid.length + 1 = out.length + (mid ++ [c]).length by simp; omega, e]
    unfold unquoteLoop
    dsimp only
    match hr : rest with
    | [] => simp [unq]
    | [c] =>
      rw [if_pos (by simp)]
      have g : (out ++ mid ++ [c]).getD (out.length + mid.length) 0 = c := by
        rw [show out.length + mid.length = (out ++ mid).length + 0 by simp, getD_mid]; rfl
      rw [g]
      cases mode with
      | none =>
        dsimp only
        rw [unq]
        by_cases hq : c = 34 ∨ c = 40
        · rw [if_pos hq, if_pos hq, if_pos (by simp; omega)]; simp
        · rw [if_neg hq, if_neg hq, W c c [] none rfl]; simp [unq]
      | some q =>
        dsimp only
        rw [unq]
        by_cases h92 : c = 92
        · rw [if_pos h92, if_pos h92, if_neg (by simp; omega), W c c [] _ rfl]; simp [unq]
        · rw [if_neg h92, if_neg h92]
          by_cases hcq : c = q
          · rw [if_pos hcq, if_pos hcq, S c [] _ rfl]; simp [unq]
          · rw [if_neg hcq, if_neg hcq, W c c [] _ rfl]; simp [unq]
    | c :: d :: s =>
      rw [if_pos (by simp)]
      have g : (out ++ mid ++ c :: d :: s).getD (out.length + mid.length) 0 = c := by
        rw [show out.length + mid.length = (out ++ mid).length + 0 by simp, getD_mid]; rfl
      have g2 : (out ++ mid ++ c :: d :: s).getD (out.length + mid.length + 1) 0 = d := by
        rw [show out.length + mid.length + 1 = (out ++ mid).length + 1 by simp, getD_mid]; rfl
      rw [g, g2]
      cases mode with
      | none =>
        dsimp only
        rw [unq]
        by_cases hq : c = 34 ∨ c = 40
        · rw [if_pos hq, if_pos hq, if_neg (by simp; omega), S c (d :: s) _ rfl]
        · rw [if_neg hq, if_neg hq, W c c (d :: s) none rfl]
      | some q =>
        dsimp only
        rw [unq]
        by_cases h92 : c = 92
        · rw [if_pos h92, if_pos h92]
          by_cases hd : d = q
          · rw [if_pos hd, if_pos ⟨by simp; omega, hd⟩, W2 q c d s _ rfl]
          · rw [if_neg hd, if_neg (fun x => hd x.2), W c c (d :: s) _ rfl]
        · rw [if_neg h92, if_neg h92]
          by_cases hcq : c = q
          · rw [if_pos hcq, if_pos hcq, S c (d :: s) _ rfl]
          · rw [if_neg hcq, if_neg hcq, W c c (d :: s) _ rfl]

theorem unquote_eq (s : Bytes) : unquote s = unq none s := by
  have := unquoteLoop_eq s.length [] [] s none (Nat.le_refl _)
  simpa [unquote] using this

theorem unq_plain (s : Bytes) (h : ∀ c ∈ s, c ≠ 34 ∧ c ≠ 40) : unq none s = s := by
  induction s with
  | nil => simp [unq]
  | cons c s ih =>
    have hc := h c (by simp)
    have := ih (fun d hd => h d (by simp [hd]))
    cases s with
    | nil => simp [unq, hc]
    | cons d s => rw [unq, if_neg (by simp [hc]), this]

/-- What comes out when a quoted string is unquoted. -/
def afterQuotes : Bytes → Bytes
  | [] => []
  | [c] => if c = 92 then [92, 34] else if c = 13 then [92, 13] else [c]
  | c :: s => (if c = 92 then [92, 92] else if c = 13 then [92, 13] else [c]) ++ afterQuotes s

theorem unq_some_cons (c : UInt8) (s : Bytes) (h1 : c ≠ 92) (h2 : c ≠ 34) : unq (some 34) (c :: s) = c :: unq (some 34) s := by
  cases s with
  | nil => simp [unq, h1, h2]
  | cons d s => rw [unq, if_neg h1, if_neg h2]

theorem unq_some_bs (d : UInt8) (s : Bytes) (h2 : d ≠ 34) : unq (some 34) (92 :: d :: s) = 92 :: unq (some 34) (d :: s) := by
  rw [unq, if_pos rfl, if_neg h2]

theorem unq_some_q (s : Bytes) : unq (some 34) (92 :: 34 :: s) = 34 :: unq (some 34) s := by
  rw [unq, if_pos rfl, if_pos rfl]

theorem unq_quoted (s : Bytes) : unq (some 34) (s.flatMap (quoteChar 34 34) ++ [34]) = afterQuotes s := by
  induction s with
  | nil => simp [unq, afterQuotes]
  | cons c s ih =>
    rw [List.flatMap_cons]
    have H : afterQuotes (c :: s) = if c = 92 then (if s = [] then [92, 34] else 92 :: 92 :: afterQuotes s)
        else if c = 13 then 92 :: 13 :: afterQuotes s else c :: afterQuotes s := by
      cases s with
      | nil => simp [afterQuotes]
      | cons d s =>
        rw [afterQuotes]
        · by_cases h : c = 92
          · simp [h]
          · by_cases h' : c = 13 <;> simp [h, h']
        · simp
    rw [H]
    by_cases h92 : c = 92
    · subst h92
      rw [if_pos rfl]
      have : quoteChar 34 34 92 = [92, 92] := by decide
      rw [this]
      cases s with
      | nil => simp [unq]
      | cons d s =>
        rw [if_neg (by simp)]
        rw [← ih]
        simp only [List.cons_append, List.nil_append]
        rw [unq_some_bs _ _ (by decide)]
        congr 1
        rw [List.flatMap_cons]
        by_cases hd : d = 34 ∨ d = 34 ∨ d = 13 ∨ d = 92
        · have : quoteChar 34 34 d = [92, d] := by simp only [quoteChar, if_pos hd]
          rw [this]
          simp only [List.cons_append, List.nil_append]
          rw [unq_some_bs _ _ (by decide)]
        · have : quoteChar 34 34 d = [d] := by simp only [quoteChar, if_neg hd]
          rw [this]
          simp only [List.cons_append, List.nil_append]
          rw [unq_some_bs _ _ (by intro e; exact hd (Or.inl e))]
    · rw [if_neg h92]
      by_cases h13 : c = 13
      · subst h13
        rw [if_pos rfl, show quoteChar 34 34 13 = [92, 13] by decide]
        simp only [List.cons_append, List.nil_append]
        rw [unq_some_bs _ _ (by decide), unq_some_cons _ _ (by decide) (by decide), ih]
      · rw [if_neg h13]
        by_cases h34 : c = 34
        · subst h34
          rw [show quoteChar 34 34 34 = [92, 34] by decide]
          simp only [List.cons_append, List.nil_append]
          rw [unq_some_q, ih]
        · have : quoteChar 34 34 c = [c] := by simp [quoteChar, h34, h13, h92]
          rw [this]
          simp only [List.cons_append, List.nil_append]
          rw [unq_some_cons _ _ h92 h34, ih]

theorem afterQuotes_length (s : Bytes) : (afterQuotes s).length = s.length + s.countP (fun c => c == 92 || c == 13) := by
  induction s with
  | nil => rfl
  | cons c s ih =>
    cases s with
    | nil =>
      simp only [afterQuotes]
      by_cases h92 : c = 92
      · simp [h92]
      · by_cases h13 : c = 13 <;> simp [h92, h13]
    | cons d s =>
      rw [afterQuotes, List.length_append, ih]
      · generalize d :: s = t
        by_cases h92 : c = 92
        · simp [h92]; omega
        · by_cases h13 : c = 13 <;> simp [h92, h13] <;> omega
      · simp

theorem afterQuotes_plain (s : Bytes) (h : ∀ c ∈ s, c ≠ 92 ∧ c ≠ 13) : afterQuotes s = s := by
  induction s with
  | nil => rfl
  | cons c s ih =>
    have hc := h c (by simp)
    have := ih (fun d hd => h d (by simp [hd]))
    cases s with
    | nil => simp [afterQuotes, hc]
    | cons d s => rw [afterQuotes, this] <;> simp [hc]

theorem flatMap_quote_length (s : Bytes) : s.length ≤ (s.flatMap (quoteChar 34 34)).length
    ∧ (s.flatMap (quoteChar 34 34)).length ≤ 2 * s.length := by
  induction s with
  | nil => simp
  | cons c s ih =>
    have : 1 ≤ (quoteChar 34 34 c).length ∧ (quoteChar 34 34 c).length ≤ 2 := by unfold quoteChar; split <;> simp
    simp only [List.flatMap_cons, List.length_append, List.length_cons]
    omega

theorem quoteCheck_spec (c : UInt8) :
    quoteCheck c = if (32 ≤ c ∧ c < 127) ∨ c = 9 ∨ c = 13 then
      some (decide (c ∈ [40, 41, 60, 62, 64, 44, 59, 58, 92, 34, 91, 93, 32, 9, 13])) else none := by
  revert c
  exact all256 (by decide +kernel)

theorem quoteCheckAll_none (s : Bytes) : quoteCheckAll s = none ↔ ∃ c ∈ s, quoteCheck c = none := by
  induction s with
  | nil => simp [quoteCheckAll]
  | cons c s ih =>
    simp only [quoteCheckAll]
    cases h : quoteCheck c with
    | none => simp [h]
    | some q => simp [h, ih]

theorem quoteCheckAll_false (s : Bytes) (h : quoteCheckAll s = some false) : ∀ c ∈ s, quoteCheck c = some false := by
  induction s with
  | nil => simp
  | cons c s ih =>
    simp only [quoteCheckAll] at h
    cases hc : quoteCheck c with
    | none => rw [hc] at h; simp at h
    | some q =>
      rw [hc] at h
      cases hs : quoteCheckAll s with
      | none => rw [hs] at h; simp at h
      | some r =>
      rw [hs] at h
      have h' : q = false ∧ r = false := by cases q <;> cases r <;> simp at h ⊢
      obtain ⟨rfl, rfl⟩ := h'
      intro d hd
      rcases List.mem_cons.mp hd with rfl | hd
      · exact hc
      · exact ih hs d hd

/-! ## Search -/

theorem toLower_iff (a b : UInt8) : toLower a = toLower b ↔ SameLetter a b := by
  unfold toLower SameLetter
  simp only [Bool.and_eq_true, decide_eq_true_eq, UInt8.le_iff_toNat_le]
  rw [← UInt8.toNat_inj]
  repeat' split
  all_goals simp only [← UInt8.toNat_inj, UInt8.toNat_add, UInt8.reduceToNat] at *
  all_goals omega

/-- The state of the search when the first `k` characters of the needle have been found at `p`. -/
def st (p k : Nat) : Search := ⟨p + k, k, if k = 0 then none else some (p + 1), if k = 0 then none else some p, k⟩

/-- What the search gives. -/
structure Good (text needle : Bytes) (p0 : Nat) (r : Option Nat × Nat) : Prop where
  sound : ∀ p, r.1 = some p → p0 ≤ p ∧ 0 < r.2 ∧ r.2 ≤ needle.length ∧ (r.2 = needle.length ∨ p + r.2 = text.length) ∧ p + r.2 ≤ text.length
    ∧ ∀ i, i < r.2 → SameLetter (text.getD (p + i) 0) (needle.getD i 0)
  complete : ∀ q, p0 ≤ q → OccursAt text needle q → (q = p0 ∨ (p0 < q ∧ ¬ SameLetter (text.getD (q - 1) 0) (needle.getD 0 0))) →
    ∃ p, r = (some p, needle.length) ∧ p ≤ q

theorem searchLoop_good (text needle : Bytes) (hn : 0 < needle.length) : ∀ (fuel p k : Nat), k < needle.length → p + k ≤ text.length →
    (∀ i, i < k → SameLetter (text.getD (p + i) 0) (needle.getD i 0)) →
    (text.length - p) * (text.length + 2) ≤ fuel + k →
    ∃ r, searchLoop text needle fuel (st p k) = .ok r ∧ Good text needle p r := by
  intro fuel
  induction fuel with
  | zero =>
    intro p k hk hp hm hf
    have hz : text.length - p = 0 := by
      rcases Nat.eq_zero_or_pos (text.length - p) with h | h
      · exact h
      · have : 1 * (text.length + 2) ≤ (text.length - p) * (text.length + 2) := Nat.mul_le_mul_right _ h
        omega
    have : k = 0 := by omega
    subst this
    refine ⟨(none, 0), rfl, ⟨by simp, ?_⟩⟩
    intro q hq ho _
    have := ho.1
    omega
  | succ fuel ih =>
    intro p k hk hp hm hf
    unfold st
    unfold searchLoop
    dsimp only
    by_cases hend : p + k < text.length
    · rw [if_pos hend, if_neg (by omega)]
      obtain ⟨d, hd⟩ : ∃ d, text.length - p = d + 1 := ⟨text.length - p - 1, by omega⟩
      rw [hd, Nat.succ_mul] at hf
      by_cases hc : toLower (text.getD (p + k) 0) = toLower (needle.getD k 0)
      · rw [if_pos hc]
        have hm' : ∀ i, i < k + 1 → SameLetter (text.getD (p + i) 0) (needle.getD i 0) := by
          intro i hi
          by_cases h : i = k
          · subst h; exact (toLower_iff _ _).mp hc
          · exact hm i (by omega)
        have hres : (if (if k = 0 then none else some p) = none then some (p + k) else if k = 0 then none else some p) = some p := by
          by_cases h : k = 0 <;> simp [h]
        by_cases he : k + 1 = needle.length
        · rw [if_pos he, hres]
          refine ⟨_, rfl, ⟨?_, ?_⟩⟩
          · intro p' h'
            simp only [Option.some.injEq] at h'
            subst h'
            exact ⟨Nat.le_refl _, by omega, by omega, Or.inl he, by show p + (k + 1) ≤ _; omega, hm'⟩
          · intro q hq _ _
            exact ⟨p, by rw [he], hq⟩
        · rw [if_neg he, hres]
          have hrev : (if (if k = 0 then none else some (p + 1)) = none then some (p + k + 1) else if k = 0 then none else some (p + 1))
              = some (p + 1) := by
            by_cases h : k = 0 <;> simp [h]
          rw [hrev]
          have := ih p (k + 1) (by omega) (by omega) hm' (by rw [hd, Nat.succ_mul]; omega)
          simpa [st, Nat.add_assoc] using this
      · rw [if_neg hc]
        have hnot : ¬ OccursAt text needle p := fun ho => hc ((toLower_iff _ _).mpr (ho.2 k hk))
        by_cases h0 : k = 0
        · subst h0
          have hfirst : ¬ SameLetter (text.getD p 0) (needle.getD 0 0) := fun h => hc ((toLower_iff _ _).mpr h)
          obtain ⟨r, hr, hg⟩ := ih (p + 1) 0 hn (by omega) (by omega) (by
            rw [show text.length - (p + 1) = d by omega]; omega)
          refine ⟨r, by simpa [st] using hr, ⟨?_, ?_⟩⟩
          · intro p' h'
            have := hg.sound p' h'
            exact ⟨by omega, this.2⟩
          · intro q hq ho hcl
            by_cases hqp : q = p
            · subst hqp; exact absurd ho hnot
            · refine hg.complete q (by omega) ho ?_
              by_cases h1 : q = p + 1
              · exact Or.inl h1
              · rcases hcl with h | h
                · exact absurd h hqp
                · exact Or.inr ⟨by omega, h.2⟩
        · have hfirst : SameLetter (text.getD p 0) (needle.getD 0 0) := by simpa using hm 0 (by omega)
          obtain ⟨d', hd'⟩ : ∃ d', d = d' + 1 := ⟨d - 1, by omega⟩
          subst hd'
          rw [Nat.succ_mul] at hf
          obtain ⟨r, hr, hg⟩ := ih (p + 2) 0 hn (by omega) (by omega) (by
            rw [show text.length - (p + 2) = d' by omega]; omega)
          refine ⟨r, by simpa [st, h0] using hr, ⟨?_, ?_⟩⟩
          · intro p' h'
            have := hg.sound p' h'
            exact ⟨by omega, this.2⟩
          · intro q hq ho hcl
            by_cases hqp : q = p
            · subst hqp; exact absurd ho hnot
            · rcases hcl with h | h
              · exact absurd h hqp
              · by_cases h1 : q = p + 1
                · subst h1
                  exact absurd hfirst (by simpa using h.2)
                · refine hg.complete q (by omega) ho ?_
                  by_cases h2 : q = p + 2
                  · exact Or.inl h2
                  · exact Or.inr ⟨by omega, h.2⟩
    · rw [if_neg hend]
      refine ⟨_, rfl, ⟨?_, ?_⟩⟩
      · intro p' h'
        by_cases h0 : k = 0
        · simp [h0] at h'
        · simp [h0] at h'
          subst h'
          exact ⟨Nat.le_refl _, by show 0 < k; omega, by show k ≤ _; omega, Or.inr (by show p + k = _; omega), by show p + k ≤ _; omega, hm⟩
      · intro q hq ho _
        have := ho.1
        omega

end Verif.HttpUtil
