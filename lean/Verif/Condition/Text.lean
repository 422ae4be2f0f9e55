import Verif.Condition.Arith
import Verif.Bits
/-!
# Reading the text of a condition
-/
namespace Verif.Condition
open Verif Spec

theorem matchWord_some (w s r : Bytes) : matchWord w s = some r ↔ s = w ++ r := by
  induction w generalizing s with
  | nil => simp only [matchWord, List.nil_append, Option.some.injEq]
  | cons c w ih =>
    cases s with
    | nil => simp [matchWord]
    | cons d s =>
      simp only [matchWord]
      by_cases h : c = d
      · rw [if_pos h, ih, h]; simp
      · rw [if_neg h]
        simp only [List.cons_append, List.cons.injEq]
        constructor
        · intro x; cases x
        · rintro ⟨h', _⟩; exact absurd h'.symm h

theorem matchWord_prefix (w s : Bytes) : matchWord w s = none ↔ ¬ w <+: s := by
  constructor
  · rintro h ⟨r, hr⟩
    rw [(matchWord_some w s r).mpr hr.symm] at h
    cases h
  · intro h
    cases hm : matchWord w s with
    | none => rfl
    | some r => exact absurd ⟨r, ((matchWord_some w s r).mp hm).symm⟩ h

theorem parseOpIn_split (pre : List Op) (o : Op) (post : List Op) (s r : Bytes) (h : ∀ o' ∈ pre, matchWord o'.word s = none)
    (ho : matchWord o.word s = some r) : parseOpIn (pre ++ o :: post) s = some (o, r) := by
  induction pre with
  | nil => simp only [List.nil_append, parseOpIn, ho]
  | cons p pre ih =>
    simp only [List.cons_append, parseOpIn, h p (by simp)]
    exact ih (fun o' ho' => h o' (by simp [ho']))

theorem op_split (o : Op) : ∃ post, operators = operators.takeWhile (· ≠ o) ++ o :: post := by
  cases o <;> exact ⟨_, rfl⟩

theorem op_order (o : Op) : ∀ o' ∈ operators.takeWhile (· ≠ o), ¬ o'.word <+: o.word := by
  cases o <;> decide

/-- The operator which is read is the longest one. -/
theorem parseOp_longest (o : Op) (r : Bytes) (h : ∀ o' : Op, o'.word <+: o.word ++ r → o'.word.length ≤ o.word.length) :
    parseOp (o.word ++ r) = some (o, r) := by
  obtain ⟨post, hp⟩ := op_split o
  unfold parseOp
  rw [hp]
  refine parseOpIn_split _ _ _ _ _ ?_ ((matchWord_some _ _ _).mpr rfl)
  intro o' ho'
  rw [matchWord_prefix]
  intro hpre
  refine op_order o o' ho' ?_
  exact List.prefix_of_prefix_length_le hpre ⟨r, rfl⟩ (h o' hpre)

theorem parseOp_none (c : UInt8) (s : Bytes) (h : ∀ o : Op, o.word.head? ≠ some c) : parseOp (c :: s) = none := by
  unfold parseOp
  generalize operators = os
  induction os with
  | nil => rfl
  | cons o os ih =>
    simp only [parseOpIn]
    have : matchWord o.word (c :: s) = none := by
      rw [matchWord_prefix]
      rintro ⟨t, ht⟩
      apply h o
      cases hw : o.word with
      | nil => cases o <;> simp [Op.word] at hw
      | cons w ws =>
        rw [hw] at ht
        simp at ht
        simp [ht.1]
    rw [this]
    exact ih

/-- The program's operator of a token. -/
def tokOp : Tok → Option Op
  | .parOpen => some .parOpen
  | .parClose => some .parClose
  | .tilde => some .bwNot
  | .op o => some (opOf o)
  | .lit _ => none

theorem tokOp_text (t : Tok) (o : Op) (h : tokOp t = some o) : t.text = o.word := by
  cases t with
  | parOpen => cases h; rfl
  | parClose => cases h; rfl
  | tilde => cases h; rfl
  | op b => cases h; cases b <;> rfl
  | lit l => cases h

theorem word_mem (o : Op) : o.word ∈ words := by cases o <;> decide

theorem parseOp_tok (t : Tok) (o : Op) (r : Bytes) (h : tokOp t = some o) (he : Ends t r) : parseOp (t.text ++ r) = some (o, r) := by
  rw [tokOp_text t o h]
  apply parseOp_longest
  intro o' ho'
  rw [← tokOp_text t o h]
  rw [← tokOp_text t o h] at ho'
  cases t with
  | lit l => cases h
  | parOpen => exact he _ (word_mem o') ho'
  | parClose => exact he _ (word_mem o') ho'
  | tilde => exact he _ (word_mem o') ho'
  | op b => exact he _ (word_mem o') ho'

/-! ## Literals -/

theorem digit_iff (c : UInt8) : isNumber c = true ↔ Digit c := by simp [isNumber, Digit]

theorem hex_iff (c : UInt8) : isHex c = true ↔ HexDigit c := by
  simp only [isHex, HexDigit, Bool.or_eq_true, Bool.and_eq_true, decide_eq_true_eq]
  constructor
  · rintro ((h | h) | h) <;> simp [h]
  · rintro (h | h | h) <;> simp [h]

theorem name_iff (c : UInt8) : (isLetter c || isNumber c) = true ↔ NameChar c := by
  simp only [isLetter, isNumber, NameChar, Bool.or_eq_true, Bool.and_eq_true, decide_eq_true_eq, beq_iff_eq]
  constructor
  · rintro (((h | h) | h) | h) <;> simp [h]
  · rintro (h | h | h | h) <;> simp [h]

theorem takeWhile_run (p : UInt8 → Bool) (ds r : Bytes) (h : ∀ c ∈ ds, p c = true) (hr : ∀ c, r.head? = some c → p c = false) :
    (ds ++ r).takeWhile p = ds ∧ (ds ++ r).dropWhile p = r := by
  rw [List.takeWhile_append_of_pos h, List.dropWhile_append_of_pos h]
  cases r with
  | nil => simp
  | cons c r =>
    have := hr c rfl
    rw [List.takeWhile_cons_of_neg (by simp [this]), List.dropWhile_cons_of_neg (by simp [this])]
    simp

theorem digit_ne (c : UInt8) (h : Digit c) : c ≠ 123 ∧ c ≠ 45 ∧ c ≠ 120 ∧ c ≠ 88 ∧ otherCase c = 0 ∧ isSpace c = false
    ∧ ∀ o : Op, o.word.head? ≠ some c := by
  have key : ∀ c : UInt8, Digit c → c ≠ 123 ∧ c ≠ 45 ∧ c ≠ 120 ∧ c ≠ 88 ∧ otherCase c = 0 ∧ isSpace c = false
      ∧ ∀ o ∈ operators, o.word.head? ≠ some c := by unfold Digit; exact all256 (by decide +kernel)
  obtain ⟨h1, h2, h3, h4, h5, h6, h7⟩ := key c h
  exact ⟨h1, h2, h3, h4, h5, h6, fun o => h7 o (by cases o <;> decide)⟩

theorem parseValue_lit (l : Lit) (r : Bytes) (hv : l.Valid) (he : Ends (.lit l) r) : parseValue (l.text ++ r) = some (l.text, r) := by
  cases l with
  | tag n =>
    obtain ⟨_, h0, hn⟩ := hv
    unfold parseValue
    rw [show Lit.text (.tag n) ++ r = [123] ++ (n ++ 125 :: r) by simp [Lit.text], (matchWord_some _ _ _).mpr rfl]
    obtain ⟨e1, e2⟩ := takeWhile_run (fun c => isLetter c || isNumber c) n (125 :: r) (fun c hc => (name_iff c).mpr (hn c hc))
      (by intro c hc; simp at hc; subst hc; decide)
    simp only [matchLetters, e1, e2, if_neg h0]
    rw [show (125 :: r : Bytes) = [125] ++ r by rfl, (matchWord_some _ _ _).mpr rfl]
    rfl
  | hex x ds =>
    obtain ⟨_, hx, h0, hd⟩ := hv
    unfold parseValue
    have e0 : matchWord [123] (Lit.text (.hex x ds) ++ r) = none := by simp [Lit.text, matchWord]
    have e1 : matchWordCase [48, 120] (Lit.text (.hex x ds) ++ r) = some (ds ++ r) := by
      simp only [Lit.text, List.cons_append, matchWordCase]
      rw [if_pos (Or.inl trivial), if_pos (by rcases hx with rfl | rfl <;> decide)]
    obtain ⟨e2, e3⟩ := takeWhile_run isHex ds r (fun c hc => (hex_iff c).mpr (hd c hc))
      (by
        intro c hc
        have := he c hc
        rw [← hex_iff] at this
        simpa using this)
    simp only [e0, e1, matchLetters, e2, e3, if_neg h0]
    simp [Lit.text]
  | neg ds =>
    obtain ⟨_, h0, hd⟩ := hv
    unfold parseValue
    have e0 : matchWord [123] (Lit.text (.neg ds) ++ r) = none := by simp [Lit.text, matchWord]
    have e1 : matchWordCase [48, 120] (Lit.text (.neg ds) ++ r) = none := by
      simp only [Lit.text, List.cons_append, matchWordCase]
      rw [if_neg (by decide)]
    have e4 : matchWordCase [45] (Lit.text (.neg ds) ++ r) = some (ds ++ r) := by
      simp only [Lit.text, List.cons_append, matchWordCase]
      rw [if_pos (Or.inl trivial)]
    obtain ⟨e2, e3⟩ := takeWhile_run isNumber ds r (fun c hc => (digit_iff c).mpr (hd c hc))
      (by
        intro c hc
        have := he c hc
        rw [← digit_iff] at this
        simpa using this)
    simp only [e0, e1, e4, matchLetters, e2, e3, if_neg h0]
    simp [Lit.text]
  | dec ds =>
    obtain ⟨_, h0, hd⟩ := hv
    cases ds with
    | nil => exact absurd rfl h0
    | cons d ds =>
      obtain ⟨n1, n2, n3, n4, n5, -, -⟩ := digit_ne d (hd d (by simp))
      unfold parseValue
      have e0 : matchWord [123] (Lit.text (.dec (d :: ds)) ++ r) = none := by
        simp only [Lit.text, List.cons_append, matchWord]
        rw [if_neg (fun h => n1 h.symm)]
      have e1 : matchWordCase [48, 120] (Lit.text (.dec (d :: ds)) ++ r) = none := by
        simp only [Lit.text, List.cons_append, matchWordCase]
        by_cases h48 : d = 48
        · subst h48
          rw [if_pos (Or.inl rfl)]
          have key : ∀ c s, ds ++ r = c :: s → c ≠ 120 ∧ c ≠ 88 := by
            intro c s hcs
            cases ds with
            | nil => exact he.2 rfl c (by simp at hcs; simp [hcs])
            | cons d' ds =>
              simp at hcs
              obtain ⟨rfl, _⟩ := hcs
              have := digit_ne d' (hd d' (by simp))
              exact ⟨this.2.2.1, this.2.2.2.1⟩
          cases hr : ds ++ r with
          | nil => rfl
          | cons c s =>
            have := key c s hr
            simp only [matchWordCase]
            rw [if_neg]
            have oc : ∀ c : UInt8, c ≠ 120 ∧ c ≠ 88 → ¬ (120 = c ∨ 120 = otherCase c) := all256 (by decide +kernel)
            exact oc c this
        · rw [if_neg (by rw [n5]; rintro (h | h); exact h48 h.symm; cases h)]
      have e4 : matchWordCase [45] (Lit.text (.dec (d :: ds)) ++ r) = none := by
        simp only [Lit.text, List.cons_append, matchWordCase]
        rw [if_neg (by rw [n5]; rintro (h | h); exact n2 h.symm; cases h)]
      obtain ⟨e2, e3⟩ := takeWhile_run isNumber (d :: ds) r (fun c hc => (digit_iff c).mpr (hd c hc))
        (by
          intro c hc
          have := he.1 c hc
          rw [← digit_iff] at this
          simpa using this)
      simp only [e0, e1, e4]
      simp only [Lit.text, matchLetters, e2, e3, if_neg h0]

theorem parseOp_lit (l : Lit) (r : Bytes) (hv : l.Valid) :
    parseOp (l.text ++ r) = match l with | .neg ds => some (.sub, ds ++ r) | _ => none := by
  cases l with
  | tag n =>
    simp only [Lit.text, List.cons_append]
    exact parseOp_none _ _ (by intro o; cases o <;> decide)
  | hex x ds =>
    simp only [Lit.text, List.cons_append]
    exact parseOp_none _ _ (by intro o; cases o <;> decide)
  | dec ds =>
    obtain ⟨_, h0, hd⟩ := hv
    cases ds with
    | nil => exact absurd rfl h0
    | cons d ds =>
      simp only [Lit.text, List.cons_append]
      exact parseOp_none _ _ (digit_ne d (hd d (by simp))).2.2.2.2.2.2
  | neg ds =>
    simp only [Lit.text, List.cons_append]
    have := parseOp_longest .sub (ds ++ r) (by
      intro o' ho'
      have h1 : o'.word.head? = some 45 := by
        obtain ⟨t, ht⟩ := ho'
        cases hw : o'.word with
        | nil => cases o' <;> simp [Op.word] at hw
        | cons w ws => rw [hw] at ht; simp [Op.word] at ht; simp [ht.1]
      cases o' <;> first | (exfalso; revert h1; decide) | decide)
    exact this

theorem text_first (t : Tok) (hv : ∀ l, t = .lit l → l.Valid) : ∃ c s, t.text = c :: s ∧ isSpace c = false := by
  cases t with
  | parOpen => exact ⟨_, _, rfl, by decide⟩
  | parClose => exact ⟨_, _, rfl, by decide⟩
  | tilde => exact ⟨_, _, rfl, by decide⟩
  | op o => cases o <;> exact ⟨_, _, rfl, by decide⟩
  | lit l =>
    cases l with
    | tag n => exact ⟨_, _, rfl, by decide⟩
    | hex x ds => exact ⟨_, _, rfl, by decide⟩
    | neg ds => exact ⟨_, _, rfl, by decide⟩
    | dec ds =>
      obtain ⟨_, h0, hd⟩ := hv _ rfl
      cases ds with
      | nil => exact absurd rfl h0
      | cons d ds => exact ⟨d, ds, rfl, (digit_ne d (hd d (by simp))).2.2.2.2.2.1⟩

/-- The first token of a text. -/
theorem spells_cons (t : Tok) (ts : List Tok) (text rest : Bytes) (hv : ∀ l, t = .lit l → l.Valid) (h : Spells (t :: ts) text rest) :
    ∃ text', skipSpaces text = t.text ++ text' ∧ t.text ≠ [] ∧ Ends t text' ∧ Spells ts text' rest ∧ text'.length < text.length := by
  generalize hts : t :: ts = tts at h
  induction h with
  | nil => cases hts
  | space ts' c text rest hc _ hs ih =>
    obtain ⟨text', h1, h2, h3, h4, h5⟩ := ih hts
    refine ⟨text', ?_, h2, h3, h4, by simp; omega⟩
    unfold skipSpaces at *
    rw [List.dropWhile_cons_of_pos]
    · exact h1
    · rcases hc with rfl | rfl | rfl | rfl <;> decide
  | tok t' ts' text rest he hs _ =>
    cases hts
    obtain ⟨c, s, hcs, hsp⟩ := text_first t hv
    refine ⟨text, ?_, by rw [hcs]; simp, he, hs, by rw [hcs]; simp; omega⟩
    rw [hcs]
    unfold skipSpaces
    rw [List.cons_append, List.dropWhile_cons_of_neg (by simp [hsp])]

/-! ## One round -/

/-- The token can be read in this state: `-` is an operator after a value only, and begins a value otherwise. -/
def TokOk (y : Yard) : Tok → Prop
  | .op .sub => y.prevWasOp = false ∧ y.out ≠ []
  | .lit (.neg _) => y.prevWasOp = true ∨ y.out = []
  | _ => True

/-- The state after a token. -/
def feed (y : Yard) (t : Tok) : Option Yard :=
  match t with
  | .lit l => shuntValue { y with prevWasOp := false } l.text
  | .parOpen => shuntOp { y with prevWasOp := true } .parOpen
  | .parClose => shuntOp { y with prevWasOp := true } .parClose
  | .tilde => shuntOp { y with prevWasOp := true } .bwNot
  | .op o => shuntOp { y with prevWasOp := true } (opOf o)

theorem round_tok (y : Yard) (t : Tok) (text text' : Bytes) (y' : Yard) (hs : skipSpaces text = t.text ++ text') (hne : t.text ≠ [])
    (he : Ends t text') (hv : ∀ l, t = .lit l → l.Valid) (hok : TokOk y t) (hp : y.parLevel ≠ 0 ∨ t = .parOpen) (hf : feed y t = some y') :
    round y text = match t with
      | .lit _ => .inl (y', text')
      | _ => if y'.parLevel = 0 then .inr (.left y' text') else .inl (y', text') := by
  unfold round
  simp only [hs]
  rw [if_neg (by simp [hne])]
  have hop : ∀ o, tokOp t = some o → feed y t = shuntOp { y with prevWasOp := true } o → (∀ l, t ≠ .lit l) →
      (o = .sub → y.prevWasOp = false ∧ y.out ≠ []) → (y.parLevel ≠ 0 ∨ o = .parOpen) →
      (if y.parLevel = 0 ∧ (parseOp (t.text ++ text')).map Prod.fst ≠ some .parOpen then (.inr .soft : (Yard × Bytes) ⊕ Loop)
        else match nextOp y (t.text ++ text') with
        | some (o, s') =>
          match shuntOp { y with prevWasOp := true } o with
          | none => .inr .soft
          | some y' => if y'.parLevel = 0 then .inr (.left y' s') else .inl (y', s')
        | none =>
          match parseValue (t.text ++ text') with
          | none => .inr (.left { y with prevWasOp := false } (t.text ++ text'))
          | some (v, s') =>
            match shuntValue { y with prevWasOp := false } v with
            | none => .inr .soft
            | some y' => .inl (y', s'))
      = if y'.parLevel = 0 then .inr (.left y' text') else .inl (y', text') := by
    intro o h1 h2 h3 h4 h5
    have e := parseOp_tok t o text' h1 he
    rw [if_neg (by
      rw [e]
      rintro ⟨ha, hb⟩
      rcases h5 with h5 | h5
      · exact h5 ha
      · simp [h5] at hb)]
    have en : nextOp y (t.text ++ text') = some (o, text') := by
      unfold nextOp
      rw [e, if_neg]
      rintro ⟨ha, hb⟩
      simp at ha
      obtain ⟨hc, hd⟩ := h4 ha
      rcases hb with hb | hb
      · rw [hc] at hb; cases hb
      · exact hd hb
    rw [en]
    simp only [← h2, hf]
  cases t with
  | parOpen => exact hop .parOpen rfl rfl (by intro l h; cases h) (by intro h; cases h) (Or.inr rfl)
  | parClose =>
    exact hop .parClose rfl rfl (by intro l h; cases h) (by intro h; cases h) (hp.imp_right (fun h => by cases h))
  | tilde => exact hop .bwNot rfl rfl (by intro l h; cases h) (by intro h; cases h) (hp.imp_right (fun h => by cases h))
  | op o =>
    refine hop (opOf o) rfl rfl (by intro l h; cases h) ?_ (hp.imp_right (fun h => by cases h))
    intro h
    have : o = .sub := by cases o <;> first | rfl | (exfalso; revert h; decide)
    subst this
    exact hok
  | lit l =>
    have hp' : y.parLevel ≠ 0 := hp.resolve_right (by intro h; cases h)
    rw [if_neg (fun h => hp' h.1)]
    have en : nextOp y ((Tok.lit l).text ++ text') = none := by
      have e : parseOp ((Tok.lit l).text ++ text') = _ := parseOp_lit l text' (hv l rfl)
      unfold nextOp
      cases l with
      | neg ds =>
        simp only at e
        rw [if_pos ⟨by rw [e]; rfl, hok⟩]
      | _ => simp only at e; simp [e]
    rw [en]
    simp only [Tok.text, parseValue_lit l text' (hv l rfl) he]
    have hf' : shuntValue { y with prevWasOp := false } l.text = some y' := hf
    rw [hf']

/-- Several tokens which leave an open parenthesis. -/
inductive Run : Yard → List Tok → Yard → Prop where
  | nil (y : Yard) : Run y [] y
  | cons (y y1 y2 : Yard) (t : Tok) (ts : List Tok) : (∀ l, t = .lit l → l.Valid) → TokOk y t → (y.parLevel ≠ 0 ∨ t = .parOpen) →
      feed y t = some y1 → y1.parLevel ≠ 0 → Run y1 ts y2 → Run y (t :: ts) y2

theorem Run.append {y1 y2 y3 : Yard} {ts us : List Tok} (h1 : Run y1 ts y2) (h2 : Run y2 us y3) : Run y1 (ts ++ us) y3 := by
  induction h1 with
  | nil => exact h2
  | cons y y1 y2 t ts a b c d e _ ih => exact .cons _ _ _ _ _ a b c d e (ih h2)

theorem run_loop (y y2 : Yard) (ts : List Tok) (us : List Tok) (hr : Run y ts y2) : ∀ (fuel : Nat) (text rest : Bytes),
    Spells (ts ++ us) text rest → text.length ≤ fuel →
    ∃ fuel' text', interpretLoop fuel y text = interpretLoop fuel' y2 text' ∧ Spells us text' rest ∧ text'.length ≤ fuel' := by
  induction hr with
  | nil y => intro fuel text rest hs hf; exact ⟨fuel, text, rfl, hs, hf⟩
  | cons y y1 y2 t ts hv hok hp hfe hl _ ih =>
    intro fuel text rest hs hf
    obtain ⟨text', h1, h2, h3, h4, h5⟩ := spells_cons t (ts ++ us) text rest hv hs
    cases fuel with
    | zero => omega
    | succ fuel =>
      obtain ⟨f', t', e1, e2, e3⟩ := ih fuel text' rest h4 (by omega)
      refine ⟨f', t', ?_, e2, e3⟩
      rw [← e1]
      have hne : text ≠ [] := by
        intro h; subst h; simp at h5
      simp only [interpretLoop]
      rw [if_neg hne]
      rw [round_tok y t text text' y1 h1 h2 h3 hv hok hp hfe]
      cases t <;> simp only [if_neg hl]

theorem close_loop (y y2 : Yard) (fuel : Nat) (text rest : Bytes) (hs : Spells [.parClose] text rest) (hf : text.length ≤ fuel)
    (hp : y.parLevel ≠ 0) (hfe : feed y .parClose = some y2) (hl : y2.parLevel = 0) : interpretLoop fuel y text = .left y2 rest := by
  obtain ⟨text', h1, h2, h3, h4, h5⟩ := spells_cons _ _ text rest (by intro l h; cases h) hs
  have : text' = rest := by
    cases h4 with
    | nil => rfl
    | space _ _ _ _ _ hn _ => exact absurd rfl hn
  subst this
  cases fuel with
  | zero => omega
  | succ fuel =>
    have hne : text ≠ [] := by
      intro h; subst h; simp at h5
    simp only [interpretLoop]
    rw [if_neg hne, round_tok y _ text text' y2 h1 h2 h3 (by intro l h; cases h) trivial (Or.inl hp) hfe]
    simp only [hl, if_true]

end Verif.Condition
