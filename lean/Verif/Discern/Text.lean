import Verif.Discern.Meaning
import Verif.Bits
/-! # C28: definitions are read as they are written -/
namespace Verif.Discern
open Verif Msg Spec

/-- Words which can be written: topic filters are valid, printable and don't start with space, tags and names have the characters which they may have. -/
def WordOk : Word → Prop
  | .topic f => f ≠ [] ∧ (∀ c ∈ f, 0x20 ≤ c ∧ c < 0x80) ∧ f.head? ≠ some 0x20 ∧ Topic.filterValidateName f = true
  | .tag t => t ≠ [] ∧ ∀ c ∈ t, TagChar c
  | .dest d => d ≠ [] ∧ ∀ c ∈ d, NameChar c
  | _ => True

instance : DecidablePred TagChar := fun c => by unfold TagChar; exact inferInstance
instance : DecidablePred NameChar := fun c => by unfold NameChar; exact inferInstance

theorem tagChar_eq (c : UInt8) (h : TagChar c) : Parse.isTagChar c = true := by
  have : ∀ c : UInt8, TagChar c → Parse.isTagChar c = true := all256 (by decide +kernel)
  exact this c h
theorem nameChar_eq (c : UInt8) (h : NameChar c) : Parse.isNameChar c = true := by
  have : ∀ c : UInt8, NameChar c → Parse.isNameChar c = true := all256 (by decide +kernel)
  exact this c h
theorem filterChar_eq (c : UInt8) (h : 0x20 ≤ c ∧ c < 0x80) : Parse.isControlSigned c = false := by
  have : ∀ c : UInt8, (0x20 ≤ c ∧ c < 0x80) → Parse.isControlSigned c = false := all256 (by decide +kernel)
  exact this c h
theorem filterChar_spaces (c : UInt8) (h : 0x20 ≤ c ∧ c < 0x80) (hc : c ≠ 0x20) : Parse.isSpaces c = false := by
  have : ∀ c : UInt8, (0x20 ≤ c ∧ c < 0x80) → c ≠ 0x20 → Parse.isSpaces c = false := all256 (by decide +kernel)
  exact this c h hc
theorem nameChar_spaces (c : UInt8) (h : Parse.isNameChar c = true) : Parse.isSpaces c = false := by
  have : ∀ c : UInt8, Parse.isNameChar c = true → Parse.isSpaces c = false := all256 (by decide +kernel)
  exact this c h
theorem tagChar_spaces (c : UInt8) (h : Parse.isTagChar c = true) : Parse.isSpaces c = false := by
  have : ∀ c : UInt8, Parse.isTagChar c = true → Parse.isSpaces c = false := all256 (by decide +kernel)
  exact this c h

/-- What the parser makes of a word. -/
def pushOf : Word → Push
  | .topic f => ⟨.topicFilter, .push, some f, 0⟩
  | .tag t => ⟨.arrayTag, .push, some t, 0⟩
  | .const b => ⟨.bool, .push, none, truth b⟩
  | .dest d => ⟨.destination, .push, some d, 0⟩
  | .and => ⟨.none, .and, none, 0⟩
  | .or => ⟨.none, .or, none, 0⟩
  | .not => ⟨.none, .not, none, 0⟩
  | .apply => ⟨.none, .apply, none, 0⟩
  | .pop => ⟨.none, .pop, none, 0⟩
  | .bail => ⟨.none, .bail, none, 0⟩

theorem lexValue_text {t : EType} {v more : Bytes} (hv : v ≠ []) (hc : ∀ c ∈ v, valueChar t c = true) (hs : ∀ c, v.head? = some c → Parse.isSpaces c = false)
    (ht : t = .topicFilter → Topic.filterValidateName v = true) :
    lexValue t (0x20 :: (v ++ 0x0a :: more)) = .elem ⟨t, .push, some v, 0⟩ (0x0a :: more) := by
  have h0 : (0 : UInt8) ∉ v := by
    intro h
    have := hc 0 h
    rw [valueChar_zero] at this
    cases this
  have hnl : valueChar t 0x0a = false := by cases t <;> decide
  have hi : Parse.ignoreSpaces (0x20 :: (v ++ 0x0a :: more)) = v ++ 0x0a :: more := by
    rw [ignoreSpaces_eq, List.dropWhile_cons_of_pos (by decide)]
    cases v with
    | nil => exact absurd rfl hv
    | cons c v => rw [List.cons_append, List.dropWhile_cons_of_neg (by rw [hs c rfl]; simp)]
  unfold lexValue
  rw [hi, value_eq]
  have h1 : (v ++ 0x0a :: more).takeWhile (valueChar t) = v := by
    rw [List.takeWhile_append_of_pos hc, List.takeWhile_cons_of_neg (by rw [hnl]; simp), List.append_nil]
  have h2 : (v ++ 0x0a :: more).dropWhile (valueChar t) = 0x0a :: more := by
    rw [List.dropWhile_append_of_pos hc, List.dropWhile_cons_of_neg (by rw [hnl]; simp)]
  dsimp only
  rw [h1, h2]
  unfold checkValue
  have hsp : spaceAfter (0x0a :: more) = true := by
    unfold spaceAfter Parse.peek
    rw [List.takeWhile_cons_of_pos (by decide)]
    simp
  rw [if_neg hv, if_neg (by simp), if_neg (by simp [hsp]), cstr_eq h0, if_neg (by
    rintro ⟨e, h⟩; exact h (ht e))]

theorem lex_nl (b : Bytes) : lex (0x0a :: b) = lex b := by
  unfold lex
  rw [ignoreSpaces_eq, ignoreSpaces_eq, List.dropWhile_cons_of_pos (by decide)]

theorem spaceAfter_sp (more : Bytes) : spaceAfter (0x20 :: more) = true := by
  unfold spaceAfter Parse.peek
  rw [List.takeWhile_cons_of_pos (by decide)]
  simp

theorem spaceAfter_nl (more : Bytes) : spaceAfter (0x0a :: more) = true := by
  unfold spaceAfter Parse.peek
  rw [List.takeWhile_cons_of_pos (by decide)]
  simp

theorem isWord_pushOf {w : Word} (h : WordOk w) : IsWord (pushOf w) w := by
  cases w with
  | topic f =>
    obtain ⟨h1, h2, h3, h4⟩ := h
    exact ⟨rfl, h1, fun h => absurd (h2 0 h).1 (by decide), h4⟩
  | tag t => exact ⟨rfl, h.1, fun h0 => absurd (h.2 0 h0) (by decide)⟩
  | dest t => exact ⟨rfl, h.1, fun h0 => absurd (h.2 0 h0) (by decide)⟩
  | const b => rfl
  | and => rfl
  | or => rfl
  | not => rfl
  | apply => rfl
  | pop => rfl
  | bail => rfl

/-- A word which is written on a line is read. -/
theorem lex_text {w : Word} (h : WordOk w) (more : Bytes) : lex (w.text ++ more) = .elem (pushOf w) (0x0a :: more) := by
  have head : ∀ (c : UInt8) (b : Bytes), Parse.isSpaces c = false → Parse.ignoreSpaces (c :: b) = c :: b := by
    intro c b hc
    rw [ignoreSpaces_eq, List.dropWhile_cons_of_neg (by rw [hc]; simp)]
  cases w with
  | topic f =>
    obtain ⟨h1, h2, h3, h4⟩ := h
    have key := lexValue_text (t := .topicFilter) (v := f) (more := more) h1 (fun c hc => by
      show (!Parse.isControlSigned c) = true
      rw [filterChar_eq c (h2 c hc)]; rfl) (fun c hc => filterChar_spaces c (h2 c (List.mem_of_mem_head? hc)) (fun e => h3 (e ▸ hc))) (fun _ => h4)
    have e : Word.text (.topic f) ++ more = 0x54 :: 0x20 :: (f ++ 0x0a :: more) := by simp [Word.text]
    rw [e]
    unfold lex
    rw [head _ _ (by decide)]
    simp only [reduceCtorEq, if_false, Parse.matchWord, firstMatch, valueKeywords, List.isPrefixOf, List.length, List.drop]
    rw [show ((0x23 : UInt8) == 0x54) = false by decide, show ((0x54 : UInt8) == 0x54) = true by decide,
      show ((0x52 : UInt8) == 0x20) = false by decide, show ((0x46 : UInt8) == 0x54) = false by decide]
    simp only [Bool.false_and, Bool.and_false, Bool.true_and, if_false, if_true, Bool.false_eq_true]
    rw [if_neg (by rw [spaceAfter_sp]; simp), key]
    rfl
  | tag t =>
    have key := lexValue_text (t := .arrayTag) (v := t) (more := more) h.1 (fun c hc => tagChar_eq c (h.2 c hc))
      (fun c hc => tagChar_spaces c (tagChar_eq c (h.2 c (List.mem_of_mem_head? hc)))) (by simp)
    have e : Word.text (.tag t) ++ more = 0x48 :: 0x20 :: (t ++ 0x0a :: more) := by simp [Word.text]
    rw [e]
    unfold lex
    rw [head _ _ (by decide)]
    simp only [reduceCtorEq, if_false, Parse.matchWord, firstMatch, valueKeywords, List.isPrefixOf, List.length, List.drop]
    rw [show ((0x23 : UInt8) == 0x48) = false by decide, show ((0x54 : UInt8) == 0x48) = false by decide,
      show ((0x48 : UInt8) == 0x48) = true by decide, show ((0x46 : UInt8) == 0x48) = false by decide]
    simp only [Bool.false_and, Bool.true_and, if_false, if_true, Bool.false_eq_true]
    rw [if_neg (by rw [spaceAfter_sp]; simp), key]
    rfl
  | dest d =>
    have key := lexValue_text (t := .destination) (v := d) (more := more) h.1 (fun c hc => nameChar_eq c (h.2 c hc))
      (fun c hc => nameChar_spaces c (nameChar_eq c (h.2 c (List.mem_of_mem_head? hc)))) (by simp)
    have e : Word.text (.dest d) ++ more = 0x44 :: 0x20 :: (d ++ 0x0a :: more) := by simp [Word.text]
    rw [e]
    unfold lex
    rw [head _ _ (by decide)]
    simp only [reduceCtorEq, if_false, Parse.matchWord, firstMatch, valueKeywords, List.isPrefixOf, List.length, List.drop]
    rw [show ((0x23 : UInt8) == 0x44) = false by decide, show ((0x54 : UInt8) == 0x44) = false by decide,
      show ((0x48 : UInt8) == 0x44) = false by decide, show ((0x46 : UInt8) == 0x44) = false by decide,
      show ((0x44 : UInt8) == 0x44) = true by decide]
    simp only [Bool.false_and, Bool.true_and, if_false, if_true, Bool.false_eq_true]
    rw [if_neg (by rw [spaceAfter_sp]; simp), key]
    rfl
  | const b =>
    cases b with
    | true =>
      show lex (0x54 :: 0x52 :: 0x55 :: 0x45 :: 0x0a :: more) = _
      unfold lex
      rw [head _ _ (by decide)]
      show (if ¬ spaceAfter (0x0a :: more) = true then Lexed.fault .syntaxError else _) = _
      rw [if_neg (by rw [spaceAfter_nl]; simp)]
      rfl
    | false =>
      show lex (0x46 :: 0x41 :: 0x4c :: 0x53 :: 0x45 :: 0x0a :: more) = _
      unfold lex
      rw [head _ _ (by decide)]
      show (if ¬ spaceAfter (0x0a :: more) = true then Lexed.fault .syntaxError else _) = _
      rw [if_neg (by rw [spaceAfter_nl]; simp)]
      rfl
  | and =>
    show lex (0x41 :: 0x4e :: 0x44 :: 0x0a :: more) = _
    unfold lex
    rw [head _ _ (by decide)]
    rfl
  | or =>
    show lex (0x4f :: 0x52 :: 0x0a :: more) = _
    unfold lex
    rw [head _ _ (by decide)]
    rfl
  | not =>
    show lex (0x4e :: 0x4f :: 0x54 :: 0x0a :: more) = _
    unfold lex
    rw [head _ _ (by decide)]
    rfl
  | apply =>
    show lex (0x41 :: 0x50 :: 0x50 :: 0x4c :: 0x59 :: 0x0a :: more) = _
    unfold lex
    rw [head _ _ (by decide)]
    rfl
  | pop =>
    show lex (0x50 :: 0x4f :: 0x50 :: 0x0a :: more) = _
    unfold lex
    rw [head _ _ (by decide)]
    rfl
  | bail =>
    show lex (0x42 :: 0x41 :: 0x49 :: 0x4c :: 0x0a :: more) = _
    unfold lex
    rw [head _ _ (by decide)]
    rfl

/-- The text of a list of words. -/
def textOf (ws : List Word) : Bytes := ws.flatMap Word.text

theorem text_ne (w : Word) : ∃ c t, w.text = c :: t ∧ Parse.isControl c = false := by
  cases w with
  | const b => cases b <;> exact ⟨_, _, rfl, by decide⟩
  | _ => exact ⟨_, _, rfl, by decide⟩

theorem text_length (w : Word) : 3 ≤ w.text.length ∧ (pushOf w).size ≤ w.text.length := by
  cases w with
  | const b => cases b <;> exact ⟨by decide, by decide⟩
  | topic f => simp [Word.text, pushOf, Push.size]
  | tag f => simp [Word.text, pushOf, Push.size]
  | dest f => simp [Word.text, pushOf, Push.size]
  | _ => exact ⟨by decide, by decide⟩

/-- One iteration of the parser for a word. -/
theorem parseLoop_word {n : Nat} {prog : Prog} {stack : List Cell} {b : Bytes} {w : Word} {rest : Bytes} (hb : b ≠ [])
    (hlex : lex b = .elem (pushOf w) rest) (h1 : listFits prog.list.length = true) (h2 : storageFits prog.storage (pushOf w) = true) :
    parseLoop (n + 1) prog stack b = match parseStep stack (listPush prog.storage (pushOf w)).1 with
      | .abort => .abort
      | .fault f => .fault f
      | .ok stack => if stack = [] then finish ⟨prog.list ++ [(listPush prog.storage (pushOf w)).1], (listPush prog.storage (pushOf w)).2⟩ rest
          else parseLoop n ⟨prog.list ++ [(listPush prog.storage (pushOf w)).1], (listPush prog.storage (pushOf w)).2⟩ stack rest := by
  rw [parseLoop, if_neg hb, hlex]
  dsimp only
  rw [if_neg (by simp [h1]), if_neg (by simp [h2])]
  cases parseStep stack (listPush prog.storage (pushOf w)).1 <;> rfl

theorem parseLoop_text : ∀ (ws : List Word) (n : Nat) (prog : Prog) (stack : List Cell) (b : Bytes) (is : List Item) (ws0 : List Word),
    (∀ w ∈ ws, WordOk w) → ws ≠ [] → b = textOf ws ∨ b = 0x0a :: textOf ws → b.length < n → RepAll prog.storage prog.list ws0 → KindRel stack is → is.length ≤ 63 →
    2 * prog.list.length + (textOf ws).length < 2 ^ 28 → prog.storage.length + (textOf ws).length < 2 ^ 28 →
    (∀ as, Spec.read is ws = some as → ∃ p, parseLoop n prog stack b = .ok p [0x0a] ∧ RepAll p.storage p.list (ws0 ++ ws)) ∧
    (∀ p, parseLoop n prog stack b = .ok p [0x0a] → ∃ as, Spec.read is ws = some as) := by
  intro ws
  induction ws with
  | nil => intro n prog stack b is ws0 _ h; exact absurd rfl h
  | cons w ws ih =>
    intro n prog stack b is ws0 hok _ hb hn hr hk hl h1 h2
    have hw := hok w (by simp)
    obtain ⟨t1, t2⟩ := text_length w
    have htext : textOf (w :: ws) = w.text ++ textOf ws := rfl
    have hlen : (textOf (w :: ws)).length = w.text.length + (textOf ws).length := by rw [htext, List.length_append]
    obtain ⟨n, rfl⟩ : ∃ k, n = k + 1 := ⟨n - 1, by omega⟩
    have hlex : lex b = .elem (pushOf w) (0x0a :: textOf ws) := by
      rcases hb with rfl | rfl
      · rw [htext, lex_text hw]
      · rw [lex_nl, htext, lex_text hw]
    have hbn : b ≠ [] := by
      rintro rfl
      rcases hb with h | h
      · rw [htext] at h; obtain ⟨c, t, hc, _⟩ := text_ne w; rw [hc] at h; cases h
      · cases h
    have hbl : (textOf (w :: ws)).length ≤ b.length := by rcases hb with rfl | rfl <;> simp
    have hloop := parseLoop_word (n := n) (prog := prog) (stack := stack) hbn hlex (by unfold listFits elemSize; simp; omega) (by
      unfold storageFits
      unfold Push.size at t2
      cases hd : (pushOf w).data with
      | none => rfl
      | some d => rw [hd] at t2; dsimp only at t2; simp; omega)
    rw [hloop]
    obtain ⟨hrep, more, hmore⟩ := listPush_rep (storage := prog.storage) (isWord_pushOf hw)
    have hsz := listPush_size prog.storage (pushOf w)
    have hall : RepAll (listPush prog.storage (pushOf w)).2 (prog.list ++ [(listPush prog.storage (pushOf w)).1]) (ws0 ++ [w]) := by
      apply RepAll.snoc hrep
      rw [hmore]
      exact hr.append
    have hstep := parseStep_rel hk hl hrep
    have hfin : ∀ r, finish ⟨prog.list ++ [(listPush prog.storage (pushOf w)).1], (listPush prog.storage (pushOf w)).2⟩ r =
        .ok ⟨prog.list ++ [(listPush prog.storage (pushOf w)).1], (listPush prog.storage (pushOf w)).2⟩ r := by
      intro r
      unfold finish elemSize
      rw [if_pos (by simp; omega)]
    rw [Spec.read]
    cases hs : step is w with
    | none =>
      rw [hs] at hstep
      obtain ⟨f, hf⟩ := hstep
      rw [hf]
      exact ⟨fun as h => by (cases h), fun p h => by cases h⟩
    | some ia =>
      obtain ⟨is', as1⟩ := ia
      rw [hs] at hstep
      dsimp only at hstep ⊢
      split at hstep
      · rename_i hgt
        obtain ⟨f, hf⟩ := hstep
        rw [hf, if_pos hgt]
        exact ⟨fun as h => by (cases h), fun p h => by cases h⟩
      · rename_i hgt
        obtain ⟨cs', hf, hk'⟩ := hstep
        rw [hf, if_neg hgt]
        dsimp only
        by_cases hnil : is' = []
        · rw [if_pos (hk'.nil_iff.mpr hnil), if_pos hnil, hfin]
          cases ws with
          | nil =>
            rw [if_pos rfl]
            exact ⟨fun as _ => ⟨_, rfl, hall⟩, fun p _ => ⟨_, rfl⟩⟩
          | cons w' ws =>
            rw [if_neg (by simp)]
            refine ⟨fun as h => by (cases h), fun p h => ?_⟩
            exfalso
            simp only [Parsed.ok.injEq] at h
            have := congrArg List.length h.2
            obtain ⟨t3, _⟩ := text_length w'
            rw [show textOf (w' :: ws) = w'.text ++ textOf ws from rfl, List.length_cons, List.length_append, List.length_singleton] at this
            omega
        · rw [if_neg (fun e => hnil (hk'.nil_iff.mp e)), if_neg hnil]
          cases ws with
          | nil =>
            refine ⟨fun as h => by (cases h), fun p h => ?_⟩
            exfalso
            have hcs : cs' ≠ [] := fun e => hnil (hk'.nil_iff.mp e)
            have hn' : 1 < n := by
              have := hbl
              rw [hlen] at this
              omega
            obtain ⟨n, rfl⟩ : ∃ k, n = k + 1 := ⟨n - 1, by omega⟩
            rw [parseLoop, if_neg (by simp), show textOf [] = [] from rfl, lex_nl] at h
            rw [show lex [] = .eof from rfl] at h
            dsimp only at h
            rw [if_neg hcs] at h
            cases h
          | cons w' ws =>
            obtain ⟨i1, i2⟩ := ih n ⟨prog.list ++ [(listPush prog.storage (pushOf w)).1], (listPush prog.storage (pushOf w)).2⟩ cs' (0x0a :: textOf (w' :: ws)) is' (ws0 ++ [w]) (fun w hw => hok w (by simp [hw])) (by simp) (Or.inr rfl)
              (by simp; omega) hall hk' (by omega) (by simp; omega) (by simp; omega)
            constructor
            · intro as has
              cases hr2 : Spec.read is' (w' :: ws) with
              | none => rw [hr2] at has; cases has
              | some as2 =>
                obtain ⟨p, k1, k2⟩ := i1 as2 hr2
                exact ⟨p, k1, by simpa using k2⟩
            · intro p hp
              obtain ⟨as2, k⟩ := i2 p hp
              rw [k]
              exact ⟨_, rfl⟩

theorem ignoreControl_text {ws : List Word} (h : ws ≠ []) : Parse.ignoreControl (textOf ws) = textOf ws := by
  cases ws with
  | nil => exact absurd rfl h
  | cons w ws =>
    obtain ⟨c, t, hc, hcc⟩ := text_ne w
    have : textOf (w :: ws) = c :: (t ++ textOf ws) := by show w.text ++ _ = _; rw [hc]; rfl
    unfold Parse.ignoreControl
    rw [this, ignore_eq _ (by decide), List.dropWhile_cons_of_neg (by rw [hcc]; simp)]

/-- **C28** Written definitions are read as they are written, when the specification can make sense of them, and are otherwise refused, or end before
the last word. -/
theorem parse_text (ws : List Word) (hok : ∀ w ∈ ws, WordOk w) (hne : ws ≠ []) (hl : (textOf ws).length < 2 ^ 28) :
    (∀ as, actions ws = some as → ∃ p, parse (textOf ws) = .ok p [0x0a] ∧ Has p as) ∧
    (∀ p, parse (textOf ws) = .ok p [0x0a] → ∃ as, actions ws = some as) := by
  have hn : textOf ws ≠ [] := by
    cases ws with
    | nil => exact absurd rfl hne
    | cons w ws =>
      obtain ⟨c, t, hc, _⟩ := text_ne w
      show w.text ++ _ ≠ []
      rw [hc]; simp
  have key := parseLoop_text ws ((textOf ws).length + 1) ⟨[], []⟩ [] (textOf ws) [] [] hok hne (Or.inl rfl) (by omega) trivial trivial (by simp)
    (by simpa using hl) (by simpa using hl)
  have he : parse (textOf ws) = parseLoop ((textOf ws).length + 1) ⟨[], []⟩ [] (textOf ws) := by
    unfold parse
    rw [ignoreControl_text hne]
    dsimp only
    rw [if_neg hn]
  have ha : actions ws = Spec.read [] ws := by unfold actions; rw [if_neg hne]
  rw [he, ha]
  refine ⟨?_, key.2⟩
  intro as has
  obtain ⟨p, k1, k2⟩ := key.1 as has
  exact ⟨p, k1, ws, by simpa using k2, by rw [ha, has]⟩

end Verif.Discern
