import Verif.Discern.Lemmas
/-! # The parser and the execution of discern definitions follow the specification -/
namespace Verif.Discern
open Verif Msg Spec

/-! ## The parser -/

/-- The stack of the parser has the kinds of values which the specification has. -/
def KindRel : List Cell → List Item → Prop
  | [], [] => True
  | c :: cs, .expr _ :: is => c.type = .bool ∧ KindRel cs is
  | c :: cs, .dest _ :: is => c.type = .destination ∧ 0 < c.val.dataSize ∧ KindRel cs is
  | _, _ => False

theorem KindRel.length : ∀ {cs : List Cell} {is : List Item}, KindRel cs is → cs.length = is.length
  | [], [], _ => rfl
  | _ :: _, .expr _ :: _, h => by simp [KindRel.length h.2]
  | _ :: _, .dest _ :: _, h => by simp [KindRel.length h.2.2]
  | [], _ :: _, h => by cases h
  | _ :: _, [], h => by cases h

theorem KindRel.nil_iff {cs : List Cell} {is : List Item} (h : KindRel cs is) : cs = [] ↔ is = [] := by
  have := h.length
  rw [← List.length_eq_zero_iff, ← List.length_eq_zero_iff, this]

theorem checkSize_rel {cs : List Cell} {is : List Item} (h : KindRel cs is) (hl : is.length ≤ 64) :
    if is.length > 63 then ∃ f, checkSize cs = .fault f else checkSize cs = .ok cs := by
  have := h.length
  unfold checkSize stackMax
  split
  · exact ⟨.stackOverflow, by rw [if_neg (by omega), if_pos (by omega)]⟩
  · rw [if_neg (by omega), if_neg (by omega)]

/-- One step of the parser is one step of the specification. -/
theorem parseStep_rel {storage : Bytes} {cs : List Cell} {is : List Item} {e : Elem} {w : Word} (h : KindRel cs is)
    (hl : is.length ≤ 63) (hr : Rep storage e w) :
    match step is w with
    | none => ∃ f, parseStep cs e = .fault f
    | some (is', _) => if is'.length > 63 then ∃ f, parseStep cs e = .fault f else ∃ cs', parseStep cs e = .ok cs' ∧ KindRel cs' is' := by
  have fin : ∀ {cs' : List Cell} {is' : List Item} {r : Stepped}, KindRel cs' is' → is'.length ≤ 64 → r = checkSize cs' →
      if is'.length > 63 then ∃ f, r = .fault f else ∃ cs', r = .ok cs' ∧ KindRel cs' is' := by
    intro cs' is' r hk hl' hr
    have := checkSize_rel hk hl'
    subst hr
    split
    · rename_i hgt; rw [if_pos hgt] at this; exact this
    · rename_i hgt; rw [if_neg hgt] at this; exact ⟨_, this, hk⟩
  obtain ⟨ty, op, val⟩ := e
  cases w with
  | topic f =>
    obtain ⟨rfl, rfl, _⟩ := hr
    exact fin (is' := .expr (.topic f) :: is) (cs' := boolCell 1 :: cs) ⟨rfl, h⟩ (by simp; omega) rfl
  | tag f =>
    obtain ⟨rfl, rfl, _⟩ := hr
    exact fin (is' := .expr (.tag f) :: is) (cs' := boolCell 1 :: cs) ⟨rfl, h⟩ (by simp; omega) rfl
  | const b =>
    obtain ⟨rfl, rfl, _⟩ := hr
    exact fin (is' := .expr (.const b) :: is) (cs' := ⟨.bool, if val.dataSize > 0 then val else ⟨0, 0, val.value⟩⟩ :: cs) ⟨rfl, h⟩ (by simp; omega) rfl
  | dest d =>
    obtain ⟨rfl, rfl, h3, _⟩ := hr
    refine fin (is' := .dest d :: is) (cs' := ⟨.destination, if val.dataSize > 0 then val else ⟨0, 0, val.value⟩⟩ :: cs) ⟨rfl, ?_, h⟩ (by simp; omega) rfl
    dsimp only at h3 ⊢
    rw [if_pos h3]
    exact h3
  | and =>
    obtain ⟨rfl, rfl⟩ := hr
    match cs, is, h with
    | [], [], _ => exact ⟨.stackCount, rfl⟩
    | [_], [.expr _], _ => exact ⟨.stackCount, rfl⟩
    | [_], [.dest _], _ => exact ⟨.stackCount, rfl⟩
    | c :: d :: cs, .expr b :: .expr a :: is, ⟨h1, h2, h3⟩ =>
      refine fin (is' := .expr (.and a b) :: is) (cs' := boolCell (and_ c.val.value d.val.value) :: cs) ⟨rfl, h3⟩ (by simp at hl ⊢; omega) ?_
      unfold parseStep
      rw [if_neg (by simp [Op.args])]
      dsimp only
      unfold opBool2
      dsimp only
      rw [if_neg (by simp [h1]), if_neg (by simp [h2])]
      rfl
    | c :: d :: cs, .dest b :: a :: is, ⟨h1, _, _⟩ =>
      refine ⟨.invalidType, ?_⟩
      unfold parseStep
      rw [if_neg (by simp [Op.args])]
      dsimp only
      unfold opBool2
      dsimp only
      rw [if_pos (by simp [h1])]
      rfl
    | c :: d :: cs, .expr b :: .dest a :: is, ⟨h1, h2, _⟩ =>
      refine ⟨.invalidType, ?_⟩
      unfold parseStep
      rw [if_neg (by simp [Op.args])]
      dsimp only
      unfold opBool2
      dsimp only
      rw [if_neg (by simp [h1]), if_pos (by simp [h2])]
      rfl
  | or =>
    obtain ⟨rfl, rfl⟩ := hr
    match cs, is, h with
    | [], [], _ => exact ⟨.stackCount, rfl⟩
    | [_], [.expr _], _ => exact ⟨.stackCount, rfl⟩
    | [_], [.dest _], _ => exact ⟨.stackCount, rfl⟩
    | c :: d :: cs, .expr b :: .expr a :: is, ⟨h1, h2, h3⟩ =>
      refine fin (is' := .expr (.or a b) :: is) (cs' := boolCell (or_ c.val.value d.val.value) :: cs) ⟨rfl, h3⟩ (by simp at hl ⊢; omega) ?_
      unfold parseStep
      rw [if_neg (by simp [Op.args])]
      dsimp only
      unfold opBool2
      dsimp only
      rw [if_neg (by simp [h1]), if_neg (by simp [h2])]
      rfl
    | c :: d :: cs, .dest b :: a :: is, ⟨h1, _, _⟩ =>
      refine ⟨.invalidType, ?_⟩
      unfold parseStep
      rw [if_neg (by simp [Op.args])]
      dsimp only
      unfold opBool2
      dsimp only
      rw [if_pos (by simp [h1])]
      rfl
    | c :: d :: cs, .expr b :: .dest a :: is, ⟨h1, h2, _⟩ =>
      refine ⟨.invalidType, ?_⟩
      unfold parseStep
      rw [if_neg (by simp [Op.args])]
      dsimp only
      unfold opBool2
      dsimp only
      rw [if_neg (by simp [h1]), if_pos (by simp [h2])]
      rfl
  | not =>
    obtain ⟨rfl, rfl⟩ := hr
    match cs, is, h with
    | [], [], _ => exact ⟨.stackCount, rfl⟩
    | c :: cs, .expr b :: is, ⟨h1, h3⟩ =>
      refine fin (is' := .expr (.not b) :: is) (cs' := boolCell (not_ c.val.value) :: cs) ⟨rfl, h3⟩ (by simp at hl ⊢; omega) ?_
      unfold parseStep
      rw [if_neg (by simp [Op.args])]
      dsimp only
      unfold opBool1
      dsimp only
      rw [if_neg (by simp [h1])]
      rfl
    | c :: cs, .dest b :: is, ⟨h1, _, _⟩ =>
      refine ⟨.invalidType, ?_⟩
      unfold parseStep
      rw [if_neg (by simp [Op.args])]
      dsimp only
      unfold opBool1
      dsimp only
      rw [if_pos (by simp [h1])]
      rfl
  | apply =>
    obtain ⟨rfl, rfl⟩ := hr
    match cs, is, h with
    | [], [], _ => exact ⟨.stackCount, rfl⟩
    | [_], [.expr _], _ => exact ⟨.stackCount, rfl⟩
    | [_], [.dest _], _ => exact ⟨.stackCount, rfl⟩
    | c :: d :: cs, .dest b :: .expr a :: is, ⟨h1, h2, h3, h4⟩ =>
      refine fin (is' := .expr a :: is) (cs' := d :: cs) ⟨h3, h4⟩ (by simp at hl ⊢; omega) ?_
      unfold parseStep
      rw [if_neg (by simp [Op.args])]
      dsimp only
      unfold opApply
      dsimp only
      rw [if_neg (by simp [h3]), if_neg (by simp [h1]), if_neg (by omega)]
      rfl
    | c :: d :: cs, .expr b :: .expr a :: is, ⟨h1, h3, _⟩ =>
      refine ⟨.invalidType, ?_⟩
      unfold parseStep
      rw [if_neg (by simp [Op.args])]
      dsimp only
      unfold opApply
      dsimp only
      rw [if_neg (by simp [h3]), if_pos (by simp [h1])]
      rfl
    | c :: d :: cs, .expr b :: .dest a :: is, ⟨h1, h2, _⟩ =>
      refine ⟨.invalidType, ?_⟩
      unfold parseStep
      rw [if_neg (by simp [Op.args])]
      dsimp only
      unfold opApply
      dsimp only
      rw [if_pos (by simp [h2])]
      rfl
    | c :: d :: cs, .dest b :: .dest a :: is, ⟨h1, _, h2, _⟩ =>
      refine ⟨.invalidType, ?_⟩
      unfold parseStep
      rw [if_neg (by simp [Op.args])]
      dsimp only
      unfold opApply
      dsimp only
      rw [if_pos (by simp [h2])]
      rfl
  | pop =>
    obtain ⟨rfl, rfl⟩ := hr
    match cs, is, h with
    | [], [], _ => exact ⟨.stackCount, rfl⟩
    | c :: cs, .expr b :: is, ⟨_, h3⟩ =>
      exact fin (is' := is) (cs' := cs) h3 (by simp at hl ⊢; omega) (by unfold parseStep; rw [if_neg (by simp [Op.args])])
    | c :: cs, .dest b :: is, ⟨_, _, h3⟩ =>
      exact fin (is' := is) (cs' := cs) h3 (by simp at hl ⊢; omega) (by unfold parseStep; rw [if_neg (by simp [Op.args])])
  | bail =>
    obtain ⟨rfl, rfl⟩ := hr
    match cs, is, h with
    | [], [], _ => exact ⟨.stackCount, rfl⟩
    | c :: cs, .expr b :: is, ⟨h1, h3⟩ =>
      have hlen : ¬ is.length > 63 := by simp at hl ⊢; omega
      show if is.length > 63 then _ else _
      rw [if_neg hlen]
      refine ⟨cs, ?_, h3⟩
      unfold parseStep
      rw [if_neg (by simp [Op.args])]
      dsimp only
      unfold opBool1
      dsimp only
      rw [if_neg (by simp [h1])]
      unfold Stepped.bind boolCell
      dsimp only
      have := checkSize_rel h3 (by omega)
      rw [if_neg hlen] at this
      rw [this]
      split <;> rfl
    | c :: cs, .dest b :: is, ⟨h1, _, _⟩ =>
      refine ⟨.invalidType, ?_⟩
      unfold parseStep
      rw [if_neg (by simp [Op.args])]
      dsimp only
      unfold opBool1
      dsimp only
      rw [if_pos (by simp [h1])]
      rfl

/-- The elements of a list are words. -/
def RepAll (storage : Bytes) : List Elem → List Word → Prop
  | [], [] => True
  | e :: es, w :: ws => Rep storage e w ∧ RepAll storage es ws
  | _, _ => False

theorem RepAll.append {storage more : Bytes} : ∀ {es : List Elem} {ws : List Word}, RepAll storage es ws → RepAll (storage ++ more) es ws
  | [], [], _ => trivial
  | _ :: _, _ :: _, h => ⟨h.1.append more, RepAll.append h.2⟩
  | [], _ :: _, h => by cases h
  | _ :: _, [], h => by cases h

theorem RepAll.snoc {storage : Bytes} {e : Elem} {w : Word} (hr : Rep storage e w) : ∀ {es : List Elem} {ws : List Word}, RepAll storage es ws →
    RepAll storage (es ++ [e]) (ws ++ [w])
  | [], [], _ => ⟨hr, trivial⟩
  | _ :: _, _ :: _, h => ⟨h.1, RepAll.snoc hr h.2⟩
  | [], _ :: _, h => by cases h
  | _ :: _, [], h => by cases h

/-- The number of iterations which the parser is given is enough. -/
theorem parseLoop_fuel : ∀ (n m : Nat) (prog : Prog) (stack : List Cell) (b : Bytes), b.length < n → b.length < m →
    parseLoop n prog stack b = parseLoop m prog stack b := by
  intro n
  induction n with
  | zero => intro m prog stack b h; omega
  | succ n ih =>
    intro m prog stack b hn hm
    cases m with
    | zero => omega
    | succ m =>
      unfold parseLoop
      split
      · rfl
      · cases hx : lex b with
        | eof => rfl
        | fault f => rfl
        | comment rest =>
          have := lex_comment hx
          exact ih m _ _ _ (by omega) (by omega)
        | elem p rest =>
          obtain ⟨_, hl, _⟩ := lex_elem hx
          dsimp only
          split
          · rfl
          · split
            · rfl
            · cases parseStep stack (listPush prog.storage p).1 with
              | abort => rfl
              | fault f => rfl
              | ok st =>
                dsimp only
                split
                · rfl
                · exact ih m _ _ _ (by omega) (by omega)

theorem parseLoop_ok : ∀ (n : Nat) (prog : Prog) (stack : List Cell) (b : Bytes) (ws : List Word) (is : List Item) (p : Prog) (rest : Bytes),
    RepAll prog.storage prog.list ws → KindRel stack is → is.length ≤ 63 → parseLoop n prog stack b = .ok p rest →
    ∃ ws', RepAll p.storage p.list (ws ++ ws') ∧ ((ws' = [] ∧ is = []) ∨ ∃ as, read is ws' = some as) := by
  intro n
  induction n with
  | zero => intro prog stack b ws is p rest _ _ _ h; unfold parseLoop at h; cases h
  | succ n ih =>
    intro prog stack b ws is p rest hr hk hl h
    have hnil : ∀ {r : Bytes}, (if stack = [] then finish prog r else Parsed.fault .stackCount) = .ok p rest →
        ∃ ws', RepAll p.storage p.list (ws ++ ws') ∧ ((ws' = [] ∧ is = []) ∨ ∃ as, read is ws' = some as) := by
      intro r h
      split at h
      · rename_i hs
        unfold finish at h
        split at h
        · cases h
          exact ⟨[], by simpa using hr, Or.inl ⟨rfl, hk.nil_iff.mp hs⟩⟩
        · cases h
      · cases h
    unfold parseLoop at h
    split at h
    · exact hnil h
    · cases hx : lex b with
      | eof => rw [hx] at h; exact hnil h
      | fault f => rw [hx] at h; cases h
      | comment r => rw [hx] at h; exact ih _ _ _ _ _ _ _ hr hk hl h
      | elem q r =>
        rw [hx] at h
        dsimp only at h
        obtain ⟨⟨w, hw⟩, _, _⟩ := lex_elem hx
        obtain ⟨hrep, more, hmore⟩ := listPush_rep (storage := prog.storage) hw
        split at h
        · cases h
        · split at h
          · cases h
          · have hstep := parseStep_rel hk hl hrep
            have hall : RepAll (listPush prog.storage q).2 (prog.list ++ [(listPush prog.storage q).1]) (ws ++ [w]) := by
              apply RepAll.snoc hrep
              rw [hmore]
              exact hr.append
            cases hs : step is w with
            | none =>
              rw [hs] at hstep
              obtain ⟨f, hf⟩ := hstep
              rw [hf] at h
              cases h
            | some ia =>
              obtain ⟨is', as⟩ := ia
              rw [hs] at hstep
              dsimp only at hstep
              split at hstep
              · obtain ⟨f, hf⟩ := hstep
                rw [hf] at h
                cases h
              · rename_i hlen
                obtain ⟨cs', hf, hk'⟩ := hstep
                rw [hf] at h
                dsimp only at h
                split at h
                · rename_i hcs
                  unfold finish at h
                  split at h
                  · cases h
                    refine ⟨[w], hall, Or.inr ⟨as, ?_⟩⟩
                    unfold Spec.read
                    rw [hs]
                    dsimp only
                    rw [if_neg hlen, if_pos (hk'.nil_iff.mp hcs), if_pos rfl]
                  · cases h
                · rename_i hcs
                  obtain ⟨ws', h1, h2⟩ := ih _ _ _ _ _ _ _ hall hk' (by omega) h
                  refine ⟨w :: ws', by simpa using h1, Or.inr ?_⟩
                  have hne : is' ≠ [] := fun e => hcs (hk'.nil_iff.mpr e)
                  rcases h2 with ⟨_, e⟩ | ⟨as', h2⟩
                  · exact absurd e hne
                  · refine ⟨as ++ as', ?_⟩
                    rw [Spec.read, hs]
                    dsimp only
                    rw [if_neg hlen, if_neg hne, h2]
                    rfl

/-- An accepted definition is a list of words which can be read. -/
theorem parse_words {text rest : Bytes} {p : Prog} (h : parse text = .ok p rest) :
    ∃ ws as, RepAll p.storage p.list ws ∧ actions ws = some as := by
  unfold parse at h
  dsimp only at h
  split at h
  · cases h
  · obtain ⟨ws, h1, h2⟩ := parseLoop_ok _ ⟨[], []⟩ [] _ [] [] _ _ trivial trivial (by simp) h
    rw [List.nil_append] at h1
    by_cases hw : ws = []
    · exact ⟨ws, [], h1, by rw [actions, if_pos hw]⟩
    · rcases h2 with ⟨e, _⟩ | ⟨as, h2⟩
      · exact absurd e hw
      · exact ⟨ws, as, h1, by rw [actions, if_neg hw, h2]⟩

theorem listPush_size (storage : Bytes) (p : Push) : (listPush storage p).2.length = storage.length + p.size := by
  unfold listPush Push.size
  cases p.data <;> simp

theorem parseLoop_safe : ∀ (n : Nat) (prog : Prog) (stack : List Cell) (b : Bytes) (is : List Item),
    KindRel stack is → is.length ≤ 63 →
    2 * prog.list.length + b.length < 2 ^ 28 → prog.storage.length + b.length < 2 ^ 28 →
    parseLoop n prog stack b ≠ .abort ∧ parseLoop n prog stack b ≠ .oob := by
  intro n
  induction n with
  | zero => intro prog stack b is _ _ _ _; unfold parseLoop; exact ⟨by simp, by simp⟩
  | succ n ih =>
    intro prog stack b is hk hl h1 h2
    have fin : ∀ (q : Prog) (r : Bytes), 2 * q.list.length < 2 ^ 28 → q.storage.length < 2 ^ 28 → finish q r ≠ .abort ∧ finish q r ≠ .oob := by
      intro q r h1 h2
      unfold finish elemSize
      rw [if_pos (by omega)]
      exact ⟨by simp, by simp⟩
    have hnil : ∀ (r : Bytes), (if stack = [] then finish prog r else Parsed.fault .stackCount) ≠ .abort ∧
        (if stack = [] then finish prog r else Parsed.fault .stackCount) ≠ .oob := by
      intro r
      split
      · exact fin _ _ (by omega) (by omega)
      · exact ⟨by simp, by simp⟩
    unfold parseLoop
    split
    · exact hnil _
    · cases hx : lex b with
      | eof => exact hnil _
      | fault f => exact ⟨by simp, by simp⟩
      | comment r =>
        have := lex_comment hx
        exact ih _ _ _ _ hk hl (by omega) (by omega)
      | elem q r =>
        dsimp only
        obtain ⟨⟨w, hw⟩, hlen1, hlen2⟩ := lex_elem hx
        obtain ⟨hrep, _, _⟩ := listPush_rep (storage := prog.storage) hw
        have hsz := listPush_size prog.storage q
        rw [if_neg (by unfold listFits elemSize; simp; omega)]
        rw [if_neg (by
          unfold storageFits
          unfold Push.size at hlen2
          cases hd : q.data with
          | none => simp
          | some d => rw [hd] at hlen2; dsimp only at hlen2; simp; omega)]
        have hstep := parseStep_rel hk hl hrep
        cases hs : step is w with
        | none =>
          rw [hs] at hstep
          obtain ⟨f, hf⟩ := hstep
          rw [hf]
          exact ⟨by simp, by simp⟩
        | some ia =>
          obtain ⟨is', as⟩ := ia
          rw [hs] at hstep
          dsimp only at hstep
          split at hstep
          · obtain ⟨f, hf⟩ := hstep
            rw [hf]
            exact ⟨by simp, by simp⟩
          · rename_i hlen
            obtain ⟨cs', hf, hk'⟩ := hstep
            rw [hf]
            dsimp only
            split
            · exact fin _ _ (by simp; omega) (by simp; omega)
            · exact ih _ _ _ _ hk' (by omega) (by simp; omega) (by simp; omega)

/-! ## Execution -/

/-- The live part of the stack holds what the specification has on its stack. `V` relates expressions and values. -/
def ValRel (storage : Bytes) (V : Expr → UInt32 → Prop) : List Val → List Item → Prop
  | [], [] => True
  | v :: vs, .expr e :: is => V e v.value ∧ ValRel storage V vs is
  | v :: vs, .dest d :: is => StrAt storage v.dataPos d ∧ ValRel storage V vs is
  | _, _ => False

theorem ValRel.length {storage : Bytes} {V : Expr → UInt32 → Prop} : ∀ {vs : List Val} {is : List Item}, ValRel storage V vs is → vs.length = is.length
  | [], [], _ => rfl
  | _ :: _, .expr _ :: _, h => by simp [ValRel.length h.2]
  | _ :: _, .dest _ :: _, h => by simp [ValRel.length h.2]
  | [], _ :: _, h => by cases h
  | _ :: _, [], h => by cases h

/-- The state of the execution. -/
def ExecRel {σ : Type} (storage : Bytes) (V : Expr → UInt32 → Prop) (x : Exec σ) (is : List Item) : Prop :=
  ∃ live dead, x.stack = live.reverse ++ dead ∧ x.wpos = live.length ∧ live.length + dead.length = 64 ∧ ValRel storage V live is

section
variable {σ : Type} {storage : Bytes} {V : Expr → UInt32 → Prop}

theorem set_mid {α : Type} (a : List α) (b c : α) (d : List α) : (a ++ b :: d).set a.length c = a ++ c :: d := by
  rw [List.set_append_right _ _ (by omega), Nat.sub_self, List.set_cons_zero]

theorem get_mid {α : Type} (a : List α) (b : α) (d : List α) : (a ++ b :: d)[a.length]? = some b := by
  rw [List.getElem?_append_right (by omega), Nat.sub_self, List.getElem?_cons_zero]

theorem ExecRel.wpos {x : Exec σ} {is : List Item} (h : ExecRel storage V x is) : x.wpos = is.length := by
  obtain ⟨live, dead, _, h2, _, h4⟩ := h
  rw [h2, h4.length]

theorem push_cell {x : Exec σ} {is : List Item} (h : ExecRel storage V x is) (hl : is.length < 64) :
    ∃ old, x.stack[x.wpos]? = some old ∧ ∀ (v : Val) (i : Item), (∀ live, ValRel storage V live is → ValRel storage V (v :: live) (i :: is)) →
      ∀ (cb : σ) (ix : List UInt32), ExecRel storage V ⟨x.stack.set x.wpos v, x.wpos + 1, ix, cb⟩ (i :: is) := by
  obtain ⟨live, dead, h1, h2, h3, h4⟩ := h
  have hlen := h4.length
  cases dead with
  | nil => simp at h3; omega
  | cons d dead =>
    have hw : x.wpos = live.reverse.length := by rw [List.length_reverse, h2]
    refine ⟨d, by rw [h1, hw, get_mid], ?_⟩
    intro v i hv cb ix
    refine ⟨v :: live, dead, ?_, ?_, ?_, hv _ h4⟩
    · show x.stack.set x.wpos v = _
      rw [h1, hw, set_mid]
      simp
    · show x.wpos + 1 = _
      rw [h2]; simp
    · simp at h3 ⊢; omega

theorem push_rel {x : Exec σ} {is : List Item} (h : ExecRel storage V x is) (hl : is.length < 64) {e : Expr} {r : UInt32} (hv : V e r) :
    ∃ x', x.push r = .go x' ∧ ExecRel storage V x' (.expr e :: is) ∧ x'.cb = x.cb ∧ x'.index = x.index := by
  obtain ⟨old, h1, h2⟩ := push_cell h hl
  refine ⟨{ x with stack := x.stack.set x.wpos { old with value := r }, wpos := x.wpos + 1 }, by unfold Exec.push; rw [h1], ?_, rfl, rfl⟩
  exact h2 { old with value := r } (.expr e) (fun live hlive => ⟨hv, hlive⟩) _ _

/-- The stack with its two topmost values. -/
theorem top2 {x : Exec σ} {i j : Item} {is : List Item} (h : ExecRel storage V x (i :: j :: is)) :
    ∃ a b live dead, x.stack = (live.reverse ++ b :: a :: dead) ∧ x.wpos = live.length + 2 ∧ live.length + 2 + dead.length = 64 ∧
      ValRel storage V (a :: b :: live) (i :: j :: is) ∧ x.stack[x.wpos - 1]? = some a ∧ x.stack[x.wpos - 2]? = some b := by
  obtain ⟨live, dead, h1, h2, h3, h4⟩ := h
  have hlen := h4.length
  match live, h1, h2, h3, h4, hlen with
  | a :: b :: live, h1, h2, h3, h4, hlen =>
    have e : x.stack = live.reverse ++ b :: a :: dead := by rw [h1]; simp
    refine ⟨a, b, live, dead, e, by rw [h2]; simp, by simp at h3; omega, h4, ?_, ?_⟩
    · have : x.wpos - 1 = (live.reverse ++ [b]).length := by rw [h2]; simp
      rw [this, e, show live.reverse ++ b :: a :: dead = (live.reverse ++ [b]) ++ a :: dead by simp, get_mid]
    · have : x.wpos - 2 = live.reverse.length := by rw [h2]; simp
      rw [this, e, get_mid]
  | [], _, _, _, _, hlen => simp at hlen
  | [_], _, _, _, _, hlen => simp at hlen

theorem two_rel {x : Exec σ} {a b e : Expr} {is : List Item} {f : UInt32 → UInt32 → UInt32} (h : ExecRel storage V x (.expr b :: .expr a :: is))
    (hf : ∀ va vb, V a va → V b vb → V e (f vb va)) :
    ∃ x', x.two f = .go x' ∧ ExecRel storage V x' (.expr e :: is) ∧ x'.cb = x.cb ∧ x'.index = x.index := by
  obtain ⟨vb, va, live, dead, h1, h2, h3, ⟨r1, r2, r3⟩, h5, h6⟩ := top2 h
  refine ⟨{ x with stack := x.stack.set (x.wpos - 2) { va with value := f vb.value va.value }, wpos := x.wpos - 1 },
    by unfold Exec.two; rw [if_neg (by omega), h5, h6], ?_, rfl, rfl⟩
  refine ⟨{ va with value := f vb.value va.value } :: live, vb :: dead, ?_, ?_, by simp; omega, hf _ _ r2 r1, r3⟩
  · show x.stack.set (x.wpos - 2) _ = _
    have : x.wpos - 2 = live.reverse.length := by rw [h2]; simp
    rw [this, h1, set_mid]
    simp
  · show x.wpos - 1 = _
    rw [h2]; simp

theorem top1 {x : Exec σ} {i : Item} {is : List Item} (h : ExecRel storage V x (i :: is)) :
    ∃ a live dead, x.stack = live.reverse ++ a :: dead ∧ x.wpos = live.length + 1 ∧ live.length + 1 + dead.length = 64 ∧
      ValRel storage V (a :: live) (i :: is) ∧ x.stack[x.wpos - 1]? = some a := by
  obtain ⟨live, dead, h1, h2, h3, h4⟩ := h
  have hlen := h4.length
  match live, h1, h2, h3, h4, hlen with
  | a :: live, h1, h2, h3, h4, hlen =>
    have e : x.stack = live.reverse ++ a :: dead := by rw [h1]; simp
    refine ⟨a, live, dead, e, by rw [h2]; simp, by simp at h3; omega, h4, ?_⟩
    have : x.wpos - 1 = live.reverse.length := by rw [h2]; simp
    rw [this, e, get_mid]
  | [], _, _, _, _, hlen => simp at hlen

/-- After a value was taken from the stack. -/
theorem drop_rel {x : Exec σ} {i : Item} {is : List Item} (h : ExecRel storage V x (i :: is)) (cb : σ) :
    ExecRel storage V { x with cb := cb, wpos := x.wpos - 1 } is := by
  obtain ⟨a, live, dead, h1, h2, h3, h4, h5⟩ := top1 h
  refine ⟨live, a :: dead, h1, ?_, by simp; omega, ?_⟩
  · show x.wpos - 1 = _
    rw [h2]; simp
  · cases i with
    | expr e => exact h4.2
    | dest d => exact h4.2

/-! ### What each kind of word does -/

theorem exec_topic {cbs : Callbacks σ} {x : Exec σ} {is : List Item} {e : Elem} {f : Bytes} (h : ExecRel storage V x is) (hl : is.length < 64)
    (hr : Rep storage e (.topic f)) : execStep cbs storage x e = match cbs.topicFilter x.cb f with
      | .ret r s => { x with cb := s }.push r
      | .err s => .stop (.err s)
      | .abort => .stop .abort := by
  obtain ⟨h1, h2, h3, h4, _⟩ := hr
  have := h.wpos
  unfold execStep stackMax
  rw [if_neg (by omega), h2]
  dsimp only
  rw [h1]
  dsimp only
  rw [h3, Nat.add_sub_cancel, h4.bytesAt]
  rfl

theorem exec_tag {cbs : Callbacks σ} {x : Exec σ} {is : List Item} {e : Elem} {t : Bytes} (h : ExecRel storage V x is) (hl : is.length < 64)
    (hr : Rep storage e (.tag t)) : execStep cbs storage x e = if x.index ≠ [] ∧ firstLast t ∉ x.index then x.push 0
      else match cbs.arrayTag x.cb t with
      | .ret (r, none) s => { x with cb := s }.push r
      | .ret (r, some index) s => { x with cb := s, index := index }.push r
      | .err s => .stop (.err s)
      | .abort => .stop .abort := by
  obtain ⟨h1, h2, h3, _, h4⟩ := hr
  have := h.wpos
  unfold execStep stackMax
  rw [if_neg (by omega), h2]
  dsimp only
  rw [h1]
  dsimp only
  unfold execTag
  rw [h4, h3.cstrAt]
  rfl

theorem exec_const {cbs : Callbacks σ} {x : Exec σ} {is : List Item} {e : Elem} {b : Bool} (h : ExecRel storage V x is) (hl : is.length < 64)
    (hr : Rep storage e (.const b)) : execStep cbs storage x e = x.push (truth b) := by
  obtain ⟨h1, h2, h3, h4⟩ := hr
  have := h.wpos
  unfold execStep stackMax
  rw [if_neg (by omega), h2]
  dsimp only
  rw [h1]
  dsimp only
  rw [h4]

theorem exec_dest {cbs : Callbacks σ} {x : Exec σ} {is : List Item} {e : Elem} {d : Bytes} (h : ExecRel storage V x is) (hl : is.length < 64)
    (hr : Rep storage e (.dest d)) : ∃ x', execStep cbs storage x e = .go x' ∧ ExecRel storage V x' (.dest d :: is) ∧ x'.cb = x.cb ∧ x'.index = x.index := by
  obtain ⟨h1, h2, h3, h4⟩ := hr
  have := h.wpos
  obtain ⟨old, k1, k2⟩ := push_cell h hl
  refine ⟨{ x with stack := x.stack.set x.wpos e.val, wpos := x.wpos + 1 },
    by unfold execStep stackMax; rw [if_neg (by omega), h2]; dsimp only; rw [h1]; dsimp only; rw [k1], ?_, rfl, rfl⟩
  exact k2 e.val (.dest d) (fun live hlive => ⟨h4, hlive⟩) _ _

theorem exec_not {cbs : Callbacks σ} {x : Exec σ} {is : List Item} {e : Elem} {a : Expr} (h : ExecRel storage V x (.expr a :: is)) (hl : is.length < 63)
    (hr : Rep storage e .not) (hf : ∀ va, V a va → V (.not a) (not_ va)) :
    ∃ x', execStep cbs storage x e = .go x' ∧ ExecRel storage V x' (.expr (.not a) :: is) ∧ x'.cb = x.cb ∧ x'.index = x.index := by
  have hw := h.wpos
  simp only [List.length_cons] at hw
  obtain ⟨v, live, dead, h1, h2, h3, ⟨r1, r2⟩, h5⟩ := top1 h
  refine ⟨{ x with stack := x.stack.set (x.wpos - 1) { v with value := not_ v.value } }, ?_, ?_, rfl, rfl⟩
  · unfold execStep stackMax
    rw [if_neg (by omega), hr.2]
    dsimp only
    rw [if_neg (by omega), h5]
  · refine ⟨{ v with value := not_ v.value } :: live, dead, ?_, ?_, by simp; omega, hf _ r1, r2⟩
    · show x.stack.set (x.wpos - 1) _ = _
      have : x.wpos - 1 = live.reverse.length := by rw [h2]; simp
      rw [this, h1, set_mid]
      simp
    · show x.wpos = _
      rw [h2]; simp

theorem exec_apply {cbs : Callbacks σ} {x : Exec σ} {is : List Item} {e : Elem} {a : Expr} {d : Bytes}
    (h : ExecRel storage V x (.dest d :: .expr a :: is)) (hl : is.length < 62) (hr : Rep storage e .apply) :
    ∃ v, V a v ∧ execStep cbs storage x e = match cbs.apply (v &&& 1 = 1) x.cb d with
      | .ret () s => .go { x with cb := s, wpos := x.wpos - 1 }
      | .err s => .stop (.err s)
      | .abort => .stop .abort := by
  have hw := h.wpos
  simp only [List.length_cons] at hw
  obtain ⟨vd, va, live, dead, h1, h2, h3, ⟨r1, r2, r3⟩, h5, h6⟩ := top2 h
  refine ⟨va.value, r2, ?_⟩
  unfold execStep stackMax
  rw [if_neg (by omega), hr.2]
  dsimp only
  unfold execApply
  rw [if_neg (by omega), h5, h6]
  dsimp only
  rw [r1.cstrAt]
  rfl

theorem exec_pop {cbs : Callbacks σ} {x : Exec σ} {i : Item} {is : List Item} {e : Elem} (h : ExecRel storage V x (i :: is)) (hl : is.length < 63)
    (hr : Rep storage e .pop) : execStep cbs storage x e = .go { x with wpos := x.wpos - 1 } := by
  have hw := h.wpos
  simp only [List.length_cons] at hw
  unfold execStep stackMax
  rw [if_neg (by omega), hr.2]
  dsimp only
  rw [if_neg (by omega)]

theorem exec_bail {cbs : Callbacks σ} {x : Exec σ} {is : List Item} {e : Elem} {a : Expr} (h : ExecRel storage V x (.expr a :: is)) (hl : is.length < 63)
    (hr : Rep storage e .bail) : ∃ v, V a v ∧ execStep cbs storage x e =
      if v ≠ 0 then .stop (.bail x.cb) else .go { x with wpos := x.wpos - 1 } := by
  have hw := h.wpos
  simp only [List.length_cons] at hw
  obtain ⟨v, live, dead, h1, h2, h3, ⟨r1, r2⟩, h5⟩ := top1 h
  refine ⟨v.value, r1, ?_⟩
  unfold execStep stackMax
  rw [if_neg (by omega), hr.2]
  dsimp only
  rw [if_neg (by omega), h5]

theorem exec_and {cbs : Callbacks σ} {x : Exec σ} {is : List Item} {e : Elem} {a b : Expr} (h : ExecRel storage V x (.expr b :: .expr a :: is)) (hl : is.length < 62)
    (hr : Rep storage e .and) : execStep cbs storage x e = x.two and_ := by
  have hw := h.wpos
  simp only [List.length_cons] at hw
  unfold execStep stackMax
  rw [if_neg (by omega), hr.2]

theorem exec_or {cbs : Callbacks σ} {x : Exec σ} {is : List Item} {e : Elem} {a b : Expr} (h : ExecRel storage V x (.expr b :: .expr a :: is)) (hl : is.length < 62)
    (hr : Rep storage e .or) : execStep cbs storage x e = x.two or_ := by
  have hw := h.wpos
  simp only [List.length_cons] at hw
  unfold execStep stackMax
  rw [if_neg (by omega), hr.2]

end

end Verif.Discern
