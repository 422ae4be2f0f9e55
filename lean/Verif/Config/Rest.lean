import Verif.Config.File
/-! # What is left of a text is at the end of it -/
namespace Verif.Config
open AclFile (Out bind_ok)
open Verif.Config.Spec

theorem abort_iff {α β : Type} {m : Out α} {f : α → Out β} : m.bind f = .abort ↔ m = .abort ∨ ∃ x, m = .ok x ∧ f x = .abort := by
  cases m <;> simp [Out.bind]

theorem drop_suffix (p : UInt8 → Bool) (s : Bytes) : s.dropWhile p <:+ s := List.dropWhile_suffix _

theorem word_suffix : ∀ (w s r : Bytes), Condition.matchWord w s = some r → r <:+ s
  | [], s, r, h => by cases h; exact List.suffix_refl _
  | _ :: _, [], r, h => by cases h
  | w :: ws, c :: s, r, h => by
    unfold Condition.matchWord at h
    split at h
    · exact (word_suffix ws s r h).trans (List.suffix_cons _ _)
    · cases h

theorem wordCase_suffix : ∀ (w s r : Bytes), Condition.matchWordCase w s = some r → r <:+ s
  | [], s, r, h => by cases h; exact List.suffix_refl _
  | _ :: _, [], r, h => by cases h
  | w :: ws, c :: s, r, h => by
    unfold Condition.matchWordCase at h
    split at h
    · exact (wordCase_suffix ws s r h).trans (List.suffix_cons _ _)
    · cases h

theorem op_suffix : ∀ (os : List Condition.Op) (s : Bytes) (o : Condition.Op) (r : Bytes), Condition.parseOpIn os s = some (o, r) → r <:+ s := by
  intro os
  induction os with
  | nil => intro s o r h; cases h
  | cons o' os ih =>
    intro s o r h
    simp only [Condition.parseOpIn] at h
    split at h
    · rename_i x hx
      cases h
      exact word_suffix _ _ _ hx
    · exact ih s o r h

theorem value_suffix : ∀ s v r : Bytes, Condition.parseValue s = some (v, r) → r <:+ s := by
  intro s v r h
  simp only [Condition.parseValue] at h
  split at h
  · rename_i u hu
    have h1 := word_suffix _ _ _ hu
    by_cases hn : (Condition.matchLetters (fun c => Condition.isLetter c || Condition.isNumber c) u).1 = []
    · rw [if_pos hn] at h; cases h
    · rw [if_neg hn] at h
      split at h
      · cases h
      · rename_i x hx
        cases h
        have h2 := word_suffix _ _ _ hx
        have h3 : (Condition.matchLetters (fun c => Condition.isLetter c || Condition.isNumber c) u).2 <:+ u := drop_suffix _ u
        exact h2.trans (h3.trans h1)
  · split at h
    · rename_i u hu
      have h1 := wordCase_suffix _ _ _ hu
      by_cases hn : (Condition.matchLetters Condition.isHex u).1 = []
      · rw [if_pos hn] at h; cases h
      · rw [if_neg hn] at h; cases h
        have h3 : (Condition.matchLetters Condition.isHex u).2 <:+ u := drop_suffix _ u
        exact h3.trans h1
    · split at h
      · rename_i u hu
        have h1 := wordCase_suffix _ _ _ hu
        by_cases hn : (Condition.matchLetters Condition.isNumber u).1 = []
        · rw [if_pos hn] at h; cases h
        · rw [if_neg hn] at h; cases h
          have h3 : (Condition.matchLetters Condition.isNumber u).2 <:+ u := drop_suffix _ u
          exact h3.trans h1
      · by_cases hn : (Condition.matchLetters Condition.isNumber s).1 = []
        · rw [if_pos hn] at h; cases h
        · rw [if_neg hn] at h; cases h
          exact drop_suffix Condition.isNumber s

theorem nextOp_suffix {y : Condition.Yard} {s u : Bytes} {o : Condition.Op} (hu : Condition.nextOp y s = some (o, u)) : u <:+ s := by
  unfold Condition.nextOp at hu
  split at hu
  · cases hu
  · exact op_suffix _ _ _ _ hu

theorem round_suffix (y : Condition.Yard) (s : Bytes) : (∀ y' s', Condition.round y s = .inl (y', s') → s' <:+ s) ∧ (∀ y' s', Condition.round y s = .inr (.left y' s') → s' <:+ s) := by
  have h0 : Condition.skipSpaces s <:+ s := drop_suffix Condition.isSpace s
  constructor
  · intro y' s' h
    simp only [Condition.round] at h
    by_cases hn : Condition.skipSpaces s = []
    · rw [if_pos hn] at h; cases h
    · rw [if_neg hn] at h
      split at h
      · cases h
      · split at h
        · rename_i o u hu
          have hu' := nextOp_suffix hu
          split at h
          · cases h
          · split at h
            · cases h
            · cases h; exact hu'.trans h0
        · split at h
          · cases h
          · rename_i v u hu
            have h1 := value_suffix _ _ _ hu
            split at h
            · cases h
            · cases h; exact h1.trans h0
  · intro y' s' h
    simp only [Condition.round] at h
    by_cases hn : Condition.skipSpaces s = []
    · rw [if_pos hn] at h; cases h; exact h0
    · rw [if_neg hn] at h
      split at h
      · cases h
      · split at h
        · rename_i o u hu
          have hu' := nextOp_suffix hu
          split at h
          · cases h
          · split at h
            · cases h; exact hu'.trans h0
            · cases h
        · split at h
          · cases h; exact h0
          · split at h <;> cases h

theorem interpretLoop_suffix : ∀ k y s y' s', Condition.interpretLoop k y s = .left y' s' → s' <:+ s := by
  intro k
  induction k with
  | zero => intro y s y' s' h; cases h; exact List.suffix_refl _
  | succ k ih =>
    intro y s y' s' h
    simp only [Condition.interpretLoop] at h
    by_cases hn : s = []
    · rw [if_pos hn] at h; cases h; exact List.suffix_refl _
    · rw [if_neg hn] at h
      split at h
      · rename_i y1 s1 h1
        exact (ih _ _ _ _ h).trans ((round_suffix y s).1 _ _ h1)
      · rename_i e h1
        subst h
        exact (round_suffix y s).2 _ _ h1

theorem condition_suffix {s r : Bytes} {c : List Condition.Carrier} (h : Condition.interpret s = .ok (c, r)) : r <:+ s := by
  unfold Condition.interpret at h
  split at h
  · cases h
  · rename_i y r' hl
    have := interpretLoop_suffix _ _ _ _ _ hl
    split at h
    · cases h
    · simp only at h
      split at h
      · cases h; exact this
      · cases h
      · cases h

open ArrayDef.Spec (Numbers) in
mutual
theorem text_suffix (N : Numbers) (t : ArrayTree.Tree) (s r : Bytes) (h : ArrayDef.Spec.Text N t s r) : r <:+ s := by
  cases t with
  | nil =>
    obtain ⟨g, _, rfl⟩ := h
    exact (List.suffix_cons _ _).trans (List.suffix_append _ _)
  | field f rest =>
    obtain ⟨g, w, u, _, rfl, _, _, h⟩ := h
    exact (text_suffix N rest u r h).trans ((List.suffix_append _ _).trans (List.suffix_append _ _))
  | rewind n rest =>
    obtain ⟨g, sp, ds, u, _, rfl, _, _, _, _, h⟩ := h
    exact (text_suffix N rest u r h).trans ((List.suffix_append _ _).trans ((List.suffix_append _ _).trans ((List.suffix_append _ _).trans (List.suffix_append _ _))))
  | cond bs rest =>
    obtain ⟨g, u, v, _, rfl, h1, h⟩ := h
    exact (text_suffix N rest v r h).trans ((blocks_suffix N true bs u v h1).trans (List.suffix_append _ _))
theorem blocks_suffix (N : Numbers) (first : Bool) (bs : ArrayTree.Branches) (s r : Bytes) (h : ArrayDef.Spec.Blocks N first bs s r) : r <:+ s := by
  cases bs with
  | none => rw [h.2]; exact List.suffix_refl _
  | els t =>
    obtain ⟨_, sp, u, _, rfl, h⟩ := h
    exact (text_suffix N t u r h).trans ((List.suffix_append _ _).trans (List.suffix_append _ _))
  | arm c t more =>
    obtain ⟨sp, u, v, w, _, _, rfl, h1, h2, h3⟩ := h
    exact (blocks_suffix N false more w r h3).trans ((text_suffix N t v w h2).trans ((condition_suffix h1).trans ((List.suffix_append _ _).trans (List.suffix_append _ _))))
end

theorem interpret_suffix {b r : Bytes} {t : ArrayTree.Tree} (h : ArrayDef.interpret b = .ok (t, r)) : r <:+ b := by
  rcases (ArrayDef.accepted_definition_partial t b r h).2 with h1 | ⟨r0, h1, rfl⟩
  · exact text_suffix _ _ _ _ h1
  · exact (ig_suffix r0).trans (text_suffix _ _ _ _ h1)

/-! ## Discerning definitions -/

theorem matchWord_suffix {w b r : Bytes} (h : Parse.matchWord w b = some r) : r <:+ b := ⟨w, (Discern.matchWord_some h).symm⟩

theorem firstMatch_suffix {α : Type} {ws : List (Bytes × α)} {b r : Bytes} {a : α} (h : Discern.firstMatch ws b = some (a, r)) : r <:+ b := by
  obtain ⟨w, _, h⟩ := Discern.firstMatch_some h
  exact ⟨w, h.symm⟩

theorem comment_suffix (b : Bytes) : Parse.comment b <:+ b := by
  unfold Parse.comment
  split
  · simp
  · exact (ig_suffix _).trans (drop_suffix _ _)

theorem lexValue_suffix {t : Discern.EType} {b r : Bytes} {p : Discern.Push} (h : Discern.lexValue t b = .elem p r) : r <:+ b := by
  unfold Discern.lexValue at h
  rw [Discern.value_eq] at h
  unfold Discern.checkValue at h
  dsimp only at h
  split at h
  · cases h
  · split at h
    · cases h
    · split at h
      · cases h
      · split at h
        · cases h
        · cases h; exact (drop_suffix _ _).trans (ig_suffix b)

theorem lex_suffix {b r : Bytes} : (∀ p, Discern.lex b = .elem p r → r <:+ b) ∧ (Discern.lex b = .comment r → r <:+ b) := by
  constructor
  · intro p h
    unfold Discern.lex at h
    dsimp only at h
    split at h
    · cases h
    · split at h
      · cases h
      · split at h
        · rename_i hm
          split at h
          · cases h
          · cases h; exact (firstMatch_suffix hm).trans (ig_suffix b)
        · split at h
          · rename_i hm
            split at h
            · cases h
            · exact (lexValue_suffix h).trans ((firstMatch_suffix hm).trans (ig_suffix b))
          · split at h
            · rename_i hm
              cases h; exact (firstMatch_suffix hm).trans (ig_suffix b)
            · cases h
  · intro h
    unfold Discern.lex at h
    dsimp only at h
    split at h
    · cases h
    · split at h
      · rename_i r' hm
        cases h
        exact (comment_suffix r').trans ((matchWord_suffix hm).trans (ig_suffix b))
      · split at h
        · split at h <;> cases h
        · split at h
          · split at h
            · cases h
            · unfold Discern.lexValue Discern.checkValue at h
              repeat' (split at h)
              all_goals cases h
          · split at h <;> cases h

theorem parseLoop_suffix : ∀ (n : Nat) (prog : Discern.Prog) (stack : List Discern.Cell) (b : Bytes) (p : Discern.Prog) (r : Bytes), Discern.parseLoop n prog stack b = .ok p r → r <:+ b := by
  intro n
  induction n with
  | zero => intro prog stack b p r h; cases h
  | succ n ih =>
    intro prog stack b p r h
    have hnil : (if stack = [] then Discern.finish prog [] else Discern.Parsed.fault .stackCount) = .ok p r → r <:+ b := by
      intro h
      split at h
      · rw [finish_rest h]; exact List.nil_suffix
      · cases h
    unfold Discern.parseLoop at h
    split at h
    · exact hnil h
    · cases hx : Discern.lex b with
      | eof => rw [hx] at h; exact hnil h
      | fault f => rw [hx] at h; cases h
      | comment r1 =>
        rw [hx] at h
        exact (ih _ _ _ _ _ h).trans (lex_suffix.2 hx)
      | elem q r1 =>
        rw [hx] at h
        dsimp only at h
        have hl := lex_suffix.1 _ hx
        split at h
        · cases h
        · split at h
          · cases h
          · split at h
            · cases h
            · cases h
            · split at h
              · rw [finish_rest h]; exact hl
              · exact (ih _ _ _ _ _ h).trans hl

theorem parse_suffix {b r : Bytes} {p : Discern.Prog} (h : Discern.parse b = .ok p r) : r <:+ b := by
  unfold Discern.parse at h
  dsimp only at h
  have hl : Parse.ignoreControl b <:+ b := by
    unfold Parse.ignoreControl
    rw [Discern.ignore_eq _ (by decide)]
    exact drop_suffix _ _
  split at h
  · cases h
  · exact (parseLoop_suffix _ _ _ _ _ _ h).trans hl

theorem nameText_suffix {e : UInt8} {n s r : Bytes} (h : NameText e n s r) : r <:+ s := by
  obtain ⟨s1, s2, rfl, _⟩ := h
  exact ⟨s1 ++ (n ++ (s2 ++ [e])), by simp⟩

/-! ## Where the program aborts -/

theorem empty_suffix {s r : Bytes} (h : r <:+ s) : EmptyName r → EmptyName s := by
  rintro ⟨p, sp, d, t, rfl, h1, h2⟩
  obtain ⟨q, rfl⟩ := h
  exact ⟨q ++ p, sp, d, t, by simp, h1, h2⟩

theorem namePart_abort {b : Bytes} (h : namePart b = .abort) : EmptyName (91 :: b) := by
  unfold namePart at h
  simp only at h
  split at h
  · cases h
  · obtain ⟨sp, h1, h2⟩ := ig_split b
    obtain ⟨n, r, e1, e2, e3, e4⟩ := letters_split (Parse.ignoreSpaces b)
    rw [e1] at h
    simp only at h
    split at h
    · cases h
    · rename_i c t hc
      split at h
      · cases h
      · rename_i hc2
        split at h
        · rename_i hn
          subst hn
          rw [List.nil_append] at e2
          have : Parse.ignoreSpaces r = r := by rw [← e2]; exact ig_self (ig_head b)
          rw [this, ← e2] at hc
          rw [hc] at h1
          refine ⟨[], sp, c, t, by rw [h1]; rfl, h2, ?_⟩
          by_cases h91 : c = 91
          · exact Or.inl h91
          · by_cases h93 : c = 93
            · exact Or.inr h93
            · exact absurd ⟨h93, h91⟩ hc2
        · cases h

theorem namePart_next {b n t : Bytes} (h : namePart b = .ok (some (n, true, t))) : 91 :: t <:+ b := by
  obtain ⟨s1, s2, rfl, _⟩ := (namePart_some _ _ _ _).mp h
  exact ⟨s1 ++ (n ++ s2), by simp⟩

theorem blockName_abort {b : Bytes} (h : blockName b = .abort) : EmptyName (91 :: b) := by
  unfold blockName at h
  rw [abort_iff] at h
  rcases h with h | ⟨x, h1, h2⟩
  · exact namePart_abort h
  · match x, h1, h2 with
    | none, h1, h2 => cases h2
    | some (n, false, t), h1, h2 => cases h2
    | some (n, true, t), h1, h2 =>
      refine empty_suffix ((namePart_next h1).trans (List.suffix_cons _ _)) ?_
      simp only at h2
      rw [abort_iff] at h2
      rcases h2 with h2 | ⟨y, h3, h4⟩
      · exact namePart_abort h2
      · match y, h3, h4 with
        | none, h3, h4 => cases h4
        | some (m, false, u), h3, h4 =>
          simp only at h4
          split at h4
          · cases h4
          · split at h4 <;> cases h4
        | some (m, true, u), h3, h4 =>
          simp only at h4
          rw [abort_iff] at h4
          rcases h4 with h4 | ⟨z, _, h4⟩
          · exact empty_suffix ((namePart_next h3).trans (List.suffix_cons _ _)) (namePart_abort h4)
          · cases h4

theorem any_abort {c : Conf} {b : Bytes} (hl : b.length < 2 ^ 28) (h : any c b = .abort) : EmptyName b := by
  unfold any at h
  cases hd : Parse.ignoreSpaces b with
  | nil => rw [hd] at h; cases h
  | cons d t =>
    have hs := ig_suffix b
    rw [hd] at h hs
    have hsl := hs.length_le
    have hstack : ∀ (e : UInt8) (ps : List (Bytes × Discern.Prog)), (e = 62 ∨ e = 41) → stackDef e ps t ≠ .abort := by
      intro e ps he h
      unfold stackDef at h
      rw [abort_iff] at h
      rcases h with h | ⟨⟨o, u⟩, h1, h2⟩
      · exact extractName_safe _ _ h
      · cases o with
        | none => cases h2
        | some n =>
          simp only at h2
          split at h2
          · cases h2
          · rw [abort_iff] at h2
            rcases h2 with h2 | ⟨_, _, h2⟩
            · have hk := end_ok (e := e) (by rcases he with h | h <;> simp [h])
              have hul := (nameText_length ((extractName_some hk.1 hk.2 _ _ _).mp h1))
              simp at hsl
              have := Discern.parse_safe_partial u (by omega)
              unfold stackOut at h2
              split at h2
              · cases h2
              · cases h2
              · rename_i hp; exact this.1 hp
              · rename_i hp; exact this.2 hp
            · cases h2
    simp only at h
    split at h
    · cases h
    · split at h
      · cases h
      · split at h
        · exfalso
          unfold treeDef at h
          rw [abort_iff] at h
          rcases h with h | ⟨⟨o, u⟩, h1, h2⟩
          · exact extractName_safe _ _ h
          · cases o with
            | none => cases h2
            | some n =>
              simp only at h2
              rw [abort_iff] at h2
              rcases h2 with h2 | ⟨_, _, h2⟩
              · unfold treeOut at h2
                split at h2
                · cases h2
                · cases h2
                · rename_i hp; exact ArrayDef.definition_never_aborts _ hp
              · cases h2
        · split at h
          · rw [abort_iff] at h
            rcases h with h | ⟨_, _, h⟩
            · exact absurd h (hstack _ _ (by simp))
            · cases h
          · split at h
            · rw [abort_iff] at h
              rcases h with h | ⟨_, _, h⟩
              · exact absurd h (hstack _ _ (by simp))
              · cases h
            · split at h
              · rename_i h91
                subst h91
                refine empty_suffix hs ?_
                unfold block at h
                rw [abort_iff] at h
                rcases h with h | ⟨⟨o, u⟩, _, h⟩
                · exact blockName_abort h
                · cases o with
                  | none => cases h
                  | some x =>
                    simp only at h
                    split at h
                    · cases h
                    · split at h
                      · cases h
                      · rw [abort_iff] at h
                        rcases h with h | ⟨_, _, h⟩
                        · exact absurd h (settingsLoop_safe _ _ _)
                        · cases h
              · cases h

theorem settingsText_suffix : ∀ {ss : List (Bytes × Bytes)} {s r : Bytes}, SettingsText ss s r → r <:+ s
  | [], _, _, h => skips_suffix h.1
  | _ :: _, _, _, h => by
    obtain ⟨u, w, h1, h2, h3⟩ := h
    exact (settingsText_suffix h3).trans ((settingText_suffix h2).1.trans (skips_suffix h1))

theorem blockText_suffix {n : Bytes} {m : Option Bytes} {s r : Bytes} (h : BlockText n m s r) : r <:+ s := by
  cases m with
  | none => exact nameText_suffix h
  | some m =>
    obtain ⟨t, u, h1, h2, s1, rfl, _⟩ := h
    exact ((List.suffix_cons _ _).trans (List.suffix_append s1 _)).trans ((nameText_suffix h2).trans (nameText_suffix h1))

theorem stackDef_suffix {e : UInt8} (he : e = 62 ∨ e = 41) {ps ps' : List (Bytes × Discern.Prog)} {b r : Bytes} (h : stackDef e ps b = .ok (ps', r)) : r <:+ b := by
  rcases stackDef_sound he h with ⟨_, rfl, _⟩ | ⟨n, u, p, h1, h2, _⟩
  · exact ig_suffix b
  · exact (parse_suffix h2).trans (nameText_suffix h1)

theorem any_suffix {c c' : Conf} {b r : Bytes} (h : any c b = .ok (c', r)) : r <:+ b := by
  refine List.IsSuffix.trans ?_ (ig_suffix b)
  unfold any at h
  cases hd : Parse.ignoreSpaces b with
  | nil => rw [hd] at h; cases h; exact List.suffix_refl _
  | cons d t =>
    rw [hd] at h
    simp only at h
    refine List.IsSuffix.trans ?_ (List.suffix_cons d t)
    split at h
    · cases h
    · split at h
      · cases h; exact comment_suffix t
      · split at h
        · unfold treeDef at h
          obtain ⟨⟨o, u⟩, h1, h2⟩ := bind_ok.mp h
          cases o with
          | none =>
            simp only [Out.ok.injEq, Prod.mk.injEq] at h2
            obtain ⟨rfl, rfl⟩ := h2
            rw [((extractName_none _ _).mp h1).1]
            exact ig_suffix t
          | some n =>
            obtain ⟨⟨tr, r'⟩, h3, h4⟩ := bind_ok.mp h2
            simp only [Out.ok.injEq, Prod.mk.injEq] at h4
            obtain ⟨rfl, rfl⟩ := h4
            have hk := end_ok (e := 125) (by simp)
            exact (interpret_suffix (treeOut_ok.mp h3)).trans (nameText_suffix ((extractName_some hk.1 hk.2 _ _ _).mp h1))
        · split at h
          · obtain ⟨⟨ps, r'⟩, h1, h2⟩ := bind_ok.mp h
            simp only [Out.ok.injEq, Prod.mk.injEq] at h2
            obtain ⟨rfl, rfl⟩ := h2
            exact stackDef_suffix (by simp) h1
          · split at h
            · obtain ⟨⟨ps, r'⟩, h1, h2⟩ := bind_ok.mp h
              simp only [Out.ok.injEq, Prod.mk.injEq] at h2
              obtain ⟨rfl, rfl⟩ := h2
              exact stackDef_suffix (by simp) h1
            · split at h
              · unfold block at h
                obtain ⟨⟨o, u⟩, h1, h2⟩ := bind_ok.mp h
                cases o with
                | none =>
                  simp only [Out.ok.injEq, Prod.mk.injEq] at h2
                  obtain ⟨rfl, rfl⟩ := h2
                  rw [((blockName_none _ _).mp h1).2]
                  exact List.nil_suffix
                | some x =>
                  obtain ⟨n, m⟩ := x
                  simp only at h2
                  split at h2
                  · cases h2
                  · split at h2
                    · cases h2
                    · obtain ⟨⟨ss, r'⟩, h3, h4⟩ := bind_ok.mp h2
                      simp only [Out.ok.injEq, Prod.mk.injEq] at h4
                      obtain ⟨rfl, rfl⟩ := h4
                      obtain ⟨_, _, _, _, e4⟩ := settingsLoop_sound _ _ _ _ _ settingsOk_nil h3
                      exact e4.trans (blockText_suffix ((blockName_some _ _ _ _).mp h1))
              · cases h

theorem loop_abort : ∀ (k : Nat) (c : Conf) (b : Bytes), b.length < 2 ^ 28 → loop k c b = .abort → EmptyName b := by
  intro k
  induction k with
  | zero => intro c b _ h; cases h
  | succ k ih =>
    intro c b hl h
    rw [loop] at h
    split at h
    · cases h
    · rw [abort_iff] at h
      rcases h with h | ⟨x, h1, h2⟩
      · exact any_abort hl h
      · have hs := any_suffix (c' := x.1) (r := x.2) h1
        have := hs.length_le
        exact empty_suffix hs (ih _ _ (by omega) h2)

end Verif.Config
