import Verif.Cmdline.Lemmas
/-!
# Command lines

`parse_iff`: exactly the command lines which are written from items which the rules allow are accepted, and they mean what the items mean. The items which do not
mean what a user would expect are `flag_value_ignored` and `name_taken_as_value`. `parse_mean_partial` is for the other items.
-/
namespace Verif.Cmdline
open Verif

/-! ## Values -/

theorem given_iff (r : Rule) (v : Bytes) : (decide (v = []) && !r.allowEmpty) = false ↔ Given r v := by
  unfold Given
  cases v with
  | nil => cases r.allowEmpty <;> simp
  | cons c t => simp

theorem value_equal {r : Rule} {v a : Bytes} {rest : List Bytes} (hr : (r.hasArg || r.noFlag || r.multi) = true) (hg : Given r v) :
    takeValue r (some v) a rest = some (some v, rest) := by
  simp only [takeValue, hr, if_true, (given_iff r v).2 hg, Bool.false_eq_true, if_false]

theorem value_next {r : Rule} {v a : Bytes} {rest : List Bytes} (ha : r.hasArg = true) (hn : r.noFlag = false) (hm : r.multi = false)
    (hg : Given r v) : takeValue r none a (v :: rest) = some (some v, rest) := by
  simp only [takeValue, ha, hn, hm, Bool.true_or, if_true, Bool.or_false, Bool.not_false, (given_iff r v).2 hg, Bool.false_eq_true, if_false]

theorem value_own {r : Rule} {a : Bytes} {rest : List Bytes} (hr : (r.noFlag || r.multi) = true) (hg : Given r a) :
    takeValue r none a rest = some (some a, rest) := by
  have : (r.hasArg || r.noFlag || r.multi) = true := by rw [Bool.or_assoc, hr, Bool.or_true]
  simp only [takeValue, this, if_true, hr, Bool.not_true, Bool.false_eq_true, if_false, (given_iff r a).2 hg]

theorem value_flag {r : Rule} {a : Bytes} {rest : List Bytes} (ha : r.hasArg = false) (hn : r.noFlag = false) (hm : r.multi = false) :
    takeValue r none a rest = some (none, rest) := by
  simp [takeValue, ha, hn, hm]

/-- All the ways a value can be found -/
theorem value_cases {r : Rule} {e : Option Bytes} {a : Bytes} {rest rest' : List Bytes} {v : Option Bytes}
    (h : takeValue r e a rest = some (v, rest')) :
    (∃ w, e = some w ∧ v = some w ∧ rest' = rest ∧ (r.hasArg || r.noFlag || r.multi) = true ∧ Given r w)
    ∨ (e = none ∧ ∃ w, rest = w :: rest' ∧ v = some w ∧ r.hasArg = true ∧ r.noFlag = false ∧ r.multi = false ∧ Given r w)
    ∨ (e = none ∧ v = some a ∧ rest' = rest ∧ (r.noFlag || r.multi) = true ∧ Given r a)
    ∨ (e = none ∧ v = none ∧ rest' = rest ∧ r.hasArg = false ∧ r.noFlag = false ∧ r.multi = false) := by
  unfold takeValue at h
  cases hr : (r.hasArg || r.noFlag || r.multi) with
  | false =>
    simp only [Bool.or_eq_false_iff] at hr
    cases e with
    | some w => simp [hr] at h
    | none =>
      simp only [hr, Bool.or_self, Bool.false_eq_true, if_false, Option.isSome_none, Option.some.injEq, Prod.mk.injEq] at h
      exact .inr (.inr (.inr ⟨rfl, h.1.symm, h.2.symm, hr.1.1, hr.1.2, hr.2⟩))
  | true =>
    simp only [hr, if_true] at h
    cases e with
    | some w =>
      simp only at h
      cases hg : (decide (w = []) && !r.allowEmpty) with
      | true => simp [hg] at h
      | false =>
        simp only [hg, Bool.false_eq_true, if_false, Option.some.injEq, Prod.mk.injEq] at h
        exact .inl ⟨w, rfl, h.1.symm, h.2.symm, rfl, (given_iff r w).1 hg⟩
    | none =>
      simp only at h
      cases hm : (r.noFlag || r.multi) with
      | true =>
        simp only [hm, Bool.not_true, Bool.false_eq_true, if_false] at h
        cases hg : (decide (a = []) && !r.allowEmpty) with
        | true => simp [hg] at h
        | false =>
          simp only [hg, Bool.false_eq_true, if_false, Option.some.injEq, Prod.mk.injEq] at h
          exact .inr (.inr (.inl ⟨rfl, h.1.symm, h.2.symm, rfl, (given_iff r a).1 hg⟩))
      | false =>
        have ha : r.hasArg = true := by simpa [Bool.or_assoc, hm] using hr
        simp only [Bool.or_eq_false_iff] at hm
        simp only [hm, Bool.or_self, Bool.not_false, if_true] at h
        cases rest with
        | nil => simp at h
        | cons w t =>
          simp only at h
          cases hg : (decide (w = []) && !r.allowEmpty) with
          | true => simp [hg] at h
          | false =>
            simp only [hg, Bool.false_eq_true, if_false, Option.some.injEq, Prod.mk.injEq] at h
            exact .inr (.inl ⟨rfl, w, by rw [h.2], h.1.symm, ha, hm.1, hm.2, (given_iff r w).1 hg⟩)

/-! ## One item -/

theorem letters_word {rules rs : List Rule} (h : LettersOk rules rs) : (61 : UInt8) ∉ rs.map (·.short) := by
  intro hc
  obtain ⟨r, hr, he⟩ := List.mem_map.1 hc
  exact (h.2.1 r hr).2 he

theorem letters_ne {rules rs : List Rule} (h : LettersOk rules rs) : rs.map (·.short) ≠ [] := by
  intro hc
  exact h.1 (by simpa using hc)

theorem findRule_long {rules : List Rule} {n : Nat} {r : Rule} (h : Named rules r) :
    findRule rules n 2 r.long = some ([], some r, n) := by
  unfold findRule
  simp only [if_true, ruleLong_some.2 ⟨h, rfl⟩]

theorem findRule_flags {rules rs : List Rule} {n : Nat} (h : LettersOk rules rs) (ha : ∀ r ∈ rs, r.hasArg = false) :
    findRule rules n 1 (rs.map (·.short)) = some (rs.map (⟨·, []⟩), none, n) := by
  unfold findRule
  simp only [show ¬ (1 : Nat) = 2 by decide, if_false, if_true, shorts_flags (fun r hr => (h.2.1 r hr).1) ha]

theorem findRule_letter {rules : List Rule} {r : Rule} {n : Nat} (h : LettersOk rules [r]) (ha : r.hasArg = true) :
    findRule rules n 1 [r.short] = some ([], some r, n) := by
  unfold findRule
  simp only [show ¬ (1 : Nat) = 2 by decide, if_false, if_true, List.length_singleton,
    shorts_arg (h.2.1 r (List.mem_singleton_self r)).1 ha]

theorem go_item {rules : List Rule} {n : Nat} {i : Item} (h : i.Ok rules n) (rest : List Bytes) :
    go rules n false (i.write ++ rest) = (go rules (n + i.plains) false rest).map (i.mean rules n ++ ·) := by
  cases i with
  | flag r =>
    obtain ⟨⟨hn, hne, heq⟩, ha, hm⟩ := h
    have hf : r.noFlag = false := by obtain ⟨_, _, _, h, _⟩ := hn; exact h
    show go rules n false ((45 :: 45 :: r.long) :: rest) = _
    rw [go_cons, step, kind_long _ heq, if_neg hne]
    simp only [findRule_long hn, value_flag ha hf hm]
    rfl
  | group rs =>
    obtain ⟨hl, ha⟩ := h
    show go rules n false ((45 :: rs.map (·.short)) :: rest) = _
    rw [go_cons, step, kind_short _ (letters_word hl) hl.2.2, if_neg (letters_ne hl)]
    simp only [findRule_flags hl ha]
    rfl
  | longEqual r v =>
    obtain ⟨⟨hn, hne, heq⟩, ha, hg⟩ := h
    show go rules n false ((45 :: 45 :: (r.long ++ 61 :: v)) :: rest) = _
    have hr : (r.hasArg || r.noFlag || r.multi) = true := by rcases ha with h | h <;> simp [h]
    rw [go_cons, step, kind_longEqual _ _ heq, if_neg hne]
    simp only [findRule_long hn, value_equal hr hg, pairOf_some]
    rfl
  | longNext r v =>
    obtain ⟨⟨hn, hne, heq⟩, ha, hm, hg⟩ := h
    have hf : r.noFlag = false := by obtain ⟨_, _, _, h, _⟩ := hn; exact h
    show go rules n false ((45 :: 45 :: r.long) :: v :: rest) = _
    rw [go_cons, step, kind_long _ heq, if_neg hne]
    simp only [findRule_long hn, value_next ha hf hm hg, pairOf_some]
    rfl
  | shortEqual r v =>
    obtain ⟨hl, ha, hg⟩ := h
    show go rules n false ((45 :: ([r.short] ++ 61 :: v)) :: rest) = _
    have h61 : (61 : UInt8) ∉ [r.short] := letters_word hl
    rw [go_cons, step, kind_shortEqual _ _ h61 hl.2.2, if_neg (by simp)]
    simp only [findRule_letter hl ha, value_equal (by simp [ha]) hg, pairOf_some]
    rfl
  | shortNext r v =>
    obtain ⟨hl, ha, hm, hg⟩ := h
    have hf : r.noFlag = false := by obtain ⟨_, _, _, h, _⟩ := (hl.2.1 r (List.mem_singleton_self r)).1; exact h
    show go rules n false ((45 :: [r.short]) :: v :: rest) = _
    have h61 : (61 : UInt8) ∉ [r.short] := letters_word hl
    rw [go_cons, step, kind_short _ h61 hl.2.2, if_neg (by simp)]
    simp only [findRule_letter hl ha, value_next ha hf hm hg, pairOf_some]
    rfl
  | plain v =>
    obtain ⟨hne, h45, hp⟩ := h
    obtain ⟨r, hr⟩ := Option.isSome_iff_exists.1 hp
    show go rules n false (v :: rest) = _
    rw [go_cons, step, kind_plain _ h45, if_neg hne]
    simp only [findRule_plain, hr, Option.map_some, value_own (positional_flag hr) (.inl hne), pairOf_some, Item.mean, Item.plains]
    rfl
  | oddGroup rs v =>
    obtain ⟨hl, ha⟩ := h
    show go rules n false ((45 :: (rs.map (·.short) ++ 61 :: v)) :: rest) = _
    rw [go_cons, step, kind_shortEqual _ _ (letters_word hl) hl.2.2, if_neg (letters_ne hl)]
    simp only [findRule_flags hl ha]
    rfl
  | oddName r =>
    obtain ⟨⟨hn, hne, heq⟩, hm⟩ := h
    show go rules n false ((45 :: 45 :: r.long) :: rest) = _
    rw [go_cons, step, kind_long _ heq, if_neg hne]
    simp only [findRule_long hn, value_own (r := r) (a := 45 :: 45 :: r.long) (by simp [hm]) (.inl (by simp)), pairOf_some]
    rfl
  | oddLetter r =>
    obtain ⟨hl, ha, hm⟩ := h
    show go rules n false ((45 :: [r.short]) :: rest) = _
    have h61 : (61 : UInt8) ∉ [r.short] := letters_word hl
    rw [go_cons, step, kind_short _ h61 hl.2.2, if_neg (by simp)]
    simp only [findRule_letter hl ha, value_own (r := r) (a := 45 :: [r.short]) (by simp [hm]) (.inl (by simp)), pairOf_some]
    rfl

theorem go_rest {rules : List Rule} {n : Nat} {vs : List Bytes} (h : restOk rules n vs) :
    go rules n true vs = some (restMean rules n vs) := by
  induction vs generalizing n with
  | nil => exact go_nil ..
  | cons v t ih =>
    obtain ⟨⟨r, hr, hg⟩, ht⟩ := h
    rw [go_cons, step, kind_ended]
    simp only [findRule_plain, hr, Option.map_some, value_own (positional_flag hr) hg, pairOf_some, ih ht, restMean]
    rfl

theorem go_items {rules : List Rule} {n : Nat} {l : List Item} (h : ItemsOk rules n l) (rest : List Bytes) :
    go rules n false (writeItems l ++ rest) = (go rules (n + plainsOf l) false rest).map (meanItems rules n l ++ ·) := by
  induction l generalizing n with
  | nil =>
    show go rules n false rest = Option.map (fun x => x) (go rules n false rest)
    rw [Option.map_id']
  | cons i t ih =>
    have hw : writeItems (i :: t) ++ rest = i.write ++ (writeItems t ++ rest) := by simp [writeItems]
    rw [hw, go_item h.1, ih h.2]
    have hp : n + i.plains + plainsOf t = n + plainsOf (i :: t) := by simp [plainsOf, Nat.add_assoc]
    rw [hp, Option.map_map]
    congr 1
    funext x
    simp [meanItems]

theorem go_line {rules : List Rule} {l : Line} (h : l.Ok rules) : go rules 0 false l.write = some (l.mean rules) := by
  unfold Line.write Line.mean
  rw [go_items h.1]
  cases hr : l.rest with
  | none => simp [go_nil]
  | some vs =>
    simp only
    rw [go_cons, step, show kind false [45, 45] = .stop by decide]
    simp only [Nat.zero_add, go_rest (h.2 vs hr), Option.map_some]

/-! ## The other direction -/

theorem rest_of_go {rules : List Rule} {n : Nat} {vs : List Bytes} {ps : List Pair} (h : go rules n true vs = some ps) :
    restOk rules n vs := by
  induction vs generalizing n ps with
  | nil => trivial
  | cons v t ih =>
    rw [go_cons, step, kind_ended] at h
    simp only [findRule_plain] at h
    cases hr : positional rules n with
    | none => simp [hr] at h
    | some r =>
      simp only [hr, Option.map_some] at h
      cases hv : takeValue r none v t with
      | none => simp [hv] at h
      | some x =>
        obtain ⟨w, rest'⟩ := x
        simp only [hv] at h
        have hf := positional_flag hr
        rcases value_cases hv with ⟨w, he, _⟩ | ⟨_, w, _, _, _, h1, h2, _⟩ | ⟨_, _, hrest, _, hg⟩ | ⟨_, _, _, _, h1, h2⟩
        · simp at he
        · simp [h1, h2] at hf
        · subst hrest
          cases hq : go rules (n + 1) true rest' with
          | none => simp [hq] at h
          | some l => exact ⟨⟨r, hr, hg⟩, ih hq⟩
        · simp [h1, h2] at hf

/-- An argument which is accepted is an item, possibly with the argument which follows. -/
theorem item_of_go {rules : List Rule} {n : Nat} {a : Bytes} {rest : List Bytes} {ps : List Pair}
    (h : go rules n false (a :: rest) = some ps) :
    (a = [45, 45] ∧ restOk rules n rest) ∨ ∃ (i : Item) (rest' : List Bytes), i.Ok rules n ∧ a :: rest = i.write ++ rest' := by
  rw [go_cons, step] at h
  have long : ∀ k, ∀ r, k ≠ [] → (61 : UInt8) ∉ k → ruleLong rules k = some r → NameOk rules r ∧ r.long = k ∧ r.noFlag = false := by
    intro k r hne h61 hr
    obtain ⟨h1, h2⟩ := ruleLong_some.1 hr
    have hf : r.noFlag = false := by obtain ⟨_, _, _, h, _⟩ := h1; exact h
    exact ⟨⟨h1, by rwa [h2], by rwa [h2]⟩, h2, hf⟩
  have letters : ∀ rs : List Rule, rs.map (·.short) ≠ [] → (61 : UInt8) ∉ rs.map (·.short) → (rs.map (·.short)).head? ≠ some 45 →
      (∀ r ∈ rs, Lettered rules r) → LettersOk rules rs := by
    intro rs hne h61 h45 hl
    refine ⟨fun hc => hne (by simp [hc]), fun r hr => ⟨hl r hr, fun hc => h61 (List.mem_map.2 ⟨r, hr, hc⟩)⟩, h45⟩
  rcases kind_cases a with hk | ⟨hk, ha⟩ | ⟨k, ha, hne, h61, hk⟩ | ⟨k, v, ha, hne, h61, hk⟩ | ⟨k, ha, hne, h61, h45, hk⟩
      | ⟨k, v, ha, hne, h61, h45, hk⟩ | ⟨hne, h45, hk⟩
  · simp [hk] at h
  · simp only [hk] at h
    exact .inl ⟨ha, rest_of_go h⟩
  · right
    simp only [hk, findRule, if_true] at h
    cases hr : ruleLong rules k with
    | none => simp [hr] at h
    | some r =>
      obtain ⟨hn, hlong, hf⟩ := long k r hne h61 hr
      subst hlong
      simp only [hr] at h
      cases hv : takeValue r none a rest with
      | none => simp [hv] at h
      | some x =>
        obtain ⟨w, rest'⟩ := x
        rcases value_cases hv with ⟨w, he, _⟩ | ⟨_, w, h1, _, h2, _, h3, hg⟩ | ⟨_, _, _, h1, _⟩ | ⟨_, _, _, h1, _, h2⟩
        · simp at he
        · exact ⟨.longNext r w, rest', ⟨hn, h2, h3, hg⟩, by rw [h1, ha]; rfl⟩
        · rw [hf, Bool.false_or] at h1
          exact ⟨.oddName r, rest, ⟨hn, h1⟩, by rw [ha]; rfl⟩
        · exact ⟨.flag r, rest, ⟨hn, h1, h2⟩, by rw [ha]; rfl⟩
  · right
    simp only [hk, findRule, if_true] at h
    cases hr : ruleLong rules k with
    | none => simp [hr] at h
    | some r =>
      obtain ⟨hn, hlong, hf⟩ := long k r hne h61 hr
      subst hlong
      simp only [hr] at h
      cases hv : takeValue r (some v) a rest with
      | none => simp [hv] at h
      | some x =>
        obtain ⟨w, rest'⟩ := x
        rcases value_cases hv with ⟨w, he, _, _, h1, hg⟩ | ⟨he, _⟩ | ⟨he, _⟩ | ⟨he, _⟩
        · obtain rfl := Option.some.inj he
          rw [hf, Bool.or_false, Bool.or_eq_true] at h1
          exact ⟨.longEqual r v, rest, ⟨hn, h1, hg⟩, by rw [ha]; rfl⟩
        · simp at he
        · simp at he
        · simp at he
  · right
    simp only [hk, findRule, show ¬ (1 : Nat) = 2 by decide, if_false, if_true] at h
    cases hs : shorts rules k.length k none with
    | none => simp [hs] at h
    | some x =>
      obtain ⟨qs, last⟩ := x
      rcases shorts_cases hs with ⟨rs, h1, h2, h3, h4, h5⟩ | ⟨r, h1, h2, h3, h4, h5⟩
      · subst h1
        exact ⟨.group rs, rest, ⟨letters rs hne h61 h45 h2, h3⟩, by rw [ha]; rfl⟩
      · subst h1 h4 h5
        have hl := letters [r] hne h61 h45 (by simpa using h2)
        have hf : r.noFlag = false := by obtain ⟨_, _, _, h, _⟩ := h2; exact h
        simp only [hs] at h
        cases hv : takeValue r none a rest with
        | none => simp [hv] at h
        | some x =>
          obtain ⟨w, rest'⟩ := x
          rcases value_cases hv with ⟨w, he, _⟩ | ⟨_, w, h1, _, _, _, h3', hg⟩ | ⟨_, _, _, h1, _⟩ | ⟨_, _, _, h1, _, _⟩
          · simp at he
          · exact ⟨.shortNext r w, rest', ⟨hl, h3, h3', hg⟩, by rw [h1, ha]; rfl⟩
          · rw [hf, Bool.false_or] at h1
            exact ⟨.oddLetter r, rest, ⟨hl, h3, h1⟩, by rw [ha]; rfl⟩
          · rw [h3] at h1
            simp at h1
  · right
    simp only [hk, findRule, show ¬ (1 : Nat) = 2 by decide, if_false, if_true] at h
    cases hs : shorts rules k.length k none with
    | none => simp [hs] at h
    | some x =>
      obtain ⟨qs, last⟩ := x
      rcases shorts_cases hs with ⟨rs, h1, h2, h3, h4, h5⟩ | ⟨r, h1, h2, h3, h4, h5⟩
      · subst h1
        exact ⟨.oddGroup rs v, rest, ⟨letters rs hne h61 h45 h2, h3⟩, by rw [ha]; rfl⟩
      · subst h1 h4 h5
        have hl := letters [r] hne h61 h45 (by simpa using h2)
        simp only [hs] at h
        cases hv : takeValue r (some v) a rest with
        | none => simp [hv] at h
        | some x =>
          obtain ⟨w, rest'⟩ := x
          rcases value_cases hv with ⟨w, he, _, _, h1, hg⟩ | ⟨he, _⟩ | ⟨he, _⟩ | ⟨he, _⟩
          · obtain rfl := Option.some.inj he
            exact ⟨.shortEqual r v, rest, ⟨hl, h3, hg⟩, by rw [ha]; rfl⟩
          · simp at he
          · simp at he
          · simp at he
  · right
    simp only [hk, findRule_plain] at h
    cases hr : positional rules n with
    | none => simp [hr] at h
    | some r => exact ⟨.plain a, rest, ⟨hne, h45, by simp [hr]⟩, rfl⟩

theorem write_length (i : Item) : 0 < i.write.length := by cases i <;> simp [Item.write]

theorem line_of_go {rules : List Rule} (m : Nat) {n : Nat} {args : List Bytes} {ps : List Pair} (hm : args.length ≤ m)
    (h : go rules n false args = some ps) :
    ∃ l : Line, ItemsOk rules n l.items ∧ (∀ vs, l.rest = some vs → restOk rules (n + plainsOf l.items) vs) ∧ args = l.write := by
  induction m generalizing n args ps with
  | zero =>
    have : args = [] := List.eq_nil_of_length_eq_zero (by omega)
    subst this
    exact ⟨⟨[], none⟩, trivial, by simp, rfl⟩
  | succ m ih =>
    cases args with
    | nil => exact ⟨⟨[], none⟩, trivial, by simp, rfl⟩
    | cons a rest =>
      rcases item_of_go h with ⟨ha, hr⟩ | ⟨i, rest', hi, he⟩
      · subst ha
        refine ⟨⟨[], some rest⟩, trivial, ?_, rfl⟩
        intro vs hvs
        obtain rfl := Option.some.inj hvs
        simpa [plainsOf] using hr
      · rw [he, go_item hi] at h
        cases hq : go rules (n + i.plains) false rest' with
        | none => simp [hq] at h
        | some qs =>
          have hlen : (a :: rest).length = i.write.length + rest'.length := by rw [he, List.length_append]
          have := write_length i
          simp only [List.length_cons] at hlen hm
          obtain ⟨l, h1, h2, h3⟩ := ih (by omega) hq
          refine ⟨⟨i :: l.items, l.rest⟩, ⟨hi, h1⟩, ?_, ?_⟩
          · intro vs hvs
            have := h2 vs hvs
            simpa [plainsOf, Nat.add_assoc] using this
          · rw [he, h3]
            simp [Line.write, writeItems]

/-! ## The properties -/

/-- C123. A command line is accepted exactly when it is written from items which the rules allow, and then it means what the items mean. -/
theorem parse_iff (rules : List Rule) (argv : List Bytes) (ps : List Pair) :
    parse rules false argv = some ([], ps) ↔ ∃ l : Line, l.Ok rules ∧ l.write = argv ∧ ps = l.mean rules := by
  have hgo : parse rules false argv = (go rules 0 false argv).map ([], ·) := by
    cases argv with
    | nil => simp [parse, go_nil]
    | cons a t => simp [parse, go]
  rw [hgo]
  constructor
  · intro h
    cases hq : go rules 0 false argv with
    | none => simp [hq] at h
    | some qs =>
      simp only [hq, Option.map_some, Option.some.injEq, Prod.mk.injEq, true_and] at h
      subst h
      obtain ⟨l, h1, h2, h3⟩ := line_of_go argv.length (Nat.le_refl _) hq
      have hok : l.Ok rules := ⟨h1, fun vs hvs => by simpa using h2 vs hvs⟩
      refine ⟨l, hok, h3.symm, ?_⟩
      have := go_line hok
      rw [← h3, hq] at this
      exact Option.some.inj this
  · rintro ⟨l, hok, rfl, rfl⟩
    rw [go_line hok]
    rfl

/-- C123. With a command, the first argument is the command, whatever it is, and the rest is parsed as without one. -/
theorem parse_command (rules : List Rule) (a : Bytes) (argv : List Bytes) :
    parse rules true (a :: argv) = (parse rules false argv).map fun x => (a, x.2) := by
  cases argv with
  | nil => simp [parse, loop]
  | cons b t =>
    simp only [parse, if_true, Bool.false_eq_true, if_false, List.length_cons, Option.map_map]
    rfl

/-- C123, partial. Command lines of items which mean what is expected mean this. What is missing: other command lines are accepted as well, see
`flag_value_ignored` and `name_taken_as_value`. -/
theorem parse_mean_partial (rules : List Rule) (l : Line) (h : l.Ok rules) (_ : l.Plain) :
    parse rules false l.write = some ([], l.mean rules) := (parse_iff rules _ _).2 ⟨l, h, rfl, rfl⟩

/-- C123. If two lists of items are written in the same way, they mean the same. -/
theorem write_unambiguous (rules : List Rule) (l m : Line) (hl : l.Ok rules) (hm : m.Ok rules) (h : l.write = m.write) :
    l.mean rules = m.mean rules := by
  have h1 := (parse_iff rules l.write (l.mean rules)).2 ⟨l, hl, rfl, rfl⟩
  have h2 := (parse_iff rules l.write (m.mean rules)).2 ⟨m, hm, h.symm, rfl⟩
  have := h1.symm.trans h2
  simpa using this

/-! ## Where a command line means something else -/

/-- A rule like that of `-l|--loglevel-translation` -/
def exFlag : Rule := { short := 108, long := [108, 111] }
/-- A rule like that of `config` in `rrr.c:119`, for any number of arguments without a flag -/
def exMulti : Rule := { multi := true, short := 0, long := [99, 111] }
/-- A rule like that of `-p|--permissions` in `rrr_passwd.c:52-54` -/
def exSplit : Rule := { hasArg := true, split := true, allowEmpty := true, short := 112, long := [112, 101] }
/-- A rule like that of `-d|--debuglevel` -/
def exArg : Rule := { hasArg := true, short := 100, long := [100, 101] }

def exRules : List Rule := [exMulti, exFlag, exSplit, exArg]

/-- The rules are used: `-l --de 7 --pe=a,b x -- -l` -/
example : parse exRules false [[45, 108], [45, 45, 100, 101], [55], [45, 45, 112, 101, 61, 97, 44, 98], [120], [45, 45], [45, 108]]
    = some ([], [⟨exFlag, []⟩, ⟨exArg, [[55]]⟩, ⟨exSplit, [[97], [98]]⟩, ⟨exMulti, [[120]]⟩, ⟨exMulti, [[45, 108]]⟩]) := by decide

/-- `--lo=0` is refused, `--de` without a value is refused, and so is a name which does not exist and a dash alone. -/
example : parse exRules false [[45, 45, 108, 111, 61, 48]] = none ∧ parse exRules false [[45, 45, 100, 101]] = none
    ∧ parse exRules false [[45, 45, 122]] = none ∧ parse exRules false [[45]] = none := by decide

theorem ex_lettered : LettersOk exRules [exFlag] := by
  refine ⟨by simp, ?_, by decide⟩
  intro r hr
  rw [List.mem_singleton] at hr
  subst hr
  exact ⟨⟨[exMulti], [exSplit, exArg], rfl, rfl, by decide⟩, by decide⟩

/-- The hypotheses of `parse_mean_partial` can be met. -/
example : (⟨[.group [exFlag], .plain [120]], some [[45]]⟩ : Line).Ok exRules ∧ (⟨[.group [exFlag], .plain [120]], some [[45]]⟩ : Line).Plain := by
  refine ⟨⟨⟨⟨ex_lettered, by decide⟩, ⟨by simp, by decide, by decide⟩, trivial⟩, ?_⟩, ?_⟩
  · intro vs h
    obtain rfl := Option.some.inj h
    exact ⟨⟨exMulti, by decide, .inl (by simp)⟩, trivial⟩
  · intro i hi
    simp at hi
    rcases hi with rfl | rfl <;> exact id

/-- **A value given to a flag is ignored.** A letter which takes no value is accepted with any value, which is lost: `-l=0` means `-l`. With the
long name it is refused. -/
theorem flag_value_ignored (rules : List Rule) (rs : List Rule) (h : LettersOk rules rs) (ha : ∀ r ∈ rs, r.hasArg = false) (v : Bytes) :
    parse rules false [45 :: rs.map (·.short) ++ 61 :: v] = parse rules false [45 :: rs.map (·.short)] := by
  have h1 := (parse_iff rules (Line.write ⟨[.oddGroup rs v], none⟩) _).2 ⟨⟨[.oddGroup rs v], none⟩, ⟨⟨⟨h, ha⟩, trivial⟩, by simp⟩, rfl, rfl⟩
  have h2 := (parse_iff rules (Line.write ⟨[.group rs], none⟩) _).2 ⟨⟨[.group rs], none⟩, ⟨⟨⟨h, ha⟩, trivial⟩, by simp⟩, rfl, rfl⟩
  have e1 : Line.write ⟨[.oddGroup rs v], none⟩ = [45 :: rs.map (·.short) ++ 61 :: v] := by simp [Line.write, writeItems, Item.write]
  have e2 : Line.write ⟨[.group rs], none⟩ = [45 :: rs.map (·.short)] := by simp [Line.write, writeItems, Item.write]
  rw [e1] at h1
  rw [e2] at h2
  rw [h1, h2]
  rfl

example : parse exRules false [[45, 108, 61, 48]] = some ([], [⟨exFlag, []⟩]) ∧ parse exRules false [[45, 45, 108, 111, 61, 48]] = none := by
  decide

/-- **The name of an option is taken as its value.** The name of a rule for arguments without a flag, like `--config`, is accepted, and it is the text
`--config` itself which becomes the value, not the argument which follows. -/
theorem name_taken_as_value (rules : List Rule) (r : Rule) (h : NameOk rules r) (hm : r.multi = true) (hs : r.split = false) :
    parse rules false [45 :: 45 :: r.long] = some ([], [⟨r, [45 :: 45 :: r.long]⟩]) := by
  have h1 := (parse_iff rules (Line.write ⟨[.oddName r], none⟩) _).2 ⟨⟨[.oddName r], none⟩, ⟨⟨⟨h, hm⟩, trivial⟩, by simp⟩, rfl, rfl⟩
  have e1 : Line.write ⟨[.oddName r], none⟩ = [45 :: 45 :: r.long] := by simp [Line.write, writeItems, Item.write]
  rw [e1] at h1
  rw [h1]
  simp [Line.mean, meanItems, Item.mean, valuesOf, hs]

example : parse exRules false [[45, 45, 99, 111], [120]] = some ([], [⟨exMulti, [[45, 45, 99, 111]]⟩, ⟨exMulti, [[120]]⟩]) := by decide

/-! ## Looking up arguments -/

/-- The pairs with a name -/
def withName (ps : List Pair) (key : Bytes) : List Pair := ps.filter (·.rule.long == key)

/-- C123. An argument exists exactly when there are so many with its name. -/
theorem exists_iff (ps : List Pair) (key : Bytes) (index : Nat) : cmdExists ps key index = decide (index < (withName ps key).length) := by
  induction ps generalizing index with
  | nil => simp [cmdExists, withName]
  | cons p t ih =>
    unfold cmdExists
    cases hk : p.rule.long == key with
    | true =>
      have : withName (p :: t) key = p :: withName t key := by simp [withName, hk]
      rw [this]
      cases index with
      | zero => simp
      | succ i => simp [ih]
    | false =>
      have : withName (p :: t) key = withName t key := by simp [withName, hk]
      rw [this]
      simp [ih]

theorem findPair_get (ps : List Pair) (key : Bytes) (index : Nat) :
    (findPair ps key index).bind (fun i => ps[i]?) = (withName ps key)[index]? := by
  induction ps generalizing index with
  | nil => simp [findPair, withName]
  | cons p t ih =>
    unfold findPair
    cases hk : p.rule.long == key with
    | true =>
      have : withName (p :: t) key = p :: withName t key := by simp [withName, hk]
      rw [this]
      cases index with
      | zero => simp
      | succ i =>
        simp only [if_true, List.getElem?_cons_succ, ← ih]
        cases findPair t key i <;> simp
    | false =>
      have : withName (p :: t) key = withName t key := by simp [withName, hk]
      rw [this, ← ih]
      simp only [Bool.false_eq_true, if_false]
      cases findPair t key index <;> simp

theorem findPair_lt {ps : List Pair} {key : Bytes} {index i : Nat} (h : findPair ps key index = some i) : i < ps.length := by
  induction ps generalizing index i with
  | nil => simp [findPair] at h
  | cons p t ih =>
    unfold findPair at h
    cases hk : p.rule.long == key with
    | true =>
      simp only [hk, if_true] at h
      cases index with
      | zero => simp at h; subst h; simp
      | succ j =>
        simp only [Option.map_eq_some_iff] at h
        obtain ⟨a, ha, rfl⟩ := h
        have := ih ha
        simp only [List.length_cons]; omega
    | false =>
      simp only [hk, Bool.false_eq_true, if_false, Option.map_eq_some_iff] at h
      obtain ⟨a, ha, rfl⟩ := h
      have := ih ha
      simp only [List.length_cons]; omega

/-- C123. The value asked for is the value number `sub` of the argument number `index` with the name. -/
theorem subvalue_eq (ps : List Pair) (used : List Bool) (key : Bytes) (index sub : Nat) :
    (getSubvalue ps used key index sub).1 = ((withName ps key)[index]?).bind fun p => p.values[sub]? := by
  rw [← findPair_get]
  unfold getSubvalue
  cases hf : findPair ps key index with
  | none => rfl
  | some i =>
    have := findPair_lt hf
    simp [List.getElem?_eq_getElem this, List.head?_drop]

/-- C123. Looking up an argument marks this argument as used, and no other. -/
theorem subvalue_used (ps : List Pair) (used : List Bool) (key : Bytes) (index sub j : Nat) :
    (getSubvalue ps used key index sub).2[j]? =
      if findPair ps key index = some j ∧ j < used.length then some true else used[j]? := by
  unfold getSubvalue
  cases hf : findPair ps key index with
  | none => simp
  | some i =>
    simp only [Option.some.injEq, List.getElem?_set]
    by_cases hij : i = j
    · subst hij
      by_cases hl : i < used.length
      · simp [hl]
      · simp [hl]
    · simp [hij]

theorem iterateSub_eq (ps : List Pair) (key : Bytes) (i : Nat) (p : Pair) (hp : (withName ps key)[i]? = some p) (f j : Nat)
    (hf : p.values.length ≤ f + j) : iterateSub ps key i f j = p.values.drop j := by
  induction f generalizing j with
  | zero => rw [iterateSub, List.drop_eq_nil_of_le (by omega)]
  | succ f ih =>
    rw [iterateSub, subvalue_eq, hp]
    simp only [Option.bind_some]
    by_cases hj : j < p.values.length
    · rw [List.getElem?_eq_getElem hj]
      simp only
      rw [ih (j + 1) (by omega), ← List.drop_eq_getElem_cons hj]
    · rw [List.getElem?_eq_none (by omega), List.drop_eq_nil_of_le (by omega)]

theorem foldl_most (ps : List Pair) (m : Nat) :
    m ≤ ps.foldl (fun m p => max m p.values.length) m ∧ ∀ p ∈ ps, p.values.length ≤ ps.foldl (fun m p => max m p.values.length) m := by
  induction ps generalizing m with
  | nil => simp
  | cons q t ih =>
    obtain ⟨h1, h2⟩ := ih (max m q.values.length)
    rw [List.foldl_cons]
    refine ⟨by omega, ?_⟩
    intro p hp
    rcases List.mem_cons.1 hp with rfl | hp
    · omega
    · exact h2 p hp

theorem iterateLoop_eq (ps : List Pair) (key : Bytes) (f i : Nat) (hf : (withName ps key).length < f + i) :
    iterateLoop ps key (mostValues ps + 1) f i
      = (((withName ps key).drop i).takeWhile fun p => !p.values.isEmpty).flatMap (·.values) := by
  induction f generalizing i with
  | zero => rw [iterateLoop, List.drop_eq_nil_of_le (by omega)]; rfl
  | succ f ih =>
    rw [iterateLoop, getValue, subvalue_eq]
    by_cases hi : i < (withName ps key).length
    · rw [List.drop_eq_getElem_cons hi, List.getElem?_eq_getElem hi]
      simp only [Option.bind_some]
      generalize hp : (withName ps key)[i] = p
      have hg : (withName ps key)[i]? = some p := by rw [List.getElem?_eq_getElem hi, hp]
      have hmem : p ∈ ps := by
        have := List.mem_of_getElem? hg
        exact (List.mem_filter.1 this).1
      have hmost := (foldl_most ps 0).2 p hmem
      cases hv : p.values with
      | nil => simp [hv]
      | cons v t =>
        rw [← hv, iterateSub_eq ps key i p hg _ 0 (by unfold mostValues; omega), ih (i + 1) (by omega)]
        rw [List.takeWhile_cons]
        simp [hv]
    · rw [List.getElem?_eq_none (by omega), List.drop_eq_nil_of_le (by omega)]
      rfl

/-- C123. All the values given with a name, by the arguments before the first one without values. -/
theorem iterate_eq (ps : List Pair) (key : Bytes) :
    iterate ps key = ((withName ps key).takeWhile fun p => !p.values.isEmpty).flatMap (·.values) := by
  unfold iterate
  rw [iterateLoop_eq]
  · rfl
  · have : (withName ps key).length ≤ ps.length := List.length_filter_le ..
    omega

/-- C123, partial. All the values given with a name are handed out in order. What is missing: when one of the arguments has no values, see
`iterate_stops`. -/
theorem iterate_all_partial (ps : List Pair) (key : Bytes) (h : ∀ p ∈ ps, p.rule.long = key → p.values ≠ []) :
    iterate ps key = (withName ps key).flatMap (·.values) := by
  rw [iterate_eq]
  congr 1
  have : ∀ l : List Pair, (∀ p ∈ l, p.values ≠ []) → l.takeWhile (fun p => !p.values.isEmpty) = l := by
    intro l hl
    induction l with
    | nil => rfl
    | cons p t ih =>
      have hp := hl p (List.mem_cons_self ..)
      rw [List.takeWhile_cons, ih fun q hq => hl q (List.mem_cons_of_mem _ hq)]
      simp [hp]
  apply this
  intro p hp
  rw [withName, List.mem_filter] at hp
  exact h p hp.1 (by simpa using hp.2)

example : iterate [⟨exSplit, [[97], [98]]⟩, ⟨exFlag, []⟩, ⟨exSplit, [[99]]⟩] exSplit.long = [[97], [98], [99]] := by decide

/-- **Values after an empty one are lost.** `-p "" -p a` is accepted, and gives no values at all. -/
theorem iterate_stops :
    parse exRules false [[45, 112], [], [45, 112], [97]] = some ([], [⟨exSplit, []⟩, ⟨exSplit, [[97]]⟩])
    ∧ iterate [⟨exSplit, []⟩, ⟨exSplit, [[97]]⟩] exSplit.long = [] := by decide

/-- **Unused arguments are not an error.** The check of whether all arguments have been used never fails, whatever was not used. -/
theorem unused_accepted (ps : List Pair) (used : List Bool) : (checkAllUsed ps used).2 = false := rfl

/-- C123. What is complained about are the arguments which were not used. -/
theorem unused_named (ps : List Pair) (used : List Bool) (key : Bytes) (hl : used.length = ps.length) :
    key ∈ (checkAllUsed ps used).1 ↔ ∃ (i : Nat) (p : Pair), ps[i]? = some p ∧ used[i]? = some false ∧ p.rule.long = key := by
  unfold checkAllUsed
  simp only [List.mem_map, List.mem_filter, Prod.exists]
  constructor
  · rintro ⟨p, b, ⟨hz, hb⟩, rfl⟩
    obtain ⟨i, hi⟩ := List.mem_iff_getElem?.1 hz
    rw [List.getElem?_zip_eq_some] at hi
    have : b = false := by simpa using hb
    exact ⟨i, p, hi.1, by rw [← this]; exact hi.2, rfl⟩
  · rintro ⟨i, p, hp, hu, rfl⟩
    refine ⟨p, false, ⟨?_, rfl⟩, rfl⟩
    exact List.mem_iff_getElem?.2 ⟨i, by rw [List.getElem?_zip_eq_some]; exact ⟨hp, hu⟩⟩

example : checkAllUsed [⟨exFlag, []⟩, ⟨exArg, [[55]]⟩] [false, true] = ([[108, 111]], false) := by decide

/-! ## Commas -/

/-- C123. Values joined by commas are split into the same values again, when the last is not empty. -/
theorem comma_join (l : List Bytes) (w : Bytes) (hl : ∀ x ∈ l, (44 : UInt8) ∉ x) (hw : (44 : UInt8) ∉ w) (hne : w ≠ []) :
    splitComma (l.foldr (fun x t => x ++ 44 :: t) w) = l ++ [w] := by
  rw [splitComma_eq]
  induction l with
  | nil => simp [commaValues, (pieces_word w hw []).1, hne]
  | cons x t ih =>
    rw [List.foldr_cons, commaValues_word _ _ (hl x (List.mem_cons_self ..)), ih fun y hy => hl y (List.mem_cons_of_mem _ hy)]
    rfl

example : splitComma [97, 44, 44, 98] = [[97], [], [98]] ∧ splitComma [97, 44] = [[97]] := by decide

end Verif.Cmdline
