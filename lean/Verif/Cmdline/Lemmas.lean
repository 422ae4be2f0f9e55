import Verif.Cmdline.Spec
/-! # Lemmas about the parser of command lines -/
namespace Verif.Cmdline
open Verif

theorem ruleLong_some {rules : List Rule} {name : Bytes} {r : Rule} : ruleLong rules name = some r ↔ Named rules r ∧ r.long = name := by
  induction rules with
  | nil => simp [ruleLong, Named]
  | cons x t ih =>
    unfold ruleLong
    by_cases hx : (!x.noFlag && x.long == name) = true
    · rw [if_pos hx]
      simp only [Bool.and_eq_true, Bool.not_eq_true', beq_iff_eq] at hx
      constructor
      · intro h
        obtain rfl := Option.some.inj h
        exact ⟨⟨[], t, rfl, hx.1, by simp⟩, hx.2⟩
      · rintro ⟨⟨pre, post, he, hn, hp⟩, hl⟩
        cases pre with
        | nil => rw [List.nil_append] at he; rw [(List.cons.inj he).1]
        | cons y pre =>
          have hy := (List.cons.inj he).1
          subst hy
          exact absurd (hx.2.trans hl.symm) (hp x (List.mem_cons_self ..) hx.1)
    · rw [if_neg hx, ih]
      constructor
      · rintro ⟨⟨pre, post, he, hn, hp⟩, hl⟩
        refine ⟨⟨x :: pre, post, by rw [he]; rfl, hn, ?_⟩, hl⟩
        intro y hy hyn
        rcases List.mem_cons.1 hy with rfl | hy
        · intro hc
          apply hx
          simp [hyn, hc, hl]
        · exact hp y hy hyn
      · rintro ⟨⟨pre, post, he, hn, hp⟩, hl⟩
        cases pre with
        | nil =>
          rw [List.nil_append] at he
          have := (List.cons.inj he).1
          subst this
          exact absurd (by simp [hn, hl]) hx
        | cons y pre =>
          have hy := (List.cons.inj he).1
          exact ⟨⟨pre, post, (List.cons.inj he).2, hn, fun z hz => hp z (List.mem_cons_of_mem _ hz)⟩, hl⟩

theorem ruleShort_some {rules : List Rule} {name : UInt8} {r : Rule} : ruleShort rules name = some r ↔ Lettered rules r ∧ r.short = name := by
  induction rules with
  | nil => simp [ruleShort, Lettered]
  | cons x t ih =>
    unfold ruleShort
    by_cases hx : (!x.noFlag && x.short == name) = true
    · rw [if_pos hx]
      simp only [Bool.and_eq_true, Bool.not_eq_true', beq_iff_eq] at hx
      constructor
      · intro h
        obtain rfl := Option.some.inj h
        exact ⟨⟨[], t, rfl, hx.1, by simp⟩, hx.2⟩
      · rintro ⟨⟨pre, post, he, hn, hp⟩, hl⟩
        cases pre with
        | nil => rw [List.nil_append] at he; rw [(List.cons.inj he).1]
        | cons y pre =>
          have hy := (List.cons.inj he).1
          subst hy
          exact absurd (hx.2.trans hl.symm) (hp x (List.mem_cons_self ..) hx.1)
    · rw [if_neg hx, ih]
      constructor
      · rintro ⟨⟨pre, post, he, hn, hp⟩, hl⟩
        refine ⟨⟨x :: pre, post, by rw [he]; rfl, hn, ?_⟩, hl⟩
        intro y hy hyn
        rcases List.mem_cons.1 hy with rfl | hy
        · intro hc
          apply hx
          simp [hyn, hc, hl]
        · exact hp y hy hyn
      · rintro ⟨⟨pre, post, he, hn, hp⟩, hl⟩
        cases pre with
        | nil =>
          rw [List.nil_append] at he
          have := (List.cons.inj he).1
          subst this
          exact absurd (by simp [hn, hl]) hx
        | cons y pre =>
          have hy := (List.cons.inj he).1
          exact ⟨⟨pre, post, (List.cons.inj he).2, hn, fun z hz => hp z (List.mem_cons_of_mem _ hz)⟩, hl⟩

theorem ruleNoflag_eq (rules : List Rule) (n : Nat) : ruleNoflag rules n = (rules.filter (·.noFlag))[n]? := by
  induction rules generalizing n with
  | nil => simp [ruleNoflag]
  | cons x t ih =>
    unfold ruleNoflag
    cases hx : x.noFlag with
    | false => simp [hx, ih]
    | true =>
      cases n with
      | zero => simp [hx]
      | succ n => simp [hx, ih]

theorem ruleMulti_eq (rules : List Rule) : ruleMulti rules = (rules.filter (·.multi)).head? := by
  induction rules with
  | nil => rfl
  | cons x t ih =>
    unfold ruleMulti
    cases hx : x.multi with
    | false => simp [hx, ih]
    | true => simp [hx]

/-- The rule of an argument without a flag has one of the flags for such arguments. -/
theorem positional_flag {rules : List Rule} {n : Nat} {r : Rule} (h : positional rules n = some r) : (r.noFlag || r.multi) = true := by
  unfold positional at h
  cases hf : (rules.filter (·.noFlag))[n]? with
  | some x =>
    rw [hf] at h
    obtain rfl := Option.some.inj h
    have := List.mem_of_getElem? hf
    rw [List.mem_filter] at this
    simp [this.2]
  | none =>
    rw [hf] at h
    have : r ∈ rules.filter (·.multi) := List.mem_of_mem_head? (by simpa using h)
    rw [List.mem_filter] at this
    simp [this.2]

theorem findRule_plain (rules : List Rule) (n : Nat) (key : Bytes) :
    findRule rules n 0 key = (positional rules n).map fun r => ([], some r, n + 1) := by
  unfold findRule positional
  rw [ruleNoflag_eq, ruleMulti_eq]
  simp only [show ¬ (0 : Nat) = 2 by decide, show ¬ (0 : Nat) = 1 by decide, if_false]
  cases (rules.filter (·.noFlag))[n]? with
  | some r => rfl
  | none =>
    simp only [Option.none_or]
    cases (rules.filter (·.multi)).head? <;> rfl

/-! ## Commas -/

theorem pieces_ne (v : Bytes) : pieces v ≠ [] := by
  cases v with
  | nil => simp [pieces]
  | cons c t =>
    unfold pieces
    split
    · simp
    · split <;> simp

theorem pieces_word (w : Bytes) (hw : (44 : UInt8) ∉ w) (t : Bytes) :
    pieces w = [w] ∧ pieces (w ++ 44 :: t) = w :: pieces t := by
  induction w with
  | nil => simp [pieces]
  | cons c w ih =>
    have hc : c ≠ 44 := fun h => hw (by simp [h])
    have ih := ih fun h => hw (List.mem_cons_of_mem _ h)
    constructor
    · rw [pieces, if_neg hc, ih.1]
    · rw [List.cons_append, pieces, if_neg hc, ih.2]

theorem comma_word (v : Bytes) : (44 : UInt8) ∉ v ∨ ∃ w t, v = w ++ 44 :: t ∧ (44 : UInt8) ∉ w := by
  induction v with
  | nil => left; simp
  | cons c v ih =>
    by_cases hc : c = 44
    · right; exact ⟨[], v, by simp [hc], by simp⟩
    · rcases ih with h | ⟨w, t, he, hw⟩
      · left
        simp only [List.mem_cons, not_or]
        exact ⟨fun h => hc h.symm, h⟩
      · right
        refine ⟨c :: w, t, by rw [he]; rfl, ?_⟩
        simp only [List.mem_cons, not_or]
        exact ⟨fun h => hc h.symm, hw⟩

theorem takeWhile_ne {k : UInt8} {w : Bytes} (hw : k ∉ w) : w.takeWhile (· != k) = w ∧ w.dropWhile (· != k) = [] := by
  induction w with
  | nil => simp
  | cons c w ih =>
    have hc : c ≠ k := fun h => hw (by simp [h])
    have ih := ih fun h => hw (List.mem_cons_of_mem _ h)
    rw [List.takeWhile_cons, List.dropWhile_cons]
    simp [hc, ih.1, ih.2]

theorem takeWhile_mid {k : UInt8} {w : Bytes} (hw : k ∉ w) (t : Bytes) :
    (w ++ k :: t).takeWhile (· != k) = w ∧ (w ++ k :: t).dropWhile (· != k) = k :: t := by
  induction w with
  | nil => simp
  | cons c w ih =>
    have hc : c ≠ k := fun h => hw (by simp [h])
    have ih := ih fun h => hw (List.mem_cons_of_mem _ h)
    rw [List.cons_append, List.takeWhile_cons, List.dropWhile_cons]
    simp [hc, ih.1, ih.2]

theorem commaValues_word (w t : Bytes) (hw : (44 : UInt8) ∉ w) : commaValues (w ++ 44 :: t) = w :: commaValues t := by
  unfold commaValues
  rw [(pieces_word w hw t).2]
  obtain ⟨p, ps, hp⟩ := List.exists_cons_of_ne_nil (pieces_ne t)
  rw [hp, List.getLast?_cons_cons]
  split
  · rw [List.dropLast_cons_cons]
  · rfl

theorem splitLoop_eq (f : Nat) (v : Bytes) (hf : v.length ≤ f) : splitLoop f v = commaValues v := by
  induction f generalizing v with
  | zero =>
    have : v = [] := List.eq_nil_of_length_eq_zero (by omega)
    subst this
    simp [splitLoop, commaValues, pieces]
  | succ f ih =>
    unfold splitLoop
    by_cases hv : v = []
    · subst hv
      simp [commaValues, pieces]
    rw [if_neg hv]
    rcases comma_word v with h | ⟨w, t, he, hw⟩
    · rw [(takeWhile_ne h).1, (takeWhile_ne h).2]
      have : splitLoop f [] = [] := by cases f <;> simp [splitLoop]
      rw [List.drop_nil, this]
      unfold commaValues
      rw [(pieces_word v h []).1]
      simp [hv]
    · subst he
      rw [(takeWhile_mid hw t).1, (takeWhile_mid hw t).2, commaValues_word _ _ hw]
      rw [List.drop_one, List.tail_cons, ih t]
      simp only [List.length_append, List.length_cons] at hf
      omega

theorem splitComma_eq (v : Bytes) : splitComma v = commaValues v := splitLoop_eq _ v (Nat.le_refl _)

theorem pairOf_some (r : Rule) (v : Bytes) : pairOf r (some v) = ⟨r, valuesOf r v⟩ := by
  simp only [pairOf, valuesOf, splitComma_eq]

/-! ## The start of an argument -/

theorem kind_ended (a : Bytes) : kind true a = .key 0 a none := by simp [kind]

theorem kind_nil : kind false [] = .bad := by decide

theorem splitEqual_none (d : Nat) (k : Bytes) (hk : (61 : UInt8) ∉ k) : splitEqual d k = (k, none) := by
  unfold splitEqual
  rw [if_neg]
  simp [hk]

theorem splitEqual_some (d : Nat) (k v : Bytes) (hk : (61 : UInt8) ∉ k) (hd : 0 < d) : splitEqual d (k ++ 61 :: v) = (k, some v) := by
  unfold splitEqual
  rw [if_pos (by simp [hd]), (takeWhile_mid hk v).1, (takeWhile_mid hk v).2]
  rfl

theorem dashes_two (k : Bytes) : dashes false (45 :: 45 :: k) = (2, k) := by simp [dashes]

theorem dashes_one (k : Bytes) (hk : k.head? ≠ some 45) : dashes false (45 :: k) = (1, k) := by
  cases k with
  | nil => simp [dashes]
  | cons c t =>
    have hc : c ≠ 45 := fun h => hk (by simp [h])
    unfold dashes
    simp only [Bool.false_eq_true, if_false]
    split
    · rename_i h
      exact absurd (List.cons.inj (List.cons.inj h).2).1 hc
    · rename_i h
      rw [(List.cons.inj h).2]
    · rename_i _ h
      exact absurd rfl (h _)

theorem dashes_zero (a : Bytes) (ha : a.head? ≠ some 45) : dashes false a = (0, a) := by
  cases a with
  | nil => simp [dashes]
  | cons c t =>
    have hc : c ≠ 45 := fun h => ha (by simp [h])
    unfold dashes
    simp only [Bool.false_eq_true, if_false]
    split
    · rename_i h
      exact absurd (List.cons.inj h).1 hc
    · rename_i h
      exact absurd (List.cons.inj h).1 hc
    · rfl

theorem kind_long (k : Bytes) (hk : (61 : UInt8) ∉ k) : kind false (45 :: 45 :: k) = if k = [] then .stop else .key 2 k none := by
  unfold kind
  simp only [dashes_two, splitEqual_none _ _ hk, Option.isSome_none, Bool.false_eq_true, if_false, if_true]

theorem kind_longEqual (k v : Bytes) (hk : (61 : UInt8) ∉ k) :
    kind false (45 :: 45 :: (k ++ 61 :: v)) = if k = [] then .bad else .key 2 k (some v) := by
  unfold kind
  simp only [dashes_two, splitEqual_some 2 _ _ hk (by decide), Option.isSome_some, Bool.false_eq_true, if_false, if_true]

theorem kind_short (k : Bytes) (hk : (61 : UInt8) ∉ k) (h45 : k.head? ≠ some 45) :
    kind false (45 :: k) = if k = [] then .bad else .key 1 k none := by
  unfold kind
  simp only [dashes_one k h45, splitEqual_none _ _ hk, Option.isSome_none, Bool.false_eq_true, if_false,
    show ¬ (1 : Nat) = 2 by decide]

theorem kind_shortEqual (k v : Bytes) (hk : (61 : UInt8) ∉ k) (h45 : k.head? ≠ some 45) :
    kind false (45 :: (k ++ 61 :: v)) = if k = [] then .bad else .key 1 k (some v) := by
  have : (k ++ 61 :: v).head? ≠ some 45 := by
    cases k with
    | nil => simp
    | cons c t => simpa using h45
  unfold kind
  simp only [dashes_one _ this, splitEqual_some 1 _ _ hk (by decide), Option.isSome_some, Bool.false_eq_true, if_false, if_true]

theorem kind_plain (a : Bytes) (ha : a.head? ≠ some 45) : kind false a = if a = [] then .bad else .key 0 a none := by
  unfold kind
  have : splitEqual 0 a = (a, none) := by simp [splitEqual]
  simp only [dashes_zero a ha, this, Option.isSome_none, Bool.false_eq_true, if_false, show ¬ (0 : Nat) = 2 by decide]

theorem equal_word (v : Bytes) : (61 : UInt8) ∉ v ∨ ∃ w t, v = w ++ 61 :: t ∧ (61 : UInt8) ∉ w := by
  induction v with
  | nil => left; simp
  | cons c v ih =>
    by_cases hc : c = 61
    · right; exact ⟨[], v, by simp [hc], by simp⟩
    · rcases ih with h | ⟨w, t, he, hw⟩
      · left
        simp only [List.mem_cons, not_or]
        exact ⟨fun h => hc h.symm, h⟩
      · right
        refine ⟨c :: w, t, by rw [he]; rfl, ?_⟩
        simp only [List.mem_cons, not_or]
        exact ⟨fun h => hc h.symm, hw⟩

/-- All the ways an argument can begin. -/
theorem kind_cases (a : Bytes) :
    kind false a = .bad ∨ (kind false a = .stop ∧ a = [45, 45])
    ∨ (∃ k, a = 45 :: 45 :: k ∧ k ≠ [] ∧ (61 : UInt8) ∉ k ∧ kind false a = .key 2 k none)
    ∨ (∃ k v, a = 45 :: 45 :: (k ++ 61 :: v) ∧ k ≠ [] ∧ (61 : UInt8) ∉ k ∧ kind false a = .key 2 k (some v))
    ∨ (∃ k, a = 45 :: k ∧ k ≠ [] ∧ (61 : UInt8) ∉ k ∧ k.head? ≠ some 45 ∧ kind false a = .key 1 k none)
    ∨ (∃ k v, a = 45 :: (k ++ 61 :: v) ∧ k ≠ [] ∧ (61 : UInt8) ∉ k ∧ k.head? ≠ some 45 ∧ kind false a = .key 1 k (some v))
    ∨ (a ≠ [] ∧ a.head? ≠ some 45 ∧ kind false a = .key 0 a none) := by
  by_cases h1 : a.head? = some 45
  · obtain ⟨t, rfl⟩ : ∃ t, a = 45 :: t := by
      cases a with
      | nil => simp at h1
      | cons c t => exact ⟨t, by simp at h1; rw [h1]⟩
    by_cases h2 : t.head? = some 45
    · obtain ⟨k, rfl⟩ : ∃ k, t = 45 :: k := by
        cases t with
        | nil => simp at h2
        | cons c t => exact ⟨t, by simp at h2; rw [h2]⟩
      rcases equal_word k with hk | ⟨w, v, rfl, hw⟩
      · have := kind_long k hk
        by_cases h : k = []
        · subst h; right; left; exact ⟨this, rfl⟩
        · rw [if_neg h] at this
          right; right; left; exact ⟨k, rfl, h, hk, this⟩
      · have := kind_longEqual w v hw
        by_cases h : w = []
        · rw [if_pos h] at this; exact .inl this
        · rw [if_neg h] at this
          right; right; right; left; exact ⟨w, v, rfl, h, hw, this⟩
    · rcases equal_word t with hk | ⟨w, v, rfl, hw⟩
      · have := kind_short t hk h2
        by_cases h : t = []
        · rw [if_pos h] at this; exact .inl this
        · rw [if_neg h] at this
          right; right; right; right; left; exact ⟨t, rfl, h, hk, h2, this⟩
      · have hw2 : w.head? ≠ some 45 := by
          cases w with
          | nil => simp
          | cons c w => simpa using h2
        have := kind_shortEqual w v hw hw2
        by_cases h : w = []
        · rw [if_pos h] at this; exact .inl this
        · rw [if_neg h] at this
          right; right; right; right; right; left; exact ⟨w, v, rfl, h, hw, hw2, this⟩
  · have := kind_plain a h1
    by_cases h : a = []
    · rw [if_pos h] at this; exact .inl this
    · rw [if_neg h] at this
      right; right; right; right; right; right; exact ⟨h, h1, this⟩

/-! ## Letters -/

theorem shorts_flags {rules rs : List Rule} (hl : ∀ r ∈ rs, Lettered rules r) (ha : ∀ r ∈ rs, r.hasArg = false) (n : Nat) :
    shorts rules n (rs.map (·.short)) none = some (rs.map (⟨·, []⟩), none) := by
  induction rs with
  | nil => rfl
  | cons r rs ih =>
    have hs : ruleShort rules r.short = some r := ruleShort_some.2 ⟨hl r (List.mem_cons_self ..), rfl⟩
    have ih := ih (fun x hx => hl x (List.mem_cons_of_mem _ hx)) (fun x hx => ha x (List.mem_cons_of_mem _ hx))
    rw [List.map_cons, shorts, hs]
    simp only [ha r (List.mem_cons_self ..), Bool.false_and, Bool.false_eq_true, if_false, Bool.not_false, if_true, ih, List.map_cons]

theorem shorts_arg {rules : List Rule} {r : Rule} (hl : Lettered rules r) (ha : r.hasArg = true) :
    shorts rules 1 [r.short] none = some ([], some r) := by
  have hs : ruleShort rules r.short = some r := ruleShort_some.2 ⟨hl, rfl⟩
  rw [shorts, hs]
  simp [ha, shorts]

theorem shorts_inv {rules : List Rule} {n : Nat} {cs : List UInt8} {ps : List Pair} {last : Option Rule} (hn : n ≠ 1)
    (h : shorts rules n cs none = some (ps, last)) :
    ∃ rs : List Rule, cs = rs.map (·.short) ∧ (∀ r ∈ rs, Lettered rules r) ∧ (∀ r ∈ rs, r.hasArg = false) ∧ ps = rs.map (⟨·, []⟩) ∧ last = none := by
  induction cs generalizing ps last with
  | nil =>
    simp only [shorts, Option.some.injEq, Prod.mk.injEq] at h
    exact ⟨[], rfl, by simp, by simp, h.1.symm, h.2.symm⟩
  | cons c t ih =>
    rw [shorts] at h
    cases hs : ruleShort rules c with
    | none => simp [hs] at h
    | some r =>
      simp only [hs] at h
      cases ha : r.hasArg with
      | true => simp [ha, hn] at h
      | false =>
        simp only [ha, Bool.false_and, Bool.false_eq_true, if_false, Bool.not_false, if_true] at h
        cases hq : shorts rules n t none with
        | none => simp [hq] at h
        | some x =>
          obtain ⟨ps', last'⟩ := x
          simp only [hq, Option.some.injEq, Prod.mk.injEq] at h
          obtain ⟨rs, h1, h2, h3, h4, h5⟩ := ih hq
          obtain ⟨hl, hc⟩ := ruleShort_some.1 hs
          refine ⟨r :: rs, by rw [List.map_cons, hc, h1], ?_, ?_, by rw [← h.1, h4]; rfl, by rw [← h.2, h5]⟩
          · intro x hx
            rcases List.mem_cons.1 hx with rfl | hx
            · exact hl
            · exact h2 x hx
          · intro x hx
            rcases List.mem_cons.1 hx with rfl | hx
            · exact ha
            · exact h3 x hx

/-- The letters after a dash: flags, or one letter which takes a value. -/
theorem shorts_cases {rules : List Rule} {cs : List UInt8} {ps : List Pair} {last : Option Rule}
    (h : shorts rules cs.length cs none = some (ps, last)) :
    (∃ rs : List Rule, cs = rs.map (·.short) ∧ (∀ r ∈ rs, Lettered rules r) ∧ (∀ r ∈ rs, r.hasArg = false) ∧ ps = rs.map (⟨·, []⟩) ∧ last = none)
    ∨ (∃ r : Rule, cs = [r.short] ∧ Lettered rules r ∧ r.hasArg = true ∧ ps = [] ∧ last = some r) := by
  by_cases hn : cs.length = 1
  · obtain ⟨c, rfl⟩ := List.length_eq_one_iff.1 hn
    rw [List.length_singleton, shorts] at h
    cases hs : ruleShort rules c with
    | none => simp [hs] at h
    | some r =>
      obtain ⟨hl, hc⟩ := ruleShort_some.1 hs
      simp only [hs] at h
      cases ha : r.hasArg with
      | true =>
        simp [ha, shorts] at h
        exact .inr ⟨r, by rw [hc], hl, ha, h.1, h.2.symm⟩
      | false =>
        simp [ha, shorts] at h
        exact .inl ⟨[r], by simp [hc], by simpa using hl, by simpa using ha, h.1.symm, h.2.symm⟩
  · exact .inl (shorts_inv hn h)

/-! ## The loop -/

theorem takeValue_length {r : Rule} {e : Option Bytes} {a : Bytes} {rest rest' : List Bytes} {v : Option Bytes}
    (h : takeValue r e a rest = some (v, rest')) : rest'.length ≤ rest.length := by
  unfold takeValue at h
  repeat' split at h
  all_goals first
    | (simp only [Option.some.injEq, Prod.mk.injEq] at h; rw [← h.2]; simp)
    | (simp at h)

/-- One round of the loop, with the rest of the rounds given -/
def step (rules : List Rule) (n : Nat) (ended : Bool) (a : Bytes) (rest : List Bytes) (k : Nat → Bool → List Bytes → Option (List Pair)) :
    Option (List Pair) :=
  match kind ended a with
  | .bad => none
  | .stop => k n true rest
  | .key dash key equal =>
    match findRule rules n dash key with
    | none => none
    | some (ps, none, n') => (k n' ended rest).map (ps ++ ·)
    | some (ps, some r, n') =>
      match takeValue r equal a rest with
      | none => none
      | some (v, rest') => (k n' ended rest').map fun l => ps ++ pairOf r v :: l

theorem loop_cons (rules : List Rule) (f n : Nat) (e : Bool) (a : Bytes) (rest : List Bytes) :
    loop rules (f + 1) n e (a :: rest) = step rules n e a rest (loop rules f) := by
  rw [loop]
  rfl

theorem step_congr {rules : List Rule} {n : Nat} {e : Bool} {a : Bytes} {rest : List Bytes} {k k' : Nat → Bool → List Bytes → Option (List Pair)}
    (h : ∀ n e l, l.length ≤ rest.length → k n e l = k' n e l) : step rules n e a rest k = step rules n e a rest k' := by
  unfold step
  cases kind e a with
  | bad => rfl
  | stop => exact h _ _ _ (Nat.le_refl _)
  | key d key eq =>
    simp only
    cases findRule rules n d key with
    | none => rfl
    | some x =>
      obtain ⟨ps, r, n'⟩ := x
      cases r with
      | none => simp only [h _ _ _ (Nat.le_refl _)]
      | some r =>
        simp only
        cases hv : takeValue r eq a rest with
        | none => rfl
        | some y =>
          obtain ⟨v, rest'⟩ := y
          simp only [h _ _ _ (takeValue_length hv)]

theorem loop_fuel (rules : List Rule) (f g n : Nat) (e : Bool) (l : List Bytes) (hf : l.length ≤ f) (hg : l.length ≤ g) :
    loop rules f n e l = loop rules g n e l := by
  induction f generalizing g n e l with
  | zero =>
    have : l = [] := List.eq_nil_of_length_eq_zero (by omega)
    subst this
    cases g <;> simp [loop]
  | succ f ih =>
    cases l with
    | nil => cases g <;> simp [loop]
    | cons a rest =>
      cases g with
      | zero => simp at hg
      | succ g =>
        rw [loop_cons, loop_cons]
        apply step_congr
        intro n e l hl
        simp only [List.length_cons] at hf hg
        exact ih g n e l (by omega) (by omega)

/-- The loop with as many rounds as there are arguments -/
def go (rules : List Rule) (n : Nat) (e : Bool) (l : List Bytes) : Option (List Pair) := loop rules l.length n e l

theorem go_nil (rules : List Rule) (n : Nat) (e : Bool) : go rules n e [] = some [] := by simp [go, loop]

theorem go_cons (rules : List Rule) (n : Nat) (e : Bool) (a : Bytes) (rest : List Bytes) :
    go rules n e (a :: rest) = step rules n e a rest (go rules) := by
  unfold go
  rw [List.length_cons, loop_cons]
  apply step_congr
  intro n e l hl
  exact loop_fuel rules _ _ n e l hl (Nat.le_refl _)

end Verif.Cmdline
