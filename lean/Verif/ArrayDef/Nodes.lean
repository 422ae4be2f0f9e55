import Verif.ArrayDef.Texts
/-! # Groups of fields -/
namespace Verif.ArrayDef
open ArrayTree Types ArrayTree.Spec ArrayDef.Spec
open Verif.Condition (Parsed)

/-! ## The end of a field -/

/-- What `checkEnd` finds. -/
theorem checkEnd_cases (s : Bytes) :
    (∃ c t, checkEnd s = (.other, c :: t) ∧ ig s = c :: t ∧ keyword (c :: t) = false ∧ c ≠ 44 ∧ c ≠ 59) ∨
    (∃ t, checkEnd s = (.semicolon, ig t) ∧ ig s = 59 :: t) ∨
    (∃ t, checkEnd s = (.comma, ig t) ∧ ig s = 44 :: t ∧ keyword (ig t) = false) ∨
    (checkEnd s = (.special, ig s) ∧ keyword (ig s) = true) ∨
    (∃ t, checkEnd s = (.special, ig t) ∧ ig s = 44 :: t ∧ keyword (ig t) = true) ∨
    (checkEnd s = (.eof, []) ∧ (ig s = [] ∨ ∃ t, ig s = 44 :: t ∧ ig t = [])) := by
  rw [checkEnd.eq_def]
  show _
  cases hs : Parse.ignoreSpaces s with
  | nil => simp [ig, hs]
  | cons c t =>
    simp only
    cases hk : keyword (c :: t) with
    | true =>
      refine Or.inr (Or.inr (Or.inr (Or.inl ⟨by simp [ig, hs], by rw [ig, hs]; exact hk⟩)))
    | false =>
      by_cases h1 : c = 44
      · subst h1
        cases ht : Parse.ignoreSpaces t with
        | nil => exact Or.inr (Or.inr (Or.inr (Or.inr (Or.inr ⟨by simp, Or.inr ⟨t, by simp [ig, hs], ht⟩⟩))))
        | cons d u =>
          cases hk2 : keyword (d :: u) with
          | true => exact Or.inr (Or.inr (Or.inr (Or.inr (Or.inl ⟨t, by simp [ig, ht, hk2], by simp [ig, hs], by rw [ig, ht]; exact hk2⟩))))
          | false => exact Or.inr (Or.inr (Or.inl ⟨t, by simp [ig, ht, hk2], by simp [ig, hs], by rw [ig, ht]; exact hk2⟩))
      · by_cases h2 : c = 59
        · subst h2
          exact Or.inr (Or.inl ⟨t, by simp [ig], by simp [ig, hs]⟩)
        · exact Or.inl ⟨c, t, by simp [h1, h2], by simp [ig, hs], hk, h1, h2⟩

theorem keyword_iff (s : Bytes) : keyword s = true ↔ wIf <+: s ∨ wElsif <+: s ∨ wElse <+: s ∨ wRewind <+: s := by
  unfold keyword
  simp [List.isPrefixOf_iff_prefix, kwIf, kwElsif, kwElse, kwRewind, wIf, wElsif, wElse, wRewind, or_assoc]

theorem keyword_nil : keyword [] = false := by decide

theorem keyword_text {N : Numbers} {t : Tree} {s r : Bytes} (h : Text N t s r) (hk : keyword s = true) : wIf <+: s ∨ wRewind <+: s := by
  obtain ⟨c, x, rfl, hc, _⟩ := text_head h
  rcases (keyword_iff _).mp hk with h | ⟨y, h⟩ | ⟨y, h⟩ | h
  · exact Or.inl h
  · simp [wElsif] at h; exact absurd h.1.symm hc
  · simp [wElse] at h; exact absurd h.1.symm hc
  · exact Or.inr h

/-! ## Texts which begin in some way -/

theorem gap_nil_of_start {g x y : Bytes} {c : UInt8} (hg : Gap g) (hc : ¬ (c ∈ blanks ∨ c = 44)) (h : c :: x = g ++ y) : g = [] ∧ y = c :: x := by
  cases g with
  | nil => exact ⟨rfl, h.symm⟩
  | cons d t =>
    simp at h
    exact absurd (hg c (by rw [← h.1]; simp)) hc

theorem text_comma {N : Numbers} {t : Tree} {u r : Bytes} (h : Text N t (44 :: u) r) : Text N t u r := by
  obtain ⟨g, c, x, hg, he, hc, ht⟩ := text_body h
  cases g with
  | nil => simp at he; exact absurd he.1.symm (start_other c hc).1
  | cons d g' =>
    simp at he
    rw [he.2]
    exact text_gap (fun c hc => hg c (by simp [hc])) ht

theorem text_semi {N : Numbers} {t : Tree} {u r : Bytes} (h : Text N t (59 :: u) r) : t = .nil ∧ u = r := by
  have h59 : ¬ ((59 : UInt8) ∈ blanks ∨ (59 : UInt8) = 44) := by decide
  cases t with
  | nil =>
    obtain ⟨g, hg, he⟩ := h
    obtain ⟨hg0, hy⟩ := gap_nil_of_start hg h59 he; subst hg0; clear he; have he := hy
    simp at he
    exact ⟨rfl, he.symm⟩
  | field f rest =>
    obtain ⟨g, w, v, hg, he, hw, _, _⟩ := h
    obtain ⟨hg0, hy⟩ := gap_nil_of_start hg h59 he; subst hg0; clear he; have he := hy
    obtain ⟨c, x, rfl, hc, _⟩ := field_head hw
    simp at he
    rw [he.1] at hc
    exact absurd hc (by decide)
  | rewind n rest =>
    obtain ⟨g, sp, ds, v, hg, he, _⟩ := h
    obtain ⟨hg0, hy⟩ := gap_nil_of_start hg h59 he; subst hg0; clear he; have he := hy
    simp [wRewind] at he
  | cond bs rest =>
    obtain ⟨g, x, v, hg, he, hb, _⟩ := h
    obtain ⟨hg0, hy⟩ := gap_nil_of_start hg h59 he; subst hg0; clear he; have he := hy
    subst he
    cases bs with
    | none => exact absurd hb.1 (by simp)
    | els t => exact absurd hb.1 (by simp)
    | arm c t more =>
      obtain ⟨sp, _, _, _, _, hf, he, _⟩ := hb
      rw [hf rfl] at he
      simp [wIf] at he

theorem text_field {N : Numbers} {t : Tree} {c : UInt8} {x r : Bytes} (h : Text N t (c :: x) r) (hb : c ∉ blanks) (h1 : c ≠ 44) (h2 : c ≠ 59)
    (hk : keyword (c :: x) = false) : ∃ f rest w u, t = .field f rest ∧ c :: x = w ++ u ∧ FieldText N f w ∧ Follows u ∧ Text N rest u r := by
  have hcc : ¬ (c ∈ blanks ∨ c = 44) := by rintro (h | h); exact hb h; exact h1 h
  have hkk : ¬ (keyword (c :: x) = true) := by rw [hk]; simp
  rw [keyword_iff] at hkk
  cases t with
  | nil =>
    obtain ⟨g, hg, he⟩ := h
    obtain ⟨hg0, hy⟩ := gap_nil_of_start hg hcc he; subst hg0; clear he; have he := hy
    simp at he
    exact absurd he.1.symm h2
  | field f rest =>
    obtain ⟨g, w, v, hg, he, hw, hf, ht⟩ := h
    obtain ⟨hg0, hy⟩ := gap_nil_of_start hg hcc he; subst hg0; clear he; have he := hy
    exact ⟨f, rest, w, v, rfl, he.symm, hw, hf, ht⟩
  | rewind n rest =>
    obtain ⟨g, sp, ds, v, hg, he, _⟩ := h
    obtain ⟨hg0, hy⟩ := gap_nil_of_start hg hcc he; subst hg0; clear he; have he := hy
    exact absurd (Or.inr (Or.inr (Or.inr ⟨_, he⟩))) hkk
  | cond bs rest =>
    obtain ⟨g, y, v, hg, he, hb, _⟩ := h
    obtain ⟨hg0, hy⟩ := gap_nil_of_start hg hcc he; subst hg0; clear he; have he := hy
    subst he
    cases bs with
    | none => exact absurd hb.1 (by simp)
    | els t => exact absurd hb.1 (by simp)
    | arm d t more =>
      obtain ⟨sp, _, _, _, _, hf, he, _⟩ := hb
      rw [hf rfl] at he
      exact absurd (Or.inl ⟨_, he.symm⟩) hkk

/-! ## The characters of fields -/

theorem stop_chars : ∀ c : UInt8, isStop c = true ↔ (c ∈ blanks ∨ c = 44 ∨ c = 59 ∨ c = 0) := all256 (by decide +kernel)

instance (c : UInt8) : Decidable (NameChar c) := by unfold NameChar; infer_instance

theorem name_stop : ∀ c : UInt8, NameChar c → c ≠ 44 ∧ c ≠ 59 ∧ c ≠ 0 := all256 (by decide +kernel)
theorem digit_stop : ∀ c : UInt8, c ∈ digits → c ≠ 44 ∧ c ≠ 59 ∧ c ≠ 0 := all256 (by decide +kernel)
theorem space_stop : ∀ c : UInt8, (c = 32 ∨ (9 ≤ c ∧ c ≤ 13)) → c ≠ 44 ∧ c ≠ 59 ∧ c ≠ 0 := all256 (by decide +kernel)

/-- Characters which do not end a field. -/
def Inside (b : Bytes) : Prop := ∀ c ∈ b, c ≠ 44 ∧ c ≠ 59 ∧ c ≠ 0

theorem inside_append {a b : Bytes} (ha : Inside a) (hb : Inside b) : Inside (a ++ b) := by
  intro c hc
  rcases List.mem_append.mp hc with h | h
  · exact ha c h
  · exact hb c h

theorem inside_cons {c : UInt8} {b : Bytes} (hc : c ≠ 44 ∧ c ≠ 59 ∧ c ≠ 0) (hb : Inside b) : Inside (c :: b) := by
  intro d hd
  rcases List.mem_cons.mp hd with h | h
  · rw [h]; exact hc
  · exact hb d h

theorem inside_nil : Inside [] := by intro c hc; cases hc

theorem loose_inside {b : Bytes} {n : Nat} (h : Loose b n) : Inside b := by
  obtain ⟨sp, sg, ds, neg, rfl, h1, h2, _, h4, _⟩ := h
  refine inside_append (fun c hc => space_stop c (h1 c hc)) (inside_append ?_ fun c hc => digit_stop c (h4 c hc))
  intro c hc
  unfold Sign at h2
  rcases h2 with ⟨rfl, _⟩ | ⟨rfl, _⟩ | ⟨_, rfl, _⟩
  · cases hc
  · simp at hc; subst hc; decide
  · simp at hc; subst hc; decide

theorem name_inside {b : Bytes} (h : Name b) : Inside b := fun c hc => name_stop c (h.2 c hc)

theorem ref_inside {b : Bytes} (h : Name b) : Inside (123 :: (b ++ [125])) :=
  inside_cons (by decide) (inside_append (name_inside h) (inside_cons (by decide) inside_nil))

theorem field_inside {f : Field} {b : Bytes} (h : FieldText Loose f b) : Inside b := by
  obtain ⟨a1, a2, a3, a4, rfl, h1, h2, h3, h4, _⟩ := h
  refine inside_append ?_ (inside_append ?_ (inside_append ?_ (inside_append ?_ ?_)))
  · cases f.ty <;> (unfold Inside typeName; decide)
  · unfold SizeText at h1
    split at h1
    · rw [h1.1]; exact inside_nil
    · split at h1
      · rw [h1.1]; exact ref_inside h1.2.1
      · exact loose_inside h1.1
  · unfold SignText at h2
    split at h2
    · rcases h2.2 with h | h <;> rw [h] <;> exact inside_cons (by decide) inside_nil
    · rcases h2 with h | ⟨_, h | h⟩ <;> rw [h]
      · exact inside_nil
      · exact inside_cons (by decide) inside_nil
      · exact inside_cons (by decide) inside_nil
  · unfold CountText at h3
    split at h3
    · rw [h3.1]; exact inside_cons (by decide) (ref_inside h3.2.1)
    · rcases h3 with ⟨rfl, _⟩ | ⟨d, rfl, h, _⟩
      · exact inside_nil
      · exact inside_cons (by decide) (loose_inside h)
  · rcases h4 with ⟨rfl, _⟩ | ⟨rfl, h⟩
    · exact inside_nil
    · exact inside_cons (by decide) (name_inside h)

theorem field_text {f : Field} {b : Bytes} : FieldText Loose f b ↔ field b = .ok f ∧ 3 ≤ b.length ∧ b.length ≤ 65 ∧ ∀ c ∈ b, c ∉ blanks := by
  rw [field_iff]
  constructor
  · rintro ⟨a1, a2, a3, a4, h, h1, h2, h3, h4, h5⟩
    exact ⟨⟨a1, a2, a3, a4, h, h1, h2, h3, h4⟩, h5⟩
  · rintro ⟨⟨a1, a2, a3, a4, h, h1, h2, h3, h4⟩, h5⟩
    exact ⟨a1, a2, a3, a4, h, h1, h2, h3, h4, h5⟩

/-! ## Groups of fields -/

theorem node_nil (k : Nat) : node (k + 1) [] = .ok (false, [], []) := by rw [node, if_pos rfl]

/-- A group with a field: the text of the field, and what comes after it. -/
def nodeField (k : Nat) (w r : Bytes) : Parsed (Bool × List Field × Bytes) :=
  bind (field w) fun f =>
    match checkEnd r with
    | (.comma, s2) => bind (node k s2) fun x => .ok (x.1, f :: x.2.1, x.2.2)
    | (.other, _) => .soft
    | (m, s2) => .ok (m = .semicolon, [f], s2)

theorem node_other {k : Nat} {s s1 : Bytes} (hs : s ≠ []) (h : checkEnd s = (.other, s1)) :
    node (k + 1) s = if s1.takeWhile (fun c => !isStop c) = [] then .ok (false, [], s1)
      else if (s1.takeWhile fun c => !isStop c).length < 3 ∨ 65 < (s1.takeWhile fun c => !isStop c).length then .soft
      else nodeField k (s1.takeWhile fun c => !isStop c) (s1.dropWhile fun c => !isStop c) := by
  rw [node, if_neg hs, h]
  simp only
  by_cases hw : s1.takeWhile (fun c => !isStop c) = []
  · rw [if_pos hw, if_pos hw]
  · rw [if_neg hw, if_neg hw]
    by_cases h1 : (s1.takeWhile fun c => !isStop c).length = 1
    · rw [if_pos h1, if_pos (Or.inl (by omega))]
    · rw [if_neg h1]
      by_cases h2 : (s1.takeWhile fun c => !isStop c).length - 1 > 64
      · rw [if_pos h2, if_pos (Or.inr (by omega))]
      · rw [if_neg h2]
        by_cases h3 : (s1.takeWhile fun c => !isStop c).length - 1 < 2
        · rw [if_pos h3, if_pos (Or.inl (by omega))]
        · rw [if_neg h3, if_neg (by omega)]
          rfl

theorem node_mark {k : Nat} {s s1 : Bytes} {m : Mark} (hs : s ≠ []) (h : checkEnd s = (m, s1)) (hm : m ≠ .other) : node (k + 1) s = .ok (m = .semicolon, [], s1) := by
  rw [node, if_neg hs, h]
  cases m <;> first | rfl | exact absurd rfl hm

theorem nodeField_comma {k : Nat} {w r s2 : Bytes} {f : Field} (hf : field w = .ok f) (h : checkEnd r = (.comma, s2)) :
    nodeField k w r = bind (node k s2) fun x => .ok (x.1, f :: x.2.1, x.2.2) := by
  rw [nodeField, hf]; simp only [bind]; rw [h]

theorem nodeField_mark {k : Nat} {w r s2 : Bytes} {f : Field} {m : Mark} (hf : field w = .ok f) (h : checkEnd r = (m, s2)) (h1 : m ≠ .other) (h2 : m ≠ .comma) :
    nodeField k w r = .ok (m = .semicolon, [f], s2) := by
  rw [nodeField, hf]; simp only [bind]; rw [h]
  cases m <;> first | rfl | exact absurd rfl h1 | exact absurd rfl h2

theorem nodeField_other {k : Nat} {w r s2 : Bytes} {f : Field} (hf : field w = .ok f) (h : checkEnd r = (.other, s2)) : nodeField k w r = .soft := by
  rw [nodeField, hf]; simp only [bind]; rw [h]

theorem gap44 {sp : Bytes} (h : Blank sp) : Gap (sp ++ [44]) := gap_append (blank_gap h) (by intro c hc; simp at hc; exact Or.inr hc)

/-- A gap with a comma can be added. -/
theorem text_of_comma {N : Numbers} {t : Tree} {s u r : Bytes} (hs : ig s = 44 :: u) (h : Text N t (ig u) r) : Text N t s r := by
  obtain ⟨sp, h1, h2, _⟩ := ig_split s
  rw [h1, hs]
  have := text_gap (gap44 h2) (text_of_ig h)
  simpa using this

theorem follows_comma {s u : Bytes} (hs : ig s = 44 :: u) : Follows s := by
  obtain ⟨sp, h1, h2, _⟩ := ig_split s
  exact ⟨sp, 44 :: u, by rw [← hs]; exact h1, h2, Or.inl ⟨u, Or.inl rfl⟩⟩

theorem follows_semi {s u : Bytes} (hs : ig s = 59 :: u) : Follows s := by
  obtain ⟨sp, h1, h2, _⟩ := ig_split s
  exact ⟨sp, 59 :: u, by rw [← hs]; exact h1, h2, Or.inl ⟨u, Or.inr rfl⟩⟩

theorem text_semi_of {N : Numbers} {s u : Bytes} (hs : ig s = 59 :: u) : Text N .nil s u := by
  obtain ⟨sp, h1, h2, _⟩ := ig_split s
  exact ⟨sp, blank_gap h2, by rw [← hs]; exact h1⟩

theorem keyword_stop {c : UInt8} {t : Bytes} (h : isStop c = true) : keyword (c :: t) = false := by
  have h1 : c ≠ 73 ∧ c ≠ 69 ∧ c ≠ 82 := by
    refine (all256 (P := fun c => isStop c = true → c ≠ 73 ∧ c ≠ 69 ∧ c ≠ 82) (by decide +kernel)) c h
  cases hk : keyword (c :: t) with
  | false => rfl
  | true =>
    rcases (keyword_iff _).mp hk with ⟨y, h⟩ | ⟨y, h⟩ | ⟨y, h⟩ | ⟨y, h⟩
    · simp [wIf] at h; exact absurd h.1.symm h1.1
    · simp [wElsif] at h; exact absurd h.1.symm h1.2.1
    · simp [wElse] at h; exact absurd h.1.symm h1.2.1
    · simp [wRewind] at h; exact absurd h.1.symm h1.2.2

/-- What the accepted groups of fields are. -/
theorem node_sound : ∀ (k : Nat) (s s3 : Bytes) (semi : Bool) (fs : List Field), node k s = .ok (semi, fs, s3) →
    (semi = true → ∃ r, Text Loose (withFields fs .nil) s r ∧ s3 = ig r) ∧
    (semi = false → s3.length ≤ s.length ∧ ∀ t r, Text Loose t s3 r → Text Loose (withFields fs t) s r) := by
  intro k
  induction k with
  | zero => intro s s3 semi fs h; rw [node] at h; cases h
  | succ k ih =>
    intro s s3 semi fs h
    by_cases hs : s = []
    · subst hs
      rw [node_nil] at h
      cases h
      exact ⟨by simp, fun _ => ⟨Nat.le_refl _, fun t r h => h⟩⟩
    · have hlen := ig_length s
      rcases checkEnd_cases s with ⟨c, t, h1, h2, h3, h4, h5⟩ | ⟨t, h1, h2⟩ | ⟨t, h1, h2, h3⟩ | ⟨h1, h2⟩ | ⟨t, h1, h2, h3⟩ | ⟨h1, h2⟩
      · rw [node_other hs h1] at h
        obtain ⟨e1, e2, e3⟩ := (span_iff (fun c => !isStop c) (c :: t) _ _).mp ⟨rfl, rfl⟩
        revert h e1 e2 e3
        generalize (c :: t).takeWhile (fun c => !isStop c) = w
        generalize (c :: t).dropWhile (fun c => !isStop c) = u
        intro h e1 e2 e3
        by_cases hw : w = []
        · rw [if_pos hw] at h
          cases h
          refine ⟨by simp, fun _ => ⟨by rw [← h2]; exact hlen, fun x r hx => ?_⟩⟩
          rw [← h2] at hx
          exact text_of_ig hx
        · rw [if_neg hw] at h
          by_cases hl : w.length < 3 ∨ 65 < w.length
          · rw [if_pos hl] at h; cases h
          · rw [if_neg hl] at h
            cases hf : field w with
            | soft => rw [nodeField, hf] at h; cases h
            | bug => rw [nodeField, hf] at h; cases h
            | ok f =>
              have hft : FieldText Loose f w := field_text.mpr ⟨hf, by omega, by omega, fun c hc hb => by
                have := e2 c hc
                rw [(stop_chars c).mpr (Or.inl hb)] at this
                cases this⟩
              have step : ∀ rest r, Follows u → Text Loose rest u r → Text Loose (.field f rest) s r := by
                intro rest r hfo ht
                apply text_of_ig
                rw [h2]
                exact ⟨[], w, u, (by intro c hc; cases hc), e1, hft, hfo, ht⟩
              have hul : u.length < s.length := by
                have := congrArg List.length e1
                rw [← h2] at this
                simp at this
                have : 0 < w.length := by cases w with | nil => exact absurd rfl hw | cons _ _ => simp
                omega
              have hulen := ig_length u
              rcases checkEnd_cases u with ⟨c', t', g1, g2, g3, g4, g5⟩ | ⟨t', g1, g2⟩ | ⟨t', g1, g2, g3⟩ | ⟨g1, g2⟩ | ⟨t', g1, g2, g3⟩ | ⟨g1, g2⟩
              · rw [nodeField_other hf g1] at h; cases h
              · rw [nodeField_mark hf g1 (by decide) (by decide)] at h
                cases h
                exact ⟨fun _ => ⟨t', step _ _ (follows_semi g2) (text_semi_of g2), rfl⟩, by simp⟩
              · rw [nodeField_comma hf g1, bind_ok] at h
                obtain ⟨⟨b, fs', s4⟩, hx, he⟩ := h
                cases he
                obtain ⟨i1, i2⟩ := ih _ _ _ _ hx
                refine ⟨fun hb => ?_, fun hb => ?_⟩
                · obtain ⟨r, hr, hs3⟩ := i1 hb
                  exact ⟨r, step _ _ (follows_comma g2) (text_of_comma g2 hr), hs3⟩
                · obtain ⟨i2, i3⟩ := i2 hb
                  have := ig_length t'
                  rw [g2] at hulen
                  simp at hulen
                  refine ⟨by simp only at *; omega, fun x r hx => step _ _ (follows_comma g2) (text_of_comma g2 (i3 x r hx))⟩
              · rw [nodeField_mark hf g1 (by decide) (by decide)] at h
                cases h
                refine ⟨by simp, fun _ => ⟨by omega, fun x r hx => ?_⟩⟩
                refine step _ _ ?_ (text_of_ig hx)
                obtain ⟨sp, k1, k2, _⟩ := ig_split u
                refine ⟨sp, ig u, k1, k2, Or.inr ⟨fun hsp => ?_, keyword_text hx g2⟩⟩
                subst hsp
                rw [List.nil_append] at k1
                rw [← k1] at g2
                cases hu : u with
                | nil => rw [hu] at g2; exact absurd g2 (by decide)
                | cons a b =>
                  have := e3 a (by rw [hu]; rfl)
                  rw [hu, keyword_stop (by simpa using this)] at g2
                  cases g2
              · rw [nodeField_mark hf g1 (by decide) (by decide)] at h
                cases h
                have := ig_length t'
                rw [g2] at hulen
                simp at hulen
                exact ⟨by simp, fun _ => ⟨by omega, fun x r hx => step _ _ (follows_comma g2) (text_of_comma g2 hx)⟩⟩
              · rw [nodeField_mark hf g1 (by decide) (by decide)] at h
                cases h
                refine ⟨by simp, fun _ => ⟨by simp, fun x r hx => ?_⟩⟩
                obtain ⟨c, y, hy, _⟩ := text_head hx
                cases hy
      · rw [node_mark hs h1 (by decide)] at h
        cases h
        exact ⟨fun _ => ⟨t, text_semi_of h2, rfl⟩, by simp⟩
      · rw [node_mark hs h1 (by decide)] at h
        cases h
        have := ig_length t
        rw [h2] at hlen
        simp at hlen
        exact ⟨by simp, fun _ => ⟨by omega, fun x r hx => text_of_comma h2 hx⟩⟩
      · rw [node_mark hs h1 (by decide)] at h
        cases h
        exact ⟨by simp, fun _ => ⟨hlen, fun x r hx => text_of_ig hx⟩⟩
      · rw [node_mark hs h1 (by decide)] at h
        cases h
        have := ig_length t
        rw [h2] at hlen
        simp at hlen
        exact ⟨by simp, fun _ => ⟨by omega, fun x r hx => text_of_comma h2 hx⟩⟩
      · rw [node_mark hs h1 (by decide)] at h
        cases h
        refine ⟨by simp, fun _ => ⟨by simp, fun x r hx => ?_⟩⟩
        obtain ⟨c, y, hy, _⟩ := text_head hx
        cases hy

theorem follows_ig {u : Bytes} (h : Follows u) : (∃ t, ig u = 44 :: t ∨ ig u = 59 :: t) ∨ keyword (ig u) = true := by
  obtain ⟨sp, r, rfl, h1, h2⟩ := h
  rcases h2 with ⟨t, rfl | rfl⟩ | ⟨_, h2⟩
  · exact Or.inl ⟨t, Or.inl (ig_of h1 (by intro c hc; simp at hc; subst hc; decide))⟩
  · exact Or.inl ⟨t, Or.inr (ig_of h1 (by intro c hc; simp at hc; subst hc; decide))⟩
  · right
    rw [ig_of h1 _]
    · rw [keyword_iff]
      rcases h2 with h | h
      · exact Or.inl h
      · exact Or.inr (Or.inr (Or.inr h))
    · rcases h2 with ⟨x, rfl⟩ | ⟨x, rfl⟩
      · intro c hc; simp [wIf] at hc; subst hc; decide
      · intro c hc; simp [wRewind] at hc; subst hc; decide

theorem follows_stop {u : Bytes} (h : Follows u) : ∀ c, u.head? = some c → (!isStop c) = false := by
  obtain ⟨sp, r, rfl, h1, h2⟩ := h
  intro c hc
  have : isStop c = true := by
    rw [stop_chars]
    cases sp with
    | cons d x =>
      simp at hc
      subst hc
      exact Or.inl (h1 d (by simp))
    | nil =>
      rcases h2 with ⟨t, rfl | rfl⟩ | ⟨h2, _⟩
      · simp at hc; exact Or.inr (Or.inl hc.symm)
      · simp at hc; exact Or.inr (Or.inr (Or.inl hc.symm))
      · exact absurd rfl h2
  rw [this]; rfl

theorem text_comma_ig {N : Numbers} {t : Tree} {s u r : Bytes} (h : Text N t s r) (hs : ig s = 44 :: u) : Text N t (ig u) r := by
  have := text_ig h
  rw [hs] at this
  exact text_ig (text_comma this)

/-- Texts of definitions are read. -/
theorem node_complete : ∀ (k : Nat) (s r : Bytes) (t : Tree), Text Loose t s r → s.length + 1 ≤ k → ∃ semi fs s3, node k s = .ok (semi, fs, s3) ∧
    (semi = true → t = withFields fs .nil ∧ s3 = ig r) ∧
    (semi = false → ∃ t', t = withFields fs t' ∧ Text Loose t' s3 r ∧ s3.length ≤ s.length ∧ (s3.length < s.length ∨ keyword s = true)) := by
  intro k
  induction k with
  | zero => intro s r t _ hk; omega
  | succ k ih =>
    intro s r t ht hk
    have hs : s ≠ [] := by
      obtain ⟨c, x, rfl, _⟩ := text_head ht
      simp
    have hlen := ig_length s
    rcases checkEnd_cases s with ⟨c, x, h1, h2, h3, h4, h5⟩ | ⟨x, h1, h2⟩ | ⟨x, h1, h2, h3⟩ | ⟨h1, h2⟩ | ⟨x, h1, h2, h3⟩ | ⟨h1, h2⟩
    · have hti := text_ig ht
      obtain ⟨_, _, _, hbl⟩ := ig_split s
      rw [h2] at hti hbl
      obtain ⟨f, rest, w, u, rfl, hwu, hfw, hfo, hrest⟩ := text_field hti (hbl c rfl) h4 h5 h3
      obtain ⟨e1, e2⟩ := (span_iff (fun c => !isStop c) (c :: x) w u).mpr ⟨hwu, fun d hd => by
        have h6 := field_inside hfw d hd
        have h7 := (field_text.mp hfw).2.2.2 d hd
        cases hq : isStop d with
        | false => rfl
        | true =>
          rcases (stop_chars d).mp hq with h | h | h | h
          · exact absurd h h7
          · exact absurd h h6.1
          · exact absurd h h6.2.1
          · exact absurd h h6.2.2, follows_stop hfo⟩
      obtain ⟨hfield, hl1, hl2, _⟩ := field_text.mp hfw
      have hw : w ≠ [] := by intro h; rw [h] at hl1; simp at hl1
      rw [node_other hs h1, e1, e2, if_neg hw, if_neg (by omega)]
      have hul : u.length < s.length := by
        have := congrArg List.length hwu
        rw [← h2] at this
        simp at this
        omega
      have hulen := ig_length u
      rcases checkEnd_cases u with ⟨c', t', g1, g2, g3, g4, g5⟩ | ⟨t', g1, g2⟩ | ⟨t', g1, g2, g3⟩ | ⟨g1, g2⟩ | ⟨t', g1, g2, g3⟩ | ⟨g1, g2⟩
      · rcases follows_ig hfo with ⟨y, h | h⟩ | h
        · rw [g2] at h; cases h; exact absurd rfl g4
        · rw [g2] at h; cases h; exact absurd rfl g5
        · rw [g2, g3] at h; cases h
      · have hx := text_ig hrest
        rw [g2] at hx
        obtain ⟨rfl, rfl⟩ := text_semi hx
        exact ⟨true, [f], ig t', by rw [nodeField_mark hfield g1 (by decide) (by decide)]; rfl, fun _ => ⟨rfl, rfl⟩, by simp⟩
      · have := ig_length t'
        rw [g2] at hulen
        simp at hulen
        obtain ⟨semi, fs, s3, i1, i2, i3⟩ := ih (ig t') r rest (text_comma_ig hrest g2) (by omega)
        refine ⟨semi, f :: fs, s3, by rw [nodeField_comma hfield g1, i1]; rfl, fun hb => ?_, fun hb => ?_⟩
        · obtain ⟨j1, j2⟩ := i2 hb
          exact ⟨by rw [j1]; rfl, j2⟩
        · obtain ⟨t'', j1, j2, j3, _⟩ := i3 hb
          exact ⟨t'', by rw [j1]; rfl, j2, by omega, Or.inl (by omega)⟩
      · exact ⟨false, [f], ig u, by rw [nodeField_mark hfield g1 (by decide) (by decide)]; rfl, by simp, fun _ => ⟨rest, rfl, text_ig hrest, by omega, Or.inl (by omega)⟩⟩
      · have := ig_length t'
        rw [g2] at hulen
        simp at hulen
        exact ⟨false, [f], ig t', by rw [nodeField_mark hfield g1 (by decide) (by decide)]; rfl, by simp, fun _ => ⟨rest, rfl, text_comma_ig hrest g2, by omega, Or.inl (by omega)⟩⟩
      · exfalso
        rcases g2 with h | ⟨y, h, h'⟩
        · have := text_ig hrest
          rw [h] at this
          obtain ⟨_, _, hh, _⟩ := text_head this
          cases hh
        · have := text_comma_ig hrest h
          rw [h'] at this
          obtain ⟨_, _, hh, _⟩ := text_head this
          cases hh
    · have hx := text_ig ht
      rw [h2] at hx
      obtain ⟨rfl, rfl⟩ := text_semi hx
      exact ⟨true, [], ig x, node_mark hs h1 (by decide), fun _ => ⟨rfl, rfl⟩, by simp⟩
    · have := ig_length x
      rw [h2] at hlen
      simp at hlen
      exact ⟨false, [], ig x, node_mark hs h1 (by decide), by simp, fun _ => ⟨t, rfl, text_comma_ig ht h2, by omega, Or.inl (by omega)⟩⟩
    · refine ⟨false, [], ig s, node_mark hs h1 (by decide), by simp, fun _ => ⟨t, rfl, text_ig ht, hlen, ?_⟩⟩
      by_cases hl : (ig s).length < s.length
      · exact Or.inl hl
      · right
        obtain ⟨sp, k1, _, _⟩ := ig_split s
        have := congrArg List.length k1
        simp at this
        have : sp = [] := List.eq_nil_of_length_eq_zero (by omega)
        rw [this, List.nil_append] at k1
        rw [← k1] at h2
        exact h2
    · have := ig_length x
      rw [h2] at hlen
      simp at hlen
      exact ⟨false, [], ig x, node_mark hs h1 (by decide), by simp, fun _ => ⟨t, rfl, text_comma_ig ht h2, by omega, Or.inl (by omega)⟩⟩
    · exfalso
      rcases h2 with h | ⟨y, h, h'⟩
      · have := text_ig ht
        rw [h] at this
        obtain ⟨_, _, hh, _⟩ := text_head this
        cases hh
      · have := text_comma_ig ht h
        rw [h'] at this
        obtain ⟨_, _, hh, _⟩ := text_head this
        cases hh

theorem node_bug : ∀ (k : Nat) (s : Bytes), s.length + 1 ≤ k → node k s ≠ .bug := by
  intro k
  induction k with
  | zero => intro s hk; omega
  | succ k ih =>
    intro s hk h
    by_cases hs : s = []
    · subst hs; rw [node_nil] at h; cases h
    · have hlen := ig_length s
      rcases checkEnd_cases s with ⟨c, t, h1, h2, h3, h4, h5⟩ | ⟨t, h1, h2⟩ | ⟨t, h1, h2, h3⟩ | ⟨h1, h2⟩ | ⟨t, h1, h2, h3⟩ | ⟨h1, h2⟩
      · rw [node_other hs h1] at h
        obtain ⟨e1, _, _⟩ := (span_iff (fun c => !isStop c) (c :: t) _ _).mp ⟨rfl, rfl⟩
        revert h e1
        generalize (c :: t).takeWhile (fun c => !isStop c) = w
        generalize (c :: t).dropWhile (fun c => !isStop c) = u
        intro h e1
        split at h
        · cases h
        · split at h
          · cases h
          · cases hf : field w with
            | soft => rw [nodeField, hf] at h; cases h
            | bug => exact field_bug w hf
            | ok f =>
              have hulen := ig_length u
              have hus : u.length ≤ s.length := by
                have := congrArg List.length e1
                rw [← h2] at this
                simp at this
                omega
              rcases checkEnd_cases u with ⟨c', t', g1, g2, g3, g4, g5⟩ | ⟨t', g1, g2⟩ | ⟨t', g1, g2, g3⟩ | ⟨g1, g2⟩ | ⟨t', g1, g2, g3⟩ | ⟨g1, g2⟩
              · rw [nodeField_other hf g1] at h; cases h
              · rw [nodeField_mark hf g1 (by decide) (by decide)] at h; cases h
              · rw [nodeField_comma hf g1] at h
                rcases bind_bug h with h | ⟨_, _, h⟩
                · have := ig_length t'
                  rw [g2] at hulen
                  simp at hulen
                  exact ih _ (by omega) h
                · cases h
              · rw [nodeField_mark hf g1 (by decide) (by decide)] at h; cases h
              · rw [nodeField_mark hf g1 (by decide) (by decide)] at h; cases h
              · rw [nodeField_mark hf g1 (by decide) (by decide)] at h; cases h
      all_goals (rw [node_mark hs h1 (by decide)] at h; cases h)

/-! ## The number of steps -/

theorem rewindCount_iff (s r : Bytes) (n : Nat) : rewindCount s = .ok (n, r) ↔ ∃ sp ds, s = sp ++ (ds ++ r) ∧ Blank sp ∧ Plain ds n ∧ ds.length ≤ 12 ∧ n < 2 ^ 32 ∧ NoDigit r := by
  have hdig : ∀ c : UInt8, Parse.isDigit c = true ↔ c ∈ digits := by
    intro c; rw [digit_chars, dec_chars]; simp
  constructor
  · intro h
    unfold rewindCount at h
    simp only at h
    obtain ⟨sp, h1, h2, _⟩ := ig_split s
    obtain ⟨e1, e2, e3⟩ := (span_iff Parse.isDigit (ig s) _ _).mp ⟨rfl, rfl⟩
    revert h e1 e2 e3
    generalize (ig s).takeWhile Parse.isDigit = ds
    generalize (ig s).dropWhile Parse.isDigit = u
    intro h e1 e2 e3
    split at h
    · cases h
    · split at h
      · cases h
      · rename_i hds
        split at h
        · cases h
        · split at h
          · cases h
          · rename_i hl hn
            cases h
            exact ⟨sp, ds, by rw [← e1]; exact h1, h2, ⟨hds, fun c hc => (hdig c).mp (e2 c hc), decimal_eq ds⟩, by omega, by omega,
              fun c hc => by rw [← digit_chars]; exact e3 c hc⟩
  · rintro ⟨sp, ds, rfl, h2, ⟨h3, h4, rfl⟩, h5, h6, h7⟩
    have hig : Parse.ignoreSpaces (sp ++ (ds ++ r)) = ds ++ r := by
      refine ig_of h2 ?_
      cases ds with
      | nil => exact absurd rfl h3
      | cons d x =>
        intro c hc
        simp at hc
        subst hc
        exact (all256 (P := fun c => c ∈ digits → c ∉ blanks) (by decide +kernel)) d (h4 d (by simp))
    obtain ⟨e1, e2⟩ := (span_iff Parse.isDigit (ds ++ r) ds r).mpr ⟨rfl, fun c hc => (hdig c).mpr (h4 c hc), fun c hc => by rw [digit_chars]; exact h7 c hc⟩
    unfold rewindCount
    simp only [hig, e1, e2]
    rw [decimal_eq, if_neg (by simp [h3]), if_neg h3, if_neg (by omega), if_neg (by omega)]

theorem rewindCount_bug (s : Bytes) : rewindCount s ≠ .bug := by
  unfold rewindCount
  simp only
  repeat' split
  all_goals simp

end Verif.ArrayDef
