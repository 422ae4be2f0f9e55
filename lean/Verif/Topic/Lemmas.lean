import Verif.Topic.Model
import Verif.Topic.Spec
import Verif.Utf8.Props
/-!
# Helper lemmas for topic tokenizing, validation and matching
-/
namespace Verif.Topic
open Verif Spec

/-! ## Splitting into levels -/

/-- Structural splitting at '/', used only in proofs. -/
def split : Bytes → List Bytes
  | [] => [[]]
  | c :: cs =>
    if c = slash then [] :: split cs
    else match split cs with
      | [] => [[c]]
      | h :: t => (c :: h) :: t

theorem split_ne_nil (s : Bytes) : split s ≠ [] := by
  cases s with
  | nil => simp [split]
  | cons c cs =>
    unfold split
    split
    · simp
    · split <;> simp

theorem split_cons_ne {c : UInt8} {cs : Bytes} (h : c ≠ slash) :
    ∃ l ls, split cs = l :: ls ∧ split (c :: cs) = (c :: l) :: ls := by
  cases hs : split cs with
  | nil => exact absurd hs (split_ne_nil cs)
  | cons l ls => exact ⟨l, ls, rfl, by simp [split, h, hs]⟩

theorem join_cons {l : Bytes} {ls : List Bytes} (h : ls ≠ []) : join (l :: ls) = l ++ slash :: join ls := by
  cases ls with
  | nil => contradiction
  | cons a as => rfl

theorem join_cons_head (c : UInt8) (l : Bytes) (ls : List Bytes) :
    join ((c :: l) :: ls) = c :: join (l :: ls) := by
  cases ls <;> rfl

theorem join_split (s : Bytes) : join (split s) = s := by
  induction s with
  | nil => rfl
  | cons c cs ih =>
    by_cases h : c = slash
    · subst h
      rw [split, if_pos rfl, join_cons (split_ne_nil cs), ih]; rfl
    · obtain ⟨l, ls, h1, h2⟩ := split_cons_ne (cs := cs) h
      rw [h2, join_cons_head, ← h1, ih]

theorem split_noslash (s : Bytes) : ∀ l ∈ split s, slash ∉ l := by
  induction s with
  | nil => simp [split]
  | cons c cs ih =>
    by_cases h : c = slash
    · subst h
      rw [split, if_pos rfl]
      intro l hl
      rcases List.mem_cons.mp hl with rfl | hl
      · simp
      · exact ih l hl
    · obtain ⟨l, ls, h1, h2⟩ := split_cons_ne (cs := cs) h
      rw [h2]
      rw [h1] at ih
      intro x hx
      rcases List.mem_cons.mp hx with rfl | hx
      · simp only [List.mem_cons, not_or]
        exact ⟨fun e => h e.symm, ih l (by simp)⟩
      · exact ih x (by simp [hx])

theorem isLevels_split (s : Bytes) : IsLevels s (split s) :=
  ⟨split_ne_nil s, join_split s, split_noslash s⟩

theorem split_append_noslash {l : Bytes} (hl : slash ∉ l) : split l = [l] := by
  induction l with
  | nil => rfl
  | cons c cs ih =>
    simp only [List.mem_cons, not_or] at hl
    have := ih hl.2
    simp [split, Ne.symm hl.1, this]

theorem split_append_slash {l : Bytes} (hl : slash ∉ l) (r : Bytes) :
    split (l ++ slash :: r) = l :: split r := by
  induction l with
  | nil => simp [split]
  | cons c cs ih =>
    simp only [List.mem_cons, not_or] at hl
    have := ih hl.2
    simp [split, Ne.symm hl.1, this]

theorem split_join {ls : List Bytes} (h0 : ls ≠ []) (h : ∀ l ∈ ls, slash ∉ l) : split (join ls) = ls := by
  induction ls with
  | nil => contradiction
  | cons l ls ih =>
    by_cases hls : ls = []
    · subst hls; exact split_append_noslash (h l (by simp))
    · rw [join_cons hls, split_append_slash (h l (by simp)), ih hls (fun x hx => h x (by simp [hx]))]

/-- The levels of a topic are unique. -/
theorem IsLevels.eq_split {s : Bytes} {ls : List Bytes} (h : IsLevels s ls) : ls = split s := by
  obtain ⟨h0, h1, h2⟩ := h
  rw [← h1, split_join h0 h2]

/-! ## The tokenizer -/

theorem takeWhile_noslash (s : Bytes) : slash ∉ s.takeWhile (· ≠ slash) := by
  intro h
  have := List.all_takeWhile (p := fun x : UInt8 => decide (x ≠ slash)) (l := s)
  rw [List.all_eq_true] at this
  simpa using this _ h

theorem take_len_takeWhile {α : Type} (p : α → Bool) (s : List α) :
    s.take (s.takeWhile p).length = s.takeWhile p := by
  have h := List.takeWhile_append_dropWhile (p := p) (l := s)
  have := List.take_left (l₁ := s.takeWhile p) (l₂ := s.dropWhile p)
  rwa [h] at this

theorem drop_len_takeWhile {α : Type} (p : α → Bool) (s : List α) :
    s.drop (s.takeWhile p).length = s.dropWhile p := by
  have h := List.takeWhile_append_dropWhile (p := p) (l := s)
  have := List.drop_left (l₁ := s.takeWhile p) (l₂ := s.dropWhile p)
  rwa [h] at this

theorem dropWhile_cases (s : Bytes) :
    s.dropWhile (· ≠ slash) = [] ∨ ∃ r, s.dropWhile (· ≠ slash) = slash :: r := by
  cases hd : s.dropWhile (· ≠ slash) with
  | nil => exact Or.inl rfl
  | cons x t =>
    right
    have := List.head_dropWhile_not (fun x : UInt8 => decide (x ≠ slash)) (l := s) (by rw [hd]; simp)
    simp only [hd, List.head_cons, decide_eq_false_iff_not, ne_eq, Classical.not_not] at this
    exact ⟨t, by rw [this]⟩

theorem split_of_dropWhile_nil {s : Bytes} (h : s.dropWhile (· ≠ slash) = []) :
    split s = [s.takeWhile (· ≠ slash)] := by
  have := List.takeWhile_append_dropWhile (p := fun x : UInt8 => decide (x ≠ slash)) (l := s)
  rw [h, List.append_nil] at this
  rw [this]
  exact split_append_noslash (this ▸ takeWhile_noslash s)

theorem split_of_dropWhile_cons {s r : Bytes} (h : s.dropWhile (· ≠ slash) = slash :: r) :
    split s = s.takeWhile (· ≠ slash) :: split r := by
  have := List.takeWhile_append_dropWhile (p := fun x : UInt8 => decide (x ≠ slash)) (l := s)
  rw [h] at this
  conv => lhs; rw [← this]
  exact split_append_slash (takeWhile_noslash s) r

theorem cstr_of_no_nul {s : Bytes} (h : (0 : UInt8) ∉ s) : cstr s = s := by
  unfold cstr
  have := List.takeWhile_append_of_pos (p := fun x : UInt8 => decide (x ≠ 0)) (l₁ := s) (l₂ := [])
      (fun a ha => by simp only [decide_eq_true_eq]; rintro rfl; exact h ha)
  simpa using this

theorem tokenizeFuel_eq : ∀ (fuel : Nat) (s : Bytes), s.length ≤ fuel → s ≠ [] → (0 : UInt8) ∉ s →
    tokenizeFuel fuel s = split s := by
  intro fuel
  induction fuel with
  | zero => intro s h h0; simp at h; contradiction
  | succ fuel ih =>
    intro s hlen h0 hnul
    have htok : cstr (s.take (s.takeWhile (· ≠ slash)).length) = s.takeWhile (· ≠ slash) := by
      rw [take_len_takeWhile]
      exact cstr_of_no_nul (fun h => hnul ((List.takeWhile_subset _) h))
    have hunf : tokenizeFuel (fuel + 1) s =
        (let len := (s.takeWhile (· ≠ slash)).length
         let tok := cstr (s.take len)
         if s.drop len = [slash] then tok :: [cstr [0]]
         else
          let rest := s.drop (len + 1)
          tok :: (if rest ≠ [] then tokenizeFuel fuel rest else [])) := by
      cases s with
      | nil => contradiction
      | cons _ _ => rfl
    rw [hunf]
    simp only [htok, drop_len_takeWhile]
    rw [← List.drop_drop, drop_len_takeWhile]
    rcases dropWhile_cases s with hd | ⟨r, hd⟩
    · rw [hd, split_of_dropWhile_nil hd]; simp
    · rw [split_of_dropWhile_cons hd]
      simp only [hd, List.drop_succ_cons, List.drop_zero, List.cons.injEq, true_and]
      by_cases hr : r = []
      · subst hr; rfl
      · rw [if_neg hr, if_pos hr]
        congr 1
        have hl : (slash :: r).length ≤ s.length := by
          rw [← hd]; exact (List.dropWhile_sublist _).length_le
        simp only [List.length_cons] at hl
        apply ih r (by omega) hr
        intro hz
        apply hnul
        have : (0 : UInt8) ∈ s.dropWhile (· ≠ slash) := by rw [hd]; simp [hz]
        exact (List.dropWhile_sublist _).subset this

theorem tokenize_eq_split {s : Bytes} (h0 : s ≠ []) (hnul : (0 : UInt8) ∉ s) : tokenize s = split s :=
  tokenizeFuel_eq _ s (Nat.le_refl _) h0 hnul

/-! ## Validation -/

/-- Level conditions in recursive form. -/
def FLO : List Bytes → Prop
  | [] => True
  | h :: t => (plus ∈ h → h = [plus]) ∧ (hash ∈ h → h = [hash]) ∧ (t ≠ [] → h ≠ [hash]) ∧ FLO t

theorem FLO_iff (ls : List Bytes) : FLO ls ↔ FilterLevelsOk ls := by
  induction ls with
  | nil => simp [FLO, FilterLevelsOk]
  | cons h t ih =>
    unfold FLO
    rw [ih]
    unfold FilterLevelsOk
    cases t with
    | nil => simp
    | cons a as => simp; grind

/-- Byte-level form of the filter character check, remembering the previous byte. -/
def fcheck (prev : Nat) : List Nat → Bool
  | [] => true
  | c :: cs => (filterCharIsOk ⟨0, prev⟩ c).isSome && fcheck c cs

theorem filterCharIsOk_congr (a b prev c : Nat) :
    filterCharIsOk ⟨a, prev⟩ c = filterCharIsOk ⟨b, prev⟩ c := by
  unfold filterCharIsOk; simp only

theorem filterCharIsOk_some {s s' : Seq} {c : Nat} (h : filterCharIsOk s c = some s') : s' = ⟨s.c2, c⟩ := by
  unfold filterCharIsOk at h
  simp only at h
  repeat' split at h
  all_goals first | contradiction | (simpa using h.symm)

theorem foldlM_eq_fcheck : ∀ (cs : List Nat) (st : Seq),
    (cs.foldlM filterCharIsOk st).isSome = fcheck st.c2 cs := by
  intro cs
  induction cs with
  | nil => intro st; rfl
  | cons c cs ih =>
    intro st
    rw [List.foldlM_cons, fcheck]
    rw [filterCharIsOk_congr 0 st.c1 st.c2 c]
    cases h : filterCharIsOk st c with
    | none => simp
    | some s' =>
      have hs' := filterCharIsOk_some h
      simp only [Option.bind_eq_bind, Option.bind_some, Option.isSome_some, Bool.true_and]
      rw [ih, hs']

/-- Numbers which the check treats as an ordinary character. -/
def Other (c : Nat) : Prop := c ≠ 0x23 ∧ c ≠ 0x2B ∧ c ≠ 0x2F ∧ c ≠ 0

theorem fcheck_other {c c' : Nat} (h : Other c) (h' : Other c') (cs : List Nat) :
    fcheck c cs = fcheck c' cs := by
  cases cs with
  | nil => rfl
  | cons x xs =>
    unfold fcheck filterCharIsOk
    unfold Other at h h'
    simp [h.1, h.2.1, h.2.2.1, h.2.2.2, h'.1, h'.2.1, h'.2.2.1, h'.2.2.2]
    repeat' split
    all_goals simp_all

theorem filterCharIsOk_other_class {p c c' : Nat} (h : Other c) (h' : Other c') :
    (filterCharIsOk ⟨0, p⟩ c).isSome = (filterCharIsOk ⟨0, p⟩ c').isSome := by
  unfold filterCharIsOk Other at *
  simp only [h.1, h.2.1, h'.1, h'.2.1, false_and, if_false]
  repeat' split
  all_goals simp_all

theorem filterCharIsOk_other_other {p c : Nat} (h : Other p) (h' : Other c) :
    (filterCharIsOk ⟨0, p⟩ c).isSome = true := by
  unfold filterCharIsOk Other at *
  simp [h.1, h.2.1, h'.1, h'.2.1]

theorem fcheck_append_others (o : Nat) (ho : Other o) :
    ∀ (os : List Nat), (∀ x ∈ os, Other x) → ∀ rest, fcheck o (os ++ rest) = fcheck o rest := by
  intro os
  induction os with
  | nil => intro _ rest; rfl
  | cons x xs ih =>
    intro hx rest
    have h1 := hx x (by simp)
    rw [List.cons_append, fcheck, filterCharIsOk_other_other ho h1, Bool.true_and,
      fcheck_other h1 ho, ih (fun y hy => hx y (by simp [hy]))]

theorem encodeChar_other {c : Nat} (h : 0x80 ≤ c) : ∀ b ∈ Utf8.Spec.encodeChar c, Other b := by
  intro b hb
  unfold Utf8.Spec.encodeChar at hb
  unfold Other
  repeat' split at hb
  all_goals simp only [List.mem_cons, List.not_mem_nil, or_false] at hb
  all_goals omega

theorem fcheck_encode : ∀ (cs : List Nat) (p : Nat), fcheck p (Utf8.Spec.encode cs) = fcheck p cs := by
  intro cs
  induction cs with
  | nil => intro p; rfl
  | cons c cs ih =>
    intro p
    have he : Utf8.Spec.encode (c :: cs) = Utf8.Spec.encodeChar c ++ Utf8.Spec.encode cs := by
      simp [Utf8.Spec.encode]
    rw [he]
    by_cases hc : c < 0x80
    · rw [Utf8.Spec.encodeChar, if_pos hc]
      simp only [List.cons_append, List.nil_append, fcheck]
      rw [ih]
    · have ho := encodeChar_other (Nat.le_of_not_lt hc)
      have hco : Other c := by unfold Other; omega
      cases hb : Utf8.Spec.encodeChar c with
      | nil => exact absurd hb (Utf8.encodeChar_ne_nil c)
      | cons b bs =>
        rw [hb] at ho
        have hbo := ho b (by simp)
        rw [List.cons_append, fcheck, fcheck_append_others b hbo bs (fun x hx => ho x (by simp [hx])),
          ih, fcheck, fcheck_other hbo hco, filterCharIsOk_other_class hbo hco]

theorem toNat_eq_iff {c : UInt8} {n : Nat} {d : UInt8} (h : d.toNat = n) : c.toNat = n ↔ c = d := by
  rw [← h]; exact UInt8.toNat_inj

theorem fcheck_levels : ∀ (s : Bytes), (0 : UInt8) ∉ s → ∀ l ls, split s = l :: ls →
    ((fcheck 0 (s.map UInt8.toNat) = true ↔ FLO (l :: ls)) ∧
     (fcheck 0x2F (s.map UInt8.toNat) = true ↔ FLO (l :: ls)) ∧
     (fcheck 0x2B (s.map UInt8.toNat) = true ↔ l = [] ∧ FLO ls) ∧
     (fcheck 0x23 (s.map UInt8.toNat) = true ↔ l = [] ∧ ls = []) ∧
     (∀ o, Other o → (fcheck o (s.map UInt8.toNat) = true ↔ plus ∉ l ∧ hash ∉ l ∧ FLO ls))) := by
  intro s
  induction s with
  | nil =>
    intro _ l ls h
    simp only [split, List.cons.injEq] at h
    obtain ⟨rfl, rfl⟩ := h
    simp [fcheck, FLO]
  | cons c cs ih =>
    intro hnul l ls h
    simp only [List.mem_cons, not_or] at hnul
    by_cases hc : c = slash
    · subst hc
      rw [split, if_pos rfl] at h
      obtain ⟨rfl, rfl⟩ := List.cons.inj h
      cases hs : split cs with
      | nil => exact absurd hs (split_ne_nil cs)
      | cons a as =>
        obtain ⟨_, h2, _, _, _⟩ := ih hnul.2 a as hs
        have e : (slash : UInt8).toNat = 0x2F := rfl
        simp only [List.map_cons, e, fcheck, Bool.and_eq_true, h2]
        refine ⟨by simp [filterCharIsOk, FLO], by simp [filterCharIsOk, FLO],
          by simp [filterCharIsOk], by simp [filterCharIsOk], ?_⟩
        intro o ho
        unfold Other at ho
        simp [filterCharIsOk, ho.1, ho.2.1]
    · obtain ⟨a, as, h1, h2⟩ := split_cons_ne (cs := cs) hc
      rw [h2] at h
      obtain ⟨rfl, rfl⟩ := List.cons.inj h
      obtain ⟨i1, i2, i3, i4, i5⟩ := ih hnul.2 a as h1
      by_cases hh : c = hash
      · subst hh
        have e : (hash : UInt8).toNat = 0x23 := rfl
        simp only [List.map_cons, e, fcheck, Bool.and_eq_true, i4]
        refine ⟨?_, ?_, by simp [filterCharIsOk], by simp [filterCharIsOk], ?_⟩
        · simp [filterCharIsOk, FLO]; grind [FLO]
        · simp [filterCharIsOk, FLO]; grind [FLO]
        · intro o ho
          unfold Other at ho
          simp [filterCharIsOk, ho.2.2.1, ho.2.2.2]
      · by_cases hp : c = plus
        · subst hp
          have e : (plus : UInt8).toNat = 0x2B := rfl
          simp only [List.map_cons, e, fcheck, Bool.and_eq_true, i3]
          refine ⟨?_, ?_, by simp [filterCharIsOk], by simp [filterCharIsOk], ?_⟩
          · simp [filterCharIsOk, FLO]; grind
          · simp [filterCharIsOk, FLO]; grind
          · intro o ho
            unfold Other at ho
            simp [filterCharIsOk, ho.2.2.1, ho.2.2.2]
        · have hco : Other c.toNat := by
            refine ⟨fun e => hh ((toNat_eq_iff (d := hash) rfl).mp e),
              fun e => hp ((toNat_eq_iff (d := plus) rfl).mp e),
              fun e => hc ((toNat_eq_iff (d := slash) rfl).mp e),
              fun e => hnul.1 ((toNat_eq_iff (d := (0 : UInt8)) rfl).mp e).symm⟩
          simp only [List.map_cons, fcheck, Bool.and_eq_true, i5 _ hco]
          have hco' := hco
          unfold Other at hco
          refine ⟨?_, ?_, ?_, ?_, ?_⟩
          · simp [filterCharIsOk, FLO, hco.1, hco.2.1, hp, hh, Ne.symm hp, Ne.symm hh]
          · simp [filterCharIsOk, FLO, hco.1, hco.2.1, hp, hh, Ne.symm hp, Ne.symm hh]
          · simp [filterCharIsOk, hco.1, hco.2.1, hco.2.2.1]
          · simp [filterCharIsOk]
          · intro o ho
            have := filterCharIsOk_other_other ho hco'
            simp [this, Ne.symm hp, Ne.symm hh]

end Verif.Topic
namespace Verif.Topic
open Verif Spec

theorem foldlM_name : ∀ (cs : List Nat) (st : Seq),
    (cs.foldlM nameCharIsOk st).isSome = true ↔ ∀ c ∈ cs, c ≠ 0x23 ∧ c ≠ 0x2B := by
  intro cs
  induction cs with
  | nil => intro st; simp
  | cons c cs ih =>
    intro st
    rw [List.foldlM_cons]
    by_cases h : c = 0x23 ∨ c = 0x2B
    · simp only [nameCharIsOk, if_pos h, Option.bind_eq_bind, Option.bind_none]
      simp only [Option.isSome_none, Bool.false_eq_true, List.mem_cons, forall_eq_or_imp, false_iff]
      omega
    · simp only [nameCharIsOk, if_neg h, Option.bind_eq_bind, Option.bind_some]
      rw [ih]
      simp only [List.mem_cons, forall_eq_or_imp]
      have : c ≠ 0x23 ∧ c ≠ 0x2B := by omega
      simp [this]

theorem mem_encode_ascii {cs : List Nat} {x : Nat} (hx : x < 0x80) : x ∈ Utf8.Spec.encode cs ↔ x ∈ cs := by
  unfold Utf8.Spec.encode
  rw [List.mem_flatMap]
  constructor
  · rintro ⟨c, hc, hb⟩
    unfold Utf8.Spec.encodeChar at hb
    repeat' split at hb
    all_goals simp only [List.mem_cons, List.not_mem_nil, or_false] at hb
    · exact hb ▸ hc
    all_goals omega
  · intro h
    exact ⟨x, h, by simp [Utf8.Spec.encodeChar, hx]⟩

theorem takeWhile_nul_of {s : Bytes} (h : (0 : UInt8) ∉ s) : s.takeWhile (· ≠ 0) = s := cstr_of_no_nul h

/-! ## Token matching -/

/-- Exactly what the token matcher decides. -/
theorem matchTokens_iff : ∀ (fs ts : List Bytes), FLO fs → fs ≠ [] →
    (matchTokens fs ts = .match ↔
      LevelsMatch fs ts ∧ fs.length ≤ ts.length ∧
      ∀ (i : Nat) (f t : Bytes), fs[i]? = some f → ts[i]? = some t → (f = [plus] ∨ f = [hash]) →
        t.head? ≠ some dollar) := by
  intro fs
  induction fs with
  | nil => intro ts _ h; contradiction
  | cons f fs ih =>
    intro ts hflo _
    obtain ⟨hp, hh, hl, hrest⟩ := hflo
    cases ts with
    | nil => simp [matchTokens]
    | cons t ts =>
      unfold matchTokens
      by_cases hfh : f.head? = some hash
      · have hf : f = [hash] := hh (List.mem_of_head? hfh)
        have hfs : fs = [] := by
          apply Classical.byContradiction; intro hne; exact hl hne hf
        subst hf hfs
        simp only [List.head?_cons, if_true, List.length_cons, List.length_nil, Nat.reduceAdd,
          ne_eq, not_true_eq_false, if_false]
        split
        next hd =>
          simp only [reduceCtorEq, false_iff, not_and]
          intro _ _ hall
          exact hall 0 [hash] t rfl rfl (Or.inr rfl) hd
        next hd =>
          simp only [true_iff]
          refine ⟨LevelsMatch.hash _, by omega, ?_⟩
          intro i g u hg hu _
          cases i with
          | zero => simp at hu; subst hu; exact hd
          | succ i => simp at hg
      · rw [if_neg hfh]
        have hfne : f ≠ [hash] := by rintro rfl; exact hfh rfl
        -- the common continuation
        have hcont : (t.head? = some dollar → f ≠ [plus]) →
            (f = [plus] ∨ f = t) →
            ((if fs = [] ∧ ts = [] then Res.match else matchTokens fs ts) = .match ↔
              LevelsMatch (f :: fs) (t :: ts) ∧ (f :: fs).length ≤ (t :: ts).length ∧
              ∀ (i : Nat) (g u : Bytes), (f :: fs)[i]? = some g → (t :: ts)[i]? = some u →
                (g = [plus] ∨ g = [hash]) → u.head? ≠ some dollar) := by
          intro hdol hft
          have hstep : LevelsMatch (f :: fs) (t :: ts) ↔ LevelsMatch fs ts := by
            constructor
            · intro h
              cases h with
              | hash => exact absurd rfl hfne
              | plus h => exact h
              | lit _ _ h => exact h
            · intro h
              by_cases hfp : f = [plus]
              · subst hfp; exact LevelsMatch.plus h
              · rcases hft with h' | rfl
                · exact absurd h' hfp
                · exact LevelsMatch.lit hfne hfp h
          have hidx : (∀ (i : Nat) (g u : Bytes), (f :: fs)[i]? = some g → (t :: ts)[i]? = some u →
                (g = [plus] ∨ g = [hash]) → u.head? ≠ some dollar) ↔
              (∀ (i : Nat) (g u : Bytes), fs[i]? = some g → ts[i]? = some u →
                (g = [plus] ∨ g = [hash]) → u.head? ≠ some dollar) := by
            constructor
            · intro h i g u hg hu hw
              exact h (i + 1) g u (by simpa using hg) (by simpa using hu) hw
            · intro h i g u hg hu hw
              cases i with
              | zero =>
                simp at hg hu; subst hg hu
                rcases hw with hw | hw
                · intro hd; exact hdol hd hw
                · exact absurd hw hfne
              | succ i => exact h i g u (by simpa using hg) (by simpa using hu) hw
          rw [hstep, hidx]
          by_cases hfs : fs = []
          · subst hfs
            by_cases hts : ts = []
            · subst hts
              simp [LevelsMatch.nil]
            · rw [if_neg (by simp [hts])]
              have : ¬ LevelsMatch [] ts := by intro h; cases h; exact hts rfl
              simp [matchTokens, this]
          · rw [if_neg (by simp [hfs]), ih ts hrest hfs]
            simp
        by_cases hfp : f.head? = some plus
        · have hf : f = [plus] := hp (List.mem_of_head? hfp)
          rw [if_pos hfp]
          subst hf
          simp only [List.length_cons, List.length_nil, Nat.reduceAdd, ne_eq, not_true_eq_false, if_false]
          split
          next hd =>
            simp only [reduceCtorEq, false_iff, not_and]
            intro _ _ hall
            exact hall 0 [plus] t rfl rfl (Or.inl rfl) hd
          next hd => exact hcont (fun h => absurd h hd) (Or.inl rfl)
        · rw [if_neg hfp]
          have hfne' : f ≠ [plus] := by rintro rfl; exact hfp rfl
          by_cases hft : f = t
          · rw [if_neg (by simp [hft])]
            exact hcont (fun _ => hfne') (Or.inr hft)
          · rw [if_pos hft]
            simp only [reduceCtorEq, false_iff]
            rintro ⟨h, _⟩
            cases h with
            | hash => exact hfne rfl
            | plus _ => exact hfne' rfl
            | lit _ _ _ => exact hft rfl

theorem matchTokens_ne_abort : ∀ (fs ts : List Bytes), FLO fs → matchTokens fs ts ≠ .abort := by
  intro fs
  induction fs with
  | nil => intro ts _; simp [matchTokens]
  | cons f fs ih =>
    intro ts hflo
    obtain ⟨hp, hh, hl, hrest⟩ := hflo
    cases ts with
    | nil => simp [matchTokens]
    | cons t ts =>
      unfold matchTokens
      split
      next h =>
        have hf : f = [hash] := hh (List.mem_of_head? h)
        subst hf; simp; split <;> simp
      next h =>
        split
        next h =>
          have hf : f = [plus] := hp (List.mem_of_head? h)
          subst hf
          simp only [List.length_cons, List.length_nil, Nat.reduceAdd, ne_eq, not_true_eq_false, if_false]
          split
          · simp
          · split
            · simp
            · exact ih ts hrest
        next h =>
          split
          · simp
          · split
            · simp
            · exact ih ts hrest

/-! ## Linear matching -/

theorem slash_ne_hash : ¬ (slash = hash) := by decide
theorem slash_ne_plus : ¬ (slash = plus) := by decide
theorem slash_ne_dollar : ¬ (slash = dollar) := by decide
theorem plus_ne_hash : ¬ (plus = hash) := by decide

theorem linearGo_slash_slash (nxt : UInt8) (fs ts : Bytes) (a b : Int) :
    linearGo nxt (slash :: fs) (slash :: ts) a b = linearGo nxt fs ts 0 0 := by
  simp [linearGo, slash_ne_hash, slash_ne_plus]

theorem linearGo_slash_nil (nxt : UInt8) (fs : Bytes) (a b : Int) :
    linearGo nxt (slash :: fs) [] a b = .mismatch := by
  simp [linearGo, slash_ne_hash, slash_ne_plus]

theorem linearGo_plus (nxt : UInt8) (fs topic : Bytes) :
    ∃ a b, linearGo nxt (plus :: fs) topic 0 0 =
      if topic.headD nxt = dollar then .mismatch
      else linearGo nxt fs (topic.dropWhile (· ≠ slash)) a b := by
  refine ⟨(if topic.dropWhile (· ≠ slash) ≠ [] then -1 else 0) + 1, 0 + 1, ?_⟩
  simp only [linearGo]
  rw [if_neg plus_ne_hash, if_pos trivial, if_neg (by decide)]

/-- Comparing one literal level. -/
theorem linearGo_literal (nxt : UInt8) : ∀ (l t rest tail : Bytes) (a b : Int),
    slash ∉ l → slash ∉ t → plus ∉ l → hash ∉ l →
    (rest = [] ∨ ∃ r, rest = slash :: r) → (tail = [] ∨ ∃ r, tail = slash :: r) →
    ∃ a' b', linearGo nxt (l ++ rest) (t ++ tail) a b =
      if l = t then linearGo nxt rest tail a' b' else .mismatch := by
  intro l
  induction l with
  | nil =>
    intro t rest tail a b _ ht _ _ hr htail
    refine ⟨a, b, ?_⟩
    cases t with
    | nil => simp
    | cons c t =>
      simp only [List.mem_cons, not_or] at ht
      rcases hr with rfl | ⟨r, rfl⟩
      · simp [linearGo]
      · simp [linearGo, ht.1, slash_ne_hash, slash_ne_plus]
  | cons x l ih =>
    intro t rest tail a b hl ht hp hh hr htail
    simp only [List.mem_cons, not_or] at hl hp hh
    cases t with
    | nil =>
      refine ⟨a, b, ?_⟩
      rcases htail with rfl | ⟨r, rfl⟩
      · simp [linearGo, Ne.symm hp.1, Ne.symm hh.1]
      · simp [linearGo, Ne.symm hp.1, Ne.symm hh.1, Ne.symm hl.1]
    | cons c t =>
      simp only [List.mem_cons, not_or] at ht
      by_cases hxc : x = c
      · subst hxc
        obtain ⟨a', b', h⟩ := ih t rest tail (a + 1) (b + 1) hl.2 ht.2 hp.2 hh.2 hr htail
        refine ⟨a', b', ?_⟩
        simp only [List.cons_append, linearGo, Ne.symm hp.1, Ne.symm hh.1, Ne.symm hl.1, if_false,
          ne_eq, not_true_eq_false]
        rw [h]
        simp
      · refine ⟨a, b, ?_⟩
        simp [linearGo, Ne.symm hp.1, Ne.symm hh.1, hxc]

theorem dropWhile_level {t tail : Bytes} (ht : slash ∉ t) (h : tail = [] ∨ ∃ r, tail = slash :: r) :
    (t ++ tail).dropWhile (· ≠ slash) = tail := by
  rw [List.dropWhile_append_of_pos]
  · rcases h with rfl | ⟨r, rfl⟩ <;> simp
  · intro a ha
    simp only [decide_eq_true_eq]
    rintro rfl
    exact ht ha

theorem join_eq_append (l : Bytes) (ls : List Bytes) :
    join (l :: ls) = l ++ (if ls = [] then [] else slash :: join ls) := by
  cases ls <;> simp [join]

theorem linear_eq_tokens (nxt : UInt8) : ∀ (fs ts : List Bytes), fs ≠ [] → ts ≠ [] → FLO fs →
    (∀ l ∈ fs, slash ∉ l) → (∀ l ∈ ts, slash ∉ l) →
    (nxt ≠ dollar ∨ ts.getLast? ≠ some []) →
    linearGo nxt (join fs) (join ts) 0 0 = matchTokens fs ts := by
  intro fs
  induction fs with
  | nil => intro ts h; contradiction
  | cons f fs ih =>
    intro ts _ hts0 hflo hfsl htsl hnxt
    obtain ⟨hp, hh, hl, hrest⟩ := hflo
    cases ts with
    | nil => contradiction
    | cons t ts =>
      have hf := hfsl f (by simp)
      have ht := htsl t (by simp)
      have htail : (if ts = [] then [] else slash :: join ts) = [] ∨
          ∃ r, (if ts = [] then ([] : Bytes) else slash :: join ts) = slash :: r := by
        by_cases h : ts = [] <;> simp [h]
      have hrst : (if fs = [] then [] else slash :: join fs) = [] ∨
          ∃ r, (if fs = [] then ([] : Bytes) else slash :: join fs) = slash :: r := by
        by_cases h : fs = [] <;> simp [h]
      -- byte seen at the start of the topic level
      have hhead : ((join (t :: ts)).headD nxt = dollar) ↔ t.head? = some dollar := by
        rw [join_eq_append]
        cases t with
        | cons c t => simp
        | nil =>
          by_cases h : ts = []
          · subst h
            simp only [List.getLast?_singleton, ne_eq, not_true_eq_false, or_false] at hnxt
            simp [hnxt, join]
          · simp [h, slash_ne_dollar]
      -- continuing after this level
      have hnext : ∀ a b : Int,
          linearGo nxt (if fs = [] then [] else slash :: join fs) (if ts = [] then [] else slash :: join ts) a b
          = (if fs = [] ∧ ts = [] then Res.match else matchTokens fs ts) := by
        intro a b
        by_cases h1 : fs = []
        · subst h1
          by_cases h2 : ts = []
          · subst h2; simp [linearGo]
          · simp [linearGo, h2, matchTokens]
        · by_cases h2 : ts = []
          · subst h2
            cases fs with
            | nil => contradiction
            | cons g gs => simp [linearGo_slash_nil, matchTokens]
          · simp only [h1, h2, if_false, false_and]
            rw [linearGo_slash_slash]
            apply ih ts h1 h2 hrest (fun l hl => hfsl l (by simp [hl])) (fun l hl => htsl l (by simp [hl]))
            rcases hnxt with h | h
            · exact Or.inl h
            · right
              cases ts with
              | nil => contradiction
              | cons u us => simpa using h
      by_cases hfh : f.head? = some hash
      · have hfe : f = [hash] := hh (List.mem_of_head? hfh)
        have hfs : fs = [] := by
          apply Classical.byContradiction; intro hne; exact hl hne hfe
        subst hfe hfs
        simp only [matchTokens, List.head?_cons, if_true, List.length_cons, List.length_nil, Nat.reduceAdd,
          ne_eq, not_true_eq_false, if_false]
        rw [show join [[hash]] = [hash] from rfl]
        simp only [linearGo, if_true, ne_eq, not_true_eq_false, or_self, if_false, hhead]
      · by_cases hfp : f.head? = some plus
        · have hfe : f = [plus] := hp (List.mem_of_head? hfp)
          subst hfe
          rw [join_eq_append [plus] fs]
          simp only [matchTokens, List.head?_cons, List.length_cons, List.length_nil, Nat.reduceAdd,
            ne_eq, not_true_eq_false, if_false, List.cons_append, List.nil_append]
          have e1 : ¬ (some plus = some hash) := by decide
          simp only [e1, if_false, if_true]
          obtain ⟨a, b, e⟩ := linearGo_plus nxt (if fs = [] then [] else slash :: join fs) (join (t :: ts))
          rw [e]
          simp only [hhead]
          rw [join_eq_append t ts, dropWhile_level ht htail, hnext]
        · have h1 : hash ∉ f := by
            intro hm; have := hh hm; subst this; exact hfh rfl
          have h2 : plus ∉ f := by
            intro hm; have := hp hm; subst this; exact hfp rfl
          rw [join_eq_append f fs, join_eq_append t ts]
          obtain ⟨a', b', e⟩ := linearGo_literal nxt f t _ _ 0 0 hf ht h2 h1 hrst htail
          rw [e, hnext, matchTokens, if_neg hfh, if_neg hfp]
          by_cases hft : f = t <;> simp [hft]

end Verif.Topic
