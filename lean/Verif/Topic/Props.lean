import Verif.Topic.Lemmas
/-!
# C01, C02, C04, C38, C39: MQTT topics

Filters are C strings, so the theorems carry the hypothesis that they contain no
NUL byte. `filterValidateName`/`validateName` are the checks the program itself
performs before a filter or topic is used.
-/
namespace Verif.Topic
open Verif Spec

/-! ## C38 -/

/-- **C38** The tokens of a non-empty topic are exactly its levels: joined with
'/' they give back the topic, and no token contains '/'. -/
theorem tokenize_isLevels (s : Bytes) (h0 : s ≠ []) (hnul : (0 : UInt8) ∉ s) :
    IsLevels s (tokenize s) := by
  rw [tokenize_eq_split h0 hnul]; exact isLevels_split s

/-- **C38** ... and these are the only levels of that topic. -/
theorem tokenize_unique (s : Bytes) (ls : List Bytes) (h0 : s ≠ []) (hnul : (0 : UInt8) ∉ s)
    (h : IsLevels s ls) : tokenize s = ls := by
  rw [tokenize_eq_split h0 hnul]; exact (IsLevels.eq_split h).symm

/-- The empty topic has no tokens (`NULL`). -/
theorem tokenize_nil : tokenize [] = [] := rfl

/-- Cloning a token list yields the same tokens. -/
theorem tokensClone_tokenize (s : Bytes) : tokensClone (tokenize s) = tokenize s := by
  have hc : ∀ b : Bytes, cstr (cstr b) = cstr b := by
    intro b; apply cstr_of_no_nul
    intro h
    have := List.all_takeWhile (p := fun x : UInt8 => decide (x ≠ 0)) (l := b)
    rw [List.all_eq_true] at this
    simpa using this _ h
  unfold tokenize
  generalize s.length = n
  induction n generalizing s with
  | zero => rfl
  | succ n ih =>
    cases s with
    | nil => rfl
    | cons c cs =>
      simp only [tokenizeFuel]
      split
      · simp [tokensClone, hc]
      · simp only [tokensClone, hc, List.cons.injEq, true_and]
        split
        · exact ih _
        · rfl

-- "a//b/" has the levels "a", "", "b", "".
example : tokenize [0x61, 0x2F, 0x2F, 0x62, 0x2F] = [[0x61], [], [0x62], []] := by decide

/-! ## C39 -/

/-- **C39** A filter is accepted exactly when it is at most 65535 bytes of
well-formed UTF-8 in which wildcards occupy whole levels and "#" only occurs as
the last level. -/
theorem filterValidateName_iff (f : Bytes) (hnul : (0 : UInt8) ∉ f) :
    filterValidateName f = true ↔
      f.length ≤ 0xffff ∧ Utf8.Spec.WellFormed f ∧ ∀ ls, IsLevels f ls → FilterLevelsOk ls := by
  unfold filterValidateName
  by_cases hl : f.length > 0xffff
  · rw [if_pos hl]; simp; omega
  · rw [if_neg hl]
    by_cases hw : Utf8.Spec.WellFormed f
    · obtain ⟨cs, hcs⟩ := hw
      rw [Utf8.validateAndIterate_eq filterCharIsOk f cs (Seq.mk 0 0) (by rw [takeWhile_nul_of hnul]; exact hcs)]
      rw [foldlM_eq_fcheck, ← fcheck_encode, ← hcs.2]
      cases hs : split f with
      | nil => exact absurd hs (split_ne_nil f)
      | cons l ls =>
        rw [(fcheck_levels f hnul l ls hs).1, FLO_iff, ← hs]
        constructor
        · intro h
          refine ⟨by omega, ⟨cs, hcs⟩, ?_⟩
          intro ls hls
          rw [IsLevels.eq_split hls]; exact h
        · intro h
          exact h.2.2 _ (isLevels_split f)
    · rw [Utf8.validateAndIterate_reject filterCharIsOk f (Seq.mk 0 0) (by rw [takeWhile_nul_of hnul]; exact hw)]
      simp [hw]

/-- **C39** A topic name is accepted exactly when it is non-empty well-formed
UTF-8 without wildcard characters (looking at the bytes before the first NUL). -/
theorem validateNameWithEnd_iff (t : Bytes) :
    validateNameWithEnd t = true ↔
      t ≠ [] ∧ Utf8.Spec.WellFormed (t.takeWhile (· ≠ 0)) ∧
      (0x23 : UInt8) ∉ t.takeWhile (· ≠ 0) ∧ (0x2B : UInt8) ∉ t.takeWhile (· ≠ 0) := by
  unfold validateNameWithEnd
  by_cases h0 : t = []
  · simp [h0]
  · rw [if_neg h0]
    by_cases hw : Utf8.Spec.WellFormed (t.takeWhile (· ≠ 0))
    · obtain ⟨cs, hcs⟩ := hw
      rw [Utf8.validateAndIterate_eq nameCharIsOk t cs (Seq.mk 0 0) hcs, foldlM_name]
      have key : ∀ (x : UInt8), x.toNat < 0x80 → (x ∈ t.takeWhile (· ≠ 0) ↔ x.toNat ∈ cs) := by
        intro x hx
        rw [← mem_encode_ascii hx, ← hcs.2]
        constructor
        · exact fun h => List.mem_map_of_mem h
        · intro h
          obtain ⟨y, hy, e⟩ := List.mem_map.mp h
          rwa [← UInt8.toNat_inj.mp e]
      have k1 := key 0x23 (by decide)
      have k2 := key 0x2B (by decide)
      rw [k1, k2]
      constructor
      · intro h
        exact ⟨h0, ⟨cs, hcs⟩, fun hm => (h _ hm).1 rfl, fun hm => (h _ hm).2 rfl⟩
      · rintro ⟨_, _, h1, h2⟩ c hc
        exact ⟨fun e => h1 (by subst e; exact hc), fun e => h2 (by subst e; exact hc)⟩
    · rw [Utf8.validateAndIterate_reject nameCharIsOk t (Seq.mk 0 0) hw]
      exact ⟨fun h => (by contradiction), fun h => absurd h.2.1 hw⟩

/-- **C39** Same for NUL-terminated topic names. -/
theorem validateName_iff (t : Bytes) (hnul : (0 : UInt8) ∉ t) :
    validateName t = true ↔
      t ≠ [] ∧ Utf8.Spec.WellFormed t ∧ (0x23 : UInt8) ∉ t ∧ (0x2B : UInt8) ∉ t := by
  have : validateName t = validateNameWithEnd t := by
    unfold validateName validateNameWithEnd; split <;> rfl
  rw [this, validateNameWithEnd_iff, takeWhile_nul_of hnul]

example : filterValidateName [0x61, 0x2F, 0x2B, 0x2F, 0x23] = true := by decide   -- "a/+/#"
example : filterValidateName [0x61, 0x2F, 0x23, 0x2F, 0x61] = false := by decide  -- "a/#/a"
example : filterValidateName [0x61, 0x2B] = false := by decide                    -- "a+"
/-- Finding: the empty filter, which MQTT 4.7.3 forbids, is accepted. -/
theorem filterValidateName_empty : filterValidateName [] = true := by decide

/-! ## C01 -/

/-- What "filter `f` matches topic `t`" means for strings. -/
def StrMatches (f t : Bytes) : Prop := ∃ fs ts, IsLevels f fs ∧ IsLevels t ts ∧ Matches fs ts

/-- **C01** (soundness, full strength) whenever the program says a topic matches
an accepted filter, the MQTT rules say so too. -/
theorem matchStr_sound (f t : Bytes) (hf : f ≠ []) (ht : t ≠ []) (hfn : (0 : UInt8) ∉ f)
    (htn : (0 : UInt8) ∉ t) (hv : filterValidateName f = true) (h : matchStr f t = .match) :
    StrMatches f t := by
  have hflo : FLO (split f) :=
    (FLO_iff _).mpr (((filterValidateName_iff f hfn).mp hv).2.2 _ (isLevels_split f))
  rw [matchStr, tokenize_eq_split hf hfn, tokenize_eq_split ht htn] at h
  rw [matchTokens_iff _ _ hflo (split_ne_nil f)] at h
  obtain ⟨h1, h2, h3⟩ := h
  refine ⟨_, _, isLevels_split f, isLevels_split t, h1, ?_⟩
  intro hw u hu
  rcases hw with hw | hw
  · exact h3 0 _ u (by rw [List.head?_eq_getElem?] at hw; exact hw)
      (by rw [List.head?_eq_getElem?] at hu; exact hu) (Or.inr rfl)
  · exact h3 0 _ u (by rw [List.head?_eq_getElem?] at hw; exact hw)
      (by rw [List.head?_eq_getElem?] at hu; exact hu) (Or.inl rfl)

/-- **C01** (exact, partial) The full property is
`matchStr f t = .match ↔ StrMatches f t`. What holds: the program's verdict is
the MQTT verdict *minus* two situations: the topic is the parent level of a
filter ending in "/#", or a level other than the first which is covered by a
wildcard begins with '$'. Missing: these two situations, in which the program
deviates from MQTT 4.7.1.2 and 4.7.2 (see the counterexamples below). -/
theorem matchStr_iff_partial (f t : Bytes) (fs ts : List Bytes) (hf : f ≠ []) (ht : t ≠ [])
    (hfn : (0 : UInt8) ∉ f) (htn : (0 : UInt8) ∉ t) (hv : filterValidateName f = true)
    (hfs : IsLevels f fs) (hts : IsLevels t ts) :
    matchStr f t = .match ↔
      Matches fs ts ∧
      ¬ (ts.length < fs.length) ∧
      ¬ (∃ (i : Nat) (fl tl : Bytes), 0 < i ∧ fs[i]? = some fl ∧ ts[i]? = some tl ∧
          (fl = [0x2B] ∨ fl = [0x23]) ∧ tl.head? = some 0x24) := by
  have hflo : FLO fs := (FLO_iff _).mpr (((filterValidateName_iff f hfn).mp hv).2.2 _ hfs)
  rw [matchStr, tokenize_unique f fs hf hfn hfs, tokenize_unique t ts ht htn hts,
    matchTokens_iff _ _ hflo hfs.1]
  constructor
  · rintro ⟨h1, h2, h3⟩
    refine ⟨⟨h1, ?_⟩, by omega, ?_⟩
    · intro hw u hu
      rcases hw with hw | hw
      · exact h3 0 _ u (by rw [List.head?_eq_getElem?] at hw; exact hw)
          (by rw [List.head?_eq_getElem?] at hu; exact hu) (Or.inr rfl)
      · exact h3 0 _ u (by rw [List.head?_eq_getElem?] at hw; exact hw)
          (by rw [List.head?_eq_getElem?] at hu; exact hu) (Or.inl rfl)
    · rintro ⟨i, fl, tl, _, a, b, c, d⟩
      exact h3 i fl tl a b c d
  · rintro ⟨⟨h1, hd⟩, h2, h3⟩
    refine ⟨h1, by omega, ?_⟩
    intro i fl tl a b c d
    cases i with
    | zero =>
      rw [← List.head?_eq_getElem?] at a b
      refine hd ?_ tl b d
      rcases c with rfl | rfl
      · exact Or.inr a
      · exact Or.inl a
    | succ i => exact h3 ⟨i + 1, fl, tl, by omega, a, b, c, d⟩

/-- **C01** The matcher never reaches its `RRR_BUG` calls for accepted filters. -/
theorem matchStr_no_abort (f t : Bytes) (hf : f ≠ []) (hfn : (0 : UInt8) ∉ f)
    (hv : filterValidateName f = true) : matchStr f t ≠ .abort := by
  rw [matchStr, tokenize_eq_split hf hfn]
  exact matchTokens_ne_abort _ _
    ((FLO_iff _).mpr (((filterValidateName_iff f hfn).mp hv).2.2 _ (isLevels_split f)))

/-- **C01** fails at full strength: "a/#" must match the parent topic "a". -/
theorem matchStr_parent_counterexample :
    ∃ f t : Bytes, filterValidateName f = true ∧ validateName t = true ∧
      StrMatches f t ∧ matchStr f t = .mismatch := by
  refine ⟨[0x61, 0x2F, 0x23], [0x61], by decide, by decide, ?_, by decide⟩
  refine ⟨[[0x61], [0x23]], [[0x61]], ⟨by decide, by decide, by decide⟩, ⟨by decide, by decide, by decide⟩,
    LevelsMatch.lit (by decide) (by decide) (LevelsMatch.hash _), ?_⟩
  intro h; simp at h

/-- **C01** fails at full strength: "a/+" must match "a/$x". -/
theorem matchStr_inner_dollar_counterexample :
    ∃ f t : Bytes, filterValidateName f = true ∧ validateName t = true ∧
      StrMatches f t ∧ matchStr f t = .mismatch := by
  refine ⟨[0x61, 0x2F, 0x2B], [0x61, 0x2F, 0x24, 0x78], by decide, by decide, ?_, by decide⟩
  refine ⟨[[0x61], [0x2B]], [[0x61], [0x24, 0x78]], ⟨by decide, by decide, by decide⟩,
    ⟨by decide, by decide, by decide⟩,
    LevelsMatch.lit (by decide) (by decide) (LevelsMatch.plus LevelsMatch.nil), ?_⟩
  intro h; simp at h

-- "a/+/#" accepts "a/b/c/d"; hypotheses of the theorems above are met.
example : filterValidateName [0x61, 0x2F, 0x2B, 0x2F, 0x23] = true ∧
    matchStr [0x61, 0x2F, 0x2B, 0x2F, 0x23] [0x61, 0x2F, 0x62, 0x2F, 0x63, 0x2F, 0x64] = .match := by decide

/-! ## C02 -/

/-- **C02** For every accepted filter and every NUL-free topic, the linear
matcher gives the verdict of the tokenizing matcher and none of its assertions
fires. Missing for full strength: the case in which the topic ends in '/' and
the byte behind the topic in memory happens to be '$' (the linear matcher reads
that byte), and topics with embedded NUL bytes. -/
theorem matchLinear_eq_matchStr_partial (nxt : UInt8) (f t : Bytes) (hf : f ≠ []) (ht : t ≠ [])
    (hfn : (0 : UInt8) ∉ f) (htn : (0 : UInt8) ∉ t) (hv : filterValidateName f = true)
    (hnxt : nxt ≠ 0x24 ∨ t.getLast? ≠ some 0x2F) :
    matchLinear nxt t f = matchStr f t ∧ matchLinear nxt t f ≠ .abort := by
  have hflo : FLO (split f) :=
    (FLO_iff _).mpr (((filterValidateName_iff f hfn).mp hv).2.2 _ (isLevels_split f))
  have hlast : nxt ≠ dollar ∨ (split t).getLast? ≠ some [] := by
    rcases hnxt with h | h
    · exact Or.inl h
    · right
      intro hl
      apply h
      have hj := join_split t
      obtain ⟨ls, hls⟩ := List.getLast?_eq_some_iff.mp hl
      rw [hls] at hj
      clear hl
      have hne : ls ≠ [] := by
        rintro rfl
        simp [join] at hj
        exact ht hj
      have : ∀ (ls : List Bytes), ls ≠ [] → ∃ u, join (ls ++ [[]]) = u ++ [slash] := by
        intro ls
        induction ls with
        | nil => intro h; contradiction
        | cons a as ih =>
          intro _
          by_cases has : as = []
          · subst has; exact ⟨a, by simp [join]⟩
          · obtain ⟨u, hu⟩ := ih has
            refine ⟨a ++ slash :: u, ?_⟩
            rw [List.cons_append, join_cons (by simp), hu]
            simp
      obtain ⟨u, hu⟩ := this ls hne
      rw [← hj, hu]
      simp
  have h1 : matchLinear nxt t f = matchStr f t := by
    rw [matchLinear, if_neg (by simp [hf, ht]), matchStr, tokenize_eq_split hf hfn,
      tokenize_eq_split ht htn]
    have := linear_eq_tokens nxt (split f) (split t) (split_ne_nil f) (split_ne_nil t) hflo
      (split_noslash f) (split_noslash t) hlast
    rwa [join_split, join_split] at this
  exact ⟨h1, by rw [h1]; exact matchStr_no_abort f t hf hfn hv⟩

theorem linearGo_abort_nxt (nxt : UInt8) : ∀ (f t : Bytes) (a b : Int), linearGo nxt f t a b = .abort → linearGo 0 f t a b = .abort := by
  intro f
  induction f with
  | nil => intro t a b h; unfold linearGo at h; split at h <;> cases h
  | cons c f ih =>
    intro t a b h
    have hd : ¬ t.headD nxt = dollar → ¬ t.headD 0 = dollar := by
      cases t with
      | nil => intro _; decide
      | cons x t => exact id
    unfold linearGo at h ⊢
    split at h
    · rw [if_pos (by assumption)]
      split at h
      · rw [if_pos (by assumption)]
      · split at h <;> cases h
    · rw [if_neg (by assumption)]
      split at h
      · rw [if_pos (by assumption)]
        split at h
        · rw [if_pos (by assumption)]
        · rw [if_neg (by assumption)]
          split at h
          · cases h
          · rw [if_neg (hd (by assumption))]
            exact ih _ _ _ h
      · rw [if_neg (by assumption)]
        cases t with
        | nil => cases h
        | cons x t =>
          dsimp only at h ⊢
          split at h
          · cases h
          · rw [if_neg (by assumption)]
            split at h
            · rw [if_pos (by assumption)]; exact ih _ _ _ h
            · rw [if_neg (by assumption)]; exact ih _ _ _ h

/-- **C02** No topic, with whatever follows it in memory, makes the linear matcher abort with an accepted filter. -/
theorem matchLinear_no_abort (nxt : UInt8) (f t : Bytes) (hf : f ≠ []) (ht : t ≠ []) (hfn : (0 : UInt8) ∉ f)
    (hv : filterValidateName f = true) : matchLinear nxt t f ≠ .abort := by
  have hflo : FLO (split f) :=
    (FLO_iff _).mpr (((filterValidateName_iff f hfn).mp hv).2.2 _ (isLevels_split f))
  rw [matchLinear, if_neg (by simp [hf, ht])]
  intro h
  have h := linearGo_abort_nxt _ _ _ _ _ h
  have e := linear_eq_tokens 0 (split f) (split t) (split_ne_nil f) (split_ne_nil t) hflo (split_noslash f) (split_noslash t) (Or.inl (by decide))
  rw [join_split, join_split, h] at e
  exact matchTokens_ne_abort _ _ hflo e.symm

example : matchLinear 0x24 [0x61, 0x2F] [0x61, 0x2F, 0x2B, 0x2F, 0x23] = .mismatch := by decide

/-- **C02** For NUL-terminated topics the agreement is unconditional. -/
theorem matchLinear_eq_matchStr_cstring (f t : Bytes) (hf : f ≠ []) (ht : t ≠ [])
    (hfn : (0 : UInt8) ∉ f) (htn : (0 : UInt8) ∉ t) (hv : filterValidateName f = true) :
    matchLinear 0 t f = matchStr f t :=
  (matchLinear_eq_matchStr_partial 0 f t hf ht hfn htn hv (Or.inl (by decide))).1

/-- **C02** fails at full strength: the byte after the topic changes the verdict. -/
theorem matchLinear_reads_past_end :
    ∃ f t : Bytes, filterValidateName f = true ∧ validateName t = true ∧
      matchStr f t = .match ∧ matchLinear 0x24 t f = .mismatch ∧ matchLinear 0x61 t f = .match := by
  exact ⟨[0x61, 0x2F, 0x23], [0x61, 0x2F], by decide, by decide, by decide, by decide, by decide⟩

/-- **C02** fails at full strength for accepted topics with an embedded NUL. -/
theorem matchLinear_nul_disagrees :
    ∃ f t : Bytes, filterValidateName f = true ∧ validateNameWithEnd t = true ∧
      matchStr f t = .match ∧ matchLinear 0 t f = .mismatch := by
  exact ⟨[0x61], [0x61, 0, 0x62], by decide, by decide, by decide, by decide⟩

example : ∃ f t : Bytes, f ≠ [] ∧ t ≠ [] ∧ filterValidateName f = true ∧ matchLinear 0x24 t f = .match :=
  ⟨[0x2B, 0x2F, 0x62], [0x61, 0x2F, 0x62], by decide⟩

/-! ## C04 -/

/-- **C04** (partial) If an ACL pattern admits a subscription filter, every topic
the filter matches is matched by the ACL pattern, provided the filter uses "+"
only where the pattern has a wildcard. Missing: filters with "+" on a level where
the pattern is literal; the program admits them, see the counterexample. -/
theorem acl_subscription_contained_partial :
    ∀ (ms ss ts : List Bytes), FilterLevelsOk ms → FilterLevelsOk ss →
      matchTokensAcl ms ss = true →
      (∀ (i : Nat) (l : Bytes), ss[i]? = some [0x2B] → ms[i]? = some l → l = [0x2B] ∨ l = [0x23]) →
      LevelsMatch ss ts → LevelsMatch ms ts := by
  intro ms ss ts hm hs
  rw [← FLO_iff] at hm hs
  induction ms generalizing ss ts with
  | nil => intro h; simp [matchTokensAcl] at h
  | cons m ms ih =>
    intro hacl hplus hmatch
    cases ss with
    | nil => simp [matchTokensAcl] at hacl
    | cons s ss =>
      obtain ⟨mp, mh, ml, mrest⟩ := hm
      obtain ⟨sp, sh, sl, srest⟩ := hs
      by_cases hmh : m.head? = some hash
      · have hme : m = [hash] := mh (List.mem_of_head? hmh)
        have hms : ms = [] := by
          apply Classical.byContradiction; intro hne; exact ml hne hme
        subst hme hms
        exact LevelsMatch.hash _
      · have hmne : m ≠ [hash] := by rintro rfl; exact hmh rfl
        rw [matchTokensAcl, if_neg hmh] at hacl
        by_cases hsh : s.head? = some hash
        · rw [if_pos hsh] at hacl; contradiction
        · rw [if_neg hsh] at hacl
          have hsne : s ≠ [hash] := by rintro rfl; exact hsh rfl
          have hrec : ∀ ts', LevelsMatch ss ts' →
              (if ms = [] ∧ ss = [] then true else matchTokensAcl ms ss) = true → LevelsMatch ms ts' := by
            intro ts' hts' hc
            by_cases hnil : ms = [] ∧ ss = []
            · obtain ⟨rfl, rfl⟩ := hnil; exact hts'
            · rw [if_neg hnil] at hc
              refine ih ss ts' mrest srest hc ?_ hts'
              intro i l h1 h2
              exact hplus (i + 1) l (by simpa using h1) (by simpa using h2)
          by_cases hw : m.head? = some plus ∨ s.head? = some plus
          · rw [if_pos hw] at hacl
            split at hacl
            · contradiction
            · have hme : m = [plus] := by
                rcases hw with h | h
                · exact mp (List.mem_of_head? h)
                · have hse : s = [plus] := sp (List.mem_of_head? h)
                  rcases hplus 0 m (by simp [hse]) (by simp) with h | h
                  · exact h
                  · exact absurd h hmne
              subst hme
              cases hmatch with
              | hash => exact absurd rfl hsne
              | plus h => exact LevelsMatch.plus (hrec _ h hacl)
              | lit _ _ h => exact LevelsMatch.plus (hrec _ h hacl)
          · rw [if_neg hw] at hacl
            simp only [not_or] at hw
            by_cases hms : m = s
            · subst hms
              simp only [ne_eq, not_true_eq_false, if_false] at hacl
              cases hmatch with
              | hash => exact absurd rfl hsne
              | plus h => exact absurd rfl hw.2
              | lit a b h => exact LevelsMatch.lit a b (hrec _ h hacl)
            · rw [if_pos hms] at hacl; contradiction

/-- **C04** fails at full strength: the pattern "a/b" admits the subscription
"a/+", which exposes "a/c". -/
theorem acl_plus_counterexample :
    ∃ (ms ss ts : List Bytes), FilterLevelsOk ms ∧ FilterLevelsOk ss ∧
      matchTokensAcl ms ss = true ∧ LevelsMatch ss ts ∧ ¬ LevelsMatch ms ts := by
  refine ⟨[[0x61], [0x62]], [[0x61], [0x2B]], [[0x61], [0x63]], ?_, ?_, by decide,
    LevelsMatch.lit (by decide) (by decide) (LevelsMatch.plus LevelsMatch.nil), ?_⟩
  · rw [← FLO_iff]; simp [FLO]; decide
  · rw [← FLO_iff]; simp [FLO]; decide
  · intro h
    cases h with
    | lit _ _ h => cases h

/-- **C50** Exactly which subscription filters an ACL pattern admits. -/
theorem acl_admits_iff (ms ss : List Bytes) (hm : FilterLevelsOk ms) (hs : FilterLevelsOk ss) :
    matchTokensAcl ms ss = true ↔ AclAdmits ms ss := by
  rw [← FLO_iff] at hm hs
  induction ms generalizing ss with
  | nil => exact ⟨fun h => by simp [matchTokensAcl] at h, fun h => by cases h⟩
  | cons m ms ih =>
    cases ss with
    | nil => exact ⟨fun h => by simp [matchTokensAcl] at h, fun h => by cases h⟩
    | cons s ss =>
      obtain ⟨mp, mh, ml, mrest⟩ := hm
      obtain ⟨sp, sh, sl, srest⟩ := hs
      rw [matchTokensAcl]
      have hmx : m.head? = some hash ↔ m = [0x23] :=
        ⟨fun h => mh (List.mem_of_head? h), fun h => by subst h; rfl⟩
      have hsx : s.head? = some hash ↔ s = [0x23] :=
        ⟨fun h => sh (List.mem_of_head? h), fun h => by subst h; rfl⟩
      have hmq : m.head? = some plus ↔ m = [0x2B] :=
        ⟨fun h => mp (List.mem_of_head? h), fun h => by subst h; rfl⟩
      have hsq : s.head? = some plus ↔ s = [0x2B] :=
        ⟨fun h => sp (List.mem_of_head? h), fun h => by subst h; rfl⟩
      have hrec : (if ms = [] ∧ ss = [] then true else matchTokensAcl ms ss) = true ↔
          ((ms = [] ∧ ss = []) ∨ AclAdmits ms ss) := by
        by_cases hnil : ms = [] ∧ ss = []
        · rw [if_pos hnil]; simp [hnil]
        · rw [if_neg hnil, ih ss mrest srest]; simp [hnil]
      have hlev : AclAdmits (m :: ms) (s :: ss) ↔
          (m = [0x23] ∧ ms = []) ∨ (LevelAdmits m s ∧ ((ms = [] ∧ ss = []) ∨ AclAdmits ms ss)) := by
        constructor
        · intro h
          cases h with
          | hash => exact .inl ⟨rfl, rfl⟩
          | last h => exact .inr ⟨h, .inl ⟨rfl, rfl⟩⟩
          | level h h' => exact .inr ⟨h, .inr h'⟩
        · rintro (⟨rfl, rfl⟩ | ⟨h, ⟨rfl, rfl⟩ | h'⟩)
          · exact .hash _ _
          · exact .last h
          · exact .level h h'
      rw [hlev]
      simp only [hmx, hsx, hmq, hsq]
      by_cases h1 : m = [0x23]
      · have hms : ms = [] := by apply Classical.byContradiction; intro hne; exact ml hne h1
        simp [h1, hms]
      · by_cases h2 : s = [0x23]
        · simp [h1, h2, LevelAdmits]
        · rw [if_neg h1, if_neg h2]
          by_cases h3 : m = [0x2B] ∨ s = [0x2B]
          · rw [if_pos h3]
            by_cases h4 : m.head? = some dollar
            · have h5 : m ≠ [0x2B] := by rintro rfl; exact absurd h4 (by decide)
              have h6 : s = [0x2B] := h3.resolve_left h5
              have h7 : m ≠ s := by rw [h6]; exact h5
              have h4' : m.head? = some 0x24 := h4
              rw [if_pos h4]
              simp [LevelAdmits, h1, h5, h7, h4']
            · rw [if_neg h4, hrec]
              have h4' : m.head? ≠ some 0x24 := h4
              have : LevelAdmits m s := by
                refine ⟨h1, h2, ?_⟩
                rcases h3 with h | h
                · exact .inl h
                · exact .inr (.inl ⟨h, h4'⟩)
              simp [h1, this]
          · rw [if_neg h3]
            simp only [not_or] at h3
            by_cases h8 : m = s
            · subst h8
              simp only [ne_eq, not_true_eq_false, if_false, hrec]
              simp [LevelAdmits, h1]
            · simp [h8, h1, LevelAdmits, h3]

/-- **C50** A subscription to a single topic (no wildcards) which is admitted is one the pattern matches,
and one the pattern matches is admitted unless it is the parent of the pattern's "#". -/
theorem acl_literal_iff (ms ss : List Bytes) (hm : FilterLevelsOk ms)
    (hs : ∀ l ∈ ss, (0x2B : UInt8) ∉ l ∧ (0x23 : UInt8) ∉ l) (hne : ss ≠ []) :
    matchTokensAcl ms ss = true ↔ LevelsMatch ms ss ∧ ms.length ≤ ss.length := by
  have hso : FilterLevelsOk ss :=
    ⟨fun l hl h => absurd h (hs l hl).1, fun l hl h => absurd h (hs l hl).2,
     fun l hl h => (hs l (List.dropLast_subset _ hl)).2 (by rw [h]; simp)⟩
  rw [acl_admits_iff ms ss hm hso]
  rw [← FLO_iff] at hm
  clear hso
  induction ms generalizing ss with
  | nil =>
    constructor
    · intro h; cases h
    · rintro ⟨h, _⟩; cases h; exact absurd rfl hne
  | cons m ms ih =>
    cases ss with
    | nil => exact absurd rfl hne
    | cons s ss =>
      obtain ⟨mp, mh, ml, mrest⟩ := hm
      have hsp : s ≠ [0x2B] := by rintro rfl; exact (hs [0x2B] (by simp)).1 (by simp)
      have hsh : s ≠ [0x23] := by rintro rfl; exact (hs [0x23] (by simp)).2 (by simp)
      have htail : ∀ l ∈ ss, (0x2B : UInt8) ∉ l ∧ (0x23 : UInt8) ∉ l := fun l hl => hs l (by simp [hl])
      have hlit : LevelAdmits m s ↔ (m ≠ [0x23] ∧ (m = [0x2B] ∨ m = s)) := by
        simp [LevelAdmits, hsp, hsh]
      constructor
      · intro h
        cases h with
        | hash => exact ⟨.hash _, by simp⟩
        | last h =>
          obtain ⟨h1, h2 | h2⟩ := hlit.mp h
          · subst h2; exact ⟨.plus .nil, by simp⟩
          · subst h2; exact ⟨.lit hsh hsp .nil, by simp⟩
        | level h h' =>
          have hssne : ss ≠ [] := by rintro rfl; cases h'
          obtain ⟨a, b⟩ := (ih ss mrest htail hssne).mp h'
          refine ⟨?_, by simpa using b⟩
          obtain ⟨h1, h2 | h2⟩ := hlit.mp h
          · subst h2; exact .plus a
          · subst h2; exact .lit hsh hsp a
      · rintro ⟨h, hn⟩
        have hn : ms.length ≤ ss.length := by simpa using hn
        have step : LevelsMatch ms ss → LevelAdmits m s → AclAdmits (m :: ms) (s :: ss) := by
          intro h1 h2
          by_cases hss : ss = []
          · subst hss
            have : ms = [] := List.length_eq_zero_iff.mp (by simpa using hn)
            subst this
            exact .last h2
          · exact .level h2 ((ih ss mrest htail hss).mpr ⟨h1, hn⟩)
        cases h with
        | hash => exact .hash _ _
        | plus h => exact step h (hlit.mpr ⟨by decide, .inl rfl⟩)
        | lit a b h => exact step h (hlit.mpr ⟨a, .inr rfl⟩)

-- "a/+/#" admits "a/b/c" but not "a/b" (though it matches that).
example : matchTokensAcl [[0x61], [0x2B], [0x23]] [[0x61], [0x62], [0x63]] = true ∧
    matchTokensAcl [[0x61], [0x2B], [0x23]] [[0x61], [0x62]] = false ∧
    LevelsMatch [[0x61], [0x2B], [0x23]] [[0x61], [0x62]] :=
  ⟨by decide, by decide, .lit (by decide) (by decide) (.plus (.hash _))⟩

-- "a/#" admits "a/+/c"; the filter has "+" only below the "#".
example : matchTokensAcl [[0x61], [0x23]] [[0x61], [0x2B], [0x63]] = true := by decide

end Verif.Topic
