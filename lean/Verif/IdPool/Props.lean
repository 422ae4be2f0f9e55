import Verif.IdPool.Spec
/-!
# C05: packet identifiers in flight are unique and non-zero
-/
namespace Verif.IdPool
open Spec

/-! ## Lemmas -/

/-- Bit `n` of the pool. -/
def bit (blocks : List (BitVec 32)) (n : Nat) : Bool :=
  match blocks[n / 32]? with
  | some b => b.getLsbD (n % 32)
  | none => false

theorem and_mask_eq_zero (b : BitVec 32) (m : Nat) (hm : m < 32) :
    b &&& ((1 : BitVec 32) <<< m) = 0 ↔ b.getLsbD m = false := by
  constructor
  · intro h
    have := congrArg (fun x => BitVec.getLsbD x m) h
    simpa [hm, BitVec.getLsbD_one] using this
  · intro h
    apply BitVec.eq_of_getLsbD_eq
    intro i hi
    simp only [BitVec.getLsbD_and, BitVec.getLsbD_shiftLeft, BitVec.getLsbD_zero, hi, decide_true,
      Bool.true_and]
    by_cases him : i = m
    · subst him; simp [h]
    · by_cases h2 : i < m
      · simp [h2]
      · have : ¬ (i - m = 0) := by omega
        simp [BitVec.getLsbD_one, this]

theorem getLsbD_or_mask (b : BitVec 32) (m i : Nat) (hm : m < 32) :
    (b ||| ((1 : BitVec 32) <<< m)).getLsbD i = (b.getLsbD i || decide (i = m)) := by
  simp only [BitVec.getLsbD_or, BitVec.getLsbD_shiftLeft]
  by_cases him : i = m
  · subst him; simp [hm, BitVec.getLsbD_one]
  · by_cases h2 : i < m
    · simp [h2, him]
    · have : ¬ (i - m = 0) := by omega
      simp [BitVec.getLsbD_one, this, him]

theorem getLsbD_and_not_mask (b : BitVec 32) (m i : Nat) (hm : m < 32) :
    (b &&& ~~~((1 : BitVec 32) <<< m)).getLsbD i = (b.getLsbD i && decide (i ≠ m)) := by
  simp only [BitVec.getLsbD_and, BitVec.getLsbD_not, BitVec.getLsbD_shiftLeft]
  by_cases hi : i < 32
  · by_cases him : i = m
    · subst him; simp [hm, BitVec.getLsbD_one]
    · by_cases h2 : i < m
      · simp [h2, him, hi]
      · have : ¬ (i - m = 0) := by omega
        simp [BitVec.getLsbD_one, this, him, hi]
  · have := BitVec.getLsbD_of_ge b i (by omega)
    simp [this]

theorem bit_set (blocks : List (BitVec 32)) (m : Nat) (b : BitVec 32) (n : Nat)
    (h : blocks[m]? ≠ none) :
    bit (blocks.set m b) n = if n / 32 = m then b.getLsbD (n % 32) else bit blocks n := by
  unfold bit
  rw [List.getElem?_set]
  have hl : m < blocks.length := by
    rcases Nat.lt_or_ge m blocks.length with h' | h'
    · exact h'
    · exact absurd (List.getElem?_eq_none h') h
  by_cases hm : n / 32 = m
  · subst hm; simp [hl]
  · have : ¬ (m = n / 32) := fun e => hm e.symm
    simp [hm, this]

theorem and_one_eq_zero (b : BitVec 32) : b &&& 1 = 0 ↔ b.getLsbD 0 = false := by
  have := and_mask_eq_zero b 0 (by omega)
  simpa using this

theorem findFree_got (source : BitVec 32) : ∀ (left i : Nat) (n : Nat) (b : BitVec 32),
    left + i = 32 → findFree source left i (source >>> i) = .got n b →
    ∃ k, n = k + 1 ∧ i ≤ k ∧ k < 32 ∧ source.getLsbD k = false ∧
      (∀ j, i ≤ j → j < k → source.getLsbD j = true) ∧ b = source ||| ((1 : BitVec 32) <<< k) := by
  intro left
  induction left with
  | zero => intro i n b _ h; simp [findFree] at h
  | succ left ih =>
    intro i n b hl h
    rw [findFree] at h
    by_cases hb : source >>> i &&& 1 = 0
    · rw [if_pos hb] at h
      rw [and_one_eq_zero] at hb
      simp at hb
      simp only [Get32.got.injEq] at h
      exact ⟨i, h.1.symm, Nat.le_refl _, by omega, hb, fun j h1 h2 => by omega, h.2.symm⟩
    · rw [if_neg hb] at h
      rw [and_one_eq_zero] at hb
      simp at hb
      rw [← BitVec.shiftRight_add] at h
      obtain ⟨k, h1, h2, h3, h4, h5, h6⟩ := ih (i + 1) n b (by omega) h
      refine ⟨k, h1, by omega, h3, h4, fun j hj1 hj2 => ?_, h6⟩
      by_cases hji : j = i
      · subst hji; exact hb
      · exact h5 j (by omega) hj2

theorem findFree_bug (source : BitVec 32) : ∀ (left i : Nat),
    left + i = 32 → findFree source left i (source >>> i) = .bug →
    ∀ j, i ≤ j → j < 32 → source.getLsbD j = true := by
  intro left
  induction left with
  | zero => intro i hl h j h1 h2; omega
  | succ left ih =>
    intro i hl h j h1 h2
    rw [findFree] at h
    by_cases hb : source >>> i &&& 1 = 0
    · rw [if_pos hb] at h; contradiction
    · rw [if_neg hb] at h
      rw [and_one_eq_zero] at hb
      simp at hb
      rw [← BitVec.shiftRight_add] at h
      by_cases hji : j = i
      · subst hji; exact hb
      · exact ih (i + 1) (by omega) h j (by omega) h2

theorem findFree_full (source : BitVec 32) (left i : Nat) (t : BitVec 32) :
    findFree source left i t ≠ .full := by
  induction left generalizing i t with
  | zero => simp [findFree]
  | succ left ih =>
    rw [findFree]; split
    · simp
    · exact ih _ _

theorem allOnes_iff (b : BitVec 32) : b = 0xffffffff ↔ ∀ j, j < 32 → b.getLsbD j = true := by
  constructor
  · rintro rfl j hj
    have : (0xffffffff : BitVec 32) = BitVec.allOnes 32 := by decide
    rw [this, BitVec.getLsbD_allOnes]; simp [hj]
  · intro h
    have : (0xffffffff : BitVec 32) = BitVec.allOnes 32 := by decide
    rw [this]
    apply BitVec.eq_of_getLsbD_eq
    intro i hi
    rw [h i hi, BitVec.getLsbD_allOnes]; simp [hi]

theorem get32_got {b b' : BitVec 32} {n : Nat} (h : get32 b = .got n b') :
    ∃ k, n = k + 1 ∧ k < 32 ∧ b.getLsbD k = false ∧ (∀ j, j < k → b.getLsbD j = true) ∧
      b' = b ||| ((1 : BitVec 32) <<< k) := by
  unfold get32 at h
  split at h
  · contradiction
  · have := findFree_got b 32 0 n b' (by omega) (by simpa using h)
    obtain ⟨k, h1, _, h3, h4, h5, h6⟩ := this
    exact ⟨k, h1, h3, h4, fun j hj => h5 j (by omega) hj, h6⟩

theorem get32_full {b : BitVec 32} (h : get32 b = .full) : ∀ j, j < 32 → b.getLsbD j = true := by
  unfold get32 at h
  split at h
  · rename_i hb; exact (allOnes_iff b).mp hb
  · exact absurd h (findFree_full _ _ _ _)

theorem get32_ne_bug (b : BitVec 32) : get32 b ≠ .bug := by
  unfold get32
  split
  · simp
  · rename_i hb
    intro h
    apply hb
    rw [allOnes_iff]
    intro j hj
    exact findFree_bug b 32 0 (by omega) (by simpa using h) j (by omega) hj

theorem scan_ne_bug (i : Nat) (bs : List (BitVec 32)) : scan i bs ≠ .bug := by
  induction bs generalizing i with
  | nil => simp [scan]
  | cons b bs ih =>
    rw [scan]
    cases h : get32 b with
    | bug => exact absurd h (get32_ne_bug b)
    | got n b' => simp
    | full =>
      simp only
      cases hs : scan (i + 1) bs with
      | bug => exact absurd hs (ih _)
      | none => simp
      | got id bs' => simp

theorem bit_cons (b : BitVec 32) (bs : List (BitVec 32)) (n : Nat) :
    bit (b :: bs) n = if n < 32 then b.getLsbD n else bit bs (n - 32) := by
  unfold bit
  by_cases h : n < 32
  · have : n / 32 = 0 := by omega
    have h2 : n % 32 = n := by omega
    simp [this, h, h2]
  · have : n / 32 = (n - 32) / 32 + 1 := by omega
    have h2 : n % 32 = (n - 32) % 32 := by omega
    rw [this, h2]
    simp [h]

theorem scan_none {i : Nat} {bs : List (BitVec 32)} (h : scan i bs = .none) :
    ∀ n, n < 32 * bs.length → bit bs n = true := by
  induction bs generalizing i with
  | nil => intro n hn; simp at hn
  | cons b bs ih =>
    rw [scan] at h
    cases hg : get32 b with
    | bug => exact absurd hg (get32_ne_bug b)
    | got n b' => rw [hg] at h; contradiction
    | full =>
      rw [hg] at h
      simp only at h
      cases hs : scan (i + 1) bs with
      | bug => rw [hs] at h; contradiction
      | got id bs' => rw [hs] at h; contradiction
      | none =>
        intro n hn
        rw [bit_cons]
        split
        · rename_i hlt; exact get32_full hg n hlt
        · refine ih hs _ ?_
          simp at hn; omega

theorem scan_got {i : Nat} {bs bs' : List (BitVec 32)} {id : BitVec 16} (h : scan i bs = .got id bs') :
    ∃ k, k < 32 * bs.length ∧ id = BitVec.ofNat 16 (k + 1 + 32 * i) ∧ bit bs k = false ∧
      (∀ j, j < k → bit bs j = true) ∧ bs'.length = bs.length ∧
      (∀ n, bit bs' n = (bit bs n || decide (n = k))) := by
  induction bs generalizing i id bs' with
  | nil => simp [scan] at h
  | cons b bs ih =>
    rw [scan] at h
    cases hg : get32 b with
    | bug => exact absurd hg (get32_ne_bug b)
    | got n b' =>
      rw [hg] at h
      simp only [Scan.got.injEq] at h
      obtain ⟨k, h1, h2, h3, h4, h5⟩ := get32_got hg
      obtain ⟨h6, rfl⟩ := h
      refine ⟨k, by simp; omega, by rw [← h6, h1], by rw [bit_cons, if_pos h2]; exact h3, ?_, by simp, ?_⟩
      · intro j hj
        rw [bit_cons, if_pos (by omega)]; exact h4 j hj
      · intro n
        rw [bit_cons, bit_cons, h5]
        split
        · rw [getLsbD_or_mask _ _ _ h2]
        · have : ¬ n = k := by omega
          simp [this]
    | full =>
      rw [hg] at h
      simp only at h
      cases hs : scan (i + 1) bs with
      | bug => rw [hs] at h; contradiction
      | none => rw [hs] at h; contradiction
      | got id' bs'' =>
        rw [hs] at h
        simp only [Scan.got.injEq] at h
        obtain ⟨rfl, rfl⟩ := h
        obtain ⟨k, h1, h2, h3, h4, h5, h6⟩ := ih hs
        refine ⟨k + 32, by simp; omega, ?_, ?_, ?_, by simp [h5], ?_⟩
        · rw [h2]; congr 1; omega
        · rw [bit_cons, if_neg (by omega)]; simpa using h3
        · intro j hj
          rw [bit_cons]
          split
          · rename_i hlt; exact get32_full hg j hlt
          · exact h4 _ (by omega)
        · intro n
          rw [bit_cons, bit_cons]
          split
          · have : ¬ n = k + 32 := by omega
            simp [this]
          · rw [h6]
            congr 1
            have : (n - 32 = k) ↔ (n = k + 32) := by omega
            simp [this]

theorem bit_append_zero (bs : List (BitVec 32)) (k n : Nat) :
    bit (bs ++ List.replicate k 0) n = bit bs n := by
  unfold bit
  rw [List.getElem?_append]
  by_cases h : n / 32 < bs.length
  · rw [if_pos h]
  · rw [if_neg h]
    rw [List.getElem?_eq_none (Nat.le_of_not_lt h : bs.length ≤ n / 32)]
    rw [List.getElem?_replicate]
    by_cases hk : n / 32 - bs.length < k
    · rw [if_pos hk]; simp
    · rw [if_neg hk]

theorem bit_ge (bs : List (BitVec 32)) (n : Nat) (h : 32 * bs.length ≤ n) : bit bs n = false := by
  unfold bit
  rw [List.getElem?_eq_none (by omega)]

/-- The invariant: the pool has grown in whole steps and not beyond its maximum. -/
def Inv (p : Pool) : Prop := ∃ k, k ≤ 4 ∧ p.blocks.length = 512 * k

/-- The identifiers in use. -/
def live (p : Pool) (k : Nat) : Prop := 1 ≤ k ∧ k ≤ 65535 ∧ bit p.blocks (k - 1) = true

theorem slowPath_succ (memOk : Bool) (fuel : Nat) (blocks : List (BitVec 32)) :
    slowPath memOk (fuel + 1) blocks =
      match scan 0 blocks with
      | .bug => (.abort, { blocks := blocks, last := 0 })
      | .got id blocks' =>
        (if id = 0 then .exhausted else .id id, { blocks := blocks', last := id })
      | .none =>
        match realloc memOk blocks stepSize with
        | some blocks' => slowPath memOk fuel blocks'
        | none => (.exhausted, { blocks := blocks, last := 0 }) := rfl

theorem slowPath_spec (memOk : Bool) : ∀ (fuel : Nat) (blocks : List (BitVec 32)) (k : Nat),
    k ≤ 4 → blocks.length = 512 * k → 5 ≤ fuel + k → ∀ p, p.blocks = blocks →
    Step (live p) (.get memOk) (slowPath memOk fuel blocks).1 (live (slowPath memOk fuel blocks).2) ∧
    Inv (slowPath memOk fuel blocks).2 := by
  intro fuel
  induction fuel with
  | zero => intro blocks k hk _ hf; omega
  | succ fuel ih =>
    intro blocks k hk hlen hf p hp
    rw [slowPath_succ]
    cases hs : scan 0 blocks with
    | bug => exact absurd hs (scan_ne_bug _ _)
    | got id blocks' =>
      simp only
      obtain ⟨m, h1, h2, h3, h4, h5, h6⟩ := scan_got hs
      refine ⟨?_, k, hk, by simp [h5, hlen]⟩
      have hm : m < 65536 := by omega
      have hid : id.toNat = (m + 1) % 65536 := by rw [h2]; simp
      by_cases hz : id = 0
      · rw [if_pos hz]
        have : m = 65535 := by
          have : id.toNat = 0 := by rw [hz]; rfl
          omega
        refine .exhausted ?_ ?_
        · intro _ j hj1 hj2
          refine ⟨hj1, hj2, ?_⟩
          rw [hp]; exact h4 _ (by omega)
        · intro j
          unfold live
          rw [h6, hp]
          have e : ∀ (h1 : 1 ≤ j) (h2 : j ≤ 65535), ¬ (j - 1 = m) := by omega
          constructor
          · rintro ⟨a, b, c⟩
            simp [e a b] at c; exact ⟨a, b, c⟩
          · rintro ⟨a, b, c⟩
            exact ⟨a, b, by simp [c]⟩
      · rw [if_neg hz]
        have hne : m ≠ 65535 := by
          intro hm
          apply hz
          apply BitVec.eq_of_toNat_eq
          rw [hid, hm]; simp
        have hid' : id.toNat = m + 1 := by omega
        refine .get (by omega) (by omega) ?_ ?_
        · rintro ⟨_, _, c⟩
          rw [hp, hid'] at c
          simp [h3] at c
        · intro j
          unfold live
          rw [h6, hp, hid']
          constructor
          · rintro ⟨a, b, c⟩
            by_cases hj : j = m + 1
            · exact Or.inr hj
            · have : ¬ (j - 1 = m) := by omega
              simp [this] at c
              exact Or.inl ⟨a, b, c⟩
          · rintro (⟨a, b, c⟩ | rfl)
            · exact ⟨a, b, by simp [c]⟩
            · exact ⟨by omega, by omega, by simp⟩
    | none =>
      simp only
      unfold realloc
      simp only
      by_cases hbig : blocks.length + stepSize > sizeIn32
      · rw [if_pos hbig]
        refine ⟨.exhausted ?_ ?_, k, hk, hlen⟩
        · intro _ j hj1 hj2
          refine ⟨hj1, hj2, ?_⟩
          rw [hp]
          refine scan_none hs _ ?_
          unfold stepSize sizeIn32 at hbig; omega
        · intro j; unfold live; rw [hp]
      · rw [if_neg hbig]
        by_cases hmem : memOk = false
        · rw [if_pos hmem]
          refine ⟨.exhausted ?_ ?_, k, hk, hlen⟩
          · intro h; rw [hmem] at h; contradiction
          · intro j; unfold live; rw [hp]
        · rw [if_neg hmem]
          have hlt : k < 4 := by unfold stepSize sizeIn32 at hbig; omega
          have := ih (blocks ++ List.replicate stepSize 0) (k + 1) (by omega)
            (by rw [List.length_append, List.length_replicate, hlen]; unfold stepSize; omega) (by omega)
            { blocks := blocks ++ List.replicate stepSize 0, last := 0 } rfl
          have hlive : live { blocks := blocks ++ List.replicate stepSize 0, last := 0 } = live p := by
            funext j; unfold live; simp only; rw [bit_append_zero, hp]
          rw [hlive] at this
          simp only
          exact this

theorem step_spec (p : Pool) (op : Op) (hp : Inv p) :
    Step (live p) op (step p op).1 (live (step p op).2) ∧ Inv (step p op).2 := by
  obtain ⟨k, hk, hlen⟩ := hp
  cases op with
  | get memOk =>
    unfold step getId
    simp only
    generalize hret : (if p.last + 1 = 0 then (1 : BitVec 16) else p.last + 1) = ret
    have hr1 : 1 ≤ ret.toNat := by
      rcases Nat.eq_zero_or_pos ret.toNat with h | h
      · exfalso
        have h0 : ret = 0 := BitVec.eq_of_toNat_eq (by rw [h]; rfl)
        rw [h0] at hret
        split at hret
        · contradiction
        · contradiction
      · exact h
    have hr2 := ret.isLt
    have hmaj : (ret.toNat - 1 - (ret.toNat - 1) % 32) / 32 = (ret.toNat - 1) / 32 := by omega
    rw [hmaj]
    cases hb : p.blocks[(ret.toNat - 1) / 32]? with
    | none => exact slowPath_spec memOk 5 p.blocks k hk hlen (by omega) p rfl
    | some b =>
      simp only
      by_cases hm : b &&& ((1 : BitVec 32) <<< ((ret.toNat - 1) % 32)) = 0
      · rw [if_pos hm]
        rw [and_mask_eq_zero _ _ (Nat.mod_lt _ (by omega))] at hm
        refine ⟨.get hr1 (by omega) ?_ ?_, k, hk, by simp [hlen]⟩
        · rintro ⟨_, _, c⟩
          unfold bit at c
          rw [hb] at c
          simp [hm] at c
        · intro j
          unfold live
          rw [bit_set _ _ _ _ (by rw [hb]; simp)]
          have hbit : ∀ n, n / 32 = (ret.toNat - 1) / 32 → bit p.blocks n = b.getLsbD (n % 32) := by
            intro n hn; unfold bit; rw [hn, hb]
          constructor
          · rintro ⟨a, c, d⟩
            by_cases hj : j = ret.toNat
            · exact Or.inr hj
            · left
              refine ⟨a, c, ?_⟩
              split at d
              · rename_i hq
                rw [getLsbD_or_mask _ _ _ (Nat.mod_lt _ (by omega))] at d
                have : ¬ ((j - 1) % 32 = (ret.toNat - 1) % 32) := by omega
                simp [this] at d
                rw [hbit _ hq]; exact d
              · exact d
          · rintro (⟨a, c, d⟩ | rfl)
            · refine ⟨a, c, ?_⟩
              split
              · rename_i hq
                rw [getLsbD_or_mask _ _ _ (Nat.mod_lt _ (by omega)), ← hbit _ hq, d]; rfl
              · exact d
            · refine ⟨hr1, by omega, ?_⟩
              rw [if_pos rfl, getLsbD_or_mask _ _ _ (Nat.mod_lt _ (by omega))]; simp
      · rw [if_neg hm]
        exact slowPath_spec memOk 5 p.blocks k hk hlen (by omega) p rfl
  | release id =>
    unfold step releaseId
    simp only
    by_cases hz : id = 0
    · subst hz
      rw [if_pos rfl]
      exact ⟨.ub, k, hk, hlen⟩
    · rw [if_neg hz]
      have h1 : 1 ≤ id.toNat := by
        rcases Nat.eq_zero_or_pos id.toNat with h | h
        · exact absurd (BitVec.eq_of_toNat_eq (by rw [h]; rfl)) hz
        · exact h
      have h2 := id.isLt
      have hmaj : (id.toNat - 1 - (id.toNat - 1) % 32) / 32 = (id.toNat - 1) / 32 := by omega
      rw [hmaj]
      cases hb : p.blocks[(id.toNat - 1) / 32]? with
      | none =>
        refine ⟨.abort hz ?_, k, hk, hlen⟩
        rintro ⟨_, _, c⟩
        unfold bit at c; rw [hb] at c; contradiction
      | some b =>
        simp only
        by_cases hm : b &&& ((1 : BitVec 32) <<< ((id.toNat - 1) % 32)) = 0
        · rw [if_pos hm]
          rw [and_mask_eq_zero _ _ (Nat.mod_lt _ (by omega))] at hm
          refine ⟨.abort hz ?_, k, hk, hlen⟩
          rintro ⟨_, _, c⟩
          unfold bit at c; rw [hb] at c; simp [hm] at c
        · rw [if_neg hm]
          rw [and_mask_eq_zero _ _ (Nat.mod_lt _ (by omega))] at hm
          have hbit : ∀ n, n / 32 = (id.toNat - 1) / 32 → bit p.blocks n = b.getLsbD (n % 32) := by
            intro n hn; unfold bit; rw [hn, hb]
          refine ⟨.release ⟨h1, by omega, ?_⟩ ?_, k, hk, by simp [hlen]⟩
          · rw [hbit _ rfl]; simpa using hm
          · intro j
            unfold live
            rw [bit_set _ _ _ _ (by rw [hb]; simp)]
            constructor
            · rintro ⟨a, c, d⟩
              split at d
              · rename_i hq
                rw [getLsbD_and_not_mask _ _ _ (Nat.mod_lt _ (by omega)), ← hbit _ hq] at d
                simp at d
                refine ⟨⟨a, c, d.1⟩, ?_⟩
                rintro rfl
                exact d.2 rfl
              · rename_i hq
                refine ⟨⟨a, c, d⟩, ?_⟩
                rintro rfl
                exact hq rfl
            · rintro ⟨⟨a, c, d⟩, hne⟩
              refine ⟨a, c, ?_⟩
              split
              · rename_i hq
                rw [getLsbD_and_not_mask _ _ _ (Nat.mod_lt _ (by omega)), ← hbit _ hq, d]
                have : ¬ ((j - 1) % 32 = (id.toNat - 1) % 32) := by omega
                simp [this]
              · exact d

theorem run_spec (p : Pool) (hp : Inv p) (ops : List Op) : Run (live p) ops (run p ops) := by
  induction ops generalizing p with
  | nil => exact .nil
  | cons op ops ih =>
    obtain ⟨h1, h2⟩ := step_spec p op hp
    simp only [run]
    generalize hst : step p op = r at h1 h2
    obtain ⟨o, p'⟩ := r
    simp only at h1 h2
    cases o with
    | abort => exact .stop h1 (Or.inl rfl)
    | ub => exact .stop h1 (Or.inr rfl)
    | id n => exact .cons h1 (by simp) (by simp) (ih p' h2)
    | exhausted => exact .cons h1 (by simp) (by simp) (ih p' h2)
    | released => exact .cons h1 (by simp) (by simp) (ih p' h2)

/-! ## The property -/

/-- **C05** Every sequence of allocate and release calls on a fresh pool, with
memory allocation succeeding or failing at will, behaves like a set of
identifiers: see `Spec.Step` for what each call may return. -/
theorem run_refines_set (ops : List Op) : Run (fun _ => False) ops (run init ops) := by
  have h := run_spec init ⟨0, by omega, rfl⟩ ops
  have : live init = fun _ => False := by
    funext k
    simp [live, init, bit]
  rwa [this] at h

/-- Two allocations of the same identifier have a release of it in between. -/
theorem run_unique (ops : List Op) (i j : Nat) (n : BitVec 16) (hij : i < j)
    (hi : (run init ops)[i]? = some (Out.id n)) (hj : (run init ops)[j]? = some (Out.id n)) :
    ∃ m, i < m ∧ m < j ∧ ops[m]? = some (Op.release n) := by
  -- statement about abstract runs
  have held : ∀ (ops : List Op) (outs : List Out) (lv : Nat → Prop), Run lv ops outs → lv n.toNat →
      ∀ j : Nat, outs[j]? = some (Out.id n) → ∃ m, m < j ∧ ops[m]? = some (Op.release n) := by
    intro ops outs lv h
    induction h with
    | nil => intro _ j hj; simp at hj
    | stop hs ho =>
      intro _ j hj
      cases j with
      | zero => rcases ho with rfl | rfl <;> simp at hj
      | succ j => simp at hj
    | @cons lv lv' op ops o outs hs h1 h2 _ ih =>
      intro hl j hj
      cases j with
      | zero =>
        simp at hj; subst hj
        cases hs with
        | get _ _ hn _ => exact absurd hl hn
      | succ j =>
        simp at hj
        by_cases hrel : op = .release n
        · exact ⟨0, by omega, by simp [hrel]⟩
        · have hl' : lv' n.toNat := by
            cases hs with
            | get _ _ _ h => exact (h _).mpr (Or.inl hl)
            | exhausted _ h => exact (h _).mpr hl
            | @release n' _ _ h =>
              refine (h _).mpr ⟨hl, ?_⟩
              intro e; apply hrel; rw [BitVec.eq_of_toNat_eq e]
            | abort => contradiction
            | ub => contradiction
          obtain ⟨m, hm1, hm2⟩ := ih hl' j hj
          exact ⟨m + 1, by omega, by simpa using hm2⟩
  have main : ∀ (ops : List Op) (outs : List Out) (lv : Nat → Prop), Run lv ops outs →
      ∀ i j : Nat, i < j → outs[i]? = some (Out.id n) → outs[j]? = some (Out.id n) →
      ∃ m, i < m ∧ m < j ∧ ops[m]? = some (Op.release n) := by
    intro ops outs lv h
    induction h with
    | nil => intro i j _ hi; simp at hi
    | stop hs ho =>
      intro i j hlt hi hj
      have : j = 0 := by
        rcases Nat.eq_zero_or_pos j with h | h
        · exact h
        · exfalso
          obtain ⟨j', rfl⟩ := Nat.exists_eq_succ_of_ne_zero (by omega : j ≠ 0)
          simp at hj
      omega
    | @cons lv lv' op ops o outs hs h1 h2 hr ih =>
      intro i j hlt hi hj
      obtain ⟨j', rfl⟩ := Nat.exists_eq_succ_of_ne_zero (by omega : j ≠ 0)
      simp at hj
      cases i with
      | zero =>
        simp at hi; subst hi
        have hl' : lv' n.toNat := by
          cases hs with
          | get _ _ _ h => exact (h _).mpr (Or.inr rfl)
        obtain ⟨m, hm1, hm2⟩ := held _ _ _ hr hl' j' hj
        exact ⟨m + 1, by omega, by omega, by simpa using hm2⟩
      | succ i =>
        simp at hi
        obtain ⟨m, hm1, hm2, hm3⟩ := ih i j' (by omega) hi hj
        exact ⟨m + 1, by omega, by omega, by simpa using hm3⟩
  exact main _ _ _ (run_refines_set ops) i j hij hi hj

/-- No identifier is 0. -/
theorem run_nonzero (ops : List Op) : Out.id 0 ∉ run init ops := by
  have : ∀ (ops : List Op) (outs : List Out) (lv : Nat → Prop), Run lv ops outs → Out.id 0 ∉ outs := by
    intro ops outs lv h
    induction h with
    | nil => simp
    | stop hs ho => rcases ho with rfl | rfl <;> simp
    | cons hs h1 h2 _ ih =>
      intro hm
      rcases List.mem_cons.mp hm with h | h
      · subst h
        cases hs with
        | get h _ _ _ => simp at h
      · exact ih h
  exact this _ _ _ (run_refines_set ops)

-- A concrete run: allocate twice, release the first, allocate again.
example : run init [.get true, .get true, .release 1, .get true, .release 1] =
    [.id 1, .id 2, .released, .id 3, .abort] := by decide +kernel

end Verif.IdPool
