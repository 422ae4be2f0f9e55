import Verif.Mmap.Chain
/-!
# Memory maps: allocating, freeing and asking for emptiness
-/
namespace Verif.Mmap
open Verif

/-- What a walk for a new block ends with, starting from the heap `bs`. -/
def WalkPost (m : Mem) (heap padded : Nat) (bs : List (List Ent)) (prev : Nat) : Walk × Nat → Prop
  | (.found m' p, i) => ∃ cs1 b cs2 b', ChainOk m heap 0 (cs1 ++ b :: cs2) ∧
      (liveChain 0 (cs1 ++ b :: cs2) = liveChain 0 bs ∧ totalAll (cs1 ++ b :: cs2) = totalAll bs ∧
        usedAll (cs1 ++ b :: cs2) = usedAll bs) ∧ AllFull cs1 ∧ i = endOf 0 cs1 ∧
      Found m m' heap i padded p b b'
  | (.oom, i) => ∃ cs1 cs2, bs = cs1 ++ cs2 ∧ AllFull cs1 ∧ i = endOf 0 cs1
  | (.done, i) => i = prev ∨ ∃ cs1 cs2, bs = cs1 ++ cs2 ∧ AllFull cs1 ∧ i = endOf 0 cs1
  | (.bug, _) => False
  | (.oob, _) => False
  | (.hang, _) => False

theorem allFull_snoc {cs : List (List Ent)} {b : List Ent} (h : AllFull cs) (hb : Full b) :
    AllFull (cs ++ [b]) := by
  intro c hc
  rcases List.mem_append.mp hc with h' | h'
  · exact h c h'
  · rw [List.mem_singleton.mp h']; exact hb

theorem endOf_snoc {cs : List (List Ent)} {b : List Ent} {p : Nat} :
    endOf p (cs ++ [b]) = endOf p cs + 520 + total b := by
  rw [endOf_append]; rfl

theorem walk_spec {m : Mem} {heap padded : Nat} (hh : heap < 2 ^ 63) (hp : 16 ≤ padded)
    (hp2 : padded ≤ heap) : ∀ (cs2 cs1 : List (List Ent)) (fuel prev : Nat),
    ChainOk m heap 0 (cs1 ++ cs2) → AllFull cs1 → heap - endOf 0 cs1 < fuel →
    WalkPost m heap padded (cs1 ++ cs2) prev (walk m heap padded fuel (endOf 0 cs1) prev) := by
  intro cs2
  induction cs2 with
  | nil =>
    intro cs1 fuel prev hc hf hfuel
    rw [List.append_nil] at *
    obtain ⟨f, rfl⟩ : ∃ f, fuel = f + 1 := ⟨fuel - 1, by omega⟩
    rw [walk]
    by_cases hlt : endOf 0 cs1 < heap
    · rw [if_pos hlt]
      by_cases hroom : heap < endOf 0 cs1 + indexSize
      · rw [if_pos hroom]
        exact ⟨cs1, [], by simp, hf, rfl⟩
      · rw [if_neg hroom]
        have hroom2 : endOf 0 cs1 + 520 ≤ heap := by
          simp only [indexSize] at hroom; omega
        have hc2 := chain_extend hc hf hroom2
        have hsc := scan_spec hh (chain_at hc2).1 hp hp2 (List.replicate 64 fresh) []
          { pos := endOf 0 cs1 + indexSize, mergeJ := 0, mergePos := 0, count := 0, size := 0 }
          rfl (fun x hx => absurd hx (by simp))
          ⟨rfl, Or.inl ⟨rfl, rfl⟩, fun _ => ⟨rfl, by show 0 < padded; omega⟩⟩
        rw [List.length_replicate] at hsc
        cases hs : scan m heap (endOf 0 cs1) padded 64 0
          { pos := endOf 0 cs1 + indexSize, mergeJ := 0, mergePos := 0, count := 0, size := 0 } with
        | found m' p =>
          rw [show ([] : List Ent).length = 0 from rfl, hs] at hsc
          obtain ⟨b', hb'⟩ := hsc
          refine ⟨cs1, _, [], b', hc2, ⟨?_, ?_, ?_⟩, hf, rfl, hb'⟩
          · rw [liveChain_append]
            simp only [liveChain, List.append_nil]
            rw [show fresh = (0, false) from rfl, liveOf_zero, List.append_nil]
          · unfold totalAll
            rw [show fresh = (0, false) from rfl, List.map_append, List.sum_append, List.map_singleton,
              total_replicate_zero]
            rfl
          · unfold usedAll
            rw [List.map_append, List.sum_append, List.map_singleton]
            rfl
        | oom => exact ⟨cs1, [], by simp, hf, rfl⟩
        | bug => rw [show ([] : List Ent).length = 0 from rfl, hs] at hsc; exact hsc.elim
        | oob => rw [show ([] : List Ent).length = 0 from rfl, hs] at hsc; exact hsc.elim
        | next p =>
          rw [show ([] : List Ent).length = 0 from rfl, hs] at hsc
          exact absurd rfl (hsc.2.1 fresh (by simp))
    · rw [if_neg hlt]
      exact Or.inl rfl
  | cons b cs2 ih =>
    intro cs1 fuel prev hc hf hfuel
    obtain ⟨f, rfl⟩ : ∃ f, fuel = f + 1 := ⟨fuel - 1, by omega⟩
    have hi := (chain_at hc).1
    have hfits := hi.fits
    rw [walk, if_pos (by omega), if_neg (by simp only [indexSize]; omega)]
    have hsc := scan_spec hh hi hp hp2 b []
      { pos := endOf 0 cs1 + indexSize, mergeJ := 0, mergePos := 0, count := 0, size := 0 }
      rfl (fun x hx => absurd hx (by simp))
          ⟨rfl, Or.inl ⟨rfl, rfl⟩, fun _ => ⟨rfl, by show 0 < padded; omega⟩⟩
    rw [hi.reads.1] at hsc
    cases hs : scan m heap (endOf 0 cs1) padded 64 0
      { pos := endOf 0 cs1 + indexSize, mergeJ := 0, mergePos := 0, count := 0, size := 0 } with
    | found m' p =>
      rw [show ([] : List Ent).length = 0 from rfl, hs] at hsc
      obtain ⟨b', hb'⟩ := hsc
      exact ⟨cs1, b, cs2, b', hc, ⟨rfl, rfl, rfl⟩, hf, rfl, hb'⟩
    | oom => exact ⟨cs1, b :: cs2, rfl, hf, rfl⟩
    | bug => rw [show ([] : List Ent).length = 0 from rfl, hs] at hsc; exact hsc.elim
    | oob => rw [show ([] : List Ent).length = 0 from rfl, hs] at hsc; exact hsc.elim
    | next p =>
      rw [show ([] : List Ent).length = 0 from rfl, hs] at hsc
      have hn := ih (cs1 ++ [b]) f (endOf 0 cs1) (by simpa using hc) (allFull_snoc hf hsc.2.1) (by
        rw [endOf_snoc]; omega)
      rw [endOf_snoc, ← hsc.1] at hn
      show WalkPost m heap padded (cs1 ++ b :: cs2) prev (walk m heap padded f p (endOf 0 cs1))
      rw [show cs1 ++ b :: cs2 = cs1 ++ [b] ++ cs2 by simp]
      revert hn
      cases hw : walk m heap padded f p (endOf 0 cs1) with
      | mk w i =>
        intro hn
        cases w with
        | found m' p => exact hn
        | oom => exact hn
        | bug => exact hn
        | oob => exact hn
        | hang => exact hn
        | done =>
          right
          rcases hn with h | h
          · exact ⟨cs1, b :: cs2, by simp, hf, h⟩
          · exact h

/-! ## Freeing -/

theorem free_next {m : Mem} {heap idx handle : Nat} {b : List Ent} (hi : IdxOk m heap idx b)
    (hh : idx + 520 + total b < handle) : ∀ (rest pre : List Ent), b = pre ++ rest →
    freeScan m heap idx handle rest.length pre.length (idx + 520 + total pre)
      = .next (idx + 520 + total b) := by
  intro rest
  induction rest with
  | nil => intro pre hb; rw [hb]; simp [freeScan]
  | cons e rest ih =>
    intro pre hb
    have hrd := hi.reads.2 pre.length e (by rw [hb]; simp)
    have htot : total b = total pre + (e.1 + total rest) := by rw [hb]; simp
    have hn := ih (pre ++ [e]) (by rw [hb]; simp)
    rw [List.length_append, List.length_singleton, total_append, total_cons, total_nil] at hn
    have hfits := hi.fits
    rw [List.length_cons, freeScan, hrd.1, hrd.2]
    by_cases hc : e.1 = 0 ∧ e.2 = true
    · rw [if_pos hc]
      rw [← hn, hc.1]; rfl
    · rw [if_neg hc, if_neg (by omega), if_neg (by omega), ← hn, ← Nat.add_assoc]
      rfl

theorem free_found {m : Mem} {heap idx sz : Nat} {pre0 post : List Ent} (hsz : sz ≠ 0)
    (hi : IdxOk m heap idx (pre0 ++ (sz, true) :: post)) : ∀ (mid pre : List Ent), pre0 = pre ++ mid →
    freeScan m heap idx (idx + 520 + total pre0) (mid.length + 1 + post.length) pre.length
      (idx + 520 + total pre) = .done (clearUsed m idx pre0.length) := by
  intro mid
  induction mid with
  | nil =>
    intro pre hb
    rw [List.append_nil] at hb
    subst hb
    have hrd := hi.reads.2 pre0.length (sz, true) (by simp)
    rw [show ([] : List Ent).length + 1 + post.length = post.length + 1 by simp; omega,
      freeScan, hrd.1, hrd.2]
    rw [if_neg (by simp [hsz]), if_pos rfl, if_pos rfl]
  | cons e mid ih =>
    intro pre hb
    have hrd := hi.reads.2 pre.length e (by rw [hb]; simp)
    have hfits := hi.fits
    have htot : total pre0 = total pre + (e.1 + total mid) := by rw [hb]; simp
    rw [total_append] at hfits
    have hne : e ≠ fresh := by
      intro h
      have hsh := hi.shape
      rw [hb] at hsh
      have := (List.pairwise_append.mp hsh).2.2 e (by simp) (sz, true) (by simp) h
      exact absurd (show true = false from congrArg Prod.snd this) (by decide)
    have hn := ih (pre ++ [e]) (by rw [hb]; simp)
    rw [List.length_append, List.length_singleton, total_append, total_cons, total_nil] at hn
    rw [show (e :: mid).length + 1 + post.length = (mid.length + 1 + post.length) + 1 by simp; omega,
      freeScan, hrd.1, hrd.2]
    by_cases hc : e.1 = 0 ∧ e.2 = true
    · rw [if_pos hc, ← hn, hc.1]; rfl
    · have h0 : e.1 ≠ 0 := by
        intro h
        apply hne
        obtain ⟨a, u⟩ := e
        simp only at h
        subst h
        cases u with
        | true => exact absurd ⟨rfl, rfl⟩ hc
        | false => rfl
      rw [if_neg hc, if_neg (by omega), if_neg (by omega), ← hn, ← Nat.add_assoc]
      rfl

theorem freeWalk_found {m : Mem} {heap sz : Nat} {pre post : List Ent} {cs2 : List (List Ent)}
    (hsz : sz ≠ 0) : ∀ (cs1 : List (List Ent)) (p fuel : Nat),
    ChainOk m heap p (cs1 ++ (pre ++ (sz, true) :: post) :: cs2) → heap - p < fuel →
    freeWalk m heap (endOf p cs1 + 520 + total pre) fuel p
      = some (clearUsed m (endOf p cs1) pre.length) := by
  intro cs1
  induction cs1 with
  | nil =>
    intro p fuel hc hfuel
    obtain ⟨f, rfl⟩ : ∃ f, fuel = f + 1 := ⟨fuel - 1, by omega⟩
    have hi := hc.1
    have hfits := hi.fits
    have hf := free_found hsz hi pre [] rfl
    rw [show pre.length + 1 + post.length = 64 by
      have := hi.reads.1; simp only [List.length_append, List.length_cons] at this; omega] at hf
    rw [freeWalk, if_pos (by omega), if_neg (by simp only [indexSize]; omega)]
    have hf2 : freeScan m heap p (endOf p [] + 520 + total pre) 64 0 (p + indexSize)
      = .done (clearUsed m p pre.length) := hf
    rw [hf2]
    rfl
  | cons c cs1 ih =>
    intro p fuel hc hfuel
    obtain ⟨f, rfl⟩ : ∃ f, fuel = f + 1 := ⟨fuel - 1, by omega⟩
    have hi := hc.1
    have hfits := hi.fits
    have hle := @endOf_le cs1 (p + 520 + total c)
    have hn := free_next (handle := endOf (p + 520 + total c) cs1 + 520 + total pre) hi (by omega) c []
      rfl
    rw [hi.reads.1] at hn
    rw [freeWalk, if_pos (by omega), if_neg (by simp only [indexSize]; omega)]
    have hn2 : freeScan m heap p (endOf p (c :: cs1) + 520 + total pre) 64 0 (p + indexSize)
      = .next (p + 520 + total c) := hn
    rw [hn2]
    exact ih (p + 520 + total c) f hc.2.2 (by omega)

/-- What becomes of the heap when a block is freed. -/
theorem free_chain {m : Mem} {heap sz : Nat} {pre post : List Ent} {cs2 : List (List Ent)}
    (hsz : sz ≠ 0) : ∀ (cs1 : List (List Ent)) (p : Nat),
    ChainOk m heap p (cs1 ++ (pre ++ (sz, true) :: post) :: cs2) →
    ChainOk (clearUsed m (endOf p cs1) pre.length) heap p
      (cs1 ++ (pre ++ (sz, false) :: post) :: cs2) := by
  intro cs1
  induction cs1 with
  | nil =>
    intro p hc
    have hi := hc.1
    have hsame : SameBut m (clearUsed m p pre.length) p := sameBut_clearUsed
    have ht : total (pre ++ (sz, false) :: post) = total (pre ++ (sz, true) :: post) := by simp
    refine ⟨⟨reads_clearUsed hi.reads, by rw [ht]; exact hi.fits, ?_, ?_⟩, ?_, ?_⟩
    · refine sents_congr (fun q h1 _ => hsame q (Or.inr h1)) ?_
      have := hi.sents
      rw [sents_append] at *
      exact this
    · have hsh := hi.shape
      have h1 := List.pairwise_append.mp hsh
      refine List.pairwise_append.mpr ⟨h1.1, List.pairwise_cons.mpr ⟨fun x _ h => ?_,
        (List.pairwise_cons.mp h1.2.1).2⟩, ?_⟩
      · exact absurd (congrArg Prod.fst h) hsz
      · intro x hx y _ h
        have := h1.2.2 x hx (sz, true) (by simp) h
        exact absurd (show true = false from congrArg Prod.snd this) (by decide)
    · intro hne x hx
      have hf := hc.2.1 hne
      rcases List.mem_append.mp hx with h | h
      · exact hf x (by simp [h])
      · rcases List.mem_cons.mp h with h | h
        · rw [h]; exact fun h' => absurd (congrArg Prod.fst h') hsz
        · exact hf x (by simp [h])
    · rw [ht]
      exact chain_congr (fun q hq => hsame q (by right; exact Nat.le_trans (by omega) hq)) hc.2.2
  | cons c cs1 ih =>
    intro p hc
    have hle := @endOf_le cs1 (p + 520 + total c)
    refine ⟨idx_congr (fun q _ hq => ?_) hc.1, fun _ => hc.2.1 (by simp), ih _ hc.2.2⟩
    exact sameBut_clearUsed q (by left; exact Nat.lt_of_lt_of_le hq hle)

theorem free_live {cs1 cs2 : List (List Ent)} {pre post : List Ent} {sz p : Nat} (hsz : sz ≠ 0) :
    ∃ A B, liveChain p (cs1 ++ (pre ++ (sz, true) :: post) :: cs2)
        = A ++ (endOf p cs1 + 520 + total pre, sz) :: B ∧
      liveChain p (cs1 ++ (pre ++ (sz, false) :: post) :: cs2) = A ++ B := by
  refine ⟨liveChain p cs1 ++ liveOf (endOf p cs1 + 520) pre,
    liveOf (endOf p cs1 + 520 + total pre + sz) post ++
      liveChain (endOf p cs1 + 520 + total (pre ++ (sz, true) :: post)) cs2, ?_, ?_⟩
  · rw [liveChain_append, liveChain, liveOf_append, liveOf, if_pos ⟨rfl, hsz⟩]
    simp
  · rw [liveChain_append, liveChain, liveOf_append, liveOf, if_neg (by simp)]
    simp

/-! ## Emptiness -/

theorem used_spec {m : Mem} {idx : Nat} {b : List Ent} (hr : Reads m idx b) (q : Nat) :
    ∀ (rest pre : List Ent), b = pre ++ rest →
    usedScan m idx rest.length pre.length = !(liveOf q rest).isEmpty := by
  intro rest
  induction rest generalizing q with
  | nil => intro pre _; rfl
  | cons e rest ih =>
    intro pre hb
    have hrd := hr.2 pre.length e (by rw [hb]; simp)
    have hn := ih (q + e.1) (pre ++ [e]) (by rw [hb]; simp)
    rw [List.length_append, List.length_singleton] at hn
    rw [List.length_cons, usedScan, hrd.1, hrd.2, liveOf]
    by_cases hc : e.2 = true ∧ e.1 ≠ 0
    · rw [if_pos hc, if_pos hc]; rfl
    · rw [if_neg hc, if_neg hc]; exact hn

theorem skip_spec {m : Mem} {heap idx : Nat} {b : List Ent} (hi : IdxOk m heap idx b) :
    ∀ (rest pre : List Ent), b = pre ++ rest →
    skipScan m heap idx rest.length pre.length (idx + 520 + total pre)
      = some (idx + 520 + total b) := by
  intro rest
  induction rest with
  | nil => intro pre hb; rw [hb]; simp [skipScan]
  | cons e rest ih =>
    intro pre hb
    have hrd := hi.reads.2 pre.length e (by rw [hb]; simp)
    have htot : total b = total pre + (e.1 + total rest) := by rw [hb]; simp
    have hn := ih (pre ++ [e]) (by rw [hb]; simp)
    rw [List.length_append, List.length_singleton, total_append, total_cons, total_nil] at hn
    have hfits := hi.fits
    rw [List.length_cons, skipScan, hrd.1, if_neg (by omega), ← hn, ← Nat.add_assoc]
    rfl

theorem used_zero_bits {m : Mem} {idx : Nat} (h : load64 m idx = 0) : ∀ (n j : Nat),
    usedScan m idx n j = false := by
  intro n
  induction n with
  | zero => intro j; rfl
  | succ n ih =>
    intro j
    rw [usedScan, if_neg (by unfold blockUsed; rw [h, Nat.zero_testBit]; simp)]
    exact ih _

theorem emptyWalk_zero {m : Mem} {heap : Nat} : ∀ (fuel p : Nat), (∀ q, p ≤ q → m q = 0) →
    heap - p < fuel → emptyWalk m heap fuel p = some true := by
  intro fuel
  induction fuel with
  | zero => intro p _ h; omega
  | succ f ih =>
    intro p hz hf
    rw [emptyWalk]
    by_cases h1 : p < heap
    · rw [if_pos h1]
      by_cases h2 : heap < p + indexSize
      · rw [if_pos h2]
      · rw [if_neg h2]
        have hroom : p + 520 ≤ heap := by simp only [indexSize] at h2; omega
        rw [if_neg (by rw [load_zero hz]; simp)]
        have hs := skip_spec (idx_zero hz hroom) (List.replicate 64 fresh) [] rfl
        rw [List.length_replicate, show fresh = (0, false) from rfl, total_replicate_zero] at hs
        have hs2 : skipScan m heap p 64 0 (p + indexSize) = some (p + 520) := hs
        rw [hs2]
        exact ih (p + 520) (fun q hq => hz q (by omega)) (by omega)
    · rw [if_neg h1]

theorem emptyWalk_spec {m : Mem} {heap : Nat} : ∀ (bs : List (List Ent)) (fuel p : Nat),
    ChainOk m heap p bs → heap - p < fuel →
    emptyWalk m heap fuel p = some (liveChain p bs).isEmpty := by
  intro bs
  induction bs with
  | nil => intro fuel p hc hf; exact emptyWalk_zero fuel p hc.2 hf
  | cons b bs ih =>
    intro fuel p hc hf
    obtain ⟨f, rfl⟩ : ∃ f, fuel = f + 1 := ⟨fuel - 1, by omega⟩
    have hi := hc.1
    have hfits := hi.fits
    have hu := used_spec hi.reads (p + 520) b [] rfl
    rw [hi.reads.1] at hu
    have hu2 : usedScan m p 64 0 = !(liveOf (p + 520) b).isEmpty := hu
    rw [emptyWalk, if_pos (by omega), if_neg (by simp only [indexSize]; omega), liveChain]
    by_cases hl : (liveOf (p + 520) b).isEmpty = true
    · rw [hl] at hu2
      rw [if_neg (by rw [hu2]; simp)]
      have hs := skip_spec hi b [] rfl
      rw [hi.reads.1] at hs
      have hs2 : skipScan m heap p 64 0 (p + indexSize) = some (p + 520 + total b) := hs
      rw [hs2, List.isEmpty_iff.mp hl, List.nil_append]
      exact ih f _ hc.2.2 (by omega)
    · have hl2 : (liveOf (p + 520) b).isEmpty = false := by simpa using hl
      rw [hl2] at hu2
      have hne : load64 m p ≠ 0 := by
        intro h
        rw [used_zero_bits h] at hu2
        exact absurd hu2 (by decide)
      rw [if_pos ⟨hne, hu2⟩]
      cases hx : liveOf (p + 520) b with
      | nil => rw [hx] at hl2; exact absurd hl2 (by decide)
      | cons a l => rfl

end Verif.Mmap
