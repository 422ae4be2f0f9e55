import Verif.Mmap.Lemmas
/-!
# Memory maps: looking for a block in one index
-/
namespace Verif.Mmap
open Verif

/-- The index at `p` has the entries `b`, and its blocks follow it. -/
structure IdxOk (m : Mem) (heap p : Nat) (b : List Ent) : Prop where
  reads : Reads m p b
  fits : p + 520 + total b ≤ heap
  sents : Sents m (p + 520) b
  shape : Shape b

/-- A block was found at `p`: a new one, or one made of blocks not in use. -/
def Found (m m' : Mem) (heap idx padded p : Nat) (b b' : List Ent) : Prop :=
  ∃ (pre mid post : List Ent) (sz : Nat), b = pre ++ mid ++ post ∧
    b' = pre ++ (sz, true) :: (List.replicate (mid.length - 1) (0, true) ++ post) ∧
    p = idx + 520 + total pre ∧ padded ≤ sz ∧ Reads m' idx b' ∧
    ((mid = [fresh] ∧ sz = padded ∧ Full pre ∧ p + padded ≤ heap ∧
        load64 m' (p + padded - 8) = sentinel ∧
        ∀ q, (q < idx ∨ idx + 520 ≤ q) → (q < p + padded - 8 ∨ p + padded ≤ q) → m' q = m q) ∨
     (Dead mid ∧ total mid = sz ∧ (∃ mid0 e, mid = mid0 ++ [e] ∧ e.1 ≠ 0) ∧ SameBut m m' idx))

/-- No entry is a block in use. -/
def NoLive (b : List Ent) : Prop := ∀ e, e ∈ b → e.2 = true → e.1 = 0

/-- What is known about the variables of the loop. -/
def RunOk (padded base : Nat) (pre : List Ent) (r : Run) : Prop :=
  r.pos = base + total pre ∧
  ((r.count = 0 ∧ r.size = 0) ∨
   (r.count ≠ 0 ∧ ∃ pre0 mid, pre = pre0 ++ mid ∧ r.mergeJ = pre0.length ∧
      r.mergePos = base + total pre0 ∧ r.size = total mid ∧ Dead mid)) ∧
  (NoLive pre → r.size = total pre ∧ total pre < padded)

/-- What the loop over an index ends with. -/
def ScanPost (m : Mem) (heap idx padded : Nat) (b : List Ent) : Scan → Prop
  | .found m' p => ∃ b', Found m m' heap idx padded p b b'
  | .oom => ¬ Full b ∧ heap < idx + 520 + total b + padded ∧ (NoLive b → total b < padded)
  | .bug => False
  | .oob => False
  | .next p => p = idx + 520 + total b ∧ Full b ∧ (NoLive b → total b < padded)

theorem scan_spec {m : Mem} {heap idx padded : Nat} {b : List Ent} (hh : heap < 2 ^ 63)
    (hok : IdxOk m heap idx b) (hp : 16 ≤ padded) (hp2 : padded ≤ heap) :
    ∀ (rest pre : List Ent) (r : Run), b = pre ++ rest → Full pre → RunOk padded (idx + 520) pre r →
      ScanPost m heap idx padded b (scan m heap idx padded rest.length pre.length r) := by
  intro rest
  induction rest with
  | nil =>
    intro pre r hb hf hr
    rw [List.append_nil] at hb
    subst hb
    exact ⟨hr.1, hf, fun h => (hr.2.2 h).2⟩
  | cons e rest ih =>
    intro pre r hb hf hr
    have hlen : b.length = 64 := hok.reads.1
    have hpl : pre.length < 64 := by
      rw [hb] at hlen; simp only [List.length_append, List.length_cons] at hlen; omega
    have hrd := hok.reads.2 pre.length e (by rw [hb]; simp)
    have hfits := hok.fits
    have htot : total b = total pre + (e.1 + total rest) := by rw [hb]; simp
    have hsn := hok.sents
    rw [hb, sents_append] at hsn
    have hse := hsn.2.1
    have hnext : ∀ r', RunOk padded (idx + 520) (pre ++ [e]) r' → e ≠ fresh →
        ScanPost m heap idx padded b (scan m heap idx padded rest.length (pre.length + 1) r') := by
      intro r' hr' hne
      have := ih (pre ++ [e]) r' (by rw [hb]; simp) (by
        intro x hx
        rcases List.mem_append.mp hx with h | h
        · exact hf x h
        · rw [List.mem_singleton.mp h]; exact hne) hr'
      simpa using this
    rw [List.length_cons, scan]
    simp only [hrd.1, hrd.2]
    obtain ⟨hpos, hrun, hnl⟩ := hr
    have hpreL : NoLive (pre ++ [e]) → NoLive pre := fun h x hx => h x (by simp [hx])
    by_cases h0 : e.1 = 0
    · rw [if_pos h0]
      by_cases hu : e.2 = true
      · rw [if_pos hu]
        refine hnext r ⟨by rw [hpos]; simp [h0], ?_, fun h => by simpa [h0] using hnl (hpreL h)⟩ (by
          intro h; rw [h] at hu; exact absurd hu (by decide))
        rcases hrun with h | ⟨hc, pre0, mid, h1, h2, h3, h4, h5⟩
        · exact Or.inl h
        · refine Or.inr ⟨hc, pre0, mid ++ [e], by rw [h1]; simp, h2, h3, by rw [h4]; simp [h0], ?_⟩
          intro x hx
          rcases List.mem_append.mp hx with h | h
          · exact h5 x h
          · rw [List.mem_singleton.mp h]; exact Or.inl ⟨h0, hu⟩
      · rw [if_neg hu]
        have hef : e = fresh := by
          obtain ⟨a, c⟩ := e
          cases c with
          | false => simp only at h0; rw [h0]; rfl
          | true => exact absurd rfl hu
        have hposle : r.pos ≤ heap := by rw [hpos]; omega
        have hrest : total rest = 0 := by
          have hs := hok.shape
          rw [hb] at hs
          have hs2 := (List.pairwise_cons.mp (List.pairwise_append.mp hs).2.1).1
          have : ∀ (l : List Ent), (∀ x, x ∈ l → x = fresh) → total l = 0 := by
            intro l
            induction l with
            | nil => intro _; rfl
            | cons a l ihl =>
              intro h
              rw [total_cons, h a (by simp), ihl fun x hx => h x (by simp [hx])]
              rfl
          exact this rest fun x hx => hs2 x hx hef
        by_cases hoom : heap < w64 (r.pos + padded)
        · rw [if_pos hoom]
          refine ⟨fun hfull => hfull e (by rw [hb]; simp) hef, ?_⟩
          have : w64 (r.pos + padded) = r.pos + padded := by
            unfold w64; exact Nat.mod_eq_of_lt (by omega)
          rw [this, hpos] at hoom
          refine ⟨by omega, fun h => ?_⟩
          have h1 := hnl fun x hx => h x (by rw [hb]; simp [hx])
          rw [htot, h0, hrest]
          omega
        · rw [if_neg hoom]
          have hw : w64 (r.pos + padded) = r.pos + padded := by
            unfold w64; exact Nat.mod_eq_of_lt (by omega)
          rw [hw] at hoom
          rw [hb] at hok
          have h1 := reads_setSize (v := padded) (by omega) hok.reads
          have h2 := reads_setUsed h1
          have hin : idx + 520 ≤ r.pos := by omega
          refine ⟨pre ++ (padded, true) :: rest, pre, [fresh], rest, padded, ?_, ?_, hpos,
            Nat.le_refl _, ?_, Or.inl ⟨rfl, rfl, hf, by omega, load_store (by decide), ?_⟩⟩
          · rw [hb, hef]; simp
          · simp
          · refine reads_congr (fun q hq1 hq2 => ?_) h2
            exact store_out (by simp only [sentinelSize]; omega)
          · intro q hq1 hq2
            rw [show sentinelSize = 8 from rfl, store_out (by omega)]
            exact (SameBut.trans (sameBut_setSize hpl) sameBut_setUsed) q hq1
    · rw [if_neg h0]
      have hse2 := hse h0
      have hposle : r.pos + e.1 ≤ heap := by rw [hpos]; omega
      rw [if_neg (by simp only [sentinelSize]; omega)]
      have hsent : load64 m (r.pos + e.1 - sentinelSize) = sentinel := by
        rw [hpos]; exact hse2.2
      rw [if_neg (fun h => h hsent)]
      by_cases hu : e.2 = true
      · rw [if_pos hu, if_neg (by omega)]
        refine hnext _ ⟨?_, Or.inl ⟨rfl, rfl⟩, fun h => absurd (h e (by simp) hu) h0⟩ (by intro h; rw [h] at h0; exact h0 rfl)
        show r.pos + e.1 = _
        rw [hpos]; simp [Nat.add_assoc]
      · rw [if_neg hu]
        have hdead : (e.1 = 0 ∧ e.2 = true) ∨ (e.1 ≠ 0 ∧ e.2 = false) :=
          Or.inr ⟨h0, by simpa using hu⟩
        -- the run of unused blocks which ends with this one
        obtain ⟨pre0, mid, hm1, hm2, hm3, hm4, hm5⟩ : ∃ pre0 mid, pre = pre0 ++ mid ∧
            (if r.count = 0 then pre.length else r.mergeJ) = pre0.length ∧
            (if r.count = 0 then r.pos else r.mergePos) = idx + 520 + total pre0 ∧
            r.size = total mid ∧ Dead mid := by
          rcases hrun with ⟨hc, hz⟩ | ⟨hc, pre0, mid, h1, h2, h3, h4, h5⟩
          · refine ⟨pre, [], by simp, by rw [if_pos hc], by rw [if_pos hc, hpos], by rw [hz]; rfl, ?_⟩
            intro x hx; exact absurd hx (by simp)
          · exact ⟨pre0, mid, h1, by rw [if_neg hc]; exact h2, by rw [if_neg hc]; exact h3, h4, h5⟩
        have hdead2 : Dead (mid ++ [e]) := by
          intro x hx
          rcases List.mem_append.mp hx with h | h
          · exact hm5 x h
          · rw [List.mem_singleton.mp h]; exact hdead
        by_cases hfit : padded ≤ e.1
        · rw [if_pos hfit]
          rw [hb] at hok
          refine ⟨pre ++ (e.1, true) :: rest, pre, [e], rest, e.1, by rw [hb]; simp, by simp, hpos,
            hfit, reads_setUsed hok.reads, Or.inr ⟨?_, by simp, ⟨[], e, rfl, h0⟩, sameBut_setUsed⟩⟩
          intro x hx
          rw [List.mem_singleton.mp hx]
          exact hdead
        · rw [if_neg hfit]
          by_cases hmerge : padded ≤ r.size + e.1
          · rw [if_pos hmerge, hm2, hm3]
            have hlenj : pre.length + 1 - pre0.length = (mid ++ [e]).length := by
              rw [hm1]; simp only [List.length_append, List.length_singleton]; omega
            rw [hlenj]
            have hb2 : b = pre0 ++ (mid ++ [e]) ++ rest := by rw [hb, hm1]; simp
            have hrd2 := hok.reads
            rw [hb2] at hrd2
            have hms := merge_spec (mid ++ [e]) pre0 m hrd2
            have hrep : List.replicate (mid ++ [e]).length ((0 : Nat), true)
                = (0, true) :: List.replicate mid.length (0, true) := by
              rw [List.length_append, List.length_singleton, List.replicate_succ]
            have hr3 := hms.1
            rw [hrep, List.append_assoc, List.cons_append] at hr3
            have htl : total b = total pre0 + total mid + e.1 + total rest := by
              rw [hb2]; simp; omega
            have hr4 := reads_setSize (v := r.size + e.1) (by omega) hr3
            have hp0 : pre0.length < 64 := by
              rw [hm1, List.length_append] at hpl; omega
            refine ⟨_, pre0, mid ++ [e], rest, r.size + e.1, hb2, rfl, rfl, hmerge, ?_,
              Or.inr ⟨hdead2, by rw [hm4]; simp, ⟨mid, e, rfl, h0⟩, hms.2.trans (sameBut_setSize hp0)⟩⟩
            simpa using hr4
          · rw [if_neg hmerge, if_neg (by omega)]
            refine hnext _ ⟨?_, Or.inr ⟨by simp, pre0, mid ++ [e], by rw [hm1]; simp, hm2, hm3, ?_,
              hdead2⟩, fun h => ?_⟩ (by intro h; rw [h] at h0; exact h0 rfl)
            · show r.pos + e.1 = _
              rw [hpos]; simp [Nat.add_assoc]
            · show r.size + e.1 = _
              rw [hm4]; simp
            · have h1 := hnl (hpreL h)
              show r.size + e.1 = _ ∧ _
              simp only [total_append, total_cons, total_nil]
              omega

end Verif.Mmap
