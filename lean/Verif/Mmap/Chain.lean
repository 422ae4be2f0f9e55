import Verif.Mmap.Scan
/-!
# Memory maps: all the indexes of a heap
-/
namespace Verif.Mmap
open Verif

/-- The blocks in use among those of an index, with their sizes. `p` is where the first block is. -/
def liveOf : Nat → List Ent → List (Nat × Nat)
  | _, [] => []
  | p, e :: r => if e.2 = true ∧ e.1 ≠ 0 then (p, e.1) :: liveOf (p + e.1) r else liveOf (p + e.1) r

/-- The blocks in use in a heap. -/
def liveChain : Nat → List (List Ent) → List (Nat × Nat)
  | _, [] => []
  | p, b :: bs => liveOf (p + 520) b ++ liveChain (p + 520 + total b) bs

/-- The position after some indexes and their blocks. -/
def endOf : Nat → List (List Ent) → Nat
  | p, [] => p
  | p, b :: bs => endOf (p + 520 + total b) bs

/-- The heap holds the indexes `bs` from `p` on, and nothing has been written after them. -/
def ChainOk (m : Mem) (heap : Nat) : Nat → List (List Ent) → Prop
  | p, [] => p ≤ heap ∧ ∀ q, p ≤ q → m q = 0
  | p, b :: bs => IdxOk m heap p b ∧ (bs ≠ [] → Full b) ∧ ChainOk m heap (p + 520 + total b) bs

/-- All the indexes are full. -/
def AllFull (bs : List (List Ent)) : Prop := ∀ b, b ∈ bs → Full b

/-- How many entries of an index have been used. -/
def usedOf (b : List Ent) : Nat := b.countP fun e => decide (e ≠ fresh)

/-- How many entries of all indexes have been used. -/
def usedAll (bs : List (List Ent)) : Nat := (bs.map usedOf).sum

/-- The number of bytes in all blocks. -/
def totalAll (bs : List (List Ent)) : Nat := (bs.map total).sum

theorem usedOf_full {b : List Ent} (h : Full b) : usedOf b = b.length := by
  unfold usedOf
  exact List.countP_eq_length.mpr fun e he => by simpa using h e he

theorem liveOf_append {a c : List Ent} : ∀ {p : Nat},
    liveOf p (a ++ c) = liveOf p a ++ liveOf (p + total a) c := by
  induction a with
  | nil => intro p; simp [liveOf]
  | cons e a ih =>
    intro p
    simp only [List.cons_append, liveOf, ih, total_cons, Nat.add_assoc]
    split <;> simp

theorem liveOf_dead {a : List Ent} (h : Dead a) : ∀ {p : Nat}, liveOf p a = [] := by
  induction a with
  | nil => intro p; rfl
  | cons e a ih =>
    intro p
    have he := h e (by simp)
    rw [liveOf, if_neg ?_]
    · exact ih fun x hx => h x (by simp [hx])
    · rcases he with h | h
      · exact fun h' => h'.2 h.1
      · intro h'; rw [h.2] at h'; exact absurd h'.1 (by decide)

theorem liveOf_zero {n : Nat} {u : Bool} : ∀ {p : Nat}, liveOf p (List.replicate n (0, u)) = [] := by
  induction n with
  | zero => intro p; rfl
  | succ n ih => intro p; rw [List.replicate_succ, liveOf, if_neg (by simp)]; exact ih

theorem liveOf_bound {b : List Ent} : ∀ {p : Nat} {x : Nat × Nat}, x ∈ liveOf p b →
    p ≤ x.1 ∧ x.1 + x.2 ≤ p + total b ∧ x.2 ≠ 0 := by
  induction b with
  | nil => intro p x h; exact absurd h (by simp [liveOf])
  | cons e b ih =>
    intro p x h
    rw [liveOf] at h
    rw [total_cons]
    split at h
    · rcases List.mem_cons.mp h with h | h
      · subst h; simp only; rename_i hc; exact ⟨by omega, by omega, hc.2⟩
      · have := ih h; exact ⟨by omega, by omega, this.2.2⟩
    · have := ih h; exact ⟨by omega, by omega, this.2.2⟩

theorem liveOf_sorted {b : List Ent} : ∀ {p : Nat},
    (liveOf p b).Pairwise fun x y => x.1 + x.2 ≤ y.1 := by
  induction b with
  | nil => intro p; exact List.Pairwise.nil
  | cons e b ih =>
    intro p
    rw [liveOf]
    split
    · refine List.pairwise_cons.mpr ⟨fun y hy => ?_, ih⟩
      exact (liveOf_bound hy).1
    · exact ih

/-- A block in use is an entry of the index. -/
theorem liveOf_mem {b : List Ent} : ∀ {p : Nat} {x : Nat × Nat}, x ∈ liveOf p b →
    ∃ pre post, b = pre ++ (x.2, true) :: post ∧ x.1 = p + total pre ∧ x.2 ≠ 0 := by
  induction b with
  | nil => intro p x h; exact absurd h (by simp [liveOf])
  | cons e b ih =>
    intro p x h
    rw [liveOf] at h
    have key : x ∈ liveOf (p + e.1) b →
        ∃ pre post, e :: b = pre ++ (x.2, true) :: post ∧ x.1 = p + total pre ∧ x.2 ≠ 0 := by
      intro h
      obtain ⟨pre, post, h1, h2, h3⟩ := ih h
      exact ⟨e :: pre, post, by rw [h1]; rfl, by rw [h2]; simp [Nat.add_assoc], h3⟩
    split at h
    · rename_i hc
      rcases List.mem_cons.mp h with h | h
      · subst h
        refine ⟨[], b, ?_, by simp, hc.2⟩
        obtain ⟨a, u⟩ := e
        simp only at hc
        rw [hc.1]
        rfl
      · exact key h
    · exact key h

theorem endOf_le {bs : List (List Ent)} : ∀ {p : Nat}, p ≤ endOf p bs := by
  induction bs with
  | nil => intro p; exact Nat.le_refl _
  | cons b bs ih => intro p; rw [endOf]; exact Nat.le_trans (by omega) ih

theorem endOf_append {a c : List (List Ent)} : ∀ {p : Nat}, endOf p (a ++ c) = endOf (endOf p a) c := by
  induction a with
  | nil => intro p; rfl
  | cons b a ih => intro p; exact ih

theorem liveChain_append {a c : List (List Ent)} : ∀ {p : Nat},
    liveChain p (a ++ c) = liveChain p a ++ liveChain (endOf p a) c := by
  induction a with
  | nil => intro p; rfl
  | cons b a ih => intro p; simp only [List.cons_append, liveChain, endOf, ih, List.append_assoc]

theorem liveChain_bound {bs : List (List Ent)} : ∀ {p : Nat} {x : Nat × Nat}, x ∈ liveChain p bs →
    p + 520 ≤ x.1 ∧ x.1 + x.2 ≤ endOf p bs ∧ x.2 ≠ 0 := by
  induction bs with
  | nil => intro p x h; exact absurd h (by simp [liveChain])
  | cons b bs ih =>
    intro p x h
    rw [liveChain] at h
    rw [endOf]
    rcases List.mem_append.mp h with h | h
    · have := liveOf_bound h
      have := @endOf_le bs (p + 520 + total b)
      exact ⟨by omega, by omega, by omega⟩
    · have := ih h
      exact ⟨by omega, by omega, this.2.2⟩

theorem liveChain_sorted {bs : List (List Ent)} : ∀ {p : Nat},
    (liveChain p bs).Pairwise fun x y => x.1 + x.2 ≤ y.1 := by
  induction bs with
  | nil => intro p; exact List.Pairwise.nil
  | cons b bs ih =>
    intro p
    rw [liveChain]
    refine List.pairwise_append.mpr ⟨liveOf_sorted, ih, fun x hx y hy => ?_⟩
    have h1 := liveOf_bound hx
    have h2 := liveChain_bound hy
    omega

theorem liveChain_mem {bs : List (List Ent)} : ∀ {p : Nat} {x : Nat × Nat}, x ∈ liveChain p bs →
    ∃ cs1 b cs2, bs = cs1 ++ b :: cs2 ∧ x ∈ liveOf (endOf p cs1 + 520) b := by
  induction bs with
  | nil => intro p x h; exact absurd h (by simp [liveChain])
  | cons b bs ih =>
    intro p x h
    rw [liveChain] at h
    rcases List.mem_append.mp h with h | h
    · exact ⟨[], b, bs, rfl, h⟩
    · obtain ⟨cs1, c, cs2, h1, h2⟩ := ih h
      exact ⟨b :: cs1, c, cs2, by rw [h1]; rfl, h2⟩

theorem idx_congr {m m' : Mem} {heap p : Nat} {b : List Ent}
    (h : ∀ q, p ≤ q → q < p + 520 + total b → m' q = m q) (hi : IdxOk m heap p b) :
    IdxOk m' heap p b :=
  ⟨reads_congr (fun q h1 h2 => h q (by omega) (by omega)) hi.reads, hi.fits,
    sents_congr (fun q h1 h2 => h q (by omega) (by omega)) hi.sents, hi.shape⟩

theorem chain_congr {m m' : Mem} {heap : Nat} {bs : List (List Ent)} : ∀ {p : Nat},
    (∀ q, p ≤ q → m' q = m q) → ChainOk m heap p bs → ChainOk m' heap p bs := by
  induction bs with
  | nil => intro p h hc; exact ⟨hc.1, fun q hq => (h q hq).trans (hc.2 q hq)⟩
  | cons b bs ih =>
    intro p h hc
    exact ⟨idx_congr (fun q h1 _ => h q h1) hc.1, hc.2.1, ih (fun q hq => h q (by omega)) hc.2.2⟩

theorem chain_at {m : Mem} {heap : Nat} {b : List Ent} {cs2 : List (List Ent)} :
    ∀ {cs1 : List (List Ent)} {p : Nat}, ChainOk m heap p (cs1 ++ b :: cs2) →
    IdxOk m heap (endOf p cs1) b ∧ (cs2 ≠ [] → Full b) := by
  intro cs1
  induction cs1 with
  | nil => intro p h; exact ⟨h.1, h.2.1⟩
  | cons c cs1 ih => intro p h; exact ih h.2.2

theorem chain_end {m : Mem} {heap : Nat} {bs : List (List Ent)} : ∀ {p : Nat}, ChainOk m heap p bs →
    endOf p bs ≤ heap ∧ ∀ q, endOf p bs ≤ q → m q = 0 := by
  induction bs with
  | nil => intro p h; exact h
  | cons b bs ih => intro p h; exact ih h.2.2

theorem idx_zero {m : Mem} {heap p : Nat} (h : ∀ q, p ≤ q → m q = 0) (hp : p + 520 ≤ heap) :
    IdxOk m heap p (List.replicate 64 fresh) := by
  refine ⟨reads_zero h, by rw [show fresh = (0, false) from rfl, total_replicate_zero]; exact hp,
    sents_zero, ?_⟩
  exact List.pairwise_replicate.mpr (Or.inr fun _ => rfl)

theorem chain_extend {m : Mem} {heap : Nat} {bs : List (List Ent)} : ∀ {p : Nat}, ChainOk m heap p bs →
    AllFull bs → endOf p bs + 520 ≤ heap → ChainOk m heap p (bs ++ [List.replicate 64 fresh]) := by
  induction bs with
  | nil =>
    intro p h _ hp
    have hp : p + 520 ≤ heap := hp
    refine ⟨idx_zero h.2 hp, fun h => absurd rfl h, ?_⟩
    rw [show fresh = (0, false) from rfl, total_replicate_zero]
    exact ⟨hp, fun q hq => h.2 q (by omega)⟩
  | cons b bs ih =>
    intro p h hf hp
    exact ⟨h.1, fun _ => hf b (by simp), ih h.2.2 (fun c hc => hf c (by simp [hc])) hp⟩

theorem total_fresh : ∀ {l : List Ent}, (∀ x, x ∈ l → x = fresh) → total l = 0 := by
  intro l
  induction l with
  | nil => intro _; rfl
  | cons a l ih =>
    intro h
    rw [total_cons, h a (by simp), ih fun x hx => h x (by simp [hx])]
    rfl

/-- What becomes of an index when a block has been found in it. -/
theorem found_idx {m m' : Mem} {heap idx padded p : Nat} {b b' : List Ent} (hp : 16 ≤ padded)
    (hi : IdxOk m heap idx b) (hf : Found m m' heap idx padded p b b') :
    IdxOk m' heap idx b' ∧
    (∃ A B sz, liveOf (idx + 520) b = A ++ B ∧ liveOf (idx + 520) b' = A ++ (p, sz) :: B ∧
      padded ≤ sz) ∧
    (total b ≤ total b' ∧ usedOf b' ≤ usedOf b + 1) ∧ (Full b → total b' = total b ∧ Full b') ∧
    (∀ q, (q < idx ∨ idx + 520 ≤ q) → (q < idx + 520 + total b ∨ idx + 520 + total b' ≤ q) →
      m' q = m q) := by
  obtain ⟨pre, mid, post, sz, hb, hb', hpos, hsz, hr, hcase⟩ := hf
  rcases hcase with ⟨hmid, hszp, hfull, hfit, hsent, hsame⟩ | ⟨hdead, htot, ⟨mid0, e, hmid0, he0⟩, hsame⟩
  · -- a new block
    subst hmid
    have hsh := hi.shape
    rw [hb, List.append_assoc] at hsh
    have hpost : ∀ x, x ∈ post → x = fresh := fun x hx =>
      (List.pairwise_cons.mp (List.pairwise_append.mp hsh).2.1).1 x hx rfl
    have hzero := total_fresh hpost
    have htb : total b = total pre := by rw [hb]; simp [hzero, fresh]
    have hb2 : b' = pre ++ (sz, true) :: post := by rw [hb']; simp
    have htb' : total b' = total pre + sz := by rw [hb2]; simp [hzero]
    have hsents := hi.sents
    rw [hb, List.append_assoc, sents_append] at hsents
    have hpostS : ∀ {q : Nat} {l : List Ent}, (∀ x, x ∈ l → x = fresh) → Sents m' q l := by
      intro q l
      induction l generalizing q with
      | nil => intro _; trivial
      | cons a l ih =>
        intro h
        exact ⟨fun hne => absurd (by rw [h a (by simp)]; rfl) hne, ih fun x hx => h x (by simp [hx])⟩
    refine ⟨⟨hr, by rw [htb']; omega, ?_, ?_⟩, ?_, ⟨by omega, ?_⟩, ?_, ?_⟩
    · rw [hb2, sents_append]
      refine ⟨sents_congr (fun q h1 h2 => hsame q (by omega) (by omega)) hsents.1, ⟨fun _ => ⟨?_, ?_⟩,
        hpostS hpost⟩⟩
      · show 16 ≤ sz
        omega
      · rw [← hpos, hszp]; exact hsent
    · rw [hb2]
      refine List.pairwise_append.mpr ⟨(List.pairwise_append.mp hsh).1,
        List.pairwise_cons.mpr ⟨fun x _ h => ?_, ?_⟩, fun x hx y _ h => absurd h (hfull x hx)⟩
      · have : sz = 0 := congrArg Prod.fst h
        omega
      · exact (List.pairwise_cons.mp (List.pairwise_append.mp hsh).2.1).2
    · refine ⟨liveOf (idx + 520) pre, liveOf (idx + 520 + total pre + sz) post, sz, ?_, ?_, hsz⟩
      · have hl : ∀ {q : Nat} {l : List Ent}, (∀ x, x ∈ l → x = fresh) → liveOf q l = [] := by
          intro q l
          induction l generalizing q with
          | nil => intro _; rfl
          | cons a l ih =>
            intro h
            rw [liveOf, if_neg ?_]
            · exact ih fun x hx => h x (by simp [hx])
            · rw [h a (by simp)]; exact fun h => h.2 rfl
        rw [hb, liveOf_append, liveOf_append, hl hpost, hl hpost]
        simp [liveOf, fresh]
      · rw [hb2, liveOf_append, liveOf, if_pos ⟨rfl, by show sz ≠ 0; omega⟩, hpos]
    · unfold usedOf
      rw [hb2, hb, List.countP_append, List.countP_append, List.countP_append, List.countP_cons]
      split <;> omega
    · intro hfb
      exact absurd rfl (hfb fresh (by rw [hb]; simp))
    · intro q h1 h2
      exact hsame q h1 (by omega)
  · -- blocks no longer in use
    have htb : total b = total pre + sz + total post := by rw [hb, ← htot]; simp; omega
    have htb' : total b' = total pre + sz + total post := by rw [hb']; simp; omega
    have hsents := hi.sents
    rw [hb, sents_append, sents_append] at hsents
    have hsame2 : ∀ q, idx + 520 ≤ q → m' q = m q := fun q hq => hsame q (Or.inr hq)
    refine ⟨⟨hr, by have := hi.fits; omega, ?_, ?_⟩, ?_, ⟨by omega, ?_⟩, ?_, fun q h1 _ => hsame q h1⟩
    · rw [hb', sents_append]
      refine ⟨sents_congr (fun q h1 _ => hsame2 q (by omega)) hsents.1.1, ⟨fun _ => ⟨?_, ?_⟩, ?_⟩⟩
      · show 16 ≤ sz
        omega
      · have hm := hsents.1.2
        rw [hmid0, sents_append] at hm
        have hm2 := hm.2.1 he0
        have : total mid = total mid0 + e.1 := by rw [hmid0]; simp
        rw [load_congr fun q h1 _ => hsame2 q (by
          have : (sz, true).1 = sz := rfl
          omega)]
        rw [← hm2.2]
        congr 1
        show _ + sz - 8 = _
        omega
      · rw [sents_append]
        refine ⟨sents_zero, ?_⟩
        rw [total_replicate_zero]
        refine sents_congr (fun q h1 _ => hsame2 q ?_) (p := idx + 520 + total pre + (sz, true).1) ?_
        · have : (sz, true).1 = sz := rfl
          omega
        · have := hsents.2
          rw [total_append, htot] at this
          simpa [Nat.add_assoc] using this
    · have hsh := hi.shape
      rw [hb] at hsh
      have h1 := List.pairwise_append.mp hsh
      have h2 := List.pairwise_append.mp h1.1
      rw [hb']
      refine List.pairwise_append.mpr ⟨h2.1, List.pairwise_cons.mpr ⟨fun x _ h => ?_, ?_⟩, ?_⟩
      · exact absurd (show true = false from congrArg Prod.snd h) (by decide)
      · refine List.pairwise_append.mpr ⟨List.pairwise_replicate.mpr (Or.inr fun h => ?_), h1.2.1, ?_⟩
        · exact h
        · intro x hx y _ h
          rw [(List.mem_replicate.mp hx).2] at h
          exact absurd (congrArg Prod.snd h) (by decide)
      · intro x hx y _ h
        -- an entry never used would be followed by entries never used
        have hem : e ∈ mid := by rw [hmid0]; simp
        have := h2.2.2 x hx e hem h
        rw [this] at he0
        exact absurd rfl he0
    · refine ⟨liveOf (idx + 520) pre, liveOf (idx + 520 + total pre + sz) post, sz, ?_, ?_, hsz⟩
      · rw [hb, liveOf_append, liveOf_append, liveOf_dead hdead, total_append, htot, List.append_nil]
        simp [Nat.add_assoc]
      · rw [hb', liveOf_append, liveOf, if_pos ⟨rfl, by show sz ≠ 0; omega⟩, liveOf_append, liveOf_zero,
          total_replicate_zero, hpos]
        simp
    · have hm : usedOf mid = mid.length := usedOf_full fun x hx h => by
        have := hdead x hx
        rw [h] at this
        simp [fresh] at this
      unfold usedOf at *
      rw [hb', hb, List.countP_append, List.countP_append, List.countP_append, List.countP_cons,
        List.countP_append, hm]
      have h1 := @List.countP_le_length _ (fun e => decide (e ≠ fresh))
        (List.replicate (mid.length - 1) ((0 : Nat), true))
      rw [List.length_replicate] at h1
      have h2 : 0 < mid.length := by rw [hmid0]; simp
      split <;> omega
    · intro hfb
      refine ⟨by omega, fun x hx => ?_⟩
      rw [hb'] at hx
      rcases List.mem_append.mp hx with h | h
      · exact hfb x (by rw [hb]; simp [h])
      · rcases List.mem_cons.mp h with h | h
        · rw [h]; intro h'; exact absurd (show true = false from congrArg Prod.snd h') (by decide)
        · rcases List.mem_append.mp h with h | h
          · rw [(List.mem_replicate.mp h).2]; intro h'; exact absurd (congrArg Prod.snd h') (by decide)
          · exact hfb x (by rw [hb]; simp [h])

/-- What becomes of the heap when a block has been found in one of its indexes. -/
theorem found_chain {m m' : Mem} {heap padded q : Nat} {b b' : List Ent} {cs2 : List (List Ent)}
    (hp : 16 ≤ padded) : ∀ {cs1 : List (List Ent)} {p : Nat}, ChainOk m heap p (cs1 ++ b :: cs2) →
    Found m m' heap (endOf p cs1) padded q b b' →
    ChainOk m' heap p (cs1 ++ b' :: cs2) ∧
    (∃ A B sz, liveChain p (cs1 ++ b :: cs2) = A ++ B ∧
      liveChain p (cs1 ++ b' :: cs2) = A ++ (q, sz) :: B ∧ padded ≤ sz) ∧
    (totalAll (cs1 ++ b :: cs2) ≤ totalAll (cs1 ++ b' :: cs2) ∧
      usedAll (cs1 ++ b' :: cs2) ≤ usedAll (cs1 ++ b :: cs2) + 1) ∧
    (∀ x, x ∈ liveChain p (cs1 ++ b :: cs2) → ∀ k, k < x.2 → m' (x.1 + k) = m (x.1 + k)) := by
  intro cs1
  induction cs1 with
  | nil =>
    intro p hc hf
    have hf' : Found m m' heap p padded q b b' := hf
    obtain ⟨h1, ⟨A, B, sz, hA, hB, hsz⟩, h2, h3, h4⟩ := found_idx hp hc.1 hf'
    have htail : ChainOk m' heap (p + 520 + total b') cs2 ∧ (cs2 ≠ [] → Full b') ∧
        (cs2 ≠ [] → total b' = total b) := by
      by_cases hcs : cs2 = []
      · subst hcs
        refine ⟨⟨h1.fits, fun r hr => ?_⟩, fun h => absurd rfl h, fun h => absurd rfl h⟩
        rw [h4 r (by omega) (by omega)]
        exact hc.2.2.2 r (by omega)
      · have := h3 (hc.2.1 hcs)
        refine ⟨?_, fun _ => this.2, fun _ => this.1⟩
        rw [this.1]
        refine chain_congr (fun r hr => ?_) hc.2.2
        exact h4 r (by omega) (by omega)
    refine ⟨⟨h1, htail.2.1, htail.1⟩, ⟨A, B ++ liveChain (p + 520 + total b') cs2, sz, ?_, ?_, hsz⟩,
      by simp only [totalAll, usedAll, List.nil_append, List.map_cons, List.sum_cons]; omega, ?_⟩
    · simp only [List.nil_append, liveChain, hA, List.append_assoc]
      by_cases hcs : cs2 = []
      · subst hcs; rfl
      · rw [htail.2.2 hcs]
    · simp only [List.nil_append, liveChain, hB, List.append_assoc, List.cons_append]
    · intro x hx k hk
      simp only [List.nil_append, liveChain] at hx
      rcases List.mem_append.mp hx with h | h
      · have := liveOf_bound h
        exact h4 _ (by omega) (by omega)
      · have hb := liveChain_bound h
        have hcs : cs2 ≠ [] := by
          intro h'; subst h'; exact absurd h (by simp [liveChain])
        have := htail.2.2 hcs
        exact h4 _ (by omega) (by omega)
  | cons c cs1 ih =>
    intro p hc hf
    have hf' : Found m m' heap (endOf (p + 520 + total c) cs1) padded q b b' := hf
    obtain ⟨h1, ⟨A, B, sz, hA, hB, hsz⟩, hU, h3⟩ := ih hc.2.2 hf'
    have hI := (chain_at hc.2.2).1
    have hsame := (found_idx hp hI hf').2.2.2.2
    have hle := @endOf_le cs1 (p + 520 + total c)
    have hlow : ∀ r, r < p + 520 + total c → m' r = m r := fun r hr =>
      hsame r (by omega) (by omega)
    refine ⟨⟨idx_congr (fun r _ hr => hlow r hr) hc.1, fun _ => hc.2.1 (by simp), h1⟩,
      ⟨liveOf (p + 520) c ++ A, B, sz, ?_, ?_, hsz⟩,
      by simp only [totalAll, usedAll, List.cons_append, List.map_cons, List.sum_cons] at hU ⊢; omega, ?_⟩
    · simp only [List.cons_append, liveChain, hA, List.append_assoc]
    · simp only [List.cons_append, liveChain, hB, List.append_assoc]
    · intro x hx k hk
      simp only [List.cons_append, liveChain] at hx
      rcases List.mem_append.mp hx with h | h
      · have := liveOf_bound h
        exact hlow _ (by omega)
      · exact h3 x h k hk

end Verif.Mmap
