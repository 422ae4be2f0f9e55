import Verif.Mmap.Walk
/-!
# Memory maps: the invariant of a map and its user
-/
namespace Verif.Mmap
open Verif Verif.Mmap.Spec

/-- `q` is the position of one of the indexes, or after the last, and those before it are full. -/
def PrevAt : Nat → List (List Ent) → Nat → Prop
  | p, [], q => q = p
  | p, b :: bs, q => q = p ∨ (Full b ∧ PrevAt (p + 520 + total b) bs q)

theorem prevAt_split {bs : List (List Ent)} : ∀ {p q : Nat}, PrevAt p bs q →
    ∃ cs1 cs2, bs = cs1 ++ cs2 ∧ AllFull cs1 ∧ q = endOf p cs1 := by
  induction bs with
  | nil => intro p q h; exact ⟨[], [], rfl, fun _ h => absurd h (by simp), h⟩
  | cons b bs ih =>
    intro p q h
    rcases h with h | ⟨hf, h⟩
    · exact ⟨[], b :: bs, rfl, fun _ h => absurd h (by simp), h⟩
    · obtain ⟨cs1, cs2, h1, h2, h3⟩ := ih h
      refine ⟨b :: cs1, cs2, by rw [h1]; rfl, ?_, h3⟩
      intro c hc
      rcases List.mem_cons.mp hc with h | h
      · rw [h]; exact hf
      · exact h2 c h

theorem prevAt_join {cs2 : List (List Ent)} : ∀ {cs1 : List (List Ent)} {p : Nat}, AllFull cs1 →
    PrevAt p (cs1 ++ cs2) (endOf p cs1) := by
  intro cs1
  induction cs1 with
  | nil =>
    intro p _
    cases cs2 with
    | nil => rfl
    | cons _ _ => exact Or.inl rfl
  | cons c cs1 ih =>
    intro p h
    exact Or.inr ⟨h c (by simp), ih fun x hx => h x (by simp [hx])⟩

theorem prevAt_free {cs2 : List (List Ent)} {pre post : List Ent} {sz : Nat} (hsz : sz ≠ 0) :
    ∀ {cs1 : List (List Ent)} {p q : Nat},
    PrevAt p (cs1 ++ (pre ++ (sz, true) :: post) :: cs2) q →
    PrevAt p (cs1 ++ (pre ++ (sz, false) :: post) :: cs2) q := by
  intro cs1
  induction cs1 with
  | nil =>
    intro p q h
    rcases h with h | ⟨hf, h⟩
    · exact Or.inl h
    · refine Or.inr ⟨fun x hx => ?_, ?_⟩
      · rcases List.mem_append.mp hx with h | h
        · exact hf x (by simp [h])
        · rcases List.mem_cons.mp h with h | h
          · rw [h]; exact fun h' => absurd (congrArg Prod.fst h') hsz
          · exact hf x (by simp [h])
      · simpa using h
  | cons c cs1 ih =>
    intro p q h
    rcases h with h | ⟨hf, h⟩
    · exact Or.inl h
    · exact Or.inr ⟨hf, ih h⟩

/-! ## Blocks in use are apart from each other and from the indexes -/

theorem sorted_apart {l : List (Nat × Nat)} (hs : l.Pairwise fun x y => x.1 + x.2 ≤ y.1)
    {x y : Nat × Nat} (hx : x ∈ l) (hy : y ∈ l) (hne : x.1 ≠ y.1) : Apart x.1 x.2 y.1 y.2 := by
  induction hs with
  | nil => exact absurd hx (by simp)
  | cons hz _ ih =>
    rcases List.mem_cons.mp hx with hx | hx
    · rcases List.mem_cons.mp hy with hy | hy
      · rw [hx, hy] at hne; exact absurd rfl hne
      · rw [hx]; exact Or.inl (hz y hy)
    · rcases List.mem_cons.mp hy with hy | hy
      · rw [hy]; exact Or.inr (hz x hx)
      · exact ih hx hy

theorem live_apart_index {b : List Ent} {cs1 cs2 : List (List Ent)} {p : Nat} {x : Nat × Nat}
    (hx : x ∈ liveChain p (cs1 ++ b :: cs2)) : Apart x.1 x.2 (endOf p cs1) 520 := by
  rw [liveChain_append] at hx
  rcases List.mem_append.mp hx with h | h
  · exact Or.inl (liveChain_bound h).2.1
  · have := (liveChain_bound h).1
    exact Or.inr (by omega)

theorem live_nodup {bs : List (List Ent)} {p : Nat} : ((liveChain p bs).map Prod.fst).Nodup := by
  have hs := @liveChain_sorted bs p
  have hb : ∀ x, x ∈ liveChain p bs → x.2 ≠ 0 := fun x hx => (liveChain_bound hx).2.2
  revert hs hb
  generalize liveChain p bs = l
  intro hs hb
  induction hs with
  | nil => exact List.nodup_nil
  | @cons a l hz _ ih =>
    rw [List.map_cons, List.nodup_cons]
    refine ⟨fun h => ?_, ih fun x hx => hb x (by simp [hx])⟩
    obtain ⟨y, hy, hya⟩ := List.mem_map.mp h
    have h1 := hz y hy
    have h2 := hb a (by simp)
    omega

/-! ## Writing in a block -/

theorem sents_write {m : Mem} {a sz : Nat} {v : UInt8} {pre post : List Ent} {p : Nat}
    (h1 : p + total pre ≤ a) (h2 : a + 8 < p + total pre + sz)
    (hs : Sents m p (pre ++ (sz, true) :: post)) :
    Sents (fun q => if q = a then v else m q) p (pre ++ (sz, true) :: post) := by
  rw [sents_append] at *
  have hsame : ∀ q, q ≠ a → (fun q => if q = a then v else m q) q = m q := fun q hq => if_neg hq
  refine ⟨sents_congr (fun q _ hq => hsame q (by omega)) hs.1, fun hne => ⟨(hs.2.1 hne).1, ?_⟩, ?_⟩
  · rw [load_congr fun q hq _ => hsame q (by
      have : (sz, true).1 = sz := rfl
      omega)]
    exact (hs.2.1 hne).2
  · refine sents_congr (fun q hq _ => hsame q ?_) hs.2.2
    have : (sz, true).1 = sz := rfl
    omega

theorem write_chain {m : Mem} {heap a : Nat} {v : UInt8} {x : Nat × Nat} {bs : List (List Ent)} :
    ∀ {p : Nat}, x ∈ liveChain p bs → x.1 ≤ a → a + 8 < x.1 + x.2 → ChainOk m heap p bs →
    ChainOk (fun q => if q = a then v else m q) heap p bs := by
  have hsame : ∀ q, q ≠ a → (fun q => if q = a then v else m q) q = m q := fun q hq => if_neg hq
  induction bs with
  | nil => intro p hx; exact absurd hx (by simp [liveChain])
  | cons b bs ih =>
    intro p hx h1 h2 hc
    rw [liveChain] at hx
    rcases List.mem_append.mp hx with h | h
    · have hb := liveOf_bound h
      obtain ⟨pre, post, hbe, hxe, hx0⟩ := liveOf_mem h
      refine ⟨⟨reads_congr (fun q hq1 hq2 => hsame q (by omega)) hc.1.reads, hc.1.fits, ?_, hc.1.shape⟩,
        hc.2.1, chain_congr (fun q hq => hsame q (by omega)) hc.2.2⟩
      have hs := hc.1.sents
      rw [hbe] at hs ⊢
      exact sents_write (by omega) (by omega) hs
    · have hb := liveChain_bound h
      exact ⟨idx_congr (fun q _ hq => hsame q (by omega)) hc.1, hc.2.1, ih h h1 h2 hc.2.2⟩

/-! ## The invariant -/

/-- What is known about a map and its user. -/
structure Inv (s : State) (bs : List (List Ent)) : Prop where
  low : 520 ≤ s.map.heap
  high : s.map.heap < 2 ^ 63
  chain : ChainOk s.map.mem s.map.heap 0 bs
  prev : PrevAt 0 bs s.map.prevIndex
  perm : (s.live.map Block.handle).Perm ((liveChain 0 bs).map Prod.fst)
  room : ∀ b, b ∈ s.live → ∃ sz, (b.handle, sz) ∈ liveChain 0 bs ∧ b.size + 8 < sz
  kept : ∀ b, b ∈ s.live → ∀ k, k < b.size → ∀ v, b.written k = some v →
    s.map.mem (b.handle + k) = v

theorem Inv.nodup {s : State} {bs : List (List Ent)} (h : Inv s bs) :
    (s.live.map Block.handle).Nodup := h.perm.nodup_iff.mpr live_nodup

/-- What an allocation ends with. -/
theorem allocate_spec {s : Map} {bs : List (List Ent)} {n : Nat} (hlow : 520 ≤ s.heap)
    (hhigh : s.heap < 2 ^ 63) (hc : ChainOk s.mem s.heap 0 bs) (hprev : PrevAt 0 bs s.prevIndex)
    (hn : 0 < n) (hn2 : n + 8 < 2 ^ 64) :
    (∃ s', allocate s n = .ok s' none ∧ s'.heap = s.heap ∧ s'.mem = s.mem ∧ s'.count = s.count ∧
      PrevAt 0 bs s'.prevIndex) ∨
    (∃ s' h bs' A B sz, allocate s n = .ok s' (some h) ∧ s'.heap = s.heap ∧
      ChainOk s'.mem s'.heap 0 bs' ∧ PrevAt 0 bs' s'.prevIndex ∧ liveChain 0 bs = A ++ B ∧
      liveChain 0 bs' = A ++ (h, sz) :: B ∧ (n + 8 < sz ∧ paddedOf (n + 8) ≤ sz) ∧
      (totalAll bs ≤ totalAll bs' ∧ usedAll bs' ≤ usedAll bs + 1 ∧ s'.count = s.count + 1) ∧
      (∀ x, x ∈ liveChain 0 bs → ∀ k, k < x.2 → s'.mem (x.1 + k) = s.mem (x.1 + k))) := by
  have hw : w64 (n + sentinelSize) = n + 8 := Nat.mod_eq_of_lt hn2
  unfold allocate
  rw [if_neg (by omega)]
  simp only [hw]
  by_cases hpf : s.prevFail ≠ 0 ∧ s.prevFail ≤ n + 8
  · rw [if_pos hpf]
    exact Or.inl ⟨_, rfl, rfl, rfl, rfl, hprev⟩
  rw [if_neg hpf]
  by_cases hbig : s.heap - indexSize < n + 8
  · rw [if_pos hbig]
    exact Or.inl ⟨_, rfl, rfl, rfl, rfl, hprev⟩
  rw [if_neg hbig]
  have hbig2 : n + 8 + 520 ≤ s.heap := by simp only [indexSize] at hbig; omega
  have hpad : paddedOf (n + 8) = (n + 8) - (n + 8) % 16 + 16 := by
    unfold paddedOf w64 chunkMin
    exact Nat.mod_eq_of_lt (by omega)
  have hp1 : n + 8 < paddedOf (n + 8) := by rw [hpad]; omega
  have hp2 : 16 ≤ paddedOf (n + 8) := by rw [hpad]; omega
  have hp3 : paddedOf (n + 8) ≤ s.heap := by rw [hpad]; omega
  obtain ⟨padded, hpe⟩ : ∃ padded, paddedOf (n + 8) = padded := ⟨_, rfl⟩
  rw [hpe] at hp1 hp2 hp3 ⊢
  have hfound : ∀ (m' : Mem) (p i prev : Nat), WalkPost s.mem s.heap padded bs prev (.found m' p, i) →
      (∃ s' h bs' A B sz, finish s (n + 8) (.found m' p, i) = .ok s' (some h) ∧ s'.heap = s.heap ∧
      ChainOk s'.mem s'.heap 0 bs' ∧ PrevAt 0 bs' s'.prevIndex ∧ liveChain 0 bs = A ++ B ∧
      liveChain 0 bs' = A ++ (h, sz) :: B ∧ (n + 8 < sz ∧ padded ≤ sz) ∧
      (totalAll bs ≤ totalAll bs' ∧ usedAll bs' ≤ usedAll bs + 1 ∧ s'.count = s.count + 1) ∧
      (∀ x, x ∈ liveChain 0 bs → ∀ k, k < x.2 → s'.mem (x.1 + k) = s.mem (x.1 + k))) := by
    intro m' p i prev hpost
    obtain ⟨cs1, b, cs2, b', h1, h2, h3, h4, h5⟩ := hpost
    subst h4
    obtain ⟨g1, ⟨A, B, sz, g2, g3, g4⟩, gU, g5⟩ := found_chain hp2 h1 h5
    rw [h2.1] at g2 g5
    rw [h2.2.1, h2.2.2] at gU
    exact ⟨_, p, cs1 ++ b' :: cs2, A, B, sz, rfl, rfl, g1, prevAt_join h3, g2, g3, ⟨by omega, g4⟩,
      ⟨gU.1, gU.2, rfl⟩, g5⟩
  obtain ⟨cs1, cs2, hsp, hfull, hpi⟩ := prevAt_split hprev
  have hw1 := walk_spec hhigh hp2 hp3 cs2 cs1 (s.heap + 1) s.prevIndex (by rw [← hsp]; exact hc) hfull
    (by omega)
  rw [← hsp, ← hpi] at hw1
  revert hw1
  cases hwk : walk s.mem s.heap padded (s.heap + 1) s.prevIndex s.prevIndex with
  | mk w i =>
    intro hw1
    cases w with
    | found m' p => exact Or.inr (hfound m' p i _ hw1)
    | oom =>
      obtain ⟨c1, c2, h1, h2, h3⟩ := hw1
      exact Or.inl ⟨_, rfl, rfl, rfl, rfl, by rw [h1, h3]; exact prevAt_join h2⟩
    | bug => exact hw1.elim
    | oob => exact hw1.elim
    | hang => exact hw1.elim
    | done =>
      have hi : PrevAt 0 bs i := by
        rcases hw1 with h | ⟨c1, c2, h1, h2, h3⟩
        · rw [h]; exact hprev
        · rw [h1, h3]; exact prevAt_join h2
      show (∃ s', (if 0 < s.prevIndex then _ else _) = _ ∧ _) ∨ _
      by_cases h0 : 0 < s.prevIndex
      · simp only [if_pos h0]
        have hw2 := walk_spec hhigh hp2 hp3 bs [] (s.heap + 1) i hc (fun _ h => absurd h (by simp))
          (by simp only [endOf]; omega)
        simp only [List.nil_append, endOf] at hw2
        revert hw2
        cases hwk2 : walk s.mem s.heap padded (s.heap + 1) 0 i with
        | mk w2 i2 =>
          intro hw2
          cases w2 with
          | found m' p => exact Or.inr (hfound m' p i2 _ hw2)
          | oom =>
            obtain ⟨c1, c2, h1, h2, h3⟩ := hw2
            exact Or.inl ⟨_, rfl, rfl, rfl, rfl, by rw [h1, h3]; exact prevAt_join h2⟩
          | bug => exact hw2.elim
          | oob => exact hw2.elim
          | hang => exact hw2.elim
          | done =>
            refine Or.inl ⟨_, rfl, rfl, rfl, rfl, ?_⟩
            rcases hw2 with h | ⟨c1, c2, h1, h2, h3⟩
            · rw [h]; exact hi
            · rw [h1, h3]; exact prevAt_join h2
      · simp only [if_neg h0]
        exact Or.inl ⟨_, rfl, rfl, rfl, rfl, hi⟩

theorem free_spec {s : Map} {bs : List (List Ent)} {h sz : Nat}
    (hc : ChainOk s.mem s.heap 0 bs) (hprev : PrevAt 0 bs s.prevIndex)
    (hx : (h, sz) ∈ liveChain 0 bs) :
    ∃ s' bs' A B, free s h = some s' ∧ (s'.heap = s.heap ∧ s'.count = s.count) ∧
      (s'.prevFail = 0 ∧ totalAll bs' = totalAll bs ∧ usedAll bs' = usedAll bs) ∧
      ChainOk s'.mem s'.heap 0 bs' ∧ PrevAt 0 bs' s'.prevIndex ∧
      liveChain 0 bs = A ++ (h, sz) :: B ∧ liveChain 0 bs' = A ++ B ∧
      (∀ x, x ∈ liveChain 0 bs → ∀ k, k < x.2 → s'.mem (x.1 + k) = s.mem (x.1 + k)) := by
  obtain ⟨cs1, b, cs2, hbs, hb⟩ := liveChain_mem hx
  obtain ⟨pre, post, hbe, hxe, hx0⟩ := liveOf_mem hb
  simp only at hxe hx0 hbe
  subst hbe
  subst hbs
  subst hxe
  obtain ⟨A, B, hA, hB⟩ := @free_live cs1 cs2 pre post sz 0 hx0
  refine ⟨{ s with mem := clearUsed s.mem (endOf 0 cs1) pre.length, prevFail := 0 }, _, A, B, ?_, ⟨rfl, rfl⟩,
    ⟨rfl, ?_, ?_⟩, free_chain hx0 cs1 0 hc, prevAt_free hx0 hprev, hA, hB, ?_⟩
  · unfold free
    rw [freeWalk_found hx0 cs1 0 (s.heap + 1) hc (by omega)]
  · simp [totalAll]
  · have h1 : usedOf (pre ++ (sz, false) :: post) = usedOf (pre ++ (sz, true) :: post) := by
      unfold usedOf
      rw [List.countP_append, List.countP_append, List.countP_cons, List.countP_cons,
        if_pos (by simp [fresh, hx0]), if_pos (by simp [fresh])]
    simp [usedAll, h1]
  · intro x hxl k hk
    have := live_apart_index hxl
    exact sameBut_clearUsed _ (by unfold Apart at this; omega)

theorem isEmpty_spec {s : Map} {bs : List (List Ent)} (hc : ChainOk s.mem s.heap 0 bs) :
    isEmpty s = some (liveChain 0 bs).isEmpty :=
  emptyWalk_spec bs (s.heap + 1) 0 hc (by omega)

theorem split_at {α : Type} {l : List α} {i : Nat} {a : α} (h : l[i]? = some a) :
    ∃ l1 l2, l = l1 ++ a :: l2 ∧ l1.length = i := by
  obtain ⟨hi, ha⟩ := List.getElem?_eq_some_iff.mp h
  refine ⟨l.take i, l.drop (i + 1), ?_, by rw [List.length_take]; omega⟩
  rw [← ha, ← List.drop_eq_getElem_cons hi, List.take_append_drop]

theorem step_inv {s : State} {bs : List (List Ent)} (op : Op) (hop : op.Fair) (hI : Inv s bs) :
    ∃ s' bs', step s op = some s' ∧ Inv s' bs' ∧ totalAll bs ≤ totalAll bs' ∧
      s.map.count ≤ s'.map.count ∧ usedAll bs' + s.map.count ≤ usedAll bs + s'.map.count := by
  cases op with
  | alloc n =>
    rcases allocate_spec hI.low hI.high hI.chain hI.prev hop.1 hop.2 with
      ⟨m, h1, h2, h3, hc, h4⟩ | ⟨m, h, bs', A, B, sz, h1, h2, h3, h4, h5, h6, h7, hU, h8⟩
    · refine ⟨{ s with map := m }, bs, by rw [step, h1], ?_, Nat.le_refl _, by rw [hc]; exact Nat.le_refl _,
        by rw [hc]; exact Nat.le_refl _⟩
      exact ⟨by rw [h2]; exact hI.low, by rw [h2]; exact hI.high, by rw [h2, h3]; exact hI.chain, h4,
        hI.perm, hI.room, by intro b hb k hk v hv; rw [h3]; exact hI.kept b hb k hk v hv⟩
    · refine ⟨_, bs', by rw [step, h1], ?_, hU.1, by rw [hU.2.2]; omega,
        by rw [hU.2.2]; have := hU.2.1; omega⟩
      have hmem : ∀ x, x ∈ liveChain 0 bs → x ∈ liveChain 0 bs' := by
        intro x hx
        rw [h5] at hx; rw [h6]
        rcases List.mem_append.mp hx with h | h <;> simp [h]
      refine ⟨by rw [h2]; exact hI.low, by rw [h2]; exact hI.high, h3, h4, ?_, ?_, ?_⟩
      · rw [h6, List.map_append, List.map_cons]
        have := hI.perm
        rw [h5, List.map_append] at this
        exact (List.Perm.cons h this).trans List.perm_middle.symm
      · intro b hb
        rcases List.mem_cons.mp hb with hb | hb
        · rw [hb]; exact ⟨sz, by rw [h6]; simp, h7.1⟩
        · obtain ⟨z, hz, hz2⟩ := hI.room b hb
          exact ⟨z, hmem _ hz, hz2⟩
      · intro b hb k hk v hv
        rcases List.mem_cons.mp hb with hb | hb
        · rw [hb] at hv; exact absurd hv (by simp)
        · obtain ⟨z, hz, hz2⟩ := hI.room b hb
          rw [h8 _ hz k (by show k < z; omega)]
          exact hI.kept b hb k hk v hv
  | free i =>
    cases hi : s.live[i]? with
    | none => exact ⟨s, bs, by rw [step, hi], hI, Nat.le_refl _, Nat.le_refl _, Nat.le_refl _⟩
    | some b =>
      obtain ⟨l1, l2, hl, hlen⟩ := split_at hi
      have hbm : b ∈ s.live := by rw [hl]; simp
      obtain ⟨sz, hsz, _⟩ := hI.room b hbm
      obtain ⟨m, bs', A, B, h1, ⟨h2, hct⟩, ⟨_, hT, hUs⟩, h3, h4, h5, h6, h7⟩ := free_spec hI.chain hI.prev hsz
      have he : s.live.eraseIdx i = l1 ++ l2 := by
        rw [hl, List.eraseIdx_append_of_length_le (by omega), ← hlen, Nat.sub_self]
        rfl
      have hperm := hI.perm
      rw [hl, h5, List.map_append, List.map_append, List.map_cons, List.map_cons] at hperm
      have hperm2 : ((l1 ++ l2).map Block.handle).Perm ((A ++ B).map Prod.fst) := by
        rw [List.map_append, List.map_append]
        exact ((List.perm_middle.symm.trans hperm).trans List.perm_middle).cons_inv
      have hnd := hI.nodup
      have hother : ∀ c, c ∈ l1 ++ l2 → c.handle ≠ b.handle := by
        intro c hc heq
        rw [hl, List.map_append, List.map_cons] at hnd
        have := (List.perm_middle.nodup_iff.mp hnd)
        rw [List.nodup_cons] at this
        apply this.1
        rw [← heq, ← List.map_append]
        exact List.mem_map.mpr ⟨c, hc, rfl⟩
      have hsub : ∀ c, c ∈ l1 ++ l2 → c ∈ s.live := by
        intro c hc; rw [hl]
        rcases List.mem_append.mp hc with h | h <;> simp [h]
      refine ⟨{ map := m, live := s.live.eraseIdx i }, bs', by rw [step, hi]; simp only [h1], ?_,
        by omega, by rw [hct]; exact Nat.le_refl _, by rw [hct, hUs]; exact Nat.le_refl _⟩
      refine ⟨by rw [h2]; exact hI.low, by rw [h2]; exact hI.high, h3, h4, ?_, ?_, ?_⟩
      · show ((s.live.eraseIdx i).map Block.handle).Perm _
        rw [he, h6]; exact hperm2
      · intro c hc
        have hc : c ∈ l1 ++ l2 := by rw [← he]; exact hc
        obtain ⟨z, hz, hz2⟩ := hI.room c (hsub c hc)
        refine ⟨z, ?_, hz2⟩
        rw [h5] at hz; rw [h6]
        rcases List.mem_append.mp hz with h | h
        · simp [h]
        · rcases List.mem_cons.mp h with h | h
          · exact absurd (congrArg Prod.fst h) (hother c hc)
          · simp [h]
      · intro c hc k hk v hv
        have hc : c ∈ l1 ++ l2 := by rw [← he]; exact hc
        obtain ⟨z, hz, hz2⟩ := hI.room c (hsub c hc)
        show m.mem _ = v
        rw [h7 _ hz k (by show k < z; omega)]
        exact hI.kept c (hsub c hc) k hk v hv
  | write i off v =>
    cases hi : s.live[i]? with
    | none => exact ⟨s, bs, by rw [step, hi], hI, Nat.le_refl _, Nat.le_refl _, Nat.le_refl _⟩
    | some b =>
      by_cases hoff : off < b.size
      · obtain ⟨l1, l2, hl, hlen⟩ := split_at hi
        have hbm : b ∈ s.live := by rw [hl]; simp
        obtain ⟨sz, hsz, hszb⟩ := hI.room b hbm
        have hset : s.live.set i (b.put off v) = l1 ++ b.put off v :: l2 := by
          rw [hl, List.set_append_right _ _ (by omega), ← hlen, Nat.sub_self]
          rfl
        have hnd := hI.nodup
        have hother : ∀ c, c ∈ l1 ++ l2 → c.handle ≠ b.handle := by
          intro c hc heq
          rw [hl, List.map_append, List.map_cons] at hnd
          have := (List.perm_middle.nodup_iff.mp hnd)
          rw [List.nodup_cons] at this
          apply this.1
          rw [← heq, ← List.map_append]
          exact List.mem_map.mpr ⟨c, hc, rfl⟩
        have hsub : ∀ c, c ∈ l1 ++ l2 → c ∈ s.live := by
          intro c hc; rw [hl]
          rcases List.mem_append.mp hc with h | h <;> simp [h]
        have hin : ∀ c, c ∈ l1 ++ b.put off v :: l2 → c = b.put off v ∨ c ∈ l1 ++ l2 := by
          intro c hc
          rcases List.mem_append.mp hc with h | h
          · exact Or.inr (by simp [h])
          · rcases List.mem_cons.mp h with h | h
            · exact Or.inl h
            · exact Or.inr (by simp [h])
        refine ⟨{ map := { s.map with mem := fun q => if q = b.handle + off then v else s.map.mem q },
                  live := s.live.set i (b.put off v) }, bs, by rw [step, hi]; simp only [if_pos hoff], ?_,
            Nat.le_refl _, Nat.le_refl _, Nat.le_refl _⟩
        refine ⟨hI.low, hI.high, ?_, hI.prev, ?_, ?_, ?_⟩
        · exact write_chain hsz (by show b.handle ≤ _; omega) (by show _ < b.handle + sz; omega) hI.chain
        · show ((s.live.set i (b.put off v)).map Block.handle).Perm _
          rw [hset]
          have := hI.perm
          rw [hl] at this
          simpa [Block.put] using this
        · intro c hc
          have hc : c ∈ l1 ++ b.put off v :: l2 := by rw [← hset]; exact hc
          rcases hin c hc with h | h
          · rw [h]; exact ⟨sz, hsz, hszb⟩
          · exact hI.room c (hsub c h)
        · intro c hc k hk w hw
          have hc : c ∈ l1 ++ b.put off v :: l2 := by rw [← hset]; exact hc
          show (if c.handle + k = b.handle + off then v else s.map.mem (c.handle + k)) = w
          rcases hin c hc with h | h
          · subst h
            have hw : (if k = off then some v else b.written k) = some w := hw
            have e : (b.put off v).handle = b.handle := rfl
            rw [e]
            by_cases hk2 : k = off
            · rw [if_pos hk2] at hw
              rw [if_pos (by rw [hk2])]
              exact Option.some.inj hw
            · rw [if_neg hk2] at hw
              rw [if_neg (by omega)]
              exact hI.kept b hbm k hk w hw
          · obtain ⟨z, hz, hz2⟩ := hI.room c (hsub c h)
            have hap : Apart c.handle z b.handle sz :=
              sorted_apart liveChain_sorted hz hsz (hother c h)
            unfold Apart at hap
            rw [if_neg (by omega)]
            exact hI.kept c (hsub c h) k hk w hw
      · exact ⟨s, bs, by rw [step, hi]; simp only [if_neg hoff], hI, Nat.le_refl _, Nat.le_refl _, Nat.le_refl _⟩
  | isEmpty => exact ⟨s, bs, by rw [step, isEmpty_spec hI.chain], hI, Nat.le_refl _, Nat.le_refl _, Nat.le_refl _⟩

theorem start_inv {n : Nat} (hl : 520 ≤ heapSizeOf n) (hh : heapSizeOf n < 2 ^ 63) :
    Inv (start n) [] :=
  ⟨hl, hh, ⟨Nat.zero_le _, fun _ _ => rfl⟩, rfl, List.Perm.nil, fun _ h => absurd h (by simp [start]),
    fun _ h => absurd h (by simp [start])⟩

theorem run_inv : ∀ (ops : List Op) {s : State} {bs : List (List Ent)}, (∀ op, op ∈ ops → op.Fair) →
    Inv s bs → ∃ s' bs', run s ops = some s' ∧ Inv s' bs' ∧ totalAll bs ≤ totalAll bs' ∧
      s.map.count ≤ s'.map.count ∧ usedAll bs' + s.map.count ≤ usedAll bs + s'.map.count := by
  intro ops
  induction ops with
  | nil => intro s bs _ h; exact ⟨s, bs, rfl, h, Nat.le_refl _, Nat.le_refl _, Nat.le_refl _⟩
  | cons op ops ih =>
    intro s bs hf h
    obtain ⟨s1, bs1, h1, h2, a1, a2, a3⟩ := step_inv op (hf op (by simp)) h
    obtain ⟨s2, bs2, h3, h4, b1, b2, b3⟩ := ih (fun o ho => hf o (by simp [ho])) h2
    exact ⟨s2, bs2, by rw [run, h1]; exact h3, h4, by omega, by omega, by omega⟩

end Verif.Mmap
