import Verif.Mmap.Props
/-!
# Memory maps: using freed memory again

C23.
-/
namespace Verif.Mmap
open Verif Verif.Mmap.Spec

theorem run_append (a b : List Op) : ∀ (s : State),
    run s (a ++ b) = match run s a with
      | none => none
      | some s' => run s' b := by
  induction a with
  | nil => intro s; rfl
  | cons op a ih =>
    intro s
    rw [List.cons_append, run, run]
    cases step s op with
    | none => rfl
    | some s' => exact ih s'

/-! ## A map which has no room for a further index -/

/-- The position remembered from the last allocation is where no index fits. -/
def Stuck (s : Map) : Prop := 0 < s.prevIndex ∧ s.prevIndex < s.heap ∧ s.heap < s.prevIndex + 520

theorem stuck_allocate {s : Map} (h : Stuck s) (n : Nat) (hn : 0 < n) :
    ∃ s', allocate s n = .ok s' none ∧ Stuck s' := by
  unfold allocate
  rw [if_neg (by omega)]
  simp only
  split
  · exact ⟨_, rfl, h⟩
  · split
    · exact ⟨_, rfl, h⟩
    · have : ∀ padded, walk s.mem s.heap padded (s.heap + 1) s.prevIndex s.prevIndex
          = (.oom, s.prevIndex) := by
        intro padded
        rw [walk, if_pos h.2.1, if_pos (by have := h.2.2; simp only [indexSize]; omega)]
      rw [this]
      exact ⟨_, rfl, h⟩

theorem free_stuck {s s' : Map} {h : Nat} (hs : Stuck s) (hf : free s h = some s') : Stuck s' := by
  unfold free at hf
  split at hf
  · cases hf; exact hs
  · cases hf

theorem stuck_run (ops : List Op) : ∀ (s : State), Stuck s.map → s.live = [] →
    (∀ op, op ∈ ops → op.Fair) → ∀ s', run s ops = some s' → s'.live = [] := by
  induction ops with
  | nil => intro s _ hl _ s' h; cases h; exact hl
  | cons op ops ih =>
    intro s hs hl hf s' h
    have hf' : ∀ op, op ∈ ops → op.Fair := fun o ho => hf o (by simp [ho])
    rw [run] at h
    cases op with
    | alloc n =>
      obtain ⟨m, h1, h2⟩ := stuck_allocate hs n (hf (.alloc n) (by simp)).1
      rw [step, h1] at h
      exact ih { s with map := m } h2 hl hf' s' h
    | free i =>
      rw [step, hl] at h
      exact ih _ hs hl hf' s' (by simpa using h)
    | write i off v =>
      rw [step, hl] at h
      exact ih _ hs hl hf' s' (by simpa using h)
    | isEmpty =>
      rw [step] at h
      cases he : isEmpty s.map with
      | none => rw [he] at h; cases h
      | some _ => rw [he] at h; exact ih _ hs hl hf' s' h

/-- The entries after `k` blocks of 48 bytes. -/
def filled (k : Nat) : List Ent := List.replicate k (48, true) ++ List.replicate (64 - k) fresh

theorem filled_total (k : Nat) : total (filled k) = 48 * k := by
  unfold filled
  rw [total_append, show fresh = (0, false) from rfl, total_replicate_zero]
  unfold total
  rw [List.map_replicate, List.sum_replicate_nat, Nat.mul_comm, Nat.add_zero]

theorem filled_mem {k : Nat} {e : Ent} (h : e ∈ filled k) : e = (48, true) ∨ e = fresh := by
  rcases List.mem_append.mp h with h | h
  · exact Or.inl (List.mem_replicate.mp h).2
  · exact Or.inr (List.mem_replicate.mp h).2

/-- A state with `k` blocks of 48 bytes. -/
structure Filling (s : State) (k : Nat) : Prop where
  heap : s.map.heap = 4096
  chain : ChainOk s.map.mem 4096 0 [filled k]
  prev : s.map.prevIndex = 0
  fail : s.map.prevFail = 0
  live : s.live.length = k
  inv : Inv s [filled k]

theorem filled_found {m m' : Mem} {k p : Nat} {b' : List Ent} (hk : k ≤ 64)
    (h : Found m m' 4096 0 48 p (filled k) b') : k < 64 ∧ b' = filled (k + 1) := by
  obtain ⟨pre, mid, post, sz, hb, hb', _, _, _, hcase⟩ := h
  have hmem : ∀ e, e ∈ pre ++ mid ++ post → e = (48, true) ∨ e = fresh := by
    intro e he; rw [← hb] at he; exact filled_mem he
  rcases hcase with ⟨hmid, hsz, hfull, _⟩ | ⟨hdead, _, ⟨mid0, e, hm, he⟩, _⟩
  · subst hmid
    subst hsz
    have hpre : pre = List.replicate pre.length (48, true) := by
      rw [List.eq_replicate_iff]
      refine ⟨rfl, fun e he => ?_⟩
      rcases hmem e (by simp [he]) with h | h
      · exact h
      · exact absurd h (hfull e he)
    have hlen : pre.length = k := by
      unfold filled at hb
      generalize hn : pre.length = n at hpre
      rcases Nat.lt_trichotomy n k with hlt | heq | hgt
      · have h1 : (List.replicate k ((48 : Nat), true) ++ List.replicate (64 - k) fresh)[n]?
            = some (48, true) := by
          rw [List.getElem?_append_left (by simp [hlt]), List.getElem?_replicate, if_pos hlt]
        rw [hb, List.append_assoc, List.getElem?_append_right (by omega), hn, Nat.sub_self] at h1
        simp [fresh] at h1
      · exact heq
      · have h1 : (pre ++ [fresh] ++ post)[k]? = some (48, true) := by
          rw [hpre, List.append_assoc, List.getElem?_append_left (by simp [hgt]),
            List.getElem?_replicate, if_pos hgt]
        rw [← hb, List.getElem?_append_right (by simp), List.length_replicate, Nat.sub_self,
          List.getElem?_replicate] at h1
        split at h1
        · exact absurd h1 (by decide)
        · exact absurd h1 (by simp)
    have hk64 : k < 64 := by
      have := congrArg List.length hb
      simp [filled] at this
      omega
    refine ⟨hk64, ?_⟩
    rw [hb']
    have h2 : fresh :: post = List.replicate (64 - k) fresh := by
      have := congrArg (List.drop k) hb
      unfold filled at this
      rw [List.drop_left' (by simp), List.append_assoc, List.drop_left' hlen] at this
      exact this.symm
    obtain ⟨j, hj⟩ : ∃ j, 64 - k = j + 1 := ⟨63 - k, by omega⟩
    rw [hj, List.replicate_succ] at h2
    have h3 := (List.cons.inj h2).2
    unfold filled
    rw [hpre, hlen, h3, show 64 - (k + 1) = j by omega, List.replicate_succ']
    simp
  · have : e ∈ mid := by rw [hm]; simp
    have h1 := hdead e this
    rcases hmem e (by simp [this]) with h | h
    · rw [h] at h1; simp at h1
    · rw [h] at he; exact absurd rfl he

theorem filled_scan {m : Mem} {k : Nat} (hk : k ≤ 64) (hc : ChainOk m 4096 0 [filled k]) :
    ScanPost m 4096 0 48 (filled k) (scan m 4096 0 48 64 0
      { pos := 0 + indexSize, mergeJ := 0, mergePos := 0, count := 0, size := 0 }) := by
  have h := scan_spec (padded := 48) (by decide) hc.1 (by decide) (by decide) (filled k) []
    { pos := 0 + indexSize, mergeJ := 0, mergePos := 0, count := 0, size := 0 }
    rfl (fun x hx => absurd hx (by simp)) ⟨rfl, Or.inl ⟨rfl, rfl⟩, fun _ => ⟨rfl, by decide⟩⟩
  rwa [hc.1.reads.1] at h

theorem filling_next {s : State} {k : Nat} (hk : k < 64) (h : Filling s k) :
    ∃ s', step s (.alloc 30) = some s' ∧ Filling s' (k + 1) := by
  have hsc := filled_scan (by omega) h.chain
  have hw : ∃ m' p, walk s.map.mem s.map.heap 48 (s.map.heap + 1) s.map.prevIndex s.map.prevIndex
      = (.found m' p, 0) ∧ Found s.map.mem m' 4096 0 48 p (filled k) (filled (k + 1)) := by
    rw [h.heap, h.prev, walk, if_pos (by decide), if_neg (by decide)]
    revert hsc
    cases scan s.map.mem 4096 0 48 64 0
      { pos := 0 + indexSize, mergeJ := 0, mergePos := 0, count := 0, size := 0 } with
    | found m' p =>
      intro hsc
      obtain ⟨b', hb'⟩ := hsc
      have := filled_found (by omega) hb'
      rw [this.2] at hb'
      exact ⟨m', p, rfl, hb'⟩
    | oom => intro hsc; have := hsc.2.1; rw [filled_total] at this; omega
    | bug => intro hsc; exact hsc.elim
    | oob => intro hsc; exact hsc.elim
    | next p =>
      intro hsc
      refine absurd rfl (hsc.2.1 fresh ?_)
      unfold filled
      obtain ⟨j, hj⟩ : ∃ j, 64 - k = j + 1 := ⟨63 - k, by omega⟩
      rw [hj, List.replicate_succ]
      simp
  obtain ⟨m', p, hw1, hw2⟩ := hw
  have halloc : allocate s.map 30 = .ok { s.map with mem := m', prevIndex := 0, count := s.map.count + 1 }
      (some p) := by
    unfold allocate
    rw [if_neg (by decide)]
    simp only [show w64 (30 + sentinelSize) = 38 from rfl, show paddedOf 38 = 48 from rfl]
    rw [if_neg (by rw [h.fail]; simp), if_neg (by rw [h.heap]; decide), hw1]
    rfl
  obtain ⟨c1, c2, _, c3⟩ := found_chain (cs1 := []) (cs2 := []) (p := 0) (by decide) h.chain hw2
  refine ⟨{ map := { s.map with mem := m', prevIndex := 0, count := s.map.count + 1 },
             live := { handle := p, size := 30, written := fun _ => none } :: s.live },
    by rw [step, halloc], h.heap, c1, rfl, h.fail, by simp [h.live], ?_⟩
  obtain ⟨A, B, sz, hA, hB, hsz⟩ := c2
  have hA' : liveChain 0 [filled k] = A ++ B := hA
  have hB' : liveChain 0 [filled (k + 1)] = A ++ (p, sz) :: B := hB
  refine ⟨h.inv.low, h.inv.high, ?_, rfl |> Or.inl, ?_, ?_, ?_⟩
  · show ChainOk m' s.map.heap 0 _
    rw [h.heap]; exact c1
  · rw [hB', List.map_append, List.map_cons]
    have := h.inv.perm
    rw [hA', List.map_append] at this
    exact (List.Perm.cons p this).trans List.perm_middle.symm
  · intro b hb
    rcases List.mem_cons.mp hb with hb | hb
    · rw [hb]; exact ⟨sz, by rw [hB']; simp, by show 30 + 8 < sz; omega⟩
    · obtain ⟨z, hz, hz2⟩ := h.inv.room b hb
      refine ⟨z, ?_, hz2⟩
      rw [hA'] at hz; rw [hB']
      rcases List.mem_append.mp hz with h | h <;> simp [h]
  · intro b hb j hj v hv
    rcases List.mem_cons.mp hb with hb | hb
    · rw [hb] at hv; exact absurd hv (by simp)
    · obtain ⟨z, hz, hz2⟩ := h.inv.room b hb
      show m' _ = v
      rw [c3 _ hz j (by show j < z; omega)]
      exact h.inv.kept b hb j hj v hv

theorem filling_start : Filling (start 0) 0 := by
  have hz : ∀ q, 0 ≤ q → (start 0).map.mem q = 0 := fun _ _ => rfl
  have hc : ChainOk (start 0).map.mem 4096 0 [filled 0] := by
    refine ⟨idx_zero hz (by decide), fun h => absurd rfl h, ?_⟩
    rw [filled_total]
    exact ⟨by decide, fun _ _ => rfl⟩
  refine ⟨rfl, hc, rfl, rfl, rfl, ?_⟩
  refine ⟨by decide, by decide, hc, Or.inl rfl, ?_, fun _ h => absurd h (by simp [start]),
    fun _ h => absurd h (by simp [start])⟩
  have : liveChain 0 [filled 0] = [] := by
    rw [liveChain, liveChain, List.append_nil]
    exact liveOf_zero
  rw [this]
  exact List.Perm.nil

theorem fill : ∀ (j k : Nat) (s : State), k + j ≤ 64 → Filling s k →
    ∃ s', run s (List.replicate j (.alloc 30)) = some s' ∧ Filling s' (k + j) := by
  intro j
  induction j with
  | zero => intro k s _ h; exact ⟨s, rfl, h⟩
  | succ j ih =>
    intro k s hk h
    obtain ⟨s1, h1, h2⟩ := filling_next (by omega) h
    obtain ⟨s2, h3, h4⟩ := ih (k + 1) s1 (by omega) h2
    refine ⟨s2, by rw [List.replicate_succ, run, h1]; exact h3, ?_⟩
    rw [show k + (j + 1) = k + 1 + j by omega]; exact h4

theorem fill_stuck {s : State} (h : Filling s 64) :
    ∃ s', step s (.alloc 30) = some s' ∧ Stuck s'.map ∧ s'.live = s.live ∧ Inv s' [filled 64] := by
  have hsc := filled_scan (by decide) h.chain
  have hw : walk s.map.mem s.map.heap 48 (s.map.heap + 1) s.map.prevIndex s.map.prevIndex
      = (.oom, 3592) := by
    rw [h.heap, h.prev, walk, if_pos (by decide), if_neg (by decide)]
    revert hsc
    cases scan s.map.mem 4096 0 48 64 0
      { pos := 0 + indexSize, mergeJ := 0, mergePos := 0, count := 0, size := 0 } with
    | found m' p =>
      intro hsc
      obtain ⟨b', hb'⟩ := hsc
      exact absurd (filled_found (by decide) hb').1 (by decide)
    | oom =>
      intro hsc
      refine absurd ?_ hsc.1
      intro e he
      unfold filled at he
      rw [Nat.sub_self, List.replicate_zero, List.append_nil] at he
      rw [(List.mem_replicate.mp he).2]
      decide
    | bug => intro hsc; exact hsc.elim
    | oob => intro hsc; exact hsc.elim
    | next p =>
      intro hsc
      have := hsc.1
      rw [filled_total] at this
      subst this
      simp only
      rw [walk, if_pos (by decide), if_pos (by decide)]
  have halloc : allocate s.map 30 = .ok { s.map with prevIndex := 3592, prevFail := 38 } none := by
    unfold allocate
    rw [if_neg (by decide)]
    simp only [show w64 (30 + sentinelSize) = 38 from rfl, show paddedOf 38 = 48 from rfl]
    rw [if_neg (by rw [h.fail]; simp), if_neg (by rw [h.heap]; decide), hw]
    rfl
  refine ⟨{ s with map := { s.map with prevIndex := 3592, prevFail := 38 } }, by rw [step, halloc],
    ⟨by show 0 < 3592; decide, by show 3592 < s.map.heap; rw [h.heap]; decide,
      by show s.map.heap < 3592 + 520; rw [h.heap]; decide⟩, rfl, ?_⟩
  refine ⟨h.inv.low, h.inv.high, h.inv.chain, ?_, h.inv.perm, h.inv.room, h.inv.kept⟩
  right
  refine ⟨?_, ?_⟩
  · intro e he
    unfold filled at he
    rw [Nat.sub_self, List.replicate_zero, List.append_nil] at he
    rw [(List.mem_replicate.mp he).2]
    decide
  · show 3592 = 0 + 520 + total (filled 64)
    rw [filled_total]

theorem free_all : ∀ (k : Nat) (s : State) (bs : List (List Ent)), s.live.length = k → Inv s bs →
    Stuck s.map → ∃ s', run s (List.replicate k (.free 0)) = some s' ∧ s'.live = [] ∧ Stuck s'.map := by
  intro k
  induction k with
  | zero => intro s bs hl _ hs; exact ⟨s, rfl, List.length_eq_zero_iff.mp hl, hs⟩
  | succ k ih =>
    intro s bs hl hI hs
    obtain ⟨s1, bs1, h1, h2, _⟩ := step_inv (.free 0) trivial hI
    have hs1 : s1.live.length = k ∧ Stuck s1.map := by
      rw [step] at h1
      cases h0 : s.live[0]? with
      | none =>
        rw [List.getElem?_eq_none_iff] at h0
        omega
      | some b =>
        rw [h0] at h1
        simp only at h1
        cases hf : free s.map b.handle with
        | none => rw [hf] at h1; cases h1
        | some m =>
          rw [hf] at h1
          cases h1
          refine ⟨?_, free_stuck hs hf⟩
          show (s.live.eraseIdx 0).length = k
          rw [List.length_eraseIdx_of_lt (by omega)]
          omega
    obtain ⟨s2, h3, h4⟩ := ih s1 bs1 hs1.1 h2 hs1.2
    exact ⟨s2, by rw [List.replicate_succ, run, h1]; exact h3, h4⟩

/-- C23 fails: there is a history in which blocks were allocated and all of them freed, and after
which the map never hands out a block again, whatever the user does. -/
theorem never_again : ∃ (ops : List Op) (s : State), (∀ op, op ∈ ops → op.Fair) ∧
    (∃ m h, allocate (start 0).map 30 = .ok m (some h) ∧ ops.head? = some (.alloc 30)) ∧
    run (start 0) ops = some s ∧ s.live = [] ∧
    (∃ m, allocate s.map 30 = .ok m none) ∧
    ∀ more, (∀ op, op ∈ more → op.Fair) → ∀ s', run s more = some s' → s'.live = [] := by
  obtain ⟨s1, h1, h2⟩ := fill 64 0 (start 0) (by decide) filling_start
  obtain ⟨s2, h3, h4, h5, h6⟩ := fill_stuck h2
  obtain ⟨s3, h7, h8, h9⟩ := free_all 64 s2 _ (by rw [h5]; exact h2.live) h6 h4
  obtain ⟨m, hm, _⟩ := stuck_allocate h9 30 (by decide)
  refine ⟨List.replicate 64 (.alloc 30) ++ (.alloc 30 :: List.replicate 64 (.free 0)), s3, ?_, ?_, ?_,
    h8, ⟨m, hm⟩, fun more hf s' hs' => stuck_run more s3 h9 h8 hf s' hs'⟩
  · intro op hop
    rcases List.mem_append.mp hop with h | h
    · rw [(List.mem_replicate.mp h).2]; constructor <;> decide
    · rcases List.mem_cons.mp h with h | h
      · rw [h]; constructor <;> decide
      · rw [(List.mem_replicate.mp h).2]; trivial
  · have h0 : (match allocate (start 0).map 30 with
        | .ok _ (some _) => true
        | _ => false) = true := by decide +kernel
    cases ha : allocate (start 0).map 30 with
    | ok m r =>
      cases r with
      | some p => exact ⟨m, p, rfl, rfl⟩
      | none => rw [ha] at h0; exact absurd h0 (by simp)
    | bug => rw [ha] at h0; exact absurd h0 (by simp)
    | oob => rw [ha] at h0; exact absurd h0 (by simp)
    | hang => rw [ha] at h0; exact absurd h0 (by simp)
  · rw [run_append, h1]
    simp only
    rw [run, h3]
    exact h7

/-! ## Maps in which fewer than 64 blocks have been allocated -/

theorem small_chain {m : Mem} {heap : Nat} {bs : List (List Ent)} (hc : ChainOk m heap 0 bs)
    (hu : usedAll bs < 64) : bs = [] ∨ ∃ b, bs = [b] ∧ ¬ Full b := by
  match bs with
  | [] => exact Or.inl rfl
  | [b] =>
    refine Or.inr ⟨b, rfl, fun h => ?_⟩
    have h1 := usedOf_full h
    rw [hc.1.reads.1] at h1
    simp [usedAll, h1] at hu
  | b :: c :: bs =>
    exfalso
    have h1 := usedOf_full (hc.2.1 (by simp))
    rw [hc.1.reads.1] at h1
    simp only [usedAll, List.map_cons, List.sum_cons, h1] at hu
    omega

theorem noLive_of {b : List Ent} : ∀ {p : Nat}, liveOf p b = [] → NoLive b := by
  induction b with
  | nil => intro p _ e he; exact absurd he (by simp)
  | cons a b ih =>
    intro p h e he hu
    rw [liveOf] at h
    split at h
    · exact absurd h (by simp)
    · rename_i hn
      rcases List.mem_cons.mp he with he | he
      · subst he
        by_cases h0 : e.1 = 0
        · exact h0
        · exact absurd ⟨hu, h0⟩ hn
      · exact ih h e he hu

theorem total_of_live {bs : List (List Ent)} : ∀ {p : Nat} {x : Nat × Nat}, x ∈ liveChain p bs →
    x.2 ≤ totalAll bs := by
  induction bs with
  | nil => intro p x h; exact absurd h (by simp [liveChain])
  | cons b bs ih =>
    intro p x h
    rw [liveChain] at h
    simp only [totalAll, List.map_cons, List.sum_cons]
    rcases List.mem_append.mp h with h | h
    · have := liveOf_bound h
      omega
    · have := ih h
      unfold totalAll at this
      omega

/-- C23 for maps in which fewer than 64 blocks have been allocated: when a program frees the last
block it holds, any number of bytes for which it ever got a block can be allocated again. See
`never_again` for what happens later. -/
theorem reuse_partial (size : Nat) (hpos : 0 < heapSizeOf size) (hsys : heapSizeOf size < 2 ^ 63)
    (before after : List Op) (n i : Nat)
    (hf1 : ∀ op, op ∈ before → op.Fair) (hf2 : ∀ op, op ∈ after → op.Fair) (hn : (Op.alloc n).Fair)
    (s1 : State) (hr1 : run (start size) before = some s1)
    (hgot : ∃ m h, allocate s1.map n = .ok m (some h))
    (s2 s : State) (hr2 : run s1 (.alloc n :: after) = some s2)
    (hlast : i < s2.live.length) (hr3 : step s2 (.free i) = some s) (hempty : s.live = [])
    (hcount : s.map.count < 64) :
    ∃ m h, allocate s.map n = .ok m (some h) := by
  -- what is known when the block was allocated, and from then on
  obtain ⟨x1, bs1, h1, hI1, _, _, hu1⟩ := run_inv before hf1 (start_inv (low_of_pos hpos) hsys)
  rw [hr1] at h1
  cases h1
  have hw : ∃ s1' bs1', step s1 (.alloc n) = some s1' ∧ Inv s1' bs1' ∧
      usedAll bs1' + s1.map.count ≤ usedAll bs1 + s1'.map.count ∧ s1.map.count ≤ s1'.map.count ∧
      (paddedOf (n + 8) ≤ totalAll bs1' ∧ n + 8 < totalAll bs1') := by
    obtain ⟨m, h, hm⟩ := hgot
    rcases allocate_spec hI1.low hI1.high hI1.chain hI1.prev hn.1 hn.2 with
      ⟨m', g1, _⟩ | ⟨m', h', bs', A, B, sz, g1, g2, g3, g4, g5, g6, g7, gU, g8⟩
    · rw [hm] at g1; cases g1
    · refine ⟨{ map := m', live := { handle := h', size := n, written := fun _ => none } :: s1.live },
        bs', by rw [step, g1], ?_, by show _ + _ ≤ _ + m'.count; omega,
        by show _ ≤ m'.count; omega, ?_⟩
      · have hmem : ∀ x, x ∈ liveChain 0 bs1 → x ∈ liveChain 0 bs' := by
          intro x hx
          rw [g5] at hx; rw [g6]
          rcases List.mem_append.mp hx with h | h <;> simp [h]
        refine ⟨by rw [g2]; exact hI1.low, by rw [g2]; exact hI1.high, g3, g4, ?_, ?_, ?_⟩
        · rw [g6, List.map_append, List.map_cons]
          have := hI1.perm
          rw [g5, List.map_append] at this
          exact (List.Perm.cons h' this).trans List.perm_middle.symm
        · intro b hb
          rcases List.mem_cons.mp hb with hb | hb
          · rw [hb]; exact ⟨sz, by rw [g6]; simp, g7.1⟩
          · obtain ⟨z, hz, hz2⟩ := hI1.room b hb
            exact ⟨z, hmem _ hz, hz2⟩
        · intro b hb k hk v hv
          rcases List.mem_cons.mp hb with hb | hb
          · rw [hb] at hv; exact absurd hv (by simp)
          · obtain ⟨z, hz, hz2⟩ := hI1.room b hb
            rw [g8 _ hz k (by show k < z; omega)]
            exact hI1.kept b hb k hk v hv
      · have := total_of_live (p := 0) (bs := bs') (x := (h', sz)) (by rw [g6]; simp)
        simp only at this
        omega
  obtain ⟨s1', bs1', e1, hI1', hu2, hc2, htot⟩ := hw
  rw [run, e1] at hr2
  obtain ⟨x2, bs2, h2, hI2, ht2, _, hu3⟩ := run_inv after hf2 hI1'
  have hr2 : run s1' after = some s2 := hr2
  rw [hr2] at h2
  cases h2
  obtain ⟨x3, bs3, h3, hI3, ht3, _, hu4⟩ := step_inv (.free i) trivial hI2
  rw [hr3] at h3
  cases h3
  -- the blocks are all in the first index
  have hused : usedAll bs3 < 64 := by
    have : (start size).map.count = 0 := rfl
    have h0 : usedAll [] = 0 := rfl
    omega
  have hfail : s.map.prevFail = 0 := by
    rw [step] at hr3
    cases hi : s2.live[i]? with
    | none => rw [List.getElem?_eq_none_iff] at hi; omega
    | some b =>
      rw [hi] at hr3
      simp only at hr3
      cases hfr : free s2.map b.handle with
      | none => rw [hfr] at hr3; cases hr3
      | some m =>
        rw [hfr] at hr3
        cases hr3
        unfold free at hfr
        split at hfr
        · cases hfr; rfl
        · cases hfr
  have hfit : totalAll bs3 < 2 ^ 63 := by
    rcases small_chain hI3.chain hused with h | ⟨b, h, _⟩
    · rw [h]; decide
    · have := hI3.chain
      rw [h] at this ⊢
      have h1 := this.1.fits
      have h2 := hI3.high
      simp only [totalAll, List.map_cons, List.map_nil, List.sum_cons, List.sum_nil]
      omega
  have hp1 : n + 8 < paddedOf (n + 8) := by
    unfold paddedOf w64 chunkMin
    omega
  have hp2 : 16 ≤ paddedOf (n + 8) := by
    unfold paddedOf w64 chunkMin
    omega
  rcases small_chain hI3.chain hused with h | ⟨b, h, hnf⟩
  · rw [h] at ht3
    have : totalAll [] = 0 := rfl
    omega
  · subst h
    have htb : totalAll [b] = total b := by simp [totalAll]
    have hc := hI3.chain
    have hfits := hc.1.fits
    have hprev : s.map.prevIndex = 0 := by
      rcases hI3.prev with h | h
      · exact h
      · exact absurd h.1 hnf
    have hnl : NoLive b := by
      have hp := hI3.perm.length_eq
      rw [hempty, List.length_map, List.length_map] at hp
      have : liveChain 0 [b] = [] := List.length_eq_zero_iff.mp hp.symm
      rw [liveChain, liveChain, List.append_nil] at this
      exact noLive_of this
    have hsc := scan_spec (padded := paddedOf (n + 8)) hI3.high hc.1 hp2 (by omega) b []
      { pos := 0 + indexSize, mergeJ := 0, mergePos := 0, count := 0, size := 0 }
      rfl (fun x hx => absurd hx (by simp))
      ⟨rfl, Or.inl ⟨rfl, rfl⟩, fun _ => ⟨rfl, by show 0 < paddedOf (n + 8); omega⟩⟩
    rw [hc.1.reads.1] at hsc
    have hw8 : w64 (n + sentinelSize) = n + 8 := Nat.mod_eq_of_lt hn.2
    have hn0 := hn.1
    unfold allocate
    rw [if_neg (by omega)]
    simp only [hw8]
    rw [if_neg (by rw [hfail]; simp), if_neg (by simp only [indexSize]; omega), hprev, walk,
      if_pos (by omega), if_neg (by simp only [indexSize]; omega)]
    revert hsc
    rw [show ([] : List Ent).length = 0 from rfl]
    cases scan s.map.mem s.map.heap 0 (paddedOf (n + 8)) 64 0
      { pos := 0 + indexSize, mergeJ := 0, mergePos := 0, count := 0, size := 0 } with
    | found m' p => intro _; exact ⟨_, p, rfl⟩
    | oom => intro hsc; have := hsc.2.2 hnl; omega
    | bug => intro hsc; exact hsc.elim
    | oob => intro hsc; exact hsc.elim
    | next p => intro hsc; exact absurd hsc.2.1 hnf

-- two blocks of 100 bytes and one of 300 are allocated and freed; 300 bytes can be allocated again
example : (run (start 0) [.alloc 100, .alloc 300, .alloc 100, .free 0, .free 0, .free 0]).map
    (fun s => (s.live.length, s.map.count, match allocate s.map 300 with
      | .ok _ r => r
      | _ => none)) = some (0, 3, some 632) := by decide +kernel

end Verif.Mmap
