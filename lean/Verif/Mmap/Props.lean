import Verif.Mmap.Inv
/-!
# Memory maps: what their users rely on

C22 and C23.
-/
namespace Verif.Mmap
open Verif Verif.Mmap.Spec

theorem low_of_pos {n : Nat} (h : 0 < heapSizeOf n) : 520 ≤ heapSizeOf n := by
  unfold heapSizeOf w64 at *
  simp only at *
  omega

theorem sum_sizes {m : Mem} {p : Nat} {b : List Ent} (hr : Reads m p b) :
    ((List.range 64).map (fun j => load64 m (p + 8 + 8 * j))).sum = total b := by
  unfold total
  congr 1
  apply List.ext_getElem?
  intro j
  by_cases hj : j < 64
  · have hb : j < b.length := by rw [hr.1]; exact hj
    have := (hr.2 j b[j] (List.getElem?_eq_getElem hb)).1
    rw [List.getElem?_map, List.getElem?_map, List.getElem?_range hj, List.getElem?_eq_getElem hb]
    simp only [Option.map_some]
    rw [← this]; rfl
  · rw [List.getElem?_eq_none (by simp; omega), List.getElem?_eq_none (by simp [hr.1]; omega)]

theorem indexAt_pos {s : Map} {bs : List (List Ent)} (hc : ChainOk s.mem s.heap 0 bs) {p : Nat}
    (hp : IndexAt s p) :
    (∃ cs1 b cs2, bs = cs1 ++ b :: cs2 ∧ p = endOf 0 cs1) ∨ endOf 0 bs ≤ p := by
  have key : ∀ cs1 cs2, bs = cs1 ++ cs2 →
      (∃ d1 b d2, bs = d1 ++ b :: d2 ∧ endOf 0 cs1 = endOf 0 d1) ∨ endOf 0 bs ≤ endOf 0 cs1 := by
    intro cs1 cs2 h
    cases cs2 with
    | nil => right; rw [h, List.append_nil]; exact Nat.le_refl _
    | cons c cs2 => exact Or.inl ⟨cs1, c, cs2, h, rfl⟩
  induction hp with
  | first => exact key [] bs rfl
  | next _ _ ih =>
    rcases ih with ⟨cs1, b, cs2, h1, h2⟩ | h
    · rw [h2]
      rw [h1] at hc
      rw [sum_sizes (chain_at hc).1.reads, ← endOf_snoc]
      exact key (cs1 ++ [b]) cs2 (by rw [h1]; simp)
    · right; omega

theorem inv_sound {s : State} {bs : List (List Ent)} (h : Inv s bs) : Sound s := by
  refine ⟨?_, ?_, ?_, h.kept⟩
  · intro b hb
    obtain ⟨sz, h1, h2⟩ := h.room b hb
    have h3 := (liveChain_bound h1).2.1
    have h4 := (chain_end h.chain).1
    simp only at h3
    omega
  · have hnd := h.nodup
    have hroom := h.room
    revert hnd hroom
    generalize s.live = l
    intro hnd hroom
    induction l with
    | nil => exact List.Pairwise.nil
    | cons a l ih =>
      rw [List.map_cons, List.nodup_cons] at hnd
      refine List.pairwise_cons.mpr ⟨fun b hb => ?_, ih hnd.2 fun c hc => hroom c (by simp [hc])⟩
      obtain ⟨sa, ha1, ha2⟩ := hroom a (by simp)
      obtain ⟨sb, hb1, hb2⟩ := hroom b (by simp [hb])
      have : Apart a.handle sa b.handle sb := sorted_apart liveChain_sorted ha1 hb1 (by
        intro he
        exact hnd.1 (by rw [show a.handle = b.handle from he]; exact List.mem_map.mpr ⟨b, hb, rfl⟩))
      unfold Apart at *
      omega
  · intro b hb p hp hroom
    obtain ⟨sz, h1, h2⟩ := h.room b hb
    rcases indexAt_pos h.chain hp with ⟨cs1, c, cs2, g1, g2⟩ | g
    · rw [g1] at h1
      have := live_apart_index h1
      rw [← g2] at this
      unfold Apart at *
      simp only at this
      omega
    · have h3 := (liveChain_bound h1).2.1
      simp only at h3
      exact Or.inl (by omega)

/-- C22: whatever a program allocates, frees and writes, the map never aborts, never reads outside
its heap and never loops, the blocks held are apart from each other and from the allocator's index,
lie in the heap, and keep what was written to them. The number of bytes asked for must not be within
eight of 2^64, see `huge_request`. -/
theorem sound_partial (size : Nat) (hpos : 0 < heapSizeOf size) (hsys : heapSizeOf size < 2 ^ 63)
    (ops : List Op) (hops : ∀ op, op ∈ ops → op.Fair) :
    ∃ s, run (start size) ops = some s ∧ Sound s := by
  obtain ⟨s, bs, h1, h2, _⟩ := run_inv ops hops (start_inv (low_of_pos hpos) hsys)
  exact ⟨s, h1, inv_sound h2⟩

example : (run (start 100) [.alloc 10, .alloc 20, .write 0 3 7, .free 1, .alloc 5]).map
    (fun s => (s.live.map (fun b => (b.handle, b.size)), s.map.mem 555))
    = some ([(520, 5), (552, 20)], 7) := by decide +kernel

/-- C22 fails for a request within eight of 2^64: the block handed out is of 16 bytes and ends with
the allocator's own mark, and the next block lies inside it. -/
theorem huge_request : ∃ s, run (start 0) [.alloc (2 ^ 64 - 1), .alloc 1] = some s ∧
    s.live.map (fun b => (b.handle, b.size)) = [(536, 1), (520, 2 ^ 64 - 1)] ∧ ¬ Sound s := by
  have hrun : ∃ s, run (start 0) [.alloc (2 ^ 64 - 1), .alloc 1] = some s ∧
      s.live.map (fun b => (b.handle, b.size)) = [(536, 1), (520, 2 ^ 64 - 1)] := by
    have h : (run (start 0) [.alloc (2 ^ 64 - 1), .alloc 1]).map
        (fun s => s.live.map (fun b => (b.handle, b.size))) = some [(536, 1), (520, 2 ^ 64 - 1)] := by
      decide +kernel
    exact Option.map_eq_some_iff.mp h
  obtain ⟨s, h1, h2⟩ := hrun
  refine ⟨s, h1, h2, fun h => ?_⟩
  have ha := h.apart
  match hl : s.live with
  | [] => rw [hl] at h2; simp at h2
  | [a] => rw [hl] at h2; simp at h2
  | a :: b :: r =>
    rw [hl] at h2 ha
    have := (List.pairwise_cons.mp ha).1 b (by simp)
    simp only [List.map_cons, List.cons.injEq, Prod.mk.injEq] at h2
    unfold Apart at this
    omega

/-- Whether a map is reported as empty is exactly whether the user holds no block of it. -/
theorem isEmpty_exact (size : Nat) (hpos : 0 < heapSizeOf size) (hsys : heapSizeOf size < 2 ^ 63)
    (ops : List Op) (hops : ∀ op, op ∈ ops → op.Fair) (s : State) (hs : run (start size) ops = some s) :
    isEmpty s.map = some s.live.isEmpty := by
  obtain ⟨s', bs, h1, h2, _⟩ := run_inv ops hops (start_inv (low_of_pos hpos) hsys)
  rw [hs] at h1
  have := Option.some.inj h1
  subst this
  rw [isEmpty_spec h2.chain]
  have hp := h2.perm.length_eq
  rw [List.length_map, List.length_map] at hp
  cases hl : s.live <;> cases hc : liveChain 0 bs <;> rw [hl, hc] at hp <;> simp at hp ⊢

example : (run (start 0) [.alloc 10, .alloc 10, .free 0]).map
    (fun s => (s.live.length, isEmpty s.map)) = some (1, some false) := by decide +kernel
example : (run (start 0) [.alloc 10, .alloc 10, .free 0, .free 0]).map
    (fun s => (s.live.length, isEmpty s.map)) = some (0, some true) := by decide +kernel

end Verif.Mmap
