import Verif.MmapColl.Inv
/-!
# C120: blocks of collections of memory maps

For any number of collections and processes, and every history of allocations, frees by address,
writes and maintenance, as long as no process lets a collection change 2^32 times between two of its
frees.
-/
namespace Verif.MmapColl
open Verif Verif.MmapColl.Spec
open Verif.Mmap.Spec (Block Apart)

/-- **C120**: blocks which are held are in maps which are in use, keep the bytes written to them,
and do not overlap in any process. -/
theorem sound (procs m : Nat) (s : State) (h : Reach procs m s) : Sound procs s := by
  have hI := reach_inv h
  have held : ∀ (j i : Nat) (b : Block), b ∈ s.live j i → ∃ c sl bs, s.colls[j]? = some c ∧
      c.slots[i]? = some (some sl) ∧ Mmap.Inv ⟨sl.map, s.live j i⟩ bs := by
    intro j i b hb
    cases hj : s.colls[j]? with
    | none => rw [hI.outside j hj i] at hb; cases hb
    | some c =>
      have hs := (hI.colls j c hj).slots i
      cases hi : c.slots[i]? with
      | none => rw [hi] at hs; rw [show s.live j i = [] from hs] at hb; cases hb
      | some o =>
        cases o with
        | none => rw [hi] at hs; rw [show s.live j i = [] from hs] at hb; cases hb
        | some sl =>
          rw [hi] at hs
          obtain ⟨bs, hM⟩ := hs
          exact ⟨c, sl, bs, rfl, hi, hM⟩
  refine ⟨fun j i b hb => ?_, fun j i => ?_, ?_⟩
  · obtain ⟨c, sl, bs, hj, hi, hM⟩ := held j i b hb
    have hS := Mmap.inv_sound hM
    exact ⟨sl, ⟨c, hj, hi⟩, hS.inside b hb, hS.kept b hb⟩
  · cases hl : s.live j i with
    | nil => exact List.Pairwise.nil
    | cons b l =>
      obtain ⟨c, sl, bs, hj, hi, hM⟩ := held j i b (by rw [hl]; exact List.mem_cons_self)
      rw [← hl]
      exact (Mmap.inv_sound hM).apart
  · intro p hp j i j' i' sl sl' b b' hne ha ha' hb hb'
    have hd := hI.disj p hp j i j' i' sl sl' ha ha' hne
    have hin : ∀ (j i : Nat) (sl : Slot) (b : Block), At s j i sl → b ∈ s.live j i →
        b.handle + b.size ≤ sl.map.heap := by
      rintro j i sl b ⟨c, hj, hi⟩ hb
      obtain ⟨c1, sl1, bs, hj1, hi1, hM⟩ := held j i b hb
      rw [hj] at hj1
      cases hj1
      rw [hi] at hi1
      cases hi1
      exact (Mmap.inv_sound hM).inside b hb
    have h1 := hin j i sl b ha hb
    have h2 := hin j' i' sl' b' ha' hb'
    unfold Apart at *
    omega

/-- **C120**: a block which is held is found by its address in any process, whichever collection and
map it is in; the return value is 0, exactly that block is freed in its map, and no other map
changes. -/
theorem free_exact (procs m : Nat) (s : State) (h : Reach procs m s) (hF : Fresh procs s)
    (p j i : Nat) (hp : p < procs) (c : Coll) (sl : Slot) (hj : s.colls[j]? = some c)
    (hi : c.slots[i]? = some (some sl)) (b : Block) (hb : b ∈ s.live j i) :
    ∃ m' privs', Mmap.free sl.map b.handle = some m' ∧
      freeAll p (sl.base p + b.handle) s.colls (s.privs p) = .done
        (s.colls.set j { c with slots := c.slots.set i (some { sl with map := m' }) }) privs' true := by
  obtain ⟨k, hk⟩ := List.mem_iff_getElem?.mp hb
  obtain ⟨m', _, privs', h1, _, _, h2, _⟩ := free_ok (reach_inv h) hF hp hj hi hk
  exact ⟨m', privs', h1, h2⟩

/-- **C120**: no allocation and no maintenance aborts the program. -/
theorem no_abort (procs m : Nat) (s : State) (h : Reach procs m s) :
    (∀ (j n minSize : Nat) (sys : Option (Nat → Nat)) (c : Coll), 0 < n → n + 8 < 2 ^ 64 →
      s.colls[j]? = some c → allocate c n minSize sys ≠ none) ∧ maintainAll s.colls ≠ none := by
  have hI := reach_inv h
  refine ⟨fun j n minSize sys c hn hn2 hj => ?_, ?_⟩
  · obtain ⟨_, _, _, h1, _⟩ := allocate_ok hn hn2 minSize sys (hI.colls j c hj)
    rw [h1]
    exact Option.some_ne_none _
  · obtain ⟨_, h1, _⟩ := maintainAll_ok (live := s.live) (cs := s.colls) (k := 0)
      (fun j c h => by rw [Nat.zero_add]; exact hI.colls j c h)
    rw [h1]
    exact Option.some_ne_none _

/-- **C120**: a map in which blocks are held is not removed and stays at its address in every
process, whatever is done next. -/
theorem stays (procs m : Nat) (s s' : State) (h : Reach procs m s) (hF : Fresh procs s)
    (hN : Next procs s s') (j i : Nat) (sl : Slot) (hat : At s j i sl) (hl : s.live j i ≠ []) :
    ∃ sl', At s' j i sl' ∧ sl'.base = sl.base ∧ sl'.map.heap = sl.map.heap := by
  have hI := reach_inv h
  have hI' := next_inv hI hF hN
  obtain ⟨c0, hj0, hi0⟩ := hat
  have key : s'.live j i ≠ [] → (∀ c', s'.colls[j]? = some c' → ∃ new, Eff c0 c' new ∧ ¬ new i) →
      ∃ sl', At s' j i sl' ∧ sl'.base = sl.base ∧ sl'.map.heap = sl.map.heap := by
    intro hl' he
    cases hj' : s'.colls[j]? with
    | none => exact absurd (hI'.outside j hj' i) hl'
    | some c' =>
      obtain ⟨new, hE, hnew⟩ := he c' hj'
      have hs := (hI'.colls j c' hj').slots i
      cases hi' : c'.slots[i]? with
      | none => rw [hi'] at hs; exact absurd hs hl'
      | some o =>
        cases o with
        | none => rw [hi'] at hs; exact absurd hs hl'
        | some sl' =>
          rcases hE.from_ i sl' hi' with hn | ⟨sl0, h0, hb, hh⟩
          · exact absurd hn hnew
          · rw [hi0] at h0
            cases h0
            exact ⟨sl', ⟨c', hj', hi'⟩, hb.symm, hh.symm⟩
  cases hN with
  | @alloc c c' j1 n minSize sys r new hn hn2 hj ha hsys =>
    obtain ⟨c2, r2, new2, h1, _, h3, h4⟩ := allocate_ok hn hn2 minSize sys (hI.colls j1 c hj)
    rw [ha] at h1
    cases h1
    refine key ?_ fun x hx => ?_
    · show gained s.live j1 n r j i ≠ []
      by_cases hjj : j = j1
      · subst hjj
        rw [gained_after]
        unfold after
        cases r with
        | none => exact hl
        | some y =>
          simp only
          split
          · exact List.cons_ne_nil _ _
          · exact hl
      · rw [gained_ne hjj]; exact hl
    · rcases getElem?_set_cases hx with ⟨rfl, rfl⟩ | ⟨_, hx⟩
      · rw [hj] at hj0
        cases hj0
        exact ⟨_, h3, fun e => hl (h4 i e)⟩
      · rw [hj0] at hx
        cases hx
        exact ⟨fun _ => False, Eff.same rfl rfl _, id⟩
  | @free p j1 i1 k sl1 b colls privs ok hp hat1 hb hf =>
    obtain ⟨c, hj, hi⟩ := hat1
    obtain ⟨m', bs', privs', _, hheap, hM, h1, _, _⟩ := free_ok hI hF hp hj hi hb
    rw [h1] at hf
    cases hf
    obtain ⟨hlj, _⟩ := List.getElem?_eq_some_iff.mp hj
    by_cases hjj : j = j1
    · subst hjj
      rw [hj] at hj0
      cases hj0
      obtain ⟨hli, _⟩ := List.getElem?_eq_some_iff.mp hi
      by_cases hii : i = i1
      · subst hii
        rw [hi] at hi0
        cases hi0
        exact ⟨_, ⟨_, List.getElem?_set_self hlj, List.getElem?_set_self hli⟩, rfl, hheap⟩
      · refine ⟨sl, ⟨_, List.getElem?_set_self hlj, ?_⟩, rfl, rfl⟩
        simp only
        rw [List.getElem?_set_ne (fun e => hii e.symm)]
        exact hi0
    · refine ⟨sl, ⟨c0, ?_, hi0⟩, rfl, rfl⟩
      show (s.colls.set j1 _)[j]? = _
      rw [List.getElem?_set_ne (fun e => hjj e.symm)]
      exact hj0
  | @write j1 i1 k off v c sl1 b hj hi hb hoff =>
    obtain ⟨hlj, _⟩ := List.getElem?_eq_some_iff.mp hj
    by_cases hjj : j = j1
    · subst hjj
      rw [hj] at hj0
      cases hj0
      obtain ⟨hli, _⟩ := List.getElem?_eq_some_iff.mp hi
      by_cases hii : i = i1
      · subst hii
        rw [hi] at hi0
        cases hi0
        exact ⟨_, ⟨_, List.getElem?_set_self hlj, List.getElem?_set_self hli⟩, rfl, rfl⟩
      · refine ⟨sl, ⟨_, List.getElem?_set_self hlj, ?_⟩, rfl, rfl⟩
        simp only
        rw [List.getElem?_set_ne (fun e => hii e.symm)]
        exact hi0
    · refine ⟨sl, ⟨c0, ?_, hi0⟩, rfl, rfl⟩
      show (s.colls.set j1 _)[j]? = _
      rw [List.getElem?_set_ne (fun e => hjj e.symm)]
      exact hj0
  | @maintain colls hm =>
    obtain ⟨cs', h1, _, h3⟩ := maintainAll_ok (live := s.live) (cs := s.colls) (k := 0)
      (fun j c h => by rw [Nat.zero_add]; exact hI.colls j c h)
    rw [hm] at h1
    cases h1
    refine key hl fun x hx => ?_
    obtain ⟨c, hc, _, he⟩ := h3 j x hx
    rw [hj0] at hc
    cases hc
    exact ⟨_, he, id⟩

/-- **C120**, the limit: a table which is exactly 2^32 changes behind is taken to be new, so that
addresses are looked up among maps which may be gone. -/
theorem table_wraps (p : Nat) (c : Coll) (pv : Priv) (h : c.version = pv.version + 2 ^ 32) :
    refresh p c pv = pv := by
  unfold refresh
  rw [if_pos (by omega)]

/-- A state with a block is reached by two processes: the premises above are met. -/
theorem first_block : ∃ s, Reach 2 1 s ∧ Fresh 2 s ∧
    (s.live 0 0).map (fun b => (b.handle, b.size)) = [(520, 10)] := by
  have hI := start_inv 2 1
  have hj : (start 1).colls[0]? = some newColl := rfl
  obtain ⟨c', r, new, ha, hc, he, _⟩ := allocate_ok (c := newColl) (lv := fun _ => []) (n := 10)
    (by omega) (by omega) 0 (some fun p => 4096 + 65536 * p) (hI.colls 0 newColl hj)
  have hev : (allocate newColl 10 0 (some fun p => 4096 + 65536 * p)).map
      (fun x => (x.2, x.1.version)) = some ((some (0, 520), some 0), 2 ^ 32 + 1) := by decide +kernel
  rw [ha] at hev
  simp only [Option.map_some, Option.some.injEq, Prod.mk.injEq] at hev
  obtain ⟨⟨hr, hnew⟩, hver⟩ := hev
  subst hr
  subst hnew
  have hslot : ∀ (i : Nat) (o : Option Slot), newColl.slots[i]? = some o → o = none := by
    intro i o h
    exact (List.mem_replicate.mp (List.mem_of_getElem? h)).2
  have hfresh : ∀ v, v ≤ 2 ^ 32 + 1 → ∀ (s : State), s.colls = [{ c' with version := v }] ∨
      s.colls = [newColl] → s.privs = (start 1).privs → Fresh 2 s := by
    intro v hv s hs hpr p _ j c pv hcj hpv
    rw [hpr] at hpv
    have hpv' : pv = newPriv newColl := (List.mem_replicate.mp (List.mem_of_getElem? hpv)).2
    have h1 : pv.version = 2 ^ 32 - 1 := by rw [hpv']; rfl
    rw [h1]
    rcases hs with hs | hs
    · rw [hs] at hcj
      have := List.mem_singleton.mp (List.mem_of_getElem? hcj)
      rw [this]
      show v < _
      omega
    · rw [hs] at hcj
      have := List.mem_singleton.mp (List.mem_of_getElem? hcj)
      rw [this]
      show 2 ^ 32 < _
      omega
  refine ⟨_, .next .start (hfresh 0 (by omega) _ (Or.inr rfl) rfl)
    (.alloc (j := 0) (by omega) (by omega) hj ha ?_), ?_, rfl⟩
  · rintro i sl hi hsl p hp j' i' sl' ⟨x, hx, hxs⟩ hne
    rcases getElem?_set_cases hx with ⟨rfl, rfl⟩ | ⟨hj', hx⟩
    · rcases he.from_ i' sl' hxs with h | ⟨sl0, h, _⟩
      · cases hi; cases h; exact absurd rfl hne
      · cases hslot i' _ h
    · have : j' < 1 := (List.getElem?_eq_some_iff.mp hx).1
      omega
  · refine hfresh c'.version (by omega) _ (Or.inl rfl) rfl

/-- Three blocks, of which the second needs a map of its own. -/
example : ((allocate newColl 10 0 (some fun _ => 4096)).bind fun x =>
      (allocate x.1 5000 0 (some fun _ => 65536)).bind fun y =>
        (allocate y.1 10 0 none).map fun z => ([x.2.1, y.2.1, z.2.1], [x.2.2, y.2.2, z.2.2], z.1.count, z.1.version)) =
    some ([some (0, 520), some (1, 520), some (0, 552)], [some 0, some 1, none], 2, 2 ^ 32 + 2) := by
  decide +kernel

/-- The second block is freed by its address, after which its map is removed by the tenth
maintenance. -/
example : ((allocate newColl 10 0 (some fun _ => 4096)).bind fun x =>
      (allocate x.1 5000 0 (some fun _ => 65536)).bind fun y =>
        match freeAll 0 (65536 + 520) [y.1] [newPriv newColl] with
        | .done [c] [pv] ok => ((List.range 9).foldlM (fun c _ => maintain c) c).bind fun c9 =>
          (maintain c9).map fun c10 => (ok, pv.version, c9.count, c10.count, c10.version)
        | _ => none) =
    some (true, 2 ^ 32 + 2, 2, 1, 2 ^ 32 + 3) := by
  decide +kernel

end Verif.MmapColl
