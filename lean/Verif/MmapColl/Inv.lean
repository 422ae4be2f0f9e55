import Verif.MmapColl.Lemmas
/-! The invariant of the collections of memory maps and of the tables of the processes. -/
namespace Verif.MmapColl
open Verif Verif.MmapColl.Spec
open Verif.Mmap.Spec (Block Apart)

/-- A table is not newer than the collection, and right when it is as new. -/
def TableOk (p : Nat) (c : Coll) (pv : Priv) : Prop :=
  pv.version ≤ c.version ∧
  (pv.version = c.version → pv.minmax.take c.count = regions p c.slots 0)

structure Inv (procs : Nat) (s : State) : Prop where
  colls : ∀ (j : Nat) (c : Coll), s.colls[j]? = some c → CollOk c (s.live j)
  outside : ∀ j, s.colls[j]? = none → ∀ i, s.live j i = []
  disj : ∀ p, p < procs → ∀ (j i j' i' : Nat) (sl sl' : Slot), At s j i sl → At s j' i' sl' →
    (j, i) ≠ (j', i') → Apart (sl.base p) sl.map.heap (sl'.base p) sl'.map.heap
  length : ∀ p, p < procs → (s.privs p).length = s.colls.length
  tables : ∀ p, p < procs → ∀ (j : Nat) (c : Coll) (pv : Priv), s.colls[j]? = some c →
    (s.privs p)[j]? = some pv → TableOk p c pv

theorem apart_symm {a n b k : Nat} (h : Apart a n b k) : Apart b k a n := Or.symm h

/-- A step keeps the invariant when it keeps each collection in order. -/
theorem inv_of {procs : Nat} {s s' : State} (new : Nat → Nat → Prop) (hI : Inv procs s)
    (hlen : s'.colls.length = s.colls.length)
    (hcolls : ∀ (j : Nat) (c' : Coll), s'.colls[j]? = some c' → ∃ c, s.colls[j]? = some c ∧
      CollOk c' (s'.live j) ∧ Eff c c' (new j))
    (hout : ∀ j, s.colls[j]? = none → ∀ i, s'.live j i = s.live j i)
    (hsys : ∀ p, p < procs → ∀ (j i j' i' : Nat) (sl sl' : Slot), new j i → At s' j i sl →
      At s' j' i' sl' → (j', i') ≠ (j, i) → Apart (sl.base p) sl.map.heap (sl'.base p) sl'.map.heap)
    (hplen : ∀ p, p < procs → (s'.privs p).length = (s.privs p).length)
    (hprivs : ∀ p, p < procs → ∀ (j : Nat) (c' : Coll) (pv' : Priv), s'.colls[j]? = some c' →
      (s'.privs p)[j]? = some pv' →
      (s.privs p)[j]? = some pv' ∨ TableOk p c' pv') :
    Inv procs s' := by
  refine ⟨fun j c' h => ?_, fun j h i => ?_, ?_, fun p hp => ?_, ?_⟩
  · obtain ⟨c, _, h2, _⟩ := hcolls j c' h
    exact h2
  · have h' : s.colls[j]? = none := by
      rw [List.getElem?_eq_none_iff] at h ⊢
      omega
    rw [hout j h' i]
    exact hI.outside j h' i
  · intro p hp j i j' i' sl sl' h1 h2 hne
    by_cases hn1 : new j i
    · exact hsys p hp j i j' i' sl sl' hn1 h1 h2 (fun e => hne e.symm)
    · by_cases hn2 : new j' i'
      · exact apart_symm (hsys p hp j' i' j i sl' sl hn2 h2 h1 hne)
      · have back : ∀ j i sl, ¬ new j i → At s' j i sl → ∃ sl0, At s j i sl0 ∧ sl0.base = sl.base ∧
            sl0.map.heap = sl.map.heap := by
          rintro j i sl hn ⟨c', hc', hs⟩
          obtain ⟨c, hc, _, he⟩ := hcolls j c' hc'
          rcases he.from_ i sl hs with h | ⟨sl0, h, hb, hh⟩
          · exact absurd h hn
          · exact ⟨sl0, ⟨c, hc, h⟩, hb, hh⟩
        obtain ⟨a, ha, hab, hah⟩ := back j i sl hn1 h1
        obtain ⟨b, hb, hbb, hbh⟩ := back j' i' sl' hn2 h2
        have := hI.disj p hp j i j' i' a b ha hb hne
        rw [hab, hah, hbb, hbh] at this
        exact this
  · rw [hplen p hp, hI.length p hp, hlen]
  · intro p hp j c' pv' hc' hpv'
    obtain ⟨c, hc, hok', he⟩ := hcolls j c' hc'
    rcases hprivs p hp j c' pv' hc' hpv' with h | h
    · obtain ⟨hv, ht⟩ := hI.tables p hp j c pv' hc h
      refine ⟨Nat.le_trans hv he.version, fun heq => ?_⟩
      have h1 := he.version
      have hvv : c'.version = c.version := by omega
      have hsh := he.kept hvv
      have hcnt : c'.count = c.count := by
        rw [hok'.count, (hI.colls j c hc).count, shape_count hsh]
      rw [hcnt, ht (by omega), shape_regions p 0 hsh]
    · exact h

theorem refresh_ok {p : Nat} {c : Coll} {pv : Priv} {lv : Nat → List Block} (hc : CollOk c lv)
    (ht : TableOk p c pv) (hf : c.version < pv.version + 2 ^ 32) :
    (refresh p c pv).minmax.take c.count = regions p c.slots 0 ∧
      (refresh p c pv).version = c.version := by
  obtain ⟨h1, h2⟩ := ht
  unfold refresh
  by_cases hm : pv.version % 2 ^ 32 = c.version % 2 ^ 32
  · rw [if_pos hm]
    have : pv.version = c.version := by omega
    exact ⟨h2 this, this⟩
  · rw [if_neg hm]
    refine ⟨?_, rfl⟩
    have hl : (regions p c.slots 0).length = c.count := by rw [regions_length, hc.count]
    simp only
    rw [← hl, List.take_length, List.take_left]

theorem search_hit {p : Nat} {c : Coll} {pv : Priv} {ptr i : Nat} {sl : Slot}
    (ht : pv.minmax.take c.count = regions p c.slots 0) (hi : c.slots[i]? = some (some sl))
    (h1 : sl.base p ≤ ptr) (h2 : ptr < sl.base p + sl.map.heap)
    (huniq : ∀ i' sl', c.slots[i']? = some (some sl') → i' ≠ i →
      ¬ (sl'.base p ≤ ptr ∧ ptr < sl'.base p + sl'.map.heap)) :
    search c pv ptr = some i := by
  unfold search
  rw [ht]
  have hmem : (⟨sl.base p, sl.base p + sl.map.heap, 0 + i⟩ : MinMax) ∈ regions p c.slots 0 :=
    regions_mem.mpr ⟨i, sl, hi, rfl⟩
  cases hf : (regions p c.slots 0).find? fun e => decide (e.low ≤ ptr) && decide (ptr < e.high) with
  | none =>
    have := List.find?_eq_none.mp hf _ hmem
    simp [h1, h2] at this
  | some e =>
    have hp := List.find?_some hf
    obtain ⟨i', sl', hi', rfl⟩ := regions_mem.mp (List.mem_of_find?_eq_some hf)
    simp only [Bool.and_eq_true, decide_eq_true_eq] at hp
    by_cases hii : i' = i
    · rw [hii]; simp
    · exact absurd hp (huniq i' sl' hi' hii)

theorem search_miss {p : Nat} {c : Coll} {pv : Priv} {ptr : Nat}
    (ht : pv.minmax.take c.count = regions p c.slots 0)
    (hno : ∀ (i' : Nat) (sl' : Slot), c.slots[i']? = some (some sl') →
      ¬ (sl'.base p ≤ ptr ∧ ptr < sl'.base p + sl'.map.heap)) :
    search c pv ptr = none := by
  unfold search
  rw [ht, Option.map_eq_none_iff, List.find?_eq_none]
  intro e he
  obtain ⟨i', sl', hi', rfl⟩ := regions_mem.mp he
  have := hno i' sl' hi'
  simp only [Bool.and_eq_true, decide_eq_true_eq]
  exact this

/-- What freeing by address does. -/
theorem freeAll_ok {p ptr : Nat} {m : Mmap.Map} : ∀ {cs : List Coll} {pvs : List Priv} {j0 i0 : Nat}
    {c0 : Coll} {sl0 : Slot}, pvs.length = cs.length →
    (∀ (j : Nat) (c : Coll), cs[j]? = some c → ∃ lv, CollOk c lv) →
    (∀ (j : Nat) (c : Coll) (pv : Priv), cs[j]? = some c → pvs[j]? = some pv →
      TableOk p c pv ∧ c.version < pv.version + 2 ^ 32) →
    cs[j0]? = some c0 → c0.slots[i0]? = some (some sl0) →
    sl0.base p ≤ ptr → ptr < sl0.base p + sl0.map.heap →
    (∀ (j i : Nat) (c : Coll) (sl : Slot), cs[j]? = some c → c.slots[i]? = some (some sl) →
      (j, i) ≠ (j0, i0) → ¬ (sl.base p ≤ ptr ∧ ptr < sl.base p + sl.map.heap)) →
    Mmap.free sl0.map (ptr - sl0.base p) = some m →
    ∃ pvs', freeAll p ptr cs pvs = .done
        (cs.set j0 { c0 with slots := c0.slots.set i0 (some { sl0 with map := m }) }) pvs' true ∧
      pvs'.length = pvs.length ∧
      ∀ (j : Nat) (c : Coll) (pv' : Priv), cs[j]? = some c → pvs'[j]? = some pv' →
        pvs[j]? = some pv' ∨
        (pv'.version = c.version ∧ pv'.minmax.take c.count = regions p c.slots 0) := by
  intro cs
  induction cs with
  | nil => intro pvs j0 i0 c0 sl0 _ _ _ h; simp at h
  | cons c cs ih =>
    intro pvs j0 i0 c0 sl0 hlen hok htab hj0 hi0 h1 h2 huniq hm
    cases pvs with
    | nil => simp at hlen
    | cons pv pvs =>
      obtain ⟨lv, hc⟩ := hok 0 c rfl
      obtain ⟨ht, hf⟩ := htab 0 c pv rfl rfl
      obtain ⟨hr1, hr2⟩ := refresh_ok hc ht hf
      cases j0 with
      | zero =>
        simp only [List.getElem?_cons_zero, Option.some.injEq] at hj0
        subst hj0
        have hcount : c.count ≠ 0 := by
          rw [hc.count]
          have : 0 < c.slots.countP Option.isSome :=
            List.countP_pos_iff.mpr ⟨some sl0, List.mem_of_getElem? hi0, rfl⟩
          omega
        have hs := search_hit hr1 hi0 h1 h2 (fun i' sl' hi' hne =>
          huniq 0 i' c sl' rfl hi' (fun e => hne (Prod.mk.inj e).2))
        refine ⟨refresh p c pv :: pvs, ?_, rfl, fun j c' pv' hcj hpj => ?_⟩
        · simp only [freeAll, freeIn, hs, hi0, hm]
          rw [if_neg hcount]
          simp
        · cases j with
          | zero =>
            simp only [List.getElem?_cons_zero, Option.some.injEq] at hcj hpj
            subst hcj; subst hpj
            exact Or.inr ⟨hr2, hr1⟩
          | succ j => exact Or.inl (by simpa using hpj)
      | succ j0 =>
        have hrec := @ih pvs j0 i0 c0 sl0 (by simpa using hlen)
          (fun j c' h => hok (j + 1) c' (by simpa using h))
          (fun j c' pv' h h' => htab (j + 1) c' pv' (by simpa using h) (by simpa using h'))
          (by simpa using hj0) hi0 h1 h2
          (fun j i c' sl hcj hsl hne => huniq (j + 1) i c' sl (by simpa using hcj) hsl (fun e => hne (by
            have := Prod.mk.inj e
            rw [this.2, show j = j0 by omega]))) hm
        obtain ⟨pvs', hd, hl, hall⟩ := hrec
        have hmiss : ∃ pv1, freeIn p ptr c pv = some (c, pv1, false) ∧
            (pv1 = pv ∨ pv1 = refresh p c pv) := by
          unfold freeIn
          by_cases h0 : c.count = 0
          · rw [if_pos h0]; exact ⟨pv, rfl, Or.inl rfl⟩
          · rw [if_neg h0]
            have hs := search_miss hr1 (ptr := ptr) (fun i' sl' hi' =>
              huniq 0 i' c sl' rfl hi' (fun e => by have := (Prod.mk.inj e).1; omega))
            simp only [hs]
            exact ⟨_, rfl, Or.inr rfl⟩
        obtain ⟨pv1, hin, hpv1⟩ := hmiss
        refine ⟨pv1 :: pvs', ?_, by simp [hl], fun j c' pv' hcj hpj => ?_⟩
        · simp only [freeAll, hin, hd]
          simp
        · cases j with
          | zero =>
            simp only [List.getElem?_cons_zero, Option.some.injEq] at hcj hpj
            subst hcj; subst hpj
            rcases hpv1 with h | h
            · exact Or.inl (by rw [h]; rfl)
            · exact Or.inr (by rw [h]; exact ⟨hr2, hr1⟩)
          | succ j =>
            have := hall j c' pv' (by simpa using hcj) (by simpa using hpj)
            simpa using this

theorem maintainAll_ok {live : Nat → Nat → List Block} : ∀ {cs : List Coll} {k : Nat},
    (∀ (j : Nat) (c : Coll), cs[j]? = some c → CollOk c (live (k + j))) →
    ∃ cs', maintainAll cs = some cs' ∧ cs'.length = cs.length ∧
      ∀ (j : Nat) (c' : Coll), cs'[j]? = some c' → ∃ c, cs[j]? = some c ∧ CollOk c' (live (k + j)) ∧
        Eff c c' (fun _ => False) := by
  intro cs
  induction cs with
  | nil => intro k _; exact ⟨[], rfl, rfl, fun j c' h => by simp at h⟩
  | cons c cs ih =>
    intro k h
    obtain ⟨c', h1, h2, h3⟩ := maintain_ok (h 0 c rfl)
    obtain ⟨cs', h4, h5, h6⟩ := @ih (k + 1) (fun j x hx => by
      have := h (j + 1) x (by simpa using hx)
      rw [show k + (j + 1) = k + 1 + j by omega] at this
      exact this)
    refine ⟨c' :: cs', by simp only [maintainAll, h1, h4], by simp [h5], fun j x hx => ?_⟩
    cases j with
    | zero =>
      simp only [List.getElem?_cons_zero, Option.some.injEq] at hx
      subst hx
      exact ⟨c, rfl, h2, h3⟩
    | succ j =>
      obtain ⟨y, hy1, hy2⟩ := h6 j x (by simpa using hx)
      refine ⟨y, by simpa using hy1, ?_⟩
      rw [show k + (j + 1) = k + 1 + j by omega]
      exact hy2

/-- Changing a map without changing where it is keeps a collection in order. -/
theorem coll_set_ok {c : Coll} {lv lv' : Nat → List Block} {i : Nat} {sl : Slot} {m : Mmap.Map}
    {bs : List (List Mmap.Ent)} (hc : CollOk c lv) (hi : c.slots[i]? = some (some sl))
    (hh : m.heap = sl.map.heap) (hI : Mmap.Inv ⟨m, lv' i⟩ bs) (he : ∀ k, k ≠ i → lv' k = lv k)
    (new : Nat → Prop) :
    CollOk { c with slots := c.slots.set i (some { sl with map := m }) } lv' ∧
      Eff c { c with slots := c.slots.set i (some { sl with map := m }) } new := by
  have hsh : shape (c.slots.set i (some { sl with map := m })) = shape c.slots := by
    obtain ⟨l1, l2, hl, rfl⟩ := Mmap.split_at hi
    rw [hl, List.set_append_right _ _ (Nat.le_refl _), Nat.sub_self]
    unfold shape
    simp [hh]
  refine ⟨⟨slotOk_set hi hc.slots ⟨bs, hI⟩ he, ?_⟩,
    Eff.same (c := c) (c' := { c with slots := c.slots.set i (some { sl with map := m }) }) rfl hsh new⟩
  show c.count = _
  rw [hc.count]
  exact (shape_count hsh).symm

theorem start_inv (procs m : Nat) : Inv procs (start m) := by
  have hrep : ∀ (j : Nat) (c : Coll), (List.replicate m newColl)[j]? = some c → c = newColl := by
    intro j c h
    exact (List.mem_replicate.mp (List.mem_of_getElem? h)).2
  have hslot : ∀ (i : Nat) (o : Option Slot), newColl.slots[i]? = some o → o = none := by
    intro i o h
    exact (List.mem_replicate.mp (List.mem_of_getElem? h)).2
  refine ⟨fun j c h => ?_, fun _ _ _ => rfl, ?_, fun p _ => ?_, ?_⟩
  · rw [hrep j c h]
    refine ⟨fun i => ?_, rfl⟩
    cases hx : newColl.slots[i]? with
    | none => exact rfl
    | some o => rw [hslot i o hx]; exact rfl
  · rintro p _ j i j' i' sl sl' ⟨c, h, hi⟩
    rw [hrep j c h] at hi
    cases hslot i _ hi
  · simp [start]
  · intro p _ j c pv hc hpv
    have hc' := hrep j c hc
    have hpv' : pv = newPriv newColl := (List.mem_replicate.mp (List.mem_of_getElem? hpv)).2
    rw [hc', hpv']
    refine ⟨Nat.sub_le _ _, fun h => ?_⟩
    have : (2 ^ 32 - 1 : Nat) = 2 ^ 32 := h
    omega

/-- The free of a held block: it is found, and no other block is touched. -/
theorem free_ok {procs p j i k : Nat} {s : State} {c : Coll} {sl : Slot} {b : Block}
    (hI : Inv procs s) (hF : Fresh procs s) (hp : p < procs) (hj : s.colls[j]? = some c)
    (hi : c.slots[i]? = some (some sl)) (hb : (s.live j i)[k]? = some b) :
    ∃ m bs' privs', Mmap.free sl.map b.handle = some m ∧ m.heap = sl.map.heap ∧
      Mmap.Inv ⟨m, (s.live j i).eraseIdx k⟩ bs' ∧
      freeAll p (sl.base p + b.handle) s.colls (s.privs p) = .done
        (s.colls.set j { c with slots := c.slots.set i (some { sl with map := m }) }) privs' true ∧
      privs'.length = (s.privs p).length ∧
      ∀ (j : Nat) (c : Coll) (pv' : Priv), s.colls[j]? = some c → privs'[j]? = some pv' →
        (s.privs p)[j]? = some pv' ∨
        (pv'.version = c.version ∧ pv'.minmax.take c.count = regions p c.slots 0) := by
  have hslot := (hI.colls j c hj).slots i
  rw [hi] at hslot
  obtain ⟨bs, hM⟩ := hslot
  obtain ⟨s', bs', hstep, hM', _⟩ := Mmap.step_inv (.free k) trivial hM
  have hbm : b ∈ s.live j i := List.mem_of_getElem? hb
  obtain ⟨sz, hsz, hroom⟩ := hM.room b hbm
  obtain ⟨m, _, _, _, hfree, ⟨hheap, _⟩, _⟩ := Mmap.free_spec hM.chain hM.prev hsz
  have hfree' : Mmap.free sl.map b.handle = some m := hfree
  simp only [Mmap.Spec.step, hb, hfree'] at hstep
  have hins : b.handle + b.size ≤ sl.map.heap := (Mmap.inv_sound hM).inside b hbm
  have hlt : b.handle < sl.map.heap := by
    have h3 := (Mmap.liveChain_bound hsz).2.1
    have h4 := (Mmap.chain_end hM.chain).1
    have h5 : Mmap.endOf 0 bs ≤ sl.map.heap := h4
    simp only at h3
    omega
  obtain ⟨privs', h1, h2, h3⟩ := @freeAll_ok p (sl.base p + b.handle) m s.colls (s.privs p) j i c sl
    (hI.length p hp) (fun j c h => ⟨_, hI.colls j c h⟩)
    (fun j c pv h h' => ⟨hI.tables p hp j c pv h h', hF p hp j c pv h h'⟩) hj hi
    (Nat.le_add_right _ _) (by omega)
    (fun j' i' c' sl' hc' hs' hne hin => by
      have := hI.disj p hp j' i' j i sl' sl ⟨c', hc', hs'⟩ ⟨c, hj, hi⟩ hne
      unfold Apart at this
      omega)
    (by rw [Nat.add_sub_cancel_left]; exact hfree)
  cases hstep
  exact ⟨m, bs', privs', hfree', hheap, hM', h1, h2, h3⟩

theorem update_same {live : Nat → Nat → List Block} {j i : Nat} {l : List Block} :
    update live j i l j i = l := if_pos ⟨rfl, rfl⟩

theorem update_ne {live : Nat → Nat → List Block} {j i j' i' : Nat} {l : List Block}
    (h : ¬ (j' = j ∧ i' = i)) : update live j i l j' i' = live j' i' := if_neg h

theorem set_cases {s : State} {j : Nat} {c c' : Coll} {live' : Nat → Nat → List Block}
    {newi : Nat → Prop} {procs : Nat} (hI : Inv procs s) (hj : s.colls[j]? = some c)
    (hok : CollOk c' (live' j)) (he : Eff c c' newi)
    (hl : ∀ j', j' ≠ j → live' j' = s.live j') :
    ∀ (j' : Nat) (x : Coll), (s.colls.set j c')[j']? = some x → ∃ c0, s.colls[j']? = some c0 ∧
      CollOk x (live' j') ∧ Eff c0 x (fun k => j' = j ∧ newi k) := by
  intro j' x hx
  rcases getElem?_set_cases hx with ⟨rfl, rfl⟩ | ⟨hne, hx⟩
  · exact ⟨c, hj, hok, ⟨he.version, he.kept, fun i sl' h => (he.from_ i sl' h).imp (fun h => ⟨rfl, h⟩) id⟩⟩
  · refine ⟨x, hx, ?_, Eff.same rfl rfl _⟩
    rw [hl j' hne]
    exact hI.colls j' x hx

theorem gained_after {live : Nat → Nat → List Block} {j n : Nat} {r : Option (Nat × Nat)} :
    gained live j n r j = after (live j) n r := by
  funext i
  cases r with
  | none => rfl
  | some x =>
    obtain ⟨i', h⟩ := x
    simp only [gained, after, update]
    by_cases hi : i = i'
    · subst hi; simp
    · simp [hi]

theorem gained_ne {live : Nat → Nat → List Block} {j j' n : Nat} {r : Option (Nat × Nat)}
    (h : j' ≠ j) : gained live j n r j' = live j' := by
  funext i
  cases r with
  | none => rfl
  | some x =>
    obtain ⟨i', y⟩ := x
    simp only [gained, update]
    rw [if_neg (fun e => h e.1)]

theorem next_inv {procs : Nat} {s s' : State} (hI : Inv procs s) (hF : Fresh procs s)
    (hN : Next procs s s') : Inv procs s' := by
  cases hN with
  | @alloc c c' j n minSize sys r new hn hn2 hj ha hsys =>
    obtain ⟨c2, r2, new2, h1, h2, h3, _⟩ := allocate_ok hn hn2 minSize sys (hI.colls j c hj)
    rw [ha] at h1
    cases h1
    rw [← gained_after] at h2
    refine inv_of (fun j' k => j' = j ∧ new = some k) hI (by simp)
      (set_cases hI hj h2 h3 (fun j' hne => gained_ne hne)) (fun j' hj' i => ?_) ?_ (fun _ _ => rfl)
      (fun _ _ _ _ _ _ h => Or.inl h)
    · by_cases hne : j' = j
      · rw [hne, hj] at hj'; cases hj'
      · show gained s.live j n r j' i = _
        rw [gained_ne hne]
    · rintro p hp j1 i1 j2 i2 sl sl' ⟨rfl, hnew⟩ ⟨x, hx, hxs⟩ hat hne
      rcases getElem?_set_cases hx with ⟨_, rfl⟩ | ⟨hne', _⟩
      · exact hsys i1 sl hnew hxs p hp j2 i2 sl' hat hne
      · exact absurd rfl hne'
  | @free p j i k sl b colls privs ok hp hat hb hf =>
    obtain ⟨c, hj, hi⟩ := hat
    obtain ⟨m, bs', privs', _, hheap, hM, h1, h2, h3⟩ := free_ok hI hF hp hj hi hb
    rw [h1] at hf
    cases hf
    obtain ⟨hok, he⟩ := coll_set_ok (lv' := update s.live j i ((s.live j i).eraseIdx k) j)
      (hI.colls j c hj) hi hheap (by rw [update_same]; exact hM)
      (fun k hk => update_ne (fun e => hk e.2)) (fun _ => False)
    refine inv_of (fun j' k => j' = j ∧ False) hI (by simp)
      (set_cases hI hj hok he (fun j' hne => ?_)) (fun j' hj' i' => ?_)
      (fun _ _ _ _ _ _ _ _ h => h.2.elim) (fun q hq => ?_) (fun q hq j' c' pv' hc' hpv' => ?_)
    · funext i'
      exact update_ne (fun e => hne e.1)
    · exact update_ne (fun e => by rw [e.1, hj] at hj'; cases hj')
    · show (if q = p then privs else s.privs q).length = _
      by_cases hqp : q = p
      · rw [if_pos hqp, h2, hqp]
      · rw [if_neg hqp]
    · have hpv2 : (if q = p then privs else s.privs q)[j']? = some pv' := hpv'
      by_cases hqp : q = p
      · subst hqp
        rw [if_pos rfl] at hpv2
        rcases getElem?_set_cases hc' with ⟨rfl, rfl⟩ | ⟨hne, hx⟩
        · rcases h3 j' c pv' hj hpv2 with h | ⟨hv, ht⟩
          · exact Or.inl h
          · right
            refine ⟨Nat.le_of_eq hv, fun _ => ?_⟩
            show pv'.minmax.take c.count = _
            rw [ht]
            exact (shape_regions q 0 (he.kept rfl)).symm
        · rcases h3 j' c' pv' hx hpv2 with h | ⟨hv, ht⟩
          · exact Or.inl h
          · exact Or.inr ⟨Nat.le_of_eq hv, fun _ => ht⟩
      · rw [if_neg hqp] at hpv2
        exact Or.inl hpv2
  | @write j i k off v c sl b hj hi hb hoff =>
    have hslot := (hI.colls j c hj).slots i
    rw [hi] at hslot
    obtain ⟨bs, hM⟩ := hslot
    obtain ⟨s', bs', hstep, hM', _⟩ := Mmap.step_inv (.write k off v) trivial hM
    simp only [Mmap.Spec.step, hb] at hstep
    rw [if_pos hoff] at hstep
    cases hstep
    obtain ⟨hok, he⟩ := coll_set_ok (lv' := update s.live j i ((s.live j i).set k (b.put off v)) j)
      (m := { sl.map with mem := fun q => if q = b.handle + off then v else sl.map.mem q })
      (hI.colls j c hj) hi rfl (by rw [update_same]; exact hM')
      (fun k hk => update_ne (fun e => hk e.2)) (fun _ => False)
    refine inv_of (fun j' k => j' = j ∧ False) hI (by simp)
      (set_cases hI hj hok he (fun j' hne => ?_)) (fun j' hj' i' => ?_)
      (fun _ _ _ _ _ _ _ _ h => h.2.elim) (fun _ _ => rfl) (fun _ _ _ _ _ _ h => Or.inl h)
    · funext i'
      exact update_ne (fun e => hne e.1)
    · exact update_ne (fun e => by rw [e.1, hj] at hj'; cases hj')
  | @maintain colls hm =>
    obtain ⟨cs', h1, h2, h3⟩ := maintainAll_ok (live := s.live) (cs := s.colls) (k := 0)
      (fun j c h => by rw [Nat.zero_add]; exact hI.colls j c h)
    rw [hm] at h1
    cases h1
    refine inv_of (fun _ _ => False) hI h2 (fun j c' h => ?_) (fun _ _ _ => rfl)
      (fun _ _ _ _ _ _ _ _ h => h.elim) (fun _ _ => rfl) (fun _ _ _ _ _ _ h => Or.inl h)
    have := h3 j c' h
    rw [Nat.zero_add] at this
    exact this

theorem reach_inv {procs m : Nat} {s : State} (h : Reach procs m s) : Inv procs s := by
  induction h with
  | start => exact start_inv procs m
  | next _ hF hN ih => exact next_inv ih hF hN

end Verif.MmapColl
