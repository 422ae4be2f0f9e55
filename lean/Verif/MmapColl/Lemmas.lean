import Verif.MmapColl.Spec
import Verif.Mmap.Props
/-! Lemmas for collections of memory maps: one collection. -/
namespace Verif.MmapColl
open Verif Verif.MmapColl.Spec
open Verif.Mmap.Spec (Block Apart)

/-- The blocks held in a map are those of the map, and there are none where there is no map. -/
def SlotOk (o : Option (Option Slot)) (l : List Block) : Prop :=
  match o with
  | some (some sl) => ∃ bs, Mmap.Inv ⟨sl.map, l⟩ bs
  | _ => l = []

/-- Where the maps are and how large they are. -/
def shape (slots : List (Option Slot)) : List (Option ((Nat → Nat) × Nat)) :=
  slots.map (Option.map fun sl => (sl.base, sl.map.heap))

structure CollOk (c : Coll) (lv : Nat → List Block) : Prop where
  slots : ∀ i, SlotOk c.slots[i]? (lv i)
  count : c.count = c.slots.countP Option.isSome

/-- The account after an allocation. -/
def after (lv : Nat → List Block) (n : Nat) (r : Option (Nat × Nat)) : Nat → List Block := fun i =>
  match r with
  | none => lv i
  | some (i', h) => if i = i' then ⟨h, n, fun _ => none⟩ :: lv i else lv i

def addB (n : Nat) (l : List Block) : Option Nat → List Block
  | none => l
  | some h => ⟨h, n, fun _ => none⟩ :: l

theorem alloc_slot {m : Mmap.Map} {l : List Block} {bs : List (List Mmap.Ent)} {n : Nat}
    (hI : Mmap.Inv ⟨m, l⟩ bs) (hn : 0 < n) (hn2 : n + 8 < 2 ^ 64) :
    ∃ m' r, Mmap.allocate m n = .ok m' r ∧ m'.heap = m.heap ∧ ∃ bs', Mmap.Inv ⟨m', addB n l r⟩ bs' := by
  obtain ⟨s', bs', h1, h2, _⟩ := Mmap.step_inv (.alloc n) ⟨hn, hn2⟩ hI
  rcases Mmap.allocate_spec hI.low hI.high hI.chain hI.prev hn hn2 with
    ⟨m', ha, hh, _⟩ | ⟨m', h, _, _, _, _, ha, hh, _⟩
  · refine ⟨m', none, ha, hh, bs', ?_⟩
    simp only [Mmap.Spec.step] at h1
    have ha' : Mmap.allocate m n = .ok m' none := ha
    rw [ha'] at h1
    cases h1
    exact h2
  · refine ⟨m', some h, ha, hh, bs', ?_⟩
    simp only [Mmap.Spec.step] at h1
    have ha' : Mmap.allocate m n = .ok m' (some h) := ha
    rw [ha'] at h1
    cases h1
    exact h2

theorem empty_slot {m : Mmap.Map} {l : List Block} {bs : List (List Mmap.Ent)}
    (hI : Mmap.Inv ⟨m, l⟩ bs) : Mmap.isEmpty m = some l.isEmpty := by
  rw [Mmap.isEmpty_spec hI.chain]
  have h := hI.perm.length_eq
  simp only [List.length_map] at h
  congr 1
  cases l with
  | nil => cases hx : Mmap.liveChain 0 bs with
    | nil => rfl
    | cons a t => rw [hx] at h; simp at h
  | cons b t => cases hx : Mmap.liveChain 0 bs with
    | nil => rw [hx] at h; simp at h
    | cons a t => rfl

theorem shape_count {a b : List (Option Slot)} (h : shape a = shape b) :
    a.countP Option.isSome = b.countP Option.isSome := by
  have key : ∀ l : List (Option Slot), l.countP Option.isSome = (shape l).countP Option.isSome := by
    intro l
    unfold shape
    rw [List.countP_map]
    congr 1
    funext o
    cases o <;> rfl
  rw [key, key, h]

theorem shape_regions (p : Nat) : ∀ {a b : List (Option Slot)} (k : Nat), shape a = shape b →
    regions p a k = regions p b k := by
  intro a
  induction a with
  | nil =>
    intro b k h
    cases b with
    | nil => rfl
    | cons y b => cases h
  | cons x a ih =>
    intro b k h
    cases b with
    | nil => cases h
    | cons y b =>
      unfold shape at h ih
      rw [List.map_cons, List.map_cons, List.cons.injEq] at h
      have h2 := ih (k + 1) h.2
      cases x with
      | none => cases y with
        | none => simpa only [regions] using h2
        | some y => cases h.1
      | some x => cases y with
        | none => cases h.1
        | some y =>
          have h1 := h.1
          simp only [Option.map_some, Option.some.injEq, Prod.mk.injEq] at h1
          simp only [regions, h1.1, h1.2, h2]

theorem regions_mem {p : Nat} {e : MinMax} : ∀ {slots : List (Option Slot)} {k : Nat},
    e ∈ regions p slots k ↔ ∃ i sl, slots[i]? = some (some sl) ∧
      e = ⟨sl.base p, sl.base p + sl.map.heap, k + i⟩ := by
  intro slots
  induction slots with
  | nil => intro k; simp [regions]
  | cons x slots ih =>
    intro k
    cases x with
    | none =>
      simp only [regions, ih]
      constructor
      · rintro ⟨i, sl, h1, h2⟩
        exact ⟨i + 1, sl, by simpa using h1, by rw [h2]; congr 1; omega⟩
      · rintro ⟨i, sl, h1, h2⟩
        cases i with
        | zero => simp at h1
        | succ i => exact ⟨i, sl, by simpa using h1, by rw [h2]; congr 1; omega⟩
    | some x =>
      simp only [regions, List.mem_cons, ih]
      constructor
      · rintro (h | ⟨i, sl, h1, h2⟩)
        · exact ⟨0, x, rfl, h⟩
        · exact ⟨i + 1, sl, by simpa using h1, by rw [h2]; congr 1; omega⟩
      · rintro ⟨i, sl, h1, h2⟩
        cases i with
        | zero => simp at h1; subst h1; exact Or.inl h2
        | succ i => exact Or.inr ⟨i, sl, by simpa using h1, by rw [h2]; congr 1; omega⟩

theorem regions_length {p : Nat} : ∀ {slots : List (Option Slot)} {k : Nat},
    (regions p slots k).length = slots.countP Option.isSome := by
  intro slots
  induction slots with
  | nil => intro k; rfl
  | cons x slots ih =>
    intro k
    cases x with
    | none => simp [regions, ih]
    | some x => simp [regions, ih]

theorem slotOk_shift {x : Option Slot} {slots : List (Option Slot)} {lv : Nat → List Block} {k : Nat}
    (h : ∀ i, SlotOk (x :: slots)[i]? (lv (k + i))) :
    SlotOk (some x) (lv k) ∧ ∀ i, SlotOk slots[i]? (lv (k + 1 + i)) := by
  refine ⟨h 0, fun i => ?_⟩
  have := h (i + 1)
  rw [List.getElem?_cons_succ, show k + (i + 1) = k + 1 + i by omega] at this
  exact this

theorem slotOk_unshift {x : Option Slot} {slots : List (Option Slot)} {lv : Nat → List Block}
    {k : Nat} (h0 : SlotOk (some x) (lv k)) (h : ∀ i, SlotOk slots[i]? (lv (k + 1 + i))) :
    ∀ i, SlotOk (x :: slots)[i]? (lv (k + i)) := by
  intro i
  cases i with
  | zero => exact h0
  | succ i =>
    rw [List.getElem?_cons_succ, show k + (i + 1) = k + 1 + i by omega]
    exact h i

theorem after_low {lv : Nat → List Block} {n k : Nat} {r : Option (Nat × Nat)}
    (hr : ∀ i h, r = some (i, h) → k + 1 ≤ i) : after lv n r k = lv k := by
  unfold after
  cases r with
  | none => rfl
  | some x =>
    obtain ⟨i, h⟩ := x
    have := hr i h rfl
    simp only
    rw [if_neg (by omega)]

theorem tryOldLoop_ok {ab : Bool} {n : Nat} (hn : 0 < n) (hn2 : n + 8 < 2 ^ 64) :
    ∀ {slots : List (Option Slot)} {k : Nat} {lv : Nat → List Block},
    (∀ i, SlotOk slots[i]? (lv (k + i))) →
    ∃ slots' r, tryOldLoop ab n slots k = some (slots', r) ∧ shape slots' = shape slots ∧
      (∀ i h, r = some (i, h) → k ≤ i) ∧ ∀ i, SlotOk slots'[i]? (after lv n r (k + i)) := by
  intro slots
  induction slots with
  | nil =>
    intro k lv h
    exact ⟨[], none, rfl, rfl, by simp, h⟩
  | cons x slots ih =>
    intro k lv h
    obtain ⟨h0, hs⟩ := slotOk_shift h
    obtain ⟨slots', r, h1, h2, h3, h4⟩ := ih hs
    cases x with
    | none =>
      refine ⟨none :: slots', r, by simp only [tryOldLoop, h1], ?_, fun i y hy => ?_, ?_⟩
      · unfold shape at *; rw [List.map_cons, List.map_cons, h2]
      · have := h3 i y hy; omega
      · exact slotOk_unshift (by rw [after_low h3]; exact h0) h4
    | some sl =>
      obtain ⟨bs, hI⟩ := h0
      obtain ⟨m', q, ha, hh, bs', hI'⟩ := alloc_slot hI hn hn2
      cases hb : (ab || !sl.bad) with
      | false =>
        refine ⟨some sl :: slots', r, ?_, ?_, fun i y hy => ?_, ?_⟩
        · simp only [tryOldLoop, hb, h1]; rfl
        · unfold shape at *; rw [List.map_cons, List.map_cons, h2]
        · have := h3 i y hy; omega
        · exact slotOk_unshift (by rw [after_low h3]; exact ⟨bs, hI⟩) h4
      | true =>
        cases q with
        | none =>
          refine ⟨some { sl with map := m' } :: slots', r, ?_, ?_, fun i y hy => ?_, ?_⟩
          · simp only [tryOldLoop, hb, ha, h1]; rfl
          · unfold shape at *; rw [List.map_cons, List.map_cons, h2]; simp [hh]
          · have := h3 i y hy; omega
          · exact slotOk_unshift (by rw [after_low h3]; exact ⟨bs', hI'⟩) h4
        | some a =>
          refine ⟨some { sl with map := m' } :: slots, some (k, a), ?_, ?_, fun i y hy => ?_, ?_⟩
          · simp only [tryOldLoop, hb, ha]; rfl
          · unfold shape at *; rw [List.map_cons, List.map_cons]; simp [hh]
          · cases hy; omega
          · refine slotOk_unshift ?_ fun i => ?_
            · have : after lv n (some (k, a)) k = addB n (lv k) (some a) := by
                simp only [after, addB, if_true]
              rw [this]; exact ⟨bs', hI'⟩
            · have : after lv n (some (k, a)) (k + 1 + i) = lv (k + 1 + i) := by
                simp only [after]; rw [if_neg (by omega)]
              rw [this]; exact hs i

theorem tryOld_ok {ab : Bool} {n : Nat} (hn : 0 < n) (hn2 : n + 8 < 2 ^ 64) {c : Coll}
    {lv : Nat → List Block} (hc : CollOk c lv) :
    ∃ c' r, tryOld ab n c = some (c', r) ∧ shape c'.slots = shape c.slots ∧ c'.version = c.version ∧
      CollOk c' (after lv n r) := by
  unfold tryOld
  by_cases h0 : c.count > 0
  · rw [if_pos h0]
    obtain ⟨slots', r, h1, h2, _, h4⟩ := tryOldLoop_ok (ab := ab) hn hn2 (k := 0) (lv := lv)
      (fun i => by rw [Nat.zero_add]; exact hc.slots i)
    rw [h1]
    refine ⟨_, r, rfl, h2, rfl, ⟨fun i => ?_, ?_⟩⟩
    · have := h4 i
      rw [Nat.zero_add] at this
      exact this
    · show c.count = _
      rw [hc.count]
      exact (shape_count h2).symm
  · rw [if_neg h0]
    exact ⟨c, none, rfl, rfl, rfl, hc⟩

/-- What a step does to the maps of a collection. -/
structure Eff (c c' : Coll) (new : Nat → Prop) : Prop where
  version : c.version ≤ c'.version
  kept : c'.version = c.version → shape c'.slots = shape c.slots
  from_ : ∀ i sl', c'.slots[i]? = some (some sl') → new i ∨
    ∃ sl, c.slots[i]? = some (some sl) ∧ sl.base = sl'.base ∧ sl.map.heap = sl'.map.heap

theorem shape_from {a b : List (Option Slot)} (h : shape a = shape b) {i : Nat} {sl' : Slot}
    (hi : a[i]? = some (some sl')) :
    ∃ sl, b[i]? = some (some sl) ∧ sl.base = sl'.base ∧ sl.map.heap = sl'.map.heap := by
  have h1 : (shape a)[i]? = (shape b)[i]? := by rw [h]
  unfold shape at h1
  rw [List.getElem?_map, List.getElem?_map, hi] at h1
  cases hb : b[i]? with
  | none => rw [hb] at h1; cases h1
  | some o =>
    cases o with
    | none => rw [hb] at h1; cases h1
    | some sl =>
      rw [hb] at h1
      simp only [Option.map_some, Option.some.injEq, Prod.mk.injEq] at h1
      exact ⟨sl, rfl, h1.1.symm, h1.2.symm⟩

theorem Eff.same {c c' : Coll} (hv : c'.version = c.version) (h : shape c'.slots = shape c.slots)
    (new : Nat → Prop) : Eff c c' new :=
  ⟨by omega, fun _ => h, fun _ _ hi => Or.inr (shape_from h hi)⟩

theorem Eff.trans {c1 c2 c3 : Coll} {n1 n2 new : Nat → Prop} (h1 : Eff c1 c2 n1) (h2 : Eff c2 c3 n2)
    (hn1 : ∀ i, n1 i → new i) (hn2 : ∀ i, n2 i → new i) : Eff c1 c3 new := by
  refine ⟨Nat.le_trans h1.version h2.version, fun h => ?_, fun i sl' hi => ?_⟩
  · have := h1.version
    have := h2.version
    rw [h2.kept (by omega), h1.kept (by omega)]
  · rcases h2.from_ i sl' hi with h | ⟨sl, h, hb, hh⟩
    · exact Or.inl (hn2 i h)
    · rcases h1.from_ i sl h with h | ⟨sl0, h, hb0, hh0⟩
      · exact Or.inl (hn1 i h)
      · exact Or.inr ⟨sl0, h, hb0.trans hb, hh0.trans hh⟩

theorem countP_set {l : List (Option Slot)} {i : Nat} {x y : Option Slot} (h : l[i]? = some x) :
    (l.set i y).countP Option.isSome + x.isSome.toNat = l.countP Option.isSome + y.isSome.toNat := by
  obtain ⟨l1, l2, rfl, rfl⟩ := Mmap.split_at h
  rw [List.set_append_right _ _ (Nat.le_refl _), Nat.sub_self]
  simp only [List.set_cons_zero, List.countP_append, List.countP_cons]
  cases x <;> cases y <;> simp <;> omega

theorem getElem?_set_cases {α : Type} {l : List α} {i k : Nat} {x y : α}
    (h : (l.set i x)[k]? = some y) : (k = i ∧ y = x) ∨ (k ≠ i ∧ l[k]? = some y) := by
  rw [List.getElem?_set] at h
  split at h
  · rename_i hk
    split at h
    · cases h; exact Or.inl ⟨hk.symm, rfl⟩
    · cases h
  · rename_i hk
    exact Or.inr ⟨fun e => hk e.symm, h⟩

theorem slotOk_set {slots : List (Option Slot)} {lv lv' : Nat → List Block} {i : Nat}
    {x y : Option Slot} (hx : slots[i]? = some x) (hs : ∀ k, SlotOk slots[k]? (lv k))
    (hy : SlotOk (some y) (lv' i)) (he : ∀ k, k ≠ i → lv' k = lv k) :
    ∀ k, SlotOk (slots.set i y)[k]? (lv' k) := by
  intro k
  rw [List.getElem?_set]
  by_cases hk : i = k
  · subst hk
    have : i < slots.length := (List.getElem?_eq_some_iff.mp hx).1
    rw [if_pos rfl, if_pos this]
    exact hy
  · rw [if_neg hk, he k (fun e => hk e.symm)]
    exact hs k

theorem cleanup_ok {c : Coll} {lv : Nat → List Block} (hc : CollOk c lv) {i : Nat} {sl : Slot}
    (hi : c.slots[i]? = some (some sl)) (he : lv i = []) :
    CollOk (cleanup c i) lv ∧ Eff c (cleanup c i) (fun _ => False) ∧
      (cleanup c i).slots[i]? = some none := by
  have hcount := countP_set (y := none) hi
  refine ⟨⟨slotOk_set hi hc.slots he (fun _ _ => rfl), ?_⟩, ⟨Nat.le_succ _, fun h => ?_, ?_⟩, ?_⟩
  · show c.count - 1 = (c.slots.set i none).countP Option.isSome
    rw [hc.count]
    simp at hcount
    omega
  · have : c.version + 1 = c.version := h
    omega
  · intro k sl' hk
    rcases getElem?_set_cases (show (c.slots.set i none)[k]? = _ from hk) with ⟨_, h⟩ | ⟨_, h⟩
    · cases h
    · exact Or.inr ⟨sl', h, rfl, rfl⟩
  · show (c.slots.set i none)[i]? = some none
    rw [List.getElem?_set, if_pos rfl, if_pos (List.getElem?_eq_some_iff.mp hi).1]

theorem fill_ok {n minSize : Nat} {sys : Option (Nat → Nat)} (hn : 0 < n) (hn2 : n + 8 < 2 ^ 64)
    {c : Coll} {lv : Nat → List Block} (hc : CollOk c lv) {i : Nat} (hi : c.slots[i]? = some none) :
    ∃ c' r new, fill c i n minSize sys = some (c', r, new) ∧ CollOk c' (after lv n r) ∧
      Eff c c' (fun k => new = some k) ∧ ∀ k, new = some k → lv k = [] := by
  have hlv : lv i = [] := by
    have := hc.slots i
    rw [hi] at this
    exact this
  unfold fill
  cases hs : initSlot (if n > minSize then n else minSize) sys with
  | none => exact ⟨c, none, none, rfl, hc, Eff.same rfl rfl _, fun _ h => by cases h⟩
  | some sl =>
    generalize (if n > minSize then n else minSize) = size at hs
    have hsl : ∃ base, sl = { map := Mmap.init size, base := base, strikes := 0, bad := false } ∧
        0 < Mmap.heapSizeOf size ∧ Mmap.heapSizeOf size < 2 ^ 63 := by
      unfold initSlot at hs
      split at hs
      · cases hs
      · rename_i hz
        cases sys with
        | none => cases hs
        | some base =>
          simp only [Option.map_some, Option.some.injEq] at hs
          exact ⟨base, hs.symm, by omega, by omega⟩
    obtain ⟨base, rfl, hz, hz2⟩ := hsl
    have hI : Mmap.Inv ⟨Mmap.init size, []⟩ [] := Mmap.start_inv (Mmap.low_of_pos hz) hz2
    obtain ⟨m', q, ha, hh, bs', hI'⟩ := alloc_slot hI hn hn2
    simp only [ha]
    refine ⟨_, _, _, rfl, ⟨?_, ?_⟩, ⟨Nat.le_succ _, fun h => ?_, ?_⟩, fun k hk => by cases hk; exact hlv⟩
    · have hcount := @slotOk_set c.slots lv (after lv n (q.map fun h => (i, h))) i none
        (some { map := m', base := base, strikes := 0, bad := false }) hi hc.slots
      refine hcount ?_ ?_
      · refine ⟨bs', ?_⟩
        cases q with
        | none => simpa only [Option.map_none, after, hlv, addB] using hI'
        | some a =>
          simp only [Option.map_some, after, addB, hlv] at *
          rw [if_pos trivial]
          exact hI'
      · intro k hk
        cases q with
        | none => rfl
        | some a => simp only [Option.map_some, after]; rw [if_neg hk]
    · show c.count + 1 = (c.slots.set i _).countP Option.isSome
      have hcount := countP_set
        (y := some { map := m', base := base, strikes := 0, bad := false }) hi
      rw [hc.count]
      simp at hcount
      omega
    · have : c.version + 1 = c.version := h
      omega
    · intro k sl' hk
      rcases getElem?_set_cases hk with ⟨h, _⟩ | ⟨_, h⟩
      · exact Or.inl (by rw [h])
      · exact Or.inr ⟨sl', h, rfl, rfl⟩

theorem tryNew_ok {n minSize : Nat} {sys : Option (Nat → Nat)} (hn : 0 < n) (hn2 : n + 8 < 2 ^ 64)
    {c : Coll} {lv : Nat → List Block} (hc : CollOk c lv) : ∀ {rest : List (Option Slot)} {i : Nat},
    (∀ k, rest[k]? = c.slots[i + k]?) →
    ∃ c' r new, tryNew n minSize sys c rest i = some (c', r, new) ∧ CollOk c' (after lv n r) ∧
      Eff c c' (fun k => new = some k) ∧ ∀ k, new = some k → lv k = [] := by
  intro rest
  induction rest with
  | nil =>
    intro i _
    exact ⟨c, none, none, rfl, hc, Eff.same rfl rfl _, fun _ h => by cases h⟩
  | cons x rest ih =>
    intro i hrest
    have hi := (hrest 0).symm
    rw [List.getElem?_cons_zero, Nat.add_zero] at hi
    cases x with
    | none => exact fill_ok hn hn2 hc hi
    | some sl =>
      have hok := hc.slots i
      rw [hi] at hok
      obtain ⟨bs, hI⟩ := hok
      simp only [tryNew, empty_slot hI]
      cases hl : (lv i).isEmpty with
      | true =>
        obtain ⟨hc', he, hnone⟩ := cleanup_ok hc hi (List.isEmpty_iff.mp hl)
        obtain ⟨c', r, new, h1, h2, h3, h4⟩ := fill_ok (minSize := minSize) (sys := sys) hn hn2 hc' hnone
        exact ⟨c', r, new, h1, h2, he.trans h3 (fun _ h => h.elim) (fun _ h => h), h4⟩
      | false =>
        refine ih fun k => ?_
        have := hrest (k + 1)
        rw [List.getElem?_cons_succ, show i + (k + 1) = i + 1 + k by omega] at this
        exact this

theorem after_none {lv : Nat → List Block} {n : Nat} : after lv n none = lv := rfl

theorem allocate_ok {c : Coll} {lv : Nat → List Block} {n : Nat} (hn : 0 < n)
    (hn2 : n + 8 < 2 ^ 64) (minSize : Nat) (sys : Option (Nat → Nat)) (hc : CollOk c lv) :
    ∃ c' r new, allocate c n minSize sys = some (c', r, new) ∧ CollOk c' (after lv n r) ∧
      Eff c c' (fun k => new = some k) ∧ ∀ k, new = some k → lv k = [] := by
  obtain ⟨c1, r1, h1, hs1, hv1, hc1⟩ := tryOld_ok (ab := false) hn hn2 hc
  unfold allocate
  rw [h1]
  cases r1 with
  | some r => exact ⟨c1, some r, none, rfl, hc1, Eff.same hv1 hs1 _, fun _ h => by cases h⟩
  | none =>
    rw [after_none] at hc1
    obtain ⟨c2, r2, new, h2, hc2, he2, hemp⟩ := tryNew_ok (minSize := minSize) (sys := sys) hn hn2 hc1
      (rest := c1.slots) (i := 0) (fun k => by rw [Nat.zero_add])
    have he1 : Eff c c1 (fun _ => False) := Eff.same hv1 hs1 _
    simp only [h2]
    cases r2 with
    | some r => exact ⟨c2, some r, new, rfl, hc2, he1.trans he2 (fun _ h => h.elim) (fun _ h => h), hemp⟩
    | none =>
      rw [after_none] at hc2
      obtain ⟨c3, r3, h3, hs3, hv3, hc3⟩ := tryOld_ok (ab := true) hn hn2 hc2
      simp only [h3]
      have he3 : Eff c2 c3 (fun _ => False) := Eff.same hv3 hs3 _
      exact ⟨c3, r3, new, rfl, hc3,
        (he1.trans he2 (fun _ h => h.elim) (fun _ h => h)).trans he3 (fun _ h => h) (fun _ h => h.elim), hemp⟩

theorem maintainLoop_ok {limit : Nat} : ∀ {slots : List (Option Slot)} {k : Nat}
    {lv : Nat → List Block}, (∀ i, SlotOk slots[i]? (lv (k + i))) →
    ∃ slots' rm tot ent, maintainLoop limit slots = some (slots', rm, tot, ent) ∧
      (∀ i, SlotOk slots'[i]? (lv (k + i))) ∧
      slots'.countP Option.isSome + rm = slots.countP Option.isSome ∧
      (rm = 0 → shape slots' = shape slots) ∧
      ∀ (i : Nat) (sl' : Slot), slots'[i]? = some (some sl') →
        ∃ sl : Slot, slots[i]? = some (some sl) ∧ sl.base = sl'.base ∧ sl.map.heap = sl'.map.heap := by
  intro slots
  induction slots with
  | nil =>
    intro k lv h
    exact ⟨[], 0, 0, 0, rfl, h, rfl, fun _ => rfl, fun i sl' hi => by simp at hi⟩
  | cons x slots ih =>
    intro k lv h
    obtain ⟨h0, hs⟩ := slotOk_shift h
    obtain ⟨slots', rm, tot, ent, h1, h2, h3, h4, h5⟩ := ih hs
    have tail : ∀ (y : Option Slot) (x : Option Slot) (i : Nat) (sl' : Slot),
        (∀ sl', y = some sl' →
          ∃ sl, x = some sl ∧ sl.base = sl'.base ∧ sl.map.heap = sl'.map.heap) →
        (y :: slots')[i]? = some (some sl') →
        ∃ sl, (x :: slots)[i]? = some (some sl) ∧ sl.base = sl'.base ∧ sl.map.heap = sl'.map.heap := by
      intro y x i sl' hxy hi
      cases i with
      | zero =>
        simp only [List.getElem?_cons_zero, Option.some.injEq] at hi ⊢
        exact hxy sl' hi
      | succ i => exact h5 i sl' (by simpa using hi)
    cases x with
    | none =>
      refine ⟨none :: slots', rm, tot, ent, by simp only [maintainLoop, h1], slotOk_unshift h0 h2, ?_,
        fun hr => ?_, fun i sl' => tail none none i sl' (fun _ h => by cases h)⟩
      · simpa using h3
      · unfold shape at *; rw [List.map_cons, List.map_cons, h4 hr]
    | some sl =>
      obtain ⟨bs, hI⟩ := h0
      have hE := empty_slot hI
      cases hl : (lv k).isEmpty with
      | true =>
        rw [hl] at hE
        by_cases hst : sl.strikes + 1 ≥ strikesMax
        · refine ⟨none :: slots', rm + 1, tot, ent, ?_, ?_, ?_, fun hr => by omega,
            fun i sl' => tail none (some sl) i sl' (fun _ h => by cases h)⟩
          · simp only [maintainLoop, hE, h1]; rw [if_pos hst]
          · exact slotOk_unshift (x := none) (List.isEmpty_iff.mp hl) h2
          · simp; omega
        · refine ⟨some { sl with strikes := sl.strikes + 1 } :: slots', rm, tot + sl.map.count, ent + 1,
            ?_, ?_, ?_, fun hr => ?_, fun i sl' => tail _ (some sl) i sl' (fun _ h => ?_)⟩
          · simp only [maintainLoop, hE, h1]; rw [if_neg hst]
          · exact slotOk_unshift ⟨bs, hI⟩ h2
          · simp; omega
          · unfold shape at *; rw [List.map_cons, List.map_cons, h4 hr]; rfl
          · cases h; exact ⟨sl, rfl, rfl, rfl⟩
      | false =>
        rw [hl] at hE
        have key : ∀ sl2 : Slot, sl2.map = sl.map → sl2.base = sl.base →
            (∀ i, SlotOk (some sl2 :: slots')[i]? (lv (k + i))) ∧
            (some sl2 :: slots').countP Option.isSome + rm = (some sl :: slots).countP Option.isSome ∧
            (rm = 0 → shape (some sl2 :: slots') = shape (some sl :: slots)) ∧
            ∀ (i : Nat) (sl' : Slot), (some sl2 :: slots')[i]? = some (some sl') →
              ∃ sl1 : Slot, (some sl :: slots)[i]? = some (some sl1) ∧ sl1.base = sl'.base ∧
                sl1.map.heap = sl'.map.heap := by
          intro sl2 hm hb
          refine ⟨slotOk_unshift ⟨bs, by rw [hm]; exact hI⟩ h2, by simp; omega, fun hr => ?_,
            fun i sl' => tail _ (some sl) i sl' (fun _ h => ?_)⟩
          · unfold shape at *
            rw [List.map_cons, List.map_cons, h4 hr]
            simp only [Option.map_some, hm, hb]
          · cases h; exact ⟨sl, rfl, hb.symm, by rw [hm]⟩
        refine ⟨some (if sl.map.count > limit then { sl with bad := true, strikes := strikesMax }
          else { sl with strikes := 0 }) :: slots', rm, tot + sl.map.count, ent + 1, ?_, ?_⟩
        · simp only [maintainLoop, hE, h1]
        · by_cases hg : sl.map.count > limit
          · rw [if_pos hg]; exact key _ rfl rfl
          · rw [if_neg hg]; exact key _ rfl rfl

theorem maintain_ok {c : Coll} {lv : Nat → List Block} (hc : CollOk c lv) :
    ∃ c', maintain c = some c' ∧ CollOk c' lv ∧ Eff c c' (fun _ => False) := by
  unfold maintain
  by_cases h0 : c.count = 0
  · rw [if_pos h0]; exact ⟨c, rfl, hc, Eff.same rfl rfl _⟩
  · rw [if_neg h0]
    obtain ⟨slots', rm, tot, ent, h1, h2, h3, h4, h5⟩ := maintainLoop_ok (limit := c.limit) (k := 0)
      (lv := lv) (fun i => by rw [Nat.zero_add]; exact hc.slots i)
    rw [h1]
    refine ⟨_, rfl, ⟨fun i => ?_, ?_⟩, ⟨Nat.le_add_right _ _, fun h => ?_, fun i sl' hi => Or.inr (h5 i sl' hi)⟩⟩
    · have := h2 i
      rw [Nat.zero_add] at this
      exact this
    · show c.count - rm = slots'.countP Option.isSome
      rw [hc.count]; omega
    · have : c.version + rm = c.version := h
      exact h4 (by omega)

end Verif.MmapColl
