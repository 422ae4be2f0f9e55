import Verif.Shm.Spec
/-! Lemmas for shared memory: what looking at the changes does to the pointers of a process. -/
namespace Verif.Shm

/-- The pointers of a process and its mappings fit. -/
structure Own (maps : List Map) (ts : List Ptr) : Prop where
  addrs : maps.Pairwise fun a b => a.addr ≠ b.addr
  nonzero : ∀ m ∈ maps, m.addr ≠ 0
  live : ∀ t ∈ ts, t.ptr ≠ 0 → ∃ m ∈ maps, m.addr = t.ptr
  apart : ts.Pairwise fun a b => a.ptr ≠ 0 → a.ptr ≠ b.ptr

theorem Own.perm {maps : List Map} {l l' : List Ptr} (h : Own maps l) (hp : l.Perm l') : Own maps l' where
  addrs := h.addrs
  nonzero := h.nonzero
  live t ht := h.live t (hp.mem_iff.mpr ht)
  apart := by
    refine (hp.pairwise_iff ?_).mp h.apart
    intro a b hab hb e
    rw [e] at hb
    exact hab hb e.symm

/-- A pointer which is up to date with an element of the master -/
def Fresh (files : List (Nat × Nat)) (e : Elem) (t : Ptr) (maps : List Map) : Prop :=
  t.ver = e.ver ∧ if e.size = 0 then t.ptr = 0
    else ∃ o, files.lookup e.name = some o ∧ ⟨t.ptr, o, e.size⟩ ∈ maps ∧ t.ptr ≠ 0

/-- Mappings at the address of a pointer are kept. -/
def Kept (t : Ptr) (maps maps' : List Map) : Prop :=
  t.ptr ≠ 0 → ∀ m ∈ maps, m.addr = t.ptr → m ∈ maps'

theorem Kept.trans {t : Ptr} {a b c : List Map} (h : Kept t a b) (h' : Kept t b c) : Kept t a c :=
  fun ht m hm e => h' ht m (h ht m hm e) e

theorem ptrCleanup_spec {maps : List Map} {t : Ptr} {us : List Ptr} (h : Own maps (t :: us)) :
    Own (ptrCleanup maps t).1 us ∧ (ptrCleanup maps t).2.ptr = 0 ∧ (ptrCleanup maps t).2.ver = t.ver ∧
    ∀ u ∈ us, Kept u maps (ptrCleanup maps t).1 := by
  have hap := List.pairwise_cons.mp h.apart
  unfold ptrCleanup
  by_cases ht : t.ptr ≠ 0
  · rw [if_pos ht]
    have hk : ∀ u ∈ us, Kept u maps (maps.filter fun m => m.addr != t.ptr) := by
      intro u hu hz m hm e
      rw [List.mem_filter]
      refine ⟨hm, ?_⟩
      have := hap.1 u hu ht
      simp
      rw [e]
      exact fun e' => this e'.symm
    refine ⟨⟨h.addrs.filter _, fun m hm => h.nonzero m (List.mem_filter.mp hm).1, ?_, hap.2⟩, rfl, rfl, hk⟩
    intro u hu hz
    obtain ⟨m, hm, e⟩ := h.live u (List.mem_cons_of_mem _ hu) hz
    exact ⟨m, hk u hu hz m hm e, e⟩
  · rw [if_neg ht]
    refine ⟨⟨h.addrs, h.nonzero, fun u hu => h.live u (List.mem_cons_of_mem _ hu), hap.2⟩, ?_, rfl, ?_⟩
    · simpa using ht
    · intro u _ _ m hm _
      exact hm

theorem own_zero {maps : List Map} {t : Ptr} {us : List Ptr} (h : Own maps us) (ht : t.ptr = 0) :
    Own maps (t :: us) where
  addrs := h.addrs
  nonzero := h.nonzero
  live u hu hz := by
    rcases List.mem_cons.mp hu with rfl | hu
    · exact absurd ht hz
    · exact h.live u hu hz
  apart := List.pairwise_cons.mpr ⟨fun u _ hz => absurd ht hz, h.apart⟩

theorem ptrUpdate_spec {files : List (Nat × Nat)} {k : Kernel} (hk : k.Sane) {maps : List Map} {t : Ptr}
    {us : List Ptr} (e : Elem) (h : Own maps (t :: us)) :
    Own (ptrUpdate files k maps t e).1 ((ptrUpdate files k maps t e).2.1 :: us) ∧
    (∀ u ∈ us, Kept u maps (ptrUpdate files k maps t e).1) ∧
    ((ptrUpdate files k maps t e).2.2 = true →
      Fresh files e (ptrUpdate files k maps t e).2.1 (ptrUpdate files k maps t e).1) ∧
    ((ptrUpdate files k maps t e).2.2 = false → (ptrUpdate files k maps t e).2.1.ptr = 0 ∧
      (ptrUpdate files k maps t e).2.1.ver = t.ver) ∧
    (k.Works → (∀ o, files.lookup e.name = some o ∨ e.size = 0 →
      (ptrUpdate files k maps t e).2.2 = true)) := by
  obtain ⟨h1, h2, h3, h4⟩ := ptrCleanup_spec h
  unfold ptrUpdate
  by_cases hs : e.size = 0
  · simp only [if_pos hs]
    refine ⟨own_zero h1 h2, h4, fun _ => ⟨rfl, ?_⟩, ?_, fun _ _ _ => trivial⟩
    · rw [if_pos hs]; exact h2
    · intro hc; cases hc
  · simp only [if_neg hs]
    cases hl : files.lookup e.name with
    | none =>
      refine ⟨own_zero h1 h2, h4, ?_, fun _ => ⟨h2, h3⟩, ?_⟩
      · intro hc; cases hc
      · rintro _ o (hc | hc)
        · cases hc
        · exact absurd hc hs
    | some obj =>
      simp only
      cases hm : k (ptrCleanup maps t).1 with
      | openFail =>
        refine ⟨own_zero h1 h2, h4, ?_, fun _ => ⟨h2, h3⟩, ?_⟩
        · intro hc; cases hc
        · intro hw
          exact absurd hm (hw.opens _)
      | failed => exact absurd hm (hk.maps _)
      | mapped a =>
        obtain ⟨ha, hfree⟩ := hk.free _ _ hm
        refine ⟨⟨?_, ?_, ?_, ?_⟩, ?_, fun _ => ⟨rfl, ?_⟩, ?_, fun _ _ _ => rfl⟩
        · exact List.pairwise_cons.mpr ⟨fun x hx => (hfree x hx).symm, h1.addrs⟩
        · intro m hm'
          rcases List.mem_cons.mp hm' with rfl | hm'
          · exact ha
          · exact h1.nonzero m hm'
        · intro u hu hz
          rcases List.mem_cons.mp hu with rfl | hu
          · exact ⟨_, List.mem_cons_self, rfl⟩
          · obtain ⟨m, hm', e'⟩ := h1.live u hu hz
            exact ⟨m, List.mem_cons_of_mem _ hm', e'⟩
        · refine List.pairwise_cons.mpr ⟨?_, h1.apart⟩
          intro u hu _ e'
          simp only at e'
          have hz : u.ptr ≠ 0 := by rw [← e']; exact ha
          obtain ⟨m, hm', e''⟩ := h1.live u hu hz
          exact hfree m hm' (by rw [e'', ← e'])
        · intro u hu hz m hm' e'
          exact List.mem_cons_of_mem _ (h4 u hu hz m hm' e')
        · rw [if_neg hs]
          exact ⟨obj, hl, List.mem_cons_self, ha⟩
        · intro hc; cases hc

/-- What happens to one pointer. -/
def Upd (files : List (Nat × Nat)) (maps maps' : List Map) (ok : Bool) (e : Elem) (t t' : Ptr) : Prop :=
  (t' = t ∧ Kept t maps maps' ∧ (ok = true → t.ver = e.ver)) ∨
  (ok = false ∧ t.ver ≠ e.ver ∧ t'.ptr = 0 ∧ t'.ver = t.ver) ∨
  (t.ver ≠ e.ver ∧ Fresh files e t' maps')

theorem Fresh.kept {files : List (Nat × Nat)} {e : Elem} {t : Ptr} {maps maps' : List Map}
    (h : Fresh files e t maps) (hk : Kept t maps maps') : Fresh files e t maps' := by
  obtain ⟨h1, h2⟩ := h
  refine ⟨h1, ?_⟩
  by_cases hs : e.size = 0
  · rw [if_pos hs] at h2 ⊢; exact h2
  · rw [if_neg hs] at h2 ⊢
    obtain ⟨o, h3, h4, h5⟩ := h2
    exact ⟨o, h3, hk h5 _ h4 rfl, h5⟩

theorem refreshLoop_spec {files : List (Nat × Nat)} {k : Kernel} (hk : k.Sane) :
    ∀ (ts : List Ptr) (es : List Elem) (maps : List Map) (pre : List Ptr), Own maps (ts ++ pre) →
    Own (refreshLoop files k maps ts es).1 ((refreshLoop files k maps ts es).2.1 ++ pre) ∧
    (refreshLoop files k maps ts es).2.1.length = ts.length ∧
    (∀ u ∈ pre, Kept u maps (refreshLoop files k maps ts es).1) ∧
    (∀ (i : Nat) (t t' : Ptr) (e : Elem), ts[i]? = some t → es[i]? = some e →
      (refreshLoop files k maps ts es).2.1[i]? = some t' →
      Upd files maps (refreshLoop files k maps ts es).1 (refreshLoop files k maps ts es).2.2 e t t') ∧
    (k.Works → (∀ e ∈ es, e.size ≠ 0 → ∃ o, files.lookup e.name = some o) →
      (refreshLoop files k maps ts es).2.2 = true) := by
  intro ts
  induction ts with
  | nil =>
    intro es maps pre h
    have : refreshLoop files k maps [] es = (maps, [], true) := by cases es <;> rfl
    rw [this]
    exact ⟨h, rfl, fun u _ _ m hm _ => hm, by intro i t t' e ht; simp at ht, fun _ _ => rfl⟩
  | cons t ts ih =>
    intro es maps pre h
    cases es with
    | nil =>
      have : refreshLoop files k maps (t :: ts) [] = (maps, t :: ts, true) := rfl
      rw [this]
      exact ⟨h, rfl, fun u _ _ m hm _ => hm, by intro i t t' e _ he; simp at he, fun _ _ => rfl⟩
    | cons e es =>
      have hpermOf : ∀ (u : Ptr) (l : List Ptr), (u :: (l ++ pre)).Perm (l ++ (u :: pre)) :=
        fun u l => List.perm_middle.symm
      rw [refreshLoop]
      by_cases hv : t.ver ≠ e.ver
      · rw [if_pos hv]
        obtain ⟨u1, u2, u3, u4, u5⟩ := ptrUpdate_spec (files := files) hk e
          (us := ts ++ pre) (by simpa using h)
        generalize ptrUpdate files k maps t e = x at *
        obtain ⟨m1, t1, ok1⟩ := x
        simp only at *
        cases ok1 with
        | true =>
          simp only [if_true]
          obtain ⟨r1, r2, r3, r4, r5⟩ := ih es m1 (t1 :: pre) (u1.perm (hpermOf t1 ts))
          generalize refreshLoop files k m1 ts es = r at *
          obtain ⟨m2, ts2, ok2⟩ := r
          simp only at *
          refine ⟨r1.perm (hpermOf t1 ts2).symm, by simp [r2], ?_, ?_, ?_⟩
          · intro u hu
            exact (u2 u (List.mem_append_right _ hu)).trans (r3 u (List.mem_cons_of_mem _ hu))
          · intro i y y' f hy hf hy'
            cases i with
            | zero =>
              simp only [List.getElem?_cons_zero, Option.some.injEq] at hy hf hy'
              subst hy; subst hf; subst hy'
              exact Or.inr (Or.inr ⟨hv, (u3 trivial).kept (r3 t1 List.mem_cons_self)⟩)
            | succ i =>
              simp only [List.getElem?_cons_succ] at hy hf hy'
              rcases r4 i y y' f hy hf hy' with ⟨a1, a2, a3⟩ | a | a
              · refine Or.inl ⟨a1, ?_, a3⟩
                exact (u2 y (List.mem_append_left _ (List.mem_of_getElem? hy))).trans a2
              · exact Or.inr (Or.inl a)
              · exact Or.inr (Or.inr a)
          · intro hw hfile
            exact r5 hw (fun e' he' => hfile e' (List.mem_cons_of_mem _ he'))
        | false =>
          simp only [Bool.false_eq_true, if_false]
          refine ⟨u1, by simp, ?_, ?_, ?_⟩
          · intro u hu
            exact u2 u (List.mem_append_right _ hu)
          · intro i y y' f hy hf hy'
            cases i with
            | zero =>
              simp only [List.getElem?_cons_zero, Option.some.injEq] at hy hf hy'
              subst hy; subst hf; subst hy'
              exact Or.inr (Or.inl ⟨rfl, hv, u4 rfl⟩)
            | succ i =>
              simp only [List.getElem?_cons_succ] at hy hf hy'
              rw [hy] at hy'
              cases hy'
              refine Or.inl ⟨rfl, u2 y (List.mem_append_left _ (List.mem_of_getElem? hy)), ?_⟩
              intro hc; cases hc
          · intro hw hfile
            by_cases hs : e.size = 0
            · exact absurd (u5 hw 0 (Or.inr hs)) (by decide)
            · obtain ⟨o, ho⟩ := hfile e List.mem_cons_self hs
              exact absurd (u5 hw o (Or.inl ho)) (by decide)
      · rw [if_neg hv]
        obtain ⟨r1, r2, r3, r4, r5⟩ := ih es maps (t :: pre)
          (h.perm (hpermOf t ts))
        generalize refreshLoop files k maps ts es = r at *
        obtain ⟨m2, ts2, ok2⟩ := r
        simp only at *
        refine ⟨r1.perm (hpermOf t ts2).symm, by simp [r2], ?_, ?_, ?_⟩
        · intro u hu
          exact r3 u (List.mem_cons_of_mem _ hu)
        · intro i y y' f hy hf hy'
          cases i with
          | zero =>
            simp only [List.getElem?_cons_zero, Option.some.injEq] at hy hf hy'
            subst hy; subst hf; subst hy'
            refine Or.inl ⟨rfl, r3 t List.mem_cons_self, fun _ => ?_⟩
            simpa using hv
          | succ i =>
            simp only [List.getElem?_cons_succ] at hy hf hy'
            exact r4 i y y' f hy hf hy'
        · intro hw hfile
          exact r5 hw (fun e' he' => hfile e' (List.mem_cons_of_mem _ he'))

end Verif.Shm
