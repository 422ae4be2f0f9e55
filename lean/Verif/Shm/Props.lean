import Verif.Shm.Inv
/-!
# Handles of shared memory give the memory which was handed out

For every history of allocations, frees and lookups by any number of processes.
-/
namespace Verif.Shm

theorem some_get {α : Type} {l : List α} {i : Nat} (h : i < l.length) : ∃ x, l[i]? = some x :=
  ⟨_, List.getElem?_eq_getElem h⟩

theorem held_elem {w : World} (hi : Inv w) {h o : Nat} (hh : w.held[h]? = some (some o)) :
    ∃ e : Elem, w.sys.elems[h]? = some e ∧ 0 < e.size ∧ w.sys.files.lookup e.name = some o ∧
      w.sys.objs[o]? = some e.size := by
  have hlt : h < w.sys.elems.length := by
    rw [hi.elen, ← hi.hlen]; exact (List.getElem?_eq_some_iff.mp hh).1
  exact ⟨_, List.getElem?_eq_getElem hlt, hi.elem h _ _ (List.getElem?_eq_getElem hlt) hh⟩

theorem resolve_result {p h : Nat} {k : Kernel} {s : Sys} {q : Proc} (hq : s.procs[p]? = some q)
    (hr : (refresh s k q).2 = true) {t : Ptr} (ht : (refresh s k q).1.ptrs[h]? = some t) :
    (resolve p h k s).2 = t.ptr := by
  unfold resolve
  rw [hq]
  simp only [hr, if_true, ht]

theorem onProc_self {s : Sys} {p : Nat} {q q' : Proc} (hq : s.procs[p]? = some q) :
    (s.onProc p fun _ => q').procs[p]? = some q' := by
  unfold Sys.onProc
  simp [List.getElem?_modify, hq]

/-- **Resolving is exact.** In every process, a handle which is handed out gives a pointer to the whole
of the object which was handed out for it, whichever process did that and however often the handle was
used before. A handle which is not handed out gives NULL. -/
theorem resolve_exact {root : List Nat} {w : World} (hw : Reach root w) (p h : Nat) (k : Kernel)
    (hk : k.Works) (hp : p < w.sys.procs.length) (hh : h < maxElems) :
    (∀ o, w.held[h]? = some (some o) →
      (w.looked p k (resolve p h k w.sys).1).MappedAt p (resolve p h k w.sys).2 o) ∧
    (w.held[h]? = some none → (resolve p h k w.sys).2 = 0) := by
  have hi := inv_reach hw
  obtain ⟨q, hq⟩ := some_get hp
  obtain ⟨b, hb⟩ := some_get (l := w.behind) (i := p) (by rw [hi.blen]; exact hp)
  obtain ⟨h1, _, h3⟩ := refresh_ok hi hq hb hk.toSane
  have hr := h3 hk
  rw [hr] at h1
  simp only [if_true] at h1
  have hlt : h < (refresh w.sys k q).1.ptrs.length := by rw [h1.len]; exact hh
  obtain ⟨t, ht⟩ := some_get hlt
  have hel : h < w.sys.elems.length := by rw [hi.elen]; exact hh
  obtain ⟨e, he⟩ := some_get hel
  rw [resolve_result hq hr ht, resolve_sys hq]
  constructor
  · intro o ho
    obtain ⟨_, d, hd, _, hm⟩ := h1.each h t e _ ht he ho
    obtain ⟨hm1, hm2⟩ := hm (by omega)
    obtain ⟨e', he', _, _, hobj⟩ := held_elem hi ho
    rw [he] at he'
    cases he'
    refine ⟨(refresh w.sys k q).1, e.size, ?_, ?_, hm1, hm2⟩
    · unfold World.looked
      rw [hq]
      exact onProc_self hq
    · unfold World.looked
      rw [hq]
      exact hobj
  · intro ho
    obtain ⟨_, d, hd, _, hm⟩ := h1.each h t e _ ht he ho
    exact hm (by omega)

/-- A lookup which fails gives NULL: when `shm_open` may fail, the pointer is NULL or right. -/
theorem resolve_null_or_right {root : List Nat} {w : World} (hw : Reach root w) (p h : Nat) (k : Kernel)
    (hk : k.Sane) (hp : p < w.sys.procs.length) (hn : (resolve p h k w.sys).2 ≠ 0) :
    ∃ o, w.held[h]? = some (some o) ∧
      (w.looked p k (resolve p h k w.sys).1).MappedAt p (resolve p h k w.sys).2 o := by
  have hi := inv_reach hw
  obtain ⟨q, hq⟩ := some_get hp
  obtain ⟨b, hb⟩ := some_get (l := w.behind) (i := p) (by rw [hi.blen]; exact hp)
  obtain ⟨h1, _, _⟩ := refresh_ok hi hq hb hk
  have hr : (refresh w.sys k q).2 = true := by
    cases hr : (refresh w.sys k q).2 with
    | true => rfl
    | false =>
      unfold resolve at hn
      rw [hq] at hn
      simp [hr] at hn
  rw [hr] at h1
  simp only [if_true] at h1
  cases ht : (refresh w.sys k q).1.ptrs[h]? with
  | none =>
    unfold resolve at hn
    rw [hq] at hn
    simp [ht] at hn
  | some t =>
    have hlt : h < maxElems := by rw [← h1.len]; exact (List.getElem?_eq_some_iff.mp ht).1
    obtain ⟨e, he⟩ := some_get (l := w.sys.elems) (i := h) (by rw [hi.elen]; exact hlt)
    obtain ⟨x, hx⟩ := some_get (l := w.held) (i := h) (by rw [hi.hlen]; exact hlt)
    rw [resolve_result hq hr ht] at hn ⊢
    obtain ⟨_, d, hd, _, hm⟩ := h1.each h t e x ht he hx
    have hm' := hm (by omega)
    cases x with
    | none => exact absurd hm' hn
    | some o =>
      obtain ⟨e', he', _, _, hobj⟩ := held_elem hi hx
      rw [he] at he'
      cases he'
      refine ⟨o, hx, (refresh w.sys k q).1, e.size, ?_, ?_, hm'.1, hm'.2⟩
      · rw [resolve_sys hq]
        unfold World.looked
        rw [hq]
        exact onProc_self hq
      · rw [resolve_sys hq]
        unfold World.looked
        rw [hq]
        exact hobj

/-- The pointer of process `p` for handle `h` is `a`, and it is up to date. -/
def Current (w : World) (p h a : Nat) : Prop :=
  ∃ (q : Proc) (t : Ptr) (e : Elem), w.sys.procs[p]? = some q ∧ q.ptrs[h]? = some t ∧
    w.sys.elems[h]? = some e ∧ t.ver = e.ver ∧ t.ptr = a

theorem current_step {w w' : World} (hi : Inv w) (hs : Step w w') {p h a o : Nat} (hc : Current w p h a)
    (ho : w.held[h]? = some (some o)) (ho' : w'.held[h]? = some (some o)) : Current w' p h a := by
  obtain ⟨q, t, e, hq, ht, he, hv, ha⟩ := hc
  have hhl : h < w.held.length := (List.getElem?_eq_some_iff.mp ho).1
  have hsize : 0 < e.size := by
    obtain ⟨e', he', h1, _⟩ := held_elem hi ho
    rw [he] at he'
    cases he'
    exact h1
  have hproc : ∀ (s s' : Sys), SameProcs s s' → s.procs = w.sys.procs →
      ∃ q', s'.procs[p]? = some q' ∧ q'.ptrs = q.ptrs := by
    intro s s' hss hsp
    have hlt : p < s'.procs.length := by
      rw [hss.1, hsp]; exact (List.getElem?_eq_some_iff.mp hq).1
    obtain ⟨q0, a1, _, _, a4, _⟩ := hss.2 p _ (List.getElem?_eq_getElem hlt)
    rw [hsp, hq] at a1
    cases a1
    exact ⟨_, List.getElem?_eq_getElem hlt, a4⟩
  cases hs with
  | allocate p' size c hs hc hr hp =>
    unfold World.allocate masterAllocate at ho' ⊢
    cases hf : w.sys.elems.findIdx? fun e => e.size == 0 with
    | none => exact ⟨q, t, e, hq, ht, he, hv, ha⟩
    | some i =>
      have hne : i ≠ h := by
        rintro rfl
        rw [List.findIdx?_eq_some_iff_getElem] at hf
        obtain ⟨hlt, hz, _⟩ := hf
        rw [List.getElem?_eq_getElem hlt] at he
        cases he
        simp at hz
        omega
      cases c with
      | openFail => exact ⟨q, t, e, hq, ht, he, hv, ha⟩
      | truncFail name => exact hc.elim
      | made name =>
        obtain ⟨q', b1, b2⟩ := hproc { w.sys with objs := w.sys.objs ++ [size], files := (name, w.sys.objs.length) :: w.sys.files }
          _ (sameProcs_onProc _ p' (fun q => { q with holders := q.holders ++ [⟨q.pid, name⟩] })
            (fun q => ⟨rfl, rfl, rfl, rfl⟩)) rfl
        refine ⟨q', t, e, b1, by rw [b2]; exact ht, ?_, hv, ha⟩
        show (w.sys.elems.modify i _)[h]? = some e
        rw [List.getElem?_modify_ne _ _ hne]
        exact he
  | free p' h' o'' s hh hf hr =>
    obtain ⟨e0, he0, hz, rfl⟩ := masterFree_eq hf
    have hne : h' ≠ h := by
      rintro rfl
      simp only [World.freed] at ho'
      rw [List.getElem?_set_self hhl] at ho'
      cases ho'
    obtain ⟨q', b1, b2⟩ := hproc (unlink e0.name w.sys) _
      (sameProcs_onProc _ p' (maintain w.sys.root e0.name) (fun q => ⟨rfl, rfl, rfl, rfl⟩)) rfl
    refine ⟨q', t, e, b1, by rw [b2]; exact ht, ?_, hv, ha⟩
    show (w.sys.elems.set h' _)[h]? = some e
    rw [List.getElem?_set_ne hne]
    exact he
  | resolve p' h' k hk hp =>
    obtain ⟨q', hq'⟩ := some_get hp
    obtain ⟨b, hb⟩ := some_get (l := w.behind) (i := p') (by rw [hi.blen]; exact hp)
    obtain ⟨_, h2, _⟩ := refresh_ok hi hq' hb hk
    rw [resolve_sys hq']
    unfold World.looked
    rw [hq']
    by_cases hpp : p' = p
    · subst hpp
      rw [hq] at hq'
      cases hq'
      exact ⟨_, t, e, onProc_self hq, h2 h t e ht he hv, he, hv, ha⟩
    · refine ⟨q, t, e, ?_, ht, he, hv, ha⟩
      show (w.sys.procs.modify p' _)[p]? = some q
      rw [List.getElem?_modify_ne _ _ hpp]
      exact hq
  | fork p' pid b hp hb =>
    have hlt : p < w.sys.procs.length := (List.getElem?_eq_some_iff.mp hq).1
    refine ⟨q, t, e, ?_, ht, ?_, hv, ha⟩
    · unfold fork
      rw [List.getElem?_eq_getElem hp]
      show (w.sys.procs ++ _)[p]? = some q
      rw [List.getElem?_append_left hlt]
      exact hq
    · unfold fork
      rw [List.getElem?_eq_getElem hp]
      exact he
  | unregister p' =>
    obtain ⟨procs, h1, h2⟩ := forkUnregister_same p' w.sys
    obtain ⟨q', b1, b2⟩ := hproc _ _ h2 rfl
    refine ⟨q', t, e, b1, by rw [b2]; exact ht, ?_, hv, ha⟩
    show (forkUnregister p' w.sys).elems[h]? = some e
    rw [h1]
    exact he

theorem keeps_reach {root : List Nat} {h o : Nat} {w w' : World} (hw : Reach root w) (hk : Keeps h o w w') :
    Reach root w' := by
  induction hk with
  | refl _ => exact hw
  | step w' w'' _ hs _ ih => exact .step _ _ ih hs

theorem keeps_held {h o : Nat} {w w' : World} (hk : Keeps h o w w') :
    w.held[h]? = some (some o) ∧ w'.held[h]? = some (some o) := by
  induction hk with
  | refl h => exact ⟨h, h⟩
  | step w' w'' _ _ h ih => exact ⟨ih.1, h⟩

theorem keeps_current {root : List Nat} {h o p a : Nat} {w w' : World} (hw : Reach root w)
    (hk : Keeps h o w w') (hc : Current w p h a) : Current w' p h a := by
  induction hk with
  | refl _ => exact hc
  | step w' w'' hk' hs ho ih =>
    exact current_step (inv_reach (keeps_reach hw hk')) hs ih (keeps_held hk').2 ho

/-- After a lookup the pointer is up to date. -/
theorem current_resolve {root : List Nat} {w : World} (hw : Reach root w) {p h o : Nat} {k : Kernel}
    (hk : k.Sane) (hp : p < w.sys.procs.length) (ho : w.held[h]? = some (some o))
    (hn : (resolve p h k w.sys).2 ≠ 0) :
    Current (w.looked p k (resolve p h k w.sys).1) p h (resolve p h k w.sys).2 := by
  have hi := inv_reach hw
  obtain ⟨q, hq⟩ := some_get hp
  obtain ⟨b, hb⟩ := some_get (l := w.behind) (i := p) (by rw [hi.blen]; exact hp)
  obtain ⟨h1, _, _⟩ := refresh_ok hi hq hb hk
  have hr : (refresh w.sys k q).2 = true := by
    cases hr : (refresh w.sys k q).2 with
    | true => rfl
    | false =>
      unfold resolve at hn
      rw [hq] at hn
      simp [hr] at hn
  rw [hr] at h1
  simp only [if_true] at h1
  have hlt : h < maxElems := by rw [← hi.hlen]; exact (List.getElem?_eq_some_iff.mp ho).1
  obtain ⟨t, ht⟩ := some_get (l := (refresh w.sys k q).1.ptrs) (i := h) (by rw [h1.len]; exact hlt)
  obtain ⟨e, he, _⟩ := held_elem hi ho
  obtain ⟨c1, d, hd, c2, _⟩ := h1.each h t e _ ht he ho
  rw [resolve_result hq hr ht, resolve_sys hq]
  unfold World.looked
  rw [hq]
  refine ⟨_, t, e, onProc_self hq, ht, he, ?_, rfl⟩
  have : d = 0 := by omega
  subst this
  rw [Nat.add_zero, Nat.mod_eq_of_lt c1] at c2
  exact c2

/-- **Pointers stay.** As long as a handle is not freed, a process which looks it up again gets the same
pointer, whatever it and all other processes do in between. -/
theorem same_pointer {root : List Nat} {w w' : World} (hw : Reach root w) (p h o : Nat) (k k' : Kernel)
    (hk : k.Sane) (hk' : k'.Works) (hp : p < w.sys.procs.length) (hn : (resolve p h k w.sys).2 ≠ 0)
    (hkeep : Keeps h o (w.looked p k (resolve p h k w.sys).1) w') :
    (resolve p h k' w'.sys).2 = (resolve p h k w.sys).2 := by
  have hw1 : Reach root (w.looked p k (resolve p h k w.sys).1) := .step _ _ hw (.resolve w p h k hk hp)
  have ho : w.held[h]? = some (some o) := by
    have := (keeps_held hkeep).1
    rwa [show (w.looked p k (resolve p h k w.sys).1).held = w.held by
      unfold World.looked; rw [List.getElem?_eq_getElem hp]] at this
  obtain ⟨q, t, e, hq, ht, he, hv, ha⟩ := keeps_current hw1 hkeep (current_resolve hw hk hp ho hn)
  have hi := inv_reach (keeps_reach hw1 hkeep)
  have hpl : p < w'.behind.length := by rw [hi.blen]; exact (List.getElem?_eq_some_iff.mp hq).1
  obtain ⟨_, h2, h3⟩ := refresh_ok hi hq (List.getElem?_eq_getElem hpl) hk'.toSane
  rw [resolve_result hq (h3 hk') (h2 h t e ht he hv), ha]

/-- **Freeing by pointer is exact.** A pointer which a process got for a handle is found again as long as
the handle is not freed: freeing it does not abort, takes away exactly this handle and unlinks exactly
its name. -/
theorem free_exact {root : List Nat} {w w' : World} (hw : Reach root w) (p h o : Nat) (k k' : Kernel)
    (hk : k.Sane) (hk' : k'.Works) (hp : p < w.sys.procs.length) (hn : (resolve p h k w.sys).2 ≠ 0)
    (hkeep : Keeps h o (w.looked p k (resolve p h k w.sys).1) w') :
    ∃ s e, free p (resolve p h k w.sys).2 k' w'.sys = some s ∧ w'.sys.elems[h]? = some e ∧
      s.elems = w'.sys.elems.set h ⟨0, 0, next e.ver⟩ ∧
      s.files = w'.sys.files.filter (fun f => f.1 != e.name) ∧ s.objs = w'.sys.objs := by
  have hw1 : Reach root (w.looked p k (resolve p h k w.sys).1) := .step _ _ hw (.resolve w p h k hk hp)
  have ho : w.held[h]? = some (some o) := by
    have := (keeps_held hkeep).1
    rwa [show (w.looked p k (resolve p h k w.sys).1).held = w.held by
      unfold World.looked; rw [List.getElem?_eq_getElem hp]] at this
  obtain ⟨q, t, e, hq, ht, he, hv, ha⟩ := keeps_current hw1 hkeep (current_resolve hw hk hp ho hn)
  have hi := inv_reach (keeps_reach hw1 hkeep)
  have hpl : p < w'.behind.length := by rw [hi.blen]; exact (List.getElem?_eq_some_iff.mp hq).1
  obtain ⟨h1, h2, h3⟩ := refresh_ok hi hq (List.getElem?_eq_getElem hpl) hk'.toSane
  have hr := h3 hk'
  have ht' := h2 h t e ht he hv
  obtain ⟨e', he', hpos, _⟩ := held_elem hi (keeps_held hkeep).2
  rw [he] at he'
  cases he'
  have hfind : (refresh w'.sys k' q).1.ptrs.findIdx? (fun t => t.ptr == (resolve p h k w.sys).2) = some h := by
    rw [List.findIdx?_eq_some_iff_getElem]
    obtain ⟨hlt, hte⟩ := List.getElem?_eq_some_iff.mp ht'
    refine ⟨hlt, by rw [hte]; simpa using ha, ?_⟩
    intro j hj
    have hap := List.pairwise_iff_getElem.mp h1.own.apart j h (by omega) hlt hj
    simp only [Bool.not_eq_true, beq_eq_false_iff_ne]
    intro e'
    rw [hte, ha] at hap
    rw [e'] at hap
    exact hap hn rfl
  have hrev : resolveReverse p (resolve p h k w.sys).2 k' w'.sys =
      (w'.sys.onProc p (fun _ => (refresh w'.sys k' q).1), some h) := by
    unfold resolveReverse
    rw [hq]
    simp only [hr, if_true, hfind]
  unfold free
  rw [hrev]
  simp only [masterFree]
  rw [show (w'.sys.onProc p (fun _ => (refresh w'.sys k' q).1)).elems = w'.sys.elems from rfl, he]
  simp only [if_neg (show ¬ e.size = 0 by omega)]
  refine ⟨_, e, rfl, rfl, ?_, ?_, ?_⟩
  · unfold cleanup
    rw [show (w'.sys.onProc p (fun _ => (refresh w'.sys k' q).1)).elems = w'.sys.elems from rfl, he]
    rfl
  · unfold cleanup
    rw [show (w'.sys.onProc p (fun _ => (refresh w'.sys k' q).1)).elems = w'.sys.elems from rfl, he]
    rfl
  · unfold cleanup
    rw [show (w'.sys.onProc p (fun _ => (refresh w'.sys k' q).1)).elems = w'.sys.elems from rfl, he]
    rfl

/-- **No aborts.** Freeing a handle which is handed out never aborts, and allocation fails only when all
192 handles are handed out or the operating system cannot make shared memory. -/
theorem no_abort {root : List Nat} {w : World} (hw : Reach root w) (p : Nat) :
    (∀ h o, w.held[h]? = some (some o) → ∃ s, masterFree p h w.sys = some s) ∧
    (∀ size c, c.Sane w.sys → (masterAllocate p size c w.sys).2 = none →
      c = .openFail ∨ ∀ h, h < maxElems → ∃ o, w.held[h]? = some (some o)) := by
  have hi := inv_reach hw
  refine ⟨?_, ?_⟩
  · intro h o ho
    obtain ⟨e, he, hpos, _⟩ := held_elem hi ho
    unfold masterFree
    rw [he]
    exact ⟨_, by simp only; rw [if_neg (by omega)]⟩
  · intro size c hc hn
    unfold masterAllocate at hn
    cases hf : w.sys.elems.findIdx? fun e => e.size == 0 with
    | none =>
      right
      intro h hh
      rw [List.findIdx?_eq_none_iff] at hf
      have hlt : h < w.sys.elems.length := by rw [hi.elen]; exact hh
      have hhl : h < w.held.length := by rw [hi.hlen]; exact hh
      have hx := List.getElem?_eq_getElem hhl
      have h1 := hi.elem h _ _ (List.getElem?_eq_getElem hlt) hx
      have h2 := hf _ (List.getElem_mem hlt)
      cases ho : w.held[h] with
      | none => rw [ho] at h1; have h1' : w.sys.elems[h].size = 0 := h1; simp [h1'] at h2
      | some o => exact ⟨o, by rw [hx, ho]⟩
    | some i =>
      rw [hf] at hn
      cases c with
      | openFail => left; rfl
      | truncFail name => exact hc.elim
      | made name => simp [openCreate] at hn

/-- An allocation hands out a handle which was not handed out, with an object of the size asked for
which was not there before. -/
theorem allocate_new {root : List Nat} {w : World} (hw : Reach root w) (p size h : Nat) (c : Created)
    (hs : 0 < size) (hc : c.Sane w.sys) (hr : w.Recent) (hh : (masterAllocate p size c w.sys).2 = some h) :
    w.held[h]? = some none ∧
    (w.allocate p size c).held = w.held.set h (some w.sys.objs.length) ∧
    w.sys.objs[w.sys.objs.length]? = none ∧
    (w.allocate p size c).sys.objs[w.sys.objs.length]? = some size := by
  have hi := inv_reach hw
  have hi' := inv_allocate hi p size c hs hc hr
  have heq : w.allocate p size c = World.mk (masterAllocate p size c w.sys).1
      (w.held.set h (some w.sys.objs.length)) (w.behind.map fun b => b + 1) := by
    unfold World.allocate
    rw [show masterAllocate p size c w.sys = ((masterAllocate p size c w.sys).1, some h) from Prod.ext rfl hh]
  have hfind : ∃ e, w.sys.elems[h]? = some e ∧ e.size = 0 := by
    unfold masterAllocate at hh
    cases hf : w.sys.elems.findIdx? fun e => e.size == 0 with
    | none => rw [hf] at hh; cases hh
    | some i =>
      rw [hf] at hh
      have : i = h := by
        cases c with
        | openFail => simp [openCreate] at hh
        | truncFail name => exact hc.elim
        | made name => simpa [openCreate] using hh
      subst this
      rw [List.findIdx?_eq_some_iff_getElem] at hf
      obtain ⟨hlt, hz, _⟩ := hf
      exact ⟨_, List.getElem?_eq_getElem hlt, by simpa using hz⟩
  obtain ⟨e, he, hz⟩ := hfind
  have hlt : h < w.held.length := by
    rw [hi.hlen, ← hi.elen]; exact (List.getElem?_eq_some_iff.mp he).1
  have hx := List.getElem?_eq_getElem hlt
  refine ⟨?_, by rw [heq], by simp, ?_⟩
  · have h1 := hi.elem h e _ he hx
    cases ho : w.held[h] with
    | none => rw [hx, ho]
    | some o => rw [ho] at h1; have := h1.1; omega
  · unfold masterAllocate at hh
    rw [heq]
    simp only
    unfold masterAllocate
    cases hf : w.sys.elems.findIdx? fun e => e.size == 0 with
    | none => rw [hf] at hh; cases hh
    | some i =>
      cases c with
      | openFail => rw [hf] at hh; simp [openCreate] at hh
      | truncFail name => exact hc.elim
      | made name => simp [openCreate, register, Sys.onProc]

/-- Allocating and looking up at once gives a pointer to the new object, and NULL when nothing could be
allocated. -/
theorem allocate_pointer {root : List Nat} {w : World} (hw : Reach root w) (p size : Nat) (c : Created)
    (k : Kernel) (hk : k.Works) (hs : 0 < size) (hc : c.Sane w.sys) (hr : w.Recent)
    (hp : p < w.sys.procs.length) :
    match (masterAllocate p size c w.sys).2 with
    | none => (allocate p size c k w.sys).2 = 0
    | some h => h < maxElems ∧ ((w.allocate p size c).looked p k (allocate p size c k w.sys).1).MappedAt p
        (allocate p size c k w.sys).2 w.sys.objs.length := by
  cases hh : (masterAllocate p size c w.sys).2 with
  | none =>
    unfold allocate
    rw [show masterAllocate p size c w.sys = ((masterAllocate p size c w.sys).1, none) from Prod.ext rfl hh]
  | some h =>
    have hi := inv_reach hw
    have hw' : Reach root (w.allocate p size c) := .step _ _ hw (.allocate w p size c hs hc hr hp)
    have hi' := inv_reach hw'
    obtain ⟨h1, h2, _, _⟩ := allocate_new hw p size h c hs hc hr hh
    have hlt : h < w.held.length := (List.getElem?_eq_some_iff.mp h1).1
    have hsys : (w.allocate p size c).sys = (masterAllocate p size c w.sys).1 := by
      unfold World.allocate
      rw [show masterAllocate p size c w.sys = ((masterAllocate p size c w.sys).1, some h) from Prod.ext rfl hh]
    have hal : allocate p size c k w.sys = resolve p h k (w.allocate p size c).sys := by
      rw [hsys]
      unfold allocate
      rw [show masterAllocate p size c w.sys = ((masterAllocate p size c w.sys).1, some h) from Prod.ext rfl hh]
    have hp' : p < (w.allocate p size c).sys.procs.length := by
      rw [← hi'.blen]
      have : (w.allocate p size c).behind.length = w.behind.length := by
        unfold World.allocate
        rw [show masterAllocate p size c w.sys = ((masterAllocate p size c w.sys).1, some h) from Prod.ext rfl hh]
        simp
      rw [this, hi.blen]
      exact hp
    have hhm : h < maxElems := by rw [← hi.hlen]; exact hlt
    refine ⟨hhm, ?_⟩
    rw [hal]
    apply (resolve_exact hw' p h k hk hp' hhm).1
    rw [h2, List.getElem?_set_self hlt]

/-- **Different memory.** Handles which are handed out have different objects, and each object has the
size which the master has for it. -/
theorem handles_apart {root : List Nat} {w : World} (hw : Reach root w) (i j o : Nat)
    (h1 : w.held[i]? = some (some o)) (h2 : w.held[j]? = some (some o)) : i = j :=
  (inv_reach hw).dist i j o h1 h2

/-- Two addresses at which a process has memory mapped are different, for different mappings. -/
theorem addresses_apart {root : List Nat} {w : World} (hw : Reach root w) (p : Nat) (q : Proc) (a b : Map)
    (hq : w.sys.procs[p]? = some q) (ha : a ∈ q.maps) (hb : b ∈ q.maps) (h : a.addr = b.addr) : a = b := by
  have hi := inv_reach hw
  have hpl : p < w.behind.length := by rw [hi.blen]; exact (List.getElem?_eq_some_iff.mp hq).1
  have hap := (hi.procs p q _ hq (List.getElem?_eq_getElem hpl)).own.addrs
  obtain ⟨i, hi1, rfl⟩ := List.getElem_of_mem ha
  obtain ⟨j, hj1, rfl⟩ := List.getElem_of_mem hb
  rcases Nat.lt_trichotomy i j with hij | hij | hij
  · exact absurd h (List.pairwise_iff_getElem.mp hap i j hi1 hj1 hij)
  · subst hij; rfl
  · exact absurd h.symm (List.pairwise_iff_getElem.mp hap j i hj1 hi1 hij)

theorem cleanup_files (p i : Nat) (s : Sys) (e : Elem) (he : s.elems[i]? = some e) :
    (cleanup p i s).files = s.files.filter (fun f => f.1 != e.name) ∧
    (cleanup p i s).elems = s.elems.set i ⟨0, 0, next e.ver⟩ := by
  unfold cleanup
  rw [he]
  exact ⟨rfl, rfl⟩

/-- **Nothing is left.** When the master is destroyed, in whatever state it is, no shared memory which it
made is left in the system. -/
theorem destroy_unlinks {root : List Nat} {w : World} (hw : Reach root w) (p : Nat) :
    (masterDestroy p w.sys).files = [] := by
  have hi := inv_reach hw
  have step : ∀ (n : Nat) (s : Sys), s.elems.length = maxElems → n ≤ maxElems →
      (∀ f ∈ s.files, ∃ (i : Nat) (e : Elem), s.elems[i]? = some e ∧ e.name = f.1 ∧ e.size ≠ 0 ∧ i < maxElems) →
      let s' := (List.range n).foldl (fun s i => match s.elems[i]? with
        | none => s
        | some e => if e.size ≠ 0 then cleanup p i s else s) s
      s'.elems.length = maxElems ∧
      ∀ f ∈ s'.files, ∃ (i : Nat) (e : Elem), s'.elems[i]? = some e ∧ e.name = f.1 ∧ e.size ≠ 0 ∧
        i < maxElems ∧ n ≤ i := by
    intro n
    induction n with
    | zero =>
      intro s h1 _ h2
      refine ⟨h1, ?_⟩
      intro f hf
      obtain ⟨i, e, a1, a2, a3, a4⟩ := h2 f hf
      exact ⟨i, e, a1, a2, a3, a4, by omega⟩
    | succ n ih =>
      intro s h1 hn h2
      obtain ⟨b1, b2⟩ := ih s h1 (by omega) h2
      simp only [List.range_succ, List.foldl_append, List.foldl_cons, List.foldl_nil]
      generalize (List.range n).foldl (fun s i => match s.elems[i]? with
        | none => s
        | some e => if e.size ≠ 0 then cleanup p i s else s) s = s1 at *
      have hlt : n < s1.elems.length := by rw [b1]; omega
      rw [List.getElem?_eq_getElem hlt]
      simp only
      by_cases hz : s1.elems[n].size ≠ 0
      · rw [if_pos hz]
        obtain ⟨c1, c2⟩ := cleanup_files p n s1 _ (List.getElem?_eq_getElem hlt)
        refine ⟨by rw [c2]; simp [b1], ?_⟩
        intro f hf
        rw [c1, List.mem_filter] at hf
        obtain ⟨i, e, a1, a2, a3, a4, a5⟩ := b2 f hf.1
        have hne : n ≠ i := by
          rintro rfl
          rw [List.getElem?_eq_getElem hlt] at a1
          cases a1
          rw [a2] at hf
          simp at hf
        exact ⟨i, e, by rw [c2, List.getElem?_set_ne hne]; exact a1, a2, a3, a4, by omega⟩
      · rw [if_neg hz]
        refine ⟨b1, ?_⟩
        intro f hf
        obtain ⟨i, e, a1, a2, a3, a4, a5⟩ := b2 f hf
        have hne : n ≠ i := by
          rintro rfl
          rw [List.getElem?_eq_getElem hlt] at a1
          cases a1
          exact hz a3
        exact ⟨i, e, a1, a2, a3, a4, by omega⟩
  have h0 : ∀ f ∈ w.sys.files, ∃ (i : Nat) (e : Elem), w.sys.elems[i]? = some e ∧ e.name = f.1 ∧
      e.size ≠ 0 ∧ i < maxElems := by
    intro f hf
    obtain ⟨i, e, a1, a2, a3⟩ := hi.files f hf
    have hel := hi.elem i e _ a2 a1
    refine ⟨i, e, a2, a3, ?_, ?_⟩
    · have := hel.1; omega
    · rw [← hi.hlen]; exact (List.getElem?_eq_some_iff.mp a1).1
  obtain ⟨_, h2⟩ := step maxElems w.sys hi.elen (Nat.le_refl _) h0
  rw [List.eq_nil_iff_forall_not_mem]
  intro f hf
  obtain ⟨i, e, _, _, _, a4, a5⟩ := h2 f hf
  omega

/-! ## A concrete run -/

/-- An operating system which maps above everything that is mapped. -/
def above : Kernel := fun m => .mapped (m.foldr (fun x n => max x.addr n) 0 + 4096)

theorem above_works : above.Works where
  free m a h := by
    unfold above at h
    cases h
    refine ⟨by omega, ?_⟩
    have : ∀ x ∈ m, x.addr ≤ m.foldr (fun x n => max x.addr n) 0 := by
      induction m with
      | nil => intro x hx; cases hx
      | cons y m ih =>
        intro x hx
        rw [List.foldr_cons]
        rcases List.mem_cons.mp hx with rfl | hx
        · exact Nat.le_max_left _ _
        · exact Nat.le_trans (ih x hx) (Nat.le_max_right _ _)
    intro x hx e
    have := this x hx
    omega
  maps m h := by cases h
  opens m h := by cases h

/-- The first process allocates 100 bytes with the name 7, and forks. -/
def run2 : World :=
  let w := (World.start 1 []).allocate 0 100 (.made 7)
  { w with sys := fork 0 2 w.sys, behind := w.behind ++ [2] }

theorem run2_reach : Reach [] run2 := by
  refine .step _ _ (.step _ _ (.start 1) (.allocate _ 0 100 (.made 7) (by decide) ?_ ?_ (by decide))) ?_
  · intro f hf; cases hf
  · intro b hb
    have : b = 1 := by simpa [World.start] using hb
    omega
  · exact .fork ((World.start 1 []).allocate 0 100 (.made 7)) 0 2 2 (by decide +kernel) (by decide +kernel)

-- Handle 0 is handed out with object 0; the child maps it at 4096. Handle 1 gives NULL.
example : run2.held[0]? = some (some 0) ∧ run2.sys.procs.length = 2 ∧
    (resolve 1 0 above run2.sys).2 = 4096 ∧ (resolve 1 1 above run2.sys).2 = 0 ∧
    (free 1 4096 above (resolve 1 0 above run2.sys).1).isSome = true := by decide +kernel

/-! ## Where the code does not do as it says -/

/-- When `mmap` fails, the pointer which is given is `MAP_FAILED` and not NULL. Nothing is mapped. -/
theorem map_failure_unseen : (resolve 1 0 (fun _ => .failed) run2.sys).2 = mapFailed ∧
    (resolve 1 0 (fun _ => .failed) run2.sys).1.procs.all (fun q => q.maps == []) = true := by decide +kernel

/-- When `ftruncate` fails, a handle is handed out although no shared memory was made. -/
theorem truncate_failure_unseen : let r := masterAllocate 0 100 (.truncFail 7) (start 1 [])
    r.2 = some 0 ∧ r.1.files = [] ∧ (resolve 0 0 above r.1).2 = 0 := by decide +kernel

/-- An allocation of 0 bytes is accepted; its handle gives NULL, is handed out again at once, and the
shared memory made for it is never unlinked. -/
theorem zero_size_leaks : let r := masterAllocate 0 0 (.made 7) (start 1 [])
    r.2 = some 0 ∧ (resolve 0 0 above r.1).2 = 0 ∧
    (masterAllocate 0 0 (.made 8) r.1).2 = some 0 ∧
    (masterDestroy 0 (masterAllocate 0 0 (.made 8) r.1).1).files = [(8, 1), (7, 0)] := by decide +kernel

/-- The names which a process still has to unlink at exit are forgotten when any shared memory is freed:
the first of two allocations is freed, and the second is left in the system. -/
theorem cleanup_forgets :
    ∃ s, masterFree 0 0 (masterAllocate 0 100 (.made 8) (masterAllocate 0 100 (.made 7) (start 1 [])).1).1 = some s ∧
      (holdersCleanup 0 s).files = [(8, 1)] := by
  refine ⟨_, rfl, ?_⟩
  decide +kernel

/-- The same in general: after any free, a process with no files of these names in the root directory
unlinks nothing at exit. -/
theorem cleanup_forgets_all (p h : Nat) (s s' : Sys) (q : Proc) (hq : s.procs[p]? = some q)
    (hroot : ∀ x ∈ q.holders, x.name ∉ s.root) (hf : masterFree p h s = some s') :
    (holdersCleanup p s').files = s'.files := by
  obtain ⟨e, he, hz, rfl⟩ := masterFree_eq hf
  unfold holdersCleanup
  have : (unregisterUnlink p e.name s).procs[p]? = some (maintain s.root e.name q) := by
    unfold unregisterUnlink Sys.onProc unlink
    simp [List.getElem?_modify, hq]
  have hnil : (maintain s.root e.name q).holders = [] := by
    unfold maintain
    simp only
    rw [List.filter_eq_nil_iff]
    intro x hx
    simp [hroot x hx]
  simp only [this, hnil, List.any_nil, Bool.not_false]
  show List.filter (fun f => true) _ = _
  simp

/-- **A child leaves what its parent made.** At exit a process unlinks exactly the names it has itself registered. -/
theorem cleanup_own (p : Nat) (s : Sys) (q : Proc) (hq : s.procs[p]? = some q) (f : Nat × Nat) :
    f ∈ (holdersCleanup p s).files ↔ f ∈ s.files ∧ (⟨q.pid, f.1⟩ : Holder) ∉ q.holders := by
  have : (holdersCleanup p s).files = s.files.filter fun f => !(q.holders.any fun x => x.pid == q.pid && x.name == f.1) := by
    unfold holdersCleanup
    rw [hq]
    rfl
  rw [this, List.mem_filter]
  apply and_congr_right
  intro _
  simp only [Bool.not_eq_true', List.any_eq_false, Bool.and_eq_true, beq_iff_eq, not_and]
  constructor
  · intro h hc
    exact h _ hc rfl rfl
  · rintro h ⟨a, b⟩ hx ha hb
    simp only at ha hb
    subst ha hb
    exact h hx

/-- A child with another pid than those in the list it got from its parent unlinks nothing of the parent. -/
theorem child_cleanup_nothing (p pid : Nat) (s : Sys) (q : Proc) (hq : s.procs[p]? = some q) (hpid : ∀ x ∈ q.holders, x.pid ≠ pid) :
    ∀ f, f ∈ (holdersCleanup s.procs.length (fork p pid s)).files ↔ f ∈ s.files := by
  intro f
  have hf : fork p pid s = { s with procs := s.procs ++ [{ q with pid := pid }] } := by
    unfold fork
    rw [hq]
  rw [hf, cleanup_own _ _ { q with pid := pid } (by simp) f]
  constructor
  · exact fun h => h.1
  · exact fun h => ⟨h, fun hc => hpid _ hc rfl⟩

example : (holdersCleanup 1 (fork 0 5 (masterAllocate 0 100 (.made 7) (start 4 [])).1)).files = [(7, 0)]
    ∧ (holdersCleanup 0 (fork 0 5 (masterAllocate 0 100 (.made 7) (start 4 [])).1)).files = [] := by
  constructor <;> rfl

/-- **Clean exit, in part.** A process which has only allocated unlinks all of it at exit. Missing:
processes which have also freed, see `cleanup_forgets`. -/
theorem cleanup_exact_partial (pid : Nat) (root : List Nat) (l : List (Nat × Created))
    (hl : ∀ x ∈ l, ∀ n, x.2 ≠ .truncFail n) :
    (holdersCleanup 0 (l.foldl (fun s x => (masterAllocate 0 x.1 x.2 s).1) (start pid root))).files = [] := by
  have key : ∀ (l : List (Nat × Created)) (s : Sys), (∀ x ∈ l, ∀ n, x.2 ≠ .truncFail n) →
      (∃ q, s.procs[0]? = some q ∧ ∀ f ∈ s.files, ⟨q.pid, f.1⟩ ∈ q.holders) →
      ∃ q, (l.foldl (fun s x => (masterAllocate 0 x.1 x.2 s).1) s).procs[0]? = some q ∧
        ∀ f ∈ (l.foldl (fun s x => (masterAllocate 0 x.1 x.2 s).1) s).files, ⟨q.pid, f.1⟩ ∈ q.holders := by
    intro l
    induction l with
    | nil => intro s _ h; exact h
    | cons x l ih =>
      rintro s hl ⟨q, hq, hf⟩
      rw [List.foldl_cons]
      apply ih _ (fun y hy => hl y (List.mem_cons_of_mem _ hy))
      have hx := hl x List.mem_cons_self
      unfold masterAllocate
      cases s.elems.findIdx? fun e => e.size == 0 with
      | none => exact ⟨q, hq, hf⟩
      | some i =>
        obtain ⟨size, c⟩ := x
        cases c with
        | openFail => exact ⟨q, hq, hf⟩
        | truncFail n => exact absurd rfl (hx n)
        | made name =>
          refine ⟨{ q with holders := q.holders ++ [⟨q.pid, name⟩] }, ?_, ?_⟩
          · simp [openCreate, register, Sys.onProc, List.getElem?_modify, hq]
          · intro f hfm
            have hfm' : f ∈ (name, s.objs.length) :: s.files := hfm
            rcases List.mem_cons.mp hfm' with rfl | hfm'
            · exact List.mem_append_right _ List.mem_cons_self
            · exact List.mem_append_left _ (hf f hfm')
  obtain ⟨q, hq, hf⟩ := key l (start pid root) hl ⟨_, rfl, by intro f hf; cases hf⟩
  unfold holdersCleanup
  rw [hq]
  show List.filter _ _ = []
  rw [List.filter_eq_nil_iff]
  intro f hfm
  simp only [Bool.not_eq_true', Bool.not_eq_false, List.any_eq_true]
  exact ⟨_, hf f hfm, by simp⟩

example : (holdersCleanup 0 ([(100, .made 7), (50, .openFail), (20, .made 8)].foldl
    (fun s x => (masterAllocate 0 x.1 x.2 s).1) (start 1 []))).files = [] := by decide +kernel

/-- One process frees the handle 0 and allocates 100 bytes with the same name again, many times. -/
def churn : Nat → Sys → Sys
  | 0, s => s
  | n + 1, s => (masterAllocate 0 100 (.made 7) ((masterFree 0 0 (churn n s)).getD s)).1

/-- A state with one handle and two processes -/
def form (objs : List Nat) (ver v : Nat) (es : List Elem) (q0 q1 : Proc) : Sys :=
  { objs := objs, files := [(7, objs.length - 1)], root := [], ver := ver, elems := ⟨7, 100, v⟩ :: es,
    procs := [q0, q1] }

theorem churn_one (objs : List Nat) (ver v : Nat) (es : List Elem) (q0 q1 : Proc) (s : Sys) :
    (masterAllocate 0 100 (.made 7) ((masterFree 0 0 (form objs ver v es q0 q1)).getD s)).1 =
      form (objs ++ [100]) (next (next ver)) (next (next v)) es { q0 with holders := [⟨q0.pid, 7⟩] } q1 := by
  simp [masterFree, form, cleanup, unregisterUnlink, unlink, Sys.onProc, maintain, masterAllocate,
    openCreate, register, List.findIdx?_cons]

theorem next_next (v n : Nat) : next (next ((v + 2 * n) % 2 ^ 32)) = (v + 2 * (n + 1)) % 2 ^ 32 := by
  unfold next
  omega

theorem churn_form (objs : List Nat) (ver v : Nat) (es : List Elem) (q0 q1 : Proc) (hv : ver < 2 ^ 32)
    (hv' : v < 2 ^ 32) : ∀ n, ∃ objs' q0', (objs'.length = objs.length + n) ∧
    churn n (form objs ver v es q0 q1) =
      form objs' ((ver + 2 * n) % 2 ^ 32) ((v + 2 * n) % 2 ^ 32) es q0' q1 := by
  intro n
  induction n with
  | zero =>
    refine ⟨objs, q0, rfl, ?_⟩
    rw [Nat.mul_zero, Nat.add_zero, Nat.add_zero, Nat.mod_eq_of_lt hv, Nat.mod_eq_of_lt hv']
    rfl
  | succ n ih =>
    obtain ⟨objs', q0', h1, h2⟩ := ih
    refine ⟨objs' ++ [100], { q0' with holders := [⟨q0'.pid, 7⟩] }, by simp [h1]; omega, ?_⟩
    rw [churn, h2, churn_one, next_next, next_next]

theorem resolve_unseen (objs : List Nat) (v : Nat) (es : List Elem) (q0 q1 : Proc) (k : Kernel) (t : Ptr)
    (ts : List Ptr) (ht : q1.ptrs = t :: ts) :
    (resolve 1 0 k (form objs q1.ver v es q0 q1)).2 = t.ptr ∧
    (resolve 1 0 k (form objs q1.ver v es q0 q1)).1.procs[1]? = some q1 := by
  simp [resolve, form, refresh, Sys.onProc, ht]

/-- Versions wrap: when a process does not look for 2^32 changes, it gets the old pointer, and the old
object is mapped there although another one is handed out. -/
theorem versions_wrap : let s := (resolve 1 0 above run2.sys).1
    (resolve 1 0 above run2.sys).2 = 4096 ∧
    (resolve 1 0 above (churn (2 ^ 31) s)).2 = 4096 ∧
    ((resolve 1 0 above (churn (2 ^ 31) s)).1.procs[1]?.map (·.maps)) = some [⟨4096, 0, 100⟩] ∧
    (churn (2 ^ 31) s).files = [(7, 2 ^ 31)] := by
  intro s
  have hs : ∃ (es : List Elem) (q0 q1 : Proc) (ts : List Ptr), s = form [100] q1.ver 1 es q0 q1 ∧ q1.ver = 1 ∧
      q1.ptrs = ⟨4096, 100, 1⟩ :: ts ∧ q1.maps = [⟨4096, 0, 100⟩] := by
    refine ⟨List.replicate 191 ⟨0, 0, 0⟩,
      { pid := 1, ver := 2 ^ 32 - 1, ptrs := List.replicate 192 ⟨0, 0, 0⟩, maps := [], holders := [⟨1, 7⟩] },
      { pid := 2, ver := 1, ptrs := ⟨4096, 100, 1⟩ :: List.replicate 191 ⟨0, 0, 0⟩, maps := [⟨4096, 0, 100⟩],
        holders := [⟨1, 7⟩] }, List.replicate 191 ⟨0, 0, 0⟩, ?_, rfl, rfl, rfl⟩
    show (resolve 1 0 above run2.sys).1 = _
    decide +kernel
  have hres : (resolve 1 0 above run2.sys).2 = 4096 := by decide +kernel
  obtain ⟨es, q0, q1, ts, hs, hver, hts, hmaps⟩ := hs
  obtain ⟨objs', q0', h1, h2⟩ := churn_form [100] q1.ver 1 es q0 q1 (by rw [hver]; decide) (by decide) (2 ^ 31)
  rw [← hs] at h2
  have hv : (q1.ver + 2 * 2 ^ 31) % 2 ^ 32 = q1.ver := by rw [hver]
  rw [hv] at h2
  have hu := resolve_unseen objs' ((1 + 2 * 2 ^ 31) % 2 ^ 32) es q0' q1 above _ ts hts
  refine ⟨hres, ?_, ?_, ?_⟩
  · rw [h2]
    exact hu.1
  · rw [h2, hu.2, Option.map_some, hmaps]
  · rw [h2]
    simp only [form, h1]
    rfl

end Verif.Shm
