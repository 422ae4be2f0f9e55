import Verif.Shm.Lemmas
/-! The invariant of shared memory. -/
namespace Verif.Shm

/-- A pointer gives what is handed out. -/
def Matches (held : Option Nat) (e : Elem) (t : Ptr) (maps : List Map) : Prop := match held with
  | none => t.ptr = 0
  | some o => ⟨t.ptr, o, e.size⟩ ∈ maps ∧ t.ptr ≠ 0

/-- A process which is `b` changes behind. -/
structure ProcOk (ver : Nat) (elems : List Elem) (held : List (Option Nat)) (b : Nat) (q : Proc) : Prop where
  bound : b < 2 ^ 32
  small : q.ver < 2 ^ 32
  vers : (q.ver + b) % 2 ^ 32 = ver
  len : q.ptrs.length = maxElems
  own : Own q.maps q.ptrs
  each : ∀ (i : Nat) (t : Ptr) (e : Elem) (x : Option Nat), q.ptrs[i]? = some t → elems[i]? = some e →
    held[i]? = some x → t.ver < 2 ^ 32 ∧ ∃ d, d ≤ b ∧ (t.ver + d) % 2 ^ 32 = e.ver ∧
      (d = 0 → Matches x e t q.maps)

/-- An element of the master has what is handed out. -/
def ElemOk (objs : List Nat) (files : List (Nat × Nat)) (x : Option Nat) (e : Elem) : Prop :=
  match x with
  | none => e.size = 0
  | some o => 0 < e.size ∧ files.lookup e.name = some o ∧ objs[o]? = some e.size

structure Inv (w : World) : Prop where
  elen : w.sys.elems.length = maxElems
  hlen : w.held.length = maxElems
  blen : w.behind.length = w.sys.procs.length
  ver : w.sys.ver < 2 ^ 32
  vers : ∀ e ∈ w.sys.elems, e.ver < 2 ^ 32
  elem : ∀ (i : Nat) (e : Elem) (x : Option Nat), w.sys.elems[i]? = some e → w.held[i]? = some x →
    ElemOk w.sys.objs w.sys.files x e
  dist : ∀ (i j o : Nat), w.held[i]? = some (some o) → w.held[j]? = some (some o) → i = j
  files : ∀ f ∈ w.sys.files, ∃ (i : Nat) (e : Elem), w.held[i]? = some (some f.2) ∧
    w.sys.elems[i]? = some e ∧ e.name = f.1
  procs : ∀ (p : Nat) (q : Proc) (b : Nat), w.sys.procs[p]? = some q → w.behind[p]? = some b →
    ProcOk w.sys.ver w.sys.elems w.held b q

theorem inv_start (pid : Nat) (root : List Nat) : Inv (.start pid root) where
  elen := by simp [World.start, start]
  hlen := by simp [World.start]
  blen := rfl
  ver := by show 0 < 2 ^ 32; decide
  vers e he := by
    simp only [World.start, start] at he
    rw [(List.mem_replicate.mp he).2]
    decide
  elem i e x he hx := by
    simp only [World.start, start] at he hx
    rw [List.getElem?_replicate] at he hx
    by_cases hm : i < maxElems
    · rw [if_pos hm] at he hx
      cases he; cases hx; exact rfl
    · rw [if_neg hm] at he
      cases he
  dist i j o hi _ := by
    simp only [World.start] at hi
    rw [List.getElem?_replicate] at hi
    split at hi <;> cases hi
  files f hf := by simp [World.start, start] at hf
  procs p q b hq hb := by
    cases p with
    | zero =>
      simp only [World.start, start, List.getElem?_cons_zero, Option.some.injEq] at hq hb
      subst hq; subst hb
      refine ⟨by decide, by show 2 ^ 32 - 1 < 2 ^ 32; decide, by show (2 ^ 32 - 1 + 1) % 2 ^ 32 = 0; decide, by simp, ⟨List.Pairwise.nil, by simp, ?_, ?_⟩, ?_⟩
      · intro t ht hz
        rw [(List.mem_replicate.mp ht).2] at hz
        exact absurd rfl hz
      · rw [List.pairwise_replicate]
        right
        intro h
        exact absurd rfl h
      · intro i t e x ht he hx
        rw [List.getElem?_replicate] at ht
        simp only [World.start, start] at he hx
        rw [List.getElem?_replicate] at he hx
        split at ht
        · rename_i hi
          rw [if_pos hi] at he hx
          cases ht; cases he; cases hx
          exact ⟨by decide, 0, by omega, rfl, fun _ => rfl⟩
        · cases ht
    | succ p => simp [World.start, start] at hq

theorem onProc_get {s : Sys} {p p' : Nat} {f : Proc → Proc} {q : Proc}
    (h : (s.onProc p f).procs[p']? = some q) :
    ∃ q0, s.procs[p']? = some q0 ∧ q = if p = p' then f q0 else q0 := by
  unfold Sys.onProc at h
  simp only at h
  rw [List.getElem?_modify] at h
  cases hq : s.procs[p']? with
  | none => rw [hq] at h; simp at h
  | some q0 =>
    rw [hq] at h
    refine ⟨q0, rfl, ?_⟩
    by_cases hp : p = p'
    · simp [hp] at h ⊢; exact h.symm
    · simp [hp] at h ⊢; exact h.symm

/-- Only the holders of processes change. -/
def SameProcs (s s' : Sys) : Prop :=
  s'.procs.length = s.procs.length ∧
  ∀ (p : Nat) (q : Proc), s'.procs[p]? = some q → ∃ q0, s.procs[p]? = some q0 ∧ q.pid = q0.pid ∧
    q.ver = q0.ver ∧ q.ptrs = q0.ptrs ∧ q.maps = q0.maps

theorem SameProcs.refl (s : Sys) : SameProcs s s := ⟨rfl, fun _ q h => ⟨q, h, rfl, rfl, rfl, rfl⟩⟩

theorem SameProcs.trans {a b c : Sys} (h : SameProcs a b) (h' : SameProcs b c) : SameProcs a c := by
  refine ⟨h'.1.trans h.1, ?_⟩
  intro p q hq
  obtain ⟨q1, a1, a2, a3, a4, a5⟩ := h'.2 p q hq
  obtain ⟨q0, b1, b2, b3, b4, b5⟩ := h.2 p q1 a1
  exact ⟨q0, b1, a2.trans b2, a3.trans b3, a4.trans b4, a5.trans b5⟩

theorem sameProcs_onProc (s : Sys) (p : Nat) (f : Proc → Proc)
    (hf : ∀ q, (f q).pid = q.pid ∧ (f q).ver = q.ver ∧ (f q).ptrs = q.ptrs ∧ (f q).maps = q.maps) :
    SameProcs s (s.onProc p f) := by
  refine ⟨by simp [Sys.onProc], ?_⟩
  intro p' q hq
  obtain ⟨q0, h0, e⟩ := onProc_get hq
  refine ⟨q0, h0, ?_⟩
  subst e
  split
  · exact hf q0
  · exact ⟨rfl, rfl, rfl, rfl⟩

theorem procOk_same {ver : Nat} {elems : List Elem} {held : List (Option Nat)} {b : Nat} {q q0 : Proc}
    (h : ProcOk ver elems held b q0) (h1 : q.ver = q0.ver) (h2 : q.ptrs = q0.ptrs) (h3 : q.maps = q0.maps) :
    ProcOk ver elems held b q where
  bound := h.bound
  small := by rw [h1]; exact h.small
  vers := by rw [h1]; exact h.vers
  len := by rw [h2]; exact h.len
  own := by rw [h2, h3]; exact h.own
  each := by rw [h2, h3]; exact h.each

theorem mod_next (a b v : Nat) (h : (a + b) % 2 ^ 32 = v) : (a + (b + 1)) % 2 ^ 32 = next v := by
  unfold next
  omega

/-- A change of one element. -/
theorem procOk_change {ver : Nat} {elems : List Elem} {held : List (Option Nat)} {b : Nat} {q : Proc}
    (h : ProcOk ver elems held b q) (hb : b + 1 < 2 ^ 32) (i : Nat) (e0 e' : Elem) (x : Option Nat)
    (he0 : elems[i]? = some e0) (hve : e'.ver = next e0.ver) :
    ProcOk (next ver) (elems.set i e') (held.set i x) (b + 1) q where
  bound := hb
  small := h.small
  vers := mod_next _ _ _ h.vers
  len := h.len
  own := h.own
  each := by
    intro j t e y ht he hy
    by_cases hij : i = j
    · subst hij
      have hi : i < elems.length := (List.getElem?_eq_some_iff.mp he0).1
      rw [List.getElem?_set_self hi, Option.some.injEq] at he
      subst he
      have hih : i < held.length := by
        have := (List.getElem?_eq_some_iff.mp hy).1
        simpa using this
      obtain ⟨a1, d, a2, a3, a4⟩ := h.each i t e0 held[i] ht he0 (List.getElem?_eq_getElem hih)
      refine ⟨a1, d + 1, by omega, ?_, by omega⟩
      rw [hve]
      exact mod_next _ _ _ a3
    · rw [List.getElem?_set_ne hij] at he hy
      obtain ⟨a1, d, a2, a3, a4⟩ := h.each j t e y ht he hy
      exact ⟨a1, d, by omega, a3, a4⟩

theorem next_lt (v : Nat) : next v < 2 ^ 32 := by unfold next; omega

theorem lookup_filter_ne {files : List (Nat × Nat)} {n m : Nat} (h : n ≠ m) :
    (files.filter fun f => f.1 != m).lookup n = files.lookup n := by
  induction files with
  | nil => rfl
  | cons f files ih =>
    obtain ⟨a, b⟩ := f
    by_cases hm : a = m
    · subst hm
      have : (n == a) = false := by simpa using h
      rw [List.filter_cons_of_neg (by simp), ih, List.lookup_cons, this]
    · rw [List.filter_cons_of_pos (by simpa using hm), List.lookup_cons, List.lookup_cons, ih]

theorem inv_allocate {w : World} (hi : Inv w) (p size : Nat) (c : Created) (hs : 0 < size)
    (hc : c.Sane w.sys) (hr : w.Recent) : Inv (w.allocate p size c) := by
  unfold World.allocate masterAllocate
  cases hf : w.sys.elems.findIdx? fun e => e.size == 0 with
  | none => exact hi
  | some i =>
    rw [List.findIdx?_eq_some_iff_getElem] at hf
    obtain ⟨hlt, hz, _⟩ := hf
    have hz' : w.sys.elems[i].size = 0 := by simpa using hz
    have he0 : w.sys.elems[i]? = some w.sys.elems[i] := List.getElem?_eq_getElem hlt
    cases c with
    | openFail => exact hi
    | truncFail name => exact hc.elim
    | made name =>
      simp only [openCreate]
      have hih : i < w.held.length := by rw [hi.hlen, ← hi.elen]; exact hlt
      have hnone : w.held[i]? = some none := by
        have h1 := hi.elem i _ w.held[i] he0 (List.getElem?_eq_getElem hih)
        cases hx : w.held[i] with
        | none => rw [List.getElem?_eq_getElem hih, hx]
        | some o => rw [hx] at h1; have := h1.1; omega
      generalize he : w.sys.elems[i] = e0 at *
      have helems : w.sys.elems.modify i (fun e => { name := name, size := size, ver := next e.ver }) =
          w.sys.elems.set i { name := name, size := size, ver := next e0.ver } := by
        apply List.ext_getElem?
        intro j
        rw [List.getElem?_modify, List.getElem?_set]
        by_cases hij : i = j
        · subst hij
          rw [he0, if_pos rfl, if_pos hlt]
          simp
        · rw [if_neg hij]
          simp [hij]
      show Inv { sys := { register p name { w.sys with objs := w.sys.objs ++ [size], files := (name, w.sys.objs.length) :: w.sys.files } with
        elems := w.sys.elems.modify i (fun e => { name := name, size := size, ver := next e.ver }),
        ver := next w.sys.ver }, held := w.held.set i (some w.sys.objs.length), behind := w.behind.map (· + 1) }
      rw [helems]
      have hfresh : ∀ (j o : Nat), w.held[j]? = some (some o) → o < w.sys.objs.length ∧
          ∃ e : Elem, w.sys.elems[j]? = some e ∧ 0 < e.size ∧ w.sys.files.lookup e.name = some o ∧
            w.sys.objs[o]? = some e.size := by
        intro j o hj
        have hjl : j < w.sys.elems.length := by
          rw [hi.elen, ← hi.hlen]; exact (List.getElem?_eq_some_iff.mp hj).1
        have := hi.elem j _ _ (List.getElem?_eq_getElem hjl) hj
        exact ⟨(List.getElem?_eq_some_iff.mp this.2.2).1, _, List.getElem?_eq_getElem hjl, this⟩
      have hsame := sameProcs_onProc { w.sys with objs := w.sys.objs ++ [size], files := (name, w.sys.objs.length) :: w.sys.files } p
        (fun q => { q with holders := q.holders ++ [⟨q.pid, name⟩] }) (fun q => ⟨rfl, rfl, rfl, rfl⟩)
      refine ⟨by simp [hi.elen], by simp [hi.hlen], ?_, next_lt _, ?_, ?_, ?_, ?_, ?_⟩
      · simp only [List.length_map]
        rw [hi.blen]
        exact hsame.1.symm
      · intro e hem
        rcases List.mem_or_eq_of_mem_set hem with h1 | h1
        · exact hi.vers e h1
        · rw [h1]; exact next_lt _
      · intro j e x hej hxj
        by_cases hij : i = j
        · subst hij
          rw [List.getElem?_set_self hlt, Option.some.injEq] at hej
          rw [List.getElem?_set_self hih, Option.some.injEq] at hxj
          subst hej; subst hxj
          refine ⟨hs, ?_, ?_⟩
          · show List.lookup name ((name, w.sys.objs.length) :: w.sys.files) = _
            simp [List.lookup_cons]
          · show (w.sys.objs ++ [size])[w.sys.objs.length]? = _
            simp
        · simp only at hej hxj
          rw [List.getElem?_set_ne hij] at hej hxj
          have h1 := hi.elem j e x hej hxj
          cases x with
          | none => exact h1
          | some o =>
            obtain ⟨a1, a2, a3⟩ := h1
            refine ⟨a1, ?_, ?_⟩
            · show List.lookup e.name ((name, w.sys.objs.length) :: w.sys.files) = _
              have hne : (e.name == name) = false := by
                simp only [beq_eq_false_iff_ne]
                intro e'
                have hmem : (e.name, o) ∈ w.sys.files := by
                  have := List.lookup_eq_some_iff.mp a2
                  obtain ⟨l1, l2, h2, _⟩ := this
                  rw [h2]
                  simp
                exact hc _ hmem e'
              rw [List.lookup_cons, hne]
              exact a2
            · show (w.sys.objs ++ [size])[o]? = _
              rw [List.getElem?_append_left (hfresh j o hxj).1]
              exact a3
      · intro a b o ha hb
        simp only at ha hb
        rw [List.getElem?_set] at ha hb
        by_cases h1 : i = a
        · by_cases h2 : i = b
          · omega
          · rw [if_pos h1, if_pos hih] at ha
            rw [if_neg h2] at hb
            cases ha
            have := (hfresh b _ hb).1
            omega
        · rw [if_neg h1] at ha
          by_cases h2 : i = b
          · rw [if_pos h2, if_pos hih] at hb
            cases hb
            have := (hfresh a _ ha).1
            omega
          · rw [if_neg h2] at hb
            exact hi.dist a b o ha hb
      · intro f hfm
        rcases List.mem_cons.mp hfm with rfl | hfm
        · exact ⟨i, _, List.getElem?_set_self hih, List.getElem?_set_self hlt, rfl⟩
        · obtain ⟨j, e, h1, h2, h3⟩ := hi.files f hfm
          have hij : i ≠ j := by
            rintro rfl
            rw [hnone] at h1
            cases h1
          exact ⟨j, e, by rw [List.getElem?_set_ne hij]; exact h1, by
            show (w.sys.elems.set i _)[j]? = _
            rw [List.getElem?_set_ne hij]; exact h2, h3⟩
      · intro p' q b hq hb
        obtain ⟨q0, a1, a2, a3, a4, a5⟩ := hsame.2 p' q hq
        simp only [List.getElem?_map, Option.map_eq_some_iff] at hb
        obtain ⟨b0, hb0, rfl⟩ := hb
        refine procOk_same ?_ a3 a4 a5
        exact procOk_change (hi.procs p' q0 b0 a1 hb0) (hr b0 (List.mem_of_getElem? hb0)) i e0 _ _ he0 rfl

theorem masterFree_eq {p h : Nat} {s s' : Sys} (hf : masterFree p h s = some s') :
    ∃ e, s.elems[h]? = some e ∧ e.size ≠ 0 ∧
      s' = { (unregisterUnlink p e.name s) with
        elems := s.elems.set h { name := 0, size := 0, ver := next e.ver }, ver := next s.ver } := by
  unfold masterFree at hf
  cases he : s.elems[h]? with
  | none => rw [he] at hf; cases hf
  | some e =>
    rw [he] at hf
    simp only at hf
    by_cases hz : e.size = 0
    · rw [if_pos hz] at hf; cases hf
    · rw [if_neg hz] at hf
      refine ⟨e, rfl, hz, ?_⟩
      cases hf
      unfold cleanup
      rw [he]
      rfl

theorem inv_free {w : World} (hi : Inv w) (p h o : Nat) (s : Sys) (hh : w.held[h]? = some (some o))
    (hf : masterFree p h w.sys = some s) (hr : w.Recent) : Inv (w.freed h s) := by
  obtain ⟨e0, he0, hz, rfl⟩ := masterFree_eq hf
  have hlt : h < w.sys.elems.length := (List.getElem?_eq_some_iff.mp he0).1
  have hih : h < w.held.length := (List.getElem?_eq_some_iff.mp hh).1
  have hsame := sameProcs_onProc (unlink e0.name w.sys) p (maintain w.sys.root e0.name) (fun q => ⟨rfl, rfl, rfl, rfl⟩)
  have hok0 := hi.elem h e0 _ he0 hh
  refine ⟨by simp [World.freed, hi.elen], by simp [World.freed, hi.hlen], ?_, next_lt _, ?_, ?_, ?_, ?_, ?_⟩
  · simp only [World.freed, List.length_map]
    rw [hi.blen]
    exact hsame.1.symm
  · intro e hem
    rcases List.mem_or_eq_of_mem_set hem with h1 | h1
    · exact hi.vers e h1
    · rw [h1]; exact next_lt _
  · intro j e x hej hxj
    simp only [World.freed] at hej hxj
    by_cases hij : h = j
    · subst hij
      rw [List.getElem?_set_self hlt, Option.some.injEq] at hej
      rw [List.getElem?_set_self hih, Option.some.injEq] at hxj
      subst hej; subst hxj
      exact rfl
    · rw [List.getElem?_set_ne hij] at hej hxj
      have h1 := hi.elem j e x hej hxj
      cases x with
      | none => exact h1
      | some o' =>
        obtain ⟨a1, a2, a3⟩ := h1
        refine ⟨a1, ?_, a3⟩
        show List.lookup e.name (w.sys.files.filter fun f => f.1 != e0.name) = _
        rw [lookup_filter_ne]
        · exact a2
        · intro e'
          rw [e'] at a2
          have := hok0.2.1
          rw [a2] at this
          cases this
          exact hij (hi.dist h j o hh hxj)
  · intro a b o' ha hb
    simp only [World.freed] at ha hb
    rw [List.getElem?_set] at ha hb
    by_cases h1 : h = a
    · rw [if_pos h1, if_pos hih] at ha; cases ha
    · by_cases h2 : h = b
      · rw [if_pos h2, if_pos hih] at hb; cases hb
      · rw [if_neg h1] at ha
        rw [if_neg h2] at hb
        exact hi.dist a b o' ha hb
  · intro f hfm
    have hfm' : f ∈ w.sys.files.filter fun f => f.1 != e0.name := hfm
    rw [List.mem_filter] at hfm'
    obtain ⟨j, e, h1, h2, h3⟩ := hi.files f hfm'.1
    have hij : h ≠ j := by
      rintro rfl
      rw [he0] at h2
      cases h2
      rw [h3] at hfm'
      simp at hfm'
    refine ⟨j, e, ?_, ?_, h3⟩
    · simp only [World.freed]; rw [List.getElem?_set_ne hij]; exact h1
    · show (w.sys.elems.set h _)[j]? = _
      rw [List.getElem?_set_ne hij]; exact h2
  · intro p' q b hq hb
    obtain ⟨q0, a1, a2, a3, a4, a5⟩ := hsame.2 p' q hq
    simp only [World.freed, List.getElem?_map, Option.map_eq_some_iff] at hb
    obtain ⟨b0, hb0, rfl⟩ := hb
    refine procOk_same ?_ a3 a4 a5
    exact procOk_change (hi.procs p' q0 b0 a1 hb0) (hr b0 (List.mem_of_getElem? hb0)) h e0 _ _ he0 rfl

theorem zero_of_mod {a d : Nat} (_ha : a < 2 ^ 32) (hd : d < 2 ^ 32) (h : (a + d) % 2 ^ 32 = a) : d = 0 := by
  omega

/-- Looking at the changes, for one process. -/
theorem refresh_ok {w : World} (hi : Inv w) {p : Nat} {q : Proc} {b : Nat} (hq : w.sys.procs[p]? = some q)
    (hb : w.behind[p]? = some b) {k : Kernel} (hk : k.Sane) :
    ProcOk w.sys.ver w.sys.elems w.held (if (refresh w.sys k q).2 then 0 else b) (refresh w.sys k q).1 ∧
    (∀ (i : Nat) (t : Ptr) (e : Elem), q.ptrs[i]? = some t → w.sys.elems[i]? = some e → t.ver = e.ver →
      (refresh w.sys k q).1.ptrs[i]? = some t) ∧
    (k.Works → (refresh w.sys k q).2 = true) := by
  have hpo := hi.procs p q b hq hb
  unfold refresh
  by_cases hv : q.ver = w.sys.ver
  · rw [if_pos hv]
    have hb0 : b = 0 := by
      apply zero_of_mod hpo.small hpo.bound
      rw [hpo.vers, hv]
    subst hb0
    refine ⟨?_, fun i t e ht _ _ => ht, fun _ => rfl⟩
    simpa using hpo
  · rw [if_neg hv]
    obtain ⟨r1, r2, _, r4, r5⟩ := refreshLoop_spec (files := w.sys.files) hk q.ptrs w.sys.elems q.maps []
      (by rw [List.append_nil]; exact hpo.own)
    rw [List.append_nil] at r1
    have hok : k.Works → (refreshLoop w.sys.files k q.maps q.ptrs w.sys.elems).2.2 = true := by
      intro hw
      apply r5 hw
      intro e he hs
      obtain ⟨i, hil, rfl⟩ := List.getElem_of_mem he
      have hih : i < w.held.length := by rw [hi.hlen, ← hi.elen]; exact hil
      have := hi.elem i _ _ (List.getElem?_eq_getElem hil) (List.getElem?_eq_getElem hih)
      cases hx : w.held[i] with
      | none => rw [hx] at this; exact absurd this hs
      | some o => rw [hx] at this; exact ⟨o, this.2.1⟩
    generalize refreshLoop w.sys.files k q.maps q.ptrs w.sys.elems = r at *
    obtain ⟨m, ts, ok⟩ := r
    simp only at *
    have hold : ∀ (i : Nat) (t' : Ptr), ts[i]? = some t' → ∃ t, q.ptrs[i]? = some t := by
      intro i t' h
      have : i < q.ptrs.length := by rw [← r2]; exact (List.getElem?_eq_some_iff.mp h).1
      exact ⟨_, List.getElem?_eq_getElem this⟩
    have hevlt : ∀ (i : Nat) (e : Elem), w.sys.elems[i]? = some e → e.ver < 2 ^ 32 :=
      fun i e h => hi.vers e (List.mem_of_getElem? h)
    -- a fresh pointer matches
    have hfresh : ∀ (i : Nat) (t' : Ptr) (e : Elem) (x : Option Nat), w.sys.elems[i]? = some e →
        w.held[i]? = some x → Fresh w.sys.files e t' m → Matches x e t' m := by
      intro i t' e x he hx ⟨_, hf⟩
      have hel := hi.elem i e x he hx
      cases x with
      | none => rw [if_pos (show e.size = 0 from hel)] at hf; exact hf
      | some o =>
        have hpos := hel.1
        rw [if_neg (by omega)] at hf
        obtain ⟨o', h1, h2, h3⟩ := hf
        rw [hel.2.1] at h1
        cases h1
        exact ⟨h2, h3⟩
    have hkept : ∀ (x : Option Nat) (e : Elem) (t : Ptr), Kept t q.maps m → Matches x e t q.maps →
        Matches x e t m := by
      intro x e t h1 h2
      cases x with
      | none => exact h2
      | some o => exact ⟨h1 h2.2 _ h2.1 rfl, h2.2⟩
    have hkeep : ∀ (i : Nat) (t : Ptr) (e : Elem), q.ptrs[i]? = some t → w.sys.elems[i]? = some e →
        t.ver = e.ver → ts[i]? = some t := by
      intro i t e ht he hve
      have hlt : i < ts.length := by rw [r2]; exact (List.getElem?_eq_some_iff.mp ht).1
      have ht' := List.getElem?_eq_getElem hlt
      rcases r4 i t _ e ht he ht' with ⟨a1, _, _⟩ | ⟨_, a, _⟩ | ⟨a, _⟩
      · rw [ht', a1]
      · exact absurd hve a
      · exact absurd hve a
    cases ok with
    | true =>
      simp only [if_true]
      refine ⟨⟨by omega, hi.ver, ?_, by rw [← hpo.len]; exact r2, r1, ?_⟩, hkeep, fun _ => trivial⟩
      · show (w.sys.ver + 0) % 2 ^ 32 = w.sys.ver
        rw [Nat.add_zero, Nat.mod_eq_of_lt hi.ver]
      · intro i t' e x ht' he hx
        simp only at ht'
        obtain ⟨t, ht⟩ := hold i t' ht'
        obtain ⟨c1, d, c2, c3, c4⟩ := hpo.each i t e x ht he hx
        rcases r4 i t t' e ht he ht' with ⟨a1, a2, a3⟩ | ⟨a, _⟩ | ⟨_, a⟩
        · subst a1
          have hve := a3 rfl
          have hd : d = 0 := by
            have hb' := hpo.bound
            apply zero_of_mod c1 (by omega)
            rw [c3, hve]
          exact ⟨c1, 0, by omega, by rw [Nat.add_zero, Nat.mod_eq_of_lt c1, hve],
            fun _ => hkept x e t' a2 (c4 hd)⟩
        · cases a
        · refine ⟨by rw [a.1]; exact hevlt i e he, 0, by omega, ?_, fun _ => hfresh i t' e x he hx a⟩
          rw [a.1, Nat.add_zero, Nat.mod_eq_of_lt (hevlt i e he)]
    | false =>
      simp only [Bool.false_eq_true, if_false]
      refine ⟨⟨hpo.bound, hpo.small, hpo.vers, by rw [← hpo.len]; exact r2, r1, ?_⟩, hkeep, ?_⟩
      · intro i t' e x ht' he hx
        simp only at ht'
        obtain ⟨t, ht⟩ := hold i t' ht'
        obtain ⟨c1, d, c2, c3, c4⟩ := hpo.each i t e x ht he hx
        rcases r4 i t t' e ht he ht' with ⟨a1, a2, _⟩ | ⟨_, a1, a2, a3⟩ | ⟨_, a⟩
        · subst a1
          exact ⟨c1, d, c2, c3, fun h => hkept x e t' a2 (c4 h)⟩
        · refine ⟨by rw [a3]; exact c1, d, c2, by rw [a3]; exact c3, ?_⟩
          intro hd
          subst hd
          rw [Nat.add_zero, Nat.mod_eq_of_lt c1] at c3
          exact absurd c3 a1
        · refine ⟨by rw [a.1]; exact hevlt i e he, 0, by omega, ?_, fun _ => hfresh i t' e x he hx a⟩
          rw [a.1, Nat.add_zero, Nat.mod_eq_of_lt (hevlt i e he)]
      · intro hw
        have := hok hw
        cases this

theorem resolve_sys {p h : Nat} {k : Kernel} {s : Sys} {q : Proc} (hq : s.procs[p]? = some q) :
    (resolve p h k s).1 = s.onProc p fun _ => (refresh s k q).1 := by
  unfold resolve
  rw [hq]

theorem inv_resolve {w : World} (hi : Inv w) (p h : Nat) {k : Kernel} (hk : k.Sane)
    (hp : p < w.sys.procs.length) : Inv (w.looked p k (resolve p h k w.sys).1) := by
  have hq : w.sys.procs[p]? = some w.sys.procs[p] := List.getElem?_eq_getElem hp
  have hpb : p < w.behind.length := by rw [hi.blen]; exact hp
  have hb : w.behind[p]? = some w.behind[p] := List.getElem?_eq_getElem hpb
  obtain ⟨h1, _, _⟩ := refresh_ok hi hq hb hk
  rw [resolve_sys hq]
  unfold World.looked
  rw [hq]
  simp only
  generalize w.sys.procs[p] = q at *
  refine ⟨hi.elen, hi.hlen, ?_, hi.ver, hi.vers, hi.elem, hi.dist, hi.files, ?_⟩
  · simp only [Sys.onProc, List.length_modify]
    split <;> simp [hi.blen]
  · intro p' q' b' hq' hb'
    obtain ⟨q0, a1, a2⟩ := onProc_get hq'
    by_cases hpp : p = p'
    · subst hpp
      rw [if_pos rfl] at a2
      subst a2
      have : b' = if (refresh w.sys k q).2 then 0 else w.behind[p] := by
        simp only at hb'
        by_cases hr : (refresh w.sys k q).2 = true
        · rw [if_pos hr] at hb' ⊢
          rw [List.getElem?_set_self hpb] at hb'
          cases hb'; rfl
        · rw [if_neg hr] at hb' ⊢
          rw [hb] at hb'
          cases hb'; rfl
      rw [this]
      exact h1
    · rw [if_neg hpp] at a2
      subst a2
      apply hi.procs p' q' b' a1
      simp only at hb'
      split at hb'
      · rw [List.getElem?_set_ne hpp] at hb'; exact hb'
      · exact hb'

theorem inv_fork {w : World} (hi : Inv w) (p pid b : Nat) (hp : p < w.sys.procs.length)
    (hb : w.behind[p]? = some b) :
    Inv { w with sys := fork p pid w.sys, behind := w.behind ++ [b] } := by
  have hq : w.sys.procs[p]? = some w.sys.procs[p] := List.getElem?_eq_getElem hp
  generalize w.sys.procs[p] = q at hq
  unfold fork
  rw [hq]
  refine ⟨hi.elen, hi.hlen, by simp [hi.blen], hi.ver, hi.vers, hi.elem, hi.dist, hi.files, ?_⟩
  intro p' q' b' hq' hb'
  simp only at hq' hb'
  by_cases hlt : p' < w.sys.procs.length
  · rw [List.getElem?_append_left hlt] at hq'
    rw [List.getElem?_append_left (by rw [hi.blen]; exact hlt)] at hb'
    exact hi.procs p' q' b' hq' hb'
  · rw [List.getElem?_append_right (by omega)] at hq'
    rw [List.getElem?_append_right (by rw [hi.blen]; omega), hi.blen] at hb'
    cases hn : p' - w.sys.procs.length with
    | zero =>
      rw [hn] at hq' hb'
      cases hq'; cases hb'
      exact procOk_same (hi.procs p q b hq hb) rfl rfl rfl
    | succ n => rw [hn] at hq'; cases hq'

theorem forkUnregister_same (p : Nat) (s : Sys) : ∃ procs, forkUnregister p s = { s with procs := procs } ∧
    SameProcs s (forkUnregister p s) := by
  unfold forkUnregister
  have : ∀ (es : List Elem) (s' : Sys), (∃ procs, s' = { s with procs := procs } ∧ SameProcs s s') →
      ∃ procs, es.foldl (fun s' e => if e.size ≠ 0 then s'.onProc p (maintain s.root e.name) else s') s' =
        { s with procs := procs } ∧ SameProcs s (es.foldl (fun s' e =>
          if e.size ≠ 0 then s'.onProc p (maintain s.root e.name) else s') s') := by
    intro es
    induction es with
    | nil => intro s' h; exact h
    | cons e es ih =>
      rintro s' ⟨procs, h1, h2⟩
      rw [List.foldl_cons]
      apply ih
      split
      · refine ⟨(s'.onProc p (maintain s.root e.name)).procs, ?_, ?_⟩
        · rw [h1]; rfl
        · exact h2.trans (sameProcs_onProc _ _ _ (fun q => ⟨rfl, rfl, rfl, rfl⟩))
      · exact ⟨procs, h1, h2⟩
  exact this s.elems s ⟨s.procs, rfl, .refl s⟩

theorem inv_unregister {w : World} (hi : Inv w) (p : Nat) : Inv { w with sys := forkUnregister p w.sys } := by
  obtain ⟨procs, h1, h2⟩ := forkUnregister_same p w.sys
  have h3 := h2.1
  have h4 := h2.2
  rw [h1] at h3 h4 ⊢
  refine ⟨hi.elen, hi.hlen, ?_, hi.ver, hi.vers, hi.elem, hi.dist, hi.files, ?_⟩
  · exact hi.blen.trans h3.symm
  · intro p' q b hq hb
    obtain ⟨q0, a1, a2, a3, a4, a5⟩ := h4 p' q hq
    exact procOk_same (hi.procs p' q0 b a1 hb) a3 a4 a5

theorem inv_step {w w' : World} (hi : Inv w) (h : Step w w') : Inv w' := by
  cases h with
  | allocate p size c hs hc hr hp => exact inv_allocate hi p size c hs hc hr
  | free p h o s hh hf hr => exact inv_free hi p h o s hh hf hr
  | resolve p h k hk hp => exact inv_resolve hi p h hk hp
  | fork p pid b hp hb => exact inv_fork hi p pid b hp hb
  | unregister p => exact inv_unregister hi p

theorem inv_reach {root : List Nat} {w : World} (h : Reach root w) : Inv w := by
  induction h with
  | start pid => exact inv_start pid root
  | step w w' _ hs ih => exact inv_step ih hs

end Verif.Shm
