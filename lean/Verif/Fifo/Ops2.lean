import Verif.Fifo.Ops
/-!
# Taking entries out, merging and replacing
-/
namespace Verif.Fifo
open Verif

variable {α σ : Type}

/-! ## Read, clear and forward -/

/-- Freeing the first node of a list which is not touched otherwise. -/
theorem free_head {m : Mem α} {x : Node α} {rest : List (Node α)} {nx : Option Nat} (hc : m.cell x.addr = some ⟨x.data, x.order, nx⟩)
    (hx : x.addr ∉ addrs rest) (hcl : ∀ a, m.brk ≤ a → m.cell a = none) :
    ∃ m', m.free x.addr = .ok m' ∧ Step m (x :: rest) m' rest ∧ m'.log = m.log ∧ m'.brk = m.brk ∧
      (∀ a, a ≠ x.addr → m'.cell a = m.cell a) ∧ (∀ a, m'.brk ≤ a → m'.cell a = none) := by
  have hcell : ∀ a, (m.set x.addr none).cell a = if a = x.addr then none else m.cell a := fun a => rfl
  refine ⟨m.set x.addr none, by unfold Mem.free; rw [hc], ⟨Nat.le_refl _, ?_, ?_, ?_⟩, rfl, rfl, ?_, ?_⟩
  · intro a _ hn
    rw [hcell, if_neg]
    rintro rfl
    exact hn (by simp)
  · intro a ha hn
    rw [hcell]
    split
    · rfl
    · rename_i hne
      rcases ha with ha | ha
      · rcases List.mem_cons.mp ha with rfl | ha
        · exact absurd rfl hne
        · exact absurd ha hn
      · exact hcl a ha
  · intro a ha; exact Or.inl (List.mem_cons_of_mem _ ha)
  · intro a ha; rw [hcell, if_neg ha]
  · intro a ha
    rw [hcell]
    split
    · rfl
    · exact hcl a ha

/-- A list of which no cell changed. -/
theorem Shape.same {m m' : Mem α} {p q : Option Nat} {l : List (Node α)} (h : Shape m p q l) (hc : ∀ a ∈ addrs l, m'.cell a = m.cell a)
    (hb : m'.brk = m.brk) (hcl : ∀ a, m'.brk ≤ a → m'.cell a = none) : Shape m' p q l :=
  ⟨seg_frame hc h.seg, h.nodup, h.last, by rw [hb]; exact h.bound, hcl⟩

/-- The tail of a list. -/
theorem Shape.tail {m : Mem α} {p q : Option Nat} {x : Node α} {l : List (Node α)} (h : Shape m p q (x :: l)) :
    ∃ nx, m.cell x.addr = some ⟨x.data, x.order, nx⟩ ∧ nx = l.head?.map Node.addr ∧ x.addr ∉ addrs l ∧
      Shape m nx (lastAddr l) l ∧ (l ≠ [] → q = lastAddr l) := by
  obtain ⟨⟨_, nx, hc, hs⟩, hnd, hl, hb, hcl⟩ := h
  obtain ⟨hx, hnd'⟩ := List.nodup_cons.mp hnd
  refine ⟨nx, hc, seg_head hs, hx, ⟨hs, hnd', rfl, fun a ha => hb a (List.mem_cons_of_mem _ ha), hcl⟩, ?_⟩
  intro hne
  rw [hl]
  cases l with
  | nil => exact absurd rfl hne
  | cons y l => rw [show x :: y :: l = [x] ++ y :: l from rfl, lastAddr_append_cons]

/-- What the loop over the entries taken out has done. -/
structure Forwarded (k : Nat) (m : Mem α) (rest new : List (Node α)) (n w : Nat) (r : Spec.Res α σ) (p : Pass α σ) : Prop where
  intro ::
  out : ∃ l', Shape p.mem p.fifo.first p.fifo.last l' ∧ vals l' = r.items ∧ Step m (rest ++ new) p.mem l' ∧
    p.fifo.count.toNat + rest.length + n = l'.length + k + p.cleared ∧ p.cleared ≤ n + rest.length
  log : p.mem.log = m.log ++ r.log
  st : p.st = r.st
  ret : p.ret = r.ret

theorem forwardLoop_spec (cb : σ → Option α → FRes α σ) (k w : Nat) (hw : ∀ st d, (((cb st d).wrote).map List.length).sum ≤ w)
    (lastElement : Option Nat) : ∀ (rest : List (Node α)) (fuel : Nat) (m : Mem α) (f : Fifo) (new : List (Node α)) (n : Nat) (st : σ)
    (last : Option Nat), Shape m (rest.head?.map Node.addr) last rest → (rest ≠ [] → lastElement = last) → RepK k m f new → Apart rest new →
    rest.length ≤ fuel → new.length + k + rest.length * w < 2 ^ 32 →
    Agrees (Spec.forward cb st (vals new) (vals rest)) (forwardLoop cb lastElement fuel m f (rest.head?.map Node.addr) n st)
      (Forwarded k m rest new n w)
  | [], fuel, m, f, new, n, st, last, hs, hle, hf, hd, hl, hlt => by
    refine ⟨⟨m, f, st, 0, n⟩, by cases fuel <;> rfl, ⟨new, hf.shape, rfl, by simpa using Step.refl hf.shape.clean, ?_, ?_⟩, by simp, rfl, rfl⟩
    · simp [hf.count]
    · simp
  | x :: rest, 0, _, _, _, _, _, _, _, _, _, _, hl, _ => by simp at hl
  | x :: rest, fuel + 1, m, f, new, n, st, last, hs, hle, hf, hd, hl, hlt => by
    have hle' := hle (by simp)
    obtain ⟨nx, hc, hnx, hx, hst, hlast⟩ := hs.tail
    have hget : m.get x.addr = .ok ⟨x.data, x.order, nx⟩ := by unfold Mem.get; rw [hc]
    show Agrees (Spec.forward cb st (vals new) (x.val :: vals rest)) _ _
    unfold Spec.forward
    simp only [List.head?_cons, Option.map_some]
    unfold forwardLoop
    rw [hget]
    simp only [Node.val]
    rw [show ∀ g : Entry α → Out (Pass α σ), (Out.ok ⟨x.data, x.order, nx⟩).bind g = g ⟨x.data, x.order, nx⟩ from fun _ => rfl]
    simp only
    obtain ⟨r, hr⟩ : ∃ r, cb st x.data = r := ⟨_, rfl⟩
    simp only [hr]
    have hrw := hw st x.data
    rw [hr] at hrw
    simp only [List.length_cons, Nat.succ_mul] at hlt
    refine (writes_spec r.wrote m f new hf (by omega)).bind ?_
    rintro ⟨new1, g⟩ ⟨m1, f1⟩ ⟨⟨⟨new', d1, d2, d3⟩, d4⟩, hlen⟩
    simp only at d1 d2 d3 d4 hlen ⊢
    subst d2
    rw [List.length_map] at hlen
    -- the rest of the entries
    obtain ⟨hs1, hd1⟩ := hs.keep d3 hd d1.shape.clean
    obtain ⟨nx1, hc1, hnx1, hx1, hst1, hlast1⟩ := hs1.tail
    have hmem : (if has r.ret FREE = true then m1.decref x.data else m1).cell = m1.cell ∧
        (if has r.ret FREE = true then m1.decref x.data else m1).brk = m1.brk ∧
        (if has r.ret FREE = true then m1.decref x.data else m1).log = m.log ++ (g ++ if has r.ret FREE = true then Spec.decref x.data else []) := by
      split
      · exact ⟨decref_cell _ _, decref_brk _ _, by rw [decref_log, d4]; simp⟩
      · exact ⟨rfl, rfl, by simp [d4]⟩
    generalize (if has r.ret FREE = true then m1.decref x.data else m1) = m2 at hmem ⊢
    obtain ⟨w1, w2, w3⟩ := hmem
    have hnxe : nx1 = nx := by rw [hnx1, hnx]
    subst hnxe
    have hstep : Step m ((x :: rest) ++ new) m2 ((x :: rest) ++ new') := (d3.more (x :: rest)).congr w1 w2
    by_cases h1 : has (r.ret &&& ~~~ FREE) GIVE = true
    · rw [if_pos h1, if_pos h1]; rfl
    · rw [if_neg h1, if_neg h1]
      by_cases h2 : has (r.ret &&& ~~~ FREE) (STOP ||| CALLBACK_ERR ||| GLOBAL_ERR) = true
      · rw [if_pos h2, if_pos h2]
        have hcnt := d1.count
        have hxn : x.addr ∉ addrs (rest ++ new') := by
          rw [addrs_append, List.mem_append, not_or]
          exact ⟨hx1, hd1 _ (by simp)⟩
        cases rest with
        | nil =>
          have : nx1 = none := by rw [hnx]; rfl
          subst this
          simp only [putBack]
          rw [show ∀ g : Mem α × Fifo → Out (Pass α σ), (Out.ok (m2, f1)).bind g = g (m2, f1) from fun _ => rfl]
          simp only
          obtain ⟨m3, e1, e2, e3, e4, e5, e6⟩ := free_head (rest := new') (by rw [w1]; exact hc1) (by simpa using hxn) (by rw [w1, w2]; exact d1.shape.clean)
          rw [e1]
          refine ⟨_, rfl, ⟨new', ?_, by simp, hstep.trans e2, ?_, ?_⟩, by rw [e3, w3], rfl, rfl⟩
          · refine (d1.shape.congr w1 w2).same ?_ e4 e6
            intro a ha
            exact e5 a (by rintro rfl; exact hxn (by simpa using ha))
          · simp only [List.length_cons, List.length_nil, hcnt]; omega
          · simp only [List.length_cons, List.length_nil]; omega
        | cons y rest =>
          have hnx' : nx1 = some y.addr := by rw [hnx]; rfl
          subst hnx'
          have happ : Apart (y :: rest) new' := fun a ha => hd1 a (List.mem_cons_of_mem _ ha)
          obtain ⟨m3, e1, e2, e3, e4, e5⟩ := concat_shape (hst1.congr w1 w2) (d1.shape.congr w1 w2) happ (by simp)
          rw [← hlast1 (by simp), ← hle'] at e1 e2
          simp only [putBack]
          rw [e1]
          simp only [Out.bind]
          obtain ⟨m4, g1, g2, g3, g4, g5, g6⟩ := free_head (m := m3) (rest := y :: rest ++ new') (by rw [e3 _ hx1, w1]; exact hc1) hxn e2.clean
          rw [g1]
          have hfl : (if f1.last = none then lastElement else f1.last) = if new' = [] then lastElement else f1.last := by
            have := d1.shape.last
            rw [this]
            cases hn : new' with
            | nil => rfl
            | cons z l =>
              obtain ⟨pre, y, e⟩ := eq_concat (l := z :: l) (by simp)
              rw [e, lastAddr_concat, if_neg (by simp), if_neg (by simp)]
          simp only [hfl]
          have hst3 : Step m2 ((x :: y :: rest) ++ new') m3 ((x :: y :: rest) ++ new') := by
            refine ⟨by omega, ?_, ?_, fun a ha => Or.inl ha⟩
            · intro a _ hn
              exact e3 a (fun e => hn (by rw [addrs_append, List.mem_append]; exact Or.inl (List.mem_cons_of_mem _ e)))
            · intro a ha hn
              rcases ha with ha | ha
              · exact absurd ha hn
              · exact e2.clean a (by omega)
          refine ⟨_, rfl, ⟨(y :: rest) ++ new', ?_, by simp, (hstep.trans hst3).trans g2, ?_, ?_⟩, by rw [g3, e4, w3], rfl, rfl⟩
          · refine e2.same ?_ g4 g6
            intro a ha
            exact g5 a (by rintro rfl; exact hxn ha)
          · simp only [List.length_cons, List.length_append, hcnt]; omega
          · simp only [List.length_cons]; omega
      · rw [if_neg h2, if_neg h2]
        by_cases h3 : r.ret &&& ~~~ FREE = 0
        · rw [if_neg (c := r.ret &&& ~~~ FREE ≠ 0) (by simp [h3]), if_neg (c := r.ret &&& ~~~ FREE ≠ 0) (by simp [h3])]
          have hxn : x.addr ∉ addrs (rest ++ new') := by
            rw [addrs_append, List.mem_append, not_or]
            exact ⟨hx1, hd1 _ (by simp)⟩
          obtain ⟨m3, e1, e2, e3, e4, e5, e6⟩ := free_head (rest := rest ++ new') (by rw [w1]; exact hc1) hxn (by rw [w1, w2]; exact d1.shape.clean)
          rw [e1]
          rw [show ∀ g : Mem α → Out (Pass α σ), (Out.ok m3).bind g = g m3 from fun _ => rfl]
          have hne : ∀ a, a ∈ addrs (rest ++ new') → a ≠ x.addr := by rintro a ha rfl; exact hxn ha
          have ih := forwardLoop_spec cb k w hw lastElement rest fuel m3 f1 new' (n + 1) r.st (lastAddr rest)
            (by rw [← hnx]; exact (hst1.congr w1 w2).same (fun a ha => e5 a (hne a (by rw [addrs_append]; exact List.mem_append_left _ ha))) e4 e6)
            (fun h => by rw [hle']; exact hlast1 h)
            ⟨(d1.shape.congr w1 w2).same (fun a ha => e5 a (hne a (by rw [addrs_append]; exact List.mem_append_right _ ha))) e4 e6, d1.count⟩
            (fun a ha => hd1 a (List.mem_cons_of_mem _ ha)) (by simpa using hl) (by omega)
          rw [← hnx] at ih
          refine ih.map ?_
          rintro q p ⟨⟨l', q1, q2, q3, q4, q5⟩, q6, q7, q8⟩
          refine ⟨⟨l', q1, q2, (hstep.trans e2).trans q3, ?_, ?_⟩, ?_, q7, q8⟩
          · simp only [List.length_cons]; omega
          · simp only [List.length_cons]; omega
          · rw [q6, e3, w3]; simp [Spec.Res.did]
        · rw [if_pos h3, if_pos h3]; rfl

theorem forward_spec (cb : σ → Option α → FRes α σ) (w : Nat) (hw : ∀ st d, (((cb st d).wrote).map List.length).sum ≤ w)
    (m : Mem α) (f : Fifo) (l : List (Node α)) (st : σ) (h : Rep m f l) (hlt : l.length * (w + 1) < 2 ^ 32) :
    Agrees (Spec.forward cb st [] (vals l)) (readClearForwardAll cb m f st)
      (fun r p => p.2.2.1 = r.st ∧ p.2.2.2 = r.ret ∧ Did m l r.items r.log p.1 p.2.1) := by
  unfold readClearForwardAll
  by_cases h0 : f.count = 0
  · rw [if_pos h0]
    have hl := (count_zero_iff h).mp h0
    subst hl
    exact ⟨_, rfl, rfl, rfl, ⟨[], h, rfl, Step.refl h.shape.clean⟩, by simp⟩
  · rw [if_neg h0]
    have hfirst := seg_head h.shape.seg
    have ih := forwardLoop_spec cb l.length w hw f.last l (m.brk + 1) m { f with first := none, last := none } [] 0 st f.last
      (by rw [← hfirst]; exact h.shape) (fun _ => rfl)
      ⟨⟨rfl, List.nodup_nil, rfl, by simp, h.shape.clean⟩, by simp [h.count]⟩ (fun a _ => by simp)
      (by have := h.shape.length_le; omega) (by simp only [List.length_nil, Nat.mul_add, Nat.mul_one] at hlt ⊢; omega)
    rw [← hfirst] at ih
    have := ih.bind (g := fun r => some r) (R' := fun r p => p.2.2.1 = r.st ∧ p.2.2.2 = r.ret ∧ Did m l r.items r.log p.1 p.2.1)
      (k := fun p => if p.fifo.count < UInt32.ofNat p.cleared then .bug else
        .ok (p.mem, { p.fifo with count := p.fifo.count - UInt32.ofNat p.cleared }, p.st, p.ret)) ?_
    · simpa using this
    · rintro r p ⟨⟨l', q1, q2, q3, q4, q5⟩, q6, q7, q8⟩
      simp only
      have hcl := p.fifo.count.toNat_lt
      have hn : (UInt32.ofNat p.cleared).toNat = p.cleared := by rw [UInt32.toNat_ofNat']; omega
      have hle : UInt32.ofNat p.cleared ≤ p.fifo.count := by rw [UInt32.le_iff_toNat_le, hn]; omega
      rw [if_neg (UInt32.not_lt.mpr hle)]
      refine ⟨_, rfl, q7, q8, ⟨l', ⟨q1, ?_⟩, q2, by simpa using q3⟩, q6⟩
      show (p.fifo.count - UInt32.ofNat p.cleared).toNat = l'.length + 0
      rw [UInt32.toNat_sub_of_le _ _ hle, hn]
      omega

/-! ## Merge -/

theorem merge_spec (m : Mem α) (t s : Fifo) (lt ls : List (Node α)) (ht : Rep m t lt) (hs : Rep m s ls) (hd : Apart lt ls)
    (hlt : lt.length + ls.length < 2 ^ 32) :
    ∃ m' t', merge m t s = .ok (m', t', .init, 0) ∧ Rep m' t' (lt ++ ls) ∧ Rep m' .init ([] : List (Node α)) ∧
      Step m (lt ++ ls) m' (lt ++ ls) ∧ m'.log = m.log := by
  unfold merge
  by_cases h0 : s.count = 0
  · have hl := (count_zero_iff hs).mp h0
    subst hl
    rw [if_pos h0]
    have : s = .init := by
      have h1 := seg_head hs.shape.seg
      have h2 := hs.shape.last
      cases s
      simp only at h0 h1 h2
      subst h0
      subst h1
      subst h2
      rfl
    subst this
    exact ⟨m, t, rfl, by simpa using ht, hs, by simpa using Step.refl ht.shape.clean, rfl⟩
  · rw [if_neg h0, if_neg (by rw [ht.count, hs.count]; omega)]
    have hcount : (t.count + s.count).toNat = (lt ++ ls).length + 0 := by
      rw [UInt32.toNat_add, ht.count, hs.count, List.length_append]
      omega
    have hne : ls ≠ [] := fun e => h0 ((count_zero_iff hs).mpr e)
    have hinit : ∀ m' : Mem α, (∀ a, m'.brk ≤ a → m'.cell a = none) → Rep m' .init ([] : List (Node α)) :=
      fun m' h => ⟨⟨rfl, List.nodup_nil, rfl, by simp, h⟩, rfl⟩
    cases hl : t.last with
    | none =>
      have : lt = [] := by
        have := ht.shape.last
        rw [hl] at this
        unfold lastAddr at this
        rw [eq_comm, Option.map_eq_none_iff, List.getLast?_eq_none_iff] at this
        exact this
      subst this
      simp only [hl]
      refine ⟨m, _, rfl, ⟨hs.shape, hcount⟩, hinit m hs.shape.clean, by simpa using Step.refl hs.shape.clean, rfl⟩
    | some a =>
      have hne' : lt ≠ [] := by
        rintro rfl
        have := ht.shape.last
        rw [hl] at this
        cases this
      obtain ⟨m', e1, e2, e3, e4, e5⟩ := concat_shape ht.shape hs.shape hd hne'
      rw [if_neg hne] at e2
      simp only [hl]
      rw [hl] at e1
      have e1' : m.setNext a s.first = .ok m' := e1
      rw [e1']
      refine ⟨m', _, rfl, ⟨e2, hcount⟩, hinit m' e2.clean, ⟨by omega, ?_, ?_, fun a ha => Or.inl ha⟩, e4⟩
      · intro a _ hn
        exact e3 a (fun e => hn (by rw [addrs_append]; exact List.mem_append_left _ e))
      · intro a ha hn
        rcases ha with ha | ha
        · exact absurd ha hn
        · exact e2.clean a (by omega)

/-! ## Search and replace -/

theorem has_or (a f g : UInt32) : has a (f ||| g) = (has a f || has a g) := by
  unfold has
  rw [Bool.eq_iff_iff]
  simp only [bne_iff_ne, ne_eq, Bool.or_eq_true, ← UInt32.toBitVec_inj, UInt32.toBitVec_and, UInt32.toBitVec_or]
  generalize a.toBitVec = a, f.toBitVec = f, g.toBitVec = g
  rw [← Classical.not_and_iff_not_or_not]
  apply not_congr
  show a &&& (f ||| g) = 0#32 ↔ a &&& f = 0#32 ∧ a &&& g = 0#32
  rw [← BitVec.or_eq_zero_iff]
  constructor
  · intro h; rw [← h]; ext i; simp [Bool.and_or_distrib_left]
  · intro h; rw [← h]; ext i; simp [Bool.and_or_distrib_left]

/-- Other data in a node. -/
theorem rewrite_node {m : Mem α} {p q : Option Nat} {pre rest : List (Node α)} {x : Node α} (h : Shape m p q (pre ++ x :: rest))
    {nx : Option Nat} (hc : m.cell x.addr = some ⟨x.data, x.order, nx⟩) (d : Option α) (order : UInt64) :
    Shape (m.set x.addr (some ⟨d, order, nx⟩)) p q (pre ++ ⟨x.addr, d, order⟩ :: rest) ∧
      Step m (pre ++ x :: rest) (m.set x.addr (some ⟨d, order, nx⟩)) (pre ++ ⟨x.addr, d, order⟩ :: rest) := by
  obtain ⟨hseg, hnd, hlast, hb, hcl⟩ := h
  have haddr : addrs (pre ++ (⟨x.addr, d, order⟩ : Node α) :: rest) = addrs (pre ++ x :: rest) := by simp
  obtain ⟨hx1, hx2, _⟩ := nodup_mid hnd
  have hxb : x.addr < m.brk := hb _ (by simp)
  have hcl' : ∀ a, m.brk ≤ a → (m.set x.addr (some ⟨d, order, nx⟩)).cell a = none := by
    intro a ha
    rw [set_cell, if_neg]
    · exact hcl a ha
    · rintro rfl; omega
  refine ⟨⟨?_, by rw [haddr]; exact hnd, ?_, by rw [haddr]; exact hb, hcl'⟩, ⟨Nat.le_refl _, ?_, ?_, ?_⟩⟩
  · rw [seg_append] at hseg ⊢
    obtain ⟨r, h1, h2, nx', h3, h4⟩ := hseg
    rw [hc] at h3
    injection h3 with h3
    injection h3 with _ _ h3
    subst h3
    refine ⟨r, seg_frame ?_ h1, h2, nx, by simp [set_cell], seg_frame ?_ h4⟩
    · intro a ha
      rw [set_cell, if_neg]
      rintro rfl
      exact hx1 ha
    · intro a ha
      rw [set_cell, if_neg]
      rintro rfl
      exact hx2 ha
  · rw [hlast, lastAddr_append_cons, lastAddr_append_cons]
    cases rest with
    | nil => rfl
    | cons y r =>
      rw [show x :: y :: r = [x] ++ y :: r from rfl, lastAddr_append_cons,
        show (⟨x.addr, d, order⟩ : Node α) :: y :: r = [⟨x.addr, d, order⟩] ++ y :: r from rfl, lastAddr_append_cons]
  · intro a _ hn
    rw [set_cell, if_neg]
    rintro rfl
    exact hn (by simp)
  · intro a ha hn
    rw [haddr] at hn
    rcases ha with ha | ha
    · exact absurd ha hn
    · exact hcl' a ha
  · intro a ha; rw [haddr] at ha; exact Or.inl ha

/-- What the loop has done. -/
structure Replaced (m : Mem α) (pre rest : List (Node α)) (r : Spec.Res α σ) (p : Pass α σ) : Prop where
  intro ::
  out : ∃ rest', Shape p.mem p.fifo.first p.fifo.last (pre ++ rest') ∧ vals rest' = r.items ∧ Step m (pre ++ rest) p.mem (pre ++ rest') ∧
    p.fifo.count.toNat = pre.length + rest'.length ∧ rest'.length ≤ rest.length
  log : p.mem.log = m.log ++ r.log
  st : p.st = r.st
  ret : p.ret = r.ret

theorem replaceLoop_spec [DecidableEq α] (cb : σ → Option α → UInt64 → RRes α σ) : ∀ (rest : List (Node α)) (fuel : Nat) (m : Mem α) (f : Fifo)
    (pre : List (Node α)) (prev : Option Nat) (stale : Bool) (st : σ), Shape m f.first f.last (pre ++ rest) →
    f.count.toNat = pre.length + rest.length → pre.length + rest.length + 1 < 2 ^ 32 → (stale = false → prev = lastAddr pre) →
    Spec.replaceSafe cb stale st (vals rest) = true → rest.length ≤ fuel →
    Agrees (Spec.replace cb st (vals rest)) (replaceLoop cb fuel m f prev (rest.head?.map Node.addr) st) (Replaced m pre rest)
  | [], fuel, m, f, pre, prev, stale, st, h, hcnt, _, _, _, _ => by
    refine ⟨⟨m, f, st, 0, 0⟩, by cases fuel <;> rfl, ⟨[], h, rfl, Step.refl h.clean, hcnt, Nat.le_refl _⟩, by simp, rfl, rfl⟩
  | x :: rest, 0, _, _, _, _, _, _, _, _, _, _, _, hl => by simp at hl
  | x :: rest, fuel + 1, m, f, pre, prev, stale, st, h, hcnt, hlt, hprev, hsafe, hl => by
    obtain ⟨nx, hc, hnx⟩ := h.head
    have hl' : rest.length ≤ fuel := by simpa using hl
    have hget : m.get x.addr = .ok ⟨x.data, x.order, nx⟩ := by unfold Mem.get; rw [hc]
    change Spec.replaceSafe cb stale st (x.val :: vals rest) = true at hsafe
    show Agrees (Spec.replace cb st (x.val :: vals rest)) _ _
    unfold Spec.replaceSafe at hsafe
    unfold Spec.replace
    simp only [List.head?_cons, Option.map_some]
    unfold replaceLoop
    rw [hget]
    simp only [Out.bind, Node.val] at hsafe ⊢
    obtain ⟨r, hcb⟩ : ∃ r, cb st x.data x.order = r := ⟨_, rfl⟩
    simp only [hcb] at hsafe ⊢
    simp only [List.length_cons] at hcnt hlt
    by_cases h0 : r.actions = 0
    · rw [if_pos h0] at hsafe
      rw [if_pos h0, if_pos h0]
      have ih := replaceLoop_spec cb rest fuel m f (pre ++ [x]) (some x.addr) false r.st (by simpa using h)
        (by simp; omega) (by simp; omega) (fun _ => (lastAddr_concat pre x).symm) hsafe hl'
      rw [← hnx] at ih
      refine ih.map ?_
      rintro q p ⟨⟨rest', q1, q2, q3, q4, q5⟩, q6, q7, q8⟩
      exact ⟨⟨x :: rest', by simpa using q1, by simp [Spec.Res.cons, ← q2, Node.val], by simpa using q3, by simp at q4 ⊢; omega,
        by simpa using q5⟩, by simp [q6, Spec.Res.cons], q7, q8⟩
    · rw [if_neg h0] at hsafe
      rw [if_neg h0, if_neg h0]
      by_cases h1 : has r.actions CALLBACK_ERR = true
      · rw [if_pos h1, if_pos h1]
        exact ⟨_, rfl, ⟨x :: rest, h, rfl, Step.refl h.clean, by simpa using hcnt, Nat.le_refl _⟩, by simp, rfl, rfl⟩
      · rw [if_neg h1] at hsafe
        rw [if_neg h1, if_neg h1]
        have hor : has r.actions (REPLACE ||| GIVE) = (has r.actions REPLACE || has r.actions GIVE) := has_or _ _ _
        rw [hor]
        by_cases h2 : has r.actions GIVE = true
        · rw [if_pos h2] at hsafe
          rw [h2, Bool.or_true, if_pos rfl, if_pos rfl, if_pos rfl, if_pos rfl]
          rw [Bool.and_eq_true, Bool.not_eq_true'] at hsafe
          obtain ⟨hst, hsafe⟩ := hsafe
          subst hst
          rw [hprev rfl]
          by_cases h3 : has r.actions REPLACE = true
          · rw [if_pos h3, if_pos h3]; rfl
          · rw [if_neg h3, if_neg h3]
            obtain ⟨m1, m2, f', u1, u2, u3, u4, u5, u6, u7⟩ := unlink_free h hc
            rw [u1]
            simp only [u2]
            have hf0 : ¬ f'.count = 0 := by
              rw [u6]
              intro e
              rw [e] at hcnt
              simp at hcnt
            have hf1 : (f'.count - 1).toNat = pre.length + rest.length := by
              rw [UInt32.toNat_sub_of_le _ _ (by rw [UInt32.le_iff_toNat_le, u6, hcnt]; simp; omega), u6, hcnt]
              simp
            rw [if_neg hf0]
            generalize (if has r.actions FREE = true then x.data else none) = d
            by_cases h4 : has r.actions STOP = true
            · rw [if_pos h4, if_pos h4]
              exact ⟨_, rfl, ⟨rest, u3.congr (decref_cell _ _) (decref_brk _ _), rfl, u4.congr (decref_cell _ _) (decref_brk _ _), hf1, by simp⟩,
                by rw [decref_log, u5], rfl, rfl⟩
            · rw [if_neg h4, if_neg h4]
              simp only [h4, Bool.false_or] at hsafe
              have ih := replaceLoop_spec cb rest fuel (m2.decref d) { f' with count := f'.count - 1 } pre (lastAddr pre) false r.st
                (u3.congr (decref_cell _ _) (decref_brk _ _)) hf1 (by omega) (fun _ => rfl) hsafe hl'
              rw [← hnx] at ih
              refine ih.map ?_
              rintro q p ⟨⟨rest', q1, q2, q3, q4, q5⟩, q6, q7, q8⟩
              refine ⟨⟨rest', q1, q2, (u4.congr (decref_cell _ _) (decref_brk _ _)).trans q3, q4, by simp; omega⟩, ?_, q7, q8⟩
              rw [q6, decref_log, u5]; simp [Spec.Res.did]
        · rw [if_neg h2] at hsafe
          simp only [Bool.not_eq_true] at h2
          rw [h2, Bool.or_false]
          by_cases h3 : has r.actions REPLACE = true
          · rw [if_pos h3] at hsafe
            simp only [h3, if_true, Bool.false_eq_true, if_false]
            generalize (if has r.actions FREE = true then x.data else none) = d
            by_cases hd : d = r.data
            · rw [if_pos hd, if_pos hd]; rfl
            · rw [if_neg hd, if_neg hd]
              have hf0 : ¬ f.count + 1 = 0 := by
                intro e
                have := congrArg UInt32.toNat e
                rw [UInt32.toNat_add, hcnt] at this
                simp at this
                omega
              rw [if_neg hf0]
              generalize hm2 : ((m.decref d).set x.addr (some ⟨r.data, r.order, nx⟩)).incref r.data = m2
              obtain ⟨s1, s2⟩ := rewrite_node h hc r.data r.order
              have w1 : m2.cell = (m.set x.addr (some ⟨r.data, r.order, nx⟩)).cell := by
                subst hm2; rw [incref_cell]; funext a; rw [set_cell, set_cell, decref_cell]
              have w2 : m2.brk = (m.set x.addr (some ⟨r.data, r.order, nx⟩)).brk := by
                subst hm2; rw [incref_brk]; exact decref_brk m d
              have w3 : m2.log = m.log ++ (Spec.decref d ++ Spec.incref r.data) := by
                subst hm2; rw [incref_log, ← List.append_assoc]; congr 1; exact decref_log m d
              by_cases h4 : has r.actions STOP = true
              · rw [if_pos h4, if_pos h4]
                exact ⟨_, rfl, ⟨⟨x.addr, r.data, r.order⟩ :: rest, s1.congr w1 w2, rfl, s2.congr w1 w2, by simpa using hcnt, by simp⟩, w3, rfl, rfl⟩
              · rw [if_neg h4, if_neg h4]
                simp only [h4, Bool.false_or] at hsafe
                have ih := replaceLoop_spec cb rest fuel m2 f (pre ++ [⟨x.addr, r.data, r.order⟩]) prev true r.st
                  (by simpa using s1.congr w1 w2) (by simp; omega) (by simp; omega) (fun e => by cases e) hsafe hl'
                rw [← hnx] at ih
                refine ih.map ?_
                rintro q p ⟨⟨rest', q1, q2, q3, q4, q5⟩, q6, q7, q8⟩
                refine ⟨⟨⟨x.addr, r.data, r.order⟩ :: rest', by simpa using q1, by simp [Spec.Res.cons, Spec.Res.did, ← q2, Node.val],
                  (s2.congr w1 w2).trans (by simpa using q3), by simp at q4 ⊢; omega, by simpa using q5⟩, ?_, q7, q8⟩
                rw [q6, w3]; simp [Spec.Res.did, Spec.Res.cons]
          · rw [if_neg h3] at hsafe
            rw [if_neg h3, if_neg h3]
            by_cases h4 : has r.actions STOP = true
            · rw [if_pos h4, if_pos h4]
              exact ⟨_, rfl, ⟨x :: rest, h, rfl, Step.refl h.clean, by simpa using hcnt, Nat.le_refl _⟩, by simp, rfl, rfl⟩
            · rw [if_neg h4, if_neg h4]; rfl

theorem callAgain_spec : ∀ (ws : List (WRes α)) (m : Mem α) (f : Fifo) (l : List (Node α)), Rep m f l → l.length + ws.length < 2 ^ 32 →
    Agrees (Spec.again ws (vals l)) (callAgain ws m f) (fun r p => p.2.2 = r.2.2 ∧ Did m l r.1 r.2.1 p.1 p.2.1)
  | [], m, f, l, h, _ => ⟨_, rfl, rfl, ⟨⟨l, h, rfl, Step.refl h.shape.clean⟩, by simp⟩⟩
  | w :: ws, m, f, l, h, hl => by
    simp only [List.length_cons] at hl
    unfold Spec.again callAgain
    simp only
    cases hw : writeCheck w.ret with
    | none => rfl
    | some fl =>
      simp only
      obtain ⟨m', e1, e2, e3, e4⟩ := alloc_free h
      by_cases h1 : fl.err = true
      · rw [if_pos h1, if_pos h1, e1]
        exact ⟨_, rfl, rfl, ⟨⟨l, e2, rfl, e3⟩, by simp [e4]⟩⟩
      · rw [if_neg h1, if_neg h1]
        by_cases h2 : fl.drop = true
        · rw [if_pos h2, if_pos h2, e1]
          simp only [Out.bind]
          by_cases h3 : fl.again = true
          · rw [if_pos h3, if_pos h3]
            have ih := callAgain_spec ws m' f l e2 (by omega)
            have := ih.map (g := id) (R' := fun r p => p.2.2 = r.2.2 ∧ Did m l r.1 r.2.1 p.1 p.2.1) (by
              rintro r p ⟨q1, q2⟩
              exact ⟨q1, DidK.trans (g := []) ⟨e2, rfl, e3⟩ (by simp [e4]) q2⟩)
            simpa using this
          · rw [if_neg h3, if_neg h3]
            exact ⟨_, rfl, rfl, ⟨⟨l, e2, rfl, e3⟩, by simp [e4]⟩⟩
        · rw [if_neg h2, if_neg h2]
          cases hd : w.data with
          | none => rfl
          | some d =>
            simp only
            obtain ⟨m', f', e1, e2, ⟨l', d1, d2, d3⟩, e4⟩ := add_spec h (by omega) d w.order false
            rw [e1]
            rw [if_neg (by simp)] at d2
            simp only [Out.bind, e2]
            simp only [← d2, Bool.false_eq_true, if_false]
            have hlen : l'.length = l.length + 1 := by
              have := congrArg List.length d2
              simpa using this
            by_cases h3 : fl.again = true
            · rw [if_pos h3, if_pos h3]
              refine (callAgain_spec ws m' (incErr f').1 l' d1 (by omega)).map ?_
              rintro ⟨r1, r2, r3⟩ p ⟨q1, q2⟩
              exact ⟨q1, DidK.trans (g := [.incref d]) ⟨d1, rfl, d3⟩ e4 q2⟩
            · rw [if_neg h3, if_neg h3]
              exact ⟨_, rfl, rfl, ⟨⟨l', d1, rfl, d3⟩, e4⟩⟩

theorem replace_spec [DecidableEq α] (cb : σ → Option α → UInt64 → RRes α σ) (add : σ → Option (List (WRes α))) (m : Mem α) (f : Fifo)
    (l : List (Node α)) (st : σ) (h : Rep m f l) (hlt : l.length + 1 < 2 ^ 32)
    (hadd : ∀ st ws, add st = some ws → l.length + ws.length < 2 ^ 32)
    (hsafe : Spec.replaceSafe cb false st (vals l) = true) :
    Agrees (Spec.replaceAndAdd cb add st (vals l)) (searchAndReplace cb add m f st)
      (fun r p => p.2.2.1 = r.st ∧ p.2.2.2 = r.ret ∧ Did m l r.items r.log p.1 p.2.1) := by
  unfold searchAndReplace Spec.replaceAndAdd
  have hfirst := seg_head h.shape.seg
  have ih := replaceLoop_spec cb l (m.brk + 1) m f [] none false st h.shape (by simpa using h.count) (by simpa using hlt)
    (fun _ => rfl) hsafe (by have := h.shape.length_le; omega)
  rw [← hfirst] at ih
  refine ih.bind ?_
  rintro r p ⟨⟨rest', q1, q2, q3, q4, q5⟩, q6, q7, q8⟩
  simp only [List.nil_append, List.length_nil, Nat.zero_add] at q1 q3 q4
  rw [q7, q8]
  have hrep : Rep p.mem p.fifo rest' := ⟨q1, q4⟩
  by_cases h0 : r.ret = 0
  · rw [h0]
    cases ha : add r.st with
    | none => exact ⟨_, rfl, rfl, h0.symm, ⟨rest', hrep, q2, q3⟩, q6⟩
    | some ws =>
      simp only
      rw [← q2]
      have := (callAgain_spec ws p.mem p.fifo rest' hrep (by have := hadd _ _ ha; omega)).bind
        (g := fun x => some (⟨x.1, r.log ++ x.2.1, r.st, x.2.2⟩ : Spec.Res α σ)) (k := fun x => .ok (x.1, x.2.1, r.st, x.2.2))
        (R' := fun r p => p.2.2.1 = r.st ∧ p.2.2.2 = r.ret ∧ Did m l r.items r.log p.1 p.2.1) (by
          rintro ⟨a, b, c⟩ p' ⟨k1, k2⟩
          exact ⟨_, rfl, rfl, k1, DidK.trans ⟨hrep, rfl, q3⟩ q6 k2⟩)
      cases hs : Spec.again ws (vals rest') with
      | none => rw [hs] at this; exact this
      | some v => rw [hs] at this; exact this
  · have hm1 : (match r.ret, add r.st with
        | 0, some ws => (Spec.again ws r.items).map fun x => (⟨x.1, r.log ++ x.2.1, r.st, x.2.2⟩ : Spec.Res α σ)
        | _, _ => some r) = some r := by
      split
      · rename_i e _; exact absurd e h0
      · rfl
    have hm2 : (match r.ret, add r.st with
        | 0, some ws => (callAgain ws p.mem p.fifo).bind fun x => .ok (x.1, x.2.1, r.st, x.2.2)
        | rt, _ => .ok (p.mem, p.fifo, r.st, rt)) = Out.ok (p.mem, p.fifo, r.st, r.ret) := by
      split
      · rename_i e _; exact absurd e h0
      · rfl
    have key : ∀ a b, a = some r → b = Out.ok (p.mem, p.fifo, r.st, r.ret) →
        Agrees a b (fun r p => p.2.2.1 = r.st ∧ p.2.2.2 = r.ret ∧ Did m l r.items r.log p.1 p.2.1) := by
      rintro _ _ rfl rfl
      exact ⟨_, rfl, rfl, rfl, ⟨rest', hrep, q2, q3⟩, q6⟩
    exact key _ _ hm1 hm2

end Verif.Fifo
