import Verif.Fifo.Lemmas
/-!
# Each operation on the linked list is the operation on lists
-/
namespace Verif.Fifo
open Verif

variable {α σ : Type}

theorem decref_log (m : Mem α) (d : Option α) : (m.decref d).log = m.log ++ Spec.decref d := by
  cases d <;> simp [Mem.decref, Spec.decref]
theorem decref_cell (m : Mem α) (d : Option α) : (m.decref d).cell = m.cell := by cases d <;> rfl
theorem decref_brk (m : Mem α) (d : Option α) : (m.decref d).brk = m.brk := by cases d <;> rfl
theorem incref_log (m : Mem α) (d : Option α) : (m.incref d).log = m.log ++ Spec.incref d := by
  cases d <;> simp [Mem.incref, Spec.incref]
theorem incref_cell (m : Mem α) (d : Option α) : (m.incref d).cell = m.cell := by cases d <;> rfl
theorem incref_brk (m : Mem α) (d : Option α) : (m.incref d).brk = m.brk := by cases d <;> rfl

/-- Shape depends on the cells only. -/
theorem Shape.congr {m m' : Mem α} {p q : Option Nat} {l : List (Node α)} (h : Shape m p q l) (hc : m'.cell = m.cell)
    (hb : m'.brk = m.brk) : Shape m' p q l := by
  obtain ⟨h1, h2, h3, h4, h5⟩ := h
  exact ⟨by rw [hc]; exact h1, h2, h3, by rw [hb]; exact h4, by rw [hb, hc]; exact h5⟩

theorem Step.congr {m m' m'' : Mem α} {l l' : List (Node α)} (h : Step m l m' l') (hc : m''.cell = m'.cell)
    (hb : m''.brk = m'.brk) : Step m l m'' l' := by
  obtain ⟨h1, h2, h3, h4⟩ := h
  exact ⟨by rw [hb]; exact h1, by rw [hc]; exact h2, by rw [hc]; exact h3, h4⟩

theorem Shape.head {m : Mem α} {p q : Option Nat} {pre rest : List (Node α)} {x : Node α} (h : Shape m p q (pre ++ x :: rest)) :
    ∃ nx, m.cell x.addr = some ⟨x.data, x.order, nx⟩ ∧ nx = rest.head?.map Node.addr := by
  have := h.seg
  rw [seg_append] at this
  obtain ⟨r, _, _, nx, h1, h2⟩ := this
  exact ⟨nx, h1, seg_head h2⟩

/-- The program and the specification agree: either both abort, or both return and their results are related. -/
def Agrees {β γ : Type} (s : Option β) (o : Out γ) (R : β → γ → Prop) : Prop :=
  match s with
  | none => o = .bug
  | some r => ∃ p, o = .ok p ∧ R r p

theorem Agrees.bind {β γ δ ε : Type} {s : Option β} {o : Out γ} {R : β → γ → Prop} {g : β → Option δ} {k : γ → Out ε} {R' : δ → ε → Prop}
    (h : Agrees s o R) (hk : ∀ r p, R r p → Agrees (g r) (k p) R') : Agrees (s.bind g) (o.bind k) R' := by
  cases s with
  | none => have : o = .bug := h; subst this; rfl
  | some r => obtain ⟨p, rfl, hr⟩ := h; exact hk r p hr

theorem Agrees.map {β γ δ : Type} {s : Option β} {o : Out γ} {R : β → γ → Prop} {g : β → δ} {R' : δ → γ → Prop}
    (h : Agrees s o R) (hk : ∀ r p, R r p → R' (g r) p) : Agrees (s.map g) o R' := by
  cases s with
  | none => exact h
  | some r => obtain ⟨p, rfl, hr⟩ := h; exact ⟨p, rfl, hk r p hr⟩

/-- What a pass over the buffer has done. -/
structure Passed (m : Mem α) (f : Fifo) (pre rest : List (Node α)) (cleared : Nat) (p : Pass α σ) (r : Spec.Res α σ) : Prop where
  intro ::
  out : ∃ rest' : List (Node α), Shape p.mem p.fifo.first p.fifo.last (pre ++ rest') ∧ vals rest' = r.items ∧
    rest'.length ≤ rest.length ∧ p.cleared = cleared + (rest.length - rest'.length) ∧ Step m (pre ++ rest) p.mem (pre ++ rest')
  log : p.mem.log = m.log ++ r.log
  st : p.st = r.st
  ret : p.ret = r.ret
  count : p.fifo.count = f.count

theorem searchLoop_spec (cb : σ → Option α → UInt32 × σ) : ∀ (rest : List (Node α)) (fuel : Nat) (m : Mem α) (f : Fifo)
    (pre : List (Node α)) (cleared : Nat) (st : σ), Shape m f.first f.last (pre ++ rest) → rest.length ≤ fuel →
    Agrees (Spec.search cb st (vals rest)) (searchLoop cb fuel m f (lastAddr pre) (rest.head?.map Node.addr) cleared st)
      (fun r p => Passed m f pre rest cleared p r)
  | [], fuel, m, f, pre, cleared, st, h, _ => by
    refine ⟨⟨m, f, st, 0, cleared⟩, by cases fuel <;> rfl, ⟨[], h, rfl, Nat.le_refl _, by simp, Step.refl h.clean⟩, by simp, rfl, rfl, rfl⟩
  | x :: rest, 0, m, f, pre, cleared, st, h, hl => by simp at hl
  | x :: rest, fuel + 1, m, f, pre, cleared, st, h, hl => by
    obtain ⟨nx, hc, hnx⟩ := h.head
    have hl' : rest.length ≤ fuel := by simpa using hl
    have hget : m.get x.addr = .ok ⟨x.data, x.order, nx⟩ := by unfold Mem.get; rw [hc]
    show Agrees (Spec.search cb st (x.val :: vals rest)) _ _
    unfold Spec.search
    simp only [List.head?_cons, Option.map_some]
    unfold searchLoop
    rw [hget]
    simp only [Out.bind, Node.val]
    obtain ⟨act, st', hcb⟩ : ∃ a s, cb st x.data = (a, s) := ⟨_, _, rfl⟩
    simp only [hcb]
    by_cases h0 : act = 0
    · simp only [h0, if_true]
      have ih := searchLoop_spec cb rest fuel m f (pre ++ [x]) cleared st' (by simpa using h) hl'
      rw [lastAddr_concat, ← hnx] at ih
      refine ih.map ?_
      rintro r p ⟨⟨rest', q1, q2, q3, q4, q5⟩, q6, q7, q8, q9⟩
      refine ⟨⟨x :: rest', by simpa using q1, by simp [Spec.Res.cons, ← q2, Node.val], by simpa using q3, by simp; omega,
          by simpa using q5⟩, by simp [q6, Spec.Res.cons], q7, q8, q9⟩
    · simp only [if_neg h0]
      by_cases h1 : has act CALLBACK_ERR
      · simp only [h1, if_true]
        exact ⟨_, rfl, ⟨x :: rest, h, rfl, Nat.le_refl _, by simp, Step.refl h.clean⟩, by simp, rfl, rfl, rfl⟩
      · simp only [Bool.not_eq_true] at h1
        simp only [h1, Bool.false_eq_true, if_false]
        by_cases h2 : has act GIVE
        · simp only [h2, if_true]
          obtain ⟨m1, m2, f', u1, u2, u3, u4, u5, u6, u7⟩ := unlink_free h hc
          rw [u1]
          simp only [u2]
          have hmem : (if has act FREE = true then m2.decref x.data else m2).cell = m2.cell ∧
              (if has act FREE = true then m2.decref x.data else m2).brk = m2.brk ∧
              (if has act FREE = true then m2.decref x.data else m2).log = m.log ++ (if has act FREE = true then Spec.decref x.data else []) := by
            split
            · exact ⟨decref_cell _ _, decref_brk _ _, by rw [decref_log, u5]⟩
            · exact ⟨rfl, rfl, by simp [u5]⟩
          generalize (if has act FREE = true then m2.decref x.data else m2) = m3 at hmem ⊢
          obtain ⟨w1, w2, w3⟩ := hmem
          by_cases h3 : has act STOP
          · simp only [h3, if_true]
            refine ⟨_, rfl, ⟨rest, u3.congr w1 w2, rfl, by simp, ?_, u4.congr w1 w2⟩, w3, rfl, rfl, u6⟩
            simp only [List.length_cons]; omega
          · simp only [Bool.not_eq_true] at h3
            simp only [h3, Bool.false_eq_true, if_false]
            have ih := searchLoop_spec cb rest fuel m3 f' pre (cleared + 1) st' (u3.congr w1 w2) hl'
            rw [← hnx] at ih
            refine ih.map ?_
            rintro r p ⟨⟨rest', q1, q2, q3, q4, q5⟩, q6, q7, q8, q9⟩
            refine ⟨⟨rest', q1, q2, by simp; omega, ?_, (u4.congr w1 w2).trans q5⟩, ?_, q7, q8, by rw [q9, u6]⟩
            · simp only [List.length_cons]; omega
            · rw [q6, w3]; simp [Spec.Res.did]
        · simp only [Bool.not_eq_true] at h2
          simp only [h2, Bool.false_eq_true, if_false]
          by_cases h3 : has act STOP
          · simp only [h3, if_true]
            exact ⟨_, rfl, ⟨x :: rest, h, rfl, Nat.le_refl _, by simp, Step.refl h.clean⟩, by simp, rfl, rfl, rfl⟩
          · simp only [Bool.not_eq_true] at h3
            simp only [h3, Bool.false_eq_true, if_false]
            rfl

/-- Distinct addresses below a bound: the list is not longer than the bound. -/
theorem nodup_length_le : ∀ (n : Nat) (l : List Nat), l.Nodup → (∀ a ∈ l, a < n) → l.length ≤ n
  | 0, l, _, h => by
    cases l with
    | nil => simp
    | cons a l => exact absurd (h a (by simp)) (by omega)
  | n + 1, l, hd, h => by
    have := nodup_length_le n (l.erase n) (hd.erase n) (fun a ha => by
      have h1 := h a (List.mem_of_mem_erase ha)
      have h2 : a ≠ n := by rintro rfl; exact (hd.not_mem_erase) ha
      omega)
    by_cases hm : n ∈ l
    · rw [List.length_erase_of_mem hm] at this; omega
    · rw [List.erase_of_not_mem hm] at this; omega

theorem Shape.length_le {m : Mem α} {p q : Option Nat} {l : List (Node α)} (h : Shape m p q l) : l.length ≤ m.brk := by
  have := nodup_length_le m.brk (addrs l) h.nodup h.bound
  simpa using this

theorem count_zero_iff {m : Mem α} {f : Fifo} {l : List (Node α)} (h : Rep m f l) : f.count = 0 ↔ l = [] := by
  rw [← List.length_eq_zero_iff, ← UInt32.toNat_inj]; have := h.count; simp at this; simp [this]

theorem count_sub {m : Mem α} {f : Fifo} {l l' : List (Node α)} (h : Rep m f l) (hl : l'.length ≤ l.length) :
    ¬ f.count < UInt32.ofNat (l.length - l'.length) ∧ (f.count - UInt32.ofNat (l.length - l'.length)).toNat = l'.length := by
  have hc := h.count
  have hlt := f.count.toNat_lt
  have hn : (UInt32.ofNat (l.length - l'.length)).toNat = l.length - l'.length := by rw [UInt32.toNat_ofNat']; omega
  have hle : UInt32.ofNat (l.length - l'.length) ≤ f.count := by rw [UInt32.le_iff_toNat_le, hn]; omega
  refine ⟨UInt32.not_lt.mpr hle, ?_⟩
  rw [UInt32.toNat_sub_of_le _ _ hle, hn]; omega

/-- The buffer after an operation: `l'` is what it holds. -/
structure DidK (k : Nat) (m : Mem α) (l : List (Node α)) (items : Spec.Items α) (log : List (Ev α)) (m' : Mem α) (f' : Fifo) : Prop where
  intro ::
  out : ∃ l', RepK k m' f' l' ∧ vals l' = items ∧ Step m l m' l'
  log : m'.log = m.log ++ log

/-- As above, where the count is right. -/
abbrev Did (m : Mem α) (l : List (Node α)) (items : Spec.Items α) (log : List (Ev α)) (m' : Mem α) (f' : Fifo) : Prop :=
  DidK 0 m l items log m' f'

/-- Search on the linked list is search on the list. -/
theorem search_spec (cb : σ → Option α → UInt32 × σ) (m : Mem α) (f : Fifo) (l : List (Node α)) (st : σ) (h : Rep m f l) :
    Agrees (Spec.search cb st (vals l)) (search cb m f st)
      (fun r p => p.2.2.1 = r.st ∧ p.2.2.2 = r.ret ∧ Did m l r.items r.log p.1 p.2.1) := by
  unfold search
  by_cases h0 : f.count = 0
  · rw [if_pos h0]
    have hl := (count_zero_iff h).mp h0
    subst hl
    exact ⟨_, rfl, rfl, rfl, ⟨[], h, rfl, Step.refl h.shape.clean⟩, by simp [Spec.search]⟩
  · rw [if_neg h0]
    have ih := searchLoop_spec cb l (m.brk + 1) m f [] 0 st h.shape (by have := h.shape.length_le; omega)
    have hfirst : f.first = l.head?.map Node.addr := seg_head h.shape.seg
    rw [← hfirst] at ih
    have := ih.bind (g := fun r => some r) (R' := fun r p => p.2.2.1 = r.st ∧ p.2.2.2 = r.ret ∧ Did m l r.items r.log p.1 p.2.1)
      (k := fun p => if p.fifo.count < UInt32.ofNat p.cleared then .bug else
        .ok (p.mem, { p.fifo with count := p.fifo.count - UInt32.ofNat p.cleared }, p.st, p.ret)) ?_
    · simpa [lastAddr] using this
    · rintro r p ⟨⟨rest', q1, q2, q3, q4, q5⟩, q6, q7, q8, q9⟩
      rw [Nat.zero_add] at q4
      obtain ⟨c1, c2⟩ := count_sub h q3
      simp only [q4, q9, if_neg c1]
      exact ⟨_, rfl, q7, q8, ⟨rest', ⟨q1, c2⟩, q2, q5⟩, q6⟩

/-! ## Write -/

/-- Linking the node `x` between `pre` and `post`. -/
theorem link {m : Mem α} {first last : Option Nat} {pre post : List (Node α)} {x : Node α} {nx0 : Option Nat}
    (h : Shape m first last (pre ++ post)) (hc : m.cell x.addr = some ⟨x.data, x.order, nx0⟩) (hn : x.addr ∉ addrs (pre ++ post))
    (hb : x.addr < m.brk) :
    ∃ m1 m2, (match lastAddr pre with | some p => m.setNext p (some x.addr) | none => .ok m) = .ok m1 ∧
      m1.setNext x.addr (post.head?.map Node.addr) = .ok m2 ∧
      Shape m2 (if pre = [] then some x.addr else first) (if post = [] then some x.addr else last) (pre ++ x :: post) ∧
      (∀ a, a ≠ x.addr → a ∉ addrs (pre ++ post) → m2.cell a = m.cell a) ∧ m2.log = m.log ∧ m2.brk = m.brk := by
  obtain ⟨hseg, hnd, hlast, hbound, hclean⟩ := h
  rw [seg_append] at hseg
  obtain ⟨r, hs1, hs2⟩ := hseg
  have hr := seg_head hs2
  rw [addrs_append] at hn
  have hn1 : x.addr ∉ addrs pre := fun e => hn (List.mem_append_left _ e)
  have hn2 : x.addr ∉ addrs post := fun e => hn (List.mem_append_right _ e)
  have hnd2 : (addrs (pre ++ x :: post)).Nodup := by
    rw [addrs_append, List.nodup_append] at hnd ⊢
    obtain ⟨d1, d2, d3⟩ := hnd
    refine ⟨d1, List.nodup_cons.mpr ⟨hn2, d2⟩, ?_⟩
    intro a ha b hb'
    rcases List.mem_cons.mp hb' with rfl | hb'
    · rintro rfl; exact hn1 ha
    · exact d3 a ha b hb'
  have hlast2 : (if post = [] then some x.addr else last) = lastAddr (pre ++ x :: post) := by
    rw [lastAddr_append_cons]
    cases post with
    | nil => rfl
    | cons y p => rw [if_neg (by simp), hlast, lastAddr_append_cons, show x :: y :: p = [x] ++ y :: p from rfl, lastAddr_append_cons]
  have hbound2 : ∀ a ∈ addrs (pre ++ x :: post), a < m.brk := by
    intro a ha
    rw [addrs_append] at ha
    rcases List.mem_append.mp ha with ha | ha
    · exact hbound a (by rw [addrs_append]; exact List.mem_append_left _ ha)
    · rcases List.mem_cons.mp ha with rfl | ha
      · exact hb
      · exact hbound a (by rw [addrs_append]; exact List.mem_append_right _ ha)
  rcases List.eq_nil_or_concat pre with hpre | ⟨pre', y, hpre⟩
  · subst hpre
    refine ⟨m, m.set x.addr (some ⟨x.data, x.order, r⟩), rfl, ?_, ⟨?_, hnd2, hlast2, hbound2, ?_⟩, ?_, rfl, rfl⟩
    · unfold Mem.setNext; rw [hc, hr]
    · refine ⟨rfl, r, by simp [set_cell], seg_frame ?_ hs2⟩
      intro a ha
      rw [set_cell, if_neg]
      rintro rfl
      exact hn2 ha
    · intro a ha
      rw [set_cell, if_neg]
      · exact hclean a ha
      · rintro rfl; change m.brk ≤ _ at ha; omega
    · intro a h1 _
      rw [set_cell, if_neg h1]
  · rw [List.concat_eq_append] at hpre
    subst hpre
    obtain ⟨ny, hyc⟩ := seg_cell hs1 (n := y) (by simp)
    have hyx : x.addr ≠ y.addr := fun e => hn1 (by rw [e]; simp)
    have hy1 : y.addr ∉ addrs pre' := by
      rw [addrs_append, List.nodup_append] at hnd
      exact (nodup_mid (pre := pre') (x := y) (rest := []) hnd.1).1
    have hy2 : y.addr ∉ addrs post := by
      rw [addrs_append, List.nodup_append] at hnd
      exact fun e => hnd.2.2 y.addr (by simp) y.addr e rfl
    have hyb : y.addr < m.brk := hbound _ (by simp)
    refine ⟨m.set y.addr (some ⟨y.data, y.order, some x.addr⟩),
      (m.set y.addr (some ⟨y.data, y.order, some x.addr⟩)).set x.addr (some ⟨x.data, x.order, r⟩), ?_, ?_,
      ⟨?_, hnd2, hlast2, hbound2, ?_⟩, ?_, rfl, rfl⟩
    · rw [lastAddr_concat]
      simp only [Mem.setNext, hyc]
    · unfold Mem.setNext; rw [set_cell, if_neg hyx, hc, hr]
    · rw [if_neg (by simp), seg_append]
      refine ⟨some x.addr, seg_frame ?_ (seg_relink (q' := some x.addr) hs1 hy1), rfl, r, by simp [set_cell], seg_frame ?_ hs2⟩
      · intro a ha
        rw [set_cell, if_neg]
        · rfl
        · rintro rfl; exact hn1 ha
      · intro a ha
        rw [set_cell, if_neg, set_cell, if_neg]
        · rintro rfl; exact hy2 ha
        · rintro rfl; exact hn2 ha
    · intro a ha
      change m.brk ≤ a at ha
      rw [set_cell, if_neg, set_cell, if_neg]
      · exact hclean a ha
      · rintro rfl; omega
      · rintro rfl; omega
    · intro a h1 h2
      rw [set_cell, if_neg h1, set_cell, if_neg]
      rintro rfl
      exact h2 (by simp)

/-- The entries before the place of an ordered write. -/
def below (order : UInt64) (x : Node α) : Bool := x.order < order

theorem insert_eq (x : Node α) : ∀ l : List (Node α), Spec.insert x.val (vals l) =
    vals (l.takeWhile (below x.order) ++ x :: l.dropWhile (below x.order))
  | [] => rfl
  | y :: l => by
    show (if y.order < x.order then y.val :: Spec.insert x.val (vals l) else x.val :: y.val :: vals l) = _
    by_cases h : y.order < x.order
    · rw [if_pos h, insert_eq x l]
      simp [below, h]
    · rw [if_neg h]
      simp [below, h]

theorem findPos_spec {m : Mem α} {p q : Option Nat} {order : UInt64} : ∀ (rest : List (Node α)) (fuel : Nat) (pre : List (Node α)),
    Shape m p q (pre ++ rest) → rest.length ≤ fuel →
    findPos m order fuel (lastAddr pre) (rest.head?.map Node.addr) =
      .ok (lastAddr (pre ++ rest.takeWhile (below order)), (rest.dropWhile (below order)).head?.map Node.addr)
  | [], fuel, pre, h, _ => by cases fuel <;> simp [findPos]
  | x :: rest, 0, pre, h, hl => by simp at hl
  | x :: rest, fuel + 1, pre, h, hl => by
    obtain ⟨nx, hc, hnx⟩ := h.head
    have hget : m.get x.addr = .ok ⟨x.data, x.order, nx⟩ := by unfold Mem.get; rw [hc]
    simp only [List.head?_cons, Option.map_some]
    unfold findPos
    rw [hget]
    simp only [Out.bind]
    by_cases hb : x.order < order
    · rw [if_pos hb]
      have ih := findPos_spec (order := order) rest fuel (pre ++ [x]) (by simpa using h) (by simpa using hl)
      rw [lastAddr_concat, ← hnx] at ih
      rw [ih]
      simp [below, hb]
    · rw [if_neg hb]
      simp [below, hb]

/-- Linking an entry: appended or at its place. -/
theorem updatePointers_spec {m : Mem α} {f : Fifo} {l : List (Node α)} {x : Node α} (ordered : Bool)
    (h : Shape m f.first f.last l) (hc : m.cell x.addr = some ⟨x.data, x.order, none⟩) (hn : x.addr ∉ addrs l)
    (hb : x.addr < m.brk) :
    ∃ m' f' pre post, updatePointers m f x.addr x.order ordered = .ok (m', f') ∧ l = pre ++ post ∧
      Shape m' f'.first f'.last (pre ++ x :: post) ∧ f'.count = f.count ∧
      vals (pre ++ x :: post) = (if ordered then Spec.insertOrdered x.val (vals l) else vals l ++ [x.val]) ∧
      (∀ a, a ≠ x.addr → a ∉ addrs l → m'.cell a = m.cell a) ∧ m'.log = m.log ∧ m'.brk = m.brk := by
  have hfirst := seg_head h.seg
  have hlast := h.last
  unfold updatePointers
  rcases List.eq_nil_or_concat l with hl | ⟨l', y, hl⟩
  · subst hl
    obtain ⟨m1, m2, e1, e2, e3, e4, e5, e6⟩ := link (pre := []) (post := []) h hc hn hb
    cases e1
    have e2' : m.setNext x.addr none = .ok m2 := e2
    rw [hfirst]
    simp only [List.head?_nil, Option.map_none, e2', Out.bind]
    refine ⟨m2, _, [], [], rfl, rfl, e3, rfl, ?_, e4, e5, e6⟩
    cases ordered <;> simp [Spec.insertOrdered]
  · rw [List.concat_eq_append] at hl
    subst hl
    have happ : ∃ m' f', appendLast m f x.addr = .ok (m', f') ∧ Shape m' f'.first f'.last ((l' ++ [y]) ++ x :: []) ∧ f'.count = f.count ∧
        (∀ a, a ≠ x.addr → a ∉ addrs (l' ++ [y]) → m'.cell a = m.cell a) ∧ m'.log = m.log ∧ m'.brk = m.brk := by
      obtain ⟨m1, m2, e1, e2, e3, e4, e5, e6⟩ := link (pre := l' ++ [y]) (post := []) (by simpa using h) hc (by simpa using hn) hb
      have e2' : m1.setNext x.addr none = .ok m2 := e2
      rw [lastAddr_concat] at e1
      refine ⟨m2, { f with last := some x.addr }, ?_, ?_, rfl, by simpa using e4, e5, e6⟩
      · unfold appendLast
        rw [hlast, lastAddr_concat]
        simp only [Mem.setNext?]
        simp only at e1
        rw [e1]
        simp only [Out.bind, e2']
      · rw [if_neg (by simp), if_pos rfl] at e3
        exact e3
    obtain ⟨z, hz⟩ : ∃ z, (l' ++ [y]).head?.map Node.addr = some z := by cases l' <;> simp
    rw [hz] at hfirst
    rw [hfirst]
    simp only
    by_cases ho : ordered = true
    · rw [if_pos ho, hlast, lastAddr_concat]
      simp only
      obtain ⟨nx, hyc⟩ := seg_cell h.seg (n := y) (by simp)
      have hget : m.get y.addr = .ok ⟨y.data, y.order, nx⟩ := by unfold Mem.get; rw [hyc]
      rw [hget]
      simp only [Out.bind]
      have hins : Spec.insertOrdered x.val (vals (l' ++ [y])) = if y.order < x.order then vals (l' ++ [y]) ++ [x.val]
          else Spec.insert x.val (vals (l' ++ [y])) := by
        simp [Spec.insertOrdered, Node.val]
      by_cases hlt : y.order < x.order
      · rw [if_pos hlt]
        obtain ⟨m', f', e1, e2, e3, e4, e5, e6⟩ := happ
        refine ⟨m', f', l' ++ [y], [], e1, by simp, e2, e3, ?_, e4, e5, e6⟩
        rw [if_pos ho, hins, if_pos hlt]
        simp [Node.val]
      · rw [if_neg hlt]
        have hfp := findPos_spec (order := x.order) (l' ++ [y]) (m.brk + 1) [] (by simpa using h) (by have := h.length_le; omega)
        rw [hz, List.nil_append] at hfp
        have hfp' : findPos m x.order (m.brk + 1) none (some z) = _ := hfp
        rw [hfp']
        simp only
        have hsplit : l' ++ [y] = (l' ++ [y]).takeWhile (below x.order) ++ (l' ++ [y]).dropWhile (below x.order) :=
          List.takeWhile_append_dropWhile.symm
        have hv : vals ((l' ++ [y]).takeWhile (below x.order) ++ x :: (l' ++ [y]).dropWhile (below x.order)) =
            (if ordered then Spec.insertOrdered x.val (vals (l' ++ [y])) else vals (l' ++ [y]) ++ [x.val]) := by
          rw [if_pos ho, hins, if_neg hlt, insert_eq]
        have hne : (l' ++ [y]).dropWhile (below x.order) ≠ [] := by
          intro e
          have hall : ∀ z ∈ (l' ++ [y]).takeWhile (below x.order), below x.order z = true := fun z hz => List.all_eq_true.mp (List.all_takeWhile) z hz
          rw [e, List.append_nil] at hsplit
          have := hall y (by rw [← hsplit]; simp)
          simp [below, hlt] at this
        obtain ⟨m1, m2, e1, e2, e3, e4, e5, e6⟩ := link (x := x) (by rw [hsplit] at h; exact h) hc (by rw [← hsplit]; exact hn) hb
        rw [← hsplit] at e4
        rw [if_neg hne] at e3
        cases hd : (l' ++ [y]).dropWhile (below x.order) with
        | nil => exact absurd hd hne
        | cons w ws =>
          simp only [List.head?_cons, Option.map_some]
          rw [hd] at e2
          simp only [List.head?_cons, Option.map_some] at e2
          cases hp : lastAddr ((l' ++ [y]).takeWhile (below x.order)) with
          | some p =>
            simp only
            rw [hp] at e1
            simp only at e1
            rw [e1]
            simp only [e2]
            refine ⟨m2, f, (l' ++ [y]).takeWhile (below x.order), (l' ++ [y]).dropWhile (below x.order), rfl, hsplit, ?_, rfl, hv, e4, e5, e6⟩
            rw [if_neg] at e3
            · exact e3
            · intro e; rw [e] at hp; cases hp
          | none =>
            simp only
            rw [hp] at e1
            cases e1
            have hnil : (l' ++ [y]).takeWhile (below x.order) = [] := by
              unfold lastAddr at hp
              rw [Option.map_eq_none_iff, List.getLast?_eq_none_iff] at hp
              exact hp
            have hz' : some z = some w.addr := by
              rw [← hz, hsplit, hnil, hd]; rfl
            rw [hz', e2]
            simp only
            refine ⟨m2, _, (l' ++ [y]).takeWhile (below x.order), (l' ++ [y]).dropWhile (below x.order), rfl,
              hsplit, ?_, rfl, hv, e4, e5, e6⟩
            rw [if_pos hnil, hlast, lastAddr_concat] at e3
            exact e3
    · rw [if_neg ho]
      obtain ⟨m', f', e1, e2, e3, e4, e5, e6⟩ := happ
      refine ⟨m', f', l' ++ [y], [], e1, by simp, e2, e3, ?_, e4, e5, e6⟩
      rw [if_neg ho]
      simp [Node.val]

/-- Allocating and freeing again. -/
theorem alloc_free {m : Mem α} {f : Fifo} {k : Nat} {l : List (Node α)} (h : RepK k m f l) :
    ∃ m', m.alloc.2.free m.alloc.1 = .ok m' ∧ RepK k m' f l ∧ Step m l m' l ∧ m'.log = m.log := by
  have hcell : ∀ a, (m.alloc.2.set m.brk none).cell a = m.cell a := by
    intro a
    simp only [Mem.alloc, Mem.set]
    split
    · rename_i e; rw [e, h.shape.clean _ (Nat.le_refl _)]
    · rfl
  have hcell' := funext hcell
  obtain ⟨⟨h1, h2, h3, h4, h5⟩, hc⟩ := h
  refine ⟨m.alloc.2.set m.brk none, ?_, ⟨⟨by rw [hcell']; exact h1, h2, h3, ?_, ?_⟩, hc⟩, ⟨?_, ?_, ?_, ?_⟩, rfl⟩
  · simp [Mem.free, Mem.alloc, Mem.set]; rfl
  · intro a ha; exact Nat.lt_succ_of_lt (h4 a ha)
  · intro a ha; rw [hcell]; exact h5 a (Nat.le_of_succ_le ha)
  · exact Nat.le_succ _
  · intro a _ _; exact hcell a
  · rintro a (ha | ha) hn
    · exact absurd ha hn
    · rw [hcell]; exact h5 a ha
  · exact fun a ha => Or.inl ha

/-- One entry added. -/
theorem add_spec {m : Mem α} {f : Fifo} {k : Nat} {l : List (Node α)} (h : RepK k m f l) (hlt : l.length + k + 1 < 2 ^ 32) (d : α) (order : UInt64)
    (ordered : Bool) :
    ∃ m' f', updatePointers ((m.alloc.2.set m.alloc.1 (some ⟨some d, order, none⟩)).incref (some d)) f m.alloc.1 order ordered = .ok (m', f') ∧
      (incErr f').2 = false ∧ DidK k m l (if ordered then Spec.insertOrdered (some d, order) (vals l) else vals l ++ [(some d, order)])
        [.incref d] m' (incErr f').1 := by
  generalize hm1 : ((m.alloc.2.set m.alloc.1 (some ⟨some d, order, none⟩)).incref (some d)) = m1
  have hcell : ∀ a, m1.cell a = if a = m.brk then some ⟨some d, order, none⟩ else m.cell a := by
    intro a
    subst hm1
    simp only [Mem.incref, Mem.alloc, Mem.set]
    split <;> rfl
  have hbrk : m1.brk = m.brk + 1 := by subst hm1; rfl
  have hlog : m1.log = m.log ++ [.incref d] := by subst hm1; rfl
  obtain ⟨⟨h1, h2, h3, h4, h5⟩, hc⟩ := h
  have hnot : m.brk ∉ addrs l := fun e => Nat.lt_irrefl _ (h4 _ e)
  have hsh : Shape m1 f.first f.last l := by
    refine ⟨seg_frame ?_ h1, h2, h3, ?_, ?_⟩
    · intro a ha
      rw [hcell, if_neg]
      rintro rfl
      exact hnot ha
    · intro a ha; rw [hbrk]; exact Nat.lt_succ_of_lt (h4 a ha)
    · intro a ha
      rw [hbrk] at ha
      rw [hcell, if_neg (by omega)]
      exact h5 a (by omega)
  obtain ⟨m', f', pre, post, e1, e2, e3, e4, e5, e6, e7, e8⟩ := updatePointers_spec (x := ⟨m.brk, some d, order⟩) ordered hsh
    (by rw [hcell]; simp) hnot (by rw [hbrk]; simp)
  have hcnt : (f'.count + 1).toNat = l.length + k + 1 := by
    rw [e4, UInt32.toNat_add, hc]
    simp
    omega
  have hmem : ∀ a, a ∈ addrs (pre ++ (⟨m.brk, some d, order⟩ : Node α) :: post) ↔ a = m.brk ∨ a ∈ addrs l := by
    intro a; subst e2; simp; grind
  refine ⟨m', f', e1, ?_, ⟨_, ⟨e3, ?_⟩, e5, ?_⟩, ?_⟩
  · simp only [incErr, decide_eq_false_iff_not]
    intro e
    rw [e] at hcnt
    simp at hcnt
  · simp only [incErr]
    rw [hcnt, e2]
    simp
    omega
  · refine ⟨by omega, ?_, ?_, ?_⟩
    · intro a ha hn
      rw [e6 a (by show a ≠ m.brk; omega) hn, hcell, if_neg (by omega)]
    · intro a ha hn
      rw [hmem] at hn
      rw [e6 a (fun e => hn (Or.inl e)) (fun e => hn (Or.inr e)), hcell, if_neg (fun e => hn (Or.inl e))]
      rcases ha with ha | ha
      · exact absurd ha (fun e => hn (Or.inr e))
      · exact h5 a ha
    · intro a ha
      rcases (hmem a).mp ha with rfl | ha
      · exact Or.inr (Nat.le_refl _)
      · exact Or.inl ha
  · rw [e7, hlog]

theorem DidK.trans {k : Nat} {m m' m'' : Mem α} {f' f'' : Fifo} {l l' : List (Node α)} {items items' : Spec.Items α} {g g' : List (Ev α)}
    (h : RepK k m' f' l' ∧ vals l' = items ∧ Step m l m' l') (hg : m'.log = m.log ++ g) (h' : DidK k m' l' items' g' m'' f'') :
    DidK k m l items' (g ++ g') m'' f'' := by
  obtain ⟨⟨l'', r1, r2, r3⟩, r4⟩ := h'
  exact ⟨⟨l'', r1, r2, h.2.2.trans r3⟩, by rw [r4, hg]; simp⟩

theorem insert_length (x : Option α × UInt64) : ∀ l : Spec.Items α, (Spec.insert x l).length = l.length + 1
  | [] => rfl
  | y :: l => by
    unfold Spec.insert
    split
    · simp [insert_length x l]
    · rfl

theorem insertOrdered_length (x : Option α × UInt64) (l : Spec.Items α) : (Spec.insertOrdered x l).length = l.length + 1 := by
  unfold Spec.insertOrdered
  split
  · split
    · simp
    · exact insert_length x l
  · rename_i h
    rw [List.getLast?_eq_none_iff] at h
    simp [h]

theorem write_spec {k : Nat} : ∀ (ws : List (WRes α)) (m : Mem α) (f : Fifo) (l : List (Node α)), RepK k m f l → l.length + k + ws.length < 2 ^ 32 →
    Agrees (Spec.write ws (vals l)) (write ws m f) (fun r p => p.2.2 = r.2.2 ∧ DidK k m l r.1 r.2.1 p.1 p.2.1 ∧ r.1.length ≤ l.length + ws.length)
  | [], m, f, l, h, _ => ⟨_, rfl, rfl, ⟨⟨l, h, rfl, Step.refl h.shape.clean⟩, by simp⟩, by simp⟩
  | w :: ws, m, f, l, h, hl => by
    simp only [List.length_cons] at hl ⊢
    unfold Spec.write write
    simp only
    cases hw : writeCheck w.ret with
    | none => rfl
    | some fl =>
      simp only
      by_cases h1 : (fl.err || fl.drop) = true
      · rw [if_pos h1, if_pos h1]
        obtain ⟨m', e1, e2, e3, e4⟩ := alloc_free h
        rw [e1]
        simp only [Out.bind]
        by_cases h2 : fl.again = true
        · rw [if_pos h2, if_pos h2]
          have ih := write_spec ws m' f l e2 (by omega)
          have := ih.map (g := id) (R' := fun r p => p.2.2 = r.2.2 ∧ DidK k m l r.1 r.2.1 p.1 p.2.1 ∧ r.1.length ≤ l.length + (ws.length + 1)) (by
            rintro r p ⟨q1, q2, q3⟩
            exact ⟨q1, DidK.trans (g := []) ⟨e2, rfl, e3⟩ (by simp [e4]) q2, by simp only [id]; omega⟩)
          simpa using this
        · rw [if_neg h2, if_neg h2]
          exact ⟨_, rfl, rfl, ⟨⟨l, e2, rfl, e3⟩, by simp [e4]⟩, by simp⟩
      · rw [if_neg h1, if_neg h1]
        cases hd : w.data with
        | none => rfl
        | some d =>
          simp only
          obtain ⟨m', f', e1, e2, ⟨l', d1, d2, d3⟩, e4⟩ := add_spec h (by omega) d w.order fl.ordered
          rw [e1]
          simp only [Out.bind, e2]
          rw [← d2]
          have hlen : l'.length = l.length + 1 := by
            have := congrArg List.length d2
            rw [List.length_map] at this
            rw [this]
            split
            · rw [insertOrdered_length]; simp
            · simp
          by_cases h2 : fl.again = true
          · rw [if_pos h2, if_pos h2]
            have ih := write_spec ws m' (incErr f').1 l' d1 (by omega)
            refine ih.map ?_
            rintro ⟨r1, r2, r3⟩ p ⟨q1, q2, q3⟩
            exact ⟨q1, DidK.trans (g := [.incref d]) ⟨d1, rfl, d3⟩ e4 q2, by simp only at q3 ⊢; omega⟩
          · rw [if_neg h2, if_neg h2]
            exact ⟨_, rfl, rfl, ⟨⟨l', d1, rfl, d3⟩, e4⟩, by simp; omega⟩

theorem writes_spec {k : Nat} : ∀ (ws : List (List (WRes α))) (m : Mem α) (f : Fifo) (l : List (Node α)), RepK k m f l →
    l.length + k + (ws.map List.length).sum < 2 ^ 32 →
    Agrees (Spec.writes ws (vals l)) (writes ws m f)
      (fun r p => DidK k m l r.1 r.2 p.1 p.2 ∧ r.1.length ≤ l.length + (ws.map List.length).sum)
  | [], m, f, l, h, _ => ⟨_, rfl, ⟨⟨l, h, rfl, Step.refl h.shape.clean⟩, by simp⟩, by simp⟩
  | w :: ws, m, f, l, h, hl => by
    simp only [List.map_cons, List.sum_cons] at hl ⊢
    unfold Spec.writes writes
    refine (write_spec w m f l h (by omega)).bind ?_
    rintro ⟨i, g, rt⟩ ⟨m', f', rt'⟩ ⟨_, ⟨⟨l', d1, rfl, d3⟩, d4⟩, hlen⟩
    simp only at d1 d3 d4 hlen ⊢
    rw [List.length_map] at hlen
    refine (writes_spec ws m' f' l' d1 (by omega)).map ?_
    rintro ⟨r1, r2⟩ ⟨m'', f''⟩ ⟨q1, q2⟩
    simp only at q1 q2 ⊢
    exact ⟨DidK.trans ⟨d1, rfl, d3⟩ d4 q1, by omega⟩

/-! ## Clear -/

theorem clearLoop_spec (cb : σ → Option α → UInt32 × Option α × σ) : ∀ (rest : List (Node α)) (fuel : Nat) (m : Mem α) (n : Nat) (st : σ),
    Seg m.cell (rest.head?.map Node.addr) rest none → (addrs rest).Nodup → (∀ a ∈ addrs rest, a < m.brk) →
    (∀ a, m.brk ≤ a → m.cell a = none) → rest.length ≤ fuel →
    Agrees (Spec.clear cb st (vals rest)) (clearLoop cb fuel m (rest.head?.map Node.addr) n st)
      (fun r p => p.2.1 = n + rest.length ∧ p.2.2 = r.2 ∧ p.1.log = m.log ++ r.1 ∧ Step m rest p.1 [])
  | [], fuel, m, n, st, h, _, _, hcl, _ => by
    exact ⟨_, by cases fuel <;> rfl, rfl, rfl, by simp, Step.refl hcl⟩
  | x :: rest, 0, _, _, _, _, _, _, _, hl => by simp at hl
  | x :: rest, fuel + 1, m, n, st, h, hnd, hb, hcl, hl => by
    obtain ⟨_, nx, hc, hs⟩ := h
    have hnx := seg_head hs
    obtain ⟨hx, hnd'⟩ := List.nodup_cons.mp hnd
    have hget : m.get x.addr = .ok ⟨x.data, x.order, nx⟩ := by unfold Mem.get; rw [hc]
    show Agrees (Spec.clear cb st (x.val :: vals rest)) _ _
    unfold Spec.clear
    simp only [List.head?_cons, Option.map_some]
    unfold clearLoop
    rw [hget]
    simp only [Out.bind, Node.val]
    obtain ⟨ret, d, st', hcb⟩ : ∃ a d s, cb st x.data = (a, d, s) := ⟨_, _, _, rfl⟩
    simp only [hcb]
    by_cases h0 : ret = 0
    · rw [if_neg (by simp [h0]), if_neg (by simp [h0])]
      have hfree : (m.decref d).free x.addr = .ok ((m.decref d).set x.addr none) := by
        unfold Mem.free; rw [decref_cell, hc]
      rw [hfree]
      simp only
      generalize hm2 : (m.decref d).set x.addr none = m2
      have hcell : ∀ a, m2.cell a = if a = x.addr then none else m.cell a := by
        intro a; subst hm2; rw [set_cell, decref_cell]
      have hbrk : m2.brk = m.brk := by subst hm2; exact decref_brk m d
      have hlog : m2.log = m.log ++ Spec.decref d := by subst hm2; exact decref_log m d
      have ih := clearLoop_spec cb rest fuel m2 (n + 1) st' (by
          rw [← hnx]
          apply seg_frame _ hs
          intro a ha
          rw [hcell, if_neg]
          rintro rfl
          exact hx ha) hnd' (by intro a ha; rw [hbrk]; exact hb a (List.mem_cons_of_mem _ ha)) (by
          intro a ha
          rw [hcell]
          split
          · rfl
          · exact hcl a (by rw [← hbrk]; exact ha)) (by simpa using hl)
      rw [← hnx] at ih
      refine ih.map ?_
      rintro ⟨r1, r2⟩ ⟨p1, p2, p3⟩ ⟨q1, q2, q3, q4⟩
      simp only at q1 q2 q3 q4 ⊢
      refine ⟨by simp [q1]; omega, q2, by simp [q3, hlog], Step.trans (l' := rest) ⟨by omega, ?_, ?_, ?_⟩ q4⟩
      · intro a _ hn
        rw [hcell, if_neg]
        rintro rfl
        exact hn (by simp)
      · intro a ha hn
        rw [hcell]
        split
        · rfl
        · rename_i hne
          rcases ha with ha | ha
          · rcases List.mem_cons.mp ha with rfl | ha
            · exact absurd rfl hne
            · exact absurd ha hn
          · exact hcl a ha
      · intro a ha; exact Or.inl (List.mem_cons_of_mem _ ha)
    · rw [if_pos h0, if_pos h0]
      rfl

theorem clear_spec (cb : σ → Option α → UInt32 × Option α × σ) (m : Mem α) (f : Fifo) (l : List (Node α)) (st : σ) (h : Rep m f l) :
    Agrees (Spec.clear cb st (vals l)) (clear cb m f st) (fun r p => p.2.2 = r.2 ∧ Did m l [] r.1 p.1 p.2.1) := by
  have hfirst : f.first = l.head?.map Node.addr := seg_head h.shape.seg
  have ih := clearLoop_spec cb l (m.brk + 1) m 0 st (by rw [← hfirst]; exact h.shape.seg) h.shape.nodup h.shape.bound h.shape.clean
    (by have := h.shape.length_le; omega)
  rw [← hfirst] at ih
  unfold clear
  have := ih.bind (g := fun r => some r) (R' := fun r p => p.2.2 = r.2 ∧ Did m l [] r.1 p.1 p.2.1)
    (k := fun p => if f.count ≠ UInt32.ofNat p.2.1 then .bug else .ok (p.1, .init, p.2.2)) ?_
  · simpa using this
  · rintro ⟨r1, r2⟩ ⟨p1, p2, p3⟩ ⟨q1, q2, q3, q4⟩
    simp only at q1 q2 q3 q4 ⊢
    have hc : f.count = UInt32.ofNat p2 := by
      rw [← UInt32.toNat_inj, h.count, q1, UInt32.toNat_ofNat']
      have := f.count.toNat_lt
      have := h.count
      omega
    rw [if_neg (by simp [hc])]
    refine ⟨_, rfl, q2, ⟨⟨[], ⟨⟨rfl, List.nodup_nil, rfl, by simp, ?_⟩, rfl⟩, rfl, q4⟩, q3⟩⟩
    intro a ha
    exact q4.freed a (Or.inr (Nat.le_trans q4.brk ha)) (by simp)

/-! ## Read -/

theorem readLoop_spec (cb : σ → Option α → UInt32 × σ) {m : Mem α} {p q : Option Nat} : ∀ (rest : List (Node α)) (fuel : Nat)
    (pre : List (Node α)) (ret : UInt32) (st : σ), Shape m p q (pre ++ rest) → rest.length ≤ fuel →
    Agrees (Spec.read cb st ret (vals rest)) (readLoop cb m fuel (rest.head?.map Node.addr) ret st) (fun r p => p = r)
  | [], fuel, pre, ret, st, h, _ => ⟨_, by cases fuel <;> rfl, rfl⟩
  | x :: rest, 0, _, _, _, _, hl => by simp at hl
  | x :: rest, fuel + 1, pre, ret, st, h, hl => by
    obtain ⟨nx, hc, hnx⟩ := h.head
    have hget : m.get x.addr = .ok ⟨x.data, x.order, nx⟩ := by unfold Mem.get; rw [hc]
    show Agrees (Spec.read cb st ret (x.val :: vals rest)) _ _
    unfold Spec.read
    simp only [List.head?_cons, Option.map_some]
    unfold readLoop
    rw [hget]
    simp only [Out.bind, Node.val]
    obtain ⟨r, st', hcb⟩ : ∃ a s, cb st x.data = (a, s) := ⟨_, _, rfl⟩
    simp only [hcb]
    have ih := fun ret => readLoop_spec cb rest fuel (pre ++ [x]) ret st' (by simpa using h) (by simpa using hl)
    rw [← hnx] at ih
    by_cases h0 : r = 0
    · rw [if_pos h0, if_pos h0]; exact ih _
    · rw [if_neg h0, if_neg h0]
      by_cases h1 : has r STOP = true
      · rw [if_pos h1, if_pos h1]; exact ⟨_, rfl, rfl⟩
      · rw [if_neg h1, if_neg h1]
        by_cases h2 : has r (GIVE ||| FREE) = true
        · rw [if_pos h2, if_pos h2]; rfl
        · rw [if_neg h2, if_neg h2]
          by_cases h3 : has r GLOBAL_ERR = true
          · rw [if_pos h3, if_pos h3]; exact ⟨_, rfl, rfl⟩
          · rw [if_neg h3, if_neg h3]
            by_cases h4 : r &&& ~~~ (GIVE ||| FREE ||| STOP ||| CALLBACK_ERR ||| GLOBAL_ERR) ≠ 0
            · rw [if_pos h4, if_pos h4]; rfl
            · rw [if_neg h4, if_neg h4]; exact ih _

theorem read_spec (cb : σ → Option α → UInt32 × σ) (m : Mem α) (f : Fifo) (l : List (Node α)) (st : σ) (h : Rep m f l) :
    Agrees (Spec.read cb st 0 (vals l)) (read cb m f st) (fun r p => p = r) := by
  unfold read
  by_cases h0 : f.count = 0
  · rw [if_pos h0]
    have := (count_zero_iff h).mp h0
    subst this
    exact ⟨_, rfl, rfl⟩
  · rw [if_neg h0, seg_head h.shape.seg]
    exact readLoop_spec cb l (m.brk + 1) [] 0 st h.shape (by have := h.shape.length_le; omega)

theorem minimumLoop_spec (cb : σ → Option α → UInt32 × σ) (min : UInt64) {m : Mem α} {p q : Option Nat} : ∀ (rest : List (Node α)) (fuel : Nat)
    (pre : List (Node α)) (n : Nat) (st : σ), Shape m p q (pre ++ rest) → rest.length ≤ fuel →
    Agrees (Spec.readMinimum cb min n st (vals rest)) (minimumLoop cb m none min fuel (rest.head?.map Node.addr) n st) (fun r p => p = r)
  | [], fuel, pre, n, st, h, _ => ⟨_, by cases fuel <;> rfl, rfl⟩
  | x :: rest, 0, _, _, _, _, hl => by simp at hl
  | x :: rest, fuel + 1, pre, n, st, h, hl => by
    obtain ⟨nx, hc, hnx⟩ := h.head
    have hget : m.get x.addr = .ok ⟨x.data, x.order, nx⟩ := by unfold Mem.get; rw [hc]
    show Agrees (Spec.readMinimum cb min n st (x.val :: vals rest)) _ _
    unfold Spec.readMinimum
    simp only [List.head?_cons, Option.map_some]
    unfold minimumLoop
    rw [hget]
    simp only [Out.bind, Node.val]
    obtain ⟨r, st', hcb⟩ : ∃ a s, cb st x.data = (a, s) := ⟨_, _, rfl⟩
    simp only [hcb]
    have ih := fun n st' => minimumLoop_spec cb min rest fuel (pre ++ [x]) n st' (by simpa using h) (by simpa using hl)
    rw [← hnx] at ih
    by_cases h5 : x.order > min
    · rw [if_pos h5, if_pos h5]
      by_cases h4 : n + 1 = 500
      · rw [if_pos h4, if_pos (show n + 1 = maxReads ∨ none = some x.addr from Or.inl h4)]; exact ⟨_, rfl, rfl⟩
      · rw [if_neg h4, if_neg (show ¬ (n + 1 = maxReads ∨ none = some x.addr) from fun e => e.elim h4 (fun e => by cases e))]
        by_cases h0 : r = 0
        · rw [if_pos h0, if_pos h0]; exact ih _ _
        · rw [if_neg h0, if_neg h0]
          by_cases h1 : has r STOP = true
          · rw [if_pos h1, if_pos h1]; exact ⟨_, rfl, rfl⟩
          · rw [if_neg h1, if_neg h1]
            by_cases h2 : has r (GIVE ||| FREE) = true
            · rw [if_pos h2, if_pos h2]; rfl
            · rw [if_neg h2, if_neg h2]; exact ⟨_, rfl, rfl⟩
    · rw [if_neg h5, if_neg h5]
      exact ih _ _

theorem readMinimum_spec (cb : σ → Option α → UInt32 × σ) (min : UInt64) (m : Mem α) (f : Fifo) (l : List (Node α)) (st : σ) (h : Rep m f l) :
    Agrees (Spec.readMinimum cb min 0 st (vals l)) (readMinimum cb none min m f st) (fun r p => p = r) := by
  unfold readMinimum
  by_cases h0 : f.count = 0
  · rw [if_pos h0]
    have := (count_zero_iff h).mp h0
    subst this
    exact ⟨_, rfl, rfl⟩
  · rw [if_neg h0, seg_head h.shape.seg]
    exact minimumLoop_spec cb min l (m.brk + 1) [] 0 st h.shape (by have := h.shape.length_le; omega)

/-! ## Joining two lists -/

/-- Two lists with no common entry. -/
def Apart (l1 l2 : List (Node α)) : Prop := ∀ a ∈ addrs l1, a ∉ addrs l2

theorem concat_shape {m : Mem α} {p1 p2 q1 q2 : Option Nat} {l1 l2 : List (Node α)} (h1 : Shape m p1 q1 l1) (h2 : Shape m p2 q2 l2)
    (hd : Apart l1 l2) (hne : l1 ≠ []) :
    ∃ m', m.setNext? q1 p2 = .ok m' ∧ Shape m' p1 (if l2 = [] then q1 else q2) (l1 ++ l2) ∧
      (∀ a, a ∉ addrs l1 → m'.cell a = m.cell a) ∧ m'.log = m.log ∧ m'.brk = m.brk := by
  obtain ⟨pre, y, rfl⟩ := eq_concat hne
  obtain ⟨ny, hyc⟩ := seg_cell h1.seg (n := y) (by simp)
  obtain ⟨hy1, _⟩ := nodup_mid (pre := pre) (x := y) (rest := []) h1.nodup
  have hy2 : y.addr ∉ addrs l2 := hd _ (by simp)
  have hq1 : q1 = some y.addr := by rw [h1.last, lastAddr_concat]
  refine ⟨m.set y.addr (some ⟨y.data, y.order, p2⟩), ?_, ⟨?_, ?_, ?_, ?_, ?_⟩, ?_, rfl, rfl⟩
  · rw [hq1]; simp only [Mem.setNext?, Mem.setNext]; rw [hyc]
  · rw [seg_append]
    refine ⟨p2, seg_relink h1.seg hy1, seg_frame ?_ h2.seg⟩
    intro a ha
    rw [set_cell, if_neg]
    rintro rfl
    exact hy2 ha
  · rw [addrs_append, List.nodup_append]
    exact ⟨h1.nodup, h2.nodup, fun a ha b hb e => hd a ha (e ▸ hb)⟩
  · cases l2 with
    | nil => simp [h1.last]
    | cons z l => rw [if_neg (by simp), lastAddr_append_cons, h2.last]
  · intro a ha
    rw [addrs_append] at ha
    rcases List.mem_append.mp ha with ha | ha
    · exact h1.bound a ha
    · exact h2.bound a ha
  · intro a ha
    rw [set_cell, if_neg]
    · exact h1.clean a ha
    · rintro rfl
      have := h1.bound y.addr (by simp)
      change m.brk ≤ _ at ha
      omega
  · intro a ha
    rw [set_cell, if_neg]
    rintro rfl
    exact ha (by simp)

/-- Memory after the operation, for the owner of more nodes. -/
theorem Step.more {m m' : Mem α} {l l' : List (Node α)} (r : List (Node α)) (h : Step m l m' l') : Step m (r ++ l) m' (r ++ l') where
  brk := h.brk
  frame := fun a ha hn => h.frame a ha (fun e => hn (by rw [addrs_append]; exact List.mem_append_right _ e))
  freed := fun a ha hn => by
    rw [addrs_append, List.mem_append] at ha hn
    rw [not_or] at hn
    exact h.freed a (by rcases ha with (ha | ha) | ha; exact absurd ha hn.1; exact Or.inl ha; exact Or.inr ha) hn.2
  fresh := fun a ha => by
    rw [addrs_append, List.mem_append] at ha ⊢
    rcases ha with ha | ha
    · exact Or.inl (Or.inl ha)
    · exact (h.fresh a ha).imp Or.inr id

/-- A list in memory which is not touched. -/
theorem Shape.keep {m m' : Mem α} {l l' r : List (Node α)} {p q : Option Nat} (h : Step m l m' l') (hd : Apart r l) (hr : Shape m p q r)
    (hcl : ∀ a, m'.brk ≤ a → m'.cell a = none) : Shape m' p q r ∧ Apart r l' := by
  refine ⟨⟨seg_frame (fun a ha => h.frame a (hr.bound a ha) (hd a ha)) hr.seg, hr.nodup, hr.last,
    fun a ha => Nat.lt_of_lt_of_le (hr.bound a ha) h.brk, hcl⟩, ?_⟩
  intro a ha he
  rcases h.fresh a he with e | e
  · exact hd a ha e
  · have := hr.bound a ha; omega

end Verif.Fifo
