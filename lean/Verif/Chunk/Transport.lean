import Verif.Chunk.Client
/-! # Net transport -/
namespace Verif.Chunk
open Spec

/-! ## Bytes of one chunk -/

theorem own_append (i : Nat) (a b : Wire) : own i (a ++ b) = own i a ++ own i b := by simp [own]

theorem own_put_self (i : Nat) (b : Bytes) : own i (put i b) = b := by
  induction b with
  | nil => rfl
  | cons x t ih => simp only [own, put, List.map_cons, List.filter_cons, decide_true, if_true]; exact congrArg (x :: ·) ih

theorem own_put_other {i j : Nat} (h : j ≠ i) (b : Bytes) : own i (put j b) = [] := by
  induction b with
  | nil => rfl
  | cons x t ih => simp only [own, put, List.map_cons, List.filter_cons]; rw [if_neg (by simpa using h)]; exact ih

/-! ## A pass over one list -/

def ids (l : List Chunk) : List Nat := l.map (·.id)

/-- From a list of chunks to another one, with the bytes written. -/
structure Moved (l l' : List Chunk) (w : Wire) : Prop where
  sub : (ids l').Sublist (ids l)
  kept : ∀ c' ∈ l', ∃ c ∈ l, c'.id = c.id ∧ c'.data = c.data ∧ c.pos ≤ c'.pos ∧ c'.pos ≤ c.data.length ∧ own c.id w = (c.data.drop c.pos).take (c'.pos - c.pos)
  gone : ∀ c ∈ l, c.id ∉ ids l' → own c.id w = c.data.drop c.pos
  other : ∀ i, i ∉ ids l → own i w = []

theorem moved_nil (l : List Chunk) (h : ∀ c ∈ l, c.pos ≤ c.data.length) : Moved l l [] := by
  refine ⟨List.Sublist.refl _, fun c hc => ⟨c, hc, rfl, rfl, Nat.le_refl _, h c hc, by simp [own]⟩, fun c hc hn => absurd (List.mem_map_of_mem hc) hn, fun _ _ => rfl⟩

/-- The rest of a chunk after a write. -/
def left (c : Chunk) (n : Nat) : List Chunk := if c.pos + n = c.data.length then [] else [{ c with pos := c.pos + n }]

theorem moved_cons {c : Chunk} {t l' : List Chunk} {w : Wire} {n : Nat} (hn : c.pos + n ≤ c.data.length) (hd : c.id ∉ ids t) (h : Moved t l' w) : Moved (c :: t) (left c n ++ l') (c.taken n ++ w) := by
  have hsub : ∀ i, i ∈ ids l' → i ∈ ids t := fun i hi => h.sub.subset hi
  have hne : ∀ x ∈ t, x.id ≠ c.id := fun x hx he => hd (by rw [← he]; exact List.mem_map_of_mem hx)
  have htake : ∀ x ∈ t, own x.id (c.taken n ++ w) = own x.id w := by
    intro x hx
    rw [own_append, Chunk.taken, own_put_other (fun he => hne x hx he.symm), List.nil_append]
  have hself : own c.id (c.taken n ++ w) = (c.data.drop c.pos).take n := by
    rw [own_append, Chunk.taken, own_put_self, h.other c.id hd, List.append_nil]
  refine ⟨?_, ?_, ?_, ?_⟩
  · unfold left
    split
    · exact List.Sublist.cons _ h.sub
    · exact h.sub.cons_cons _
  · intro c' hc'
    rcases List.mem_append.mp hc' with hm | hm
    · unfold left at hm
      split at hm
      · cases hm
      · simp only [List.mem_cons, List.not_mem_nil, or_false] at hm
        subst hm
        refine ⟨c, by simp, rfl, rfl, by simp, hn, ?_⟩
        rw [hself]; simp
    · obtain ⟨x, hx, h1, h2, h3, h4, h5⟩ := h.kept c' hm
      exact ⟨x, by simp [hx], h1, h2, h3, h4, by rw [htake x hx]; exact h5⟩
  · intro x hx hnot
    rcases List.mem_cons.mp hx with rfl | hx
    · rw [hself]
      have : x.pos + n = x.data.length := by
        by_cases he : x.pos + n = x.data.length
        · exact he
        · exfalso
          apply hnot
          simp [left, he, ids]
      rw [List.take_of_length_le]
      simp; omega
    · rw [htake x hx]
      refine h.gone x hx fun hin => hnot ?_
      simp only [ids, List.map_append, List.mem_append]
      exact Or.inr hin
  · intro i hi
    simp only [ids, List.map_cons, List.mem_cons, not_or] at hi
    rw [own_append, Chunk.taken, own_put_other (fun he => hi.1 he.symm), h.other i hi.2, List.nil_append]

theorem passList_moved : ∀ (l : List Chunk) (m : Int) (r : Ret) (o : List Sys), (ids l).Nodup → (∀ c ∈ l, c.pos ≤ c.data.length) →
    ∃ m' r' l' w o', passList m r o l = some (m', r', l', w, o') ∧ Moved l l' w := by
  intro l
  induction l with
  | nil => intro m r o _ _; exact ⟨m, r, [], [], o, rfl, moved_nil [] (by simp)⟩
  | cons c t ih =>
    intro m r o hd hp
    have hdc : c.id ∉ ids t := by simp only [ids, List.map_cons, List.nodup_cons] at hd; exact hd.1
    have hdt : (ids t).Nodup := by simp only [ids, List.map_cons, List.nodup_cons] at hd; exact hd.2
    have hpt : ∀ x ∈ t, x.pos ≤ x.data.length := fun x hx => hp x (by simp [hx])
    have hpc := hp c (by simp)
    cases hw : write o (c.data.drop c.pos) with
    | mk r1 rest =>
      obtain ⟨n, o1⟩ := rest
      obtain ⟨h1, _, _⟩ := write_spec hw
      rw [List.length_drop] at h1
      rw [passList]
      simp only [hw]
      rw [if_neg (by omega)]
      have hstay := moved_cons (n := n) (by omega) hdc (moved_nil t hpt)
      rw [List.append_nil] at hstay
      by_cases hstop : (if r1 = .incomplete then Ret.ok else r1) ≠ .ok ∨ n = 0
      · rw [if_pos hstop]
        exact ⟨_, _, _, _, _, rfl, hstay⟩
      · rw [if_neg hstop]
        by_cases hm : m = 0
        · rw [if_pos hm]
          exact ⟨_, _, _, _, _, rfl, hstay⟩
        · rw [if_neg hm]
          obtain ⟨m', r', l', w, o', g1, g2⟩ := ih (m - 1) (if r1 = .incomplete then Ret.ok else r1) o1 hdt hpt
          rw [g1]
          exact ⟨_, _, _, _, _, rfl, moved_cons (by omega) hdc g2⟩

/-! ## All histories -/

/-- The state of a connection when `P` is the data given. -/
structure Fair (P : List Bytes) (s : St) : Prop where
  next : s.next = P.length
  nodup : (ids (s.high ++ s.normal)).Nodup
  chunk : ∀ c ∈ s.high ++ s.normal, P[c.id]? = some c.data ∧ c.pos ≤ c.data.length ∧ own c.id s.wire = c.data.take c.pos
  sent : s.closed = false → ∀ i d, P[i]? = some d → i ∉ ids (s.high ++ s.normal) → own i s.wire = d
  any : ∀ i d, P[i]? = some d → own i s.wire <+: d
  none : ∀ i, P[i]? = none → own i s.wire = []
  armed : s.closed = false → s.high ++ s.normal ≠ [] → s.armed = true

theorem ids_append (a b : List Chunk) : ids (a ++ b) = ids a ++ ids b := by simp [ids]

/-- Two lists one after the other. -/
theorem moved_append {a a' b b' : List Chunk} {w v : Wire} (h1 : Moved a a' w) (h2 : Moved b b' v) (hd : (ids (a ++ b)).Nodup) : Moved (a ++ b) (a' ++ b') (w ++ v) := by
  rw [ids_append, List.nodup_append] at hd
  have hab : ∀ i, i ∈ ids a → i ∉ ids b := fun i hi hj => hd.2.2 i hi i hj rfl
  refine ⟨?_, ?_, ?_, ?_⟩
  · rw [ids_append, ids_append]; exact h1.sub.append h2.sub
  · intro c' hc'
    rcases List.mem_append.mp hc' with hm | hm
    · obtain ⟨c, hc, k1, k2, k3, k4, k5⟩ := h1.kept c' hm
      refine ⟨c, by simp [hc], k1, k2, k3, k4, ?_⟩
      rw [own_append, h2.other c.id (hab _ (List.mem_map_of_mem hc)), List.append_nil, k5]
    · obtain ⟨c, hc, k1, k2, k3, k4, k5⟩ := h2.kept c' hm
      refine ⟨c, by simp [hc], k1, k2, k3, k4, ?_⟩
      rw [own_append, h1.other c.id (fun hi => hab _ hi (List.mem_map_of_mem hc)), List.nil_append, k5]
  · intro c hc hnot
    rw [ids_append, List.mem_append, not_or] at hnot
    rcases List.mem_append.mp hc with hm | hm
    · rw [own_append, h2.other c.id (hab _ (List.mem_map_of_mem hm)), List.append_nil, h1.gone c hm hnot.1]
    · rw [own_append, h1.other c.id (fun hi => hab _ hi (List.mem_map_of_mem hm)), List.nil_append, h2.gone c hm hnot.2]
  · intro i hi
    rw [ids_append, List.mem_append, not_or] at hi
    rw [own_append, h1.other i hi.1, h2.other i hi.2, List.nil_append]

theorem passAll_moved {P : List Bytes} {s : St} (hg : Fair P s) (o : List Sys) : ∃ r l l' w, passAll o s = some (r, { s with high := l, normal := l', wire := s.wire ++ w }) ∧ Moved (s.high ++ s.normal) (l ++ l') w := by
  have hd := hg.nodup
  rw [ids_append, List.nodup_append] at hd
  obtain ⟨m1, r1, l1, w1, o1, g1, g2⟩ := passList_moved s.high 10 .ok o hd.1 (fun c hc => (hg.chunk c (by simp [hc])).2.1)
  obtain ⟨m2, r2, l2, w2, o2, g3, g4⟩ := passList_moved s.normal m1 r1 o1 hd.2.1 (fun c hc => (hg.chunk c (by simp [hc])).2.1)
  refine ⟨r2, l1, l2, w1 ++ w2, ?_, moved_append g2 g4 hg.nodup⟩
  unfold passAll
  rw [g1]; simp only; rw [g3]

/-- A pass keeps what is said about the chunks. -/
theorem fair_moved {P : List Bytes} {s : St} (hg : Fair P s) (hc : s.closed = false) {l l' : List Chunk} {w : Wire} (hm : Moved (s.high ++ s.normal) (l ++ l') w) {armed closed : Bool}
    (ha : closed = false → l ++ l' ≠ [] → armed = true) : Fair P { s with high := l, normal := l', wire := s.wire ++ w, armed := armed, closed := closed } := by
  have hin : ∀ i, i ∈ ids (s.high ++ s.normal) → ∃ c ∈ s.high ++ s.normal, c.id = i := by
    intro i hi
    obtain ⟨c, h1, h2⟩ := List.mem_map.mp hi
    exact ⟨c, h1, h2⟩
  have hsent : ∀ i d, P[i]? = some d → i ∉ ids (l ++ l') → own i (s.wire ++ w) = d := by
    intro i d hi hnot
    rw [own_append]
    by_cases h : i ∈ ids (s.high ++ s.normal)
    · obtain ⟨c, h1, rfl⟩ := hin i h
      obtain ⟨k1, k2, k3⟩ := hg.chunk c h1
      rw [hi] at k1
      cases k1
      rw [k3, hm.gone c h1 hnot, List.take_append_drop]
    · rw [hg.sent hc i d hi h, hm.other i h, List.append_nil]
  have hchunk : ∀ c ∈ l ++ l', P[c.id]? = some c.data ∧ c.pos ≤ c.data.length ∧ own c.id (s.wire ++ w) = c.data.take c.pos := by
    intro c' hc'
    obtain ⟨c, h1, k1, k2, k3, k4, k5⟩ := hm.kept c' hc'
    obtain ⟨j1, j2, j3⟩ := hg.chunk c h1
    refine ⟨by rw [k1, k2]; exact j1, by rw [k2]; exact k4, ?_⟩
    rw [own_append, k1, k2, j3, k5, ← List.take_add, show c.pos + (c'.pos - c.pos) = c'.pos by omega]
  refine ⟨hg.next, List.Nodup.sublist hm.sub hg.nodup, hchunk, fun _ => hsent, ?_, ?_, ha⟩
  · intro i d hi
    simp only
    by_cases h : i ∈ ids (l ++ l')
    · obtain ⟨c, h1, rfl⟩ := List.mem_map.mp h
      obtain ⟨j1, j2, j3⟩ := hchunk c h1
      rw [hi] at j1
      cases j1
      rw [j3]
      exact List.take_prefix _ _
    · rw [hsent i d hi h]
      exact List.prefix_refl _
  · intro i hi
    simp only
    rw [own_append, hg.none i hi, hm.other i, List.nil_append]
    intro h
    obtain ⟨c, h1, rfl⟩ := hin i h
    rw [(hg.chunk c h1).1] at hi
    cases hi

theorem transportWrite_fair {P : List Bytes} {s : St} (hg : Fair P s) (hc : s.closed = false) (ha : s.armed = true) (o : List Sys) : ∃ s', transportWrite o s = some s' ∧ Fair P s' := by
  obtain ⟨r, l, l', w, h1, h2⟩ := passAll_moved hg o
  unfold transportWrite
  rw [h1]
  refine ⟨_, rfl, fair_moved hg hc h2 fun _ hne => ?_⟩
  simp only [ha, Bool.true_and, Bool.not_eq_true', decide_eq_false_iff_not, not_and]
  intro hl hl'
  exact hne (by rw [hl, hl']; rfl)

theorem getElem?_append_some {P : List Bytes} {i : Nat} {d x : Bytes} (h : (P ++ [x])[i]? = some d) : P[i]? = some d ∨ (i = P.length ∧ d = x) := by
  by_cases hi : i < P.length
  · left; rw [List.getElem?_append_left hi] at h; exact h
  · right
    rw [List.getElem?_append_right (by omega)] at h
    by_cases hj : i = P.length
    · subst hj; simp at h; exact ⟨rfl, h.symm⟩
    · rw [List.getElem?_eq_none (by simp; omega)] at h; cases h

theorem getElem?_push {P : List Bytes} {i : Nat} {d x : Bytes} (h : P[i]? = some d) : (P ++ [x])[i]? = some d := by
  have hi : i < P.length := by
    by_cases hi : i < P.length
    · exact hi
    · rw [List.getElem?_eq_none (by omega)] at h; cases h
  rw [List.getElem?_append_left hi]; exact h

theorem getElem?_push_none {P : List Bytes} {i : Nat} {x : Bytes} (h : (P ++ [x])[i]? = none) : P[i]? = none := by
  rw [List.getElem?_eq_none_iff] at h ⊢
  simp at h
  omega

theorem transportStep_fair {P : List Bytes} {s : St} (hg : Fair P s) (op : Op) : ∃ s', transportStep s op = some s' ∧ Fair (P ++ given [op]) s' := by
  cases op with
  | push u d =>
    show ∃ s', transportStep s (.push u d) = some s' ∧ Fair (P ++ [d]) s'
    have hnone : own P.length s.wire = [] := hg.none _ (by simp)
    have hany : ∀ i x, (P ++ [d])[i]? = some x → own i s.wire <+: x := by
      intro i x hi
      rcases getElem?_append_some hi with h | ⟨rfl, rfl⟩
      · exact hg.any i x h
      · rw [hnone]; exact List.nil_prefix
    have hnon : ∀ i, (P ++ [d])[i]? = none → own i s.wire = [] := fun i hi => hg.none i (getElem?_push_none hi)
    cases hc : s.closed with
    | true =>
      refine ⟨_, rfl, ?_⟩
      simp only [hc, if_true]
      exact ⟨by simp [hg.next], hg.nodup, fun c h => ⟨getElem?_push (hg.chunk c h).1, (hg.chunk c h).2⟩, fun h => by simp at h, hany, hnon, fun h => by simp at h⟩
    | false =>
      refine ⟨_, rfl, ?_⟩
      simp only [hc, Bool.false_eq_true, if_false]
      have hnew : P.length ∉ ids (s.high ++ s.normal) := by
        intro h
        obtain ⟨c, h1, h2⟩ := List.mem_map.mp h
        have := (hg.chunk c h1).1
        rw [h2] at this
        simp at this
      have hlists : ∀ h n, (h = s.high ++ [⟨s.next, d, 0⟩] ∧ n = s.normal) ∨ (h = s.high ∧ n = s.normal ++ [⟨s.next, d, 0⟩]) →
          (ids (h ++ n)).Nodup ∧ (∀ c ∈ h ++ n, c ∈ s.high ++ s.normal ∨ c = ⟨P.length, d, 0⟩) ∧ (∀ i, i ∉ ids (h ++ n) → i ∉ ids (s.high ++ s.normal) ∧ i ≠ P.length) := by
        intro h n hh
        have hperm : (h ++ n).Perm (⟨P.length, d, 0⟩ :: (s.high ++ s.normal)) := by
          rw [← hg.next]
          rcases hh with ⟨rfl, rfl⟩ | ⟨rfl, rfl⟩
          · rw [List.append_assoc]; exact List.perm_middle
          · rw [← List.append_assoc]; exact List.perm_append_singleton _ _
        refine ⟨?_, ?_, ?_⟩
        · have := (hperm.map (·.id)).nodup_iff.mpr (by
            simp only [List.map_cons, List.nodup_cons]
            exact ⟨hnew, hg.nodup⟩)
          exact this
        · intro c hc
          have := hperm.mem_iff.mp hc
          rcases List.mem_cons.mp this with h | h
          · exact Or.inr h
          · exact Or.inl h
        · intro i hi
          have hm := (hperm.map (·.id)).mem_iff (a := i)
          simp only [List.map_cons, List.mem_cons] at hm
          have : ¬ (i = P.length ∨ i ∈ ids (s.high ++ s.normal)) := fun hx => hi (hm.mpr hx)
          exact ⟨fun hx => this (Or.inr hx), fun hx => this (Or.inl hx)⟩
      have hfin : ∀ h n, (h = s.high ++ [⟨s.next, d, 0⟩] ∧ n = s.normal) ∨ (h = s.high ∧ n = s.normal ++ [⟨s.next, d, 0⟩]) →
          Fair (P ++ [d]) { s with high := h, normal := n, next := s.next + 1, armed := true } := by
        intro h n hh
        obtain ⟨k1, k2, k3⟩ := hlists h n hh
        refine ⟨by simp [hg.next], k1, ?_, ?_, hany, hnon, fun _ _ => rfl⟩
        · intro c hcm
          rcases k2 c hcm with hx | rfl
          · exact ⟨getElem?_push (hg.chunk c hx).1, (hg.chunk c hx).2⟩
          · simp [hnone]
        · intro _ i x hi hnot
          obtain ⟨j1, j2⟩ := k3 i hnot
          rcases getElem?_append_some hi with h | ⟨h, _⟩
          · exact hg.sent hc i x h j1
          · exact absurd h j2
      cases u with
      | true => exact hfin _ _ (Or.inl ⟨rfl, rfl⟩)
      | false => exact hfin _ _ (Or.inr ⟨rfl, rfl⟩)
  | finish =>
    show ∃ s', transportStep s .finish = some s' ∧ Fair (P ++ []) s'
    rw [List.append_nil]
    refine ⟨_, rfl, ?_⟩
    cases hc : s.closed with
    | true => simp only [if_true]; exact hg
    | false =>
      simp only [Bool.false_eq_true, if_false]
      exact ⟨hg.next, hg.nodup, hg.chunk, fun _ => hg.sent hc, hg.any, hg.none, fun h h' => by simp [hg.armed hc h']⟩
  | write o =>
    show ∃ s', transportStep s (.write o) = some s' ∧ Fair (P ++ []) s'
    rw [List.append_nil, transportStep]
    cases hc : s.closed with
    | true => simp only [Bool.true_or, if_true]; exact ⟨s, rfl, hg⟩
    | false =>
      cases ha : s.armed with
      | false => simp only [Bool.not_false, Bool.or_true, if_true]; exact ⟨s, rfl, hg⟩
      | true => simp only [Bool.not_true, Bool.or_false, Bool.false_eq_true, if_false]; exact transportWrite_fair hg hc ha o

theorem fair_empty : Fair [] {} := by
  refine ⟨rfl, by simp [ids], by simp, by simp, by simp, fun _ _ => rfl, by simp⟩

theorem transport_fair (ops : List Op) : ∃ s, transportRun ops = some s ∧ Fair (given ops) s := by
  have : ∀ (ops : List Op) (P : List Bytes) (s : St), Fair P s → ∃ s', ops.foldlM transportStep s = some s' ∧ Fair (P ++ given ops) s' := by
    intro ops
    induction ops with
    | nil => intro P s h; rw [given, List.append_nil]; exact ⟨s, rfl, h⟩
    | cons op t ih =>
      intro P s h
      obtain ⟨s1, h1, h2⟩ := transportStep_fair h op
      obtain ⟨s2, h3, h4⟩ := ih _ _ h2
      rw [List.append_assoc, ← given_append] at h4
      refine ⟨s2, ?_, h4⟩
      rw [List.foldlM_cons, h1]
      exact h3
  exact this ops [] {} fair_empty

/-! ## Steady answers, nothing urgent -/

/-- Answers which take nothing. -/
def Blocked (o : List Sys) : Prop := ∀ x ∈ o, ∀ k, x = .wrote k → k = 0

theorem blocked_tail {o : List Sys} (h : Blocked o) : Blocked o.tail := fun x hx => h x (List.mem_of_mem_tail hx)

theorem writeLoop_blocked : ∀ (k : Nat) (o o' : List Sys) (b : Bytes) (done n : Nat) (r : Ret), Blocked o → writeLoop k o b done = (r, n, o') → n = done ∧ Blocked o' := by
  intro k
  induction k with
  | zero => intro o o' b done n r hb h; simp only [writeLoop] at h; cases h; exact ⟨rfl, hb⟩
  | succ k ih =>
    intro o o' b done n r hb h
    have ht := blocked_tail hb
    rw [writeLoop] at h
    cases ho : o.headD .again with
    | wrote m =>
      have hm : m = 0 := by
        cases o with
        | nil => cases ho
        | cons x t => exact hb x (by simp) m ho
      subst hm
      rw [ho] at h
      simp only [Nat.le_zero_eq, List.drop_zero, Nat.add_zero] at h
      split at h
      · rename_i hz; cases h; exact ⟨by omega, ht⟩
      · exact ih _ _ _ _ _ _ ht h
    | again => rw [ho] at h; simp only at h; split at h; · cases h; exact ⟨rfl, ht⟩
               · exact ih _ _ _ _ _ _ ht h
    | intr => rw [ho] at h; simp only at h; split at h; · cases h; exact ⟨rfl, ht⟩
              · exact ih _ _ _ _ _ _ ht h
    | broken => rw [ho] at h; simp only at h; split at h <;> (cases h; exact ⟨rfl, ht⟩)
    | other => rw [ho] at h; simp only at h; split at h <;> (cases h; exact ⟨rfl, ht⟩)

theorem write_steady {m n : Nat} {o o' : List Sys} {b : Bytes} {r : Ret} (hs : Steady m o) (hb : b.length ≤ m) (h : write o b = (r, n, o')) : (r = .ok ∧ Steady m o') ∨ Blocked o' := by
  obtain ⟨a, k, q, rfl, h1, h2⟩ := hs
  rw [write, writeLoop] at h
  cases a with
  | cons x t =>
    obtain ⟨j, rfl, hj⟩ := h1 x (by simp)
    simp only [List.cons_append, List.headD_cons, List.tail_cons] at h
    rw [if_pos (by omega)] at h
    cases h
    exact Or.inl ⟨rfl, t, k, q, rfl, fun x hx => h1 x (by simp [hx]), h2⟩
  | nil =>
    simp only [List.nil_append, List.headD_cons, List.tail_cons] at h
    right
    split at h
    · cases h; exact h2
    · exact (writeLoop_blocked _ _ _ _ _ _ _ h2 h).2

/-- The bytes which are still to be sent. -/
def pend (l : List Chunk) : Wire := l.flatMap fun c => put c.id (c.data.drop c.pos)

theorem pend_left (c : Chunk) (n : Nat) (hn : c.pos + n ≤ c.data.length) : c.taken n ++ pend (left c n) = put c.id (c.data.drop c.pos) := by
  unfold left Chunk.taken
  split
  · rename_i h
    simp only [pend, List.flatMap_nil, List.append_nil]
    rw [List.take_of_length_le]
    simp; omega
  · simp only [pend, List.flatMap_cons, List.flatMap_nil, List.append_nil]
    rw [put_mark, put_mark, put_mark, ← mark_append, ← List.drop_drop, List.take_append_drop]

theorem pend_append (a b : List Chunk) : pend (a ++ b) = pend a ++ pend b := by simp [pend]
theorem pend_cons (c : Chunk) (t : List Chunk) : pend (c :: t) = put c.id (c.data.drop c.pos) ++ pend t := by simp [pend]

theorem passList_blocked {l : List Chunk} {m m' : Int} {r r' : Ret} {o o' : List Sys} {l' : List Chunk} {w : Wire} (hp : ∀ c ∈ l, c.pos ≤ c.data.length) (hb : Blocked o)
    (h : passList m r o l = some (m', r', l', w, o')) : w = [] ∧ pend l' = pend l := by
  cases l with
  | nil => simp only [passList] at h; cases h; exact ⟨rfl, rfl⟩
  | cons c t =>
    cases hw : write o (c.data.drop c.pos) with
    | mk r1 rest =>
      obtain ⟨n, o1⟩ := rest
      obtain ⟨hn, _⟩ := writeLoop_blocked _ _ _ _ _ _ _ hb hw
      subst hn
      have hpc := hp c (by simp)
      rw [passList] at h
      simp only [hw] at h
      rw [if_neg (by omega), if_pos (Or.inr trivial)] at h
      cases h
      have := pend_left c 0 (by omega)
      refine ⟨by simp [Chunk.taken, put], ?_⟩
      rw [show (if c.pos + 0 = c.data.length then ([] : List Chunk) else [{ c with pos := c.pos + 0 }]) = left c 0 from rfl, pend_append, pend_cons]
      simp only [Chunk.taken, List.take_zero, put, List.map_nil, List.nil_append] at this
      rw [this]
      rfl

theorem passList_steady {M : Nat} : ∀ (l : List Chunk) (m m' : Int) (r r' : Ret) (o o' : List Sys) (l' : List Chunk) (w : Wire), (∀ c ∈ l, c.pos ≤ c.data.length ∧ c.data.length ≤ M) → Steady M o →
    passList m r o l = some (m', r', l', w, o') → w ++ pend l' = pend l := by
  intro l
  induction l with
  | nil => intro m m' r r' o o' l' w _ _ h; simp only [passList] at h; cases h; rfl
  | cons c t ih =>
    intro m m' r r' o o' l' w hp hs h
    have hpc := hp c (by simp)
    have hpt : ∀ x ∈ t, x.pos ≤ x.data.length ∧ x.data.length ≤ M := fun x hx => hp x (by simp [hx])
    cases hw : write o (c.data.drop c.pos) with
    | mk r1 rest =>
      obtain ⟨n, o1⟩ := rest
      obtain ⟨h1, h2, _⟩ := write_spec hw
      rw [List.length_drop] at h1 h2
      have hst := write_steady hs (by rw [List.length_drop]; omega) hw
      have hl := pend_left c n (by omega)
      rw [passList] at h
      simp only [hw] at h
      rw [if_neg (by omega)] at h
      have hleft : (if c.pos + n = c.data.length then ([] : List Chunk) else [{ c with pos := c.pos + n }]) = left c n := rfl
      rw [hleft] at h
      generalize (if r1 = Ret.incomplete then Ret.ok else r1) = q at h
      have stay : c.taken n ++ pend (left c n ++ t) = pend (c :: t) := by rw [pend_append, ← List.append_assoc, hl, pend_cons]
      split at h
      · cases h; exact stay
      · split at h
        · cases h; exact stay
        · split at h
          · cases h
          · rename_i m2 q l2 w2 o2 hrec
            cases h
            rcases hst with ⟨rfl, hs1⟩ | hbl
            · have hfull : left c n = [] := by unfold left; rw [if_pos (by have := h2.mp rfl; omega)]
              have := ih _ _ _ _ _ _ _ _ hpt hs1 hrec
              rw [hfull, List.nil_append, List.append_assoc, this, pend_cons]
              rw [hfull] at hl
              simp only [pend, List.flatMap_nil, List.append_nil] at hl
              rw [hl]
            · obtain ⟨e1, e2⟩ := passList_blocked (fun x hx => (hpt x hx).1) hbl hrec
              rw [e1, List.append_nil, pend_append, e2, ← List.append_assoc, hl, pend_cons]

/-- With steady answers and nothing urgent, the bytes are in order. -/
structure InOrder (P : List Bytes) (s : St) : Prop where
  high : s.high = []
  live : s.closed = false → s.wire ++ pend s.normal = stream 0 P
  any : s.wire <+: stream 0 P

theorem stream_prefix_push (P : List Bytes) (d : Bytes) : stream 0 P <+: stream 0 (P ++ [d]) := by
  rw [stream_append]; exact List.prefix_append _ _

theorem transportWrite_inOrder {M : Nat} {P : List Bytes} {s s' : St} (hg : Fair P s) (hi : InOrder P s) (hc : s.closed = false) (hM : ∀ d ∈ P, d.length ≤ M) {o : List Sys} (ho : Steady M o)
    (h : transportWrite o s = some s') : InOrder P s' := by
  have hp : ∀ c ∈ s.normal, c.pos ≤ c.data.length ∧ c.data.length ≤ M := by
    intro c hcm
    obtain ⟨k1, k2, _⟩ := hg.chunk c (by simp [hcm])
    exact ⟨k2, hM _ (List.mem_of_getElem? k1)⟩
  unfold transportWrite passAll at h
  rw [hi.high] at h
  simp only [passList] at h
  cases hpl : passList 10 .ok o s.normal with
  | none => rw [hpl] at h; cases h
  | some x =>
    obtain ⟨m, r, l, w, o'⟩ := x
    rw [hpl] at h
    simp only [List.nil_append] at h
    cases h
    have he := passList_steady s.normal _ _ _ _ _ _ _ _ hp ho hpl
    have : (s.wire ++ w) ++ pend l = stream 0 P := by rw [List.append_assoc, he]; exact hi.live hc
    exact ⟨rfl, fun _ => this, ⟨_, this⟩⟩

theorem transportStep_inOrder {M : Nat} {P : List Bytes} {s s' : St} (hg : Fair P s) (hi : InOrder P s) (op : Op) (hu : ∀ d, op ≠ .push true d) (hM : ∀ d ∈ P, d.length ≤ M)
    (ho : ∀ o, op = .write o → Steady M o) (h : transportStep s op = some s') : InOrder (P ++ given [op]) s' := by
  cases op with
  | push u d =>
    show InOrder (P ++ [d]) s'
    have hu' : u = false := by cases u with | true => exact absurd rfl (hu d) | false => rfl
    subst hu'
    simp only [transportStep] at h
    cases h
    cases hc : s.closed with
    | true =>
      simp only [if_true]
      refine ⟨hi.high, fun hh => ?_, hi.any.trans (stream_prefix_push P d)⟩
      cases hh
    | false =>
      simp only [Bool.false_eq_true, if_false, pushChunk]
      refine ⟨hi.high, fun _ => ?_, hi.any.trans (stream_prefix_push P d)⟩
      simp only
      rw [pend_append, ← List.append_assoc, hi.live hc, stream_append, hg.next]
      simp [pend, stream, put_mark]
  | finish =>
    show InOrder (P ++ []) s'
    rw [List.append_nil]
    simp only [transportStep] at h
    cases h
    split
    · exact hi
    · exact ⟨hi.high, hi.live, hi.any⟩
  | write o =>
    show InOrder (P ++ []) s'
    rw [List.append_nil]
    rw [transportStep] at h
    split at h
    · cases h; exact hi
    · rename_i hh
      have hc : s.closed = false := by cases hc : s.closed with | false => rfl | true => rw [hc] at hh; simp at hh
      exact transportWrite_inOrder hg hi hc hM (ho o rfl) h

theorem transport_inOrder {M : Nat} (ops : List Op) (hu : NoUrgent ops) (hM : ∀ d ∈ given ops, d.length ≤ M) (ho : ∀ o, Op.write o ∈ ops → Steady M o) :
    ∃ s, transportRun ops = some s ∧ InOrder (given ops) s := by
  have : ∀ (ops : List Op) (P : List Bytes) (s : St), Fair P s → InOrder P s → NoUrgent ops → (∀ d ∈ P ++ given ops, d.length ≤ M) → (∀ o, Op.write o ∈ ops → Steady M o) →
      ∃ s', ops.foldlM transportStep s = some s' ∧ InOrder (P ++ given ops) s' := by
    intro ops
    induction ops with
    | nil => intro P s _ h _ _ _; rw [given, List.append_nil]; exact ⟨s, rfl, h⟩
    | cons op t ih =>
      intro P s hf hi hu hM ho
      obtain ⟨s1, h1, h2⟩ := transportStep_fair hf op
      have hsplit : given (op :: t) = given [op] ++ given t := by rw [← given_append]; rfl
      have h3 := transportStep_inOrder hf hi op (fun d he => hu d (by simp [he])) (fun d hd => hM d (by simp [hd])) (fun o he => ho o (by simp [he])) h1
      obtain ⟨s2, h4, h5⟩ := ih _ _ h2 h3 (fun d hd => hu d (by simp [hd])) (by rw [List.append_assoc, ← hsplit]; exact hM) (fun o hm => ho o (by simp [hm]))
      refine ⟨s2, ?_, by rw [hsplit, ← List.append_assoc]; exact h5⟩
      rw [List.foldlM_cons, h1]
      exact h4
  exact this ops [] {} fair_empty ⟨rfl, fun _ => rfl, List.prefix_refl _⟩ hu (by simpa using hM) ho

end Verif.Chunk
