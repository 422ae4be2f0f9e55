import Verif.Chunk.Transport
/-! # Everything is sent when there is room, and what closes a connection -/
namespace Verif.Chunk
open Spec

theorem write_room {n m : Nat} {o : List Sys} {b : Bytes} (h : Room (n + 1) m o) (hb : b.length ≤ m) : ∃ o', write o b = (.ok, b.length, o') ∧ Room n m o' := by
  obtain ⟨h1, h2⟩ := h
  cases o with
  | nil => simp at h1
  | cons x t =>
    obtain ⟨k, rfl, hk⟩ := h2 x (by simp)
    refine ⟨t, ?_, by simpa using h1, fun x hx => h2 x (by simp [hx])⟩
    rw [write, writeLoop]
    simp only [List.headD_cons, List.tail_cons, Nat.zero_add]
    rw [if_pos (by omega)]

theorem writeLoop_noError : ∀ (k : Nat) (o o' : List Sys) (b : Bytes) (done n : Nat) (r : Ret), NoError o → writeLoop k o b done = (r, n, o') → (r = .ok ∨ r = .incomplete) ∧ NoError o' := by
  intro k
  induction k with
  | zero => intro o o' b done n r hb h; simp only [writeLoop] at h; cases h; exact ⟨Or.inr rfl, hb⟩
  | succ k ih =>
    intro o o' b done n r hb h
    have ht : NoError o.tail := fun x hx => hb x (List.mem_of_mem_tail hx)
    have hh : o.headD .again ≠ .broken ∧ o.headD .again ≠ .other := by
      cases o with
      | nil => simp
      | cons x t => exact hb x (by simp)
    rw [writeLoop] at h
    cases ho : o.headD .again with
    | wrote m => rw [ho] at h; simp only at h; split at h; · cases h; exact ⟨Or.inl rfl, ht⟩
                 · exact ih _ _ _ _ _ _ ht h
    | again => rw [ho] at h; simp only at h; split at h; · cases h; exact ⟨Or.inl rfl, ht⟩
               · exact ih _ _ _ _ _ _ ht h
    | intr => rw [ho] at h; simp only at h; split at h; · cases h; exact ⟨Or.inl rfl, ht⟩
              · exact ih _ _ _ _ _ _ ht h
    | broken => exact absurd ho hh.1
    | other => exact absurd ho hh.2

theorem write_noError {o o' : List Sys} {b : Bytes} {n : Nat} {r : Ret} (ho : NoError o) (h : write o b = (r, n, o')) : (r = .ok ∨ r = .incomplete) ∧ NoError o' := writeLoop_noError _ _ _ _ _ _ _ ho h

/-! ## Socket clients -/

theorem sendList_room {m : Nat} : ∀ (l : List Chunk) (o : List Sys), Room l.length m o → (∀ c ∈ l, c.data.length ≤ m) → (sendList o l).1 = .ok := by
  intro l
  induction l with
  | nil => intro o _ _; rfl
  | cons c t ih =>
    intro o ho hl
    obtain ⟨o', h1, h2⟩ := write_room (b := c.data.drop c.pos) ho (by have := hl c (by simp); simp; omega)
    rw [sendList, h1]
    exact ih o' h2 fun x hx => hl x (by simp [hx])

theorem sendList_noError : ∀ (l : List Chunk) (o : List Sys), NoError o → (sendList o l).1 = .ok ∨ (sendList o l).1 = .incomplete := by
  intro l
  induction l with
  | nil => intro o _; exact Or.inl rfl
  | cons c t ih =>
    intro o ho
    cases hw : write o (c.data.drop c.pos) with
    | mk r rest =>
      obtain ⟨n, o'⟩ := rest
      obtain ⟨h1, h2⟩ := write_noError ho hw
      rw [sendList, hw]
      rcases h1 with rfl | rfl
      · exact ih o' h2
      · exact Or.inr rfl

theorem queue_data {i pos : Nat} {B : List Bytes} : ∀ c ∈ queue i pos B, c.data ∈ B := by
  induction B generalizing i pos with
  | nil => simp [queue]
  | cons d t ih =>
    intro c hc
    rw [queue] at hc
    rcases List.mem_cons.mp hc with rfl | hc
    · simp
    · exact List.mem_cons_of_mem _ (ih c hc)

theorem queue_length (i pos : Nat) (B : List Bytes) : (queue i pos B).length = B.length := by
  induction B generalizing i pos with
  | nil => rfl
  | cons d t ih => simp [queue, ih]

/-- When everything could be written. -/
theorem clientWrite_ok {P : List Bytes} {s : St} (hg : Good P s) (hc : s.closed = false) (o : List Sys) (hr : (sendList o s.normal).1 = .ok) :
    (clientWrite o s).wire = stream 0 P ∧ (clientWrite o s).told = List.range P.length ∧ (clientWrite o s).normal = [] ∧ (clientWrite o s).closed = s.finish := by
  obtain ⟨A, B, pos, h1, h2, h3, h4, h5, h6⟩ := hg.live hc
  obtain ⟨r, l, w, t, o', g1, g2, A', B', pos', g3, g4, g5, g6, g7, g8, g9, e, g10, g11⟩ := sendList_queue B A.length pos o h3
  rw [h2, g1] at hr
  simp only at hr
  subst hr
  have hB := g7 rfl
  subst hB
  have hp : pos' = 0 := g5
  subst hp
  rw [List.append_nil] at g3
  subst g3
  have hw := g9 (Or.inl rfl)
  simp only [queue] at g4
  subst g4
  have hs : clientWrite o s = { s with high := [], normal := [], wire := s.wire ++ w, told := s.told ++ t, armed := false, closed := s.finish } := by
    unfold clientWrite sendAll
    rw [hg.high]
    simp only [sendList]
    rw [h2, g1]
    simp
  rw [hs]
  refine ⟨?_, ?_, rfl, rfl⟩
  · simp only
    rw [h4, List.append_assoc, hw, part_zero, List.append_nil, h1, stream_append, Nat.zero_add]
  · simp only
    rw [h5, g6, range_append, h1, List.length_append]

/-- When there is no error, the connection is closed only if nothing is left. -/
theorem clientWrite_close {P : List Bytes} {s : St} (hg : Good P s) (hc : s.closed = false) (o : List Sys) (ho : NoError o) (hcl : (clientWrite o s).closed = true) :
    (clientWrite o s).wire = stream 0 P ∧ s.finish = true := by
  rcases sendList_noError s.normal o ho with h | h
  · obtain ⟨h1, _, _, h4⟩ := clientWrite_ok hg hc o h
    exact ⟨h1, by rw [← h4]; exact hcl⟩
  · exfalso
    obtain ⟨A, B, pos, h1, h2, h3, h4, h5, h6⟩ := hg.live hc
    obtain ⟨r, l, w, t, o', g1, g2, A', B', pos', g3, g4, g5, g6, g7, g8, g9, e, g10, g11⟩ := sendList_queue B A.length pos o h3
    rw [h2, g1] at h
    simp only at h
    subst h
    have hl : l ≠ [] := by
      have := g8 (by simp)
      rw [g4]
      cases B' with
      | nil => exact absurd rfl this
      | cons _ _ => simp [queue]
    have hs : clientWrite o s = { s with high := [], normal := l, wire := s.wire ++ w, told := s.told ++ t } := by
      unfold clientWrite sendAll
      rw [hg.high]
      simp only [sendList]
      rw [h2, g1]
      simp [hl]
    rw [hs] at hcl
    simp only at hcl
    rw [hc] at hcl
    cases hcl

theorem client_append (a b : List Op) : clientRun (a ++ b) = b.foldl clientStep (clientRun a) := List.foldl_append

theorem clientStep_finish (s : St) (op : Op) (h : (clientStep s op).finish = true) : s.finish = true ∨ op = .finish := by
  cases op with
  | push u d =>
    simp only [clientStep, pushChunk] at h
    split at h <;> exact Or.inl (by simpa using h)
  | finish => exact Or.inr rfl
  | write o =>
    left
    have hs : ∀ r s', sendAll o s = (r, s') → s'.finish = s.finish := by
      intro r s' he
      unfold sendAll at he
      split at he <;> (cases he; rfl)
    simp only [clientStep] at h
    split at h
    · exact h
    · simp only [clientWrite] at h
      have h0 := hs _ _ rfl
      rw [← h0]
      split at h
      · exact h
      · split at h
        · exact h
        · exact h

theorem client_finish (ops : List Op) (h : (clientRun ops).finish = true) : Op.finish ∈ ops := by
  have : ∀ (ops : List Op) (s : St), (ops.foldl clientStep s).finish = true → s.finish = true ∨ Op.finish ∈ ops := by
    intro ops
    induction ops with
    | nil => intro s h; exact Or.inl h
    | cons op t ih =>
      intro s h
      rcases ih _ h with h | h
      · rcases clientStep_finish s op h with h | h
        · exact Or.inl h
        · exact Or.inr (by simp [h])
      · exact Or.inr (by simp [h])
  rcases this ops {} h with h | h
  · cases h
  · exact h

/-! ## Net transport -/

theorem passList_room {m : Nat} : ∀ (l : List Chunk) (mx : Int) (r : Ret) (o : List Sys) (n : Nat), Room (n + l.length) m o → (∀ c ∈ l, c.data.length ≤ m ∧ c.pos ≤ c.data.length) →
    ∃ mx' l' w o', passList mx r o l = some (mx', if l = [] then r else .ok, l', w, o') ∧ l'.length ≤ l.length - 1 ∧ Room n m o' := by
  intro l
  induction l with
  | nil => intro mx r o n ho _; exact ⟨mx, [], [], o, rfl, by simp, ho⟩
  | cons c t ih =>
    intro mx r o n ho hl
    have hc := hl c (by simp)
    obtain ⟨o', h1, h2⟩ := write_room (n := n + t.length) (b := c.data.drop c.pos) ho (by simp; omega)
    have h2' : Room n m o' := ⟨by have := h2.1; omega, h2.2⟩
    have hfull : c.pos + (c.data.drop c.pos).length = c.data.length := by simp; omega
    rw [passList, h1]
    simp only [reduceCtorEq, if_false, ne_eq, not_true_eq_false, false_or]
    rw [if_neg (by omega), if_pos hfull, List.nil_append]
    split
    · exact ⟨_, _, _, _, rfl, by simp, h2'⟩
    · split
      · exact ⟨_, _, _, _, rfl, by simp, h2'⟩
      · obtain ⟨mx', l', w, o'', g1, g2, g3⟩ := ih (mx - 1) .ok o' n h2 fun x hx => hl x (by simp [hx])
        rw [g1]
        refine ⟨mx', l', c.taken (c.data.drop c.pos).length ++ w, o'', ?_, by simp; omega, g3⟩
        simp

theorem passList_noError : ∀ (l : List Chunk) (mx mx' : Int) (r r' : Ret) (o o' : List Sys) (l' : List Chunk) (w : Wire), NoError o → r = .ok → passList mx r o l = some (mx', r', l', w, o') → r' = .ok ∧ NoError o' := by
  intro l
  induction l with
  | nil => intro mx mx' r r' o o' l' w ho hr h; simp only [passList] at h; cases h; exact ⟨hr, ho⟩
  | cons c t ih =>
    intro mx mx' r r' o o' l' w ho hr h
    cases hw : write o (c.data.drop c.pos) with
    | mk r1 rest =>
      obtain ⟨n, o1⟩ := rest
      obtain ⟨h1, h2⟩ := write_noError ho hw
      have hq : (if r1 = Ret.incomplete then Ret.ok else r1) = .ok := by rcases h1 with rfl | rfl <;> rfl
      rw [passList] at h
      simp only [hw, hq] at h
      split at h
      · cases h
      · split at h
        · cases h; exact ⟨rfl, h2⟩
        · split at h
          · cases h; exact ⟨rfl, h2⟩
          · split at h
            · cases h
            · rename_i hrec
              cases h
              exact ih _ _ _ _ _ _ _ _ h2 rfl hrec

/-- What an event does to a connection which is open. -/
theorem transportStep_room {P : List Bytes} {m : Nat} {s : St} (hg : Fair P s) (hM : ∀ d ∈ P, d.length ≤ m) {o : List Sys} (ho : Room P.length m o) (hlen : (s.high ++ s.normal).length ≤ P.length) (hc : s.closed = false) :
    ∃ s', transportStep s (.write o) = some s' ∧ Fair P s' ∧ (s'.high ++ s'.normal).length ≤ (s.high ++ s.normal).length - 1 ∧ (s'.closed = true → s'.high ++ s'.normal = []) := by
  by_cases ha : s.armed = true
  · have hdata : ∀ c ∈ s.high ++ s.normal, c.data.length ≤ m ∧ c.pos ≤ c.data.length := fun c hcm => ⟨hM _ (List.mem_of_getElem? (hg.chunk c hcm).1), (hg.chunk c hcm).2.1⟩
    rw [List.length_append] at hlen
    have ho' : Room (P.length - s.high.length + s.high.length) m o := by rw [Nat.sub_add_cancel (by omega)]; exact ho
    obtain ⟨m1, l1, w1, o1, g1, g2, g3⟩ := passList_room s.high 10 .ok o _ ho' fun c hcm => hdata c (by simp [hcm])
    have ho1 : Room (0 + s.normal.length) m o1 := ⟨by have := g3.1; omega, g3.2⟩
    obtain ⟨m2, l2, w2, o2, g4, g5, g6⟩ := passList_room s.normal m1 (if s.high = [] then .ok else .ok) o1 0 ho1 fun c hcm => hdata c (by simp [hcm])
    have hr : (if s.normal = [] then (if s.high = [] then Ret.ok else .ok) else .ok) = .ok := by split <;> (try split) <;> rfl
    rw [hr] at g4
    have hpa : passAll o s = some (.ok, { s with high := l1, normal := l2, wire := s.wire ++ (w1 ++ w2) }) := by
      unfold passAll
      rw [g1]; simp only; rw [g4]
    obtain ⟨s', h1, h2⟩ := transportWrite_fair hg hc ha o
    refine ⟨s', ?_, h2, ?_⟩
    · rw [transportStep]; simp [hc, ha, h1]
    · unfold transportWrite at h1
      rw [hpa] at h1
      simp only at h1
      cases h1
      refine ⟨?_, ?_⟩
      · have hh : s.high = [] → l1.length = 0 := by intro h; rw [h] at g2; simpa using g2
        have hn : s.normal = [] → l2.length = 0 := by intro h; rw [h] at g5; simpa using g5
        simp only [List.length_append]
        omega
      · simp only [decide_eq_true_eq]
        intro hcl
        by_cases hid : l1 = [] ∧ l2 = []
        · rw [hid.1, hid.2]; rfl
        · simp [hid] at hcl
  · have hnil : s.high ++ s.normal = [] := by
      by_cases h : s.high ++ s.normal = []
      · exact h
      · exact absurd (hg.armed hc h) ha
    refine ⟨s, ?_, hg, by simp [hnil], fun h => by rw [hc] at h; cases h⟩
    rw [transportStep]; simp [ha]

theorem fair_length {P : List Bytes} {s : St} (hg : Fair P s) : (s.high ++ s.normal).length ≤ P.length := by
  have hsub : ∀ i ∈ ids (s.high ++ s.normal), i ∈ List.range P.length := by
    intro i hi
    obtain ⟨c, h1, rfl⟩ := List.mem_map.mp hi
    have := (hg.chunk c h1).1
    rw [List.mem_range]
    by_cases h : c.id < P.length
    · exact h
    · rw [List.getElem?_eq_none (by omega)] at this; cases this
  have := List.Nodup.length_le_of_subset hg.nodup hsub
  simpa [ids] using this

/-- After enough events with room, everything has been sent. -/
theorem transport_rounds {P : List Bytes} {m : Nat} (hM : ∀ d ∈ P, d.length ≤ m) {o : List Sys} (ho : Room P.length m o) : ∀ (n : Nat) (s : St), Fair P s → s.closed = false → (s.high ++ s.normal).length ≤ n →
    ∃ s', (List.replicate n (Op.write o)).foldlM transportStep s = some s' ∧ Fair P s' ∧ s'.high ++ s'.normal = [] ∧ ∀ i d, P[i]? = some d → own i s'.wire = d := by
  have hdone : ∀ (n : Nat) (s : St), s.closed = true → (List.replicate n (Op.write o)).foldlM transportStep s = some s := by
    intro n
    induction n with
    | zero => intro s _; rfl
    | succ n ih =>
      intro s hc
      rw [List.replicate_succ, List.foldlM_cons]
      have : transportStep s (.write o) = some s := by rw [transportStep]; simp [hc]
      rw [this]
      exact ih s hc
  intro n
  induction n with
  | zero =>
    intro s hg hc hl
    have hnil : s.high ++ s.normal = [] := List.eq_nil_of_length_eq_zero (by omega)
    refine ⟨s, rfl, hg, hnil, fun i d hi => hg.sent hc i d hi (by rw [hnil]; simp [ids])⟩
  | succ n ih =>
    intro s hg hc hl
    obtain ⟨s1, h1, h2, h3, h4⟩ := transportStep_room hg hM ho (fair_length hg) hc
    rw [List.replicate_succ, List.foldlM_cons, h1]
    cases hc1 : s1.closed with
    | false => exact ih s1 h2 hc1 (by omega)
    | true =>
      refine ⟨s1, hdone n s1 hc1, h2, h4 hc1, ?_⟩
      obtain ⟨r, l, l', w, k1, k2⟩ := passAll_moved hg o
      have hst : transportStep s (.write o) = if s.armed then transportWrite o s else some s := by rw [transportStep]; cases ha : s.armed <;> simp [hc]
      rw [hst] at h1
      have ha : s.armed = true := by
        cases ha : s.armed with
        | true => rfl
        | false => rw [ha] at h1; simp at h1; rw [← h1, hc] at hc1; cases hc1
      rw [ha] at h1
      simp only [if_true] at h1
      unfold transportWrite at h1
      rw [k1] at h1
      simp only at h1
      cases h1
      have hnil := h4 hc1
      simp only at hnil
      intro i d hi
      simp only
      have hf := fair_moved hg hc k2 (armed := true) (closed := false) fun _ _ => rfl
      exact hf.sent rfl i d hi (by simp only; rw [hnil]; simp [ids])

end Verif.Chunk
