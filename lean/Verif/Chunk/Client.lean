import Verif.Chunk.Spec
/-! # Socket clients -/
namespace Verif.Chunk
open Spec

theorem writeLoop_spec : ∀ (k : Nat) (o o' : List Sys) (b : Bytes) (done n : Nat) (r : Ret), writeLoop k o b done = (r, n, o') →
    done ≤ n ∧ n ≤ done + b.length ∧ (r = .ok → n = done + b.length) ∧ (r ≠ .ok → 0 < k → n < done + b.length) ∧ r ≠ .eof ∧ (r = .ok → 0 < k) := by
  intro k
  induction k with
  | zero =>
    intro o o' b done n r h
    simp only [writeLoop] at h
    cases h
    refine ⟨by omega, by omega, by simp, by omega, by simp, by simp⟩
  | succ k ih =>
    intro o o' b done n r h
    have stop : ∀ q : Ret, (if b = [] then (Ret.ok, done, o.tail) else (q, done, o.tail)) = (r, n, o') → q ≠ .eof → q ≠ .ok →
        done ≤ n ∧ n ≤ done + b.length ∧ (r = .ok → n = done + b.length) ∧ (r ≠ .ok → 0 < k + 1 → n < done + b.length) ∧ r ≠ .eof ∧ (r = .ok → 0 < k + 1) := by
      intro q h hq hq'
      by_cases hb : b = []
      · rw [if_pos hb] at h
        cases h
        subst hb
        simp
      · rw [if_neg hb] at h
        cases h
        have : 0 < b.length := by cases b with | nil => exact absurd rfl hb | cons _ _ => simp
        exact ⟨by omega, by omega, fun h => absurd h hq', fun _ _ => by omega, hq, by omega⟩
    have retry : (if b = [] then (Ret.ok, done, o.tail) else writeLoop k o.tail b done) = (r, n, o') →
        done ≤ n ∧ n ≤ done + b.length ∧ (r = .ok → n = done + b.length) ∧ (r ≠ .ok → 0 < k + 1 → n < done + b.length) ∧ r ≠ .eof ∧ (r = .ok → 0 < k + 1) := by
      intro h
      by_cases hb : b = []
      · rw [if_pos hb] at h
        cases h
        subst hb
        simp
      · rw [if_neg hb] at h
        obtain ⟨h1, h2, h3, h4, h5, h6⟩ := ih _ _ _ _ _ _ h
        have : 0 < b.length := by cases b with | nil => exact absurd rfl hb | cons _ _ => simp
        refine ⟨h1, h2, h3, fun hr _ => ?_, h5, by omega⟩
        by_cases hk : 0 < k
        · exact h4 hr hk
        · have : k = 0 := by omega
          subst this
          simp only [writeLoop] at h
          cases h
          omega
    rw [writeLoop] at h
    cases ho : o.headD .again with
    | wrote m =>
      rw [ho] at h
      simp only at h
      by_cases hm : b.length ≤ m
      · rw [if_pos hm] at h
        cases h
        refine ⟨by omega, by omega, by simp, by simp, by simp, by omega⟩
      · rw [if_neg hm] at h
        obtain ⟨h1, h2, h3, h4, h5, h6⟩ := ih _ _ _ _ _ _ h
        simp at h2 h3 h4
        refine ⟨by omega, by omega, fun hr => by have := h3 hr; omega, fun hr _ => ?_, h5, by omega⟩
        by_cases hk : 0 < k
        · have := h4 hr hk; omega
        · have : k = 0 := by omega
          subst this
          simp only [writeLoop] at h
          cases h
          omega
    | again => rw [ho] at h; exact retry h
    | intr => rw [ho] at h; exact retry h
    | broken => rw [ho] at h; exact stop .soft h (by simp) (by simp)
    | other => rw [ho] at h; exact stop .hard h (by simp) (by simp)

/-- A write takes a part of the bytes from the front; it is successful exactly if it takes all of them. -/
theorem write_spec {o o' : List Sys} {b : Bytes} {n : Nat} {r : Ret} (h : write o b = (r, n, o')) : n ≤ b.length ∧ (r = .ok ↔ n = b.length) ∧ r ≠ .eof := by
  obtain ⟨h1, h2, h3, h4, h5, h6⟩ := writeLoop_spec 9 o o' b 0 n r h
  simp at h2 h3 h4
  refine ⟨h2, ⟨h3, fun hn => ?_⟩, h5⟩
  by_cases hr : r = .ok
  · exact hr
  · have := h4 hr; omega

/-! ## The queue -/

/-- Data which wait, from number `i`; of the first one `pos` bytes have been sent. -/
def queue (i pos : Nat) : List Bytes → List Chunk
  | [] => []
  | d :: t => ⟨i, d, pos⟩ :: queue (i + 1) 0 t

/-- The bytes of the first one which have been sent. -/
def part (i pos : Nat) : List Bytes → Wire
  | [] => []
  | d :: _ => mark i (d.take pos)

/-- The number of bytes which have been sent is possible. -/
def PosOk (pos : Nat) : List Bytes → Prop
  | [] => pos = 0
  | d :: _ => pos ≤ d.length

theorem put_mark (i : Nat) (b : Bytes) : put i b = mark i b := rfl

theorem mark_append (i : Nat) (a b : Bytes) : mark i (a ++ b) = mark i a ++ mark i b := by simp [mark]

theorem part_zero (i : Nat) (B : List Bytes) : part i 0 B = [] := by cases B <;> simp [part, mark]

theorem posOk_zero (B : List Bytes) : PosOk 0 B := by cases B <;> simp [PosOk]

theorem stream_append (i : Nat) (A B : List Bytes) : stream i (A ++ B) = stream i A ++ stream (i + A.length) B := by
  induction A generalizing i with
  | nil => simp [stream]
  | cons d t ih =>
    simp only [List.cons_append, stream, ih, List.append_assoc, List.length_cons]
    rw [show i + 1 + t.length = i + (t.length + 1) by omega]

theorem queue_append (i pos : Nat) (B : List Bytes) (d : Bytes) (h : PosOk pos B) : queue i pos B ++ [⟨i + B.length, d, 0⟩] = queue i pos (B ++ [d]) := by
  induction B generalizing i pos with
  | nil => simp only [PosOk] at h; subst h; simp [queue]
  | cons x t ih =>
    simp only [List.cons_append, queue, List.length_cons]
    rw [show i + (t.length + 1) = i + 1 + t.length by omega, ih _ _ (posOk_zero t)]

theorem part_append (i pos : Nat) (B : List Bytes) (d : Bytes) (h : PosOk pos B) : part i pos (B ++ [d]) = part i pos B := by
  cases B with
  | nil => simp only [PosOk] at h; subst h; simp [part, mark]
  | cons x t => rfl

theorem posOk_append {pos : Nat} {B : List Bytes} (d : Bytes) (h : PosOk pos B) : PosOk pos (B ++ [d]) := by
  cases B with
  | nil => simp only [PosOk] at h; subst h; simp [PosOk]
  | cons x t => exact h

theorem part_prefix (i pos : Nat) (B : List Bytes) : part i pos B <+: stream i B := by
  cases B with
  | nil => exact List.prefix_refl _
  | cons d t =>
    refine ⟨mark i (d.drop pos) ++ stream (i + 1) t, ?_⟩
    rw [part, stream, ← List.append_assoc, ← mark_append, List.take_append_drop]

theorem taken_part (i pos n : Nat) (d : Bytes) : mark i (d.take pos) ++ Chunk.taken ⟨i, d, pos⟩ n = mark i (d.take (pos + n)) := by
  rw [Chunk.taken, put_mark, ← mark_append]
  congr 1
  rw [List.take_add]

/-- Sending from a queue. -/
theorem sendList_queue : ∀ (B : List Bytes) (i pos : Nat) (o : List Sys), PosOk pos B → ∃ r l w t o', sendList o (queue i pos B) = (r, l, w, t, o') ∧ r ≠ .eof ∧
    ∃ A' B' pos', B = A' ++ B' ∧ l = queue (i + A'.length) pos' B' ∧ PosOk pos' B' ∧ t = (List.range' i A'.length) ∧ (r = .ok → B' = []) ∧
      (r ≠ .ok → B' ≠ []) ∧ (r = .ok ∨ r = .incomplete → part i pos B ++ w = stream i A' ++ part (i + A'.length) pos' B') ∧
      ∃ e, part i pos B ++ w ++ e = stream i B ∧ stream i A' <+: part i pos B ++ w := by
  intro B
  induction B with
  | nil =>
    intro i pos o hp
    simp only [PosOk] at hp
    subst hp
    exact ⟨.ok, [], [], [], o, rfl, by simp, [], [], 0, rfl, rfl, rfl, rfl, fun _ => rfl, by simp, fun _ => by simp [part, stream], [], rfl, List.prefix_refl _⟩
  | cons d B ih =>
    intro i pos o hp
    simp only [PosOk] at hp
    cases hw : write o (d.drop pos) with
    | mk r rest =>
      obtain ⟨n, o1⟩ := rest
      obtain ⟨h1, h2, h3⟩ := write_spec hw
      have hlen : (d.drop pos).length = d.length - pos := List.length_drop
      have hpre : ∀ m, ∃ e, mark i (d.take m) ++ e = stream i (d :: B) := fun m => by
        obtain ⟨e, he⟩ := part_prefix i m (d :: B)
        exact ⟨e, he⟩
      cases r with
      | ok =>
        have hn : n = d.length - pos := by rw [← hlen]; exact h2.mp rfl
        obtain ⟨r, l, w, t, o', g1, g2, A', B', pos', g3, g4, g5, g6, g7, g8, g9, e, g10, g11⟩ := ih (i + 1) 0 o1 (posOk_zero B)
        have hall : mark i (d.take pos) ++ Chunk.taken ⟨i, d, pos⟩ n = mark i d := by
          rw [taken_part, show pos + n = d.length by omega, List.take_length]
        rw [part_zero, List.nil_append] at g9 g10 g11
        refine ⟨r, l, Chunk.taken ⟨i, d, pos⟩ n ++ w, i :: t, o', ?_, g2, d :: A', B', pos', by rw [g3]; rfl, ?_, g5, ?_, g7, g8, ?_, e, ?_, ?_⟩
        · rw [queue, sendList]; simp only; rw [hw]; simp only; rw [g1]
        · rw [g4]; simp only [List.length_cons]; congr 1; omega
        · rw [g6]; simp only [List.length_cons]; rw [List.range'_succ]
        · intro hr
          have := g9 hr
          show mark i (d.take pos) ++ (Chunk.taken ⟨i, d, pos⟩ n ++ w) = mark i d ++ stream (i + 1) A' ++ part (i + (A'.length + 1)) pos' B'
          rw [← List.append_assoc, hall, this, show i + 1 + A'.length = i + (A'.length + 1) by omega, List.append_assoc]
        · simp only [part, stream]
          rw [← List.append_assoc, hall, List.append_assoc, g10]
        · simp only [part, stream]
          rw [← List.append_assoc, hall]
          exact (List.prefix_append_right_inj _).mpr g11
      | incomplete =>
        obtain ⟨e, he⟩ := hpre (pos + n)
        refine ⟨.incomplete, queue i (pos + n) (d :: B), Chunk.taken ⟨i, d, pos⟩ n, [], o1, ?_, by simp, [], d :: B, pos + n, rfl, rfl, ?_, rfl, by simp, by simp, ?_, e, ?_, ?_⟩
        · rw [queue, sendList]; simp only; rw [hw]; rfl
        · simp only [PosOk]; omega
        · intro _; simp only [part, stream, List.nil_append, List.length_nil, Nat.add_zero]; rw [taken_part]
        · simp only [part]; rw [taken_part]; exact he
        · simp [stream]
      | soft =>
        obtain ⟨e, he⟩ := hpre (pos + n)
        refine ⟨.soft, queue i pos (d :: B), Chunk.taken ⟨i, d, pos⟩ n, [], o1, ?_, by simp, [], d :: B, pos, rfl, rfl, hp, rfl, by simp, by simp, by simp, e, ?_, ?_⟩
        · rw [queue, sendList]; simp only; rw [hw]
        · simp only [part]; rw [taken_part]; exact he
        · simp [stream]
      | hard =>
        obtain ⟨e, he⟩ := hpre (pos + n)
        refine ⟨.hard, queue i pos (d :: B), Chunk.taken ⟨i, d, pos⟩ n, [], o1, ?_, by simp, [], d :: B, pos, rfl, rfl, hp, rfl, by simp, by simp, by simp, e, ?_, ?_⟩
        · rw [queue, sendList]; simp only; rw [hw]
        · simp only [part]; rw [taken_part]; exact he
        · simp [stream]
      | eof => exact absurd rfl h3

/-- The state of a connection when `P` is the data given. -/
structure Good (P : List Bytes) (s : St) : Prop where
  next : s.next = P.length
  high : s.high = []
  live : s.closed = false → ∃ A B pos, P = A ++ B ∧ s.normal = queue A.length pos B ∧ PosOk pos B ∧ s.wire = stream 0 A ++ part A.length pos B ∧ s.told = List.range A.length ∧
    (B ≠ [] → s.armed = true)
  any : ∃ A B e, P = A ++ B ∧ s.told = List.range A.length ∧ stream 0 A <+: s.wire ∧ s.wire ++ e = stream 0 P

theorem range_append (a n : Nat) : List.range a ++ List.range' a n = List.range (a + n) := by
  have := List.range'_append_1 (s := 0) (m := a) (n := n)
  rw [Nat.zero_add] at this
  rw [List.range_eq_range', List.range_eq_range', this]

theorem clientWrite_good {P : List Bytes} {s : St} (hg : Good P s) (hc : s.closed = false) (o : List Sys) : Good P (clientWrite o s) := by
  obtain ⟨A, B, pos, h1, h2, h3, h4, h5, h6⟩ := hg.live hc
  obtain ⟨r, l, w, t, o', g1, g2, A', B', pos', g3, g4, g5, g6, g7, g8, g9, e, g10, g11⟩ := sendList_queue B A.length pos o h3
  have hs : sendAll o s = (r, { s with high := [], normal := l, wire := s.wire ++ w, told := s.told ++ t }) := by
    unfold sendAll
    rw [hg.high]
    simp only [sendList]
    rw [h2, g1]
    simp
  have hP : P = (A ++ A') ++ B' := by rw [h1, g3, List.append_assoc]
  have htold : s.told ++ t = List.range (A ++ A').length := by rw [h5, g6, range_append, List.length_append]
  have hwe : (s.wire ++ w) ++ e = stream 0 P := by
    rw [h4, h1, stream_append, Nat.zero_add, ← g10]; simp
  have hpre : stream 0 (A ++ A') <+: s.wire ++ w := by
    rw [stream_append, Nat.zero_add, h4, List.append_assoc]
    exact (List.prefix_append_right_inj _).mpr g11
  unfold clientWrite
  rw [hs]
  simp only
  by_cases hr : r ≠ .ok ∧ r ≠ .incomplete
  · rw [if_pos hr]
    exact ⟨hg.next, rfl, fun h => by simp at h, ⟨_, _, e, hP, htold, hpre, hwe⟩⟩
  · rw [if_neg hr]
    have hr' : r = .ok ∨ r = .incomplete := by cases r <;> simp_all
    have hlive : ∃ A B pos, P = A ++ B ∧ l = queue A.length pos B ∧ PosOk pos B ∧ s.wire ++ w = stream 0 A ++ part A.length pos B ∧ s.told ++ t = List.range A.length ∧ (l ≠ [] → B ≠ []) ∧ (B ≠ [] → l ≠ []) := by
      refine ⟨A ++ A', B', pos', hP, by rw [g4, List.length_append], g5, ?_, htold, ?_, ?_⟩
      · rw [h4, List.append_assoc, g9 hr', stream_append, Nat.zero_add, List.append_assoc, List.length_append]
      · intro hl hB; rw [hB] at g4; exact hl g4
      · intro hB hl
        rw [hl] at g4
        cases B' with
        | nil => exact hB rfl
        | cons _ _ => simp [queue] at g4
    by_cases hl : l = []
    · rw [if_pos ⟨trivial, hl⟩]
      refine ⟨hg.next, rfl, fun _ => ?_, ⟨_, _, e, hP, htold, hpre, hwe⟩⟩
      obtain ⟨A1, B1, p1, k1, k2, k3, k4, k5, k6, k7⟩ := hlive
      exact ⟨A1, B1, p1, k1, k2, k3, k4, k5, fun hB => absurd hl (k7 hB)⟩
    · rw [if_neg (by simp [hl])]
      refine ⟨hg.next, rfl, fun _ => ?_, ⟨_, _, e, hP, htold, hpre, hwe⟩⟩
      obtain ⟨A1, B1, p1, k1, k2, k3, k4, k5, k6, k7⟩ := hlive
      refine ⟨A1, B1, p1, k1, k2, k3, k4, k5, fun _ => h6 ?_⟩
      intro hB
      rw [hB] at h2 g3
      have : B' = [] := (List.append_eq_nil_iff.mp g3.symm).2
      rw [this] at g4
      exact hl g4

theorem stream_prefix_append (i : Nat) (P : List Bytes) (d : Bytes) : stream i P ++ mark (i + P.length) d = stream i (P ++ [d]) := by
  rw [stream_append]; simp [stream]

theorem clientStep_good {P : List Bytes} {s : St} (hg : Good P s) (op : Op) : Good (P ++ given [op]) (clientStep s op) := by
  cases op with
  | push u d =>
    show Good (P ++ [d]) (clientStep s (.push u d))
    have hany : ∃ A B e, P ++ [d] = A ++ B ∧ s.told = List.range A.length ∧ stream 0 A <+: s.wire ∧ s.wire ++ e = stream 0 (P ++ [d]) := by
      obtain ⟨A, B, e, h1, h2, h3, h4⟩ := hg.any
      exact ⟨A, B ++ [d], e ++ mark P.length d, by rw [h1, List.append_assoc], h2, h3, by rw [← List.append_assoc, h4, ← stream_prefix_append, Nat.zero_add]⟩
    cases hc : s.closed with
    | true =>
      simp only [clientStep, hc, if_true]
      exact ⟨by simp [hg.next], hg.high, fun h => by simp [hc] at h, hany⟩
    | false =>
      simp only [clientStep, hc, pushChunk, Bool.false_eq_true, if_false]
      obtain ⟨A, B, pos, h1, h2, h3, h4, h5, h6⟩ := hg.live hc
      refine ⟨by simp [hg.next], hg.high, fun _ => ?_, hany⟩
      refine ⟨A, B ++ [d], pos, by rw [h1, List.append_assoc], ?_, posOk_append d h3, by rw [part_append _ _ _ _ h3]; exact h4, h5, fun _ => rfl⟩
      simp only
      rw [h2, hg.next, h1, List.length_append, queue_append _ _ _ _ h3]
  | finish =>
    show Good (P ++ []) (clientStep s .finish)
    rw [List.append_nil]
    cases hc : s.closed with
    | true => simp only [clientStep, hc, if_true]; exact hg
    | false =>
      simp only [clientStep, hc, Bool.false_eq_true, if_false]
      obtain ⟨A, B, pos, h1, h2, h3, h4, h5, h6⟩ := hg.live hc
      exact ⟨hg.next, hg.high, fun _ => ⟨A, B, pos, h1, h2, h3, h4, h5, fun hB => by simp [h6 hB]⟩, hg.any⟩
  | write o =>
    show Good (P ++ []) (clientStep s (.write o))
    rw [List.append_nil, clientStep]
    cases hc : s.closed with
    | true => simp only [Bool.true_or, if_true]; exact hg
    | false =>
      cases ha : s.armed with
      | false => simp only [Bool.not_false, Bool.or_true, if_true]; exact hg
      | true => simp only [Bool.not_true, Bool.or_false, Bool.false_eq_true, if_false]; exact clientWrite_good hg hc o

theorem given_append (a b : List Op) : given (a ++ b) = given a ++ given b := by
  induction a with
  | nil => rfl
  | cons x t ih => cases x <;> simp [given, ih]

theorem good_empty : Good [] {} := ⟨rfl, rfl, fun _ => ⟨[], [], 0, rfl, rfl, rfl, rfl, rfl, fun h => absurd rfl h⟩, ⟨[], [], [], rfl, rfl, List.prefix_refl _, rfl⟩⟩

theorem client_good (ops : List Op) : Good (given ops) (clientRun ops) := by
  have : ∀ (ops : List Op) (P : List Bytes) (s : St), Good P s → Good (P ++ given ops) (ops.foldl clientStep s) := by
    intro ops
    induction ops with
    | nil => intro P s h; rw [given, List.append_nil]; exact h
    | cons op t ih =>
      intro P s h
      have := ih _ _ (clientStep_good h op)
      rw [List.append_assoc, ← given_append] at this
      exact this
  exact this ops [] {} good_empty

end Verif.Chunk
