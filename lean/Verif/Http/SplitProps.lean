import Verif.Http.LimitLemmas
/-!
# The division of the data into pieces does not matter
-/
namespace Verif.Http
open Verif Verif.HttpUtil

theorem run_target (lim : Limits) (kind : Kind) (base : Nat) (buf : Bytes) (p : Part) (pos : Nat) (h : (run lim kind base buf p pos).1 = .incomplete) :
    run lim kind base buf p pos = (.incomplete, (run lim kind base buf p pos).2.1, 0, (run lim kind base buf p pos).2.2.2) := by
  unfold run outOf at *
  simp only at h ⊢
  rw [h]
  simp

theorem sizeOf_need (kind : Kind) (o : Ret × Part × Nat × Nat) (p : Part) (pos : Nat) (h : sizeOf kind o = .need p pos) :
    o.1 = .incomplete ∧ o.2.1 = p ∧ o.2.2.2 = pos ∧ p.unknownLength = false := by
  obtain ⟨r, q, t, k⟩ := o
  unfold sizeOf at h
  cases r with
  | incomplete =>
    simp only at h
    split at h
    · cases h
    · rename_i hu
      simp only [Size.need.injEq] at h
      obtain ⟨rfl, rfl⟩ := h
      exact ⟨rfl, rfl, rfl, by simpa using hu⟩
  | ok =>
    cases kind with
    | response => cases h
    | request =>
      simp only at h
      cases hv : validate q with
      | none => rw [hv] at h; cases h
      | some b => rw [hv] at h; cases b <;> cases h
  | soft => cases h
  | hard => cases h
  | bug => cases h
  | fault => cases h

/-- The part at the beginning is the empty one. -/
theorem start_eq (kind : Kind) (p : Part) (pos : Nat) (h : pos = 0 → p = {}) : (if kind = .request ∧ pos = 0 then ({} : Part) else p) = p := by
  split
  · rename_i hc; exact (h hc.2).symm
  · rfl

theorem receive_eq (lim : Limits) (kind : Kind) (base : Nat) : ∀ (pieces : List Bytes) (p : Part) (pos : Nat) (buf : Bytes), Good p → pos ≤ buf.length →
    (pos = 0 → p = {}) → run lim kind base buf p pos = (.incomplete, p, 0, pos) → p.unknownLength = false →
    (buf ++ pieces.flatten).length ≤ lim.headroom → (buf ++ pieces.flatten).length ≤ lim.header → (buf ++ pieces.flatten).length ≤ lengthMax →
    receive lim kind base p pos buf pieces = sizeOf kind (run lim kind base (buf ++ pieces.flatten) p pos)
  | [], p, pos, buf, _, _, _, hr, hu, _, _, _ => by
    rw [List.flatten_nil, List.append_nil, hr]
    simp [receive, sizeOf, hu]
  | x :: xs, p, pos, buf, hg, hp, h0, hr, hu, hl0, hl1, hl2 => by
    rw [List.flatten_cons, ← List.append_assoc] at *
    have hlen : (buf ++ x).length = buf.length + x.length := List.length_append
    obtain ⟨a1, a2⟩ := run_app lim kind base (buf ++ x) xs.flatten hl0 hl1 hl2 _ p pos hg (by omega) (Nat.le_refl _)
    have happ' : ((buf ++ x) ++ ([] : Bytes)).length ≤ (buf ++ x ++ xs.flatten).length := by
      rw [List.append_nil, List.length_append (as := buf ++ x)]; omega
    obtain ⟨b1, -⟩ := run_app lim kind base (buf ++ x) [] (by omega) (by omega) (by omega) _ p pos hg (by omega) (Nat.le_refl _)
    rw [List.append_nil] at b1
    rw [receive, targetSize_eq, start_eq kind p pos h0]
    by_cases hi : (run lim kind base (buf ++ x) p pos).1 = .incomplete
    · obtain ⟨c1, c2, c3, c4, c5⟩ := a1 hi
      obtain ⟨d1, -⟩ := b1 hi
      have htg := run_target lim kind base (buf ++ x) p pos hi
      by_cases hun : (run lim kind base (buf ++ x) p pos).2.1.unknownLength = true
      · rw [c1, run_unknown lim kind base (buf ++ x ++ xs.flatten) _ _ c2 (by rw [List.length_append]; omega) hun, htg]
        simp only [sizeOf, hun, if_true]
      · have hn : sizeOf kind (run lim kind base (buf ++ x) p pos) =
            .need (run lim kind base (buf ++ x) p pos).2.1 (run lim kind base (buf ++ x) p pos).2.2.2 := by
          rw [htg]; simp only [sizeOf, hun]; simp
        rw [hn]
        simp only
        rw [c1]
        refine receive_eq lim kind base xs _ _ _ c2 c4 (fun hz => ?_) (by rw [← d1]; exact htg) (by simpa using hun) hl0 hl1 hl2
        have hpz : pos = 0 := by omega
        rw [c5 (by omega), h0 hpz]
    · rw [a2 hi]
      cases hsz : sizeOf kind (run lim kind base (buf ++ x) p pos) with
      | need q k => exact absurd (sizeOf_need _ _ _ _ hsz).1 hi
      | _ => rfl

theorem run_empty (lim : Limits) (kind : Kind) (base : Nat) : run lim kind base [] {} 0 = (.incomplete, {}, 0, 0) := by
  have h : parse lim kind base {} [] 0 = { ret := .incomplete, part := {} } := by
    cases kind <;> rfl
  rw [run_eq lim kind base [] {} 0 good_empty (Nat.le_refl _), h]
  rfl

/-! ## Limits -/

theorem parse_lim_or (lim big : Limits) (kind : Kind) (base : Nat) (p : Part) (buf : Bytes) (pos : Nat) (hp : pos ≤ buf.length)
    (hb0 : buf.length ≤ big.headroom) (hb1 : buf.length ≤ big.header) :
    parse lim kind base p buf pos = parse big kind base p buf pos ∨ (parse lim kind base p buf pos).ret = .soft := by
  have hh : ∀ (p : Part) (n : Nat), pos + n ≤ buf.length →
      parseHeader lim kind base p buf pos n = parseHeader big kind base p buf pos n ∨ (parseHeader lim kind base p buf pos n).ret = .soft := by
    intro p n hn
    unfold parseHeader
    by_cases hc : p.complete = true
    · rw [if_pos hc, if_pos hc]; exact .inl rfl
    · rw [if_neg hc, if_neg hc]
      have hb : ¬ pos + n - p.headroom > big.header := by omega
      rw [if_neg hb]
      by_cases ha : pos + n - p.headroom > lim.header
      · rw [if_pos ha]; exact .inr rfl
      · rw [if_neg ha]; exact .inl rfl
  unfold parse
  by_cases hch : p.chunked = true
  · rw [if_pos hch, if_pos hch]; exact .inl rfl
  · rw [if_neg hch, if_neg hch]
    by_cases hs : p.started = true
    · have hns : ¬ (!p.started) = true := by simp [hs]
      rw [if_neg hns, if_neg hns]
      exact hh p 0 hp
    · have hns : (!p.started) = true := by simp [hs]
      rw [if_pos hns, if_pos hns]
      cases hf : parseFirstLine kind p (buf.drop pos) with
      | ok x =>
        obtain ⟨p', n⟩ := x
        obtain ⟨-, c2, -⟩ := firstLine_len _ _ _ _ _ hf
        rw [List.length_drop] at c2
        exact hh _ n (by omega)
      | incomplete =>
        have hb : ¬ buf.length > big.headroom := by omega
        simp only
        rw [if_neg hb]
        by_cases ha : buf.length > lim.headroom
        · rw [if_pos ha]; exact .inr rfl
        · rw [if_neg ha]; exact .inl rfl
      | soft => exact .inl rfl
      | hard => exact .inl rfl
      | bug => exact .inl rfl
      | fault => exact .inl rfl

theorem loop_lim_or (lim big : Limits) (kind : Kind) (base : Nat) (buf : Bytes) (hb0 : buf.length ≤ big.headroom) (hb1 : buf.length ≤ big.header) :
    ∀ (fuel : Nat) (p : Part) (pos : Nat), Good p → pos ≤ buf.length →
      parseLoop lim kind base fuel p buf pos = parseLoop big kind base fuel p buf pos ∨ (parseLoop lim kind base fuel p buf pos).1.ret = .soft
  | 0, _, _, _, _ => .inl rfl
  | fuel + 1, p, pos, hg, hp => by
    rcases parse_lim_or lim big kind base p buf pos hp hb0 hb1 with he | he
    · obtain ⟨a1, a2, a3⟩ := parse_len big kind base p buf pos hp hg
      rw [parseLoop, parseLoop, he]
      split
      · exact loop_lim_or lim big kind base buf hb0 hb1 fuel _ _ a3 a1
      · exact .inl rfl
    · right
      rw [parseLoop, if_neg (by rw [he]; simp)]
      exact he

theorem targetSize_lim_or (lim big : Limits) (kind : Kind) (base : Nat) (p : Part) (pos : Nat) (buf : Bytes) (hb0 : buf.length ≤ big.headroom)
    (hb1 : buf.length ≤ big.header) (hg : Good p) (hp : pos ≤ buf.length) :
    targetSize lim kind base p pos buf = targetSize big kind base p pos buf ∨ targetSize lim kind base p pos buf = .error := by
  rw [targetSize_eq, targetSize_eq]
  have hg' : Good (if kind = .request ∧ pos = 0 then ({} : Part) else p) := by split; exact good_empty; exact hg
  generalize (if kind = .request ∧ pos = 0 then ({} : Part) else p) = q at *
  unfold run
  rcases loop_lim_or lim big kind base buf hb0 hb1 (buf.length + 2) q pos hg' hp with h | h
  · rw [h]; exact .inl rfl
  · right
    unfold outOf
    rw [h]
    rfl

theorem receive_lim_or (lim big : Limits) (kind : Kind) (base : Nat) : ∀ (pieces : List Bytes) (p : Part) (pos : Nat) (buf : Bytes), Good p →
    pos ≤ buf.length → (pos = 0 → p = {}) → (buf ++ pieces.flatten).length ≤ big.headroom → (buf ++ pieces.flatten).length ≤ big.header →
    (buf ++ pieces.flatten).length ≤ lengthMax →
    receive lim kind base p pos buf pieces = receive big kind base p pos buf pieces ∨ receive lim kind base p pos buf pieces = .error
  | [], _, _, _, _, _, _, _, _, _ => .inl rfl
  | x :: xs, p, pos, buf, hg, hp, h0, hl0, hl1, hl2 => by
    rw [List.flatten_cons, ← List.append_assoc] at hl0 hl1 hl2
    have hlen : (buf ++ x).length = buf.length + x.length := List.length_append
    have hlen2 : (buf ++ x ++ xs.flatten).length = (buf ++ x).length + xs.flatten.length := List.length_append
    rw [receive, receive]
    rcases targetSize_lim_or lim big kind base p pos (buf ++ x) (by omega) (by omega) hg (by omega) with h | h
    · rw [h]
      cases hsz : targetSize big kind base p pos (buf ++ x) with
      | need q k =>
        rw [targetSize_eq, start_eq kind p pos h0] at hsz
        obtain ⟨e1, e2, e3, -⟩ := sizeOf_need _ _ _ _ hsz
        obtain ⟨a1, -⟩ := run_app big kind base (buf ++ x) [] (by rw [List.append_nil]; omega) (by rw [List.append_nil]; omega)
          (by rw [List.append_nil]; omega) _ p pos hg (by omega) (Nat.le_refl _)
        obtain ⟨-, c2, c3, c4, c5⟩ := a1 e1
        rw [e2] at c2 c5
        rw [e3] at c3 c4 c5
        exact receive_lim_or lim big kind base xs q k (buf ++ x) c2 c4 (fun hz => by rw [c5 (by omega), h0 (by omega)]) hl0 hl1 hl2
      | _ => exact .inl rfl
    · rw [h]; exact .inr rfl

theorem receive_lim (lim big : Limits) (kind : Kind) (base : Nat) : ∀ (pieces : List Bytes) (p : Part) (pos : Nat) (buf : Bytes), Good p → Place p pos →
    pos ≤ buf.length → (pos = 0 → p = {}) → (buf ++ pieces.flatten).length ≤ big.headroom → (buf ++ pieces.flatten).length ≤ big.header →
    (buf ++ pieces.flatten).length ≤ lengthMax →
    WithinLimits lim (buf ++ pieces.flatten) (run big kind base (buf ++ pieces.flatten) p pos).2.1 →
    receive lim kind base p pos buf pieces = receive big kind base p pos buf pieces
  | [], _, _, _, _, _, _, _, _, _, _, _ => rfl
  | x :: xs, p, pos, buf, hg, hpl, hp, h0, hl0, hl1, hl2, hw => by
    rw [List.flatten_cons, ← List.append_assoc] at hl0 hl1 hl2 hw
    have hlen : (buf ++ x).length = buf.length + x.length := List.length_append
    have hlen2 : (buf ++ x ++ xs.flatten).length = (buf ++ x).length + xs.flatten.length := List.length_append
    have hts : targetSize lim kind base p pos (buf ++ x) = targetSize big kind base p pos (buf ++ x) := by
      rw [targetSize_eq, targetSize_eq, start_eq kind p pos h0]
      unfold run
      rw [loop_lim lim big kind base (buf ++ x) xs.flatten hl0 hl1 hl2 _ p pos hg hpl (by omega) hw]
    rw [receive, receive, hts]
    cases hsz : targetSize big kind base p pos (buf ++ x) with
    | need q k =>
      rw [targetSize_eq, start_eq kind p pos h0] at hsz
      obtain ⟨e1, e2, e3, -⟩ := sizeOf_need _ _ _ _ hsz
      obtain ⟨a1, -⟩ := run_app big kind base (buf ++ x) xs.flatten hl0 hl1 hl2 _ p pos hg (by omega) (Nat.le_refl _)
      obtain ⟨c1, c2, c3, c4, c5⟩ := a1 e1
      have hpl' := run_place big kind base (buf ++ x) _ p pos hg hpl (by omega) (Nat.le_refl _) e1
      rw [c1] at hw
      rw [e2] at c2 c5 hpl'
      rw [e3] at c3 c4 c5 hpl'
      rw [e2, e3] at hw
      exact receive_lim lim big kind base xs q k (buf ++ x) c2 hpl' c4 (fun hz => by rw [c5 (by omega), h0 (by omega)]) hl0 hl1 hl2 hw
    | _ => rfl

/-- A message has a first line. -/
theorem run_started (lim : Limits) (kind : Kind) (base : Nat) (buf : Bytes) : ∀ (n : Nat) (p : Part) (pos : Nat), Good p → Place p pos → pos ≤ buf.length →
    buf.length - pos ≤ n → (run lim kind base buf p pos).1 = .ok → (run lim kind base buf p pos).2.1.started = true := by
  intro n
  induction n using Nat.strongRecOn with
  | _ n ih =>
  intro p pos hg hpl hp hn hi
  obtain ⟨a1, a2, a3⟩ := parse_len lim kind base p buf pos hp hg
  rw [run_eq lim kind base buf p pos hg hp] at hi ⊢
  by_cases hc : (parse lim kind base p buf pos).parsed ≠ 0 ∧ (parse lim kind base p buf pos).ret = .incomplete
  · rw [if_pos hc] at hi ⊢
    exact ih (buf.length - (pos + (parse lim kind base p buf pos).parsed)) (by omega) _ _ a3 (parse_place lim kind base p buf pos hpl hg hc.2) a1
      (Nat.le_refl _) hi
  · rw [if_neg hc] at hi ⊢
    simp only [outOf] at hi ⊢
    have hgr := parse_grows lim kind base p buf pos hpl
    cases hs : p.started with
    | true => exact (hgr.after hs).1
    | false =>
      unfold parse at hi ⊢
      rw [if_neg (by simp [(hpl.before hs).2.2]), if_pos (by simp [hs])] at hi ⊢
      cases hf : parseFirstLine kind p (buf.drop pos) with
      | ok x =>
        obtain ⟨p', k⟩ := x
        obtain ⟨-, -, c3, -⟩ := firstLine_len _ _ _ _ _ hf
        obtain ⟨-, -, h3, -⟩ := parseHeader_top lim kind base { p' with headroom := k } buf pos k
        simp only
        rw [h3]
        exact c3
      | incomplete => rw [hf] at hi; simp only at hi; split at hi <;> cases hi
      | soft => rw [hf] at hi; cases hi
      | hard => rw [hf] at hi; cases hi
      | bug => rw [hf] at hi; cases hi
      | fault => rw [hf] at hi; cases hi

theorem sizeOf_within (kind : Kind) (lim : Limits) (data : Bytes) (o : Ret × Part × Nat × Nat) (hst : o.1 = .ok → o.2.1.started = true)
    (hle : o.2.1.headroom ≤ data.length) (hle2 : o.2.1.headerLength ≤ data.length)
    (h : (sizeOf kind o).Within lim data) : WithinLimits lim data o.2.1 := by
  obtain ⟨r, p, t, k⟩ := o
  simp only at hst hle hle2 ⊢
  have hsm : data.length ≤ lim.headroom ∧ data.length ≤ lim.header → WithinLimits lim data p :=
    fun hh => ⟨fun _ => by omega, fun _ => hh.1, by omega⟩
  unfold sizeOf at h
  cases r with
  | incomplete =>
    simp only at h
    split at h
    · exact h
    · exact h
  | ok =>
    cases kind with
    | response => exact h
    | request =>
      simp only at h
      cases hv : validate p with
      | none => rw [hv] at h; exact hsm h
      | some b =>
        rw [hv] at h
        cases b with
        | true => exact h
        | false =>
          simp only [Size.Within, Part.top] at h
          exact ⟨fun _ => by omega, fun hf => (by rw [hst rfl] at hf; cases hf), by omega⟩
  | soft => exact hsm h
  | hard => exact hsm h
  | bug => exact hsm h
  | fault => exact hsm h

end Verif.Http
