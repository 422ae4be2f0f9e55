import Verif.Http.SplitLemmas
import Verif.Http.Spec
/-!
# The limits on the lengths of the first line and the header
-/
namespace Verif.Http
open Verif Verif.HttpUtil

/-- Where parsing has come to in relation to the header. -/
structure Place (p : Part) (pos : Nat) : Prop where
  before : p.started = false → pos = 0 ∧ p.headerLength = 0 ∧ p.chunked = false
  inside : p.started = true → p.complete = false → p.chunked = false → pos = p.headroom + p.headerLength

theorem place_empty : Place {} 0 := ⟨fun _ => ⟨rfl, rfl, rfl⟩, by simp⟩

theorem parseChunked_top (base : Nat) (p : Part) (buf : Bytes) (pos n : Nat) :
    (parseChunked base p buf pos n).part.headroom = p.headroom ∧ (parseChunked base p buf pos n).part.headerLength = p.headerLength ∧
    (parseChunked base p buf pos n).part.started = p.started ∧ (parseChunked base p buf pos n).part.complete = p.complete ∧
    (parseChunked base p buf pos n).part.chunked = true := by
  unfold parseChunked
  simp only
  generalize parseChunk base p.chunks buf (pos + n) = x
  obtain ⟨r, cs, k⟩ := x
  cases r with
  | ok =>
    simp only
    cases cs.getLast? with
    | none => simp
    | some c => simp only; split <;> simp
  | _ => simp

theorem afterHeader_top (kind : Kind) (base : Nat) (p : Part) (buf : Bytes) (pos n : Nat) :
    (afterHeader kind base p buf pos n).part.headroom = p.headroom ∧ (afterHeader kind base p buf pos n).part.headerLength = p.headerLength ∧
    (afterHeader kind base p buf pos n).part.started = p.started ∧ (afterHeader kind base p buf pos n).part.complete = p.complete := by
  unfold afterHeader
  split
  · split
    · simp
    · rename_i p1 hp1
      have hp : p1.headroom = p.headroom ∧ p1.headerLength = p.headerLength ∧ p1.started = p.started ∧ p1.complete = p.complete := by
        cases kind with
        | response =>
          simp only [Option.some.injEq] at hp1
          subst hp1
          simp
        | request =>
          simp only [Option.map_eq_some_iff] at hp1
          obtain ⟨m, -, rfl⟩ := hp1
          simp
      simp only
      split
      · exact hp
      · split
        · refine ⟨(parseChunked_top _ _ _ _ _).1.trans hp.1, (parseChunked_top _ _ _ _ _).2.1.trans hp.2.1,
            (parseChunked_top _ _ _ _ _).2.2.1.trans hp.2.2.1, (parseChunked_top _ _ _ _ _).2.2.2.1.trans hp.2.2.2⟩
        · split
          · exact hp
          · exact hp
  · simp

theorem parseHeader_top (lim : Limits) (kind : Kind) (base : Nat) (p : Part) (buf : Bytes) (pos n : Nat) :
    (parseHeader lim kind base p buf pos n).part.headroom = p.headroom ∧ p.headerLength ≤ (parseHeader lim kind base p buf pos n).part.headerLength ∧
    (parseHeader lim kind base p buf pos n).part.started = p.started ∧
    (pos + n = p.headroom + p.headerLength → p.complete = false → (parseHeader lim kind base p buf pos n).ret = .incomplete →
      (parseHeader lim kind base p buf pos n).part.complete = false →
      pos + (parseHeader lim kind base p buf pos n).parsed = p.headroom + (parseHeader lim kind base p buf pos n).part.headerLength) := by
  unfold parseHeader
  split
  · rename_i h'
    refine ⟨rfl, Nat.le_refl _, rfl, fun _ h => ?_⟩
    rw [h'] at h; cases h
  · split
    · exact ⟨rfl, Nat.le_refl _, rfl, fun _ _ h => by cases h⟩
    · generalize headerFields (buf.length + 1) p.headers 0 (buf.drop (pos + n)) = x
      obtain ⟨r, hs, k⟩ := x
      simp only
      split
      · obtain ⟨h1, h2, h3, h4⟩ := afterHeader_top kind base { p with headers := hs, complete := true, headerLength := p.headerLength + k } buf pos (n + k)
        refine ⟨h1, by rw [h2]; simp only; omega, h3, fun _ _ _ h => ?_⟩
        rw [h4] at h; cases h
      · exact ⟨rfl, by simp only; omega, rfl, fun h _ _ _ => by simp only; omega⟩

/-- How one call changes the part. -/
structure Grows (kind : Kind) (p : Part) (pos : Nat) (data : Bytes) (q : Part) : Prop where
  header : p.headerLength ≤ q.headerLength
  after : p.started = true → q.started = true ∧ q.headroom = p.headroom
  line : p.started = false → q.started = true → ∃ p', parseFirstLine kind p (data.drop pos) = .ok (p', q.headroom)

theorem parse_grows (lim : Limits) (kind : Kind) (base : Nat) (p : Part) (buf : Bytes) (pos : Nat) (hp : Place p pos) :
    Grows kind p pos buf (parse lim kind base p buf pos).part := by
  unfold parse
  by_cases hch : p.chunked = true
  · rw [if_pos hch]
    obtain ⟨h1, h2, h3, -, -⟩ := parseChunked_top base p buf pos 0
    refine ⟨by rw [h2]; exact Nat.le_refl _, fun hs => ⟨by rw [h3, hs], h1⟩, fun hs => ?_⟩
    rw [(hp.before hs).2.2] at hch; cases hch
  · rw [if_neg hch]
    by_cases hs : p.started = true
    · rw [if_neg (by simp [hs])]
      obtain ⟨h1, h2, h3, -⟩ := parseHeader_top lim kind base p buf pos 0
      exact ⟨h2, fun _ => ⟨by rw [h3, hs], h1⟩, fun h => by rw [hs] at h; cases h⟩
    · rw [if_pos (by simp [hs])]
      cases hf : parseFirstLine kind p (buf.drop pos) with
      | ok x =>
        obtain ⟨p', n⟩ := x
        simp only
        obtain ⟨-, -, c3, -, -, -, -, -, c9⟩ := firstLine_len _ _ _ _ _ hf
        obtain ⟨h1, h2, h3, -⟩ := parseHeader_top lim kind base { p' with headroom := n } buf pos n
        exact ⟨by rw [← c9]; exact h2, fun h => absurd h hs, fun _ _ => ⟨p', by rw [h1, hf]⟩⟩
      | incomplete => exact ⟨Nat.le_refl _, fun h => absurd h hs, fun _ h => absurd h hs⟩
      | soft => exact ⟨Nat.le_refl _, fun h => absurd h hs, fun _ h => absurd h hs⟩
      | hard => exact ⟨Nat.le_refl _, fun h => absurd h hs, fun _ h => absurd h hs⟩
      | bug => exact ⟨Nat.le_refl _, fun h => absurd h hs, fun _ h => absurd h hs⟩
      | fault => exact ⟨Nat.le_refl _, fun h => absurd h hs, fun _ h => absurd h hs⟩

theorem parse_place (lim : Limits) (kind : Kind) (base : Nat) (p : Part) (buf : Bytes) (pos : Nat) (hp : Place p pos) (hg : Good p)
    (hi : (parse lim kind base p buf pos).ret = .incomplete) :
    Place (parse lim kind base p buf pos).part (pos + (parse lim kind base p buf pos).parsed) := by
  unfold parse at hi ⊢
  by_cases hch : p.chunked = true
  · rw [if_pos hch] at hi ⊢
    obtain ⟨h1, h2, h3, h4, h5⟩ := parseChunked_top base p buf pos 0
    refine ⟨fun hs => ?_, fun _ _ h => by rw [h5] at h; cases h⟩
    rw [h3] at hs
    rw [(hp.before hs).2.2] at hch; cases hch
  · rw [if_neg hch] at hi ⊢
    by_cases hs : p.started = true
    · rw [if_neg (by simp [hs])] at hi ⊢
      obtain ⟨h1, h2, h3, h4⟩ := parseHeader_top lim kind base p buf pos 0
      refine ⟨fun h => (by rw [h3, hs] at h; cases h), fun _ hc _ => ?_⟩
      by_cases hpc : p.complete = true
      · have he : parseHeader lim kind base p buf pos 0 = { ret := .incomplete, part := p } := by unfold parseHeader; rw [if_pos hpc]
        rw [he] at hc
        have hc' : p.complete = false := hc
        rw [hpc] at hc'; cases hc'
      · have hpc' : p.complete = false := by simpa using hpc
        rw [h1, h4 (hp.inside hs hpc' (by simpa using hch)) hpc' hi hc]
    · rw [if_pos (by simp [hs])] at hi ⊢
      have hs' : p.started = false := by simpa using hs
      cases hf : parseFirstLine kind p (buf.drop pos) with
      | ok x =>
        obtain ⟨p', n⟩ := x
        rw [hf] at hi
        simp only at hi ⊢
        obtain ⟨-, -, c3, c4, -, -, -, -, c9⟩ := firstLine_len _ _ _ _ _ hf
        obtain ⟨h1, h2, h3, h4⟩ := parseHeader_top lim kind base { p' with headroom := n } buf pos n
        have hpc : p'.complete = false := by
          rw [c4]
          cases hc : p.complete with
          | false => rfl
          | true => exact absurd (hg.complete hc) hs
        refine ⟨fun h => ?_, fun _ hc _ => ?_⟩
        · rw [h3] at h
          have h' : p'.started = false := h
          rw [c3] at h'; cases h'
        · rw [h1]
          refine h4 ?_ hpc hi hc
          simp only
          have := hp.before hs'
          omega
      | incomplete => exact hp
      | soft => rw [hf] at hi; cases hi
      | hard => rw [hf] at hi; cases hi
      | bug => rw [hf] at hi; cases hi
      | fault => rw [hf] at hi; cases hi

/-- A part which has grown in several calls. -/
theorem run_grows (lim : Limits) (kind : Kind) (base : Nat) (buf : Bytes) : ∀ (n : Nat) (p : Part) (pos : Nat), Good p → Place p pos → pos ≤ buf.length →
    buf.length - pos ≤ n → Grows kind p pos buf (run lim kind base buf p pos).2.1 := by
  intro n
  induction n using Nat.strongRecOn with
  | _ n ih =>
  intro p pos hg hpl hp hn
  obtain ⟨a1, a2, a3⟩ := parse_len lim kind base p buf pos hp hg
  have hgr := parse_grows lim kind base p buf pos hpl
  rw [run_eq lim kind base buf p pos hg hp]
  by_cases hc : (parse lim kind base p buf pos).parsed ≠ 0 ∧ (parse lim kind base p buf pos).ret = .incomplete
  · rw [if_pos hc]
    have h1 := ih (buf.length - (pos + (parse lim kind base p buf pos).parsed)) (by omega) _ _ a3 (parse_place lim kind base p buf pos hpl hg hc.2) a1 (Nat.le_refl _)
    have h0 : p.started = false → (parse lim kind base p buf pos).part.started = false → False := by
      intro hs hq
      -- nothing is parsed before the first line is complete
      unfold parse at hc hq
      rw [if_neg (by simp [(hpl.before hs).2.2]), if_pos (by simp [hs])] at hc hq
      cases hf : parseFirstLine kind p (buf.drop pos) with
      | ok x =>
        obtain ⟨p', n⟩ := x
        rw [hf] at hq
        obtain ⟨-, -, c3, -⟩ := firstLine_len _ _ _ _ _ hf
        obtain ⟨-, -, h3, -⟩ := parseHeader_top lim kind base { p' with headroom := n } buf pos n
        simp only at hq
        rw [h3] at hq
        have hq' : p'.started = false := hq
        rw [c3] at hq'; cases hq'
      | incomplete => rw [hf] at hc; exact hc.1 rfl
      | soft => rw [hf] at hc; exact hc.1 rfl
      | hard => rw [hf] at hc; exact hc.1 rfl
      | bug => rw [hf] at hc; exact hc.1 rfl
      | fault => rw [hf] at hc; exact hc.1 rfl
    refine ⟨Nat.le_trans hgr.header h1.header, fun hs => ?_, fun hs hq => ?_⟩
    · obtain ⟨e1, e2⟩ := hgr.after hs
      obtain ⟨e3, e4⟩ := h1.after e1
      exact ⟨e3, by rw [e4, e2]⟩
    · cases hms : (parse lim kind base p buf pos).part.started with
      | false => exact (h0 hs hms).elim
      | true =>
        obtain ⟨-, e4⟩ := h1.after hms
        rw [e4]
        exact hgr.line hs hms
  · rw [if_neg hc]; exact hgr

/-- Limits which are not reached do not matter. -/
theorem parse_lim (lim big : Limits) (kind : Kind) (base : Nat) (p : Part) (buf : Bytes) (pos : Nat) (hpl : Place p pos) (hp : pos ≤ buf.length)
    (hb0 : buf.length ≤ big.headroom) (hb1 : buf.length ≤ big.header)
    (h0 : p.started = false → parseFirstLine kind p (buf.drop pos) = .incomplete → buf.length ≤ lim.headroom)
    (h1 : p.headerLength ≤ lim.header) : parse lim kind base p buf pos = parse big kind base p buf pos := by
  unfold parse
  by_cases hch : p.chunked = true
  · rw [if_pos hch, if_pos hch]
  · rw [if_neg hch, if_neg hch]
    by_cases hs : p.started = true
    · rw [if_neg (by simp [hs]), if_neg (by simp [hs])]
      unfold parseHeader
      by_cases hc : p.complete = true
      · rw [if_pos hc, if_pos hc]
      · rw [if_neg hc, if_neg hc]
        have := hpl.inside hs (by simpa using hc) (by simpa using hch)
        have ha : ¬ pos + 0 - p.headroom > lim.header := by omega
        have hb : ¬ pos + 0 - p.headroom > big.header := by omega
        rw [if_neg ha, if_neg hb]
    · have hns : (!p.started) = true := by simp [hs]
      rw [if_pos hns, if_pos hns]
      cases hf : parseFirstLine kind p (buf.drop pos) with
      | ok x =>
        obtain ⟨p', n⟩ := x
        simp only
        have hz := (hpl.before (by simpa using hs)).1
        unfold parseHeader
        simp only
        have ha : ¬ pos + n - n > lim.header := by omega
        have hb : ¬ pos + n - n > big.header := by omega
        rw [if_neg ha, if_neg hb]
      | incomplete =>
        have ha : ¬ buf.length > lim.headroom := by have := h0 (by simpa using hs) hf; omega
        have hb : ¬ buf.length > big.headroom := by omega
        simp only
        rw [if_neg ha, if_neg hb]
      | soft => rfl
      | hard => rfl
      | bug => rfl
      | fault => rfl

theorem firstLine_incomplete (kind : Kind) (p p' : Part) (l b : Bytes) (n : Nat) (h : parseFirstLine kind p l = .incomplete)
    (h' : parseFirstLine kind p (l ++ b) = .ok (p', n)) : l.length ≤ n := by
  cases hc : findCrlf l with
  | some q =>
    exfalso
    cases kind with
    | request => simp only [parseFirstLine, requestLine_app _ b _ hc] at h h'; rw [h] at h'; cases h'
    | response => simp only [parseFirstLine, responseLine_app _ b _ hc] at h h'; rw [h] at h'; cases h'
  | none =>
    have key : ∀ q, findCrlf (l ++ b) = some q → l.length ≤ q + 2 := by
      intro q hq
      apply Nat.le_of_not_lt
      intro hlt
      -- the line end would be within the first part
      have : ∀ (l : Bytes) (q : Nat), findCrlf (l ++ b) = some q → q + 2 ≤ l.length → findCrlf l = some q := by
        intro l
        induction l with
        | nil => intro q _ h; simp at h
        | cons c l ih =>
          intro q hq hl
          by_cases hc : c = 13 ∧ l.head? = some 10
          · obtain ⟨rfl, hh⟩ := hc
            cases l with
            | nil => simp at hh
            | cons d l =>
              simp only [List.head?_cons, Option.some.injEq] at hh
              subst hh
              simp [findCrlf] at hq ⊢
              exact hq
          · rw [findCrlf_cons _ _ hc]
            have hc' : ¬ (c = 13 ∧ (l ++ b).head? = some 10) := by
              cases l with
              | nil => simp at hl
              | cons d l => exact hc
            rw [List.cons_append, findCrlf_cons _ _ hc', Option.map_eq_some_iff] at hq
            obtain ⟨j, hj, rfl⟩ := hq
            rw [ih j hj (by simp only [List.length_cons] at hl; omega)]
            rfl
      rw [this l q hq (by omega)] at hc
      cases hc
    cases kind with
    | request =>
      obtain ⟨⟨m, u, v, k⟩, h1, h2⟩ := R.map_ok.1 h'
      simp only [Prod.mk.injEq] at h2
      obtain ⟨-, rfl⟩ := h2
      cases hq : findCrlf (l ++ b) with
      | none => simp [requestLine, hq] at h1
      | some q =>
        have := key q hq
        have hk : k = q + 2 := by
          cases q with
          | zero => simp [requestLine, hq] at h1
          | succ q =>
            rw [requestLine_eq _ _ hq] at h1
            cases hw : findWhsp (l ++ b) with
            | none => simp [hw] at h1
            | some i =>
              simp only [hw, Option.elim] at h1
              split at h1
              · cases h1
              · cases hw2 : findWhsp ((l ++ b).drop (i + countWhsp ((l ++ b).drop i))) with
                | none => simp [hw2] at h1
                | some j =>
                  simp only [hw2] at h1
                  unfold requestTail at h1
                  repeat' split at h1
                  all_goals first | cases h1; done | skip
                  simp only [R.ok.injEq, Prod.mk.injEq] at h1
                  omega
        omega
    | response =>
      obtain ⟨⟨v, c, k⟩, h1, h2⟩ := R.map_ok.1 h'
      simp only [Prod.mk.injEq] at h2
      obtain ⟨-, rfl⟩ := h2
      unfold responseLine at h1
      cases hq : findCrlf (l ++ b) with
      | none => simp [hq] at h1
      | some q =>
        have := key q hq
        cases q with
        | zero => simp [hq] at h1
        | succ q =>
          simp only [hq] at h1
          repeat' split at h1
          all_goals first | cases h1; done | skip
          simp only [R.ok.injEq, Prod.mk.injEq] at h1
          omega

/-- The loop with limits which are not reached. -/
theorem loop_lim (lim big : Limits) (kind : Kind) (base : Nat) (buf b : Bytes)
    (hl0 : (buf ++ b).length ≤ big.headroom) (hl1 : (buf ++ b).length ≤ big.header) (hl2 : (buf ++ b).length ≤ lengthMax) :
    ∀ (fuel : Nat) (p : Part) (pos : Nat), Good p → Place p pos → pos ≤ buf.length →
      WithinLimits lim (buf ++ b) (run big kind base (buf ++ b) p pos).2.1 →
      parseLoop lim kind base fuel p buf pos = parseLoop big kind base fuel p buf pos
  | 0, _, _, _, _, _, _ => rfl
  | fuel + 1, p, pos, hg, hpl, hp, hw => by
    have hlen : (buf ++ b).length = buf.length + b.length := List.length_append
    have hgr := run_grows big kind base (buf ++ b) _ p pos hg hpl (by omega) (Nat.le_refl _)
    have he : parse lim kind base p buf pos = parse big kind base p buf pos := by
      refine parse_lim lim big kind base p buf pos hpl hp (by omega) (by omega) (fun hs hf => ?_) (Nat.le_trans hgr.header hw.header)
      cases hst : (run big kind base (buf ++ b) p pos).2.1.started with
      | false => have := hw.noLine hst; omega
      | true =>
        obtain ⟨p', hp'⟩ := hgr.line hs hst
        rw [drop_app buf b pos hp] at hp'
        have h1 := firstLine_incomplete _ _ _ _ _ _ hf hp'
        have h2 := hw.line hst
        have h3 := (hpl.before hs).1
        rw [List.length_drop] at h1
        omega
    obtain ⟨a1, a2, a3⟩ := parse_len big kind base p buf pos hp hg
    rw [parseLoop, parseLoop, he]
    split
    · rename_i hc
      refine loop_lim lim big kind base buf b hl0 hl1 hl2 fuel _ _ a3 (parse_place big kind base p buf pos hpl hg hc.2) a1 ?_
      rw [← (run_step big kind base buf b p pos hg hp hl0 hl1 hl2).1 hc.2]
      exact hw
    · rfl

theorem run_place (lim : Limits) (kind : Kind) (base : Nat) (buf : Bytes) : ∀ (n : Nat) (p : Part) (pos : Nat), Good p → Place p pos → pos ≤ buf.length →
    buf.length - pos ≤ n → (run lim kind base buf p pos).1 = .incomplete → Place (run lim kind base buf p pos).2.1 (run lim kind base buf p pos).2.2.2 := by
  intro n
  induction n using Nat.strongRecOn with
  | _ n ih =>
  intro p pos hg hpl hp hn hi
  obtain ⟨a1, a2, a3⟩ := parse_len lim kind base p buf pos hp hg
  rw [run_eq lim kind base buf p pos hg hp] at hi ⊢
  by_cases hc : (parse lim kind base p buf pos).parsed ≠ 0 ∧ (parse lim kind base p buf pos).ret = .incomplete
  · rw [if_pos hc] at hi ⊢
    exact ih (buf.length - (pos + (parse lim kind base p buf pos).parsed)) (by omega) _ _ a3 (parse_place lim kind base p buf pos hpl hg hc.2) a1
      (Nat.le_refl _) hi
  · rw [if_neg hc] at hi ⊢
    simp only [outOf] at hi ⊢
    rw [if_pos hi]
    exact parse_place lim kind base p buf pos hpl hg hi

end Verif.Http
