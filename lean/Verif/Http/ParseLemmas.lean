import Verif.Http.LoopLemmas
/-!
# One call of the parse function when more data arrives
-/
namespace Verif.Http
open Verif Verif.HttpUtil

/-- Two results say the same, apart from where parsing started. -/
structure Same (pos : Nat) (r : Res) (pos' : Nat) (r' : Res) : Prop where
  ret : r.ret = r'.ret
  part : r.part = r'.part
  target : r.target = r'.target
  parsed : r.ret = .incomplete → pos + r.parsed = pos' + r'.parsed

theorem Same.rfl' (pos : Nat) (r : Res) : Same pos r pos r := ⟨rfl, rfl, rfl, fun _ => rfl⟩

theorem parseChunked_same (base : Nat) (p : Part) (buf : Bytes) (pos n pos' n' : Nat) (h : pos + n = pos' + n') :
    Same pos (parseChunked base p buf pos n) pos' (parseChunked base p buf pos' n') := by
  obtain ⟨a1, a2, a3, a4⟩ := parseChunked_shift base p buf pos n
  obtain ⟨b1, b2, b3, b4⟩ := parseChunked_shift base p buf pos' n'
  rw [← h] at b1 b2 b3 b4
  refine ⟨by rw [a1, b1], by rw [a2, b2], by rw [a3, b3], fun hi => ?_⟩
  rw [a4 (by rw [hi]; simp), b4 (by rw [b1, ← a1, hi]; simp)]
  omega

theorem parseChunked_chunked (base : Nat) (p : Part) (buf : Bytes) (pos n : Nat) :
    parseChunked base { p with chunked := true } buf pos n = parseChunked base p buf pos n := rfl

theorem afterHeader_same (kind : Kind) (base : Nat) (p : Part) (buf : Bytes) (pos n pos' n' : Nat) (h : pos + n = pos' + n') :
    Same pos (afterHeader kind base p buf pos n) pos' (afterHeader kind base p buf pos' n') := by
  unfold afterHeader
  split
  · split
    · exact ⟨rfl, rfl, rfl, fun _ => h⟩
    · simp only
      split
      · exact ⟨rfl, rfl, rfl, fun _ => h⟩
      · split
        · exact parseChunked_same _ _ _ _ _ _ _ h
        · split
          · exact ⟨rfl, rfl, rfl, fun _ => h⟩
          · exact ⟨rfl, rfl, rfl, fun _ => h⟩
  · exact ⟨rfl, rfl, rfl, by simp⟩

/-- The part after some header fields. -/
def Part.with (p : Part) (hs : List Field) (k : Nat) : Part := { p with headers := hs, headerLength := p.headerLength + k }

theorem parseHeader_eq (lim : Limits) (kind : Kind) (base : Nat) (p : Part) (buf : Bytes) (pos n : Nat) (hc : p.complete = false)
    (hl : pos + n ≤ lim.header) : parseHeader lim kind base p buf pos n =
      if (headerFields (buf.length + 1) p.headers 0 (buf.drop (pos + n))).1 = .ok then
        afterHeader kind base { p.with (headerFields (buf.length + 1) p.headers 0 (buf.drop (pos + n))).2.1
          (headerFields (buf.length + 1) p.headers 0 (buf.drop (pos + n))).2.2 with complete := true } buf pos
          (n + (headerFields (buf.length + 1) p.headers 0 (buf.drop (pos + n))).2.2)
      else { ret := (headerFields (buf.length + 1) p.headers 0 (buf.drop (pos + n))).1,
             part := p.with (headerFields (buf.length + 1) p.headers 0 (buf.drop (pos + n))).2.1
               (headerFields (buf.length + 1) p.headers 0 (buf.drop (pos + n))).2.2,
             parsed := n + (headerFields (buf.length + 1) p.headers 0 (buf.drop (pos + n))).2.2 } := by
  unfold parseHeader
  rw [if_neg (by simp [hc]), if_neg (by omega)]
  rfl

theorem afterHeader_len (kind : Kind) (base : Nat) (p : Part) (buf : Bytes) (pos n : Nat) (h : pos + n ≤ buf.length) (hn : 1 ≤ n) :
    pos + (afterHeader kind base p buf pos n).parsed ≤ buf.length ∧
    ((afterHeader kind base p buf pos n).ret = .incomplete → (afterHeader kind base p buf pos n).parsed ≠ 0) ∧
    (Good p → p.started = true → p.complete = true → p.unknownLength = false → p.chunked = false → Good (afterHeader kind base p buf pos n).part) := by
  rcases afterHeader_cases kind base p pos n with ⟨r, h1, h2, h3, h4, h5, h6, h7, h8⟩ | ⟨p', h1, h2, h3, h4, -⟩
  · rw [h1]
    refine ⟨?_, fun hi => ?_, fun _ hs hc _ hch => ⟨fun _ => by rw [h6, hs], fun _ => ⟨by rw [h7, hc], by rw [h5, hch]⟩⟩⟩
    · by_cases hb : r.ret = .bug
      · rw [h4 hb]; omega
      · rw [h3 hb]; omega
    · rw [h3 (by rw [hi]; simp)]; omega
  · rw [h1]
    obtain ⟨b1, b2, b3, b4, b5, b6, b7⟩ := parseChunked_len base p' buf pos n h
    refine ⟨b1, fun hi => ?_, fun _ hs hc hu _ => ⟨fun _ => by rw [b5, h2, hs], fun hx => ?_⟩⟩
    · have := b3 hi; omega
    · rw [b7, h4, hu] at hx; cases hx

theorem parseHeader_len (lim : Limits) (kind : Kind) (base : Nat) (p : Part) (buf : Bytes) (pos n : Nat) (h : pos + n ≤ buf.length)
    (hg : Good p) (hs : p.started = true) (hch : p.chunked = false) :
    pos + (parseHeader lim kind base p buf pos n).parsed ≤ buf.length ∧
    ((parseHeader lim kind base p buf pos n).ret = .incomplete → (parseHeader lim kind base p buf pos n).parsed = 0 →
      (parseHeader lim kind base p buf pos n).part = p ∧ n = 0) ∧
    Good (parseHeader lim kind base p buf pos n).part := by
  unfold parseHeader
  by_cases hc : p.complete = true
  · rw [if_pos hc]; exact ⟨h, fun _ h => ⟨rfl, h⟩, hg⟩
  · rw [if_neg hc]
    split
    · exact ⟨h, by simp, hg⟩
    · have h1 := headerFields_len (buf.length + 1) p.headers (buf.drop (pos + n))
      have h2 := headerFields_ok_pos (buf.length + 1) p.headers (buf.drop (pos + n))
      have h3 := headerFields_zero (buf.length + 1) p.headers (buf.drop (pos + n))
      rw [List.length_drop] at h1
      generalize headerFields (buf.length + 1) p.headers 0 (buf.drop (pos + n)) = x at *
      obtain ⟨r, hs', k⟩ := x
      simp only at h1 h2 h3 ⊢
      have hu : p.unknownLength = false := by
        cases hu : p.unknownLength with
        | false => rfl
        | true => exact absurd (hg.unknown hu).1 hc
      split
      · rename_i hr
        have := h2 hr
        obtain ⟨b1, b2, b3⟩ := afterHeader_len kind base { p with headers := hs', complete := true, headerLength := p.headerLength + k } buf pos (n + k)
          (by omega) (by omega)
        refine ⟨b1, fun hi h0 => absurd h0 (b2 hi), b3 ⟨fun _ => hs, fun hx => ?_⟩ hs rfl hu hch⟩
        have hx' : p.unknownLength = true := hx
        rw [hu] at hx'; cases hx'
      · refine ⟨by simp only; omega, fun _ hz => ?_, ⟨fun _ => hs, fun hx => ?_⟩⟩
        · simp only at hz
          have hk : k = 0 := by omega
          refine ⟨?_, by omega⟩
          rw [h3 hk, hk]
          rfl
        · have hx' : p.unknownLength = true := hx
          rw [hu] at hx'; cases hx'

theorem parse_len (lim : Limits) (kind : Kind) (base : Nat) (p : Part) (buf : Bytes) (pos : Nat) (h : pos ≤ buf.length) (hg : Good p) :
    pos + (parse lim kind base p buf pos).parsed ≤ buf.length ∧
    ((parse lim kind base p buf pos).ret = .incomplete → (parse lim kind base p buf pos).parsed = 0 → (parse lim kind base p buf pos).part = p) ∧
    Good (parse lim kind base p buf pos).part := by
  unfold parse
  by_cases hch : p.chunked = true
  · rw [if_pos hch]
    obtain ⟨b1, b2, b3, b4, b5, b6, b7⟩ := parseChunked_len base p buf pos 0 h
    refine ⟨b1, fun hi hz => ?_, ⟨fun hc => ?_, fun hu => ?_⟩⟩
    · rw [b2 hi hz]
      obtain ⟨⟩ := p
      simp only at hch
      rw [hch]
    · rw [b5]; exact hg.complete (by rw [← b6]; exact hc)
    · rw [b7] at hu
      have := (hg.unknown hu).2
      rw [hch] at this; cases this
  · rw [if_neg hch]
    have hch' : p.chunked = false := by simpa using hch
    by_cases hs : p.started = true
    · rw [if_neg (by simp [hs])]
      obtain ⟨b1, b2, b3⟩ := parseHeader_len lim kind base p buf pos 0 h hg hs hch'
      exact ⟨b1, fun hi hz => (b2 hi hz).1, b3⟩
    · rw [if_pos (by simp [hs])]
      cases hf : parseFirstLine kind p (buf.drop pos) with
      | ok x =>
        obtain ⟨p', n⟩ := x
        obtain ⟨c1, c2, c3, c4, c5, c6, c7, -⟩ := firstLine_len _ _ _ _ _ hf
        rw [List.length_drop] at c2
        simp only
        have hc : p.complete = false := by
          cases hc : p.complete with
          | false => rfl
          | true => exact absurd (hg.complete hc) hs
        obtain ⟨b1, b2, b3⟩ := parseHeader_len lim kind base { p' with headroom := n } buf pos n (by omega)
          ⟨fun _ => c3, fun hu => by
            have hu' : p.unknownLength = true := by rw [← c7]; exact hu
            rw [(hg.unknown hu').1] at hc; cases hc⟩ c3 (by rw [← hch']; exact c5)
        exact ⟨b1, fun hi hz => absurd (b2 hi hz).2 (by omega), b3⟩
      | incomplete => exact ⟨h, fun _ _ => rfl, hg⟩
      | soft => exact ⟨h, by simp, hg⟩
      | hard => exact ⟨h, by simp, hg⟩
      | bug => exact ⟨h, by simp, hg⟩
      | fault => exact ⟨h, by simp, hg⟩

/-- How the result with more data relates to the result without. -/
def Continues (lim : Limits) (kind : Kind) (base : Nat) (pos : Nat) (data : Bytes) (r r' : Res) : Prop :=
  r' = r ∨ (r.ret = .incomplete ∧ Same pos r' (pos + r.parsed) (parse lim kind base r.part data (pos + r.parsed)))

theorem parseHeader_app (lim : Limits) (kind : Kind) (base : Nat) (p : Part) (buf b : Bytes) (pos n : Nat) (h : pos + n ≤ buf.length)
    (hs : p.started = true) (hch : p.chunked = false) (hc : p.complete = false)
    (hl1 : (buf ++ b).length ≤ lim.header) (hl2 : (buf ++ b).length ≤ lengthMax) :
    Continues lim kind base pos (buf ++ b) (parseHeader lim kind base p buf pos n) (parseHeader lim kind base p (buf ++ b) pos n) := by
  have hlen : (buf ++ b).length = buf.length + b.length := List.length_append
  have hd := drop_app buf b (pos + n) h
  have happ := headerFields_app b (buf.length + 1) ((buf ++ b).length + 1) p.headers (buf.drop (pos + n))
    (by rw [List.length_drop]; omega) (by rw [List.length_append, List.length_drop]; omega) (by rw [List.length_append, List.length_drop]; omega)
  have hle := headerFields_len (buf.length + 1) p.headers (buf.drop (pos + n))
  rw [List.length_drop] at hle
  rw [parseHeader_eq lim kind base p buf pos n hc (by omega), parseHeader_eq lim kind base p (buf ++ b) pos n hc (by omega), hd, happ]
  generalize headerFields (buf.length + 1) p.headers 0 (buf.drop (pos + n)) = x at *
  by_cases hi : x.1 = .incomplete
  · right
    have hne : ¬ x.1 = .ok := by rw [hi]; simp
    rw [if_neg hne, if_pos hi]
    refine ⟨hi, ?_⟩
    simp only
    have hp : parse lim kind base (p.with x.2.1 x.2.2) (buf ++ b) (pos + (n + x.2.2)) =
        parseHeader lim kind base (p.with x.2.1 x.2.2) (buf ++ b) (pos + (n + x.2.2)) 0 := by
      unfold parse
      rw [if_neg (by simp [Part.with, hch]), if_neg (by simp [Part.with, hs])]
    rw [hp, parseHeader_eq lim kind base (p.with x.2.1 x.2.2) (buf ++ b) (pos + (n + x.2.2)) 0 hc (by omega)]
    rw [headerFields_pos _ _ x.2.2, Nat.add_zero]
    have hdd : (List.drop (pos + n) buf ++ b).drop x.2.2 = (buf ++ b).drop (pos + (n + x.2.2)) := by
      rw [← hd, List.drop_drop]; congr 1; omega
    rw [hdd]
    show Same pos _ _ (if (headerFields _ x.2.1 0 _).1 = _ then _ else _)
    have hhd : (p.with x.2.1 x.2.2).headers = x.2.1 := rfl
    rw [hhd]
    generalize headerFields ((buf ++ b).length + 1) x.2.1 0 ((buf ++ b).drop (pos + (n + x.2.2))) = y
    simp only
    have hpart : p.with y.2.1 (x.2.2 + y.2.2) = (p.with x.2.1 x.2.2).with y.2.1 y.2.2 := by
      simp only [Part.with, Nat.add_assoc]
    rw [hpart]
    by_cases hy : y.1 = .ok
    · rw [if_pos hy, if_pos hy]
      exact afterHeader_same _ _ _ _ _ _ _ _ (by omega)
    · rw [if_neg hy, if_neg hy]
      exact ⟨rfl, rfl, rfl, fun _ => by simp only; omega⟩
  · rw [if_neg hi]
    by_cases hy : x.1 = .ok
    · rw [if_pos hy, if_pos hy]
      rcases afterHeader_cases kind base { p.with x.2.1 x.2.2 with complete := true } pos (n + x.2.2) with ⟨r, h1, -⟩ | ⟨p', h1, h2, h3, h4, -⟩
      · left; rw [h1, h1]
      · rw [h1, h1]
        rcases parseChunked_app base p' buf b pos (n + x.2.2) with h5 | h5
        · right
          rw [h5]
          refine ⟨rfl, ?_⟩
          simp only
          have hp : parse lim kind base { p' with chunked := true } (buf ++ b) (pos + (n + x.2.2)) =
              parseChunked base { p' with chunked := true } (buf ++ b) (pos + (n + x.2.2)) 0 := by
            unfold parse
            rw [if_pos rfl]
          rw [hp, parseChunked_chunked]
          exact parseChunked_same _ _ _ _ _ _ _ (by omega)
        · left; exact h5
    · left; rw [if_neg hy, if_neg hy]

theorem parse_app (lim : Limits) (kind : Kind) (base : Nat) (p : Part) (buf b : Bytes) (pos : Nat) (h : pos ≤ buf.length) (hg : Good p)
    (hl0 : (buf ++ b).length ≤ lim.headroom) (hl1 : (buf ++ b).length ≤ lim.header) (hl2 : (buf ++ b).length ≤ lengthMax) :
    Continues lim kind base pos (buf ++ b) (parse lim kind base p buf pos) (parse lim kind base p (buf ++ b) pos) := by
  have hlen : (buf ++ b).length = buf.length + b.length := List.length_append
  by_cases hch : p.chunked = true
  · have he : ∀ d, parse lim kind base p d pos = parseChunked base p d pos 0 := fun d => by unfold parse; rw [if_pos hch]
    rw [he, he]
    rcases parseChunked_app base p buf b pos 0 with h5 | h5
    · right
      rw [h5]
      refine ⟨rfl, ?_⟩
      simp only [Nat.add_zero]
      have : parse lim kind base { p with chunked := true } (buf ++ b) pos = parseChunked base { p with chunked := true } (buf ++ b) pos 0 := by
        unfold parse; rw [if_pos rfl]
      rw [this]
      exact Same.rfl' _ _
    · exact .inl h5
  · have hch' : p.chunked = false := by simpa using hch
    by_cases hs : p.started = true
    · have he : ∀ d, parse lim kind base p d pos = parseHeader lim kind base p d pos 0 := fun d => by
        unfold parse; rw [if_neg hch, if_neg (by simp [hs])]
      rw [he, he]
      by_cases hc : p.complete = true
      · left
        unfold parseHeader
        rw [if_pos hc, if_pos hc]
      · exact parseHeader_app lim kind base p buf b pos 0 h hs hch' (by simpa using hc) hl1 hl2
    · have hc : p.complete = false := by
        cases hc : p.complete with
        | false => rfl
        | true => exact absurd (hg.complete hc) hs
      by_cases hi : parseFirstLine kind p (buf.drop pos) = .incomplete
      · right
        have he : parse lim kind base p buf pos = { ret := .incomplete, part := p } := by
          unfold parse
          rw [if_neg hch, if_pos (by simp [hs]), hi]
          simp only
          rw [if_neg (by omega)]
        rw [he]
        exact ⟨rfl, Same.rfl' _ _⟩
      · have hf := firstLine_app kind p _ b hi
        rw [← drop_app buf b pos h] at hf
        unfold parse
        have hns : (!p.started) = true := by simp [hs]
        rw [if_neg hch, if_neg hch, if_pos hns, if_pos hns, hf]
        cases hf' : parseFirstLine kind p (buf.drop pos) with
        | ok x =>
          obtain ⟨p', n⟩ := x
          obtain ⟨c1, c2, c3, c4, c5, c6, c7, -⟩ := firstLine_len _ _ _ _ _ hf'
          rw [List.length_drop] at c2
          exact parseHeader_app lim kind base { p' with headroom := n } buf b pos n (by omega) c3 (by rw [← hch']; exact c5) (by rw [← hc]; exact c4) hl1 hl2
        | incomplete => exact absurd hf' hi
        | soft => exact .inl rfl
        | hard => exact .inl rfl
        | bug => exact .inl rfl
        | fault => exact .inl rfl

end Verif.Http
