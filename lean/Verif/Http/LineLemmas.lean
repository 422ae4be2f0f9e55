import Verif.Http.HeaderLemmas
import Verif.HttpUtil.Props
/-!
# Results for the first line and for chunk headers do not change when more data arrives
-/
namespace Verif.Http
open Verif Verif.HttpUtil

theorem findWhsp_cons (c d : UInt8) (l : Bytes) :
    findWhsp (c :: d :: l) = if c = 32 ∨ c = 9 then some 0 else (findWhsp (d :: l)).map (· + 1) := rfl

theorem findWhsp_lt : ∀ (l : Bytes) (k : Nat), findWhsp l = some k → k + 1 < l.length
  | [], _, h => by simp [findWhsp] at h
  | [_], _, h => by simp [findWhsp] at h
  | c :: d :: l, k, h => by
    rw [findWhsp] at h
    · split at h
      · cases h; simp
      · rw [Option.map_eq_some_iff] at h
        obtain ⟨j, hj, rfl⟩ := h
        have := findWhsp_lt (d :: l) j hj
        simp only [List.length_cons] at *
        omega
    · simp

theorem findWhsp_app : ∀ (l m : Bytes) (k : Nat), findWhsp l = some k → findWhsp (l ++ m) = some k
  | [], _, _, h => by simp [findWhsp] at h
  | [_], _, _, h => by simp [findWhsp] at h
  | c :: d :: l, m, k, h => by
    rw [findWhsp_cons] at h
    show findWhsp (c :: (d :: (l ++ m))) = _
    rw [findWhsp_cons]
    split at h
    · rename_i hc; rw [if_pos hc]; exact h
    · rename_i hc
      rw [if_neg hc]
      rw [Option.map_eq_some_iff] at h
      obtain ⟨j, hj, rfl⟩ := h
      rw [show d :: (l ++ m) = (d :: l) ++ m from rfl, findWhsp_app (d :: l) m j hj]
      rfl

/-- What is found among the first characters was there before. -/
theorem findWhsp_app_back : ∀ (l m : Bytes) (k : Nat), findWhsp (l ++ m) = some k → k + 1 < l.length → findWhsp l = some k
  | [], _, _, _, h => by simp at h
  | [_], _, _, _, h => by simp at h
  | c :: d :: l, m, k, h, hk => by
    rw [show (c :: d :: l) ++ m = c :: (d :: (l ++ m)) from rfl, findWhsp_cons] at h
    rw [findWhsp_cons]
    split at h
    · rename_i hc; rw [if_pos hc]; exact h
    · rename_i hc
      rw [if_neg hc]
      rw [Option.map_eq_some_iff] at h
      obtain ⟨j, hj, rfl⟩ := h
      rw [findWhsp_app_back (d :: l) m j hj (by simp only [List.length_cons] at *; omega)]
      rfl

/-- The part of the request line after the position of the URI. -/
def requestTail (l : Bytes) (p m s u : Nat) : R (Bytes × Bytes × Version × Nat) :=
  if p < s + u + countWhsp (l.drop (s + u)) then .soft
  else match versionAt ((l.take p).drop (s + u + countWhsp (l.drop (s + u)))) with
    | none => .soft
    | some (v, n) =>
      if s + u + countWhsp (l.drop (s + u)) + n ≠ p then .soft else .ok (l.take m, (l.drop s).take u, v, p + 2)

theorem requestLine_eq (l : Bytes) (p : Nat) (hc : findCrlf l = some (p + 1)) : requestLine l =
    (findWhsp l).elim .soft fun m => if m > 10 ∨ m = 0 then .soft else
      (findWhsp (l.drop (m + countWhsp (l.drop m)))).elim .soft fun u => requestTail l (p + 1) m (m + countWhsp (l.drop m)) u := by
  unfold requestLine
  rw [hc]
  simp only
  cases findWhsp l with
  | none => rfl
  | some m =>
    simp only [Option.elim]
    split
    · rfl
    · cases findWhsp (l.drop (m + countWhsp (l.drop m))) with
      | none => rfl
      | some u => rfl

theorem requestTail_far (l : Bytes) (p m s u : Nat) (h : p < s + u) : requestTail l p m s u = .soft := by
  unfold requestTail
  rw [if_pos (by omega)]

theorem requestTail_app (l b : Bytes) (p m s u : Nat) (hc : findCrlf l = some p) (hu : s + u ≤ p) (hm : m ≤ s) :
    requestTail (l ++ b) p m s u = requestTail l p m s u := by
  have hp := findCrlf_len _ _ hc
  have h1 : countWhsp (l.drop (s + u)) ≤ p - (s + u) := countWhsp_crlf _ _ (findCrlf_drop _ _ _ hc hu)
  unfold requestTail
  rw [drop_app l b (s + u) (by omega), countWhsp_app _ b (by rw [List.length_drop]; omega), take_app l b p (by omega), take_app l b m (by omega),
    drop_app l b s (by omega), take_app _ b u (by rw [List.length_drop]; omega)]

theorem requestLine_app (l b : Bytes) (p : Nat) (hc : findCrlf l = some p) : requestLine (l ++ b) = requestLine l := by
  have hp := findCrlf_len _ _ hc
  cases p with
  | zero => unfold requestLine; rw [hc, findCrlf_app _ b _ hc]; rfl
  | succ p =>
    have hsoft : ∀ (l : Bytes), findCrlf l = some (p + 1) → (∀ k, findWhsp l = some k → p + 1 < k) → requestLine l = .soft := by
      intro l hc h
      rw [requestLine_eq _ _ hc]
      cases hw : findWhsp l with
      | none => rfl
      | some m =>
        have := h m hw
        simp only [Option.elim]
        split
        · rfl
        · cases findWhsp (l.drop (m + countWhsp (l.drop m))) with
          | none => rfl
          | some u => exact requestTail_far _ _ _ _ _ (by omega)
    have hc' := findCrlf_app _ b _ hc
    by_cases hw : ∃ k, findWhsp l = some k ∧ k ≤ p + 1
    · obtain ⟨m, hm, hmp⟩ := hw
      have hcw := countWhsp_crlf _ _ (findCrlf_drop _ _ m hc hmp)
      rw [requestLine_eq _ _ hc, requestLine_eq _ _ hc', hm, findWhsp_app _ b _ hm]
      simp only [Option.elim]
      split
      · rfl
      · rw [drop_app l b m (by omega), countWhsp_app _ b (by rw [List.length_drop]; omega)]
        have hs : m + countWhsp (l.drop m) ≤ p + 1 := by omega
        have hms : m ≤ m + countWhsp (l.drop m) := by omega
        generalize m + countWhsp (l.drop m) = s at hs hms
        rw [drop_app l b s (by omega)]
        have hlen : (l.drop s).length = l.length - s := List.length_drop
        by_cases hu : ∃ u, findWhsp (l.drop s) = some u ∧ s + u ≤ p + 1
        · obtain ⟨u, hu, hup⟩ := hu
          rw [hu, findWhsp_app _ b _ hu]
          exact requestTail_app _ _ _ _ _ _ hc hup hms
        · have h1 : ∀ x : Bytes, (∀ u, findWhsp (l.drop s ++ x) = some u → p + 1 < s + u) := by
            intro x u h
            by_cases hux : u + 1 < (l.drop s).length
            · have := findWhsp_app_back _ _ _ h hux
              refine Nat.lt_of_not_le fun hn => hu ⟨u, this, hn⟩
            · omega
          have h2 : ∀ (o : Option Nat) (y : Bytes), (∀ u, o = some u → p + 1 < s + u) →
              o.elim R.soft (fun u => requestTail y (p + 1) m s u) = R.soft := by
            intro o y h
            cases o with
            | none => rfl
            | some u => exact requestTail_far _ _ _ _ _ (h u rfl)
          have e1 := h2 _ (l ++ b) (h1 b)
          have e2 := h2 (findWhsp (l.drop s)) l (by have := h1 []; simpa using this)
          simp only [Option.elim] at e1 e2
          rw [e1, e2]
    · rw [hsoft l hc (fun k hk => Nat.lt_of_not_le fun hn => hw ⟨k, hk, hn⟩)]
      refine hsoft _ hc' fun k hk => ?_
      by_cases hkl : k + 1 < l.length
      · have := findWhsp_app_back _ _ _ hk hkl
        exact Nat.lt_of_not_le fun hn => hw ⟨k, this, hn⟩
      · omega

theorem strcasestr_len (l n : Bytes) (hn : n ≠ []) (a b : Nat) (h : strcasestr l n = .ok (a, b)) : a + b ≤ l.length := by
  rcases strcasestr_good l n hn with ⟨-, h'⟩ | ⟨r, hg, h'⟩
  · rw [h] at h'; cases h'
  · rw [h] at h'
    cases hr : r.1 with
    | none => rw [hr] at h'; cases h'
    | some p =>
      rw [hr] at h'
      simp only [Out.ok.injEq, Prod.mk.injEq] at h'
      obtain ⟨rfl, rfl⟩ := h'
      exact (hg.sound _ hr).2.2.2.2.1

theorem versionAt_len (l : Bytes) (v : Version) (n : Nat) (h : versionAt l = some (v, n)) : n ≤ l.length := by
  unfold versionAt at h
  split at h
  · rename_i k hk
    have := strcasestr_len _ _ (by decide) _ _ hk
    simp only [Option.some.injEq, Prod.mk.injEq] at h
    omega
  · split at h
    · rename_i k hk
      have := strcasestr_len _ _ (by decide) _ _ hk
      simp only [Option.some.injEq, Prod.mk.injEq] at h
      omega
    · cases h

theorem strtoullRaw_len (base : Nat) (l : Bytes) (v n : Nat) (h : strtoullRaw base l = some (v, n)) : 1 ≤ n ∧ n ≤ l.length := by
  have := takeWhile_len (isDigit base) l
  unfold strtoullRaw at h
  simp only at h
  split at h
  · cases h
  · split at h
    · cases h
    · simp only [Option.some.injEq, Prod.mk.injEq] at h
      omega

theorem responseLine_app (l b : Bytes) (p : Nat) (hc : findCrlf l = some p) : responseLine (l ++ b) = responseLine l := by
  have hp := findCrlf_len _ _ hc
  unfold responseLine
  rw [hc, findCrlf_app _ b _ hc]
  cases p with
  | zero => rfl
  | succ p =>
    simp only
    split
    · rfl
    · rw [take_app l b (p + 1) (by omega)]
      cases hv : versionAt (l.take (p + 1)) with
      | none => rfl
      | some x =>
        obtain ⟨v, n⟩ := x
        have hn := versionAt_len _ _ _ hv
        rw [List.length_take] at hn
        have hcw := countWhsp_crlf _ _ (findCrlf_drop _ _ n hc (by omega))
        simp only
        rw [drop_app l b n (by omega), countWhsp_app _ b (by rw [List.length_drop]; omega)]
        cases hk : strtoullRaw 10 ((l.take (p + 1)).drop (n + countWhsp (l.drop n))) with
        | none => rfl
        | some y =>
          obtain ⟨c, k⟩ := y
          have hk' := strtoullRaw_len _ _ _ _ hk
          rw [List.length_drop, List.length_take] at hk'
          have hs : n + countWhsp (l.drop n) + k ≤ p + 1 := by omega
          have hcw2 := countWhsp_crlf _ _ (findCrlf_drop _ _ _ hc hs)
          simp only
          rw [drop_app l b _ (by omega), countWhsp_app _ b (by rw [List.length_drop]; omega)]

/-- The length of a first line. -/
theorem requestLine_len (l m u : Bytes) (v : Version) (n : Nat) (h : requestLine l = .ok (m, u, v, n)) : 2 ≤ n ∧ n ≤ l.length := by
  cases hc : findCrlf l with
  | none => unfold requestLine at h; simp [hc] at h
  | some p =>
    have hp := findCrlf_len _ _ hc
    cases p with
    | zero => unfold requestLine at h; simp [hc] at h
    | succ p =>
      rw [requestLine_eq _ _ hc] at h
      cases hw : findWhsp l with
      | none => simp [hw] at h
      | some k =>
        simp only [hw, Option.elim] at h
        split at h
        · cases h
        · cases hw2 : findWhsp (l.drop (k + countWhsp (l.drop k))) with
          | none => simp [hw2] at h
          | some j =>
            simp only [hw2] at h
            unfold requestTail at h
            split at h
            · cases h
            · split at h
              · cases h
              · split at h
                · cases h
                · simp only [R.ok.injEq, Prod.mk.injEq] at h
                  omega

theorem responseLine_len (l : Bytes) (v : Version) (c n : Nat) (h : responseLine l = .ok (v, c, n)) : 2 ≤ n ∧ n ≤ l.length := by
  unfold responseLine at h
  cases hc : findCrlf l with
  | none => simp [hc] at h
  | some p =>
    have hp := findCrlf_len _ _ hc
    cases p with
    | zero => simp [hc] at h
    | succ p =>
      simp only [hc] at h
      split at h
      · cases h
      · split at h
        · cases h
        · split at h
          · cases h
          · split at h
            · cases h
            · split at h
              · cases h
              · simp only [R.ok.injEq, Prod.mk.injEq] at h
                omega

theorem requestLine_ret (l : Bytes) : requestLine l ≠ .fault ∧ requestLine l ≠ .hard ∧ requestLine l ≠ .bug := by
  cases hc : findCrlf l with
  | none => simp [requestLine, hc]
  | some p =>
    cases p with
    | zero => simp [requestLine, hc]
    | succ p =>
      rw [requestLine_eq _ _ hc]
      cases findWhsp l with
      | none => simp
      | some m =>
        simp only [Option.elim]
        split
        · simp
        · cases findWhsp (l.drop (m + countWhsp (l.drop m))) with
          | none => simp
          | some u =>
            simp only
            unfold requestTail
            repeat' split
            all_goals simp

theorem responseLine_ret (l : Bytes) : responseLine l ≠ .fault ∧ responseLine l ≠ .hard := by
  unfold responseLine
  simp only
  split
  · simp
  · simp
  · split
    · simp
    · split
      · simp
      · split
        · simp
        · repeat' split
          all_goals simp

/-- Without the end of the line more data is needed. -/
theorem firstLine_app (kind : Kind) (p : Part) (l b : Bytes) (h : parseFirstLine kind p l ≠ .incomplete) :
    parseFirstLine kind p (l ++ b) = parseFirstLine kind p l := by
  cases hc : findCrlf l with
  | none =>
    cases kind with
    | request => simp [parseFirstLine, requestLine, hc, R.map, R.bind] at h
    | response => simp [parseFirstLine, responseLine, hc, R.map, R.bind] at h
  | some q =>
    cases kind with
    | request => simp only [parseFirstLine, requestLine_app _ b _ hc]
    | response => simp only [parseFirstLine, responseLine_app _ b _ hc]

theorem firstLine_len (kind : Kind) (p p' : Part) (l : Bytes) (n : Nat) (h : parseFirstLine kind p l = .ok (p', n)) :
    2 ≤ n ∧ n ≤ l.length ∧ p'.started = true ∧ p'.complete = p.complete ∧ p'.chunked = p.chunked ∧ p'.chunks = p.chunks ∧
      p'.unknownLength = p.unknownLength ∧ p'.headers = p.headers ∧ p'.headerLength = p.headerLength := by
  cases kind with
  | request =>
    obtain ⟨⟨m, u, v, k⟩, h1, h2⟩ := R.map_ok.1 h
    have := requestLine_len _ _ _ _ _ h1
    simp only [Prod.mk.injEq] at h2
    obtain ⟨rfl, rfl⟩ := h2
    exact ⟨this.1, this.2, rfl, rfl, rfl, rfl, rfl, rfl, rfl⟩
  | response =>
    obtain ⟨⟨v, c, k⟩, h1, h2⟩ := R.map_ok.1 h
    have := responseLine_len _ _ _ _ h1
    simp only [Prod.mk.injEq] at h2
    obtain ⟨rfl, rfl⟩ := h2
    exact ⟨this.1, this.2, rfl, rfl, rfl, rfl, rfl, rfl, rfl⟩

/-! ## Chunk headers -/

theorem findCrlf_zero (l b : Bytes) (h : 2 ≤ l.length) : findCrlf (l ++ b) = some 0 ↔ findCrlf l = some 0 := by
  match l, h with
  | x :: y :: r, _ =>
    have hcons : ∀ r : Bytes, findCrlf (x :: y :: r) = some 0 ↔ x = 13 ∧ y = 10 := by
      intro r
      by_cases hc : x = 13 ∧ y = 10
      · obtain ⟨rfl, rfl⟩ := hc; simp [findCrlf]
      · rw [findCrlf_cons _ _ (by simpa using hc)]
        simp [hc]
    show findCrlf (x :: y :: (r ++ b)) = _ ↔ _
    rw [hcons, hcons]

theorem chunkHeader_app (buf b : Bytes) (pos : Nat) (h : chunkHeader buf pos ≠ .incomplete) : chunkHeader (buf ++ b) pos = chunkHeader buf pos := by
  unfold chunkHeader at *
  by_cases hpos : pos ≥ buf.length
  · rw [if_pos hpos] at h; exact absurd rfl h
  rw [if_neg hpos] at h
  rw [if_neg hpos, if_neg (by rw [List.length_append]; omega), drop_app buf b pos (by omega)]
  simp only at h ⊢
  have hl : (buf.drop pos).length = buf.length - pos := List.length_drop
  generalize buf.drop pos = l at *
  have hk : findCrlf l = some 0 → 2 ≤ l.length := fun h => findCrlf_len _ _ h
  have h2 : 2 ≤ l.length := by
    cases hc : findCrlf l with
    | some q => have := findCrlf_len _ _ hc; omega
    | none => simp [hc] at h
  simp only [findCrlf_zero l b h2]
  have hkk : (if findCrlf l = some 0 then 2 else 0) ≤ l.length := by split <;> omega
  generalize (if findCrlf l = some 0 then 2 else 0) = k at *
  rw [drop_app l b k hkk]
  cases he : findCrlf (l.drop k) with
  | none => simp [he] at h
  | some e =>
    have hel := findCrlf_len _ _ he
    rw [List.length_drop] at hel
    rw [findCrlf_app _ b _ he]
    simp only [he] at h ⊢
    rw [take_app _ b e (by rw [List.length_drop]; omega)]
    cases hs : strtoullRaw 16 ((l.drop k).take e) with
    | none => rfl
    | some x =>
      obtain ⟨v, n⟩ := x
      have hn := strtoullRaw_len _ _ _ _ hs
      rw [List.length_take, List.length_drop] at hn
      simp only [hs] at h ⊢
      have ha : ¬ k + n = l.length := by omega
      have hb : ¬ k + n = l.length + b.length := by omega
      rw [List.length_append, if_neg ha, if_neg hb]
      by_cases hen : e ≠ n
      · rw [if_pos hen, if_pos hen]
      · rw [if_neg hen, if_neg hen]
        rw [if_neg ha, if_neg hen] at h
        by_cases hx : k + n + 2 + 1 ≥ l.length
        · rw [if_pos hx] at h; exact absurd rfl h
        · rw [if_neg hx, if_neg (by omega)]

theorem chunkHeader_len (buf : Bytes) (pos : Nat) (c : Chunk) (n : Nat) (h : chunkHeader buf pos = .ok (c, n)) :
    3 ≤ n ∧ pos + n + 1 < buf.length ∧ c.start = pos + n := by
  unfold chunkHeader at h
  by_cases hpos : pos ≥ buf.length
  · rw [if_pos hpos] at h; cases h
  rw [if_neg hpos] at h
  simp only at h
  have hl : (buf.drop pos).length = buf.length - pos := List.length_drop
  generalize buf.drop pos = l at *
  generalize (if findCrlf l = some 0 then 2 else 0) = k at *
  cases he : findCrlf (l.drop k) with
  | none => simp [he] at h
  | some e =>
    simp only [he] at h
    cases hs : strtoullRaw 16 ((l.drop k).take e) with
    | none => simp [hs] at h
    | some x =>
      obtain ⟨v, j⟩ := x
      have hn := strtoullRaw_len _ _ _ _ hs
      simp only [hs] at h
      split at h
      · cases h
      · split at h
        · cases h
        · split at h
          · cases h
          · simp only [R.ok.injEq, Prod.mk.injEq] at h
            obtain ⟨rfl, rfl⟩ := h
            simp only
            omega

theorem chunkHeader_ret (buf : Bytes) (pos : Nat) : chunkHeader buf pos ≠ .fault ∧ chunkHeader buf pos ≠ .bug ∧ chunkHeader buf pos ≠ .hard := by
  unfold chunkHeader
  simp only
  repeat' split
  all_goals simp

end Verif.Http
