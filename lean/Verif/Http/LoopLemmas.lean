import Verif.Http.LineLemmas
/-!
# The parse function and its loop when more data arrives
-/
namespace Verif.Http
open Verif Verif.HttpUtil

/-- What a part looks like between two calls. -/
structure Good (p : Part) : Prop where
  complete : p.complete = true → p.started = true
  unknown : p.unknownLength = true → p.complete = true ∧ p.chunked = false

theorem good_empty : Good {} := ⟨by simp, by simp⟩

/-! ## Chunks -/

/-- The chunk header which is read next, given the length of the chunk before it. -/
def chunkGo (chunks : List Chunk) (buf : Bytes) (pos prev : Nat) : Ret × List Chunk × Nat :=
  match chunkHeader buf (pos + prev) with
  | .ok (c, n) => (if c.length = 0 then .ok else .incomplete, chunks ++ [c], n + prev)
  | .incomplete => (.incomplete, chunks, 0)
  | .bug => (.bug, chunks, 0)
  | .fault => (.fault, chunks, 0)
  | _ => (.hard, chunks, 0)

theorem parseChunk_eq (base : Nat) (chunks : List Chunk) (buf : Bytes) (pos : Nat) : parseChunk base chunks buf pos =
    match chunks.getLast? with
    | none => chunkGo chunks buf pos 0
    | some c =>
      if base + c.start + c.length ≥ 2 ^ 64 then (.fault, chunks, 0)
      else if c.start + c.length > buf.length then (.incomplete, chunks, 0)
      else chunkGo chunks buf pos c.length := rfl

theorem chunkGo_app (chunks : List Chunk) (buf b : Bytes) (pos prev : Nat) :
    chunkGo chunks buf pos prev = (.incomplete, chunks, 0) ∨ chunkGo chunks (buf ++ b) pos prev = chunkGo chunks buf pos prev := by
  unfold chunkGo
  by_cases h : chunkHeader buf (pos + prev) = .incomplete
  · rw [h]; exact .inl rfl
  · rw [chunkHeader_app _ b _ h]; exact .inr rfl

theorem parseChunk_app (base : Nat) (chunks : List Chunk) (buf b : Bytes) (pos : Nat) :
    parseChunk base chunks buf pos = (.incomplete, chunks, 0) ∨ parseChunk base chunks (buf ++ b) pos = parseChunk base chunks buf pos := by
  rw [parseChunk_eq, parseChunk_eq]
  cases chunks.getLast? with
  | none => exact chunkGo_app ..
  | some c =>
    simp only
    by_cases h1 : base + c.start + c.length ≥ 2 ^ 64
    · rw [if_pos h1, if_pos h1]; exact .inr rfl
    · rw [if_neg h1, if_neg h1]
      by_cases h2 : c.start + c.length > buf.length
      · rw [if_pos h2]; exact .inl rfl
      · rw [if_neg h2, if_neg (by rw [List.length_append]; omega)]
        exact chunkGo_app ..

theorem chunkGo_len (chunks : List Chunk) (buf : Bytes) (pos prev : Nat) (h : pos ≤ buf.length) :
    pos + (chunkGo chunks buf pos prev).2.2 ≤ buf.length ∧
      ((chunkGo chunks buf pos prev).1 = .incomplete → (chunkGo chunks buf pos prev).2.2 = 0 → (chunkGo chunks buf pos prev).2.1 = chunks) := by
  unfold chunkGo
  cases hc : chunkHeader buf (pos + prev) with
  | ok x =>
    obtain ⟨c, n⟩ := x
    have := chunkHeader_len _ _ _ _ hc
    simp only
    exact ⟨by omega, by omega⟩
  | _ => simpa using h

theorem parseChunk_len (base : Nat) (chunks : List Chunk) (buf : Bytes) (pos : Nat) (h : pos ≤ buf.length) :
    pos + (parseChunk base chunks buf pos).2.2 ≤ buf.length ∧
      ((parseChunk base chunks buf pos).1 = .incomplete → (parseChunk base chunks buf pos).2.2 = 0 →
        (parseChunk base chunks buf pos).2.1 = chunks) := by
  rw [parseChunk_eq]
  cases chunks.getLast? with
  | none => exact chunkGo_len _ _ _ _ h
  | some c =>
    simp only
    split
    · simpa using h
    · split
      · simpa using h
      · exact chunkGo_len _ _ _ _ h

/-- Count bytes which have been parsed before. -/
def Res.shift (n : Nat) (r : Res) : Res := { r with parsed := if r.ret = .bug then r.parsed else n + r.parsed }

theorem parseChunked_shift (base : Nat) (p : Part) (buf : Bytes) (pos n : Nat) :
    (parseChunked base p buf pos n).ret = (parseChunked base { p with chunked := true } buf (pos + n) 0).ret ∧
    (parseChunked base p buf pos n).part = (parseChunked base { p with chunked := true } buf (pos + n) 0).part ∧
    (parseChunked base p buf pos n).target = (parseChunked base { p with chunked := true } buf (pos + n) 0).target ∧
    ((parseChunked base p buf pos n).ret ≠ .bug → (parseChunked base p buf pos n).parsed = n + (parseChunked base { p with chunked := true } buf (pos + n) 0).parsed) := by
  unfold parseChunked
  simp only [Nat.add_zero]
  generalize parseChunk base p.chunks buf (pos + n) = x
  obtain ⟨r, cs, k⟩ := x
  cases r <;> simp only [Nat.zero_add, and_self, implies_true, ne_eq, true_and]
  cases cs.getLast? with
  | none => simp
  | some c =>
    simp only
    split <;> simp

theorem parseChunked_app (base : Nat) (p : Part) (buf b : Bytes) (pos n : Nat) :
    parseChunked base p buf pos n = { ret := .incomplete, part := { p with chunked := true }, parsed := n } ∨
      parseChunked base p (buf ++ b) pos n = parseChunked base p buf pos n := by
  unfold parseChunked
  simp only
  rcases parseChunk_app base p.chunks buf b (pos + n) with h | h
  · rw [h]; exact .inl rfl
  · rw [h]; exact .inr rfl

theorem parseChunked_len (base : Nat) (p : Part) (buf : Bytes) (pos n : Nat) (h : pos + n ≤ buf.length) :
    pos + (parseChunked base p buf pos n).parsed ≤ buf.length ∧
    ((parseChunked base p buf pos n).ret = .incomplete → (parseChunked base p buf pos n).parsed = 0 →
      (parseChunked base p buf pos n).part = { p with chunked := true }) ∧
    ((parseChunked base p buf pos n).ret = .incomplete → n ≤ (parseChunked base p buf pos n).parsed) ∧
    (parseChunked base p buf pos n).part.chunked = true ∧ (parseChunked base p buf pos n).part.started = p.started ∧
    (parseChunked base p buf pos n).part.complete = p.complete ∧ (parseChunked base p buf pos n).part.unknownLength = p.unknownLength := by
  unfold parseChunked
  simp only
  obtain ⟨h1, h2⟩ := parseChunk_len base p.chunks buf (pos + n) h
  generalize parseChunk base p.chunks buf (pos + n) = x at *
  obtain ⟨r, cs, k⟩ := x
  simp only at h1 h2
  cases r with
  | ok =>
    simp only
    cases cs.getLast? with
    | none => refine ⟨by (try simp only); omega, (fun h => by cases h), (fun h => by cases h), rfl, rfl, rfl, rfl⟩
    | some c =>
      simp only
      split <;> refine ⟨by (try simp only); omega, (fun h => by cases h), (fun h => by cases h), rfl, rfl, rfl, rfl⟩
  | incomplete =>
    simp only [and_self, and_true, forall_const]
    refine ⟨by omega, fun hz => ?_, by omega⟩
    rw [h2 rfl (by omega)]
  | soft => refine ⟨by (try simp only); omega, (fun h => by cases h), (fun h => by cases h), rfl, rfl, rfl, rfl⟩
  | hard => refine ⟨by (try simp only); omega, (fun h => by cases h), (fun h => by cases h), rfl, rfl, rfl, rfl⟩
  | bug => refine ⟨by (try simp only); omega, (fun h => by cases h), (fun h => by cases h), rfl, rfl, rfl, rfl⟩
  | fault => refine ⟨by (try simp only); omega, (fun h => by cases h), (fun h => by cases h), rfl, rfl, rfl, rfl⟩

/-! ## After the header -/

/-- Either the data does not matter or the message is chunked. -/
theorem afterHeader_cases (kind : Kind) (base : Nat) (p : Part) (pos n : Nat) :
    (∃ r : Res, (∀ buf, afterHeader kind base p buf pos n = r) ∧ (r.ret ≠ .incomplete ∨ r.part.unknownLength = true) ∧
      (r.ret ≠ .bug → r.parsed = n) ∧ (r.ret = .bug → r.parsed = 0) ∧
      r.part.chunked = p.chunked ∧ r.part.started = p.started ∧ r.part.complete = p.complete ∧
      (r.ret = .incomplete ∨ r.part.unknownLength = p.unknownLength)) ∨
    (∃ p' : Part, (∀ buf, afterHeader kind base p buf pos n = parseChunked base p' buf pos n) ∧ p'.started = p.started ∧ p'.complete = p.complete ∧
      p'.unknownLength = p.unknownLength ∧ p'.chunks = p.chunks ∧ p'.headroom = p.headroom ∧ p'.headerLength = p.headerLength ∧
      p'.headers = p.headers) := by
  unfold afterHeader
  split
  · split
    · exact .inl ⟨_, fun _ => rfl, .inl (by simp), by simp, by simp, rfl, rfl, rfl, .inr rfl⟩
    · rename_i p1 hp1
      have hp : p1.started = p.started ∧ p1.complete = p.complete ∧ p1.chunked = p.chunked ∧ p1.unknownLength = p.unknownLength ∧
          p1.chunks = p.chunks ∧ p1.headroom = p.headroom ∧ p1.headerLength = p.headerLength ∧ p1.headers = p.headers := by
        cases kind with
        | response =>
          simp only [Option.some.injEq] at hp1
          subst hp1
          simp
        | request =>
          simp only [Option.map_eq_some_iff] at hp1
          obtain ⟨m, -, rfl⟩ := hp1
          simp
      obtain ⟨a1, a2, a3, a4, a5, a6, a7, a8⟩ := hp
      simp only
      split
      · exact .inl ⟨_, fun _ => rfl, .inl (by simp), by simp, by simp, a3, a1, a2, .inr a4⟩
      · split
        · exact .inr ⟨_, fun _ => rfl, a1, a2, a4, a5, a6, a7, a8⟩
        · split
          · exact .inl ⟨_, fun _ => rfl, .inl (by simp), by simp, by simp, a3, a1, a2, .inr a4⟩
          · exact .inl ⟨_, fun _ => rfl, .inr rfl, by simp, by simp, a3, a1, a2, .inl rfl⟩
  · exact .inl ⟨_, fun _ => rfl, .inl (by simp), by simp, by simp, rfl, rfl, rfl, .inr rfl⟩

theorem headerFields_ok_pos : ∀ (fuel : Nat) (acc : List Field) (l : Bytes), (headerFields fuel acc 0 l).1 = .ok → 2 ≤ (headerFields fuel acc 0 l).2.2
  | 0, _, _, h => by simp [headerFields] at h
  | fuel + 1, acc, l, h => by
    rw [headerFields] at h ⊢
    split at h
    · simp at h
    · simp
    · rename_i p hp hc
      split at h
      · rename_i fs n hf
        simp only at h ⊢
        rw [headerFields_pos] at h ⊢
        have := headerFields_ok_pos fuel _ _ h
        simp only at this ⊢
        omega
      all_goals simp at h

theorem headerFields_zero : ∀ (fuel : Nat) (acc : List Field) (l : Bytes), (headerFields fuel acc 0 l).2.2 = 0 → (headerFields fuel acc 0 l).2.1 = acc
  | 0, _, _, h => by simp [headerFields]
  | fuel + 1, acc, l, h => by
    rw [headerFields] at h ⊢
    split at h
    · rfl
    · simp at h
    · rename_i p hp hc
      split at h
      · rename_i fs n hf
        have := fieldParse_len _ _ _ hf
        simp only at h
        rw [headerFields_pos] at h
        simp only at h
        split at h <;> omega
      all_goals rfl

end Verif.Http
