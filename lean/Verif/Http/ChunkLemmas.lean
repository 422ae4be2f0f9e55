import Verif.Http.MessageLemmas
/-!
# Chunks are read exactly
-/
namespace Verif.Http
open Verif Verif.HttpUtil Verif.HttpUtil.Spec

theorem hexDigit_value (c : UInt8) (h : (hexDigit? c).isSome) : isDigit 16 c = true ∧ digitValue c = (hexDigit? c).getD 0 := by
  unfold hexDigit? at *
  unfold isDigit digitValue
  rw [if_neg (by decide)]
  split at h
  · rename_i h1; simp [h1]
  · rename_i h1
    split at h
    · rename_i h2
      have h2' := h2
      simp only [UInt8.le_iff_toNat_le, UInt8.reduceToNat] at h2'
      rw [if_neg h1, if_pos h2]
      have : ¬ ((decide (48 ≤ c) && decide (c ≤ 57)) = true) := by simpa using h1
      rw [if_neg this]
      simp [h2]
      omega
    · rename_i h2
      split at h
      · rename_i h3
        have h3' := h3
        simp only [UInt8.le_iff_toNat_le, UInt8.reduceToNat] at h3'
        rw [if_neg h1, if_neg h2, if_pos h3]
        have : ¬ ((decide (48 ≤ c) && decide (c ≤ 57)) = true) := by simpa using h1
        have h4 : ¬ ((decide (97 ≤ c) && decide (c ≤ 102)) = true) := by simpa using h2
        rw [if_neg this, if_neg h4]
        simp [h3]
        omega
      · simp at h

theorem strtoullRaw_hex (size : Bytes) (n : Nat) (h : Digits size n) (hn : n < 2 ^ 64) : strtoullRaw 16 size = some (n, size.length) := by
  have hall : ∀ c ∈ size, isDigit 16 c = true := fun c hc => (hexDigit_value c (h.digits c hc)).1
  have htw : size.takeWhile (isDigit 16) = size := by
    have := takeWhile_stop (isDigit 16) size [] hall (by simp)
    simpa using this
  have hv : ∀ (l : Bytes) (a : Nat), (∀ c ∈ l, (hexDigit? c).isSome) →
      l.foldl (fun n c => n * 16 + digitValue c) a = l.foldl (fun n c => n * 16 + (hexDigit? c).getD 0) a := by
    intro l
    induction l with
    | nil => intro a _; rfl
    | cons c l ih =>
      intro a hl
      rw [List.foldl_cons, List.foldl_cons, (hexDigit_value c (hl c (by simp))).2, ih _ fun x hx => hl x (by simp [hx])]
  have hlen : size.length ≠ 0 := fun h0 => h.length.1 (List.length_eq_zero_iff.1 h0)
  unfold strtoullRaw
  simp only [htw]
  rw [if_neg hlen, if_neg (by have := h.length.2; omega)]
  unfold strtoull
  simp only
  rw [hv _ _ h.digits]
  have := h.value
  unfold hexValue at this
  rw [this, if_pos hn]

theorem digits_nocr {size : Bytes} {n : Nat} (h : Digits size n) : ∀ c ∈ size, c ≠ 13 := by
  intro c hc he
  have := h.digits c hc
  rw [he] at this
  revert this
  decide

/-- Either nothing, or the line end after the data of the previous chunk. -/
def Sep (sep : Bytes) : Prop := sep = [] ∨ sep = [13, 10]

theorem chunkHeader_exact (buf sep size rest : Bytes) (n pos : Nat) (hsep : Sep sep) (hd : Digits size n) (hn : n < 2 ^ 64) (hpos : pos ≤ buf.length)
    (hrest : 2 ≤ rest.length) (hb : buf.drop pos = sep ++ (size ++ 13 :: 10 :: rest)) :
    chunkHeader buf pos = .ok (⟨pos + sep.length + size.length + 2, n⟩, sep.length + size.length + 2) := by
  have hcr := digits_nocr hd
  have hlen : buf.length - pos = sep.length + (size.length + (rest.length + 2)) := by
    have := congrArg List.length hb
    rw [List.length_drop] at this
    simpa using this
  have hs1 : 0 < size.length := List.length_pos_iff.2 hd.length.1
  unfold chunkHeader
  rw [if_neg (by omega)]
  simp only
  have hk : (if findCrlf (buf.drop pos) = some 0 then 2 else 0) = sep.length := by
    rw [hb]
    rcases hsep with rfl | rfl
    · have : ¬ (some size.length = some 0) := fun h => by have := Option.some.inj h; omega
      rw [List.nil_append, findCrlf_line _ _ hcr, if_neg this]
      rfl
    · rw [show findCrlf ([13, 10] ++ (size ++ 13 :: 10 :: rest)) = some 0 from rfl, if_pos rfl]
      rfl
  rw [hk]
  have hdk : (buf.drop pos).drop sep.length = size ++ 13 :: 10 :: rest := by rw [hb]; exact List.drop_left' rfl
  rw [hdk, findCrlf_line _ _ hcr]
  simp only
  rw [List.take_left' rfl, strtoullRaw_hex size n hd hn]
  simp only
  have hl : (buf.drop pos).length = sep.length + (size.length + (rest.length + 2)) := by rw [List.length_drop, hlen]
  rw [hl, if_neg (by omega), if_neg (by simp), if_neg (by omega)]

/-- The chunks with their positions in the data: `at` is where the next length begins, after the line end of the previous chunk. -/
def chunkList : Nat → List Piece → List Chunk
  | _, [] => []
  | pos, c :: cs => ⟨pos + c.size.length + 2, c.data.length⟩ :: chunkList (pos + c.text.length) cs

/-- The chunks are read one by one until the empty one. -/
theorem run_chunks (lim : Limits) (kind : Kind) (base : Nat) (buf more zero : Bytes) (hbase : base + buf.length < 2 ^ 64) (hz : Digits zero 0) :
    ∀ (cs : List Piece) (p : Part) (pos prev : Nat) (sep : Bytes), (∀ c ∈ cs, Digits c.size c.data.length ∧ c.data ≠ []) → Good p → p.chunked = true →
      Sep sep → (match p.chunks.getLast? with | none => prev = 0 | some c => c.length = prev ∧ c.start + c.length ≤ buf.length) → pos + prev ≤ buf.length →
      buf.drop (pos + prev) = sep ++ (cs.flatMap Piece.text ++ (zero ++ 13 :: 10 :: 13 :: 10 :: more)) →
      run lim kind base buf p pos = (.ok, { p with
        chunks := p.chunks ++ chunkList (pos + prev + sep.length) cs ++ [⟨pos + prev + sep.length + (chunkedText cs zero).length - 2, 0⟩],
        dataLength := (pos + prev + sep.length + (chunkedText cs zero).length + 2 ^ 64 - p.headerLength - p.headroom) % 2 ^ 64 },
        pos + prev + sep.length + (chunkedText cs zero).length, 0) := by
  have hgo : ∀ (p : Part) (pos prev : Nat),
      (match p.chunks.getLast? with | none => prev = 0 | some c => c.length = prev ∧ c.start + c.length ≤ buf.length) →
      parseChunk base p.chunks buf (pos + 0) = chunkGo p.chunks buf pos prev := by
    intro p pos prev hl
    rw [parseChunk_eq, Nat.add_zero]
    cases hg : p.chunks.getLast? with
    | none => rw [hg] at hl; simp only at hl ⊢; rw [hl]
    | some c =>
      rw [hg] at hl
      simp only at hl ⊢
      rw [if_neg (by omega), if_neg (by omega), hl.1]
  intro cs
  induction cs with
  | nil =>
    intro p pos prev sep _ hgood hch hsep hlast hpos hbuf
    rw [List.flatMap_nil, List.nil_append] at hbuf
    have hlen : buf.length = pos + prev + (sep.length + (zero.length + (more.length + 4))) := by
      have := congrArg List.length hbuf
      rw [List.length_drop] at this
      simp at this
      omega
    rw [run_eq _ _ _ _ _ _ hgood (by omega)]
    have hparse : parse lim kind base p buf pos = Res.mk .ok { p with
        chunks := p.chunks ++ [⟨pos + prev + sep.length + zero.length + 2, 0⟩],
        dataLength := (pos + prev + sep.length + zero.length + 2 + 2 + 2 ^ 64 - p.headerLength - p.headroom) % 2 ^ 64 }
        (pos + prev + sep.length + zero.length + 2 + 2) (0 + (sep.length + zero.length + 2 + prev)) := by
      unfold parse
      rw [if_pos hch]
      unfold parseChunked
      simp only
      rw [hgo p pos prev hlast]
      unfold chunkGo
      rw [chunkHeader_exact buf sep zero (13 :: 10 :: more) 0 (pos + prev) hsep hz (by omega) hpos (by simp) hbuf]
      simp [← hch]
    rw [hparse]
    simp only
    rw [if_neg (by simp)]
    simp only [outOf, chunkList, chunkedText, List.flatMap_nil, List.nil_append, List.append_nil, if_true]
    have e1 : pos + prev + sep.length + (zero ++ [13, 10, 13, 10]).length - 2 = pos + prev + sep.length + zero.length + 2 := by simp; omega
    have e2 : pos + prev + sep.length + (zero ++ [13, 10, 13, 10]).length = pos + prev + sep.length + zero.length + 2 + 2 := by simp; omega
    rw [e1, e2]
    rfl
  | cons c cs ih =>
    intro p pos prev sep hcs hgood hch hsep hlast hpos hbuf
    obtain ⟨hc1, hc2⟩ := hcs c (by simp)
    have hdl : 0 < c.data.length := List.length_pos_iff.2 hc2
    have hbuf' : buf.drop (pos + prev) = sep ++ (c.size ++ 13 :: 10 :: (c.data ++ (13 :: 10 :: (cs.flatMap Piece.text ++ (zero ++ 13 :: 10 :: 13 :: 10 :: more))))) := by
      rw [hbuf]; simp [Piece.text]
    have hlen : buf.length = pos + prev + (sep.length + (c.size.length + 2 + (c.data.length + 2 +
        ((cs.flatMap Piece.text).length + (zero.length + (more.length + 4)))))) := by
      have := congrArg List.length hbuf'
      rw [List.length_drop] at this
      simp only [List.length_append, List.length_cons] at this
      omega
    rw [run_eq _ _ _ _ _ _ hgood (by omega)]
    have hparse : parse lim kind base p buf pos = Res.mk .incomplete { p with
        chunks := p.chunks ++ [⟨pos + prev + sep.length + c.size.length + 2, c.data.length⟩] } 0 (0 + (sep.length + c.size.length + 2 + prev)) := by
      unfold parse
      rw [if_pos hch]
      unfold parseChunked
      simp only
      rw [hgo p pos prev hlast]
      unfold chunkGo
      rw [chunkHeader_exact buf sep c.size _ c.data.length (pos + prev) hsep hc1 (by omega) hpos
        (by simp only [List.length_append, List.length_cons]; omega) hbuf']
      have : c.data.length ≠ 0 := by omega
      simp only [if_neg this, hch]
    rw [hparse]
    simp only
    rw [if_pos ⟨by omega, trivial⟩]
    have hd2 : buf.drop (pos + (0 + (sep.length + c.size.length + 2 + prev)) + c.data.length) =
        [13, 10] ++ (cs.flatMap Piece.text ++ (zero ++ 13 :: 10 :: 13 :: 10 :: more)) := by
      rw [show pos + (0 + (sep.length + c.size.length + 2 + prev)) + c.data.length = pos + prev + (sep.length + c.size.length + 2 + c.data.length) by omega,
        ← List.drop_drop, hbuf', show sep ++ (c.size ++ 13 :: 10 :: (c.data ++ (13 :: 10 :: (cs.flatMap Piece.text ++ (zero ++ 13 :: 10 :: 13 :: 10 :: more))))) =
          (sep ++ c.size ++ [13, 10] ++ c.data) ++ ([13, 10] ++ (cs.flatMap Piece.text ++ (zero ++ 13 :: 10 :: 13 :: 10 :: more))) by simp]
      apply List.drop_left'
      simp
      omega
    rw [ih { p with chunks := p.chunks ++ [⟨pos + prev + sep.length + c.size.length + 2, c.data.length⟩] } (pos + (0 + (sep.length + c.size.length + 2 + prev))) c.data.length [13, 10] (fun x hx => hcs x (by simp [hx]))
      ⟨hgood.complete, fun hu => by have := hgood.unknown hu; rw [hch] at this; cases this.2⟩ hch (.inr rfl) (by
        simp only [List.getLast?_append, List.getLast?_singleton, Option.some_or]
        exact ⟨trivial, by omega⟩) (by omega) hd2]
    have e1 : pos + (0 + (sep.length + c.size.length + 2 + prev)) + c.data.length + [(13 : UInt8), 10].length = pos + prev + sep.length + c.text.length := by
      simp [Piece.text]; omega
    have e2 : pos + prev + sep.length + c.text.length + (chunkedText cs zero).length = pos + prev + sep.length + (chunkedText (c :: cs) zero).length := by
      simp [chunkedText]; omega
    simp only [e1, e2, chunkList, List.append_assoc, List.cons_append, List.nil_append]

end Verif.Http
