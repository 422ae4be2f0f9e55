import Verif.Hdlc.Model
import Verif.Bits
/-!
# C12: HDLC framing
-/
namespace Verif.Hdlc
open Verif

/-! ## Specification

`Encodes body payload`: `body` is `payload` with some bytes written as an escape
sequence (0x7d followed by the byte with bit 5 flipped), and without bare flag or
escape bytes. -/

inductive Encodes : Bytes → Bytes → Prop
  | nil : Encodes [] []
  | plain {c body payload} : c ≠ 0x7e → c ≠ 0x7d → Encodes body payload → Encodes (c :: body) (c :: payload)
  | escaped {c body payload} : Encodes body payload → Encodes (0x7d :: (c ^^^ 0x20) :: body) (c :: payload)

/-! ## Lemmas -/

theorem max_eq : hdlcMax = 4096 := by unfold hdlcMax; rfl

theorem xor_xor (c : UInt8) : (c ^^^ 0x20) ^^^ 0x20 = c := by
  rw [UInt8.xor_assoc]; simp

theorem mustEscape_iff (c : UInt8) : mustEscape c = true ↔ c = 0x7e ∨ c = 0x7d := by
  unfold mustEscape bFrame bEscape; exact decide_eq_true_iff

theorem escapeAll_encodes (data : Bytes) : Encodes (escapeAll data) data := by
  induction data with
  | nil => exact .nil
  | cons c data ih =>
    simp only [escapeAll]
    by_cases h : mustEscape c = true
    · rw [if_pos h]; exact .escaped ih
    · rw [if_neg h]
      rw [mustEscape_iff] at h
      exact .plain (fun e => h (.inl e)) (fun e => h (.inr e)) ih

theorem foldl_len (data : Bytes) : ∀ n, data.foldl (fun n c => n + if mustEscape c then 2 else 1) n =
    n + (escapeAll data).length := by
  induction data with
  | nil => intro n; rfl
  | cons c data ih =>
    intro n
    simp only [List.foldl_cons, ih, escapeAll]
    split <;> simp <;> omega

theorem length_le_escapeAll (data : Bytes) : data.length ≤ (escapeAll data).length := by
  induction data with
  | nil => simp
  | cons c data ih => simp only [escapeAll]; split <;> simp <;> omega

/-- Parsing an encoded body inside a frame. -/
theorem parse_body {body payload : Bytes} (h : Encodes body payload) : ∀ (acc rest : Bytes),
    acc.length + payload.length ≤ 4095 →
    parseFrame ⟨.frame, acc⟩ (body ++ rest) = parseFrame ⟨.frame, acc ++ payload⟩ rest := by
  induction h with
  | nil => intro acc rest _; simp
  | @plain c body payload h1 h2 h ih =>
    intro acc rest hl
    simp only [List.length_cons] at hl
    rw [List.cons_append, parseFrame]
    have hf : full ⟨.frame, acc⟩ = false := by simp [full, max_eq]; omega
    simp only [bEscape, bFrame, h1, h2, if_false, hf, Bool.false_eq_true]
    rw [ih _ _ (by simp; omega)]
    simp
  | @escaped c body payload h ih =>
    intro acc rest hl
    simp only [List.length_cons] at hl
    rw [List.cons_append, List.cons_append, parseFrame]
    have hf : full ⟨.escape, acc⟩ = false := by simp [full, max_eq]; omega
    simp only [bEscape, if_true]
    rw [parseFrame]
    simp only [hf, bXor, Bool.false_eq_true, if_false, xor_xor]
    rw [ih _ _ (by simp; omega)]
    simp

theorem parse_idle (g : Bytes) (hg : (0x7e : UInt8) ∉ g) (rest : Bytes) :
    parseFrame init (g ++ 0x7e :: rest) = parseFrame ⟨.frame, []⟩ rest := by
  induction g with
  | nil => simp [parseFrame, init, bFrame]
  | cons c g ih =>
    simp only [List.mem_cons, not_or] at hg
    rw [List.cons_append, parseFrame]
    have : c ≠ bFrame := fun e => hg.1 e.symm
    simp only [init, this, if_false]
    exact ih hg.2

theorem parse_flags (n : Nat) (rest : Bytes) :
    parseFrame ⟨.frame, []⟩ (List.replicate n 0x7e ++ rest) = parseFrame ⟨.frame, []⟩ rest := by
  induction n with
  | zero => simp
  | succ n ih =>
    rw [List.replicate_succ, List.cons_append, parseFrame]
    simp [bFrame, bEscape, ih]

/-! ## C12 -/

/-- **C12** The announced length is the length of the exported frame. -/
theorem exportLength_eq (data : Bytes) (n : Nat) (h : exportLength data = some n) :
    (exportFrame data).length = n ∧ n ≤ 4096 := by
  unfold exportLength exportLengthRaw at h
  rw [foldl_len, max_eq] at h
  split at h
  · contradiction
  · obtain rfl := Option.some.inj h
    simp only [exportFrame, List.length_cons, List.length_append, List.length_nil]
    omega

/-- **C12** (main lemma) After any bytes without a flag and any number of flags (such
as the closing flag of an earlier frame), a frame whose body encodes a non-empty
payload of at most 4095 bytes is delivered as that payload, and parsing stops
exactly after the closing flag. -/
theorem parse_frame (g body payload rest : Bytes) (n : Nat) (hg : (0x7e : UInt8) ∉ g)
    (he : Encodes body payload) (hne : payload ≠ []) (hlen : payload.length ≤ 4095) :
    parseFrame init (g ++ 0x7e :: (List.replicate n 0x7e ++ (body ++ 0x7e :: rest))) =
      (.ok, ⟨.done, payload⟩, rest) := by
  rw [parse_idle g hg, parse_flags, parse_body he [] _ (by simpa using hlen), parseFrame]
  have : payload.length ≠ 0 := by simpa using hne
  simp [bFrame, bEscape, verifySize, hne]

/-- **C12** Exporting and parsing back delivers the payload, whatever follows the frame. -/
theorem parse_export (data rest : Bytes) (k : Nat) (hne : data ≠ []) (h : exportLength data = some k) :
    parseFrame init (exportFrame data ++ rest) = (.ok, ⟨.done, data⟩, rest) := by
  have hl := exportLength_eq data k h
  have hle := length_le_escapeAll data
  have := parse_frame [] (escapeAll data) data rest 0 (by simp) (escapeAll_encodes data) hne
    (by simp only [exportFrame, List.length_cons, List.length_append, List.length_nil] at hl; omega)
  simpa [exportFrame, bFrame] using this

/-- **C12** Resynchronisation: starting in the middle of a frame (`tail` is what is left
of its body and its closing flag), the next frame is delivered intact. -/
theorem parse_resync (tail data rest : Bytes) (k : Nat) (ht : (0x7e : UInt8) ∉ tail) (hne : data ≠ [])
    (h : exportLength data = some k) :
    parseFrame init (tail ++ [0x7e] ++ exportFrame data ++ rest) = (.ok, ⟨.done, data⟩, rest) := by
  have hl := exportLength_eq data k h
  have hle := length_le_escapeAll data
  have := parse_frame tail (escapeAll data) data rest 1 ht (escapeAll_encodes data) hne
    (by simp only [exportFrame, List.length_cons, List.length_append, List.length_nil] at hl; omega)
  simpa [exportFrame, bFrame] using this

/-- Parsing two buffers one after the other is parsing their concatenation. -/
theorem parseFrame_append (a : Bytes) : ∀ (s : State) (b : Bytes), s.flag ≠ .done →
    parseFrame s (a ++ b) = match parseFrame s a with
      | (.incomplete, s', _) => parseFrame s' b
      | (r, s', rest) => (r, s', rest ++ b) := by
  induction a with
  | nil => intro s b h; simp [parseFrame]
  | cons c a ih =>
    intro s b h
    obtain ⟨flag, result⟩ := s
    rw [List.cons_append, parseFrame, parseFrame]
    cases flag with
    | done => simp at h
    | idle =>
      simp only
      by_cases h1 : c = bFrame
      · simp only [h1, if_true]; exact ih _ _ (by simp)
      · simp only [h1, if_false]; exact ih _ _ (by simp)
    | frame =>
      simp only
      by_cases h1 : c = bEscape
      · simp only [h1, if_true]; exact ih _ _ (by simp)
      · simp only [h1, if_false]
        by_cases h2 : c = bFrame
        · simp only [h2, if_true]
          by_cases h3 : result.length = 0
          · simp only [h3, if_true]; exact ih _ _ (by simp)
          · simp [h3, verifySize]
        · simp only [h2, if_false]
          cases hf : full ⟨.frame, result⟩ with
          | true => simp
          | false => simp only [Bool.false_eq_true, if_false]; exact ih _ _ (by simp)
    | escape =>
      simp only
      cases hf : full ⟨.escape, result⟩ with
      | true => simp
      | false => simp only [Bool.false_eq_true, if_false]; exact ih _ _ (by simp)

theorem incomplete_not_done (a : Bytes) : ∀ (s s' : State) (rest : Bytes), s.flag ≠ .done →
    parseFrame s a = (.incomplete, s', rest) → s'.flag ≠ .done ∧ rest = [] := by
  induction a with
  | nil => intro s s' rest h e; simp [parseFrame] at e; obtain ⟨rfl, rfl⟩ := e; exact ⟨h, rfl⟩
  | cons c a ih =>
    intro s s' rest h e
    obtain ⟨flag, result⟩ := s
    rw [parseFrame] at e
    cases flag with
    | done => simp at h
    | idle =>
      simp only at e
      split at e
      · exact ih _ _ _ (by simp) e
      · exact ih _ _ _ (by simp) e
    | frame =>
      simp only at e
      split at e
      · exact ih _ _ _ (by simp) e
      · split at e
        · split at e
          · exact ih _ _ _ (by simp) e
          · rename_i h3; simp [verifySize, h3] at e
        · split at e
          · simp at e
          · exact ih _ _ _ (by simp) e
    | escape =>
      simp only at e
      split at e
      · simp at e
      · exact ih _ _ _ (by simp) e

/-- **C12** Chunking independence: however a stream is cut into buffers, the outcome, the
resulting state and the unread bytes are those of parsing the whole stream at once. -/
theorem feed_eq (chunks : List Bytes) : ∀ (s : State), s.flag ≠ .done →
    feed s chunks = parseFrame s chunks.flatten := by
  induction chunks with
  | nil => intro s _; simp [feed, parseFrame]
  | cons a chunks ih =>
    intro s h
    rw [List.flatten_cons, parseFrame_append a s _ h, feed]
    generalize hp : parseFrame s a = p
    obtain ⟨r, s', rest⟩ := p
    cases r with
    | incomplete => simp only; exact ih s' (incomplete_not_done a s s' rest h hp).1
    | ok => rfl
    | softError => rfl

/-- **C12** An exported frame cut into chunks in any way is delivered as its payload. -/
theorem feed_export (data : Bytes) (chunks : List Bytes) (k : Nat) (hne : data ≠ [])
    (h : exportLength data = some k) (hc : chunks.flatten = exportFrame data) :
    feed init chunks = (.ok, ⟨.done, data⟩, []) := by
  rw [feed_eq chunks init (by simp [init]), hc]
  simpa using parse_export data [] k hne h

/-- **C12** A stream of frames is parsed back to the sequence of payloads. -/
theorem parseMany_export (datas : List Bytes)
    (h : ∀ d ∈ datas, d ≠ [] ∧ ∃ k, exportLength d = some k) :
    parseMany datas.length (datas.map exportFrame).flatten = datas := by
  induction datas with
  | nil => rfl
  | cons d datas ih =>
    obtain ⟨hne, k, hk⟩ := h d (by simp)
    simp only [List.map_cons, List.flatten_cons, List.length_cons, parseMany]
    rw [parse_export d _ k hne hk]
    simp only
    rw [ih (fun x hx => h x (by simp [hx]))]

/-- Soundness inside a frame. -/
theorem parse_sound_frame (buf : Bytes) : ∀ (s s' : State) (rest : Bytes), s.flag = .frame →
    parseFrame s buf = (.ok, s', rest) →
    ∃ n body payload, buf = List.replicate n 0x7e ++ (body ++ 0x7e :: rest) ∧ Encodes body payload ∧
      s'.result = s.result ++ payload ∧ s'.result ≠ [] ∧ (s.result ≠ [] → n = 0) := by
  induction hlen : buf.length using Nat.strongRecOn generalizing buf with
  | ind len ih =>
    intro s s' rest hs e
    obtain ⟨flag, result⟩ := s
    subst hs
    cases buf with
    | nil => simp [parseFrame] at e
    | cons c buf =>
      rw [parseFrame] at e
      simp only at e
      split at e
      · rename_i h1
        cases buf with
        | nil => simp [parseFrame] at e
        | cons c2 buf =>
          rw [parseFrame] at e
          simp only at e
          split at e
          · simp at e
          · obtain ⟨n, body, payload, h2, h3, h4, h5, h6⟩ :=
              ih buf.length (by simp at hlen; omega) buf rfl _ s' rest rfl e
            have hn : n = 0 := h6 (by simp)
            subst hn
            refine ⟨0, 0x7d :: c2 :: body, (c2 ^^^ 0x20) :: payload, ?_, ?_, ?_, h5, by simp⟩
            · simp at h2; simp [h1, bEscape, h2]
            · have := Encodes.escaped (c := c2 ^^^ 0x20) h3
              rwa [xor_xor] at this
            · rw [h4]; simp [bXor]
      · rename_i h1
        split at e
        · rename_i h2
          split at e
          · rename_i h3
            obtain ⟨n, body, payload, e2, e3, e4, e5, e6⟩ :=
              ih buf.length (by simp at hlen; omega) buf rfl _ s' rest rfl e
            have hr : result = [] := List.length_eq_zero_iff.mp h3
            refine ⟨n + 1, body, payload, ?_, e3, e4, e5, fun h => absurd hr h⟩
            rw [List.replicate_succ, List.cons_append, ← e2, h2]; rfl
          · rename_i h3
            simp only [verifySize, h3, if_false, Prod.mk.injEq, true_and] at e
            obtain ⟨rfl, rfl⟩ := e
            refine ⟨0, [], [], by simp [h2, bFrame], .nil, by simp, ?_, by simp⟩
            simpa using h3
        · rename_i h2
          split at e
          · simp at e
          · obtain ⟨n, body, payload, e2, e3, e4, e5, e6⟩ :=
              ih buf.length (by simp at hlen; omega) buf rfl _ s' rest rfl e
            have hn : n = 0 := e6 (by simp)
            subst hn
            simp at e2
            refine ⟨0, c :: body, c :: payload, by simp [e2], .plain h2 h1 e3, by rw [e4]; simp, e5, by simp⟩

/-- **C12** Soundness: whatever is delivered was framed in the input. -/
theorem parse_sound (buf rest : Bytes) (s' : State) (h : parseFrame init buf = (.ok, s', rest)) :
    ∃ g n body, buf = g ++ 0x7e :: (List.replicate n 0x7e ++ (body ++ 0x7e :: rest)) ∧ (0x7e : UInt8) ∉ g ∧
      Encodes body s'.result ∧ s'.result ≠ [] := by
  induction buf with
  | nil => simp [parseFrame, init] at h
  | cons c buf ih =>
    rw [parseFrame] at h
    simp only [init] at h
    split at h
    · rename_i hc
      obtain ⟨n, body, payload, h2, h3, h4, h5, _⟩ := parse_sound_frame buf _ s' rest rfl h
      refine ⟨[], n, body, ?_, by simp, by rw [h4]; simpa using h3, h5⟩
      rw [hc, h2]; rfl
    · rename_i hc
      obtain ⟨g, n, body, h2, h3, h4⟩ := ih h
      refine ⟨c :: g, n, body, by rw [h2]; rfl, ?_, h4⟩
      simp only [List.mem_cons, not_or]
      exact ⟨fun e => hc e.symm, h3⟩

/-- **C12** The parser never stores more than 4095 bytes in its 4096-byte buffer. -/
theorem parse_in_bounds (buf : Bytes) : ∀ (s : State), s.result.length ≤ 4095 →
    (parseFrame s buf).2.1.result.length ≤ 4095 := by
  induction buf with
  | nil => intro s h; simpa [parseFrame] using h
  | cons c buf ih =>
    intro s h
    have hf : ∀ f, full ⟨f, s.result⟩ = false → s.result.length + 1 ≤ 4095 := by
      intro f hf
      have : s.result.length ≠ 4095 := by simpa [full, max_eq] using hf
      omega
    obtain ⟨flag, result⟩ := s
    rw [parseFrame]
    cases flag with
    | done => exact h
    | idle => simp only; split <;> exact ih _ h
    | frame =>
      simp only
      split
      · exact ih _ h
      · split
        · split
          · exact ih _ h
          · exact h
        · split
          · exact h
          · rename_i hx
            exact ih _ (by simpa using hf .frame (by simpa using hx))
    | escape =>
      simp only
      split
      · exact h
      · rename_i hx
        exact ih _ (by simpa using hf .escape (by simpa using hx))

/-- Disagreement with C12: an empty payload is exported as two flags, which the parser
skips, so it is never delivered. -/
theorem empty_payload_lost : exportLength [] = some 2 ∧
    parseFrame init (exportFrame []) = (.incomplete, ⟨.frame, []⟩, []) := by decide +kernel

example : exportFrame [0x7e, 0x41, 0x7d] = [0x7e, 0x7d, 0x5e, 0x41, 0x7d, 0x5d, 0x7e] ∧
    feed init [[0x7e, 0x7d], [0x5e, 0x41, 0x7d], [], [0x5d, 0x7e]] = (.ok, ⟨.done, [0x7e, 0x41, 0x7d]⟩, []) := by
  decide +kernel

end Verif.Hdlc
