import Verif.Msg.Props
import Verif.Read.Props
/-!
# C54: messages on a connection

RRR messages as user of the read framework (`socket/rrr_socket_read.c:480-530`,
`socket/rrr_socket_client.c:990-1030`).
-/
namespace Verif.Msg
open Verif Endian

/-- `read.c:740-760 rrr_read_common_get_session_target_length_from_message_and_checksum`. -/
def msgTgt (b : Bytes) : Read.Tgt :=
  match getTargetSize b with
  | .ok n => .size n.toNat
  | .incomplete => .incomplete
  | _ => .error

/-- The callback for a complete message (`msg.c:182-330 rrr_msg_to_host_and_verify_with_callback`), collecting what was received;
refused messages close the connection. Aborts and memory errors (see C15, C52, C55) count as refusal here. -/
def msgComplete (st : List Received) (_seen msg : Bytes) : Option (List Received) :=
  match toHost msg with
  | .ok r => some (st ++ [r])
  | _ => none

/-- The user of the framework. -/
def msgUser (step max : Nat) : Read.User (List Received) where
  tgt := fun _ => msgTgt
  complete := msgComplete
  step := step
  max := max

/-- Streams in which no head gives size zero (which aborts, `tiny_size_aborts`), as far as the receiver gets. -/
inductive Clean : Bytes → Prop
  | mk (s : Bytes) (pos : ∀ n, getTargetSize s = .ok n → n ≠ 0)
      (next : ∀ n r, getTargetSize s = .ok n → n.toNat ≤ s.length → toHost (s.take n.toNat) = .ok r → Clean (s.drop n.toNat)) : Clean s

theorem getTargetSize_mono (b more : Bytes) (h : getTargetSize b ≠ .incomplete) : getTargetSize (b ++ more) = getTargetSize b := by
  have hl : ¬ b.length < headSize := by
    intro hl; apply h; unfold getTargetSize; rw [if_pos hl]
  unfold getTargetSize
  have h18 : headSize = 18 := rfl
  rw [if_neg hl, if_neg (by rw [List.length_append]; omega)]
  have e1 : ((b ++ more).drop 4).take 14 = (b.drop 4).take 14 := by
    rw [List.drop_append_of_le_length (by omega), List.take_append_of_le_length (by rw [List.length_drop]; omega)]
  have g : ∀ i, i < 18 → (b ++ more).getD i 0 = b.getD i 0 := by
    intro i hi
    simp only [List.getD_eq_getElem?_getD]
    rw [List.getElem?_append_left (by omega)]
  have e2 : at32 (b ++ more) 0 = at32 b 0 := by
    simp only [at32, g 0 (by omega), g 1 (by omega), g 2 (by omega), g 3 (by omega)]
  have e3 : at32 (b ++ more) 4 = at32 b 4 := by
    simp only [at32, g 4 (by omega), g 5 (by omega), g 6 (by omega), g 7 (by omega)]
  rw [e1, e2, e3]

theorem msgTgt_size {s : Bytes} {n : Nat} (h : msgTgt s = .size n) : ∃ k : UInt32, getTargetSize s = .ok k ∧ k.toNat = n := by
  unfold msgTgt at h
  split at h
  · rename_i k hk; cases h; exact ⟨k, hk, rfl⟩
  · cases h
  · cases h

theorem msg_fits (step max : Nat) : Read.Fits (msgUser step max) (fun _ s => Clean s) where
  stable := by
    rintro st s b _ ⟨more, rfl⟩ _ hni
    show msgTgt _ = msgTgt _
    have : getTargetSize b ≠ .incomplete := by
      intro e; apply hni; show msgTgt b = _; unfold msgTgt; rw [e]
    unfold msgTgt
    rw [getTargetSize_mono b more this]
  pos := by
    rintro st s n ⟨_, hp, _⟩ ht
    obtain ⟨k, hk, rfl⟩ := msgTgt_size ht
    have := hp k hk
    apply Nat.pos_of_ne_zero
    intro e
    exact this (UInt32.toNat_inj.mp e)
  skip := by
    rintro st s b k _ _ _ ht
    change msgTgt b = _ at ht
    unfold msgTgt at ht
    split at ht <;> cases ht
  own := fun _ _ _ _ _ => rfl
  next := by
    rintro st s n st' ⟨_, _, hn⟩ hne ht hl hcm
    obtain ⟨k, hk, rfl⟩ := msgTgt_size ht
    change msgComplete st (s.take k.toNat) (s.take k.toNat) = some st' at hcm
    unfold msgComplete at hcm
    split at hcm
    · rename_i r hr; exact hn k r hk hl hr
    · cases hcm
  nextSkip := by
    rintro st s k _ _ ht
    change msgTgt s = _ at ht
    unfold msgTgt at ht
    split at ht <;> cases ht

/-- **C54** For every stream of bytes in which no head with a correct checksum has size zero, the messages received do not depend on how the stream is
cut into pieces, and no call aborts or overruns a buffer. -/
theorem message_chunks_irrelevant_partial (step max : Nat) (chunks : List Bytes) (hc : Clean chunks.flatten)
    (hmax : max = 0 ∨ chunks.flatten.length ≤ max) (n : Nat) (hn : chunks.length + chunks.flatten.length < n) :
    (∃ s got, Read.calls (msgUser step max) n (.open .init [] chunks) = .open s got [] ∧
      (msgUser step max).deliverAll [] chunks.flatten = (got, .waiting s.pending)) ∨
    (∃ got, Read.calls (msgUser step max) n (.open .init [] chunks) = .closed got ∧
      (msgUser step max).deliverAll [] chunks.flatten = (got, .closed)) := by
  rcases Read.chunks_irrelevant (msgUser step max) _ (msg_fits step max) [] chunks hc hmax n hn with ⟨s, st, h1, _, h3⟩ | h
  · exact Or.inl ⟨s, st, h1, h3⟩
  · exact Or.inr h

/-- Bytes which are received as `r` whatever follows them. -/
def Arrives (bytes : Bytes) (r : Received) : Prop := ∀ rest, receive (bytes ++ rest) = .ok (r, bytes.length)

theorem arrives_iff {bytes : Bytes} {r : Received} (h : Arrives bytes r) (rest : Bytes) :
    ∃ n, getTargetSize (bytes ++ rest) = .ok n ∧ n ≠ 0 ∧ n.toNat = bytes.length ∧ toHost bytes = .ok r := by
  have h := h rest
  unfold receive at h
  cases hg : getTargetSize (bytes ++ rest) with
  | ok n =>
    rw [hg] at h
    simp only [Res.bind] at h
    split at h
    · cases h
    rename_i h0
    split at h
    · cases h
    split at h
    · cases h
    cases ht : toHost ((bytes ++ rest).take n.toNat) with
    | ok r' =>
      rw [ht] at h
      simp only [Res.map] at h
      injection h with h
      injection h with h1 h2
      refine ⟨n, rfl, h0, h2, ?_⟩
      rw [h2, List.take_left] at ht
      rw [ht, h1]
    | _ => rw [ht] at h; cases h
  | _ => rw [hg] at h; cases h

theorem clean_stream : ∀ (l : List (Bytes × Received)), (∀ x ∈ l, Arrives x.1 x.2) → Clean (l.flatMap (·.1))
  | [], _ => by
    refine Clean.mk _ ?_ ?_ <;> intro n
    · intro h; cases h
    · intro r h; cases h
  | x :: l, h => by
    obtain ⟨n, h1, h2, h3, h4⟩ := arrives_iff (h x (by simp)) (l.flatMap (·.1))
    rw [List.flatMap_cons]
    refine Clean.mk _ ?_ ?_
    · intro m hm; rw [h1] at hm; cases hm; exact h2
    · intro m r hm _ _
      rw [h1] at hm
      cases hm
      rw [h3, List.drop_left]
      exact clean_stream l fun y hy => h y (by simp [hy])

theorem arrives_ne_nil {bytes : Bytes} {r : Received} (h : Arrives bytes r) : bytes ≠ [] := by
  rintro rfl
  have := h []
  cases this

theorem deliver_stream (step max : Nat) : ∀ (l : List (Bytes × Received)) (got : List Received), (∀ x ∈ l, Arrives x.1 x.2) →
    (msgUser step max).deliverAll got (l.flatMap (·.1)) = (got ++ l.map (·.2), .waiting [])
  | [], got, _ => by simp [Read.deliverAll_nil]
  | x :: l, got, h => by
    have hx := h x (by simp)
    obtain ⟨n, h1, h2, h3, h4⟩ := arrives_iff hx (l.flatMap (·.1))
    have hc := clean_stream (x :: l) h
    rw [List.flatMap_cons] at hc ⊢
    rw [Read.deliverAll_size (msg_fits step max) (n := n.toNat) (st' := got ++ [x.2]) hc (by simp [arrives_ne_nil hx])
      (by show msgTgt _ = _; unfold msgTgt; rw [h1]) (by rw [h3, List.length_append]; omega)
      (by rw [h3, List.take_left]; show msgComplete got x.1 x.1 = _; unfold msgComplete; rw [h4]), h3, List.drop_left,
      deliver_stream step max l _ fun y hy => h y (by simp [hy])]
    simp

/-- **C54** The messages of a stream arrive in order, each once and unchanged, whatever the pieces in which the bytes arrive.
`Arrives` is what the theorems about single messages (C14, C51, C52) give. -/
theorem messages_arrive (step max : Nat) (l : List (Bytes × Received)) (h : ∀ x ∈ l, Arrives x.1 x.2) (chunks : List Bytes)
    (hch : chunks.flatten = l.flatMap (·.1)) (hmax : max = 0 ∨ chunks.flatten.length ≤ max) (n : Nat)
    (hn : chunks.length + chunks.flatten.length < n) :
    ∃ s, Read.calls (msgUser step max) n (.open .init [] chunks) = .open s (l.map (·.2)) [] ∧ s.pending = [] := by
  have hd := deliver_stream step max l [] h
  rcases message_chunks_irrelevant_partial step max chunks (hch ▸ clean_stream l h) hmax n hn with ⟨s, got, h1, h2⟩ | ⟨got, _, h2⟩
  · rw [hch, hd] at h2
    injection h2 with h2 h3
    injection h3 with h3
    refine ⟨s, ?_, h3.symm⟩
    rw [h1, ← h2]
    simp
  · rw [hch, hd] at h2
    cases h2

/-- A user message, with everything the sender chooses. -/
structure Sent where
  type : UInt8
  class_ : UInt8
  timestamp : UInt64
  topic : Bytes
  data : Bytes

/-- What may be sent, as in `message_roundtrip`. -/
def Sent.Fine (x : Sent) : Prop :=
  (1 ≤ x.type ∧ x.type ≤ 5) ∧ (x.class_ = 1 ∨ x.class_ = 11) ∧ x.topic.length ≤ 0xffff ∧ Utf8.Spec.WellFormed x.topic ∧
    (0 : UInt8) ∉ x.topic ∧ 30 + x.topic.length + x.data.length ≤ 0xffffffff

/-- What was received is the message sent. -/
def Sent.Is (x : Sent) : Received → Prop
  | .msg m => m.type = x.type ∧ m.class_ = x.class_ ∧ m.timestamp = x.timestamp ∧ m.topic = x.topic ∧ m.data = x.data
  | _ => False

/-- The bytes which the sender of a message writes. -/
def Sent.wire (x : Sent) : Bytes :=
  match newWithData x.type x.class_ x.timestamp x.topic x.data with
  | none => []
  | some m => match msgToNetwork m with | .ok b => b | _ => []

theorem sent_arrives (x : Sent) (h : x.Fine) : ∃ r, Arrives x.wire r ∧ x.Is r := by
  obtain ⟨h1, h2, h3, h4, h5, h6⟩ := h
  obtain ⟨m, bytes, g1, g2, _, g4, _, g6⟩ := message_roundtrip x.type x.class_ x.timestamp x.topic x.data h1 h2 h3 h4 h5 h6
  have : x.wire = bytes := by unfold Sent.wire; rw [g1]; simp only; rw [g2]
  exact ⟨.msg m, by rw [this]; exact g4, g6⟩

/-- One by one. -/
inductive AllIs : List Sent → List Received → Prop
  | nil : AllIs [] []
  | cons {x r xs rs} : x.Is r → AllIs xs rs → AllIs (x :: xs) (r :: rs)

theorem sent_list : ∀ (xs : List Sent), (∀ x ∈ xs, x.Fine) →
    ∃ l : List (Bytes × Received), l.flatMap (·.1) = xs.flatMap Sent.wire ∧ AllIs xs (l.map (·.2)) ∧ ∀ y ∈ l, Arrives y.1 y.2
  | [], _ => ⟨[], rfl, .nil, by simp⟩
  | x :: xs, h => by
    obtain ⟨r, hr, hi⟩ := sent_arrives x (h x (by simp))
    obtain ⟨l, h1, h2, h3⟩ := sent_list xs fun y hy => h y (by simp [hy])
    refine ⟨(x.wire, r) :: l, by simp [h1], .cons hi h2, ?_⟩
    intro y hy
    rcases List.mem_cons.mp hy with rfl | hy
    · exact hr
    · exact h3 y hy

/-- **C54** User messages sent one after another on a connection are received, all of them, once, in order and with the type, class, timestamp,
topic and data they had, whatever the pieces in which the bytes arrive. -/
theorem sent_messages_arrive (step max : Nat) (xs : List Sent) (h : ∀ x ∈ xs, x.Fine) (chunks : List Bytes)
    (hch : chunks.flatten = xs.flatMap Sent.wire) (hmax : max = 0 ∨ chunks.flatten.length ≤ max) (n : Nat)
    (hn : chunks.length + chunks.flatten.length < n) :
    ∃ s got, Read.calls (msgUser step max) n (.open .init [] chunks) = .open s got [] ∧ s.pending = [] ∧ AllIs xs got := by
  obtain ⟨l, h1, h2, h3⟩ := sent_list xs h
  obtain ⟨s, h4, h5⟩ := messages_arrive step max l h3 chunks (by rw [hch, h1]) hmax n hn
  exact ⟨s, _, h4, h5, h2⟩

/-- **C54** fails at full strength: a head with correct checksum and size zero aborts the reader. -/
theorem zero_size_aborts_reader : ∃ chunk : Bytes, Read.calls (msgUser 100 0) 1 (.open .init [] [chunk]) = .bug :=
  ⟨wireOf ⟨0, 2, 0⟩ [], by decide +kernel⟩

/-- Two messages in three pieces. -/
def exampleSent : List Sent := [⟨1, 1, 77, [0x61], [1, 2, 3]⟩, ⟨2, 11, 78, [], [9]⟩]

example : (∀ x ∈ exampleSent, x.Fine) ∧
    (match Read.calls (msgUser 100 0) 100 (.open .init [] [(exampleSent.flatMap Sent.wire).take 7,
      ((exampleSent.flatMap Sent.wire).drop 7).take 40, (exampleSent.flatMap Sent.wire).drop 47]) with
    | .open s got [] => some (got.map fun | .msg m => (m.timestamp, m.topic, m.data) | _ => (0, [], []), s.pending)
    | _ => none) = some ([(77, [0x61], [1, 2, 3]), (78, [], [9])], []) := by
  refine ⟨?_, by decide +kernel⟩
  intro x hx
  have hw : Utf8.Spec.WellFormed [0x61] ∧ Utf8.Spec.WellFormed [] :=
    ⟨(Utf8.validate_iff_of_no_nul _ (by decide)).mp (by decide), (Utf8.validate_iff_of_no_nul _ (by decide)).mp (by decide)⟩
  simp only [exampleSent, List.mem_cons, List.not_mem_nil, or_false] at hx
  rcases hx with rfl | rfl
  · exact ⟨by decide, by decide, by decide, hw.1, by decide, by decide⟩
  · exact ⟨by decide, by decide, by decide, hw.2, by decide, by decide⟩

end Verif.Msg
