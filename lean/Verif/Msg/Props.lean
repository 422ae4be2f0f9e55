import Verif.Msg.Model
import Verif.Crc32.Props
import Verif.Utf8.Props
import Verif.Bits
/-!
# C14, C15, C51, C52, C53, C55: RRR messages on the network
-/
namespace Verif.Msg
open Verif Endian

/-! ## The head -/

theorem crc_ofBitVec (c : BitVec 32) : (⟨c⟩ : UInt32).toBitVec = c := rfl

theorem crc_nil : Crc32.crc32buf [] = 0 := by decide +kernel

theorem headTail_length (h : Head) (c : BitVec 32) : (headTail h c).length = 14 := rfl

/-- The bytes `toNetwork` gives when the size in the head is right. -/
def wireOf (h : Head) (data : Bytes) : Bytes :=
  be32 ⟨Crc32.crc32buf (headTail h (Crc32.crc32buf data))⟩ ++ (headTail h (Crc32.crc32buf data) ++ data)

theorem wireOf_length (h : Head) (data : Bytes) : (wireOf h data).length = 18 + data.length := by
  simp only [wireOf, List.length_append, be32_length, headTail_length]; omega

theorem toNetwork_eq (h : Head) (data more : Bytes) (hs : h.size.toNat = 18 + data.length) :
    toNetwork h (data ++ more) = .ok (wireOf h data) := by
  have hd : (h.size - UInt32.ofNat headSize).toNat = data.length := by
    rw [UInt32.toNat_sub_of_le]
    · rw [hs]; simp [headSize]
    · rw [UInt32.le_iff_toNat_le, hs]; simp [headSize]
  unfold toNetwork
  rw [hd, if_neg (by simp), List.take_left]
  dsimp only
  by_cases h0 : data.length > 0
  · rw [if_pos h0]; rfl
  · have : data = [] := List.length_eq_zero_iff.mp (by omega)
    subst this
    rw [if_neg h0]
    show Res.ok _ = Res.ok _
    rw [← crc_nil]; rfl

theorem toNetwork_eq' (h : Head) (data : Bytes) (hs : h.size.toNat = 18 + data.length) :
    toNetwork h data = .ok (wireOf h data) := by
  have := toNetwork_eq h data [] hs
  rwa [List.append_nil] at this

theorem four : ∀ (b : Bytes), 4 ≤ b.length → ∃ b0 b1 b2 b3 t, b = b0 :: b1 :: b2 :: b3 :: t
  | b0 :: b1 :: b2 :: b3 :: t, _ => ⟨b0, b1, b2, b3, t, rfl⟩
  | [], h => absurd h (by simp)
  | [_], h => absurd h (by simp)
  | [_, _], h => absurd h (by simp)
  | [_, _, _], h => absurd h (by simp)

/-- Which bytes pass the head check. -/
theorem getTargetSize_iff (b : Bytes) (n : UInt32) : getTargetSize b = .ok n ↔
    ∃ tail rest, tail.length = 14 ∧ b = be32 ⟨Crc32.crc32buf tail⟩ ++ (tail ++ rest) ∧ n = at32 tail 0 := by
  unfold getTargetSize
  constructor
  · intro h
    split at h
    · cases h
    rename_i hl
    split at h
    · cases h
    rename_i hc
    injection h with h
    rw [Classical.not_not, Crc32.crc32cmp_iff] at hc
    obtain ⟨b0, b1, b2, b3, b, rfl⟩ := four b (by simp only [headSize] at hl; omega)
    · have hl : 14 ≤ b.length := by simp [headSize] at hl; omega
      refine ⟨b.take 14, b.drop 14, by simp; omega, ?_, ?_⟩
      · rw [List.take_append_drop]
        have : be32 ⟨Crc32.crc32buf (b.take 14)⟩ = [b0, b1, b2, b3] := by
          rw [← be32_of b0 b1 b2 b3]
          congr 1
          have hc : (at32 (b0 :: b1 :: b2 :: b3 :: b) 0).toBitVec = Crc32.crc32buf (b.take 14) := hc
          rw [← hc]; rfl
        rw [this]; rfl
      · rw [← h]
        have e : ∀ i < 14, (b.take 14).getD i 0 = b.getD i 0 := by
          intro i hi; simp [List.getD, hi]
        simp only [at32, e 0 (by omega), e (0 + 1) (by omega), e (0 + 2) (by omega), e (0 + 3) (by omega)]
        rfl
  · rintro ⟨tail, rest, h14, rfl, rfl⟩
    rw [if_neg (by simp [headSize, be32_length, h14]; omega)]
    have h1 : (be32 ⟨Crc32.crc32buf tail⟩ ++ (tail ++ rest)).drop 4 = tail ++ rest := rfl
    rw [h1, ← h14, List.take_left]
    have h2 : at32 (be32 ⟨Crc32.crc32buf tail⟩ ++ (tail ++ rest)) 0 = ⟨Crc32.crc32buf tail⟩ :=
      at32_append (p := []) rfl _ _
    rw [h2, if_neg (by rw [Classical.not_not, Crc32.crc32cmp_iff])]
    obtain ⟨a, b, c, d, t, rfl⟩ := four tail (by omega)
    rfl

theorem at32_headTail (h : Head) (c : BitVec 32) (rest : Bytes) : at32 (headTail h c ++ rest) 0 = h.size := by
  simp only [headTail, List.append_assoc]
  exact at32_append (p := []) rfl h.size _

theorem getTargetSize_wire (h : Head) (data rest : Bytes) : getTargetSize (wireOf h data ++ rest) = .ok h.size := by
  rw [getTargetSize_iff]
  refine ⟨headTail h (Crc32.crc32buf data), data ++ rest, rfl, by simp [wireOf], ?_⟩
  have := at32_headTail h (Crc32.crc32buf data) []
  rw [List.append_nil] at this
  exact this.symm

/-- Types which are accepted: control with known flags, or one of the other types. -/
def typeFine (t : UInt16) : Bool := if isCtrl t then t &&& ~~~ ctrlAll == 0 else typeOk t

/-- The bytes of a message with some number as data checksum. -/
def wireC (h : Head) (c : BitVec 32) (data : Bytes) : Bytes :=
  be32 ⟨Crc32.crc32buf (headTail h c)⟩ ++ (headTail h c ++ data)

theorem wireC_length (h : Head) (c : BitVec 32) (data : Bytes) : (wireC h c data).length = 18 + data.length := by
  simp only [wireC, List.length_append, be32_length, headTail_length]; omega

theorem headToHost_wireC (h : Head) (c : BitVec 32) (data : Bytes) :
    headToHost (wireC h c data) = if headValidate h (18 + data.length) then .ok (h, ⟨c⟩) else .soft := by
  have e : wireC h c data = be32 ⟨Crc32.crc32buf (headTail h c)⟩ ++
      (be32 h.size ++ (be16 h.type ++ (be32 h.value ++ (be32 ⟨c⟩ ++ data)))) := by
    simp [wireC, headTail]
  have e1 : at32 (wireC h c data) 4 = h.size := by
    rw [e]; exact at32_append (be32_length _) _ _
  have e2 : at16 (wireC h c data) 8 = h.type := by
    rw [e, ← List.append_assoc]; exact at16_append (by simp [be32_length]) _ _
  have e3 : at32 (wireC h c data) 10 = h.value := by
    rw [e, ← List.append_assoc, ← List.append_assoc]; exact at32_append (by simp [be32_length, be16_length]) _ _
  have e4 : at32 (wireC h c data) 14 = ⟨c⟩ := by
    rw [e, ← List.append_assoc, ← List.append_assoc, ← List.append_assoc]
    exact at32_append (by simp [be32_length, be16_length]) _ _
  unfold headToHost
  rw [if_neg (by rw [wireC_length]; simp [headSize]), e1, e2, e3, e4, wireC_length]

theorem headToHost_wire (h : Head) (data : Bytes) (hs : h.size.toNat = 18 + data.length)
    (ht : typeFine h.type = true) :
    headToHost (wireOf h data) = .ok (h, ⟨Crc32.crc32buf data⟩) := by
  have := headToHost_wireC h (Crc32.crc32buf data) data
  rw [if_pos] at this
  · exact this
  · unfold headValidate
    rw [if_neg (by simpa using hs)]
    exact ht

theorem wireOf_drop (h : Head) (data : Bytes) : (wireOf h data).drop headSize = data := by
  rw [wireOf, ← List.append_assoc, show headSize = (be32 ⟨Crc32.crc32buf (headTail h (Crc32.crc32buf data))⟩ ++
    headTail h (Crc32.crc32buf data)).length from rfl, List.drop_left]

theorem checkData_wire (h : Head) (data : Bytes) (hs : h.size.toNat = 18 + data.length) :
    checkData h ⟨Crc32.crc32buf data⟩ (wireOf h data) = .ok data := by
  unfold checkData
  rw [wireOf_length, if_neg (by simp [headSize]), if_neg (by simpa using hs), wireOf_drop,
    if_neg (by rw [Classical.not_not, Crc32.crc32cmp_iff])]

/-- Receiving what was sent, up to the type specific part. -/
theorem toHost_wire (h : Head) (data : Bytes) (hs : h.size.toNat = 18 + data.length)
    (ht : typeFine h.type = true) :
    toHost (wireOf h data) =
      (if h.type == 2 then (msgToHost h data).map .msg
      else if isCtrl h.type then .ok (.ctrl h data)
      else if h.type == 8 then (addrToHost h data).map .addr
      else if h.type == 16 then (logToHost h data).map .log
      else if h.type == 6 then (statsUnpack h data).map .stats
      else .soft) := by
  unfold toHost
  rw [headToHost_wire h data hs ht]
  simp only [Res.bind]
  rw [checkData_wire h data hs]

/-- A whole message followed by anything. -/
theorem receive_wire (h : Head) (data rest : Bytes) (hs : h.size.toNat = 18 + data.length) :
    receive (wireOf h data ++ rest) = (toHost (wireOf h data)).map fun r => (r, (wireOf h data).length) := by
  have hlen : (wireOf h data).length = h.size.toNat := by rw [wireOf_length]; exact hs.symm
  have h0 : h.size ≠ 0 := by
    intro e; rw [e] at hs; simp at hs; omega
  unfold receive
  rw [getTargetSize_wire]
  simp only [Res.bind]
  rw [if_neg h0, if_neg (by rw [List.length_append]; omega), if_neg (by simp [headSize]; omega), ← hlen, List.take_left]

/-- Less than a whole message. -/
theorem receive_part (h : Head) (data got more : Bytes) (hs : h.size.toNat = 18 + data.length)
    (hb : wireOf h data = got ++ more) (hm : more ≠ []) : receive got = .incomplete := by
  have hlen : got.length < (wireOf h data).length := by
    rw [hb, List.length_append]
    have := List.length_pos_iff.mpr hm
    omega
  have h0 : h.size ≠ 0 := by
    intro e; rw [e] at hs; simp at hs; omega
  rw [wireOf_length] at hlen
  unfold receive
  by_cases hl : got.length < headSize
  · have : getTargetSize got = .incomplete := by unfold getTargetSize; rw [if_pos hl]
    rw [this]; rfl
  · have : getTargetSize got = .ok h.size := by
      have hw := getTargetSize_wire h data []
      rw [List.append_nil, hb] at hw
      unfold getTargetSize at hw ⊢
      have hl' : ¬ (got ++ more).length < headSize := by rw [List.length_append]; omega
      rw [if_neg hl'] at hw
      rw [if_neg hl]
      have hl : 18 ≤ got.length := by simpa [headSize] using hl
      have e1 : ((got ++ more).drop 4).take 14 = (got.drop 4).take 14 := by
        rw [List.drop_append_of_le_length (by omega), List.take_append_of_le_length (by rw [List.length_drop]; omega)]
      have e2 : ∀ i, i < 18 → (got ++ more).getD i 0 = got.getD i 0 := by
        intro i hi
        rw [List.getD, List.getD, List.getElem?_append_left (by omega)]
      have e3 : ∀ k, k + 3 < 18 → at32 (got ++ more) k = at32 got k := by
        intro k hk
        simp only [at32, e2 k (by omega), e2 (k + 1) (by omega), e2 (k + 2) (by omega), e2 (k + 3) (by omega)]
      rw [e1, e3 0 (by omega), e3 4 (by omega)] at hw
      exact hw
    rw [this]
    simp only [Res.bind]
    rw [if_neg h0, if_pos (by omega)]

/-! ## C14 -/

theorem typeClass (type class_ : UInt8) (ht : 1 ≤ type ∧ type ≤ 5) (hc : class_ = 1 ∨ class_ = 11) :
    setClass (setType 0 type) class_ &&& 0x0f = type ∧
    (setClass (setType 0 type) class_ &&& (0xf0 : UInt8)) >>> (4 : UInt8) = class_ := by
  revert type
  rcases hc with rfl | rfl
  · apply all256; decide +kernel
  · apply all256; decide +kernel

theorem msgToHost_rest (m : MsgMsg) (hs : m.head.size.toNat = 30 + m.body.length) (ht : m.topicLength.toNat ≤ m.body.length)
    (hty : 1 ≤ m.type ∧ m.type ≤ 5) (hc : m.class_ = 1 ∨ m.class_ = 11) (hu : Utf8.validate m.topic = true) :
    msgToHost m.head (msgRest m) = .ok m := by
  have hl : (msgRest m).length = 12 + m.body.length := by
    simp only [msgRest, List.length_append, be64_length, be16_length, List.length_cons, List.length_nil]; omega
  have e0 : at64 (msgRest m) 0 = m.timestamp := at64_append (p := []) rfl _ _
  have e1 : (msgRest m).getD 8 0 = m.typeAndClass := rfl
  have e2 : (msgRest m).getD 9 0 = m.version := rfl
  have e3 : at16 (msgRest m) 10 = m.topicLength := by
    unfold msgRest
    rw [← List.append_assoc]
    exact at16_append rfl _ _
  have e4 : (msgRest m).drop 12 = m.body := rfl
  unfold msgToHost
  rw [if_neg (by rw [hl]; simp [headSize, msgMinSize]), if_neg (by rw [hl, hs]; simp [headSize]; omega), e0, e1, e2, e3, e4]
  show msgValidate m = _
  unfold msgValidate
  rw [if_neg (by simp only [msgMinSize]; omega), if_neg (by omega)]
  dsimp only
  rw [if_pos]
  simp only [Bool.and_eq_true, Bool.or_eq_true, beq_iff_eq, decide_eq_true_eq]
  exact ⟨⟨hc, hty⟩, hu⟩

/-- **C14** A message made of a valid type, class, timestamp, UTF-8 topic and data and which is sent arrives as it was, whatever
follows it on the connection; type, class, timestamp, topic and data can be read from it. With only a
part of it received, the receiver waits for more. -/
theorem message_roundtrip (type class_ : UInt8) (timestamp : UInt64) (topic data : Bytes)
    (htype : 1 ≤ type ∧ type ≤ 5) (hclass : class_ = 1 ∨ class_ = 11)
    (htopic : topic.length ≤ 0xffff) (hutf : Utf8.Spec.WellFormed topic) (hnul : (0 : UInt8) ∉ topic)
    (hsize : 30 + topic.length + data.length ≤ 0xffffffff) :
    ∃ m bytes, newWithData type class_ timestamp topic data = some m ∧ msgToNetwork m = .ok bytes ∧
      bytes.length = 30 + topic.length + data.length ∧
      (∀ rest, receive (bytes ++ rest) = .ok (.msg m, bytes.length)) ∧
      (∀ got more, bytes = got ++ more → more ≠ [] → receive got = .incomplete) ∧
      m.type = type ∧ m.class_ = class_ ∧ m.timestamp = timestamp ∧ m.topic = topic ∧ m.data = data := by
  have h16 : (UInt16.ofNat topic.length).toNat = topic.length := by
    rw [UInt16.toNat_ofNat']; omega
  have h32 : (UInt32.ofNat data.length).toNat = data.length := by
    rw [UInt32.toNat_ofNat']; omega
  have hS : (UInt32.ofNat (30 + topic.length + data.length)).toNat = 30 + topic.length + data.length := by
    rw [UInt32.toNat_ofNat']; omega
  obtain ⟨t1, t2⟩ := typeClass type class_ htype hclass
  let m : MsgMsg := ⟨⟨UInt32.ofNat (30 + topic.length + data.length), 2, 0⟩, timestamp,
    setClass (setType 0 type) class_, 0, UInt16.ofNat topic.length, topic ++ data⟩
  have hnew : newWithData type class_ timestamp topic data = some m := by
    have hp : populateHead 2 (UInt32.ofNat (msgMinSize + topic.length + data.length)) 0 =
        .ok ⟨UInt32.ofNat (30 + topic.length + data.length), 2, 0⟩ := by
      unfold populateHead
      rw [if_neg]
      · rfl
      · show ¬ (UInt32.ofNat (30 + topic.length + data.length)).toNat < 18
        rw [hS]; omega
    unfold newWithData newEmpty
    rw [h16, h32]
    dsimp only
    rw [if_neg (by simp only [msgMinSize]; omega), hp]
  have hmt : m.topic = topic := by
    show (topic ++ data).take _ = _
    rw [h16, List.take_left]
  have hmd : m.data = data := by
    have hdl : m.dataLength.toNat = data.length := by
      show (UInt32.ofNat (30 + topic.length + data.length) - UInt32.ofNat 30 - (UInt16.ofNat topic.length).toUInt32).toNat = _
      rw [UInt32.toNat_sub_of_le, UInt32.toNat_sub_of_le, hS, UInt16.toNat_toUInt32, h16]
      · simp; omega
      · rw [UInt32.le_iff_toNat_le, hS]; simp; omega
      · rw [UInt32.le_iff_toNat_le, UInt32.toNat_sub_of_le, hS, UInt16.toNat_toUInt32, h16]
        · simp; omega
        · rw [UInt32.le_iff_toNat_le, hS]; simp; omega
    show ((topic ++ data).drop (UInt16.ofNat topic.length).toNat).take m.dataLength.toNat = _
    rw [h16, List.drop_left, hdl, List.take_length]
  have hrl : m.head.size.toNat = 18 + (msgRest m).length := by
    show (UInt32.ofNat (30 + topic.length + data.length)).toNat = _
    rw [hS]
    simp only [msgRest, List.length_append, be64_length, be16_length, List.length_cons, List.length_nil, m]; omega
  have hhost : toHost (wireOf m.head (msgRest m)) = .ok (.msg m) := by
    rw [toHost_wire m.head (msgRest m) hrl (show typeFine 2 = true by decide)]
    have : msgToHost m.head (msgRest m) = .ok m := by
      apply msgToHost_rest
      · show (UInt32.ofNat (30 + topic.length + data.length)).toNat = 30 + (topic ++ data).length
        rw [hS, List.length_append]; omega
      · show (UInt16.ofNat topic.length).toNat ≤ (topic ++ data).length
        rw [h16, List.length_append]; omega
      · show 1 ≤ setClass (setType 0 type) class_ &&& 0x0f ∧ setClass (setType 0 type) class_ &&& 0x0f ≤ 5
        rw [t1]; exact htype
      · show (setClass (setType 0 type) class_ &&& (0xf0 : UInt8)) >>> (4 : UInt8) = 1 ∨
          (setClass (setType 0 type) class_ &&& (0xf0 : UInt8)) >>> (4 : UInt8) = 11
        rw [t2]; exact hclass
      · rw [hmt, Utf8.validate_iff_of_no_nul _ hnul]; exact hutf
    rw [this]
    rfl
  refine ⟨m, wireOf m.head (msgRest m), hnew, toNetwork_eq' _ _ hrl, ?_, ?_, ?_, t1, t2, rfl, hmt, hmd⟩
  · rw [wireOf_length, ← hrl]; exact hS
  · intro rest
    rw [receive_wire _ _ _ hrl, hhost]; rfl
  · intro got more hb hm
    exact receive_part _ _ _ _ hrl hb hm

-- a message with topic "a/b" and data "hi"
example : ∃ m bytes, newWithData 1 1 1700000000000000 [0x61, 0x2F, 0x62] [0x68, 0x69] = some m ∧ msgToNetwork m = .ok bytes ∧
    receive (bytes ++ [1, 2, 3]) = .ok (.msg m, 35) ∧ m.topic = [0x61, 0x2F, 0x62] ∧ m.data = [0x68, 0x69] :=
  ⟨_, _, rfl, rfl, by decide +kernel, by decide +kernel, by decide +kernel⟩

/-- **C14** Control messages arrive as sent, if only known flags are used. -/
theorem control_roundtrip (flags : UInt16) (value : UInt32) (hf : flags &&& ~~~ ctrlAll = 0) (hr : flags &&& 1 = 0) (rest : Bytes) :
    ∃ h bytes, populateControl flags value = .ok h ∧ toNetwork h [] = .ok bytes ∧
      receive (bytes ++ rest) = .ok (.ctrl h [], bytes.length) ∧ h.type = flags ||| 1 ∧ h.value = value := by
  have hS : (UInt32.ofNat headSize).toNat = 18 + ([] : Bytes).length := rfl
  have hctrl : isCtrl (1 ||| flags) = true := by
    unfold isCtrl
    rw [beq_iff_eq]
    apply UInt16.toBitVec_inj.mp
    show (1#16 ||| flags.toBitVec) &&& 1#16 = 1#16
    apply BitVec.eq_of_getLsbD_eq
    intro i hi
    simp only [BitVec.getLsbD_and, BitVec.getLsbD_or]
    cases (1#16).getLsbD i <;> simp
  have hn2 : (1 ||| flags == 2) = false := by
    rw [beq_eq_false_iff_ne]
    intro h
    rw [h] at hctrl
    exact absurd hctrl (by decide)
  have hmask : (1 ||| flags) &&& ~~~ ctrlAll = 0 := by
    have h1 : (1 : UInt16) &&& ~~~ ctrlAll = 0 := by decide
    have e : (1 ||| flags) &&& ~~~ ctrlAll = (1 &&& ~~~ ctrlAll) ||| (flags &&& ~~~ ctrlAll) := by
      apply UInt16.toBitVec_inj.mp
      show (1#16 ||| flags.toBitVec) &&& (~~~ ctrlAll).toBitVec = (1#16 &&& (~~~ ctrlAll).toBitVec) ||| (flags.toBitVec &&& (~~~ ctrlAll).toBitVec)
      apply BitVec.eq_of_getLsbD_eq
      intro i hi
      simp only [BitVec.getLsbD_and, BitVec.getLsbD_or]
      cases (1#16).getLsbD i <;> cases flags.toBitVec.getLsbD i <;> simp
    rw [e, h1, hf]; rfl
  let h : Head := ⟨UInt32.ofNat headSize, 1 ||| flags, value⟩
  have hpop : populateControl flags value = .ok h := by
    unfold populateControl populateHead
    rw [if_neg (by rw [hr]; decide), if_neg (by decide)]
  refine ⟨h, wireOf h [], hpop, toNetwork_eq' h [] hS, ?_, ?_, rfl⟩
  · rw [receive_wire h [] rest hS, toHost_wire h [] hS (by show (if isCtrl (1 ||| flags) then _ else _) = true; rw [if_pos hctrl, hmask]; rfl)]
    rw [if_neg (by rw [show h.type = 1 ||| flags from rfl, hn2]; decide), if_pos hctrl]
    rfl
  · show 1 ||| flags = flags ||| 1
    apply UInt16.toBitVec_inj.mp
    exact BitVec.or_comm _ _

/-- **C14** Address messages arrive as sent. -/
theorem addr_roundtrip (a : MsgAddr) (hl : a.addr.length ≤ 128) (rest : Bytes) :
    ∃ bytes, addrToNetwork a = .ok bytes ∧ receive (bytes ++ rest) = .ok (.addr a, bytes.length) := by
  let h : Head := { addrHead (UInt32.ofNat a.addr.length) with value := a.value }
  have h32 : (UInt32.ofNat a.addr.length).toNat = a.addr.length := by rw [UInt32.toNat_ofNat']; omega
  have hS : h.size.toNat = 18 + (a.protocol :: a.addr).length := by
    show (19 + UInt32.ofNat a.addr.length).toNat = _
    rw [UInt32.toNat_add, h32]
    simp; omega
  have hn : toNetwork h ((a.protocol :: a.addr) ++ List.replicate (128 - a.addr.length) 0) = _ := toNetwork_eq h _ _ hS
  refine ⟨wireOf h (a.protocol :: a.addr), ?_, ?_⟩
  · unfold addrToNetwork
    rw [if_neg (by omega)]
    exact hn
  · rw [receive_wire h _ rest hS, toHost_wire h _ hS (show typeFine 8 = true by decide)]
    have : addrToHost h (a.protocol :: a.addr) = .ok a := by
      unfold addrToHost
      rw [if_neg (by rw [hS]; simp; omega)]
      rfl
    rw [this, show h.type = 8 from rfl]
    rfl

example : ∃ bytes, addrToNetwork ⟨7, 17, [2, 0, 0x1f, 0x90, 127, 0, 0, 1]⟩ = .ok bytes ∧
    receive bytes = .ok (.addr ⟨7, 17, [2, 0, 0x1f, 0x90, 127, 0, 0, 1]⟩, 27) := by
  obtain ⟨bytes, h1, h2⟩ := addr_roundtrip ⟨7, 17, [2, 0, 0x1f, 0x90, 127, 0, 0, 1]⟩ (by decide) []
  refine ⟨bytes, h1, ?_⟩
  rw [List.append_nil] at h2
  have : bytes.length = 27 := by
    have := congrArg (fun r => match r with | .ok b => b.length | _ => 0) h1
    exact this.symm.trans (by decide +kernel)
  rw [h2, this]

theorem getTargetSize_soft {b : Bytes} (h18 : 18 ≤ b.length) (h : ∀ n, getTargetSize b ≠ .ok n) : getTargetSize b = .soft := by
  unfold getTargetSize at *
  rw [if_neg (by simp only [headSize]; omega)] at *
  split
  · rfl
  · rename_i hc; exact absurd (by rw [if_neg hc]) (h (at32 b 4))

/-- Two strings which differ in a window, cut at the same place. -/
theorem take_window (k : Nat) (p w w' s : Bytes) (hl : w.length = w'.length) :
    ∃ p1 w1 w1' s1, (p ++ w ++ s).take k = p1 ++ w1 ++ s1 ∧ (p ++ w' ++ s).take k = p1 ++ w1' ++ s1 ∧
      w1.length = w1'.length ∧ w1.length ≤ w.length := by
  refine ⟨p.take k, w.take (k - p.length), w'.take (k - p.length), s.take (k - (p.length + w.length)), ?_, ?_, ?_, ?_⟩
  · rw [List.take_append, List.take_append, List.length_append]
  · rw [List.take_append, List.take_append, List.length_append, hl]
  · simp [hl]
  · simp; omega

theorem drop_window (k : Nat) (p w w' s : Bytes) (hl : w.length = w'.length) :
    ∃ p1 w1 w1' s1, (p ++ w ++ s).drop k = p1 ++ w1 ++ s1 ∧ (p ++ w' ++ s).drop k = p1 ++ w1' ++ s1 ∧
      w1.length = w1'.length ∧ w1.length ≤ w.length := by
  refine ⟨p.drop k, w.drop (k - p.length), w'.drop (k - p.length), s.drop (k - (p.length + w.length)), ?_, ?_, ?_, ?_⟩
  · rw [List.drop_append, List.drop_append, List.length_append]
  · rw [List.drop_append, List.drop_append, List.length_append, hl]
  · simp [hl]
  · simp

theorem crc_window {p w w' s : Bytes} (hl : w.length = w'.length) (h4 : w.length ≤ 4)
    (h : Crc32.crc32buf (p ++ w ++ s) = Crc32.crc32buf (p ++ w' ++ s)) : w = w' :=
  Classical.byContradiction fun hne => Crc32.crc32buf_burst p w w' s hl h4 hne h

theorem be32_inj {x y : UInt32} (h : be32 x = be32 y) : x = y := by
  rw [← of_be32 x, h, of_be32]

/-- **C14** Damage to up to four consecutive bytes of a message is noticed, unless the damaged part contains both the end of the
head checksum and the beginning of what it covers: nothing damaged is delivered. -/
theorem corruption_refused (h : Head) (data : Bytes) (hs : h.size.toNat = 18 + data.length)
    (pre w w' suf rest : Bytes) (hb : wireOf h data = pre ++ w ++ suf) (hl : w.length = w'.length) (h4 : w.length ≤ 4) (hne : w ≠ w')
    (hpos : pre.length + w.length ≤ 4 ∨ 4 ≤ pre.length) :
    receive (pre ++ w' ++ suf ++ rest) = .soft := by
  have hlen : (pre ++ w ++ suf).length = 18 + data.length := by rw [← hb, wireOf_length]
  have hlen' : (pre ++ w' ++ suf).length = 18 + data.length := by
    rw [← hlen]; simp only [List.length_append, hl]
  have hsoft : getTargetSize (pre ++ w' ++ suf ++ rest) = .soft → receive (pre ++ w' ++ suf ++ rest) = .soft := by
    intro h; unfold receive; rw [h]; rfl
  rcases hpos with hpos | hpos
  · -- the head checksum is damaged
    apply hsoft
    apply getTargetSize_soft (by rw [List.length_append]; omega)
    intro n hn
    obtain ⟨tail, r, h14, he, _⟩ := (getTargetSize_iff _ _).mp hn
    have hsplit : ∃ s1 s2, suf = s1 ++ s2 ∧ (pre ++ w ++ s1).length = 4 := by
      refine ⟨suf.take (4 - (pre.length + w.length)), suf.drop (4 - (pre.length + w.length)), by simp, ?_⟩
      simp only [List.length_append, List.length_take] at hlen ⊢
      omega
    obtain ⟨s1, s2, rfl, h4'⟩ := hsplit
    rw [wireOf] at hb
    have e1 : be32 ⟨Crc32.crc32buf (headTail h (Crc32.crc32buf data))⟩ ++ (headTail h (Crc32.crc32buf data) ++ data) =
        (pre ++ w ++ s1) ++ s2 := by rw [hb]; simp
    obtain ⟨c1, c2⟩ := List.append_inj e1 (by rw [h4']; rfl)
    have e2 : (pre ++ w' ++ s1) ++ (s2 ++ rest) = be32 ⟨Crc32.crc32buf tail⟩ ++ (tail ++ r) := by rw [← he]; simp
    have h5 : (pre ++ w' ++ s1).length = 4 := by rw [← h4']; simp [hl]
    obtain ⟨d1, d2⟩ := List.append_inj e2 (by rw [h5]; rfl)
    rw [← c2] at d2
    have d3 : headTail h (Crc32.crc32buf data) ++ (data ++ rest) = tail ++ r := by rw [← d2]; simp
    obtain ⟨d4, _⟩ := List.append_inj d3 (by rw [h14]; rfl)
    rw [← d4, c1] at d1
    simp only [List.append_assoc, List.append_cancel_left_eq] at d1
    exact hne (List.append_cancel_right d1).symm
  · obtain ⟨q, rfl⟩ : ∃ q, pre = be32 ⟨Crc32.crc32buf (headTail h (Crc32.crc32buf data))⟩ ++ q := by
      have e1 : be32 ⟨Crc32.crc32buf (headTail h (Crc32.crc32buf data))⟩ ++ (headTail h (Crc32.crc32buf data) ++ data) =
          pre.take 4 ++ (pre.drop 4 ++ (w ++ suf)) := by
        rw [← List.append_assoc (pre.take 4), List.take_append_drop, ← List.append_assoc pre, ← hb]; rfl
      obtain ⟨c1, _⟩ := List.append_inj e1 (by rw [be32_length, List.length_take]; omega)
      exact ⟨pre.drop 4, by rw [c1, List.take_append_drop]⟩
    have hb' : headTail h (Crc32.crc32buf data) ++ data = q ++ w ++ suf := by
      rw [wireOf, List.append_assoc, List.append_assoc] at hb
      rw [List.append_assoc]
      exact List.append_cancel_left hb
    have ht : (q ++ w ++ suf).take 14 = headTail h (Crc32.crc32buf data) := by
      rw [← hb', ← headTail_length h (Crc32.crc32buf data)]; exact List.take_left
    have hd : (q ++ w ++ suf).drop 14 = data := by
      rw [← hb', ← headTail_length h (Crc32.crc32buf data)]; exact List.drop_left
    obtain ⟨p1, w1, w1', s1, a1, a2, a3, a4⟩ := take_window 14 q w w' suf hl
    obtain ⟨p2, w2, w2', s2, b1, b2, b3, b4⟩ := drop_window 14 q w w' suf hl
    have hnew : q ++ w' ++ suf = (p1 ++ w1' ++ s1) ++ (p2 ++ w2' ++ s2) := by
      rw [← a2, ← b2, List.take_append_drop]
    have hql : (q ++ w' ++ suf).length = 14 + data.length := by
      have := congrArg List.length hb'
      simp only [List.length_append, headTail_length] at this ⊢
      omega
    have h14 : (p1 ++ w1' ++ s1).length = 14 := by rw [← a2, List.length_take]; omega
    have hall : be32 ⟨Crc32.crc32buf (headTail h (Crc32.crc32buf data))⟩ ++ q ++ w' ++ suf ++ rest =
        be32 ⟨Crc32.crc32buf (headTail h (Crc32.crc32buf data))⟩ ++ ((p1 ++ w1' ++ s1) ++ ((p2 ++ w2' ++ s2) ++ rest)) := by
      rw [← List.append_assoc (p1 ++ w1' ++ s1), ← hnew]; simp
    by_cases hw : w1 = w1'
    · -- the data is damaged
      have hT : p1 ++ w1' ++ s1 = headTail h (Crc32.crc32buf data) := by rw [← hw, ← a1, ht]
      have hD : p2 ++ w2 ++ s2 = data := by rw [← b1, hd]
      have hw2 : w2 ≠ w2' := by
        intro e
        have : q ++ w ++ suf = q ++ w' ++ suf := by
          rw [hnew, ← hw, ← e, ← a1, ← b1, List.take_append_drop]
        simp only [List.append_assoc, List.append_cancel_left_eq] at this
        exact hne (List.append_cancel_right this)
      have hcrc : Crc32.crc32buf data ≠ Crc32.crc32buf (p2 ++ w2' ++ s2) := by
        rw [← hD]; exact Crc32.crc32buf_burst p2 w2 w2' s2 b3 (by omega) hw2
      have hDl : (p2 ++ w2' ++ s2).length = data.length := by
        rw [← hD]; simp [b3]
      have hrec : receive (wireC h (Crc32.crc32buf data) (p2 ++ w2' ++ s2) ++ rest) = .soft := by
        have hg : getTargetSize (wireC h (Crc32.crc32buf data) (p2 ++ w2' ++ s2) ++ rest) = .ok h.size := by
          rw [getTargetSize_iff]
          refine ⟨headTail h (Crc32.crc32buf data), (p2 ++ w2' ++ s2) ++ rest, rfl, by simp [wireC], ?_⟩
          have := at32_headTail h (Crc32.crc32buf data) []
          rw [List.append_nil] at this
          exact this.symm
        have hWl := wireC_length h (Crc32.crc32buf data) (p2 ++ w2' ++ s2)
        rw [hDl] at hWl
        have h0 : h.size ≠ 0 := by
          intro e; rw [e] at hs; simp at hs; omega
        unfold receive
        rw [hg]
        simp only [Res.bind]
        rw [if_neg h0, if_neg (by rw [List.length_append]; omega), if_neg (by simp [headSize]; omega), hs, ← hWl, List.take_left]
        have : toHost (wireC h (Crc32.crc32buf data) (p2 ++ w2' ++ s2)) = .soft := by
          unfold toHost
          rw [headToHost_wireC]
          split
          · simp only [Res.bind]
            have hdrop : (wireC h (Crc32.crc32buf data) (p2 ++ w2' ++ s2)).drop headSize = p2 ++ w2' ++ s2 := by
              rw [wireC, ← List.append_assoc, show headSize = (be32 ⟨Crc32.crc32buf (headTail h (Crc32.crc32buf data))⟩ ++
                headTail h (Crc32.crc32buf data)).length from rfl, List.drop_left]
            have : checkData h ⟨Crc32.crc32buf data⟩ (wireC h (Crc32.crc32buf data) (p2 ++ w2' ++ s2)) = .soft := by
              unfold checkData
              rw [hWl, if_neg (by simp [headSize]), if_neg (by simpa using hs), hdrop,
                if_pos (by rw [Ne, Crc32.crc32cmp_iff]; exact hcrc)]
            rw [this]
          · rfl
        rw [this]; rfl
      rw [hall, hT, ← hrec]
      simp [wireC]
    · -- the head is damaged
      apply hsoft
      rw [hall]
      apply getTargetSize_soft (by simp only [List.length_append, be32_length] at h14 ⊢; omega)
      intro n hn
      obtain ⟨tail, r, h14', he, _⟩ := (getTargetSize_iff _ _).mp hn
      obtain ⟨c1, c2⟩ := List.append_inj he rfl
      obtain ⟨c3, _⟩ := List.append_inj c2 (by rw [h14, h14'])
      have := be32_inj c1
      have := congrArg UInt32.toBitVec this
      simp only [← c3, ← ht, a1] at this
      exact hw (crc_window a3 (by omega) this)

/-! ## C15 -/

theorem bind_eq_ok {α β : Type} {r : Res α} {f : α → Res β} {b : β} (h : r.bind f = .ok b) : ∃ a, r = .ok a ∧ f a = .ok b := by
  cases r with
  | ok a => exact ⟨a, rfl, h⟩
  | _ => cases h

theorem map_eq_ok {α β : Type} {r : Res α} {f : α → β} {b : β} (h : r.map f = .ok b) : ∃ a, r = .ok a ∧ f a = b := by
  obtain ⟨a, h1, h2⟩ := bind_eq_ok h
  injection h2 with h2
  exact ⟨a, h1, h2⟩

/-- **C15** (partial) What is known of every message delivered to a callback: the bytes
used are the declared size, the type, class and topic are valid, topic and data are inside of what was
received, and the contents are the bytes received. Missing: that validation itself only looks at bytes of the
message (`validate_outside`). -/
theorem accepted_message_partial (b : Bytes) (m : MsgMsg) (n : Nat) (h : receive b = .ok (.msg m, n)) :
    n ≤ b.length ∧ m.head.size.toNat = n ∧ n = 30 + m.topic.length + m.data.length ∧
    (1 ≤ m.type ∧ m.type ≤ 5) ∧ (m.class_ = 1 ∨ m.class_ = 11) ∧
    Utf8.Spec.WellFormed (m.topic.takeWhile (· ≠ 0)) ∧ m.topic.length = m.topicLength.toNat ∧
    (b.take n).drop 30 = m.topic ++ m.data := by
  unfold receive at h
  obtain ⟨sz, hg, h⟩ := bind_eq_ok h
  split at h
  · cases h
  split at h
  · cases h
  rename_i hlen
  split at h
  · cases h
  rename_i hsz
  obtain ⟨r, h1, he⟩ := map_eq_ok h
  clear h
  injection he with he1 he2
  subst he1 he2
  unfold toHost at h1
  obtain ⟨⟨hd, dc⟩, hh, h2⟩ := bind_eq_ok h1
  obtain ⟨rest, hc, h⟩ := bind_eq_ok h2
  clear h1 h2
  have htl : (b.take sz.toNat).length = sz.toNat := by rw [List.length_take]; omega
  -- the data
  unfold checkData at hc
  split at hc
  · cases hc
  split at hc
  · cases hc
  rename_i hsize
  split at hc
  · cases hc
  injection hc with hc
  have hsize : hd.size.toNat = sz.toNat := by rw [htl] at hsize; simpa using hsize
  have hrl : rest.length = sz.toNat - 18 := by rw [← hc, List.length_drop, htl]; rfl
  -- the dispatch
  split at h
  · obtain ⟨m', hm, he⟩ := map_eq_ok h
    injection he with he
    subst he
    unfold msgToHost at hm
    split at hm
    · cases hm
    rename_i h30
    split at hm
    · cases hm
    unfold msgValidate at hm
    split at hm
    · cases hm
    split at hm
    · cases hm
    rename_i htop
    dsimp only at hm
    split at hm
    · rename_i hall
      injection hm with hm
      subst hm
      simp only [Bool.and_eq_true, Bool.or_eq_true, beq_iff_eq, decide_eq_true_eq] at hall
      dsimp only at htop hall ⊢
      have hb12 : (rest.drop 12).length = sz.toNat - 30 := by rw [List.length_drop, hrl]; omega
      have h30 : 30 ≤ sz.toNat := by simp only [headSize, msgMinSize] at h30; simp only [headSize] at hsz; omega
      have hdl : (hd.size - UInt32.ofNat msgMinSize - (at16 rest 10).toUInt32).toNat = sz.toNat - 30 - (at16 rest 10).toNat := by
        rw [UInt32.toNat_sub_of_le, UInt32.toNat_sub_of_le, hsize, UInt16.toNat_toUInt32]
        · rfl
        · rw [UInt32.le_iff_toNat_le, hsize]; exact h30
        · rw [UInt32.le_iff_toNat_le, UInt32.toNat_sub_of_le, hsize, UInt16.toNat_toUInt32]
          · show _ ≤ sz.toNat - 30; omega
          · rw [UInt32.le_iff_toNat_le, hsize]; exact h30
      have hdata : MsgMsg.data ⟨hd, at64 rest 0, rest.getD 8 0, rest.getD 9 0, at16 rest 10, rest.drop 12⟩ =
          (rest.drop 12).drop (at16 rest 10).toNat := by
        show ((rest.drop 12).drop (at16 rest 10).toNat).take _ = _
        apply List.take_of_length_le
        show _ ≤ (hd.size - UInt32.ofNat msgMinSize - (at16 rest 10).toUInt32).toNat
        rw [hdl, List.length_drop, hb12]
        exact Nat.le_refl _
      have htopl : (MsgMsg.topic ⟨hd, at64 rest 0, rest.getD 8 0, rest.getD 9 0, at16 rest 10, rest.drop 12⟩).length =
          (at16 rest 10).toNat := by
        show ((rest.drop 12).take (at16 rest 10).toNat).length = _
        rw [List.length_take]; omega
      refine ⟨by omega, hsize, ?_, hall.1.2, hall.1.1, (Utf8.validate_iff _).mp hall.2, htopl, ?_⟩
      · rw [htopl, hdata, List.length_drop, hb12]; omega
      · rw [hdata]
        show _ = (rest.drop 12).take (at16 rest 10).toNat ++ (rest.drop 12).drop (at16 rest 10).toNat
        rw [List.take_append_drop, ← hc, List.drop_drop]
        rfl
    · cases hm
  · exfalso
    split at h
    · cases h
    split at h
    · obtain ⟨_, _, he⟩ := map_eq_ok h; cases he
    split at h
    · obtain ⟨_, _, he⟩ := map_eq_ok h; cases he
    split at h
    · obtain ⟨_, _, he⟩ := map_eq_ok h; cases he
    · cases h

-- The hypothesis is met by each message which is sent (`message_roundtrip`).

/-- **C15** fails at full strength: with correct checksums, a topic length larger than the message makes the
receiver look at memory behind the message. -/
theorem validate_outside : ∃ b : Bytes, receive b = .oob :=
  ⟨wireOf ⟨30, 2, 0⟩ (be64 0 ++ ([0x11, 0] ++ be16 1)), by decide +kernel⟩

/-! ## C55 -/

/-- **C55** fails at full strength: a head with correct checksum and a size of 0, or between 1 and 17, makes the receiver abort. -/
theorem tiny_size_aborts :
    receive (wireOf ⟨0, 1, 0⟩ []) = .bug ∧ receive (wireOf ⟨17, 1, 0⟩ []) = .bug := by decide +kernel

/-- **C55** (partial) Only such heads make the receiver abort. Missing: heads with a size below 18. -/
theorem receive_no_bug_partial (b : Bytes) (h : ∀ n, getTargetSize b = .ok n → 18 ≤ n.toNat) : receive b ≠ .bug := by
  have hmap : ∀ {α β : Type} {r : Res α} {f : α → β}, r ≠ .bug → r.map f ≠ .bug := by
    intro α β r f hr hm
    cases r with
    | bug => exact hr rfl
    | _ => cases hm
  unfold receive
  cases hg : getTargetSize b with
  | ok n =>
    have hn := h n hg
    simp only [Res.bind]
    split
    · rename_i h0; subst h0; simp at hn
    split
    · simp
    split
    · rename_i h1; simp only [headSize] at h1; omega
    apply hmap
    unfold toHost
    cases hh : headToHost (b.take n.toNat) with
    | ok x =>
      obtain ⟨hd, dc⟩ := x
      simp only [Res.bind]
      rename_i hl _
      have hlen : (b.take n.toNat).length = n.toNat := by rw [List.length_take]; omega
      cases hc : checkData hd dc (b.take n.toNat) with
      | ok rest =>
        dsimp only
        split
        · apply hmap
          unfold msgToHost msgValidate
          dsimp only
          repeat' split
          all_goals simp
        split
        · simp
        split
        · apply hmap
          unfold addrToHost
          split <;> simp
        split
        · apply hmap
          unfold logToHost
          dsimp only
          repeat' split
          all_goals simp
        split
        · apply hmap
          unfold statsUnpack
          dsimp only
          repeat' split
          all_goals simp
        · simp
      | bug =>
        exfalso
        unfold checkData at hc
        rw [hlen, if_neg (by simp only [headSize]; omega)] at hc
        split at hc
        · cases hc
        split at hc <;> cases hc
      | _ => simp
    | bug =>
      exfalso
      unfold headToHost at hh
      dsimp only at hh
      split at hh
      · cases hh
      split at hh <;> cases hh
    | _ => simp [Res.bind]
  | bug =>
    exfalso
    unfold getTargetSize at hg
    split at hg
    · cases hg
    split at hg <;> cases hg
  | _ => simp [Res.bind]

-- a sent message is such a case
example (h : Head) (data : Bytes) (hs : h.size.toNat = 18 + data.length) : receive (wireOf h data) ≠ .bug := by
  apply receive_no_bug_partial
  intro n hn
  have := getTargetSize_wire h data []
  rw [List.append_nil, hn] at this
  injection this with this
  subst this
  omega

/-! ## C51: log messages -/

theorem logFile_length (f : Bytes) : (logFile f).length = 128 := by
  simp only [logFile, List.length_append, List.length_take, List.length_replicate, List.length_cons, List.length_nil]; omega

theorem getLastD_append (a b : Bytes) (hb : b ≠ []) (d : UInt8) : (a ++ b).getLastD d = b.getLastD d := by
  rw [List.getLastD_eq_getLast?, List.getLastD_eq_getLast?, List.getLast?_append]
  rw [List.getLast?_eq_some_getLast hb]; rfl

theorem logRest_length (m : MsgLog) (hf : m.file.length = 128) : (logRest m).length = 137 + m.body.length := by
  simp only [logRest, List.length_append, be32_length, be16_length, hf, List.length_cons, List.length_nil]; omega

/-- What the receiver makes of a log message of at least 157 bytes. -/
theorem logToHost_rest (m : MsgLog) (hf : m.file.length = 128) (hs : m.head.size.toNat = 155 + m.body.length)
    (h2 : 2 ≤ m.body.length) :
    logToHost m.head (logRest m) =
      if m.prefixSize.toNat > m.body.length - 2 then .soft
      else if m.prefixSize.toNat > 0 ∧ m.body.getD (m.prefixSize.toNat - 1) 0 ≠ 0 then .soft
      else if m.body.getLastD 0 ≠ 0 then .soft
      else .ok m := by
  have e1 : (logRest m).take 128 = m.file := by rw [← hf]; exact List.take_left
  have e2 : at32 (logRest m) 128 = m.line := at32_append hf _ _
  have g : ∀ i, i < 3 → (logRest m).getD (132 + i) 0 = [m.isStdout, m.levelTranslated, m.levelOrig].getD i 0 := by
    intro i hi
    unfold logRest
    rw [← List.append_assoc, getD_append (by simp [hf, be32_length]), List.getD, List.getElem?_append_left (by simpa using hi)]
    rfl
  have e3 : (logRest m).getD 132 0 = m.isStdout := g 0 (by omega)
  have e4 : (logRest m).getD 133 0 = m.levelTranslated := g 1 (by omega)
  have e5 : (logRest m).getD 134 0 = m.levelOrig := g 2 (by omega)
  have e6 : at16 (logRest m) 135 = m.prefixSize := by
    unfold logRest
    rw [← List.append_assoc, ← List.append_assoc]
    exact at16_append (by simp [hf, be32_length]) _ _
  have hsplit : logRest m = (m.file ++ be32 m.line ++ [m.isStdout, m.levelTranslated, m.levelOrig] ++ be16 m.prefixSize) ++ m.body := by
    simp [logRest]
  have e7 : (logRest m).drop 137 = m.body := by
    rw [hsplit]
    have : (m.file ++ be32 m.line ++ [m.isStdout, m.levelTranslated, m.levelOrig] ++ be16 m.prefixSize).length = 137 := by
      simp [hf, be32_length, be16_length]
    rw [← this, List.drop_left]
  have e8 : (logRest m).getLastD 0 = m.body.getLastD 0 := by
    rw [hsplit, getLastD_append]
    intro e; rw [e] at h2; simp at h2
  have hz : (m.head.size.toUInt64 - 157).toNat = m.body.length - 2 := by
    rw [UInt64.toNat_sub_of_le, UInt32.toNat_toUInt64, hs]
    · show 155 + m.body.length - 157 = _; omega
    · rw [UInt64.le_iff_toNat_le, UInt32.toNat_toUInt64, hs]
      show 157 ≤ _
      omega
  unfold logToHost
  rw [if_neg (by rw [logRest_length m hf]; omega), e1, e2, e3, e4, e5, e6, e7, e8]
  dsimp only
  rw [hz]
  by_cases h : m.prefixSize.toNat > m.body.length - 2
  · rw [if_pos h, if_pos h]
  · rw [if_neg h, if_neg h, if_neg (by omega)]

/-- Making a log message with a prefix which is not truncated. -/
theorem logNew_eq (file : Bytes) (line : Int) (lt lo : UInt8) (flags : UInt32) (pfx message : Bytes)
    (hp : pfx.length ≤ 65534) : logNew file line lt lo flags pfx message =
      .ok ⟨⟨UInt32.ofNat (155 + ((pfx ++ [(0 : UInt8)]) ++ (message ++ [(0 : UInt8)]).take 65536).length), 16, flags⟩, logFile file, UInt32.ofNat line.toNat, 0,
        lt, lo, UInt16.ofNat (pfx.length + 1), (pfx ++ [0]) ++ (message ++ [(0 : UInt8)]).take 65536⟩ := by
  have ht : (message ++ [(0 : UInt8)]).take (if message.length + 1 > 65536 then 65536 else message.length + 1) = (message ++ [(0 : UInt8)]).take 65536 := by
    split
    · rfl
    · rw [List.take_of_length_le (by simp), List.take_of_length_le (by simp; omega)]
  have hl : ((message ++ [(0 : UInt8)]).take 65536).length = if message.length + 1 > 65536 then 65536 else message.length + 1 := by
    rw [List.length_take, List.length_append, List.length_singleton]; split <;> omega
  have hlen : logMinSize + (pfx.length + 1) + (if message.length + 1 > 65536 then 65536 else message.length + 1) =
      155 + ((pfx ++ [(0 : UInt8)]) ++ (message ++ [(0 : UInt8)]).take 65536).length := by
    rw [List.length_append, hl, List.length_append]; simp only [logMinSize, List.length_singleton]; omega
  have hS : (UInt32.ofNat (155 + ((pfx ++ [(0 : UInt8)]) ++ (message ++ [(0 : UInt8)]).take 65536).length)).toNat =
      155 + ((pfx ++ [(0 : UInt8)]) ++ (message ++ [(0 : UInt8)]).take 65536).length := by
    rw [UInt32.toNat_ofNat', List.length_append, hl, List.length_append, List.length_singleton]; split <;> omega
  unfold logNew
  rw [if_neg (by omega)]
  dsimp only
  rw [ht, hlen]
  unfold populateHead
  rw [if_neg (by rw [hS]; simp only [headSize]; omega)]
  dsimp only
  rw [List.take_of_length_le (l := pfx ++ [(0 : UInt8)]) (by simp)]

/-- **C51** (partial) A log message with a text of 1 to 65535 characters and a prefix of up to 65534 characters arrives as it was
and gives back the prefix and the text (each with its NUL). Missing: empty texts, and texts or prefixes
which are truncated; the receiver refuses those (`log_empty_refused`, `log_long_refused`). -/
theorem log_roundtrip_partial (file : Bytes) (line : Int) (lt lo : UInt8) (flags : UInt32) (pfx message : Bytes)
    (hp : pfx.length ≤ 65534) (hm : 1 ≤ message.length ∧ message.length ≤ 65535) (rest : Bytes) :
    ∃ m bytes, logNew file line lt lo flags pfx message = .ok m ∧ logToNetwork m = .ok bytes ∧
      receive (bytes ++ rest) = .ok (.log m, bytes.length) ∧
      logToStr m = (pfx ++ [0], message ++ [0]) ∧ m.levelTranslated = lt ∧ m.levelOrig = lo ∧ m.head.value = flags ∧
      m.line.toNat = line.toNat % 2 ^ 32 := by
  have h16 : (UInt16.ofNat (pfx.length + 1)).toNat = pfx.length + 1 := by rw [UInt16.toNat_ofNat']; omega
  have hnew := logNew_eq file line lt lo flags pfx message hp
  rw [List.take_of_length_le (l := message ++ [0]) (by simp; omega)] at hnew
  have hbl : ((pfx ++ [(0 : UInt8)]) ++ (message ++ [(0 : UInt8)])).length = (pfx.length + 1) + (message.length + 1) := by simp; omega
  generalize hm' : (⟨⟨UInt32.ofNat (155 + ((pfx ++ [(0 : UInt8)]) ++ (message ++ [(0 : UInt8)])).length), 16, flags⟩, logFile file, UInt32.ofNat line.toNat, 0,
        lt, lo, UInt16.ofNat (pfx.length + 1), (pfx ++ [0]) ++ (message ++ [0])⟩ : MsgLog) = m at hnew
  have hbody : m.body = (pfx ++ [0]) ++ (message ++ [0]) := by rw [← hm']
  have hpz : m.prefixSize.toNat = pfx.length + 1 := by rw [← hm']; exact h16
  have hf : m.file.length = 128 := by rw [← hm']; exact logFile_length file
  have hty : m.head.type = 16 := by rw [← hm']
  have hs : m.head.size.toNat = 155 + m.body.length := by
    rw [hbody, ← hm']
    show (UInt32.ofNat _).toNat = _
    rw [UInt32.toNat_ofNat', hbl]; omega
  have hs' : m.head.size.toNat = 18 + (logRest m).length := by rw [hs, logRest_length m hf]; omega
  have hlog : logToHost m.head (logRest m) = .ok m := by
    rw [logToHost_rest m hf hs (by rw [hbody, hbl]; omega), hpz, hbody, hbl, if_neg (by omega), if_neg, if_neg]
    · rw [getLastD_append _ _ (by simp)]; simp
    · rw [List.append_assoc, show pfx.length + 1 - 1 = pfx.length + 0 by omega, getD_append rfl]; simp
  refine ⟨m, wireOf m.head (logRest m), hnew, toNetwork_eq' _ _ hs', ?_, ?_, by rw [← hm'], by rw [← hm'], by rw [← hm'], ?_⟩
  · rw [receive_wire _ _ _ hs', toHost_wire _ _ hs' (by rw [hty]; decide), hlog, hty]
    rfl
  · unfold logToStr
    rw [hbody, hpz, show pfx.length + 1 = (pfx ++ [0]).length by simp, List.take_left, List.drop_left]
  · rw [← hm']
    show (UInt32.ofNat line.toNat).toNat = _
    rw [UInt32.toNat_ofNat']

/-- **C51** fails at full strength: a log message with an empty text is made and sent but refused by the receiver. -/
theorem log_empty_refused (file : Bytes) (line : Int) (lt lo : UInt8) (flags : UInt32) (pfx rest : Bytes) (hp : pfx.length ≤ 65534) :
    ∃ m bytes, logNew file line lt lo flags pfx [] = .ok m ∧ logToNetwork m = .ok bytes ∧ receive (bytes ++ rest) = .soft := by
  have h16 : (UInt16.ofNat (pfx.length + 1)).toNat = pfx.length + 1 := by rw [UInt16.toNat_ofNat']; omega
  have hnew := logNew_eq file line lt lo flags pfx [] hp
  rw [List.take_of_length_le (l := ([] : Bytes) ++ [0]) (by simp)] at hnew
  have hbl : ((pfx ++ [(0 : UInt8)]) ++ (([] : Bytes) ++ [(0 : UInt8)])).length = (pfx.length + 1) + 1 := by simp
  generalize hm' : (⟨⟨UInt32.ofNat (155 + ((pfx ++ [(0 : UInt8)]) ++ (([] : Bytes) ++ [(0 : UInt8)])).length), 16, flags⟩, logFile file, UInt32.ofNat line.toNat, 0,
        lt, lo, UInt16.ofNat (pfx.length + 1), (pfx ++ [0]) ++ (([] : Bytes) ++ [0])⟩ : MsgLog) = m at hnew
  have hbody : m.body = (pfx ++ [0]) ++ (([] : Bytes) ++ [0]) := by rw [← hm']
  have hpz : m.prefixSize.toNat = pfx.length + 1 := by rw [← hm']; exact h16
  have hf : m.file.length = 128 := by rw [← hm']; exact logFile_length file
  have hty : m.head.type = 16 := by rw [← hm']
  have hs : m.head.size.toNat = 155 + m.body.length := by
    rw [hbody, ← hm']
    show (UInt32.ofNat _).toNat = _
    rw [UInt32.toNat_ofNat', hbl]; omega
  have hs' : m.head.size.toNat = 18 + (logRest m).length := by rw [hs, logRest_length m hf]; omega
  refine ⟨m, wireOf m.head (logRest m), hnew, toNetwork_eq' _ _ hs', ?_⟩
  rw [receive_wire _ _ _ hs', toHost_wire _ _ hs' (by rw [hty]; decide),
    logToHost_rest m hf hs (by rw [hbody, hbl]; omega), hty]
  rw [if_pos (c := m.prefixSize.toNat > m.body.length - 2) (by rw [hpz, hbody, hbl]; omega)]
  rfl

/-- **C51** fails at full strength: a log message with a text of more than 65535 characters is truncated such that its terminating NUL is
missing, and the receiver refuses it. -/
theorem log_long_refused (file : Bytes) (line : Int) (lt lo : UInt8) (flags : UInt32) (pfx message rest : Bytes)
    (hp : pfx.length ≤ 65534) (hm : 65535 < message.length) (hnul : (0 : UInt8) ∉ message) :
    ∃ m bytes, logNew file line lt lo flags pfx message = .ok m ∧ logToNetwork m = .ok bytes ∧ receive (bytes ++ rest) = .soft := by
  have h16 : (UInt16.ofNat (pfx.length + 1)).toNat = pfx.length + 1 := by rw [UInt16.toNat_ofNat']; omega
  have hnew := logNew_eq file line lt lo flags pfx message hp
  rw [List.take_append_of_le_length (l₁ := message) (by omega)] at hnew
  have htl : (message.take 65536).length = 65536 := by rw [List.length_take]; omega
  have hbl : ((pfx ++ [(0 : UInt8)]) ++ message.take 65536).length = (pfx.length + 1) + 65536 := by rw [List.length_append, htl]; simp
  generalize hm' : (⟨⟨UInt32.ofNat (155 + ((pfx ++ [(0 : UInt8)]) ++ message.take 65536).length), 16, flags⟩, logFile file, UInt32.ofNat line.toNat, 0,
        lt, lo, UInt16.ofNat (pfx.length + 1), (pfx ++ [0]) ++ message.take 65536⟩ : MsgLog) = m at hnew
  have hbody : m.body = (pfx ++ [0]) ++ message.take 65536 := by rw [← hm']
  have hpz : m.prefixSize.toNat = pfx.length + 1 := by rw [← hm']; exact h16
  have hf : m.file.length = 128 := by rw [← hm']; exact logFile_length file
  have hty : m.head.type = 16 := by rw [← hm']
  have hs : m.head.size.toNat = 155 + m.body.length := by
    rw [hbody, ← hm']
    show (UInt32.ofNat _).toNat = _
    rw [UInt32.toNat_ofNat', hbl]; omega
  have hs' : m.head.size.toNat = 18 + (logRest m).length := by rw [hs, logRest_length m hf]; omega
  refine ⟨m, wireOf m.head (logRest m), hnew, toNetwork_eq' _ _ hs', ?_⟩
  have hne : message.take 65536 ≠ [] := by intro e; rw [e] at htl; simp at htl
  have hlast : (message.take 65536).getLastD 0 ≠ 0 := by
    rw [List.getLastD_eq_getLast?, List.getLast?_eq_some_getLast hne]
    show List.getLast _ hne ≠ 0
    intro e
    exact hnul (List.take_subset _ _ (e ▸ List.getLast_mem hne))
  have : logToHost m.head (logRest m) = .soft := by
    rw [logToHost_rest m hf hs (by rw [hbody, hbl]; omega), hpz, hbody, hbl, if_neg (by omega), if_neg, getLastD_append _ _ hne, if_pos hlast]
    rw [List.append_assoc, show pfx.length + 1 - 1 = pfx.length + 0 by omega, getD_append rfl]; simp
  rw [receive_wire _ _ _ hs', toHost_wire _ _ hs' (by rw [hty]; decide), this, hty]
  rfl

/-- **C51** Log messages which are too short make the receiver look outside of the message. -/
theorem log_short_outside : ∃ b : Bytes, receive b = .oob :=
  ⟨wireOf ⟨19, 16, 0⟩ [0], by decide +kernel⟩

/-! ## C52: statistics messages -/

/-- **C52** A statistics message made with a path and data within the limits arrives as it was. -/
theorem stats_roundtrip (type : UInt8) (flags : UInt32) (path data : Bytes) (ht : type ≤ 3) (hf : flags &&& ~~~ (15 : UInt32) = 0)
    (hp : path.length ≤ 512) (hn : (0 : UInt8) ∉ path) (hd : data.length ≤ 512) (rest : Bytes) :
    ∃ m bytes, statsInit type flags path data = some m ∧ statsToNetwork m = .ok bytes ∧
      receive (bytes ++ rest) = .ok (.stats m, bytes.length) ∧ m.path = path ∧ m.data = data ∧ m.type = type ∧ m.flags = flags := by
  have h16 : (UInt16.ofNat (path.length + 1)).toNat = path.length + 1 := by rw [UInt16.toNat_ofNat']; omega
  let m : MsgStats := ⟨type, flags, 0, path, data⟩
  have hrl : (statsRest m).length = 7 + (path.length + (1 + data.length)) := by
    simp only [statsRest, List.length_append, List.length_singleton, be32_length, be16_length, m]; omega
  have hS : (UInt32.ofNat (headSize + (statsRest m).length)).toNat = 18 + (statsRest m).length := by
    rw [UInt32.toNat_ofNat', hrl]; simp only [headSize]; omega
  let h : Head := ⟨UInt32.ofNat (headSize + (statsRest m).length), 6, 0⟩
  have hpop : populateHead 6 (UInt32.ofNat (headSize + (statsRest m).length)) m.timestamp = .ok h := by
    unfold populateHead
    rw [if_neg (by rw [hS]; simp [headSize])]
  have hun : statsUnpack h (statsRest m) = .ok m := by
    have e1 : at32 (statsRest m) 1 = flags := at32_append (p := [type]) rfl _ _
    have e2 : at16 (statsRest m) 5 = UInt16.ofNat (path.length + 1) := by
      show at16 ([type] ++ (be32 flags ++ (be16 (UInt16.ofNat (path.length + 1)) ++ (path ++ ([0] ++ data))))) 5 = _
      rw [← List.append_assoc]; exact at16_append rfl _ _
    have e3 : (statsRest m).drop 7 = (path ++ [0]) ++ data := by
      show path ++ ([0] ++ data) = _
      simp
    have e4 : (statsRest m).getD 0 0 = type := rfl
    unfold statsUnpack
    rw [if_neg (by rw [hrl]; omega), if_neg (by rw [hrl]; omega), e1, e2, e3, e4, h16]
    dsimp only
    have hpd : ((path ++ [0]) ++ data).length = path.length + 1 + data.length := by simp; omega
    have hno : (path ++ [0]).takeWhile (· ≠ 0) = path := by
      rw [List.takeWhile_append_of_pos]
      · simp
      · intro a ha; simp only [decide_eq_true_eq]; rintro rfl; exact hn ha
    rw [if_neg (by simp [hf]), if_neg (by rw [UInt8.not_lt]; exact ht), if_neg (by rw [hpd]; omega),
      if_neg (by rw [hpd]; simp only [dataMax]; omega), if_neg, if_neg (by simp only [pathMax]; omega),
      show path.length + 1 = (path ++ [0]).length by simp, List.take_left, List.drop_left, hno]
    · rw [List.append_assoc, show path.length + 1 - 1 = path.length + 0 by omega, getD_append rfl]; simp
  refine ⟨m, wireOf h (statsRest m), ?_, ?_, ?_, rfl, rfl, rfl, rfl⟩
  · unfold statsInit
    rw [if_neg (by simp only [pathMax]; omega), if_neg (by simp only [dataMax]; omega)]
  · unfold statsToNetwork
    rw [hpop]
    exact toNetwork_eq' h _ hS
  · rw [receive_wire h _ _ hS, toHost_wire h _ hS (show typeFine 6 = true by decide), hun, show h.type = 6 from rfl]
    rfl

/-- **C52** fails at full strength: a statistics message without a path and with more than 512 bytes of data, with correct
checksums, overruns the receiver's buffer (on the stack). -/
theorem stats_overflow (n : Nat) (hn : 512 < n ∧ n ≤ 1025) (rest : Bytes) :
    receive (wireOf ⟨UInt32.ofNat (25 + n), 6, 0⟩ ([1] ++ (be32 0 ++ (be16 0 ++ List.replicate n 0x41))) ++ rest) = .oob := by
  have hl : ([1] ++ (be32 0 ++ (be16 0 ++ List.replicate n 0x41))).length = 7 + n := by
    simp [be32_length, be16_length]; omega
  have hS : (UInt32.ofNat (25 + n)).toNat = 18 + ([1] ++ (be32 0 ++ (be16 0 ++ List.replicate n (0x41 : UInt8)))).length := by
    rw [UInt32.toNat_ofNat', hl]; omega
  rw [receive_wire _ _ _ hS, toHost_wire _ _ hS (show typeFine 6 = true by decide)]
  have : statsUnpack ⟨UInt32.ofNat (25 + n), 6, 0⟩ ([1] ++ (be32 0 ++ (be16 0 ++ List.replicate n 0x41))) = .oob := by
    have e1 : at32 ([1] ++ (be32 0 ++ (be16 0 ++ List.replicate n 0x41))) 1 = 0 := at32_append (p := [1]) rfl _ _
    have e2 : at16 ([1] ++ (be32 0 ++ (be16 0 ++ List.replicate n 0x41))) 5 = 0 := by
      rw [← List.append_assoc]; exact at16_append rfl _ _
    have e3 : ([1] ++ (be32 0 ++ (be16 0 ++ List.replicate n (0x41 : UInt8)))).drop 7 = List.replicate n 0x41 := rfl
    have e4 : ([1] ++ (be32 0 ++ (be16 0 ++ List.replicate n (0x41 : UInt8)))).getD 0 0 = 1 := rfl
    unfold statsUnpack
    rw [if_neg (by rw [hl]; omega), if_neg (by rw [hl]; omega), e1, e2, e3, e4]
    dsimp only
    rw [if_neg (by decide), if_neg (by decide), if_neg (by simp), if_pos (by simp [dataMax]; omega)]
  dsimp only
  rw [this, if_neg (by decide), if_neg (by decide), if_neg (by decide), if_neg (by decide), if_pos (by decide)]
  rfl

/-! ## C53: operations on messages -/

/-- A message in memory is consistent: the size covers the fields, topic and data. -/
def Consistent (m : MsgMsg) : Prop := m.head.size.toNat = 30 + m.body.length ∧ m.topicLength.toNat ≤ m.body.length

theorem consistent_data {m : MsgMsg} (h : Consistent m) : m.dataLength.toNat = m.body.length - m.topicLength.toNat ∧
    m.data = m.body.drop m.topicLength.toNat ∧ m.body = m.topic ++ m.data ∧ m.topic.length = m.topicLength.toNat := by
  obtain ⟨h1, h2⟩ := h
  have hd : m.dataLength.toNat = m.body.length - m.topicLength.toNat := by
    unfold MsgMsg.dataLength
    rw [UInt32.toNat_sub_of_le, UInt32.toNat_sub_of_le, h1, UInt16.toNat_toUInt32]
    · show 30 + m.body.length - 30 - _ = _; omega
    · rw [UInt32.le_iff_toNat_le, h1]; show 30 ≤ _; omega
    · rw [UInt32.le_iff_toNat_le, UInt32.toNat_sub_of_le, h1, UInt16.toNat_toUInt32]
      · show _ ≤ 30 + m.body.length - 30; omega
      · rw [UInt32.le_iff_toNat_le, h1]; show 30 ≤ _; omega
  have hdata : m.data = m.body.drop m.topicLength.toNat := by
    unfold MsgMsg.data
    apply List.take_of_length_le
    rw [hd, List.length_drop]; exact Nat.le_refl _
  refine ⟨hd, hdata, ?_, ?_⟩
  · rw [hdata]; exact (List.take_append_drop _ _).symm
  · unfold MsgMsg.topic; rw [List.length_take]; omega

/-- **C53** Setting the topic of a message changes the topic and nothing else, and the message stays consistent; it
aborts exactly when the new message would be larger than a message can be. -/
theorem topicSet_eq (m : MsgMsg) (h : Consistent m) (topic : Bytes) (ht : topic.length ≤ 0xffff) :
    (30 + topic.length + m.data.length > 0xffffffff ∧ topicSet m topic = .bug) ∨
    ∃ r, topicSet m topic = .ok r ∧ Consistent r ∧ r.topic = topic ∧ r.data = m.data ∧ r.timestamp = m.timestamp ∧
      r.type = m.type ∧ r.class_ = m.class_ ∧ r.version = m.version ∧ r.head.type = m.head.type ∧ r.head.value = m.head.value := by
  obtain ⟨hd, hdata, hbody, htl⟩ := consistent_data h
  have h16 : (UInt16.ofNat topic.length).toNat = topic.length := by rw [UInt16.toNat_ofNat']; omega
  have hdl : m.data.length = m.dataLength.toNat := by rw [hdata, hd, List.length_drop]
  unfold topicSet duplicateNoDataWithSize
  rw [h16]
  dsimp only
  by_cases hb : msgMinSize + topic.length + m.dataLength.toNat > 0xffffffff
  · left
    rw [if_pos hb]
    exact ⟨by rw [hdl]; exact hb, rfl⟩
  · right
    rw [if_neg hb]
    simp only [Res.bind]
    rw [if_neg (by rw [hd]; have := h.2; omega)]
    have hcons : Consistent { m with head := { m.head with size := UInt32.ofNat (msgMinSize + topic.length + m.dataLength.toNat) }, topicLength := UInt16.ofNat topic.length, body := topic ++ m.data } := by
      refine ⟨?_, ?_⟩
      · show (UInt32.ofNat (msgMinSize + topic.length + m.dataLength.toNat)).toNat = 30 + (topic ++ m.data).length
        rw [UInt32.toNat_ofNat', List.length_append, hdl]
        simp only [msgMinSize] at hb ⊢
        omega
      · show (UInt16.ofNat topic.length).toNat ≤ (topic ++ m.data).length
        rw [h16, List.length_append]; omega
    refine ⟨_, rfl, hcons, ?_, ?_, rfl, rfl, rfl, rfl, rfl, rfl⟩
    · show (topic ++ m.data).take (UInt16.ofNat topic.length).toNat = _
      rw [h16, List.take_left]
    · rw [(consistent_data hcons).2.1]
      show (topic ++ m.data).drop (UInt16.ofNat topic.length).toNat = _
      rw [h16, List.drop_left]

/-- **C53** Made and received messages are consistent. -/
theorem newWithData_consistent (type class_ : UInt8) (timestamp : UInt64) (topic data : Bytes) (m : MsgMsg)
    (ht : topic.length ≤ 0xffff) (hd : data.length ≤ 0xffffffff) (h : newWithData type class_ timestamp topic data = some m) : Consistent m := by
  have h16 : (UInt16.ofNat topic.length).toNat = topic.length := by rw [UInt16.toNat_ofNat']; omega
  have h32 : (UInt32.ofNat data.length).toNat = data.length := by rw [UInt32.toNat_ofNat']; omega
  unfold newWithData newEmpty populateHead at h
  rw [h16, h32] at h
  dsimp only at h
  split at h
  · cases h
  rename_i m' hm'
  split at hm'
  · cases hm'
  rename_i hs
  split at hm'
  · rename_i hd' he
    split at he
    · cases he
    cases he
    cases hm'
    cases h
    refine ⟨?_, ?_⟩
    · show (UInt32.ofNat (msgMinSize + topic.length + data.length)).toNat = 30 + (topic ++ data).length
      rw [UInt32.toNat_ofNat', List.length_append]
      simp only [msgMinSize] at hs ⊢
      omega
    · show (UInt16.ofNat topic.length).toNat ≤ (topic ++ data).length
      rw [h16, List.length_append]; omega
  · cases hm'

/-- **C53** A copy without data has the topic and fields of the original and no data. -/
theorem duplicateNoData_eq (m : MsgMsg) (h : Consistent m) :
    ∃ r, duplicateNoData m = .ok r ∧ Consistent r ∧ r.topic = m.topic ∧ r.data = [] ∧ r.timestamp = m.timestamp ∧ r.type = m.type ∧
      r.class_ = m.class_ := by
  obtain ⟨hd, hdata, hbody, htl⟩ := consistent_data h
  unfold duplicateNoData
  rw [if_neg (by have := h.2; omega)]
  have hlt := m.topicLength.toNat_lt
  have hcons : Consistent { m with head := { m.head with size := UInt32.ofNat (msgMinSize + m.topicLength.toNat) }, body := m.body.take m.topicLength.toNat } := by
    refine ⟨?_, ?_⟩
    · show (UInt32.ofNat (msgMinSize + m.topicLength.toNat)).toNat = 30 + (m.body.take m.topicLength.toNat).length
      have := h.2
      rw [UInt32.toNat_ofNat', List.length_take]
      simp only [msgMinSize]
      omega
    · show m.topicLength.toNat ≤ (m.body.take m.topicLength.toNat).length
      rw [List.length_take]; have := h.2; omega
  refine ⟨_, rfl, hcons, ?_, ?_, rfl, rfl, rfl⟩
  · show (m.body.take m.topicLength.toNat).take m.topicLength.toNat = m.body.take m.topicLength.toNat
    rw [List.take_take, Nat.min_self]
  · rw [(consistent_data hcons).2.1]
    show (m.body.take m.topicLength.toNat).drop m.topicLength.toNat = []
    rw [List.drop_eq_nil_iff, List.length_take]; omega

/-- **C53** Comparing the topic of a message with a string. -/
theorem topicEquals_iff (m : MsgMsg) (h : Consistent m) (topic : Bytes) : topicEquals m topic = true ↔ m.topic = topic := by
  obtain ⟨_, _, _, htl⟩ := consistent_data h
  unfold topicEquals
  by_cases h1 : m.topicLength.toNat = topic.length
  · rw [if_neg (by simpa using h1)]
    by_cases h2 : topic.length = 0
    · rw [if_pos h2]
      have e1 : topic = [] := List.length_eq_zero_iff.mp h2
      have e2 : m.topic = [] := List.length_eq_zero_iff.mp (by omega)
      simp [e1, e2]
    · rw [if_neg h2]; exact beq_iff_eq
  · rw [if_pos (by simpa using h1)]
    constructor
    · intro h; cases h
    · intro h; rw [← h] at h1; omega

/-- **C53** A message has expired if its age, as far as it has one, is larger than the time to live. -/
theorem ttlOk_iff (m : MsgMsg) (time ttl : UInt64) :
    ttlOk m time ttl = true ↔ time.toNat ≤ m.timestamp.toNat + ttl.toNat := by
  unfold ttlOk
  split
  · rename_i h
    have : time.toNat < ttl.toNat := UInt64.lt_iff_toNat_lt.mp h
    simp; omega
  · rename_i h
    have h' : ttl ≤ time := UInt64.not_lt.mp h
    have h'' : ttl.toNat ≤ time.toNat := UInt64.le_iff_toNat_le.mp h'
    split
    · rename_i h2
      rw [UInt64.lt_iff_toNat_lt, UInt64.toNat_sub_of_le _ _ h'] at h2
      simp; omega
    · rename_i h2
      rw [UInt64.lt_iff_toNat_lt, UInt64.toNat_sub_of_le _ _ h'] at h2
      simp; omega

example : ∃ m, newWithData 1 1 5 [0x61] [1, 2, 3] = some m ∧ Consistent m ∧
    (match topicSet m [0x62, 0x63] with | .ok r => some (r.topic, r.data) | _ => none) = some ([0x62, 0x63], [1, 2, 3]) :=
  ⟨_, rfl, ⟨by decide, by decide⟩, by decide +kernel⟩

end Verif.Msg
