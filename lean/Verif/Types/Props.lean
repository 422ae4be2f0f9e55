import Verif.Types.Pack
/-!
# Array messages (C16, C57 – C60)
-/
namespace Verif.Types
open Verif Endian Msg Spec

/-- A value as it is found in the message. -/
def rawOf (le : Bool) (v : Value) : Raw := ⟨wireTy v.ty, v.flags, v.tag, wireData le v, v.elements⟩

theorem rawOf_length (le : Bool) {v : Value} (h : Content v) : (rawBytes (rawOf le v)).length = packedSize v := by
  rw [rawBytes_length, packedSize, ← stored_eq h, ← wireData_length le h]; rfl

/-- The number of bytes of all values. -/
def total (vs : List Value) : Nat := (vs.map packedSize).sum

theorem flat_length (le : Bool) (vs : List Value) (h : ∀ v ∈ vs, Content v) :
    ((vs.map (rawOf le)).flatMap rawBytes).length = total vs := by
  induction vs with
  | nil => rfl
  | cons v vs ih =>
    rw [List.map_cons, List.flatMap_cons, List.length_append, rawOf_length le (h v (by simp)), ih fun x hx => h x (by simp [hx])]
    simp [total]

theorem packAll_eq (le : Bool) (vs : List Value) (h : ∀ v ∈ vs, Content v) : ∀ room, total vs ≤ room →
    packAll le vs room = .ok ((vs.map (rawOf le)).flatMap rawBytes) := by
  induction vs with
  | nil => intro room _; rfl
  | cons v vs ih =>
    intro room hr
    have hv := h v (by simp)
    have hw := wireData_length le hv
    have hs := stored_eq hv
    have ht : total (v :: vs) = packedSize v + total vs := by simp [total]
    unfold packAll
    rw [pack_eq le hv]
    simp only [Res.bind]
    unfold packedSize at ht
    rw [if_neg (by omega), if_neg (by omega), ih (fun x hx => h x (by simp [hx])) _ (by omega)]
    simp [rawBytes, rawOf]

theorem packAll_oob (le : Bool) (vs : List Value) (h : ∀ v ∈ vs, Content v) : ∀ room, room < total vs →
    packAll le vs room = .oob := by
  induction vs with
  | nil => intro room hr; simp [total] at hr
  | cons v vs ih =>
    intro room hr
    have hv := h v (by simp)
    have hw := wireData_length le hv
    have hs := stored_eq hv
    have ht : total (v :: vs) = packedSize v + total vs := by simp [total]
    unfold packAll
    rw [pack_eq le hv]
    simp only [Res.bind]
    unfold packedSize at ht
    by_cases hl : 14 + v.tag.length + (wireData le v).length > room
    · rw [if_pos hl]
    · rw [if_neg hl, if_neg (by omega), ih (fun x hx => h x (by simp [hx])) _ (by omega)]

theorem wireTy_hasUnpack {v : Value} (h : Content v) : (wireTy v.ty).hasUnpack = true := by
  obtain ⟨ty, flags, tag, elements, data, msgs⟩ := v
  cases ty <;> first | rfl | (cases h; done)

theorem rawOf_fine (le : Bool) {v : Value} (h : Content v) (hs : packedSize v < 2 ^ 32) : RawFine (rawOf le v) := by
  have := wireData_length le h
  have := stored_eq h
  unfold packedSize at hs
  exact ⟨by show v.tag.length < _; omega, by show (wireData le v).length < _; omega, wireTy_hasUnpack h⟩

theorem packedSize_le_total {v : Value} {vs : List Value} (h : v ∈ vs) : packedSize v ≤ total vs := by
  induction vs with
  | nil => simp at h
  | cons w vs ih =>
    have ht : total (w :: vs) = packedSize w + total vs := by simp [total]
    rcases List.mem_cons.mp h with rfl | h
    · omega
    · have := ih h; omega

/-- The message made from values. -/
def messageOf (le : Bool) (vs : List Value) (time : UInt64) (topic : Bytes) : MsgMsg :=
  ⟨⟨UInt32.ofNat (30 + topic.length + total vs), 2, 0⟩, time, setClass (setType 0 1) 11, 7, UInt16.ofNat topic.length,
    topic ++ (vs.map (rawOf le)).flatMap rawBytes⟩

theorem packedLength_sum (vs : List Value) (h : ∀ v ∈ vs, Content v) (hs : ∀ v ∈ vs, packedSize v < 2 ^ 32 + 14) :
    (vs.map fun v => (v.tag.length + v.stored) % 2 ^ 32 + 14).sum = total vs := by
  induction vs with
  | nil => rfl
  | cons v vs ih =>
    have hv := stored_eq (h v (by simp))
    have hz := hs v (by simp)
    have ht : total (v :: vs) = packedSize v + total vs := by simp [total]
    rw [List.map_cons, List.sum_cons, ih (fun x hx => h x (by simp [hx])) (fun x hx => hs x (by simp [hx])), ht]
    unfold packedSize at hz ⊢
    rw [Nat.mod_eq_of_lt (by omega)]
    omega

theorem newMessage_eq (le : Bool) (vs : List Value) (time : UInt64) (topic : Bytes) (h : ∀ v ∈ vs, Content v)
    (ht : topic.length ≤ 0xffff) (hs : 30 + topic.length + total vs ≤ 0xffffffff) :
    newMessage le vs time topic = .ok (messageOf le vs time topic) := by
  have hp := packedLength_sum vs h fun v hv => by have := packedSize_le_total hv; omega
  have h16 : (UInt16.ofNat topic.length).toNat = topic.length := by rw [UInt16.toNat_ofNat']; omega
  have h32 : (UInt32.ofNat (total vs)).toNat = total vs := by rw [UInt32.toNat_ofNat']; omega
  have hS : (UInt32.ofNat (30 + topic.length + total vs)).toNat = 30 + topic.length + total vs := by
    rw [UInt32.toNat_ofNat']; omega
  unfold newMessage packedLength
  dsimp only
  rw [hp, if_neg (by omega)]
  dsimp only
  rw [if_neg (by omega)]
  have hn : newEmpty 1 11 time (UInt16.ofNat topic.length) (UInt32.ofNat (total vs)) =
      some ⟨⟨UInt32.ofNat (30 + topic.length + total vs), 2, 0⟩, time, setClass (setType 0 1) 11, 0, UInt16.ofNat topic.length,
        List.replicate (topic.length + total vs) 0⟩ := by
    unfold newEmpty populateHead
    dsimp only
    rw [h16, h32, if_neg (by simp only [msgMinSize]; omega), if_neg (by simp only [msgMinSize, headSize]; rw [hS]; omega)]
    rfl
  rw [hn]
  dsimp only
  rw [packAll_eq le vs h _ (Nat.le_refl _)]
  simp only [Res.bind]
  rw [if_neg (by rw [flat_length le vs h]; simp)]
  rfl

theorem messageOf_consistent (le : Bool) (vs : List Value) (time : UInt64) (topic : Bytes) (h : ∀ v ∈ vs, Content v)
    (ht : topic.length ≤ 0xffff) (hs : 30 + topic.length + total vs ≤ 0xffffffff) :
    Consistent (messageOf le vs time topic) ∧ (messageOf le vs time topic).topic = topic ∧
    (messageOf le vs time topic).data = (vs.map (rawOf le)).flatMap rawBytes ∧
    (messageOf le vs time topic).type = 1 ∧ (messageOf le vs time topic).class_ = 11 := by
  have h16 : (UInt16.ofNat topic.length).toNat = topic.length := by rw [UInt16.toNat_ofNat']; omega
  have hS : (UInt32.ofNat (30 + topic.length + total vs)).toNat = 30 + topic.length + total vs := by
    rw [UInt32.toNat_ofNat']; omega
  have hc : Consistent (messageOf le vs time topic) := by
    constructor
    · show (UInt32.ofNat _).toNat = 30 + (topic ++ _).length
      rw [hS, List.length_append, flat_length le vs h]; omega
    · show (UInt16.ofNat _).toNat ≤ (topic ++ _).length
      rw [h16, List.length_append]; omega
  refine ⟨hc, ?_, ?_, (typeClass 1 11 (by decide) (Or.inr rfl)).1, (typeClass 1 11 (by decide) (Or.inr rfl)).2⟩
  · show (topic ++ _).take (UInt16.ofNat topic.length).toNat = topic
    rw [h16, List.take_left]
  · rw [(consistent_data hc).2.1]
    show (topic ++ _).drop (UInt16.ofNat topic.length).toNat = _
    rw [h16, List.drop_left]

/-- The iteration over a consistent array message. -/
theorem messageIterate_eq {σ : Type} (cb : σ → Raw → Res (σ × Ctl)) (m : MsgMsg) (s : σ) (h : Consistent m) (hc : m.class_ = 11)
    (hv : m.version = 7) : messageIterate cb m s = iterate cb m.data.length m.data s := by
  obtain ⟨h1, h2, h3, h4⟩ := consistent_data h
  unfold messageIterate
  have hl : m.data.length = m.dataLength.toNat := by rw [h2, h1, List.length_drop]
  rw [if_neg (by simp [hc]), if_neg (by simp [hv, arrayVersion]), if_neg (by have := h.2; omega), hl]

theorem append_iterList (le le' : Bool) (vs : List Value) (h : ∀ v ∈ vs, Content v) : ∀ acc,
    iterList (appendCallback le') (vs.map (rawOf le)) acc = .ok (acc ++ vs.map (onHost le le'), true) := by
  induction vs with
  | nil => intro acc; simp [iterList]
  | cons v vs ih =>
    intro acc
    rw [List.map_cons]
    unfold iterList
    have hu : unpack le' (rawOf le v).ty (rawOf le v).flags (rawOf le v).tag (rawOf le v).data (rawOf le v).elements
      = .ok (onHost le le' v) := unpack_eq le le' (h v (by simp))
    have : appendCallback le' acc (rawOf le v) = .ok (acc ++ [onHost le le' v], .next) := by
      unfold appendCallback
      rw [hu]
    rw [this]
    simp only [Res.bind]
    rw [ih fun x hx => h x (by simp [hx])]
    simp

theorem toArray_messageOf (le le' : Bool) (vs : List Value) (time : UInt64) (topic : Bytes) (h : ∀ v ∈ vs, Content v)
    (ht : topic.length ≤ 0xffff) (hs : 30 + topic.length + total vs ≤ 0xffffffff) :
    toArray le' (messageOf le vs time topic) = .ok (vs.map (onHost le le')) := by
  obtain ⟨hc, _, hd, _, hcl⟩ := messageOf_consistent le vs time topic h ht hs
  unfold toArray
  rw [messageIterate_eq _ _ _ hc hcl rfl, hd, iterate_eq _ _ _ _ _ (Nat.le_refl _), append_iterList le le' vs h]
  · simp [Res.bind]
  · intro r hr
    obtain ⟨v, hv, rfl⟩ := List.mem_map.mp hr
    have := packedSize_le_total hv
    exact rawOf_fine le (h v hv) (by omega)

/-! ## C16 -/

/-- **C16**, partial. Values of all types which can be stored, with any tags, flags and numbers of elements, are packed into
an array message with the given time and topic, and unpacking the message gives the same values in the same order. When they are too large for a message, packing is
refused.

Missing from the full property: a value whose tag and data together are 2³² bytes or more. There the property is false, see `array_overflow`. -/
theorem array_roundtrip_partial (le : Bool) (vs : List Value) (time : UInt64) (topic : Bytes) (h : ∀ v ∈ vs, Content v)
    (ht : topic.length ≤ 0xffff) (hs : ∀ v ∈ vs, packedSize v < 2 ^ 32 + 14) :
    (30 + topic.length + (vs.map packedSize).sum ≤ 0xffffffff →
      ∃ m, newMessage le vs time topic = .ok m ∧ toArray le m = .ok vs ∧
        m.topic = topic ∧ m.timestamp = time ∧ m.class_ = 11 ∧ m.type = 1 ∧ Consistent m) ∧
    (30 + topic.length + (vs.map packedSize).sum > 0xffffffff → newMessage le vs time topic = .soft) := by
  constructor
  · intro hsz
    obtain ⟨hc, htp, _, hty, hcl⟩ := messageOf_consistent le vs time topic h ht hsz
    refine ⟨_, newMessage_eq le vs time topic h ht hsz, ?_, htp, rfl, hcl, hty, hc⟩
    rw [toArray_messageOf le le vs time topic h ht hsz]
    congr 1
    conv => rhs; rw [← List.map_id vs]
    exact List.map_congr_left fun v _ => onHost_self le v
  · intro hsz
    have hsz : 30 + topic.length + total vs > 0xffffffff := hsz
    have hp := packedLength_sum vs h hs
    unfold newMessage packedLength
    dsimp only
    rw [hp]
    by_cases h64 : total vs ≥ 2 ^ 64
    · rw [if_pos h64]
    · rw [if_neg h64]
      dsimp only
      by_cases h32 : total vs > 0xffffffff
      · rw [if_pos h32]
      · rw [if_neg h32]
        have : newEmpty 1 11 time (UInt16.ofNat topic.length) (UInt32.ofNat (total vs)) = none := by
          have h16 : (UInt16.ofNat topic.length).toNat = topic.length := by rw [UInt16.toNat_ofNat']; omega
          have h32 : (UInt32.ofNat (total vs)).toNat = total vs := by rw [UInt32.toNat_ofNat']; omega
          unfold newEmpty
          dsimp only
          rw [h16, h32, if_pos (by simp only [msgMinSize]; omega)]
        rw [this]

/-- **C16**, over the network. A message made from values on a host of one byte order, sent and received (whatever follows it), then unpacked on a
host of any byte order, gives the same values in the same order. -/
theorem array_network_roundtrip (le le' : Bool) (vs : List Value) (time : UInt64) (topic : Bytes) (h : ∀ v ∈ vs, Content v)
    (ht : topic.length ≤ 0xffff) (hu : Utf8.Spec.WellFormed topic) (hnul : (0 : UInt8) ∉ topic)
    (hs : 30 + topic.length + (vs.map packedSize).sum ≤ 0xffffffff) :
    ∃ m bytes, newMessage le vs time topic = .ok m ∧ msgToNetwork m = .ok bytes ∧
      ∀ rest, ∃ m', receive (bytes ++ rest) = .ok (.msg m', bytes.length) ∧
        m'.topic = topic ∧ m'.timestamp = time ∧
        ∃ vs', toArray le' m' = .ok vs' ∧ vs'.length = vs.length ∧
          ∀ i (h : i < vs.length) (h' : i < vs'.length), Same le le' vs[i] vs'[i] := by
  obtain ⟨hc, htp, _, hty, hcl⟩ := messageOf_consistent le vs time topic h ht hs
  have hg : GoodMsg (messageOf le vs time topic) := by
    refine ⟨hc.1, hc.2, rfl, ?_, Or.inr hcl, ?_⟩
    · rw [hty]; decide
    · rw [htp]; exact ⟨hu, hnul⟩
  refine ⟨_, _, newMessage_eq le vs time topic h ht hs, (good_wire hg).1, ?_⟩
  intro rest
  have hrl : (messageOf le vs time topic).head.size.toNat = 18 + (msgRest (messageOf le vs time topic)).length := by
    rw [hg.size, msgRest_length]; omega
  refine ⟨messageOf le vs time topic, ?_, htp, rfl, _, toArray_messageOf le le' vs time topic h ht hs, by simp, ?_⟩
  · rw [receive_wire _ _ _ hrl, toHost_wire _ _ hrl (show typeFine 2 = true by decide), good_host hg]
    rfl
  · intro i h1 h2
    rw [List.getElem_map]
    exact onHost_same le le' _

/-- A message inside of a value. -/
def inner : MsgMsg := ⟨⟨33, 2, 0⟩, 5, 0x11, 0, 1, [0x74, 1, 2]⟩

/-- Values of different types, to be used as examples. -/
def sample : List Value :=
  [⟨.h, 1, [0x61], 2, [0xfe, 0xff, 0xff, 0xff, 0xff, 0xff, 0xff, 0xff, 3, 0, 0, 0, 0, 0, 0, 0], []⟩,
   ⟨.str, 0, [], 1, [], []⟩,
   ⟨.blob, 0, [0x62], 3, [1, 2, 3], []⟩,
   ⟨.vain, 0, [0x62], 1, [], []⟩,
   ⟨.msg, 0, [0x6d], 1, [], [inner]⟩]

theorem inner_good : GoodMsg inner :=
  ⟨by decide, by decide, rfl, by decide, by decide,
    by rw [← Utf8.validate_iff_of_no_nul _ (by decide)]; decide +kernel, by decide⟩

theorem sample_content : ∀ v ∈ sample, Content v := by
  intro v hv
  simp only [sample, List.mem_cons, List.not_mem_nil, or_false] at hv
  rcases hv with rfl | rfl | rfl | rfl | rfl
  · exact ⟨by decide, rfl⟩
  · exact rfl
  · exact ⟨by decide, rfl⟩
  · exact ⟨rfl, rfl⟩
  · refine ⟨rfl, ?_, rfl⟩
    intro m hm
    rcases List.mem_singleton.mp hm with rfl
    exact inner_good

example : ∃ m, newMessage true sample 9 [0x74] = .ok m ∧ toArray true m = .ok sample :=
  let ⟨m, h1, h2, _⟩ := (array_roundtrip_partial true sample 9 [0x74] sample_content (by decide) (by decide)).1 (by decide)
  ⟨m, h1, h2⟩

/-- **C16** fails when the tag and data of a value together are 2³² bytes or more: the length of the message is computed with 32 bits, and packing writes outside of the
message. -/
theorem array_overflow (le : Bool) (vs : List Value) (time : UInt64) (topic : Bytes) (h : ∀ v ∈ vs, Content v)
    (ht : topic.length ≤ 0xffff) (hov : ∃ v ∈ vs, 2 ^ 32 + 14 ≤ packedSize v)
    (hs : 30 + topic.length + (vs.map fun v => (v.tag.length + v.stored) % 2 ^ 32 + 14).sum ≤ 0xffffffff) :
    newMessage le vs time topic = .oob := by
  have hlt : (vs.map fun v => (v.tag.length + v.stored) % 2 ^ 32 + 14).sum < total vs := by
    clear hs
    have hle : ∀ vs : List Value, (∀ v ∈ vs, Content v) →
        (vs.map fun v => (v.tag.length + v.stored) % 2 ^ 32 + 14).sum ≤ total vs := by
      intro vs h
      induction vs with
      | nil => simp [total]
      | cons v vs ih =>
        have hv := stored_eq (h v (by simp))
        have := ih fun x hx => h x (by simp [hx])
        have htot : total (v :: vs) = packedSize v + total vs := by simp [total]
        have hm := Nat.mod_le (v.tag.length + v.stored) (2 ^ 32)
        rw [List.map_cons, List.sum_cons, htot]
        unfold packedSize
        omega
    obtain ⟨w, hw, hov⟩ := hov
    induction vs with
    | nil => simp at hw
    | cons v vs ih =>
      have hv := stored_eq (h v (by simp))
      have htot : total (v :: vs) = packedSize v + total vs := by simp [total]
      have hm := Nat.mod_le (v.tag.length + v.stored) (2 ^ 32)
      have hm' := Nat.mod_lt (v.tag.length + v.stored) (show 0 < 2 ^ 32 by omega)
      have hl := hle vs fun x hx => h x (by simp [hx])
      rw [List.map_cons, List.sum_cons, htot]
      rcases List.mem_cons.mp hw with rfl | hw
      · unfold packedSize at hov ⊢; omega
      · have := ih (fun x hx => h x (by simp [hx])) hw
        unfold packedSize; omega
  generalize hS : (vs.map fun v => (v.tag.length + v.stored) % 2 ^ 32 + 14).sum = n at hlt hs
  have h16 : (UInt16.ofNat topic.length).toNat = topic.length := by rw [UInt16.toNat_ofNat']; omega
  have h32 : (UInt32.ofNat n).toNat = n := by rw [UInt32.toNat_ofNat']; omega
  have hS' : (UInt32.ofNat (30 + topic.length + n)).toNat = 30 + topic.length + n := by rw [UInt32.toNat_ofNat']; omega
  have hn : newEmpty 1 11 time (UInt16.ofNat topic.length) (UInt32.ofNat n) =
      some ⟨⟨UInt32.ofNat (30 + topic.length + n), 2, 0⟩, time, setClass (setType 0 1) 11, 0, UInt16.ofNat topic.length,
        List.replicate (topic.length + n) 0⟩ := by
    unfold newEmpty populateHead
    dsimp only
    rw [h16, h32, if_neg (by simp only [msgMinSize]; omega), if_neg (by simp only [msgMinSize, headSize]; rw [hS']; omega)]
    rfl
  unfold newMessage packedLength
  dsimp only
  rw [hS, if_neg (by omega)]
  dsimp only
  rw [if_neg (by omega), hn]
  dsimp only
  rw [packAll_oob le vs h n hlt]
  rfl

/-- One byte of tag and 2³²-1 bytes of data. -/
example (n : Nat) (hn : n = 2 ^ 32 - 1) : ∃ vs : List Value, (∀ v ∈ vs, Content v) ∧ (∃ v ∈ vs, 2 ^ 32 + 14 ≤ packedSize v) ∧
    30 + 0 + (vs.map fun v => (v.tag.length + v.stored) % 2 ^ 32 + 14).sum ≤ 0xffffffff := by
  refine ⟨[⟨.str, 0, [0x61], 1, List.replicate n 0, []⟩], ?_, ?_, ?_⟩
  · intro v hv; rcases List.mem_singleton.mp hv with rfl; exact rfl
  · refine ⟨_, List.mem_singleton.mpr rfl, ?_⟩
    simp only [packedSize, List.length_replicate, List.length_singleton]; omega
  · simp only [List.map_cons, List.map_nil, List.sum_cons, List.sum_nil, Value.stored, List.length_replicate, List.length_singleton]
    rw [if_neg (by decide)]; omega

/-- Values of length zero of the types which must have data are refused. -/
theorem empty_blob_refused (le : Bool) (v : Value) (hd : v.data = []) (rest : List Value) (room : Nat)
    (ht : v.ty = .blob ∨ v.ty = .sep ∨ v.ty = .nsep ∨ v.ty = .stx ∨ v.ty = .hdlc) : packAll le (v :: rest) room = .soft := by
  obtain ⟨ty, flags, tag, elements, data, msgs⟩ := v
  dsimp only at hd ht
  rcases ht with rfl | rfl | rfl | rfl | rfl <;> simp [packAll, pack, Value.stored, hd, Res.bind]

/-- Values which were never imported or unpacked (types `be`, `le`, `ustr`, `istr`, `err`) make packing abort. -/
theorem unpackable_aborts (le : Bool) (v : Value) (rest : List Value) (room : Nat)
    (ht : v.ty = .be ∨ v.ty = .le ∨ v.ty = .ustr ∨ v.ty = .istr ∨ v.ty = .err) : packAll le (v :: rest) room = .bug := by
  obtain ⟨ty, flags, tag, elements, data, msgs⟩ := v
  dsimp only at ht
  rcases ht with rfl | rfl | rfl | rfl | rfl <;> simp [packAll, pack, Res.bind]

end Verif.Types
