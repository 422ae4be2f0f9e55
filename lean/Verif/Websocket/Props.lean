import Verif.Websocket.Model
import Verif.Websocket.Spec
import Verif.Read.Props
import Verif.Bits
/-!
# Websocket frames (C34, C35, C36, C61)
-/
namespace Verif.Websocket
open Verif Endian Spec

/-! ## Masking -/

theorem mapIdx_xor (k : Bytes) (p : Bytes) : ∀ i, (p.mapIdx fun j c => c ^^^ k.getD ((j + i) % 4) 0) = xorKey k i p := by
  induction p with
  | nil => intro i; rfl
  | cons c t ih =>
    intro i
    rw [List.mapIdx_cons, xorKey, ← ih (i + 1)]
    congr 1
    · simp
    · congr 1; funext j c; rw [show j + 1 + i = j + (i + 1) by omega]

theorem mask_eq (key : UInt32) (p : Bytes) : maskUnmask key p = xorKey (be32 key) 0 p := by
  rw [← mapIdx_xor]; rfl

theorem xorKey_length (k : Bytes) (p : Bytes) : ∀ i, (xorKey k i p).length = p.length := by
  induction p with
  | nil => intro i; rfl
  | cons c t ih => intro i; simp [xorKey, ih]

theorem xorKey_twice (k : Bytes) (p : Bytes) : ∀ i, xorKey k i (xorKey k i p) = p := by
  induction p with
  | nil => intro i; rfl
  | cons c t ih =>
    intro i
    simp only [xorKey, ih]
    congr 1
    rw [UInt8.xor_assoc, UInt8.xor_self, UInt8.xor_zero]

/-! ## The header -/

/-- The bits of the first two bytes. -/
theorem flags_fields (x y : UInt8) :
    let f := UInt16.ofNat (ofBytes [x, y])
    f &&& 0x7f = UInt16.ofNat (y.toNat % 128) ∧ ((f >>> 7) &&& 1 == 1) = decide (128 ≤ y.toNat) ∧
    ((f >>> 8) &&& 0xf).toUInt8 = UInt8.ofNat (x.toNat % 16) ∧ ((f >>> 12) &&& 1 == 1) = decide (x.toNat / 16 % 2 = 1) ∧
    ((f >>> 13) &&& 1 == 1) = decide (x.toNat / 32 % 2 = 1) ∧ ((f >>> 14) &&& 1 == 1) = decide (x.toNat / 64 % 2 = 1) ∧
    ((f >>> 15) &&& 1 == 1) = decide (x.toNat / 128 % 2 = 1) := by
  intro f
  have hx := x.toNat_lt
  have hy := y.toNat_lt
  have hf : f.toNat = x.toNat * 256 + y.toNat := by
    show (UInt16.ofNat (ofBytes [x, y])).toNat = _
    rw [UInt16.toNat_ofNat']
    simp only [ofBytes, List.foldl]
    omega
  have bit : ∀ (k : UInt16) (n : Nat), k.toNat = n → n < 16 → ((f >>> k) &&& 1 == 1) = decide (f.toNat / 2 ^ n % 2 = 1) := by
    intro k n hk hn
    have : ((f >>> k) &&& 1).toNat = f.toNat / 2 ^ n % 2 := by
      rw [UInt16.toNat_and, UInt16.toNat_shiftRight, hk, Nat.mod_eq_of_lt hn, Nat.shiftRight_eq_div_pow]
      exact Nat.and_one_is_mod _
    rw [Bool.eq_iff_iff, beq_iff_eq, decide_eq_true_iff, ← UInt16.toNat_inj, this]
    rfl
  refine ⟨?_, ?_, ?_, ?_, ?_, ?_, ?_⟩
  · apply UInt16.toNat_inj.mp
    rw [UInt16.toNat_and, hf, UInt16.toNat_ofNat']
    have : (0x7f : UInt16).toNat = 2 ^ 7 - 1 := rfl
    rw [this, Nat.and_two_pow_sub_one_eq_mod]
    omega
  · rw [bit 7 7 rfl (by omega), hf]; congr 1; rw [eq_iff_iff]; omega
  · apply UInt8.toNat_inj.mp
    rw [UInt16.toNat_toUInt8, UInt16.toNat_and, UInt16.toNat_shiftRight, hf, UInt8.toNat_ofNat', Nat.shiftRight_eq_div_pow]
    have : (0xf : UInt16).toNat = 2 ^ 4 - 1 := rfl
    rw [this, Nat.and_two_pow_sub_one_eq_mod]
    have : (8 : UInt16).toNat % 16 = 8 := rfl
    rw [this]
    omega
  · rw [bit 12 12 rfl (by omega), hf]; congr 1; rw [eq_iff_iff]; omega
  · rw [bit 13 13 rfl (by omega), hf]; congr 1; rw [eq_iff_iff]; omega
  · rw [bit 14 14 rfl (by omega), hf]; congr 1; rw [eq_iff_iff]; omega
  · rw [bit 15 15 rfl (by omega), hf]; congr 1; rw [eq_iff_iff]; omega

/-- The parser with the bits resolved. -/
theorem parseHeader_eq (x y : UInt8) (t : Bytes) : parseHeader (x :: y :: t) =
    parseRest (x :: y :: t) (decide (x.toNat / 128 % 2 = 1)) (decide (x.toNat / 64 % 2 = 1)) (decide (x.toNat / 32 % 2 = 1))
      (decide (x.toNat / 16 % 2 = 1)) (UInt8.ofNat (x.toNat % 16)) (decide (128 ≤ y.toNat)) (UInt16.ofNat (y.toNat % 128)) := by
  obtain ⟨h1, h2, h3, h4, h5, h6, h7⟩ := flags_fields x y
  unfold parseHeader
  rw [if_neg (by simp)]
  have : at16 (x :: y :: t) 0 = UInt16.ofNat (ofBytes [x, y]) := rfl
  simp only [this, h1, h2, h3, h4, h5, h6, h7]

theorem getD_mono {b : Bytes} (more : Bytes) {i : Nat} (h : i < b.length) : (b ++ more).getD i 0 = b.getD i 0 := by
  simp only [List.getD_eq_getElem?_getD]
  rw [List.getElem?_append_left h]

theorem extLength_mono {b : Bytes} {k : UInt16} {p : Nat × UInt64} (more : Bytes) (h : extLength b k = some p) :
    extLength (b ++ more) k = some p ∧ (2 ≤ b.length → p.1 ≤ b.length) ∧ 2 ≤ p.1 ∧ p.1 ≤ 10 := by
  unfold extLength at h ⊢
  by_cases h1 : k = 126
  · rw [if_pos h1] at h ⊢
    by_cases hl : b.length < 4
    · rw [if_pos hl] at h; cases h
    · rw [if_neg hl] at h
      cases h
      rw [if_neg (by rw [List.length_append]; omega)]
      unfold at16
      rw [getD_mono more (by omega), getD_mono more (by omega)]
      exact ⟨rfl, fun _ => by simp only []; omega, by simp, by simp⟩
  · rw [if_neg h1] at h ⊢
    by_cases h2 : k = 127
    · rw [if_pos h2] at h ⊢
      by_cases hl : b.length < 10
      · rw [if_pos hl] at h; cases h
      · rw [if_neg hl] at h
        cases h
        rw [if_neg (by rw [List.length_append]; omega)]
        unfold at64
        rw [getD_mono more (by omega), getD_mono more (by omega), getD_mono more (by omega), getD_mono more (by omega),
          getD_mono more (by omega), getD_mono more (by omega), getD_mono more (by omega), getD_mono more (by omega)]
        exact ⟨rfl, fun _ => by simp only []; omega, by simp, by simp⟩
    · rw [if_neg h2] at h ⊢
      cases h
      exact ⟨rfl, fun h => h, by simp, by simp⟩

theorem maskKey_mono {b : Bytes} {m : Bool} {hl : Nat} {p : Nat × UInt32} (more : Bytes) (h : maskKey b m hl = some p) :
    maskKey (b ++ more) m hl = some p ∧ (hl ≤ b.length → p.1 ≤ b.length) ∧ hl ≤ p.1 ∧ p.1 ≤ hl + 4 := by
  unfold maskKey at h ⊢
  cases m with
  | true =>
    simp only [if_true] at h ⊢
    by_cases hl' : b.length < hl + 4
    · rw [if_pos hl'] at h; cases h
    · rw [if_neg hl'] at h
      cases h
      rw [if_neg (by rw [List.length_append]; omega)]
      unfold at32
      rw [getD_mono more (by omega), getD_mono more (by omega), getD_mono more (by omega), getD_mono more (by omega)]
      exact ⟨rfl, fun _ => by simp only []; omega, by simp, by simp⟩
  | false =>
    simp only [Bool.false_eq_true, if_false] at h ⊢
    cases h
    exact ⟨rfl, fun h => h, by simp, by simp⟩

/-- A verdict other than "incomplete" is not changed by what follows. -/
theorem parseHeader_mono (b more : Bytes) (h : parseHeader b ≠ .incomplete) : parseHeader (b ++ more) = parseHeader b := by
  match b with
  | [] => exact absurd rfl h
  | [x] => exact absurd rfl h
  | x :: y :: t =>
    rw [List.cons_append, List.cons_append, parseHeader_eq, parseHeader_eq]
    rw [parseHeader_eq] at h
    unfold parseRest at h ⊢
    cases he : extLength (x :: y :: t) (UInt16.ofNat (y.toNat % 128)) with
    | none => rw [he] at h; exact absurd rfl h
    | some p =>
      obtain ⟨e1, e2, _⟩ := extLength_mono more he
      rw [List.cons_append, List.cons_append] at e1
      rw [e1]
      rw [he] at h
      dsimp only at h ⊢
      cases hk : maskKey (x :: y :: t) (decide (128 ≤ y.toNat)) p.1 with
      | none => rw [hk] at h; exact absurd rfl h
      | some q =>
        obtain ⟨k1, _⟩ := maskKey_mono more hk
        rw [List.cons_append, List.cons_append] at k1
        rw [k1]

/-- What an accepted header is. -/
theorem parseHeader_ok {b : Bytes} {h : Header} {t : UInt64} (ho : parseHeader b = .ok h t) :
    2 ≤ h.headerLen ∧ h.headerLen ≤ 14 ∧ h.headerLen ≤ b.length ∧ t = UInt64.ofNat h.headerLen + h.payloadLen ∧ t ≤ ssizeMax := by
  match b with
  | [] => cases ho
  | [x] => cases ho
  | x :: y :: s =>
    rw [parseHeader_eq] at ho
    unfold parseRest at ho
    cases he : extLength (x :: y :: s) (UInt16.ofNat (y.toNat % 128)) with
    | none => rw [he] at ho; cases ho
    | some p =>
      obtain ⟨hl, n⟩ := p
      obtain ⟨_, e2, e3, e4⟩ := extLength_mono [] he
      rw [he] at ho
      dsimp only at ho e2 e3 e4
      cases hk : maskKey (x :: y :: s) (decide (128 ≤ y.toNat)) hl with
      | none => rw [hk] at ho; cases ho
      | some q =>
        obtain ⟨hl', key⟩ := q
        obtain ⟨_, k2, k3, k4⟩ := maskKey_mono [] hk
        rw [hk] at ho
        dsimp only at ho k2 k3 k4
        split at ho
        · cases ho
        · rename_i hs
          cases ho
          dsimp only
          exact ⟨by omega, by omega, k2 (e2 (by simp)), rfl, UInt64.not_lt.mp hs⟩

theorem extLength_enough {b c : Bytes} {k : UInt16} {p : Nat × UInt64} (h : extLength b k = some p) (hc : c <+: b) (hl : p.1 ≤ c.length) :
    extLength c k = some p := by
  obtain ⟨more, rfl⟩ := hc
  cases he : extLength c k with
  | some q => have := (extLength_mono more he).1; rw [h] at this; exact this.symm
  | none =>
    exfalso
    unfold extLength at h he
    by_cases h1 : k = 126
    · rw [if_pos h1] at h he
      by_cases hl2 : c.length < 4
      · rw [if_pos (c := c.length < 4) hl2] at he
        split at h
        · cases h
        · cases h; dsimp only at hl; omega
      · rw [if_neg hl2] at he; cases he
    · rw [if_neg h1] at h he
      by_cases h2 : k = 127
      · rw [if_pos h2] at h he
        by_cases hl2 : c.length < 10
        · split at h
          · cases h
          · cases h; dsimp only at hl; omega
        · rw [if_neg hl2] at he; cases he
      · rw [if_neg h2] at he; cases he

theorem maskKey_enough {b c : Bytes} {m : Bool} {hl : Nat} {p : Nat × UInt32} (h : maskKey b m hl = some p) (hc : c <+: b)
    (hl' : p.1 ≤ c.length) : maskKey c m hl = some p := by
  obtain ⟨more, rfl⟩ := hc
  cases he : maskKey c m hl with
  | some q => have := (maskKey_mono more he).1; rw [h] at this; exact this.symm
  | none =>
    exfalso
    unfold maskKey at h he
    cases m with
    | false => cases he
    | true =>
      simp only [if_true] at h he
      by_cases hl2 : c.length < hl + 4
      · split at h
        · cases h
        · cases h; dsimp only at hl'; omega
      · rw [if_neg hl2] at he; cases he

/-- When all of the header is there the parser does not ask for more. -/
theorem header_enough {b c : Bytes} {h : Header} {t : UInt64} (ho : parseHeader b = .ok h t) (hc : c <+: b)
    (hl : h.headerLen ≤ c.length) : parseHeader c ≠ .incomplete := by
  have h2 := (parseHeader_ok ho).1
  match c, hc, hl with
  | [], _, hl => simp at hl; omega
  | [x], _, hl => simp at hl; omega
  | x :: y :: c', hc, hl =>
    obtain ⟨more, rfl⟩ := hc
    have hpre : (x :: y :: c') <+: (x :: y :: c') ++ more := List.prefix_append _ _
    rw [List.cons_append, List.cons_append] at ho hpre
    rw [parseHeader_eq] at ho ⊢
    unfold parseRest at ho ⊢
    cases he : extLength (x :: y :: (c' ++ more)) (UInt16.ofNat (y.toNat % 128)) with
    | none => rw [he] at ho; cases ho
    | some p =>
      obtain ⟨hl1, n⟩ := p
      rw [he] at ho
      dsimp only at ho
      cases hk : maskKey (x :: y :: (c' ++ more)) (decide (128 ≤ y.toNat)) hl1 with
      | none => rw [hk] at ho; cases ho
      | some q =>
        obtain ⟨hl2, key⟩ := q
        rw [hk] at ho
        dsimp only at ho
        split at ho
        · cases ho
        · cases ho
          dsimp only at hl
          have hle := (maskKey_mono [] hk).2.2.1
          dsimp only at hle
          rw [extLength_enough he hpre (by dsimp only; omega)]
          dsimp only
          rw [maskKey_enough hk hpre (by dsimp only; omega)]
          dsimp only
          split <;> simp

/-- The header of a frame as the parser sees it. -/
def headerOf (f : Frame) : Header :=
  ⟨f.fin, false, false, false, f.opcode, f.key.isSome, f.header.length, UInt64.ofNat f.payload.length, f.key.getD 0⟩

theorem Frame.wire_length (f : Frame) : f.wire.length = f.header.length + f.payload.length := by
  unfold Frame.wire
  rw [List.length_append]
  cases f.key <;> simp [xorKey_length, masked]

theorem Frame.header_length (f : Frame) : 2 ≤ f.header.length ∧ f.header.length ≤ 14 := by
  unfold Frame.header
  cases f.form <;> cases f.key <;> simp [be16_length, be32_length, be64_length, keyBytes]

theorem parse_wire (f : Frame) (hf : f.Fine) (rest : Bytes) :
    parseHeader (f.wire ++ rest) = .ok (headerOf f) (UInt64.ofNat f.wire.length) := by
  obtain ⟨ho, hform⟩ := hf
  have hop : f.opcode.toNat < 16 := ho
  have hb0 : (UInt8.ofNat ((if f.fin then 128 else 0) + f.opcode.toNat)).toNat = (if f.fin then 128 else 0) + f.opcode.toNat := by
    rw [UInt8.toNat_ofNat']; split <;> omega
  have hwl := Frame.wire_length f
  have hhl := Frame.header_length f
  -- everything after the length
  have mk : ∀ (y : UInt8) (ext : Bytes) (k7 : Nat), k7 < 128 → y.toNat = (if f.key.isSome then 128 else 0) + k7 →
      f.header = UInt8.ofNat ((if f.fin then 128 else 0) + f.opcode.toNat) :: y ::
        (ext ++ keyBytes f.key) →
      (∀ s : Bytes, extLength (UInt8.ofNat ((if f.fin then 128 else 0) + f.opcode.toNat) :: y :: (ext ++ s)) (UInt16.ofNat k7) =
        some (2 + ext.length, UInt64.ofNat f.payload.length)) → f.payload.length < 2 ^ 63 - 14 →
      parseHeader (f.wire ++ rest) = .ok (headerOf f) (UInt64.ofNat f.wire.length) := by
    intro y ext k7 hk7 hy hh hext hlen
    have hmod : y.toNat % 128 = k7 := by rw [hy]; split <;> omega
    have hdec : decide (128 ≤ y.toNat) = f.key.isSome := by
      rw [hy]
      cases f.key.isSome
      · simp; omega
      · simp
    have hw : f.wire ++ rest = UInt8.ofNat ((if f.fin then 128 else 0) + f.opcode.toNat) :: y ::
        (ext ++ (keyBytes f.key ++
          (masked f.key f.payload ++ rest))) := by
      unfold Frame.wire
      rw [hh]
      simp
    rw [hw, parseHeader_eq, hmod, hdec, parseRest, hext]
    dsimp only
    have hkey : maskKey (UInt8.ofNat ((if f.fin then 128 else 0) + f.opcode.toNat) :: y ::
        (ext ++ (keyBytes f.key ++
          (masked f.key f.payload ++ rest)))) f.key.isSome (2 + ext.length) =
        some (f.header.length, f.key.getD 0) := by
      unfold maskKey
      cases hk : f.key with
      | none =>
        simp only [hk, keyBytes] at hh
        simp [hh]; omega
      | some k =>
        simp only [hk, keyBytes] at hh
        simp only [Option.isSome, keyBytes, masked]
        generalize UInt8.ofNat ((if f.fin then 128 else 0) + f.opcode.toNat) = x0 at hh ⊢
        have e1 : at32 (x0 :: y :: (ext ++ (be32 k ++ (xorKey (be32 k) 0 f.payload ++ rest)))) (2 + ext.length) = k := by
          have := at32_append (p := x0 :: y :: ext) (k := 2 + ext.length) (by simp only [List.length_cons]; omega) k
            (xorKey (be32 k) 0 f.payload ++ rest)
          simpa using this
        have e2 : (x0 :: y :: (ext ++ (be32 k ++ (xorKey (be32 k) 0 f.payload ++ rest)))).length =
            2 + ext.length + 4 + (xorKey (be32 k) 0 f.payload ++ rest).length := by
          simp only [List.length_cons, List.length_append, be32_length]; omega
        have e3 : f.header.length = 2 + ext.length + 4 := by
          rw [hh]; simp only [List.length_cons, List.length_append, be32_length]; omega
        simp only [if_true, e1, e2, e3]
        rw [if_neg (by omega)]
        rfl
    rw [hkey]
    dsimp only
    have hsum : UInt64.ofNat f.header.length + UInt64.ofNat f.payload.length = UInt64.ofNat f.wire.length := by
      rw [hwl, UInt64.ofNat_add]
    rw [hsum, if_neg]
    · unfold headerOf
      rw [hb0]
      congr 2
      · cases f.fin <;> simp <;> omega
      · cases f.fin <;> simp <;> omega
      · cases f.fin <;> simp <;> omega
      · cases f.fin <;> simp <;> omega
      · apply UInt8.toNat_inj.mp
        rw [UInt8.toNat_ofNat']
        split <;> omega
    · intro hgt
      have : ssizeMax.toNat < (UInt64.ofNat f.wire.length).toNat := hgt
      rw [UInt64.toNat_ofNat', Nat.mod_eq_of_lt (by omega)] at this
      have e : ssizeMax.toNat = 2 ^ 63 - 1 := rfl
      omega
  have hb1 : ∀ k7, k7 < 128 → (UInt8.ofNat ((if f.key.isSome then 128 else 0) + k7)).toNat = (if f.key.isSome then 128 else 0) + k7 := by
    intro k7 hk
    rw [UInt8.toNat_ofNat']; split <;> omega
  cases hfm : f.form with
  | short =>
    rw [hfm] at hform
    dsimp only at hform
    refine mk _ [] f.payload.length (by omega) (hb1 _ (by omega)) (by simp [Frame.header, hfm]) ?_ (by omega)
    intro s
    unfold extLength
    have hne : ∀ k : Nat, k < 65536 → f.payload.length ≠ k → UInt16.ofNat f.payload.length ≠ UInt16.ofNat k := by
      intro k hk hne e
      have := congrArg UInt16.toNat e
      rw [UInt16.toNat_ofNat', UInt16.toNat_ofNat'] at this
      omega
    rw [if_neg (c := _ = 126) (hne 126 (by omega) (by omega)), if_neg (c := _ = 127) (hne 127 (by omega) (by omega))]
    congr 2
    apply UInt64.toNat_inj.mp
    rw [UInt16.toNat_toUInt64, UInt16.toNat_ofNat', UInt64.toNat_ofNat']
    omega
  | two =>
    rw [hfm] at hform
    dsimp only at hform
    refine mk _ (be16 (UInt16.ofNat f.payload.length)) 126 (by omega) (hb1 _ (by omega)) (by simp [Frame.header, hfm]) ?_ (by omega)
    intro s
    unfold extLength
    rw [if_pos (show UInt16.ofNat 126 = 126 from rfl), if_neg (by simp [be16_length])]
    congr 2
    have := at16_append (p := [UInt8.ofNat ((if f.fin then 128 else 0) + f.opcode.toNat),
      UInt8.ofNat ((if f.key.isSome then 128 else 0) + 126)]) (k := 2) rfl (UInt16.ofNat f.payload.length) s
    simp only [List.cons_append, List.nil_append] at this
    rw [this]
    apply UInt64.toNat_inj.mp
    rw [UInt16.toNat_toUInt64, UInt16.toNat_ofNat', UInt64.toNat_ofNat']
    omega
  | eight =>
    rw [hfm] at hform
    dsimp only at hform
    refine mk _ (be64 (UInt64.ofNat f.payload.length)) 127 (by omega) (hb1 _ (by omega)) (by simp [Frame.header, hfm]) ?_ (by omega)
    intro s
    unfold extLength
    rw [if_neg (c := _ = 126) (by decide), if_pos (show UInt16.ofNat 127 = 127 from rfl), if_neg (by simp [be64_length])]
    congr 2
    have := at64_append (p := [UInt8.ofNat ((if f.fin then 128 else 0) + f.opcode.toNat),
      UInt8.ofNat ((if f.key.isSome then 128 else 0) + 127)]) (k := 2) rfl (UInt64.ofNat f.payload.length) s
    simp only [List.cons_append, List.nil_append] at this
    rw [this]

/-! ## C34: frames -/

/-- How the sender writes the length. -/
def formOf (n : Nat) : Form := if n < 126 then .short else if n ≤ 65535 then .two else .eight

theorem send_wire (opcode : UInt8) (mask : Bool) (key : UInt32) (payload : Bytes) (ho : opcode < 16)
    (hl : payload.length < 2 ^ 64) : sendFrame opcode mask key payload =
      (Frame.mk true opcode (if mask then some key else none) (formOf payload.length) payload).wire := by
  have hop : opcode.toNat < 16 := ho
  have h0 : opcode ||| 0x80 = UInt8.ofNat (128 + opcode.toNat) := by
    have : ∀ a : UInt8, a < 16 → a ||| 0x80 = UInt8.ofNat (128 + a.toNat) := all256 (by decide +kernel)
    exact this opcode ho
  have hn : (UInt64.ofNat payload.length).toNat = payload.length := by rw [UInt64.toNat_ofNat']; omega
  have hlen : ∀ s : Bytes, sendLength mask (UInt64.ofNat payload.length) ++ s =
      (match formOf payload.length with
      | .short => [UInt8.ofNat ((if mask then 128 else 0) + payload.length)]
      | .two => UInt8.ofNat ((if mask then 128 else 0) + 126) :: be16 (UInt16.ofNat payload.length)
      | .eight => UInt8.ofNat ((if mask then 128 else 0) + 127) :: be64 (UInt64.ofNat payload.length)) ++ s := by
    intro s
    congr 1
    unfold sendLength formOf
    dsimp only
    by_cases h1 : payload.length < 126
    · rw [if_pos (show UInt64.ofNat payload.length < 126 by
        show (UInt64.ofNat payload.length).toNat < 126; omega), if_pos h1]
      dsimp only
      have : ∀ a : UInt8, a.toNat < 126 → (∀ m : Bool, (if m then (0x80 : UInt8) else 0) ||| a = UInt8.ofNat ((if m then 128 else 0) + a.toNat)) :=
        all256 (by decide +kernel)
      have ha : (UInt64.ofNat payload.length).toUInt8.toNat = payload.length := by
        rw [UInt64.toNat_toUInt8, hn]; omega
      rw [this _ (by rw [ha]; exact h1) mask, ha]
    · rw [if_neg (show ¬ UInt64.ofNat payload.length < 126 by
        intro h; have : (UInt64.ofNat payload.length).toNat < 126 := h; omega), if_neg h1]
      by_cases h2 : payload.length ≤ 65535
      · rw [if_pos (show UInt64.ofNat payload.length ≤ 65535 by
          show (UInt64.ofNat payload.length).toNat ≤ 65535; omega), if_pos h2]
        dsimp only
        congr 1
        · cases mask <;> decide
        · congr 1
          apply UInt16.toNat_inj.mp
          rw [UInt64.toNat_toUInt16, hn, UInt16.toNat_ofNat']
      · rw [if_neg (show ¬ UInt64.ofNat payload.length ≤ 65535 by
          intro h; have : (UInt64.ofNat payload.length).toNat ≤ 65535 := h; omega), if_neg h2]
        dsimp only
        congr 1
        cases mask <;> decide
  unfold sendFrame Frame.wire Frame.header
  rw [h0, hlen]
  cases mask <;> simp [keyBytes, masked, mask_eq] <;> cases formOf payload.length <;> rfl

theorem formOf_fine (opcode : UInt8) (fin : Bool) (key : Option UInt32) (payload : Bytes) (ho : opcode < 16)
    (hl : payload.length < 2 ^ 63 - 14) : (Frame.mk fin opcode key (formOf payload.length) payload).Fine := by
  refine ⟨ho, ?_⟩
  dsimp only
  unfold formOf
  by_cases h1 : payload.length < 126
  · rw [if_pos h1]; exact h1
  · rw [if_neg h1]
    by_cases h2 : payload.length ≤ 65535
    · rw [if_pos h2]; show _ < _; omega
    · rw [if_neg h2]; exact hl

/-- The payload which the receiver finds in a frame. -/
theorem payload_wire (f : Frame) :
    (if f.key.isSome then maskUnmask (f.key.getD 0) (f.wire.drop f.header.length) else f.wire.drop f.header.length) = f.payload := by
  unfold Frame.wire
  rw [List.drop_left]
  cases f.key with
  | none => rfl
  | some k =>
    simp only [Option.isSome, if_true, Option.getD, masked]
    rw [mask_eq, xorKey_twice]

/-- **C34** A frame with any opcode, payload (up to the limit of 2⁶³ bytes for a frame) and masking key, sent by the program, is found by the header parser to have this opcode,
FIN, no reserved bits, this masking and this length, whatever follows it. Its size is that of the bytes sent, and the
payload which the receiver takes from it is the one which was sent. -/
theorem frame_roundtrip (opcode : UInt8) (mask : Bool) (key : UInt32) (payload rest : Bytes) (ho : opcode < 16)
    (hl : payload.length < 2 ^ 63 - 14) :
    ∃ h t, parseHeader (sendFrame opcode mask key payload ++ rest) = .ok h t ∧
      h.fin = true ∧ h.opcode = opcode ∧ h.rsv1 = false ∧ h.rsv2 = false ∧ h.rsv3 = false ∧ h.mask = mask ∧
      h.payloadLen.toNat = payload.length ∧
      t.toNat = (sendFrame opcode mask key payload).length ∧
      (let p := ((sendFrame opcode mask key payload ++ rest).take t.toNat).drop h.headerLen
       (if h.mask then maskUnmask h.key p else p) = payload) := by
  rw [send_wire opcode mask key payload ho (by omega)]
  have hf := formOf_fine opcode true (if mask then some key else none) payload ho hl
  generalize hF : Frame.mk true opcode (if mask then some key else none) (formOf payload.length) payload = f at hf
  have hfin : f.fin = true := by rw [← hF]
  have hop : f.opcode = opcode := by rw [← hF]
  have hk : f.key = if mask then some key else none := by rw [← hF]
  have hp : f.payload = payload := by rw [← hF]
  have hwl := Frame.wire_length f
  have hhl := Frame.header_length f
  have ht : (UInt64.ofNat f.wire.length).toNat = f.wire.length := by rw [UInt64.toNat_ofNat', hwl, hp]; omega
  refine ⟨_, _, parse_wire f hf rest, hfin, hop, rfl, rfl, rfl, ?_, ?_, ht, ?_⟩
  · show f.key.isSome = mask
    rw [hk]; cases mask <;> rfl
  · show (UInt64.ofNat f.payload.length).toNat = _
    rw [hp, UInt64.toNat_ofNat']; omega
  · dsimp only
    rw [ht, List.take_left, ← hp]
    exact payload_wire f

/-- **C34** As long as not all of the header has arrived the parser asks for more. -/
theorem header_incomplete (f : Frame) (hf : f.Fine) (k : Nat) (hk : k < f.header.length) :
    parseHeader (f.wire.take k) = .incomplete := by
  cases hp : parseHeader (f.wire.take k) with
  | incomplete => rfl
  | soft =>
    have := parseHeader_mono (f.wire.take k) (f.wire.drop k) (by rw [hp]; simp)
    rw [List.take_append_drop, hp, ← List.append_nil f.wire, parse_wire f hf []] at this
    cases this
  | ok h t =>
    have := parseHeader_mono (f.wire.take k) (f.wire.drop k) (by rw [hp]; simp)
    rw [List.take_append_drop, hp, ← List.append_nil f.wire, parse_wire f hf []] at this
    cases this
    have := (parseHeader_ok hp).2.2.1
    rw [List.length_take] at this
    have : (headerOf f).headerLen = f.header.length := rfl
    omega

/-- **C34** The header of a frame which was sent: any beginning of it which is too short is incomplete. -/
theorem sent_header_incomplete (opcode : UInt8) (mask : Bool) (key : UInt32) (payload : Bytes) (ho : opcode < 16)
    (hl : payload.length < 2 ^ 63 - 14) (k : Nat)
    (hk : k < (sendFrame opcode mask key payload).length - payload.length) :
    parseHeader ((sendFrame opcode mask key payload).take k) = .incomplete := by
  rw [send_wire opcode mask key payload ho (by omega)] at hk ⊢
  apply header_incomplete _ (formOf_fine opcode true _ payload ho hl)
  rw [Frame.wire_length] at hk
  simpa using hk

example : parseHeader (sendFrame 1 true 0x01020304 [0x68, 0x69]) = .ok ⟨true, false, false, false, 1, true, 6, 2, 0x01020304⟩ 8 := by
  decide +kernel

/-! ## C36: the size of frames -/

/-- **C36**, partial. The size of a frame is that of its header and its payload, and this is within the limit.

Missing from the full property: headers with a payload length so large that the sum is 2⁶⁴ or more. There the property
is false, see `size_zero_aborts` and `size_below_header_breaks`. -/
theorem frame_size_partial (b : Bytes) (h : Header) (t : UInt64) (ho : parseHeader b = .ok h t)
    (hs : h.headerLen + h.payloadLen.toNat < 2 ^ 64) :
    t.toNat = h.headerLen + h.payloadLen.toNat ∧ 0 < t.toNat ∧ t.toNat ≤ 2 ^ 63 - 1 ∧ h.headerLen ≤ b.length := by
  obtain ⟨h1, h2, h3, h4, h5⟩ := parseHeader_ok ho
  have : t.toNat = h.headerLen + h.payloadLen.toNat := by
    rw [h4, UInt64.toNat_add, UInt64.toNat_ofNat', Nat.mod_eq_of_lt (a := h.headerLen) (by omega), Nat.mod_eq_of_lt hs]
  have h5 : t.toNat ≤ 2 ^ 63 - 1 := h5
  exact ⟨this, by omega, h5, h3⟩

/-- **C36** Frames which are too large are refused. -/
theorem frame_too_large (f : Bool) (n : UInt64) (rest : Bytes) (hn : 2 ^ 63 - 10 ≤ n.toNat) (hw : n.toNat < 2 ^ 64 - 10) :
    parseHeader ([if f then 0x82 else 0x02, 0x7f] ++ (be64 n ++ rest)) = .soft := by
  have hx : at64 ([if f then 0x82 else 0x02, 0x7f] ++ (be64 n ++ rest)) 2 = n := at64_append rfl n rest
  show parseHeader ((if f then 0x82 else 0x02) :: 0x7f :: (be64 n ++ rest)) = _
  rw [parseHeader_eq]
  unfold parseRest extLength
  rw [if_neg (c := _ = 126) (by decide), if_pos (c := _ = 127) (by decide), if_neg (by simp [be64_length])]
  dsimp only
  have hx' : at64 ((if f then 0x82 else 0x02) :: 0x7f :: (be64 n ++ rest)) 2 = n := hx
  rw [hx']
  unfold maskKey
  rw [if_neg (by decide)]
  dsimp only
  rw [if_pos]
  show ssizeMax.toNat < (UInt64.ofNat 10 + n).toNat
  rw [UInt64.toNat_add, UInt64.toNat_ofNat', Nat.mod_eq_of_lt (a := 10) (by omega), Nat.mod_eq_of_lt (by omega)]
  have : ssizeMax.toNat = 2 ^ 63 - 1 := rfl
  omega

/-- **C36** fails: a header of ten bytes with a payload length of 2⁶⁴ - 10 gives a frame of size zero, which aborts the program. -/
theorem size_zero_aborts : ∃ b h, parseHeader b = .ok h 0 ∧ h.headerLen = 10 ∧
    Read.calls (user 100 0) 1 (.open .init .init [b]) = .bug :=
  ⟨[0x82, 0x7f] ++ be64 (0 - 10), ⟨true, false, false, false, 2, false, 10, 0 - 10, 0⟩, by decide +kernel, rfl,
    by decide +kernel⟩

/-- **C36** fails: a frame which is shorter than its own header. Removing the mask from the payload writes outside of memory. -/
theorem size_below_header_breaks : ∃ b h t, parseHeader b = .ok h t ∧ t.toNat < h.headerLen ∧
    ∃ s st, Read.calls (user 100 0) 1 (.open .init .init [b]) = .open s st [] ∧ st.broken = true :=
  ⟨[0x82, 0xff] ++ be64 (0 - 13) ++ [1, 2, 3, 4], ⟨true, false, false, false, 2, true, 14, 0 - 13, 0x01020304⟩, 1,
    by decide +kernel, by decide, _, _, by rfl, by decide +kernel⟩

/-! ## The stream -/

/-- Streams in which no header gives a size which wraps, as far as the receiver gets. -/
inductive Clean : Bytes → Prop
  | mk (s : Bytes) (size : ∀ h t, parseHeader s = .ok h t → h.headerLen + h.payloadLen.toNat < 2 ^ 64)
      (next : ∀ h t, parseHeader s = .ok h t → t.toNat ≤ s.length → Clean (s.drop t.toNat)) : Clean s

theorem tgt_size {step max : Nat} {st : State} {b : Bytes} {n : Nat} (h : (user step max).tgt st b = .size n) :
    ∃ hd t, parseHeader b = .ok hd t ∧ t.toNat = n := by
  unfold user at h
  dsimp only at h
  split at h
  · cases h
  · cases h
  · rename_i hd t he; cases h; exact ⟨hd, t, he, rfl⟩

theorem tgt_incomplete {step max : Nat} {st : State} {b : Bytes} :
    (user step max).tgt st b = .incomplete ↔ parseHeader b = .incomplete := by
  unfold user
  dsimp only
  split <;> simp_all

theorem user_fits (step max : Nat) : Read.Fits (user step max) (fun _ s => Clean s) where
  stable := by
    intro st s b _ hp _ hi
    obtain ⟨more, rfl⟩ := hp
    have : parseHeader b ≠ .incomplete := fun e => hi (tgt_incomplete.mpr e)
    show (match parseHeader (b ++ more) with | _ => _) = _
    unfold user
    dsimp only
    rw [parseHeader_mono b more this]
  pos := by
    intro st s n hc ht
    obtain ⟨hd, t, he, rfl⟩ := tgt_size ht
    obtain ⟨_, size, _⟩ := hc
    exact (frame_size_partial s hd t he (size hd t he)).2.1
  skip := by
    intro st s b k _ _ _ ht
    unfold user at ht
    dsimp only at ht
    split at ht <;> cases ht
  own := by
    intro st s b n hc hp _ ht hn
    obtain ⟨hd, t, he, rfl⟩ := tgt_size ht
    obtain ⟨more, rfl⟩ := hp
    have he2 : parseHeader (b ++ more) = .ok hd t := by rw [parseHeader_mono b more (by rw [he]; simp), he]
    obtain ⟨_, size, _⟩ := hc
    obtain ⟨f1, _, _, _⟩ := frame_size_partial _ hd t he2 (size hd t he2)
    -- the header parser gives the same on the frame itself
    have he3 : parseHeader ((b ++ more).take t.toNat) = .ok hd t := by
      cases h3 : parseHeader ((b ++ more).take t.toNat) with
      | incomplete =>
        exfalso
        have hl : hd.headerLen ≤ ((b ++ more).take t.toNat).length := by rw [List.length_take]; omega
        exact absurd h3 (header_enough he2 (List.take_prefix _ _) hl)
      | soft =>
        have := parseHeader_mono _ ((b ++ more).drop t.toNat) (by rw [h3]; simp)
        rw [List.take_append_drop, he2, h3] at this
        cases this
      | ok h' t' =>
        have := parseHeader_mono _ ((b ++ more).drop t.toNat) (by rw [h3]; simp)
        rw [List.take_append_drop, he2, h3] at this
        exact this.symm
    unfold user
    dsimp only
    rw [he, he3]
  next := by
    intro st s n st' hc _ ht hn _
    obtain ⟨hd, t, he, rfl⟩ := tgt_size ht
    obtain ⟨_, _, next⟩ := hc
    exact next hd t he hn
  nextSkip := by
    intro st s k _ _ ht
    unfold user at ht
    dsimp only at ht
    split at ht <;> cases ht

/-- What the receiver does with a frame, once it has taken the payload from it. -/
def take (st : State) (fin : Bool) (opcode : UInt8) (payload : Bytes) : Ret × State :=
  if opcode ≠ 0 then
    let st := { st with fragment := none }
    if !opcodeFine opcode fin payload.length then (.soft, st)
    else
      let st := { st with lastOpcode := opcode }
      if payload.length > 0xffffffff then (.soft, st) else fragmentationStep st fin payload
  else if payload.length > 0xffffffff then (.soft, st) else fragmentationStep st fin payload

theorem interpret_wire (st : State) (f : Frame) : interpretStep st (headerOf f) f.wire = take st f.fin f.opcode f.payload := by
  have hwl := Frame.wire_length f
  unfold interpretStep
  have e : (headerOf f).headerLen = f.header.length := rfl
  rw [if_neg (by rw [e]; omega)]
  have hp : (if (headerOf f).mask then maskUnmask (headerOf f).key (f.wire.drop (headerOf f).headerLen)
      else f.wire.drop (headerOf f).headerLen) = f.payload := payload_wire f
  simp only [hp]
  rfl

/-- A sequence of frames which are all taken. -/
def run : State → List Frame → Option State
  | st, [] => some st
  | st, f :: fs =>
    match take st f.fin f.opcode f.payload with
    | (.ok, st') => run st' fs
    | _ => none

theorem run_append (fs gs : List Frame) : ∀ st, run st (fs ++ gs) = (run st fs).bind fun st' => run st' gs := by
  induction fs with
  | nil => intro st; rfl
  | cons f fs ih =>
    intro st
    rw [List.cons_append]
    simp only [run]
    rcases take st f.fin f.opcode f.payload with ⟨_ | _ | _, st1⟩
    · exact ih _
    · rfl
    · rfl

theorem wire_bound {f : Frame} (hf : f.Fine) : f.wire.length < 2 ^ 63 := by
  have hwl := Frame.wire_length f
  have hhl := Frame.header_length f
  obtain ⟨_, h⟩ := hf
  cases hfm : f.form <;> rw [hfm] at h <;> dsimp only at h <;> omega

theorem clean_frames (fs : List Frame) (h : ∀ f ∈ fs, f.Fine) : Clean (fs.flatMap Frame.wire) := by
  induction fs with
  | nil =>
    have hp : parseHeader [] = .incomplete := by decide +kernel
    refine ⟨_, ?_, ?_⟩
    · intro hd t he; rw [List.flatMap_nil, hp] at he; cases he
    · intro hd t he; rw [List.flatMap_nil, hp] at he; cases he
  | cons f fs ih =>
    have hf := h f (by simp)
    have hw := wire_bound hf
    have hwl := Frame.wire_length f
    have ht : (UInt64.ofNat f.wire.length).toNat = f.wire.length := by rw [UInt64.toNat_ofNat']; omega
    rw [List.flatMap_cons]
    refine ⟨_, ?_, ?_⟩
    · intro hd t he
      rw [parse_wire f hf] at he
      cases he
      show f.header.length + (UInt64.ofNat f.payload.length).toNat < _
      rw [UInt64.toNat_ofNat']
      omega
    · intro hd t he _
      rw [parse_wire f hf] at he
      cases he
      rw [ht, List.drop_left]
      exact ih fun g hg => h g (by simp [hg])

theorem deliver_frames (step max : Nat) (fs : List Frame) (h : ∀ f ∈ fs, f.Fine) : ∀ (st st' : State), run st fs = some st' →
    (user step max).deliverAll st (fs.flatMap Frame.wire) = (st', .waiting []) := by
  induction fs with
  | nil => intro st st' hr; cases hr; rfl
  | cons f fs ih =>
    intro st st' hr
    have hf := h f (by simp)
    have hw := wire_bound hf
    have hwl := Frame.wire_length f
    have hhl := Frame.header_length f
    have ht : (UInt64.ofNat f.wire.length).toNat = f.wire.length := by rw [UInt64.toNat_ofNat']; omega
    have hcl := clean_frames (f :: fs) h
    rw [List.flatMap_cons] at hcl ⊢
    unfold run at hr
    split at hr
    · rename_i st1 hst1
      have htg : (user step max).tgt st (f.wire ++ fs.flatMap Frame.wire) = .size f.wire.length := by
        unfold user
        dsimp only
        rw [parse_wire f hf]
        dsimp only
        rw [ht]
      have hc : (user step max).complete st ((f.wire ++ fs.flatMap Frame.wire).take f.wire.length)
          ((f.wire ++ fs.flatMap Frame.wire).take f.wire.length) = some st1 := by
        rw [List.take_left]
        unfold user
        dsimp only
        have := parse_wire f hf []
        rw [List.append_nil] at this
        rw [this]
        dsimp only
        rw [interpret_wire, hst1]
      rw [Read.deliverAll_size (user_fits step max) hcl (by intro e; have := congrArg List.length e; rw [List.length_append, List.length_nil] at this; omega) htg
        (by simp) hc, List.drop_left]
      exact ih (fun g hg => h g (by simp [hg])) _ _ hr
    · cases hr

/-- Frames which are taken, in any chunks. -/
theorem run_chunks (step max : Nat) (fs : List Frame) (h : ∀ f ∈ fs, f.Fine) (st' : State) (hr : run .init fs = some st')
    (chunks : List Bytes) (hch : chunks.flatten = fs.flatMap Frame.wire) (hmax : max = 0 ∨ chunks.flatten.length ≤ max) (n : Nat)
    (hn : chunks.length + chunks.flatten.length < n) :
    ∃ s, Read.calls (user step max) n (.open .init .init chunks) = .open s st' [] ∧ s.pending = [] := by
  have hd := deliver_frames step max fs h _ _ hr
  rcases Read.chunks_irrelevant (user step max) _ (user_fits step max) State.init chunks (hch ▸ clean_frames fs h) hmax n hn with
    ⟨s, st, h1, _, h3⟩ | ⟨st, _, h2⟩
  · rw [hch, hd] at h3
    injection h3 with h4 h5
    injection h5 with h5
    exact ⟨s, h4 ▸ h1, h5.symm⟩
  · rw [hch, hd] at h2
    cases h2

/-! ## C35: messages -/

/-- The state after a sequence of fragments, of which the last one has FIN. -/
theorem run_fragments (op : UInt8) (hop : op = 1 ∨ op = 2) : ∀ (gs : List Frame) (st : State) (acc : Bytes),
    st.lastOpcode = op → st.fragment = some acc → gs ≠ [] →
    (∀ g ∈ gs, g.opcode = 0 ∧ g.payload.length < 2 ^ 32) → gs.map (·.fin) = List.replicate (gs.length - 1) false ++ [true] →
    acc.length + ((gs.map (·.payload)).flatten).length < 2 ^ 64 →
    run st gs = some { st with fragment := none, delivered := st.delivered ++ [(op, acc ++ (gs.map (·.payload)).flatten)] } := by
  intro gs
  induction gs with
  | nil => intro st acc _ _ h; exact absurd rfl h
  | cons g gs ih =>
    intro st acc hlo hfr _ hg hfin hlen
    obtain ⟨hg0, hgl⟩ := hg g (by simp)
    have hop0 : st.lastOpcode ≠ 0 := by rw [hlo]; rcases hop with rfl | rfl <;> decide
    have hop8 : st.lastOpcode ≠ 8 := by rw [hlo]; rcases hop with rfl | rfl <;> decide
    have hop9 : st.lastOpcode ≠ 9 := by rw [hlo]; rcases hop with rfl | rfl <;> decide
    have hop10 : st.lastOpcode ≠ 10 := by rw [hlo]; rcases hop with rfl | rfl <;> decide
    have hl1 : ((g :: gs).map (·.payload)).flatten.length = g.payload.length + ((gs.map (·.payload)).flatten).length := by simp
    have htake : take st g.fin g.opcode g.payload =
        if g.fin then (.ok, { st with fragment := none, delivered := st.delivered ++ [(op, acc ++ g.payload)] })
        else (.ok, { st with fragment := some (acc ++ g.payload) }) := by
      unfold take
      rw [if_neg (by simpa using hg0), if_neg (by omega)]
      unfold fragmentationStep
      rw [if_neg hop0, if_neg (by simp [hfr]), hfr]
      dsimp only [Option.getD]
      rw [if_neg (by omega)]
      unfold finalStep
      dsimp only
      rw [if_neg hop8, if_neg hop9, if_neg hop10, hlo]
    cases gs with
    | nil =>
      have : g.fin = true := by simpa using hfin
      unfold run
      rw [htake, this]
      simp [run]
    | cons g2 gs =>
      have hf2 : g.fin = false ∧ (g2 :: gs).map (·.fin) = List.replicate gs.length false ++ [true] := by
        simp only [List.length_cons, Nat.add_sub_cancel, List.replicate_succ, List.cons_append, List.map_cons] at hfin ⊢
        injection hfin with h1 h2
        exact ⟨h1, h2⟩
      unfold run
      rw [htake, hf2.1]
      simp only [Bool.false_eq_true, if_false]
      rw [ih { st with fragment := some (acc ++ g.payload) } (acc ++ g.payload) hlo rfl (by simp) (fun x hx => hg x (by simp [hx])) hf2.2 (by rw [List.length_append]; omega)]
      simp

theorem run_item (it : Item) (h : it.Fine) (st : State) (hfr : st.fragment = none) :
    ∃ st', run st it.frames = some st' ∧ st'.fragment = none ∧ st'.broken = st.broken ∧
      st'.delivered = st.delivered ++ messages [it] ∧ st'.queue = st.queue ++ List.replicate (pings [it]) ⟨10, []⟩ := by
  cases it with
  | ping f =>
    obtain ⟨_, ho, hfin, hl⟩ := h
    refine ⟨{ st with fragment := none, lastOpcode := 9, queue := st.queue ++ [⟨10, []⟩] }, ?_, rfl, rfl, by simp [messages], by simp [pings]⟩
    show run st [f] = _
    unfold run
    have : take st f.fin f.opcode f.payload =
        (.ok, { st with fragment := none, lastOpcode := 9, queue := st.queue ++ [⟨10, []⟩] }) := by
      rw [ho, hfin]
      unfold take
      rw [if_pos (by decide)]
      simp only [opcodeFine, hl, decide_true, Bool.and_true, Bool.not_true, Bool.false_eq_true, if_false, or_true, true_or, if_true]
      rw [if_neg (by omega)]
      simp [fragmentationStep, finalStep]
    rw [this]
    rfl
  | pong f =>
    obtain ⟨_, ho, hfin, hl⟩ := h
    refine ⟨{ st with fragment := none, lastOpcode := 10, waitingForPong := false }, ?_, rfl, rfl, by simp [messages], by simp [pings]⟩
    show run st [f] = _
    unfold run
    have : take st f.fin f.opcode f.payload =
        (.ok, { st with fragment := none, lastOpcode := 10, waitingForPong := false }) := by
      rw [ho, hfin]
      unfold take
      rw [if_pos (by decide)]
      simp only [opcodeFine, hl, decide_true, Bool.and_true, Bool.not_true, Bool.false_eq_true, if_false, or_true, true_or, if_true]
      rw [if_neg (by omega)]
      simp [fragmentationStep, finalStep]
    rw [this]
    rfl
  | message f more =>
    obtain ⟨hfine, hop, hmore, hfin, hlen⟩ := h
    have hop0 : f.opcode ≠ 0 := by rcases hop with e | e <;> rw [e] <;> decide
    have hop8 : f.opcode ≠ 8 := by rcases hop with e | e <;> rw [e] <;> decide
    have hop9 : f.opcode ≠ 9 := by rcases hop with e | e <;> rw [e] <;> decide
    have hop10 : f.opcode ≠ 10 := by rcases hop with e | e <;> rw [e] <;> decide
    have hfl := (hfine f (by simp)).2
    have hof : opcodeFine f.opcode f.fin f.payload.length = true := by
      unfold opcodeFine
      rw [if_neg (by simp [hop8, hop9, hop10])]
      simpa using hop
    have hl1 : ((f :: more).map (·.payload)).flatten.length = f.payload.length + ((more.map (·.payload)).flatten).length := by simp
    have htake : take st f.fin f.opcode f.payload =
        if f.fin then (.ok, { st with fragment := none, lastOpcode := f.opcode, delivered := st.delivered ++ [(f.opcode, f.payload)] })
        else (.ok, { st with fragment := some f.payload, lastOpcode := f.opcode }) := by
      unfold take
      rw [if_pos hop0]
      simp only [hof, Bool.not_true, Bool.false_eq_true, if_false]
      rw [if_neg (by omega)]
      unfold fragmentationStep
      dsimp only
      rw [if_neg hop0]
      cases hff : f.fin
      · rw [if_neg (by simp)]
        dsimp only [Option.getD]
        rw [if_neg (by simp; omega)]
        simp
      · rw [if_pos (by simp)]
        unfold finalStep
        dsimp only
        rw [if_neg hop8, if_neg hop9, if_neg hop10]
        simp
    refine ⟨{ st with fragment := none, lastOpcode := f.opcode, delivered := st.delivered ++ [(f.opcode, ((f :: more).map (·.payload)).flatten)] },
      ?_, rfl, rfl, by simp [messages], by simp [pings]⟩
    show run st (f :: more) = _
    unfold run
    rw [htake]
    cases more with
    | nil =>
      have : f.fin = true := by simpa using hfin
      rw [this]
      simp [run]
    | cons g gs =>
      have hf2 : f.fin = false ∧ (g :: gs).map (·.fin) = List.replicate gs.length false ++ [true] := by
        simp only [List.length_cons, List.replicate_succ, List.cons_append, List.map_cons] at hfin ⊢
        injection hfin with h1 h2
        exact ⟨h1, h2⟩
      rw [hf2.1]
      simp only [Bool.false_eq_true, if_false]
      rw [run_fragments f.opcode hop (g :: gs) _ f.payload rfl rfl (by simp)
        (fun x hx => ⟨hmore x hx, (hfine x (List.mem_cons_of_mem _ hx)).2⟩) hf2.2 (by omega)]
      simp

theorem run_items (l : List Item) (h : ∀ it ∈ l, it.Fine) : ∀ (st : State), st.fragment = none →
    ∃ st', run st (l.flatMap Item.frames) = some st' ∧ st'.fragment = none ∧ st'.broken = st.broken ∧
      st'.delivered = st.delivered ++ messages l ∧ st'.queue = st.queue ++ List.replicate (pings l) ⟨10, []⟩ := by
  induction l with
  | nil => intro st hfr; exact ⟨st, rfl, hfr, rfl, by simp [messages], by simp [pings]⟩
  | cons it l ih =>
    intro st hfr
    obtain ⟨st1, h1, h2, h3, h4, h5⟩ := run_item it (h it (by simp)) st hfr
    obtain ⟨st2, k1, k2, k3, k4, k5⟩ := ih (fun x hx => h x (by simp [hx])) st1 h2
    refine ⟨st2, ?_, k2, by rw [k3, h3], ?_, ?_⟩
    · rw [List.flatMap_cons, run_append, h1]; exact k1
    · rw [k4, h4, List.append_assoc]
      congr 1
      rw [show it :: l = [it] ++ l from rfl, messages, messages, messages, List.filterMap_append]
    · rw [k5, h5, List.append_assoc, List.replicate_append_replicate]
      congr 2
      rw [show it :: l = [it] ++ l from rfl, pings, pings, pings, List.countP_append]

theorem item_frames_fine {it : Item} (h : it.Fine) : ∀ f ∈ it.frames, f.Fine := by
  cases it with
  | ping f => intro g hg; rcases List.mem_singleton.mp hg with rfl; exact h.1
  | pong f => intro g hg; rcases List.mem_singleton.mp hg with rfl; exact h.1
  | message f more => intro g hg; exact (h.1 g hg).1

/-- **C35**, partial. Whatever messages a peer sends, each in one or more fragments of any length, with any masking keys, with pings and pongs between the messages, and
however the stream is split into reads: all of the messages are delivered, each once, in order, with the opcode of its first
fragment and its payload put together, and each ping is answered. Nothing is left over.

Missing from the full property: pings and pongs between the fragments of a message, which RFC 6455 allows. There the
property is false, see `control_between_fragments`. -/
theorem messages_delivered_partial (step max : Nat) (l : List Item) (h : ∀ it ∈ l, it.Fine) (chunks : List Bytes)
    (hch : chunks.flatten = (l.flatMap Item.frames).flatMap Frame.wire) (hmax : max = 0 ∨ chunks.flatten.length ≤ max) (n : Nat)
    (hn : chunks.length + chunks.flatten.length < n) :
    ∃ s st, Read.calls (user step max) n (.open .init .init chunks) = .open s st [] ∧ s.pending = [] ∧
      st.delivered = messages l ∧ st.queue = List.replicate (pings l) ⟨10, []⟩ ∧ st.fragment = none ∧ st.broken = false := by
  obtain ⟨st, h1, h2, h3, h4, h5⟩ := run_items l h State.init rfl
  have hfine : ∀ f ∈ l.flatMap Item.frames, f.Fine := by
    intro f hf
    obtain ⟨it, hit, hf⟩ := List.mem_flatMap.mp hf
    exact item_frames_fine (h it hit) f hf
  obtain ⟨s, h6, h7⟩ := run_chunks step max _ hfine st h1 chunks hch hmax n hn
  exact ⟨s, st, h6, h7, by simpa [State.init] using h4, by simpa [State.init] using h5, h2, h3⟩

/-- A message in two fragments and a ping, to be used as an example. -/
def sampleItems : List Item :=
  [.message ⟨false, 1, some 0x01020304, .short, [0x61, 0x62]⟩ [⟨false, 0, none, .two, []⟩, ⟨true, 0, some 7, .eight, [0x63]⟩],
   .ping ⟨true, 9, none, .short, [1]⟩, .message ⟨true, 2, none, .short, [5]⟩ []]

theorem sampleItems_fine : ∀ it ∈ sampleItems, it.Fine := by
  intro it hit
  simp only [sampleItems, List.mem_cons, List.not_mem_nil, or_false] at hit
  rcases hit with rfl | rfl | rfl
  · refine ⟨?_, by decide, by decide, by decide, by decide⟩
    intro g hg
    simp only [List.mem_cons, List.not_mem_nil, or_false] at hg
    rcases hg with rfl | rfl | rfl <;> exact ⟨⟨by decide, by decide⟩, by decide⟩
  · exact ⟨⟨by decide, by decide⟩, rfl, rfl, by decide⟩
  · refine ⟨?_, by decide, by decide, by decide, by decide⟩
    intro g hg
    simp only [List.mem_cons, List.not_mem_nil, or_false] at hg
    rcases hg with rfl; exact ⟨⟨by decide, by decide⟩, by decide⟩

example : messages sampleItems = [(1, [0x61, 0x62, 0x63]), (2, [5])] := by decide
example : ∃ s st, Read.calls (user 10 0) 100 (.open .init .init [(sampleItems.flatMap Item.frames).flatMap Frame.wire]) = .open s st [] ∧
    st.delivered = [(1, [0x61, 0x62, 0x63]), (2, [5])] :=
  let ⟨s, st, h1, _, h3, _⟩ := messages_delivered_partial 10 0 sampleItems sampleItems_fine
    [(sampleItems.flatMap Item.frames).flatMap Frame.wire] (by simp) (Or.inl rfl) 100 (by decide +kernel)
  ⟨s, st, h1, h3⟩

theorem deliver_refused (step max : Nat) (fs : List Frame) (f : Frame) (gs : List Frame) (h : ∀ g ∈ fs ++ f :: gs, g.Fine) :
    ∀ (st st' : State), run st fs = some st' → (take st' f.fin f.opcode f.payload).1 = .soft →
    (user step max).deliverAll st ((fs ++ f :: gs).flatMap Frame.wire) = (st', .closed) := by
  induction fs with
  | nil =>
    intro st st' hr hs
    cases hr
    have hf := h f (by simp)
    have hw := wire_bound hf
    have hwl := Frame.wire_length f
    have hhl := Frame.header_length f
    have ht : (UInt64.ofNat f.wire.length).toNat = f.wire.length := by rw [UInt64.toNat_ofNat']; omega
    rw [List.nil_append, List.flatMap_cons]
    refine Read.deliverAll_refused (n := f.wire.length)
      (by intro e; have := congrArg List.length e; rw [List.length_append, List.length_nil] at this; omega) ?_ (by simp) ?_
    · unfold user
      dsimp only
      rw [parse_wire f hf]
      dsimp only
      rw [ht]
    · rw [List.take_left]
      unfold user
      dsimp only
      have := parse_wire f hf []
      rw [List.append_nil] at this
      rw [this]
      dsimp only
      rw [interpret_wire]
      obtain ⟨r, st1, e⟩ : ∃ r st1, take st f.fin f.opcode f.payload = (r, st1) := ⟨_, _, rfl⟩
      rw [e] at hs ⊢
      cases hs
      rfl
  | cons g fs ih =>
    intro st st' hr hs
    have hf := h g (by simp)
    have hw := wire_bound hf
    have hwl := Frame.wire_length g
    have hhl := Frame.header_length g
    have ht : (UInt64.ofNat g.wire.length).toNat = g.wire.length := by rw [UInt64.toNat_ofNat']; omega
    have hcl := clean_frames (g :: fs ++ f :: gs) h
    rw [List.cons_append, List.flatMap_cons] at hcl ⊢
    unfold run at hr
    split at hr
    · rename_i st1 hst1
      have htg : (user step max).tgt st (g.wire ++ (fs ++ f :: gs).flatMap Frame.wire) = .size g.wire.length := by
        unfold user
        dsimp only
        rw [parse_wire g hf]
        dsimp only
        rw [ht]
      have hc : (user step max).complete st ((g.wire ++ (fs ++ f :: gs).flatMap Frame.wire).take g.wire.length)
          ((g.wire ++ (fs ++ f :: gs).flatMap Frame.wire).take g.wire.length) = some st1 := by
        rw [List.take_left]
        unfold user
        dsimp only
        have := parse_wire g hf []
        rw [List.append_nil] at this
        rw [this]
        dsimp only
        rw [interpret_wire, hst1]
      rw [Read.deliverAll_size (user_fits step max) hcl (by intro e; have := congrArg List.length e; rw [List.length_append, List.length_nil] at this; omega) htg
        (by simp) hc, List.drop_left]
      exact ih (fun g' hg => h g' (by rw [List.cons_append]; exact List.mem_cons_of_mem _ hg)) _ _ hr hs
    · cases hr

/-- **C35** A frame which RFC 6455 does not allow, that is one with a reserved opcode or a close, ping or pong which is fragmented or has more than 125 bytes of payload,
ends the connection. What was sent before it is delivered and nothing which is sent after it has any effect. -/
theorem bad_frame_refused (step max : Nat) (l : List Item) (h : ∀ it ∈ l, it.Fine) (f : Frame) (gs : List Frame)
    (hf : f.Fine) (hgs : ∀ g ∈ gs, g.Fine)
    (hbad : (3 ≤ f.opcode ∧ f.opcode ≤ 7) ∨ 11 ≤ f.opcode ∨ (8 ≤ f.opcode ∧ (f.fin = false ∨ 125 < f.payload.length)))
    (chunks : List Bytes) (hch : chunks.flatten = (l.flatMap Item.frames ++ f :: gs).flatMap Frame.wire)
    (hmax : max = 0 ∨ chunks.flatten.length ≤ max) (n : Nat) (hn : chunks.length + chunks.flatten.length < n) :
    ∃ st, Read.calls (user step max) n (.open .init .init chunks) = .closed st ∧
      st.delivered = messages l ∧ st.queue = List.replicate (pings l) ⟨10, []⟩ ∧ st.broken = false := by
  obtain ⟨st, h1, h2, h3, h4, h5⟩ := run_items l h State.init rfl
  have hfine : ∀ g ∈ l.flatMap Item.frames ++ f :: gs, g.Fine := by
    intro g hg
    rcases List.mem_append.mp hg with hg | hg
    · obtain ⟨it, hit, hg⟩ := List.mem_flatMap.mp hg
      exact item_frames_fine (h it hit) g hg
    · rcases List.mem_cons.mp hg with rfl | hg
      · exact hf
      · exact hgs g hg
  have hop : ∀ (op : UInt8) (fin : Bool) (k : Nat),
      ((3 ≤ op ∧ op ≤ 7) ∨ 11 ≤ op ∨ (8 ≤ op ∧ (fin = false ∨ 125 < k))) → op ≠ 0 ∧ opcodeFine op fin k = false := by
    intro op fin k hb
    have e : ∀ a : UInt8, op = a ↔ op.toNat = a.toNat := fun a => UInt8.toNat_inj.symm
    simp only [UInt8.le_iff_toNat_le, UInt8.reduceToNat] at hb
    constructor
    · rw [ne_eq, e]; simp only [UInt8.reduceToNat]; omega
    · unfold opcodeFine
      simp only [e, UInt8.reduceToNat]
      split
      · rename_i h8
        rcases hb with hb | hb | ⟨_, hb | hb⟩
        · omega
        · omega
        · simp [hb]
        · have : ¬ k ≤ 125 := by omega
          simp [this]
      · simp; omega
  obtain ⟨hop0, hopf⟩ := hop f.opcode f.fin f.payload.length hbad
  have hsoft : (take st f.fin f.opcode f.payload).1 = .soft := by
    unfold take
    rw [if_pos hop0, hopf]
    rfl
  have hd := deliver_refused step max _ f gs hfine _ _ h1 hsoft
  rcases Read.chunks_irrelevant (user step max) _ (user_fits step max) State.init chunks (hch ▸ clean_frames _ hfine) hmax n hn with
    ⟨s, st2, h6, _, h7⟩ | ⟨st2, h6, h7⟩
  · rw [hch, hd] at h7
    cases h7
  · rw [hch, hd] at h7
    injection h7 with h8 _
    subst h8
    exact ⟨_, h6, by simpa [State.init] using h4, by simpa [State.init] using h5, h3⟩

-- Messages, then a ping which is not final.
example : ∃ st, Read.calls (user 10 0) 1000 (.open .init .init
    [(sampleItems.flatMap Item.frames ++ [(⟨false, 9, none, .short, [1]⟩ : Frame)]).flatMap Frame.wire]) = .closed st ∧
    st.delivered = [(1, [0x61, 0x62, 0x63]), (2, [5])] :=
  let ⟨st, h1, h2, _⟩ := bad_frame_refused 10 0 sampleItems sampleItems_fine ⟨false, 9, none, .short, [1]⟩ []
    ⟨by decide, by decide⟩ (by simp) (Or.inr (Or.inr ⟨by decide, Or.inl rfl⟩)) _ (by simp) (Or.inl rfl) 1000 (by decide +kernel)
  ⟨st, h1, h2⟩
example : (⟨true, 9, none, .two, List.replicate 126 0⟩ : Frame).Fine ∧ 125 < (List.replicate 126 (0 : UInt8)).length :=
  ⟨⟨by decide, by rw [List.length_replicate]; decide⟩, by rw [List.length_replicate]; decide⟩

/-- **C34** Messages of text or bytes which the program sends (as client with masks, or as server) arrive: all of them, once, in order and with their payload. -/
theorem sent_delivered (step max : Nat) (l : List (UInt8 × Bool × UInt32 × Bytes))
    (h : ∀ m ∈ l, (m.1 = 1 ∨ m.1 = 2) ∧ m.2.2.2.length < 2 ^ 32) (chunks : List Bytes)
    (hch : chunks.flatten = l.flatMap fun m => sendFrame m.1 m.2.1 m.2.2.1 m.2.2.2) (hmax : max = 0 ∨ chunks.flatten.length ≤ max)
    (n : Nat) (hn : chunks.length + chunks.flatten.length < n) :
    ∃ s st, Read.calls (user step max) n (.open .init .init chunks) = .open s st [] ∧ s.pending = [] ∧
      st.delivered = l.map fun m => (m.1, m.2.2.2) := by
  let item : UInt8 × Bool × UInt32 × Bytes → Item := fun m =>
    .message ⟨true, m.1, if m.2.1 then some m.2.2.1 else none, formOf m.2.2.2.length, m.2.2.2⟩ []
  have hlt : ∀ m ∈ l, m.1 < 16 := by
    intro m hm
    rcases (h m hm).1 with e | e <;> rw [e] <;> decide
  have hfine : ∀ it ∈ l.map item, it.Fine := by
    intro it hit
    obtain ⟨m, hm, rfl⟩ := List.mem_map.mp hit
    refine ⟨?_, (h m hm).1, by simp, by simp, by have := (h m hm).2; simp; omega⟩
    intro g hg
    rcases List.mem_singleton.mp hg with rfl
    exact ⟨formOf_fine _ _ _ _ (hlt m hm) (by have := (h m hm).2; omega), (h m hm).2⟩
  have hwire : ((l.map item).flatMap Item.frames).flatMap Frame.wire = l.flatMap fun m => sendFrame m.1 m.2.1 m.2.2.1 m.2.2.2 := by
    clear hch hmax hn hfine
    induction l with
    | nil => rfl
    | cons m l ih =>
      rw [List.map_cons, List.flatMap_cons, List.flatMap_append, ih (fun x hx => h x (by simp [hx])) (fun x hx => hlt x (by simp [hx])),
        List.flatMap_cons, send_wire m.1 m.2.1 m.2.2.1 m.2.2.2 (hlt m (by simp)) (by have := (h m (by simp)).2; omega)]
      simp [item, Item.frames]
  obtain ⟨s, st, h1, h2, h3, h4⟩ := messages_delivered_partial step max (l.map item) hfine chunks (by rw [hch, hwire]) hmax n hn
  refine ⟨s, st, h1, h2, ?_⟩
  rw [h3]
  unfold messages
  rw [List.filterMap_map]
  clear h1 h2 h3 h4 hwire hfine hlt hn hmax hch h
  induction l with
  | nil => rfl
  | cons m l ih =>
    rw [List.filterMap_cons, List.map_cons, ih]
    simp [item]

/-- **C35** fails: a ping between two fragments, which is allowed. The message is lost: nothing is delivered, and the second fragment is taken
for another ping. -/
theorem control_between_fragments : ∃ (a p b : Frame), Item.Fine (.message a [b]) ∧ Item.Fine (.ping p) ∧
    ∃ s st, Read.calls (user 100 0) 5 (.open .init .init [a.wire ++ p.wire ++ b.wire]) = .open s st [] ∧ s.pending = [] ∧
      st.delivered = [] ∧ st.queue = [⟨10, []⟩, ⟨10, []⟩] := by
  refine ⟨⟨false, 1, none, .short, [0x61]⟩, ⟨true, 9, none, .short, []⟩, ⟨true, 0, none, .short, [0x62]⟩, ?_,
    ⟨⟨by decide, by decide⟩, rfl, rfl, by decide⟩, _, _, by rfl, by decide +kernel, by decide +kernel, by decide +kernel⟩
  refine ⟨?_, by decide, by decide, by decide, by decide⟩
  intro g hg
  simp only [List.mem_cons, List.not_mem_nil, or_false] at hg
  rcases hg with rfl | rfl <;> exact ⟨⟨by decide, by decide⟩, by decide⟩

/-- A continuation which continues nothing is delivered as a message with the opcode of the message before. -/
theorem stray_continuation : ∃ (a b : Frame), a.fin = true ∧ b.opcode = 0 ∧
    ∃ s st, Read.calls (user 100 0) 5 (.open .init .init [a.wire ++ b.wire]) = .open s st [] ∧
      st.delivered = [(1, [0x61]), (1, [0x62])] :=
  ⟨⟨true, 1, none, .short, [0x61]⟩, ⟨true, 0, none, .short, [0x62]⟩, rfl, rfl, _, _, by rfl, by decide +kernel⟩

/-! ## C61: any bytes -/

theorem fragmentationStep_broken (st : State) (fin : Bool) (p : Bytes) : (fragmentationStep st fin p).2.broken = st.broken := by
  have hf : ∀ (st : State) (p : Bytes), (finalStep st p).2.broken = st.broken := by
    intro st p
    unfold finalStep
    split
    · rfl
    · split
      · rfl
      · split <;> rfl
  unfold fragmentationStep
  split
  · rfl
  · split
    · exact hf st p
    · dsimp only
      split
      · rfl
      · split
        · exact hf _ _
        · rfl

theorem take_broken (st : State) (fin : Bool) (op : UInt8) (p : Bytes) : (take st fin op p).2.broken = st.broken := by
  unfold take
  dsimp only
  split
  · split
    · rfl
    · split
      · rfl
      · exact fragmentationStep_broken _ _ _
  · split
    · rfl
    · exact fragmentationStep_broken _ _ _

theorem interpretStep_broken (st : State) (h : Header) (msg : Bytes) (hl : h.headerLen ≤ msg.length) :
    (interpretStep st h msg).2.broken = st.broken := by
  unfold interpretStep
  rw [if_neg (by omega)]
  exact take_broken st h.fin h.opcode _

theorem deliver_broken (step max : Nat) : ∀ (f : Nat) (st : State) (s : Bytes), Clean s → st.broken = false →
    (Read.Spec.deliver (user step max).tgt (fun st msg => (user step max).complete st msg msg) f st s).1.broken = false := by
  intro f
  induction f with
  | zero => intro st s _ h; exact h
  | succ f ih =>
    intro st s hc h
    unfold Read.Spec.deliver
    split
    · exact h
    · split
      · exact h
      · exact h
      · rename_i k hk
        unfold user at hk
        dsimp only at hk
        split at hk <;> cases hk
      · rename_i n hn
        split
        · exact h
        · rename_i hlen
          obtain ⟨hd, t, he, rfl⟩ := tgt_size hn
          split
          · exact h
          · rename_i st' hc'
            obtain ⟨_, size, next⟩ := hc
            have hsz := frame_size_partial s hd t he (size hd t he)
            apply ih _ _ (next hd t he (by omega))
            unfold user at hc'
            dsimp only at hc'
            split at hc'
            · rename_i h' t' he'
              have hmono := parseHeader_mono (s.take t.toNat) (s.drop t.toNat) (by rw [he']; simp)
              rw [List.take_append_drop, he, he'] at hmono
              cases hmono
              split at hc'
              · rename_i st'' hi
                cases hc'
                have := interpretStep_broken st hd (s.take t.toNat) (by rw [List.length_take]; omega)
                rw [hi] at this
                exact this.trans h
              · cases hc'
            · cases hc'

/-- **C61**, partial. Whatever bytes arrive, in whatever chunks: the receiver does not abort and does not write outside of memory; it gets the frames one after another,
independently of the chunks, or closes the connection.

Missing from the full property: streams with a header whose payload length wraps, see `size_zero_aborts` and
`size_below_header_breaks`. -/
theorem any_bytes_partial (step max : Nat) (chunks : List Bytes) (hc : Clean chunks.flatten)
    (hmax : max = 0 ∨ chunks.flatten.length ≤ max) (n : Nat) (hn : chunks.length + chunks.flatten.length < n) :
    ∃ st : State, st.broken = false ∧ (user step max).deliverAll .init chunks.flatten = (st, ((user step max).deliverAll .init chunks.flatten).2) ∧
      ((∃ s, Read.calls (user step max) n (.open .init .init chunks) = .open s st []) ∨
       Read.calls (user step max) n (.open .init .init chunks) = .closed st) := by
  have hb : ((user step max).deliverAll .init chunks.flatten).1.broken = false := deliver_broken step max _ _ _ hc rfl
  rcases Read.chunks_irrelevant (user step max) _ (user_fits step max) State.init chunks hc hmax n hn with
    ⟨s, st, h1, _, h3⟩ | ⟨st, h1, h2⟩
  · rw [h3] at hb ⊢
    exact ⟨st, hb, rfl, Or.inl ⟨s, h1⟩⟩
  · rw [h2] at hb ⊢
    exact ⟨st, hb, rfl, Or.inr h1⟩

example : Clean [0x81, 0x01, 0x61, 0xff] := by
  have h1 : parseHeader [0x81, 0x01, 0x61, 0xff] = .ok ⟨true, false, false, false, 1, false, 2, 1, 0⟩ 3 := by decide +kernel
  have h2 : parseHeader [0xff] = .incomplete := by decide +kernel
  refine ⟨_, ?_, ?_⟩
  · intro h t he; rw [h1] at he; cases he; decide
  · intro h t he _
    rw [h1] at he
    cases he
    refine ⟨_, ?_, ?_⟩
    · intro h t he; have : parseHeader [0xff] = .ok h t := he; rw [h2] at this; cases this
    · intro h t he; have : parseHeader [0xff] = .ok h t := he; rw [h2] at this; cases this

end Verif.Websocket
