import Verif.Udpstream.Wire
import Verif.Crc32.Props
/-!
# C105: what is sent is received, and damaged packets are refused
-/
namespace Verif.Udpstream
open Verif Verif.Endian

theorem headerBytes_length {ft : UInt8} {id : UInt16} {word : UInt32} {rest : Bytes} (hr : rest.length = 8) (size : UInt16) (dc : UInt32) : (headerBytes ft id word rest size dc).length = 22 := by
  simp [headerBytes, be16_length, be32_length, hr]

theorem getD_at {p : Bytes} {k : Nat} (h : p.length = k) (x : UInt8) (s : Bytes) : (p ++ x :: s).getD k 0 = x := by
  subst h; simp

/-- The bytes of a packet, field by field. -/
theorem packed_fields (ft : UInt8) (id : UInt16) (word : UInt32) (rest data : Bytes) (hr : rest.length = 8) (hd : data.length ≤ 1024) (b : Bytes) (hb : b = packed ft id word rest data) :
    b.length = 26 + data.length ∧ headerValid b = true ∧ b.getD 4 0 = ft ∧ b.getD 5 0 = 3 ∧ at16 b 6 = id ∧ at32 b 8 = word ∧ b.drop 12 = rest ++ b.drop 20 ∧ (at16 b 20).toNat = data.length ∧
    (0 < data.length → at32 b 22 = ⟨Crc32.crc32buf data⟩) ∧ b.drop 26 = data := by
  have hsz : (UInt16.ofNat data.length).toNat = data.length := by
    rw [UInt16.toNat_ofNat']; exact Nat.mod_eq_of_lt (by omega)
  generalize hdc : (if data.length > 0 then (⟨Crc32.crc32buf data⟩ : UInt32) else 0) = dc at *
  have hb : b = be32 ⟨Crc32.crc32buf (headerBytes ft id word rest (UInt16.ofNat data.length) dc)⟩ ++ headerBytes ft id word rest (UInt16.ofNat data.length) dc ++ data := by
    rw [hb]; unfold packed; simp only [hdc]
  generalize hcrc : (⟨Crc32.crc32buf (headerBytes ft id word rest (UInt16.ofNat data.length) dc)⟩ : UInt32) = crc at *
  generalize UInt16.ofNat data.length = sz at *
  have hl := headerBytes_length (ft := ft) (id := id) (word := word) hr sz dc
  have e4 : b = be32 crc ++ (ft :: ([3] ++ be16 id ++ be32 word ++ rest ++ be16 sz ++ be32 dc ++ data)) := by rw [hb]; simp [headerBytes]
  have e5 : b = (be32 crc ++ [ft]) ++ (3 :: (be16 id ++ be32 word ++ rest ++ be16 sz ++ be32 dc ++ data)) := by rw [hb]; simp [headerBytes]
  have e6 : b = (be32 crc ++ [ft, 3]) ++ (be16 id ++ (be32 word ++ rest ++ be16 sz ++ be32 dc ++ data)) := by rw [hb]; simp [headerBytes]
  have e8 : b = (be32 crc ++ [ft, 3] ++ be16 id) ++ (be32 word ++ (rest ++ be16 sz ++ be32 dc ++ data)) := by rw [hb]; simp [headerBytes]
  have e12 : b = (be32 crc ++ [ft, 3] ++ be16 id ++ be32 word) ++ (rest ++ (be16 sz ++ be32 dc ++ data)) := by rw [hb]; simp [headerBytes]
  have e20 : b = (be32 crc ++ [ft, 3] ++ be16 id ++ be32 word ++ rest) ++ (be16 sz ++ (be32 dc ++ data)) := by rw [hb]; simp [headerBytes]
  have e22 : b = (be32 crc ++ [ft, 3] ++ be16 id ++ be32 word ++ rest ++ be16 sz) ++ (be32 dc ++ data) := by rw [hb]; simp [headerBytes]
  have l20 : (be32 crc ++ [ft, 3] ++ be16 id ++ be32 word ++ rest).length = 20 := by simp [be32_length, be16_length, hr]
  have l12 : (be32 crc ++ [ft, 3] ++ be16 id ++ be32 word).length = 12 := by simp [be32_length, be16_length]
  refine ⟨?_, ?_, ?_, ?_, ?_, ?_, ?_, ?_, ?_, ?_⟩
  · rw [hb, List.length_append, List.length_append, be32_length, hl]
  · unfold headerValid
    have h1 : (b.drop 4).take 22 = headerBytes ft id word rest sz dc := by
      rw [hb, List.append_assoc, List.drop_left' (be32_length _), List.take_left' hl]
    have h2 : at32 b 0 = crc := by
      have := at32_append (p := []) (k := 0) rfl crc (headerBytes ft id word rest sz dc ++ data)
      rw [hb]; simpa using this
    rw [h1, h2, ← hcrc]
    exact decide_eq_true ((Crc32.crc32cmp_iff _ _).mpr rfl)
  · rw [e4]; exact getD_at (be32_length _) _ _
  · rw [e5]; exact getD_at (by simp [be32_length]) _ _
  · rw [e6]; exact at16_append (by simp [be32_length]) _ _
  · rw [e8]; exact at32_append (by simp [be32_length, be16_length]) _ _
  · have h1 : b.drop 12 = rest ++ (be16 sz ++ be32 dc ++ data) := by rw [e12, List.drop_left' l12]
    have h2 : b.drop 20 = be16 sz ++ be32 dc ++ data := by rw [e20, List.drop_left' l20, List.append_assoc]
    rw [h1, h2]
  · rw [e20, at16_append l20]; exact hsz
  · intro h
    rw [if_pos h] at hdc
    rw [e22, at32_append (by simp [be32_length, be16_length, hr]), hdc]
  · rw [hb, List.drop_left' (by simp [be32_length, hl])]

theorem accept_packed (ft : UInt8) (id : UInt16) (word : UInt32) (rest data : Bytes) (hr : rest.length = 8) (hd : data.length ≤ 1024) :
    accept (packed ft id word rest data) = .packet ⟨ft &&& 0x0f, (ft >>> 4) &&& 1 ≠ 0, (ft >>> 4) &&& 2 ≠ 0, 3, id, word,
      if ft &&& 0x0f = 4 then at32 rest 0 else 0, if ft &&& 0x0f = 4 then at32 rest 4 else 0, if ft &&& 0x0f = 4 then 0 else at64 rest 0, data⟩ := by
  obtain ⟨f1, f2, f3, f4, f5, f6, f7, f8, f9, f10⟩ := packed_fields ft id word rest data hr hd _ rfl
  generalize packed ft id word rest data = b at *
  have hget : ∀ i, i < 8 → b.getD (12 + i) 0 = rest.getD i 0 := by
    intro i hi
    have : (b.drop 12).getD i 0 = (rest ++ b.drop 20).getD i 0 := by rw [f7]
    rw [List.getD_eq_getElem?_getD, List.getElem?_drop] at this
    rw [List.getD_eq_getElem?_getD, this, List.getD_eq_getElem?_getD, List.getD_eq_getElem?_getD, List.getElem?_append_left (by omega)]
  have a12 : at32 b 12 = at32 rest 0 := by
    unfold at32
    rw [show (12 + 1) = 12 + 1 from rfl, hget 1 (by omega), hget 2 (by omega), hget 3 (by omega), ← hget 0 (by omega)]
  have a16 : at32 b 16 = at32 rest 4 := by
    unfold at32
    have h0 := hget 4 (by omega)
    have h1 := hget 5 (by omega)
    have h2 := hget 6 (by omega)
    have h3 := hget 7 (by omega)
    simp only [Nat.reduceAdd] at *
    rw [h0, h1, h2, h3]
  have a64 : at64 b 12 = at64 rest 0 := by
    unfold at64
    have g0 := hget 0 (by omega)
    have g1 := hget 1 (by omega)
    have g2 := hget 2 (by omega)
    have g3 := hget 3 (by omega)
    have g4 := hget 4 (by omega)
    have g5 := hget 5 (by omega)
    have g6 := hget 6 (by omega)
    have g7 := hget 7 (by omega)
    simp only [Nat.reduceAdd] at *
    rw [g0, g1, g2, g3, g4, g5, g6, g7]
  have hdata : (b.drop 26).take (at16 b 20).toNat = data := by rw [f10, f8, List.take_length]
  unfold accept unpack
  rw [hdata, f8, f3, f4, f5, f6, a12, a16, a64, f2, f1]
  rw [if_neg (by omega), if_neg (by simp), if_neg (by omega), if_neg (by simp), if_neg, if_neg (by omega)]
  · simp
  · rintro ⟨h1, h2⟩
    apply h2
    rw [Crc32.crc32cmp_iff, f9 h1]

/-- The packet which stands for a data frame. -/
def framePacket (id : UInt16) (number : UInt32) (boundary : Bool) (app : UInt64) (data : Bytes) : Packet := ⟨3, boundary, false, 3, id, number, 0, 0, app, data⟩

theorem at64_be64 (x : UInt64) : at64 (be64 x) 0 = x := by
  have := at64_append (p := []) (k := 0) rfl x []
  simpa using this

/-- C105: a data frame which is sent and arrives undamaged is accepted with the same stream, number, boundary, application data and data. -/
theorem frame_roundtrip (id : UInt16) (number : UInt32) (boundary : Bool) (app : UInt64) (data : Bytes) (hd : data.length ≤ 1024) :
    accept (packFrame id number boundary app data) = .packet { type := 3, boundary := boundary, hasWindow := false, version := 3, id := id, word := number, ackFirst := 0, ackLast := 0, app := app, data := data } := by
  unfold packFrame
  rw [accept_packed _ _ _ _ _ (be64_length _) hd, at64_be64]
  cases boundary <;> rfl

/-- C105: the same for acknowledgements. -/
theorem ack_roundtrip (id : UInt16) (first last window : UInt32) :
    accept (packAck id first last window) = .packet { type := 4, boundary := false, hasWindow := decide (window ≠ 0), version := 3, id := id, word := window, ackFirst := first, ackLast := last, app := 0, data := [] } := by
  have h1 : at32 (be32 first ++ be32 last) 0 = first := at32_append (p := []) (k := 0) rfl first (be32 last)
  have h2 : at32 (be32 first ++ be32 last) 4 = last := by
    have := at32_append (be32_length first) last []
    simpa using this
  unfold packAck
  split
  · rename_i h
    rw [accept_packed _ _ _ _ _ (by simp [be32_length]) (by simp), h1, h2]
    simp only [h, ne_eq, not_false_eq_true, decide_true]
    rfl
  · rename_i h
    have h : window = 0 := by simpa using h
    rw [accept_packed _ _ _ _ _ (by simp [be32_length]) (by simp), h1, h2, h]
    rfl

/-- C105: the same for resets, connects and control frames. -/
theorem reset_roundtrip (id : UInt16) (handle : UInt32) : accept (packReset id handle) = .packet (Packet.mk 0 false false 3 id handle 0 0 0 []) := by
  unfold packReset; rw [accept_packed _ _ _ _ _ (be64_length _) (by simp), at64_be64]; rfl
theorem connect_roundtrip (id : UInt16) (handle : UInt32) : accept (packConnect id handle) = .packet (Packet.mk 1 false false 3 id handle 0 0 0 []) := by
  unfold packConnect; rw [accept_packed _ _ _ _ _ (be64_length _) (by simp), at64_be64]; rfl
theorem control_roundtrip (id : UInt16) (app : UInt64) : accept (packControl id app) = .packet (Packet.mk 5 false false 3 id 0 0 0 app []) := by
  unfold packControl; rw [accept_packed _ _ _ _ _ (be64_length _) (by simp), at64_be64]; rfl

/-- C105: whatever bytes arrive, no check of the program fails. -/
theorem accept_never_bug (b : Bytes) : accept b ≠ .bug := by
  unfold accept
  split
  · simp
  split
  · simp
  split
  · simp
  rename_i h
  split
  · simp
  split
  · simp
  unfold unpack
  rw [if_neg h]
  simp

/-- What is known of accepted packets. -/
theorem accepted {b : Bytes} {p : Packet} (h : accept b = .packet p) :
    26 ≤ b.length ∧ at32 b 0 = ⟨Crc32.crc32buf ((b.drop 4).take 22)⟩ ∧ b.length = 26 + (at16 b 20).toNat ∧ (at16 b 20).toNat ≤ 1024 ∧ p.data = b.drop 26 ∧ (p.data ≠ [] → at32 b 22 = ⟨Crc32.crc32buf p.data⟩) := by
  unfold accept at h
  split at h
  · cases h
  rename_i h1
  split at h
  · cases h
  rename_i h2
  split at h
  · cases h
  rename_i h3
  split at h
  · cases h
  rename_i h4
  split at h
  · cases h
  rename_i h5
  unfold unpack at h
  rw [if_neg h3] at h
  injection h with h
  have h4 : b.length = 26 + (at16 b 20).toNat := by simpa using h4
  have hdata : (b.drop 26).take (at16 b 20).toNat = b.drop 26 := List.take_of_length_le (by rw [List.length_drop]; omega)
  have hp : p.data = b.drop 26 := by rw [← h]; exact hdata
  have hv : headerValid b = true := by simpa using h2
  unfold headerValid at hv
  have hv := (Crc32.crc32cmp_iff _ _).mp (of_decide_eq_true hv)
  refine ⟨by omega, ?_, h4, by omega, hp, ?_⟩
  · rw [← hv]
  · intro hne
    have : (at16 b 20).toNat > 0 := by
      have : 0 < (b.drop 26).length := by
        rw [← hp]; exact List.length_pos_iff.mpr hne
      rw [List.length_drop] at this; omega
    have h6 : Crc32.crc32cmp ((b.drop 26).take (at16 b 20).toNat) (at32 b 22).toBitVec = 0 := by
      by_cases h7 : Crc32.crc32cmp ((b.drop 26).take (at16 b 20).toNat) (at32 b 22).toBitVec = 0
      · exact h7
      · exact absurd ⟨this, h7⟩ h5
    rw [hdata, ← hp] at h6
    rw [← (Crc32.crc32cmp_iff _ _).mp h6]

theorem four_bytes (b : Bytes) (h : 4 ≤ b.length) : ∃ x0 x1 x2 x3 t, b = x0 :: x1 :: x2 :: x3 :: t := by
  cases b with
  | nil => exact absurd h (by simp)
  | cons x0 b => cases b with
    | nil => exact absurd h (by simp)
    | cons x1 b => cases b with
      | nil => exact absurd h (by simp)
      | cons x2 b => cases b with
        | nil => exact absurd h (by simp)
        | cons x3 t => exact ⟨x0, x1, x2, x3, t, rfl⟩

/-- C105: the data handed over is what is in the packet, as long as its size says, and has the checksum given in the packet; and so has the header. -/
theorem accepted_sound (b : Bytes) (p : Packet) (h : accept b = .packet p) :
    ∃ crc hd, b = be32 crc ++ hd ++ p.data ∧ hd.length = 22 ∧ crc = ⟨Crc32.crc32buf hd⟩ ∧ (at16 hd 16).toNat = p.data.length ∧ p.data.length ≤ 1024 ∧ (p.data ≠ [] → at32 hd 18 = ⟨Crc32.crc32buf p.data⟩) := by
  obtain ⟨h1, h2, h3, h4, h5, h6⟩ := accepted h
  obtain ⟨x0, x1, x2, x3, t, rfl⟩ := four_bytes b (by omega)
  refine ⟨_, t.take 22, ?_, ?_, h2, ?_, ?_, ?_⟩
  · have e : be32 (at32 (x0 :: x1 :: x2 :: x3 :: t) 0) = [x0, x1, x2, x3] := be32_of x0 x1 x2 x3
    rw [e, h5]
    show _ = x0 :: x1 :: x2 :: x3 :: (t.take 22 ++ t.drop 22)
    rw [List.take_append_drop]
  · rw [List.length_take]
    simp only [List.length_cons] at h1
    omega
  all_goals
    have hg : ∀ i, i < 22 → (t.take 22).getD i 0 = (x0 :: x1 :: x2 :: x3 :: t).getD (i + 4) 0 := by
      intro i hi
      simp [List.getElem?_take, hi]
  · have : at16 (t.take 22) 16 = at16 (x0 :: x1 :: x2 :: x3 :: t) 20 := by
      unfold at16; rw [hg 16 (by omega), hg 17 (by omega)]
    rw [this, h5, List.length_drop]; omega
  · rw [h5, List.length_drop]; omega
  · intro hne
    have : at32 (t.take 22) 18 = at32 (x0 :: x1 :: x2 :: x3 :: t) 22 := by
      unfold at32; rw [hg 18 (by omega), hg 19 (by omega), hg 20 (by omega), hg 21 (by omega)]
    rw [this]; exact h6 hne

theorem crc_ne {a b : Bytes} (h : Crc32.crc32buf a ≠ Crc32.crc32buf b) : (⟨Crc32.crc32buf a⟩ : UInt32) ≠ ⟨Crc32.crc32buf b⟩ := fun e => h (by injection e)

/-- C105: a packet which was changed on its way, anywhere behind its first four bytes and within four bytes next to each other, is refused. -/
theorem damaged_refused (b b' : Bytes) (p p' : Packet) (h : accept b = .packet p) (pre w w' suf : Bytes) (hb : b = pre ++ w ++ suf) (hb' : b' = pre ++ w' ++ suf)
    (hw : w.length = w'.length) (h4 : w.length ≤ 4) (hne : w ≠ w') (hpre : 4 ≤ pre.length) : accept b' ≠ .packet p' := by
  intro h'
  obtain ⟨crc, hd, e1, e2, e3, e4, e5, e6⟩ := accepted_sound b p h
  obtain ⟨crc', hd', g1, g2, g3, g4, g5, g6⟩ := accepted_sound b' p' h'
  obtain ⟨pre4, pre, rfl, hl⟩ : ∃ a c, pre = a ++ c ∧ a.length = 4 := ⟨pre.take 4, pre.drop 4, (List.take_append_drop 4 pre).symm, by simp; omega⟩
  have k1 : be32 crc = pre4 ∧ hd ++ p.data = pre ++ w ++ suf := List.append_inj (by rw [← List.append_assoc, ← e1, hb]; simp) (by rw [be32_length, hl])
  have k2 : be32 crc' = pre4 ∧ hd' ++ p'.data = pre ++ w' ++ suf := List.append_inj (by rw [← List.append_assoc, ← g1, hb']; simp) (by rw [be32_length, hl])
  have hcrc : crc = crc' := by
    rw [← of_be32 crc, ← of_be32 crc', k1.1, k2.1]
  -- the checksums of the headers are equal
  have hh : Crc32.crc32buf hd = Crc32.crc32buf hd' := by
    rw [e3, g3] at hcrc; injection hcrc
  have hd1 : hd = (pre ++ w ++ suf).take 22 := by rw [← k1.2, List.take_left' e2]
  have hd2 : hd' = (pre ++ w' ++ suf).take 22 := by rw [← k2.2, List.take_left' g2]
  have s1 : (pre ++ w ++ suf).take 22 = pre.take 22 ++ w.take (22 - pre.length) ++ suf.take (22 - pre.length - w.length) := by
    rw [List.append_assoc, List.take_append, List.take_append, List.append_assoc]
  have s2 : (pre ++ w' ++ suf).take 22 = pre.take 22 ++ w'.take (22 - pre.length) ++ suf.take (22 - pre.length - w.length) := by
    rw [List.append_assoc, List.take_append, List.take_append, List.append_assoc, hw]
  have hweq : w.take (22 - pre.length) = w'.take (22 - pre.length) := by
    by_cases hq : w.take (22 - pre.length) = w'.take (22 - pre.length)
    · exact hq
    · exfalso
      refine Crc32.crc32buf_burst (pre.take 22) _ _ (suf.take (22 - pre.length - w.length)) ?_ ?_ hq ?_
      · simp [hw]
      · rw [List.length_take]; omega
      · rw [← s1, ← s2, ← hd1, ← hd2, hh]
  have hdeq : hd = hd' := by rw [hd1, hd2, s1, s2, hweq]
  -- then the data differs
  have d1 : p.data = (pre ++ w ++ suf).drop 22 := by rw [← k1.2, List.drop_left' e2]
  have d2 : p'.data = (pre ++ w' ++ suf).drop 22 := by rw [← k2.2, List.drop_left' g2]
  have t1 : (pre ++ w ++ suf).drop 22 = pre.drop 22 ++ w.drop (22 - pre.length) ++ suf.drop (22 - pre.length - w.length) := by
    rw [List.append_assoc, List.drop_append, List.drop_append, List.append_assoc]
  have t2 : (pre ++ w' ++ suf).drop 22 = pre.drop 22 ++ w'.drop (22 - pre.length) ++ suf.drop (22 - pre.length - w.length) := by
    rw [List.append_assoc, List.drop_append, List.drop_append, List.append_assoc, hw]
  have hwne : w.drop (22 - pre.length) ≠ w'.drop (22 - pre.length) := by
    intro hq
    apply hne
    rw [← List.take_append_drop (22 - pre.length) w, ← List.take_append_drop (22 - pre.length) w', hweq, hq]
  have hcd : Crc32.crc32buf p.data ≠ Crc32.crc32buf p'.data := by
    rw [d1, d2, t1, t2]
    refine Crc32.crc32buf_burst _ _ _ _ (by simp [hw]) (by rw [List.length_drop]; omega) hwne
  have hlen : p.data.length = p'.data.length := by rw [← e4, ← g4, hdeq]
  have hn1 : p.data ≠ [] := by
    intro hq
    have : p'.data = [] := List.length_eq_zero_iff.mp (by rw [← hlen, hq]; rfl)
    exact hcd (by rw [hq, this])
  have hn2 : p'.data ≠ [] := by
    intro hq
    exact hn1 (List.length_eq_zero_iff.mp (by rw [hlen, hq]; rfl))
  have := e6 hn1
  rw [hdeq, g6 hn2] at this
  exact crc_ne hcd this.symm

/-- C105: and so is a packet of which only the first four bytes were changed. -/
theorem damaged_checksum_refused (b b' : Bytes) (p p' : Packet) (h : accept b = .packet p) (w w' suf : Bytes) (hb : b = w ++ suf) (hb' : b' = w' ++ suf)
    (hw : w.length = 4) (hw' : w'.length = 4) (hne : w ≠ w') : accept b' ≠ .packet p' := by
  intro h'
  obtain ⟨crc, hd, e1, e2, e3, _⟩ := accepted_sound b p h
  obtain ⟨crc', hd', g1, g2, g3, _⟩ := accepted_sound b' p' h'
  have k1 : be32 crc = w ∧ hd ++ p.data = suf := List.append_inj (by rw [← List.append_assoc, ← e1, hb]) (by rw [be32_length, hw])
  have k2 : be32 crc' = w' ∧ hd' ++ p'.data = suf := List.append_inj (by rw [← List.append_assoc, ← g1, hb']) (by rw [be32_length, hw'])
  have hdd : hd = hd' := (List.append_inj (k1.2.trans k2.2.symm) (e2.trans g2.symm)).1
  apply hne
  rw [← k1.1, ← k2.1, e3, g3, hdd]

/-- C105: a packet which was cut off is refused, and so is one with something behind it. -/
theorem resized_refused (b b' : Bytes) (p p' : Packet) (h : accept b = .packet p) (hpre : b <+: b' ∨ b' <+: b) (hne : b' ≠ b) : accept b' ≠ .packet p' := by
  intro h'
  obtain ⟨h1, _, h3, _⟩ := accepted h
  obtain ⟨g1, _, g3, _⟩ := accepted h'
  have key : ∀ x y : Bytes, x <+: y → 26 ≤ x.length → at16 x 20 = at16 y 20 := by
    rintro x y ⟨t, rfl⟩ hl
    unfold at16
    simp only [List.getD_eq_getElem?_getD]
    rw [List.getElem?_append_left (by omega), List.getElem?_append_left (by omega)]
  rcases hpre with hp | hp
  · have := key b b' hp h1
    have hl : b.length = b'.length := by rw [h3, g3, this]
    exact hne (hp.eq_of_length hl).symm
  · have := key b' b hp g1
    have hl : b'.length = b.length := by rw [h3, g3, this]
    exact hne (hp.eq_of_length hl)

/-- A frame with three bytes of data. -/
example : accept (packFrame 100 1 true 7 [1, 2, 3]) = .packet ⟨3, true, false, 3, 100, 1, 0, 0, 7, [1, 2, 3]⟩ := frame_roundtrip 100 1 true 7 [1, 2, 3] (by simp)
/-- One of its bytes is changed. -/
example : accept ((packFrame 100 1 true 7 [1, 2, 3]).set 27 9) = .refused := by decide +kernel
example : accept ((packFrame 100 1 true 7 [1, 2, 3]).set 21 9) = .refused := by decide +kernel
example : accept ((packFrame 100 1 true 7 [1, 2, 3]).take 28) = .refused := by decide +kernel

/-- The frames which the sender makes are short enough. -/
theorem queued_short (tx : Tx) (data : Bytes) (app : UInt64) (h : ∀ e ∈ tx.buf, e.frame.data.length ≤ 1024) : ∀ e ∈ (tx.queue data app).1.buf, e.frame.data.length ≤ 1024 := by
  have cut : ∀ fuel counter (data : Bytes), ∀ f ∈ cutLoop app fuel counter data, f.data.length ≤ 1024 := by
    intro fuel
    induction fuel with
    | zero => intro _ _ f hf; cases hf
    | succ n ih =>
      intro counter data f hf
      unfold cutLoop at hf
      split at hf
      · cases hf with
        | head => simp only [List.length_take]; split <;> omega
        | tail _ hf => exact ih _ _ f hf
      · cases hf
  have mark : ∀ l : List Frame, (∀ f ∈ l, f.data.length ≤ 1024) → ∀ f ∈ markLast l, f.data.length ≤ 1024 := by
    intro l
    induction l with
    | nil => intro _ f hf; cases hf
    | cons x r ih =>
      intro hl f hf
      cases r with
      | nil =>
        simp only [markLast, List.mem_singleton] at hf
        subst hf
        exact hl x (List.mem_cons_self ..)
      | cons y r =>
        unfold markLast at hf
        cases hf with
        | head => exact hl x (List.mem_cons_self ..)
        | tail _ hf => exact ih (fun f hf => hl f (List.mem_cons_of_mem _ hf)) f hf
  intro e he
  unfold Tx.queue at he
  split at he
  · exact h e he
  split at he
  · exact h e he
  · simp only [List.mem_append, List.mem_map] at he
    rcases he with he | ⟨f, hf, rfl⟩
    · exact h e he
    · exact mark _ (cut _ _ _) f hf

end Verif.Udpstream
