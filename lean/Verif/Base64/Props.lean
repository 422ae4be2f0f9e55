import Verif.Base64.Model
import Verif.Base64.Spec
import Verif.Bits
/-!
# C10, C11: base64 and base64url
-/
namespace Verif.Base64
open Verif Verif.Base64.Spec

/-! ## Lemmas -/

theorem at_table (i : UInt8) (h : i.toNat < 64) : at' table i = letter 43 47 i.toNat := by
  revert i
  exact all256 (by decide +kernel)

theorem at_urlTable (i : UInt8) (h : i.toNat < 64) : at' urlTable i = letter 45 95 i.toNat := by
  revert i
  exact all256 (by decide +kernel)

theorem d_at (i : UInt8) (h : i.toNat < 64) : dtable table true (at' table i) = i ∧ at' table i ≠ 61 := by
  revert i
  exact all256 (by decide +kernel)

theorem dUrl_at (i : UInt8) (h : i.toNat < 64) : dtable urlTable false (at' urlTable i) = i := by
  revert i
  exact all256 (by decide +kernel)

theorem d_iff (c : UInt8) : (dtable table true c ≠ 0x80) ↔ inAlphabet c = true := by
  revert c
  exact all256 (by decide +kernel)

theorem dUrl_iff (c : UInt8) : (dtable urlTable false c ≠ 0x80) ↔ inUrlAlphabet c = true := by
  revert c
  exact all256 (by decide +kernel)

theorem lt64_ne {i : UInt8} (h : i.toNat < 64) : i ≠ 0x80 := by
  rintro rfl; simp at h

/-- The four 6-bit values of a group. -/
theorem i0_lt (a : UInt8) : (a >>> 2).toNat < 64 := by
  revert a; exact all256 (by decide +kernel)

theorem and3_val (a : UInt8) : ((a &&& 3) <<< 4).toNat = a.toNat % 4 * 16 := by
  revert a; exact all256 (by decide +kernel)

theorem shr4_val (a : UInt8) : (a >>> 4).toNat = a.toNat / 16 := by
  revert a; exact all256 (by decide +kernel)

theorem and15_val (a : UInt8) : ((a &&& 0x0f) <<< 2).toNat = a.toNat % 16 * 4 := by
  revert a; exact all256 (by decide +kernel)

theorem shr6_val (a : UInt8) : (a >>> 6).toNat = a.toNat / 64 := by
  revert a; exact all256 (by decide +kernel)

theorem shr2_val (a : UInt8) : (a >>> 2).toNat = a.toNat / 4 := by
  revert a; exact all256 (by decide +kernel)

theorem and63_val (a : UInt8) : (a &&& 0x3f).toNat = a.toNat % 64 := by
  revert a; exact all256 (by decide +kernel)

theorem u8_lt (a : UInt8) : a.toNat < 256 := a.toBitVec.isLt

theorem or1 (a b : UInt8) : ((a &&& 3) <<< 4 ||| b >>> 4).toNat = a.toNat % 4 * 16 + b.toNat / 16 := by
  rw [UInt8.toNat_or, and3_val, shr4_val]
  have := u8_lt b
  have e : a.toNat % 4 * 16 = (a.toNat % 4) <<< 4 := by rw [Nat.shiftLeft_eq]
  rw [e, ← Nat.shiftLeft_add_eq_or_of_lt (by omega : b.toNat / 16 < 2 ^ 4)]

theorem or2 (b c : UInt8) : ((b &&& 0x0f) <<< 2 ||| c >>> 6).toNat = b.toNat % 16 * 4 + c.toNat / 64 := by
  rw [UInt8.toNat_or, and15_val, shr6_val]
  have := u8_lt c
  have e : b.toNat % 16 * 4 = (b.toNat % 16) <<< 2 := by rw [Nat.shiftLeft_eq]
  rw [e, ← Nat.shiftLeft_add_eq_or_of_lt (by omega : c.toNat / 64 < 2 ^ 2)]

theorem i1_lt (a b : UInt8) : ((a &&& 3) <<< 4 ||| b >>> 4).toNat < 64 := by
  rw [or1]; have := u8_lt b; omega

theorem i2_lt (b c : UInt8) : ((b &&& 0x0f) <<< 2 ||| c >>> 6).toNat < 64 := by
  rw [or2]; have := u8_lt c; omega

theorem i3_lt (c : UInt8) : (c &&& 0x3f).toNat < 64 := by rw [and63_val]; omega

theorem i1p_lt (a : UInt8) : ((a &&& 3) <<< 4).toNat < 64 := by rw [and3_val]; omega

theorem i2p_lt (b : UInt8) : ((b &&& 0x0f) <<< 2).toNat < 64 := by rw [and15_val]; omega

theorem group_enc (a b c : UInt8) :
    group (a >>> 2) ((a &&& 3) <<< 4 ||| b >>> 4) ((b &&& 0x0f) <<< 2 ||| c >>> 6) (c &&& 0x3f) = [a, b, c] := by
  unfold group
  congr 1
  · byte_bits
  · congr 1
    · byte_bits
    · congr 1
      byte_bits

theorem group_take2 (a b : UInt8) :
    (group (a >>> 2) ((a &&& 3) <<< 4 ||| b >>> 4) ((b &&& 0x0f) <<< 2) 0).take 2 = [a, b] := by
  unfold group
  simp only [List.take]
  congr 1
  · byte_bits
  · congr 1
    byte_bits

theorem group_take1 (a : UInt8) : (group (a >>> 2) ((a &&& 3) <<< 4) 0 0).take 1 = [a] := by
  unfold group
  simp only [List.take]
  congr 1
  byte_bits

theorem group_length (b0 b1 b2 b3 : UInt8) : (group b0 b1 b2 b3).length = 3 := rfl

theorem digit0 (a b c : UInt8) : digit (num a b c) 0 = a.toNat / 4 := by
  have := u8_lt a; have := u8_lt b; have := u8_lt c
  unfold digit num; omega

theorem digit1 (a b c : UInt8) : digit (num a b c) 1 = a.toNat % 4 * 16 + b.toNat / 16 := by
  have := u8_lt a; have := u8_lt b; have := u8_lt c
  unfold digit num; omega

theorem digit2 (a b c : UInt8) : digit (num a b c) 2 = b.toNat % 16 * 4 + c.toNat / 64 := by
  have := u8_lt a; have := u8_lt b; have := u8_lt c
  unfold digit num; omega

theorem digit3 (a b c : UInt8) : digit (num a b c) 3 = c.toNat % 64 := by
  have := u8_lt a; have := u8_lt b; have := u8_lt c
  unfold digit num; omega

theorem e0 (a b c : UInt8) : at' table (a >>> 2) = letter 43 47 (digit (num a b c) 0) := by
  rw [at_table _ (i0_lt a), shr2_val, digit0]

theorem e1 (a b c : UInt8) :
    at' table ((a &&& 3) <<< 4 ||| b >>> 4) = letter 43 47 (digit (num a b c) 1) := by
  rw [at_table _ (i1_lt a b), or1, digit1]

theorem e1p (a : UInt8) : at' table ((a &&& 3) <<< 4) = letter 43 47 (digit (num a 0 0) 1) := by
  rw [at_table _ (i1p_lt a), and3_val, digit1]; simp

theorem e2 (a b c : UInt8) :
    at' table ((b &&& 0x0f) <<< 2 ||| c >>> 6) = letter 43 47 (digit (num a b c) 2) := by
  rw [at_table _ (i2_lt b c), or2, digit2]

theorem e2p (a b : UInt8) : at' table ((b &&& 0x0f) <<< 2) = letter 43 47 (digit (num a b 0) 2) := by
  rw [at_table _ (i2p_lt b), and15_val, digit2]; simp

theorem e3 (a b c : UInt8) : at' table (c &&& 0x3f) = letter 43 47 (digit (num a b c) 3) := by
  rw [at_table _ (i3_lt c), and63_val, digit3]

theorem at_in {i : UInt8} (h : i.toNat < 64) : inAlphabet (at' table i) = true := by
  rw [← d_iff, (d_at i h).1]; exact lt64_ne h

theorem nl_out : inAlphabet 10 = false := by decide +kernel
theorem eq_in : inAlphabet 61 = true := by decide +kernel

/-- Induction over groups of three. -/
theorem three_induction {P : Bytes → Prop} (h0 : P []) (h1 : ∀ a, P [a]) (h2 : ∀ a b, P [a, b])
    (h3 : ∀ a b c rest, P rest → P (a :: b :: c :: rest)) : ∀ l, P l
  | [] => h0
  | [a] => h1 a
  | [a, b] => h2 a b
  | a :: b :: c :: rest => h3 a b c rest (three_induction h0 h1 h2 h3 rest)

/-- Characters outside the alphabet removed, the encoder's output is the RFC's. -/
theorem encLoop_filter (src : Bytes) : ∀ ll, (encLoop src ll).filter inAlphabet = base64 src := by
  induction src using three_induction with
  | h0 => intro ll; simp only [encLoop]; split <;> simp [nl_out] <;> rfl
  | h1 a =>
    intro ll
    simp only [encLoop, List.filter_cons, at_in (i0_lt a), at_in (i1p_lt a), eq_in,
      if_true, nl_out, Bool.false_eq_true, if_false, List.filter_nil]
    rw [e0 a 0 0, e1p a]
    rfl
  | h2 a b =>
    intro ll
    simp only [encLoop, List.filter_cons, at_in (i0_lt a), at_in (i1_lt a b), at_in (i2p_lt b), eq_in,
      if_true, nl_out, Bool.false_eq_true, if_false, List.filter_nil]
    rw [e0 a b 0, e1 a b 0, e2p a b]
    rfl
  | h3 a b c rest ih =>
    intro ll
    have : ((if ll + 4 ≥ 72 then 10 :: encLoop rest 0 else encLoop rest (ll + 4)) : Bytes).filter inAlphabet =
        base64 rest := by
      split
      · rw [List.filter_cons, nl_out]; exact ih _
      · exact ih _
    simp only [encLoop]
    rw [List.filter_cons, at_in (i0_lt a), if_pos rfl, List.filter_cons, at_in (i1_lt a b), if_pos rfl,
      List.filter_cons, at_in (i2_lt b c), if_pos rfl, List.filter_cons, at_in (i3_lt c), if_pos rfl, this,
      e0 a b c, e1 a b c, e2 a b c, e3 a b c]
    rfl

theorem decLoop_filter (d : UInt8 → UInt8) (src : Bytes) : ∀ (block : Bytes) (pad : Nat) (out : Bytes),
    decLoop d src block pad out = decLoop d (src.filter (fun c => d c ≠ 0x80)) block pad out := by
  induction src with
  | nil => intros; rfl
  | cons c src ih =>
    intro block pad out
    by_cases h : d c = 0x80
    · simp only [List.filter_cons, h, decLoop, if_true]
      rw [ih]; simp
    · have : (decide (d c ≠ 0x80)) = true := by simpa using h
      rw [List.filter_cons, this, if_pos rfl]
      simp only [decLoop, h, if_false]
      generalize (if c = 61 then pad + 1 else pad) = p
      split
      · rw [ih]
      · exact ih _ _ _

/-- One full group of letters is decoded. -/
theorem decLoop_group {i0 i1 i2 i3 : UInt8} (h0 : i0.toNat < 64) (h1 : i1.toNat < 64) (h2 : i2.toNat < 64)
    (h3 : i3.toNat < 64) (rest out : Bytes) :
    decLoop (dtable table true) (at' table i0 :: at' table i1 :: at' table i2 :: at' table i3 :: rest) [] 0 out =
      decLoop (dtable table true) rest [] 0 (out ++ group i0 i1 i2 i3) := by
  simp [decLoop, d_at _ h0, d_at _ h1, d_at _ h2, d_at _ h3, lt64_ne h0, lt64_ne h1, lt64_ne h2, lt64_ne h3]

theorem d_eq : dtable table true 61 = 0 := by decide +kernel

theorem decLoop_pad1 {i0 i1 i2 : UInt8} (h0 : i0.toNat < 64) (h1 : i1.toNat < 64) (h2 : i2.toNat < 64)
    (out : Bytes) :
    decLoop (dtable table true) [at' table i0, at' table i1, at' table i2, 61] [] 0 out =
      some (out ++ (group i0 i1 i2 0).take 2) := by
  simp [decLoop, d_at _ h0, d_at _ h1, d_at _ h2, d_eq, lt64_ne h0, lt64_ne h1, lt64_ne h2, group_length,
    List.take_append, List.take_of_length_le]

theorem decLoop_pad2 {i0 i1 : UInt8} (h0 : i0.toNat < 64) (h1 : i1.toNat < 64)
    (out : Bytes) :
    decLoop (dtable table true) [at' table i0, at' table i1, 61, 61] [] 0 out =
      some (out ++ (group i0 i1 0 0).take 1) := by
  simp [decLoop, d_at _ h0, d_at _ h1, d_eq, lt64_ne h0, lt64_ne h1, group_length, List.take_append, List.take_of_length_le]

theorem base64_cons3 (a b c : UInt8) (rest : Bytes) : base64 (a :: b :: c :: rest) =
    at' table (a >>> 2) :: at' table ((a &&& 3) <<< 4 ||| b >>> 4) ::
    at' table ((b &&& 0x0f) <<< 2 ||| c >>> 6) :: at' table (c &&& 0x3f) :: base64 rest := by
  rw [e0 a b c, e1 a b c, e2 a b c, e3 a b c]; rfl

theorem base64_two (a b : UInt8) : base64 [a, b] =
    [at' table (a >>> 2), at' table ((a &&& 3) <<< 4 ||| b >>> 4), at' table ((b &&& 0x0f) <<< 2), 61] := by
  rw [e0 a b 0, e1 a b 0, e2p a b]; rfl

theorem base64_one (a : UInt8) : base64 [a] =
    [at' table (a >>> 2), at' table ((a &&& 3) <<< 4), 61, 61] := by
  rw [e0 a 0 0, e1p a]; rfl

theorem decLoop_rfc (src : Bytes) : ∀ out, decLoop (dtable table true) (base64 src) [] 0 out = some (out ++ src) := by
  induction src using three_induction with
  | h0 => intro out; simp [base64, rfc, decLoop]
  | h1 a => intro out; rw [base64_one, decLoop_pad2 (i0_lt a) (i1p_lt a), group_take1]
  | h2 a b => intro out; rw [base64_two, decLoop_pad1 (i0_lt a) (i1_lt a b) (i2p_lt b), group_take2]
  | h3 a b c rest ih =>
    intro out
    rw [base64_cons3, decLoop_group (i0_lt a) (i1_lt a b) (i2_lt b c) (i3_lt c), ih, group_enc]
    simp

theorem rfc_length (src : Bytes) : (base64 src).length = (src.length + 2) / 3 * 4 := by
  induction src using three_induction with
  | h0 => rfl
  | h1 a => simp [base64_one]
  | h2 a b => simp [base64_two]
  | h3 a b c rest ih => simp only [base64_cons3, List.length_cons, ih]; omega

theorem count_eq (t : Bytes) : count (dtable table true) t = (t.filter inAlphabet).length := by
  unfold count
  congr 2
  funext c
  rw [Bool.eq_iff_iff, ← d_iff]; simp

theorem filter_eq (t : Bytes) : t.filter (fun c => dtable table true c ≠ 0x80) = t.filter inAlphabet := by
  congr 1
  funext c
  rw [Bool.eq_iff_iff, ← d_iff]; simp

/-! ## C10 -/

/-- **C10** The output is the RFC 4648 encoding with line feeds inserted. -/
theorem encode_rfc (src t : Bytes) (h : encode src = some t) : t.filter inAlphabet = base64 src := by
  unfold encode at h
  split at h
  · contradiction
  · obtain rfl := Option.some.inj h
    exact encLoop_filter src 0

/-- Only line feeds are inserted. -/
theorem encode_chars (src t : Bytes) (h : encode src = some t) : ∀ c ∈ t, c = 10 ∨ inAlphabet c = true := by
  unfold encode at h
  split at h
  · contradiction
  · rename_i hno
    obtain rfl := Option.some.inj h
    generalize 0 = ll
    clear h hno
    induction src using three_induction generalizing ll with
    | h0 => simp only [encLoop]; split <;> simp
    | h1 a => simp [encLoop, at_in (i0_lt a), at_in (i1p_lt a), eq_in]
    | h2 a b => simp [encLoop, at_in (i0_lt a), at_in (i1_lt a b), at_in (i2p_lt b), eq_in]
    | h3 a b c rest ih =>
      have : ∀ x ∈ ((if ll + 4 ≥ 72 then 10 :: encLoop rest 0 else encLoop rest (ll + 4)) : Bytes),
          x = 10 ∨ inAlphabet x = true := by
        split
        · intro x hx
          rcases List.mem_cons.mp hx with rfl | hx
          · exact .inl rfl
          · exact ih _ x hx
        · exact ih _
      intro x hx
      simp only [encLoop, List.mem_cons] at hx
      rcases hx with rfl | rfl | rfl | rfl | hx
      · exact .inr (at_in (i0_lt a))
      · exact .inr (at_in (i1_lt a b))
      · exact .inr (at_in (i2_lt b c))
      · exact .inr (at_in (i3_lt c))
      · exact this x hx

/-- **C10** The decoder accepts the RFC encoding of every non-empty byte string with any
other characters interspersed. -/
theorem decode_rfc (src t : Bytes) (hne : src ≠ []) (h : t.filter inAlphabet = base64 src) :
    decode t = some src := by
  have hl : 0 < src.length := List.length_pos_iff.mpr hne
  unfold decode
  simp only
  rw [count_eq, h, rfc_length, if_neg (by omega), decLoop_filter, filter_eq, h, decLoop_rfc]
  rfl

/-- **C10** Decoding inverts encoding. -/
theorem decode_encode (src t : Bytes) (hne : src ≠ []) (h : encode src = some t) : decode t = some src :=
  decode_rfc src t hne (encode_rfc src t h)

/-- The size computation without the wrap-arounds that cannot happen. -/
theorem encSize_eq (len : Nat) :
    encSize len = len * 4 % 2 ^ 64 / 3 + 4 + (len * 4 % 2 ^ 64 / 3 + 4) / 72 + 1 := by
  unfold encSize
  simp only
  generalize hx : len * 4 % 2 ^ 64 = x
  have hlt : x < 2 ^ 64 := by omega
  rw [Nat.mod_eq_of_lt (by omega : x / 3 + 4 < 2 ^ 64),
    Nat.mod_eq_of_lt (by omega : x / 3 + 4 + (x / 3 + 4) / 72 < 2 ^ 64), Nat.mod_eq_of_lt (by omega)]

/-- The encoder refuses exactly when the size computation overflows. -/
theorem encSize_lt_iff (len : Nat) (h : len < 2 ^ 64) : encSize len < len ↔ 2 ^ 62 ≤ len := by
  rw [encSize_eq]
  generalize hg : len * 4 / 2 ^ 64 = g
  have h4 : len * 4 % 2 ^ 64 = len * 4 - 2 ^ 64 * g := by rw [Nat.mod_eq_sub, hg]
  have hg' : g = 0 ∨ g = 1 ∨ g = 2 ∨ g = 3 := by omega
  rw [h4]
  rcases hg' with rfl | rfl | rfl | rfl <;> omega

/-- **C10** Encoding succeeds for every input below 2^62 bytes. -/
theorem encode_some (src : Bytes) (h : src.length < 2 ^ 62) : ∃ t, encode src = some t := by
  have := encSize_lt_iff src.length (by omega)
  unfold encode
  rw [if_neg (by omega)]
  exact ⟨_, rfl⟩

theorem encLoop_length (src : Bytes) : ∀ ll, ll < 72 → ll % 4 = 0 →
    (encLoop src ll).length ≤ (src.length + 2) / 3 * 4 + ((src.length + 2) / 3 * 4 + ll + 71) / 72 := by
  induction src using three_induction with
  | h0 => intro ll h h4; simp only [encLoop]; split <;> simp <;> omega
  | h1 a => intro ll h h4; simp only [encLoop, List.length_cons, List.length_nil]; omega
  | h2 a b => intro ll h h4; simp only [encLoop, List.length_cons, List.length_nil]; omega
  | h3 a b c rest ih =>
    intro ll h h4
    simp only [encLoop, List.length_cons]
    split
    · have := ih 0 (by omega) rfl
      simp only [List.length_cons]; omega
    · have := ih (ll + 4) (by omega) (by omega)
      omega

/-- **C10** When the encoder does not refuse, what it writes, including the final NUL
byte, fits the buffer it allocated. This holds for every length a 64-bit machine can express. -/
theorem encode_in_bounds (src t : Bytes) (hlen : src.length < 2 ^ 64) (h : encode src = some t) :
    t.length + 1 ≤ encSize src.length := by
  unfold encode at h
  split at h
  · contradiction
  · rename_i hno
    obtain rfl := Option.some.inj h
    have hb := encLoop_length src 0 (by omega) rfl
    rw [encSize_lt_iff _ hlen] at hno
    rw [encSize_eq, Nat.mod_eq_of_lt (by omega)]
    generalize src.length = n at *
    obtain ⟨q, r, hr, hq⟩ : ∃ q r, r < 3 ∧ n = 3 * q + r := ⟨n / 3, n % 3, by omega, by omega⟩
    have hr' : r = 0 ∨ r = 1 ∨ r = 2 := by omega
    clear h
    rcases hr' with rfl | rfl | rfl <;> subst hq
    · have h1 : (3 * q + 0 + 2) / 3 = q := by omega
      have h2 : (3 * q + 0) * 4 / 3 = 4 * q := by omega
      rw [h1] at hb; rw [h2]; omega
    · have h1 : (3 * q + 1 + 2) / 3 = q + 1 := by omega
      have h2 : (3 * q + 1) * 4 / 3 = 4 * q + 1 := by omega
      rw [h1] at hb; rw [h2]; omega
    · have h1 : (3 * q + 2 + 2) / 3 = q + 1 := by omega
      have h2 : (3 * q + 2) * 4 / 3 = 4 * q + 2 := by omega
      rw [h1] at hb; rw [h2]; omega

/-- **C10** The decoder writes at most as many bytes as it allocated. -/
theorem decode_in_bounds (d : UInt8 → UInt8) (src : Bytes) :
    decWritten d src [] 0 ≤ decSize d src := by
  have key : ∀ (src block : Bytes) (pad : Nat), block.length ≤ 3 →
      decWritten d src block pad ≤ (count d src + block.length) / 4 * 3 := by
    intro src
    induction src with
    | nil => intro block pad h; simp [decWritten]
    | cons c src ih =>
      intro block pad h
      unfold decWritten
      by_cases hc : d c = 0x80
      · rw [if_pos hc]
        have : count d (c :: src) = count d src := by simp [count, hc]
        rw [this]; exact ih _ _ h
      · rw [if_neg hc]
        have hcnt : count d (c :: src) = count d src + 1 := by simp [count, hc]
        rw [hcnt]
        simp only
        generalize (if c = 61 then pad + 1 else pad) = p
        split
        · have := ih [] p (by simp)
          simp only [List.length_nil, List.length_cons] at *
          split <;> omega
        · rename_i hb
          have hb3 : block.length ≠ 3 := by
            intro h3
            match block, h3 with
            | [x, y, z], _ => exact hb x y z rfl
          have := ih (block ++ [d c]) p (by simp; omega)
          simp only [List.length_append, List.length_cons, List.length_nil] at this
          omega
  have := key src [] 0 (by simp)
  simpa [decSize] using this

example : encode [0x66, 0x6f, 0x6f, 0x62] = some [90, 109, 57, 118, 89, 103, 61, 61, 10] ∧
    decode [90, 109, 57, 118, 89, 103, 61, 61, 10] = some [0x66, 0x6f, 0x6f, 0x62] := by decide +kernel

/-! ## C11 -/

theorem f0 (a b c : UInt8) : at' urlTable (a >>> 2) = letter 45 95 (digit (num a b c) 0) := by
  rw [at_urlTable _ (i0_lt a), shr2_val, digit0]

theorem f1 (a b c : UInt8) :
    at' urlTable ((a &&& 3) <<< 4 ||| b >>> 4) = letter 45 95 (digit (num a b c) 1) := by
  rw [at_urlTable _ (i1_lt a b), or1, digit1]

theorem f1p (a : UInt8) : at' urlTable ((a &&& 3) <<< 4) = letter 45 95 (digit (num a 0 0) 1) := by
  rw [at_urlTable _ (i1p_lt a), and3_val, digit1]; simp

theorem f2 (a b c : UInt8) :
    at' urlTable ((b &&& 0x0f) <<< 2 ||| c >>> 6) = letter 45 95 (digit (num a b c) 2) := by
  rw [at_urlTable _ (i2_lt b c), or2, digit2]

theorem f2p (a b : UInt8) : at' urlTable ((b &&& 0x0f) <<< 2) = letter 45 95 (digit (num a b 0) 2) := by
  rw [at_urlTable _ (i2p_lt b), and15_val, digit2]; simp

theorem f3 (a b c : UInt8) : at' urlTable (c &&& 0x3f) = letter 45 95 (digit (num a b c) 3) := by
  rw [at_urlTable _ (i3_lt c), and63_val, digit3]

/-- The URL-safe encoder follows RFC 4648 without padding. -/
theorem encUrlLoop_rfc (src : Bytes) : encUrlLoop src = base64url src := by
  induction src using three_induction with
  | h0 => rfl
  | h1 a => simp only [encUrlLoop]; rw [f0 a 0 0, f1p a]; rfl
  | h2 a b => simp only [encUrlLoop]; rw [f0 a b 0, f1 a b 0, f2p a b]; rfl
  | h3 a b c rest ih => simp only [encUrlLoop]; rw [f0 a b c, f1 a b c, f2 a b c, f3 a b c, ih]; rfl

/-- **C11** The URL-safe encoder follows RFC 4648 without padding. -/
theorem encodeUrl_rfc (src t : Bytes) (h : encodeUrl src = some t) : t = base64url src := by
  unfold encodeUrl at h
  split at h
  · contradiction
  · rw [← Option.some.inj h]; exact encUrlLoop_rfc src

theorem at_url_ne {i : UInt8} (h : i.toNat < 64) : dtable urlTable false (at' urlTable i) ≠ 0x80 := by
  rw [dUrl_at i h]; exact lt64_ne h

theorem encUrl_count (src : Bytes) :
    count (dtable urlTable false) (encUrlLoop src) = src.length / 3 * 4 + (if src.length % 3 = 0 then 0 else src.length % 3 + 1) := by
  induction src using three_induction with
  | h0 => rfl
  | h1 a => simp [encUrlLoop, count, at_url_ne (i0_lt a), at_url_ne (i1p_lt a)]
  | h2 a b => simp [encUrlLoop, count, at_url_ne (i0_lt a), at_url_ne (i1_lt a b), at_url_ne (i2p_lt b)]
  | h3 a b c rest ih =>
    have : count (dtable urlTable false) (encUrlLoop (a :: b :: c :: rest)) =
        count (dtable urlTable false) (encUrlLoop rest) + 4 := by
      simp [encUrlLoop, count, at_url_ne (i0_lt a), at_url_ne (i1_lt a b), at_url_ne (i2_lt b c), at_url_ne (i3_lt c)]
    rw [this, ih]
    simp only [List.length_cons]
    have h1 : (rest.length + 1 + 1 + 1) % 3 = rest.length % 3 := by omega
    rw [h1]
    omega

theorem decUrlLoop_enc (src : Bytes) (h3 : src.length % 3 = 0) : ∀ out,
    decUrlLoop (dtable urlTable false) (encUrlLoop src) [] out = out ++ src := by
  induction src using three_induction with
  | h0 => intro out; simp [encUrlLoop, decUrlLoop]
  | h1 a => simp at h3
  | h2 a b => simp at h3
  | h3 a b c rest ih =>
    intro out
    have ih := ih (by simp only [List.length_cons] at h3; omega)
    have e := group_enc a b c
    simp [encUrlLoop, decUrlLoop, dUrl_at _ (i0_lt a), dUrl_at _ (i1_lt a b), dUrl_at _ (i2_lt b c), dUrl_at _ (i3_lt c),
      lt64_ne (i0_lt a), lt64_ne (i1_lt a b), lt64_ne (i2_lt b c), lt64_ne (i3_lt c), ih, e]

/-- **C11** (partial: the property asks for every non-empty string) Decoding inverts
URL-safe encoding exactly for non-empty strings whose length is a multiple of
three; for all others the decoder refuses the encoder's output. -/
theorem decodeUrl_encodeUrl_partial (src t : Bytes) (h : encodeUrl src = some t) :
    decodeUrl t = if src ≠ [] ∧ src.length % 3 = 0 then some src else none := by
  unfold encodeUrl at h
  split at h
  · contradiction
  · obtain rfl := Option.some.inj h
    unfold decodeUrl
    simp only
    rw [encUrl_count]
    by_cases hne : src = []
    · subst hne; simp
    · have hl : 0 < src.length := List.length_pos_iff.mpr hne
      by_cases h3 : src.length % 3 = 0
      · rw [if_neg (by rw [if_pos h3]; omega), if_pos ⟨hne, h3⟩, decUrlLoop_enc src h3]; rfl
      · rw [if_pos (by rw [if_neg h3]; omega), if_neg (by simp [h3])]

/-- **C11** violated: a one byte string does not survive. -/
theorem decodeUrl_counterexample :
    ∃ src t, src ≠ [] ∧ encodeUrl src = some t ∧ decodeUrl t ≠ some src :=
  ⟨[0x61], [89, 81], by decide +kernel⟩

/-- **C11** The URL-safe encoder's output fits its buffer. -/
theorem encodeUrl_in_bounds (src t : Bytes) (hlen : src.length < 2 ^ 64) (h : encodeUrl src = some t) :
    t.length + 1 ≤ encSize src.length := by
  unfold encodeUrl at h
  split at h
  · contradiction
  · rename_i hno
    obtain rfl := Option.some.inj h
    have hb : (encUrlLoop src).length ≤ (src.length * 4 + 2) / 3 := by
      clear hlen hno h
      induction src using three_induction with
      | h0 => simp [encUrlLoop]
      | h1 a => simp [encUrlLoop]
      | h2 a b => simp [encUrlLoop]
      | h3 a b c rest ih => simp only [encUrlLoop, List.length_cons]; omega
    rw [encSize_lt_iff _ hlen] at hno
    rw [encSize_eq, Nat.mod_eq_of_lt (by omega)]
    omega

example : encodeUrl [0xfb, 0xef, 0xff] = some [45, 45, 95, 95] ∧
    decodeUrl [45, 45, 95, 95] = some [0xfb, 0xef, 0xff] := by decide +kernel

end Verif.Base64
