import Verif.HttpUtil.Lemmas
/-!
# Properties of the HTTP string functions (C30, C31, C40, C56)
-/
namespace Verif.HttpUtil
open Verif Spec

/-! ## C30: URI encoding -/

/-- C30. For every byte string short enough for the encoder's length type, the encoder succeeds without writing outside of the memory it
allocates, its output has only unreserved characters and percent escapes, and both the RFC's decoding and the program's decoding of
the output give the byte string back. -/
theorem uri_roundtrip (s : Bytes) (h : 3 * s.length ≤ 2 ^ 32 - 1) :
    ∃ e, uriEncode s = .ok e ∧ e.length ≤ 3 * s.length ∧ (∀ c ∈ e, UriSafe c) ∧ percentDecode e = some s ∧ urlDecode e = .ok s := by
  have hl : ∀ t : Bytes, (t.flatMap encodeByte).length ≤ 3 * t.length := by
    intro t
    induction t with
    | nil => simp
    | cons c t ih =>
      have : (encodeByte c).length ≤ 3 := by unfold encodeByte; split <;> simp
      simp only [List.flatMap_cons, List.length_append, List.length_cons]
      omega
  refine ⟨s.flatMap encodeByte, ?_, hl s, ?_, ?_, ?_⟩
  · unfold uriEncode
    rw [if_neg (by unfold lengthMax; omega), encodeLoop_eq _ _ _ (by omega)]
  · intro c hc
    obtain ⟨x, _, hx⟩ := List.mem_flatMap.mp hc
    unfold encodeByte at hx
    split at hx
    · rename_i h'
      simp at hx
      subst hx
      exact (safe_iff _ h').2
    · simp at hx
      rcases hx with rfl | rfl | rfl
      · unfold UriSafe; simp
      · exact (enc_hex x).2.1
      · exact (enc_hex x).2.2
  · clear h
    induction s with
    | nil => rfl
    | cons c s ih =>
      rw [List.flatMap_cons]
      unfold encodeByte
      by_cases hc : (isAlnum c || isUnreservedMark c) = true
      · rw [if_pos hc]
        have h37 := (safe_iff c hc).1
        have e : percentDecode (c :: s.flatMap encodeByte) = (percentDecode (s.flatMap encodeByte)).map (c :: ·) := by
          rw [percentDecode, if_neg h37]
          intro a b t h1
          exact absurd h1 h37
        simp only [List.cons_append, List.nil_append]
        change percentDecode (c :: s.flatMap encodeByte) = _
        rw [e, ih]; rfl
      · rw [if_neg hc]
        have key : ∀ c : UInt8, ∃ x y, hexVal (hexDigit (c >>> 4)) = some x ∧ hexVal (hexDigit (c &&& 15)) = some y ∧ x * 16 + y = c := by
          intro c
          have : ∀ c : UInt8, hexVal (hexDigit (c >>> 4)) = some (c >>> 4) ∧ hexVal (hexDigit (c &&& 15)) = some (c &&& 15)
              ∧ (c >>> 4) * 16 + (c &&& 15) = c := all256 (by decide +kernel)
          exact ⟨_, _, (this c).1, (this c).2.1, (this c).2.2⟩
        obtain ⟨x, y, hx, hy, hxy⟩ := key c
        change percentDecode (37 :: _ :: _ :: s.flatMap encodeByte) = _
        rw [percentDecode, hx, hy, ih]
        simp [hxy]
  · rw [urlDecode_eq, dec_enc]

/-- The path "a b/ø" is encoded as "a%20b%2F%C3%B8". -/
example : uriEncode [97, 32, 98, 47, 0xc3, 0xb8] = .ok [97, 37, 50, 48, 98, 37, 50, 70, 37, 67, 51, 37, 66, 56]
    ∧ 3 * [97, 32, 98, 47, 0xc3, 0xb8].length ≤ 2 ^ 32 - 1 := by decide

/-- C30. Every longer string makes the program abort instead of writing outside of its memory. -/
theorem uri_too_long (s : Bytes) (h : 2 ^ 32 - 1 < 3 * s.length) : uriEncode s = .bug := by
  unfold uriEncode
  rw [if_pos (by unfold lengthMax; omega)]

example : ∃ s : Bytes, 2 ^ 32 - 1 < 3 * s.length := ⟨List.replicate (2 ^ 31) 0, by rw [List.length_replicate]; decide⟩

/-- C30. Two different byte strings have different encodings. -/
theorem uri_encode_injective (s t e : Bytes) (hs : uriEncode s = .ok e) (ht : uriEncode t = .ok e) : s = t := by
  have H : ∀ u : Bytes, uriEncode u = .ok e → urlDecode e = .ok u := by
    intro u hu
    by_cases h : 3 * u.length ≤ 2 ^ 32 - 1
    · obtain ⟨e', h1, _, _, _, h2⟩ := uri_roundtrip u h
      rw [hu] at h1
      cases h1
      exact h2
    · rw [uri_too_long u (by omega)] at hu
      cases hu
  have := H s hs
  rw [H t ht] at this
  cases this
  rfl

example : uriEncode [47] = .ok [37, 50, 70] := by decide

/-- C30. Everything which is correctly percent encoded, also by others, is decoded as the RFC says. -/
theorem urlDecode_rfc (s b : Bytes) (h : percentDecode s = some b) : urlDecode s = .ok b := by
  rw [urlDecode_eq]
  have key : ∀ (n : Nat) (s b : Bytes), s.length ≤ n → percentDecode s = some b → dec s = some b := by
    intro n
    induction n with
    | zero =>
      intro s b hs hp
      have : s = [] := List.length_eq_zero_iff.mp (by omega)
      subst this
      simpa [percentDecode, dec] using hp
    | succ n ih =>
      intro s b hs hp
      have hd : ∀ a x, hexVal a = some x → isDigit 16 a = true ∧ digitValue a = x.toNat ∧ x.toNat < 16 := by
        have : ∀ a, ∀ x ∈ hexVal a, isDigit 16 a = true ∧ digitValue a = x.toNat ∧ x.toNat < 16 := all256 (by decide +kernel)
        intro a x h; exact this a x h
      match s, hs, hp with
      | [], _, hp => simpa [percentDecode, dec] using hp
      | c :: s, hs, hp =>
        by_cases hc : c = 37
        · subst hc
          match s, hs, hp with
          | [], _, hp => simp [percentDecode] at hp
          | [a], _, hp => simp [percentDecode] at hp
          | a :: c :: s, hs, hp =>
            rw [percentDecode] at hp
            cases ha : hexVal a with
            | none => simp [ha] at hp
            | some x =>
              cases hc : hexVal c with
              | none => simp [ha, hc] at hp
              | some y =>
                simp only [ha, hc] at hp
                cases hr : percentDecode s with
                | none => simp [hr] at hp
                | some r =>
                  simp only [hr, Option.map_some, Option.some.injEq] at hp
                  subst hp
                  have e := ih s r (by simp at hs; omega) hr
                  obtain ⟨d1, v1, l1⟩ := hd a x ha
                  obtain ⟨d2, v2, l2⟩ := hd c y hc
                  have ev : strtoullRaw 16 [a, c] = some (x.toNat * 16 + y.toNat, 2) := by
                    unfold strtoullRaw
                    simp only [List.takeWhile, d1, d2, strtoull, List.length_cons, List.length_nil, List.foldl, v1, v2]
                    rw [if_neg (by omega), if_neg (by omega), if_pos (by omega)]
                    simp
                  rw [dec, if_pos rfl, ev, e]
                  simp only [Option.map_some, Option.some.injEq, List.cons.injEq, and_true]
                  rw [← UInt8.toNat_inj, UInt8.toNat_ofNat', UInt8.toNat_add, UInt8.toNat_mul]
                  simp only [UInt8.reduceToNat]
                  omega
        · rw [dec_cons c s hc]
          have e : percentDecode (c :: s) = (percentDecode s).map (c :: ·) := by
            rw [percentDecode, if_neg hc]
            intro a b t h1
            exact absurd h1 hc
          rw [e] at hp
          cases hr : percentDecode s with
          | none => simp [hr] at hp
          | some r =>
            rw [hr] at hp
            rw [ih s r (by simp at hs; omega) hr]
            exact hp
  rw [key _ s b (Nat.le_refl _) h]

/-- "x%2fy%2B" with lower case and upper case digits. -/
example : percentDecode [120, 37, 50, 102, 121, 37, 50, 66] = some [120, 47, 121, 43] := by decide

/-- The decoder does not abort, does not access memory outside of the string, and the result is not longer than the string. -/
theorem urlDecode_total (s : Bytes) : urlDecode s = .err ∨ ∃ b, urlDecode s = .ok b ∧ b.length ≤ s.length := by
  rw [urlDecode_eq]
  have key : ∀ (n : Nat) (s b : Bytes), s.length ≤ n → dec s = some b → b.length ≤ s.length := by
    intro n
    induction n with
    | zero =>
      intro s b hs hp
      have : s = [] := List.length_eq_zero_iff.mp (by omega)
      subst this
      simp [dec] at hp
      simp [← hp]
    | succ n ih =>
      intro s b hs hp
      match s, hs, hp with
      | [], _, hp => simp [dec] at hp; simp [← hp]
      | c :: s, hs, hp =>
        by_cases hc : c = 37
        · subst hc
          match s, hs, hp with
          | [], _, hp => simp [dec] at hp
          | [a], _, hp => simp [dec] at hp
          | a :: c :: s, hs, hp =>
            rw [dec, if_pos rfl] at hp
            cases hv : strtoullRaw 16 [a, c] with
            | none => simp [hv] at hp
            | some v =>
              simp only [hv] at hp
              cases hr : dec s with
              | none => simp [hr] at hp
              | some r =>
                simp [hr] at hp
                subst hp
                have := ih s r (by simp at hs; omega) hr
                simp; omega
        · rw [dec_cons c s hc] at hp
          cases hr : dec s with
          | none => simp [hr] at hp
          | some r =>
            simp [hr] at hp
            subst hp
            have := ih s r (by simp at hs; omega) hr
            simpa using this
  cases h : dec s with
  | none => exact Or.inl rfl
  | some b => exact Or.inr ⟨b, rfl, key _ s b (Nat.le_refl _) h⟩

/-- The decoder accepts strings which are not percent encoded: "%4G" gives the character 4. -/
theorem urlDecode_accepts_invalid : percentDecode [37, 52, 71] = none ∧ urlDecode [37, 52, 71] = .ok [4] := by decide

/-! ## C31: quoting of header values -/

/-- A character which may be in a header value. -/
def Valid (c : UInt8) : Prop := (32 ≤ c ∧ c < 127) ∨ c = 9 ∨ c = 13

theorem quoteCheck_none (c : UInt8) : quoteCheck c = none ↔ ¬ Valid c := by
  rw [quoteCheck_spec]
  unfold Valid
  split
  · rename_i h; simp only [h, not_true_eq_false, iff_false]; intro x; cases x
  · rename_i h; simp only [h, not_false_eq_true]

theorem quote_value (s : Bytes) (h0 : s ≠ []) (hl : s.length < 2 ^ 31 - 1) (hv : ∀ c ∈ s, Valid c) :
    (quote s 34 34 = .ok s ∧ quoteCheckAll s = some false)
      ∨ (quote s 34 34 = .ok (34 :: s.flatMap (quoteChar 34 34) ++ [34]) ∧ quoteCheckAll s = some true) := by
  have hpos : s.length ≠ 0 := fun h => h0 (List.length_eq_zero_iff.mp h)
  unfold quote
  rw [if_neg hpos]
  have hm : (s.length * 2 + 2 + 1) % 2 ^ 32 = s.length * 2 + 3 := Nat.mod_eq_of_lt (by omega)
  simp only [hm]
  cases hq : quoteCheckAll s with
  | none =>
    obtain ⟨c, hc, hn⟩ := (quoteCheckAll_none s).mp hq
    exact absurd (hv c hc) ((quoteCheck_none c).mp hn)
  | some q =>
    cases q with
    | false => simp only; rw [if_neg (by omega)]; exact Or.inl ⟨rfl, trivial⟩
    | true =>
      have := flatMap_quote_length s
      have hlen : (34 :: s.flatMap (quoteChar 34 34) ++ [34]).length = (s.flatMap (quoteChar 34 34)).length + 2 := by simp
      simp only
      rw [if_neg (by rw [hlen]; omega), if_neg (by rw [hlen]; omega), if_neg (by rw [hlen]; omega)]
      exact Or.inr ⟨rfl, trivial⟩

/-- C31, partial. For every non-empty header value of up to 2³¹-2 valid characters, quoting it succeeds without writing outside of the memory it allocates. Taking
the quotes away again gives the value back if and only if there is no backslash and no carriage return in it.

Missing from the full property: values with backslash or carriage return, and longer values. They are not given back, see `quote_backslash` and
`quote_overflow`. -/
theorem quote_roundtrip_partial (s : Bytes) (h0 : s ≠ []) (hl : s.length < 2 ^ 31 - 1) (hv : ∀ c ∈ s, Valid c) :
    ∃ q, quote s 34 34 = .ok q ∧ (unquote q = s ↔ ∀ c ∈ s, c ≠ 92 ∧ c ≠ 13) := by
  rcases quote_value s h0 hl hv with ⟨h, hf⟩ | ⟨h, _⟩
  · refine ⟨s, h, ?_⟩
    have hall : ∀ c ∈ s, c ≠ 34 ∧ c ≠ 40 ∧ c ≠ 92 ∧ c ≠ 13 := by
      intro c hc
      have := quoteCheckAll_false s hf c hc
      have key : ∀ c, quoteCheck c = some false → c ≠ 34 ∧ c ≠ 40 ∧ c ≠ 92 ∧ c ≠ 13 := all256 (by decide +kernel)
      exact key c this
    rw [unquote_eq, unq_plain s (fun c hc => ⟨(hall c hc).1, (hall c hc).2.1⟩)]
    exact ⟨fun _ c hc => ⟨(hall c hc).2.2.1, (hall c hc).2.2.2⟩, fun _ => rfl⟩
  · refine ⟨_, h, ?_⟩
    have e : unquote (34 :: s.flatMap (quoteChar 34 34) ++ [34]) = afterQuotes s := by
      rw [unquote_eq, ← unq_quoted s]
      obtain ⟨d, t, ht⟩ : ∃ d t, s.flatMap (quoteChar 34 34) ++ [34] = d :: t := by
        cases s.flatMap (quoteChar 34 34) with
        | nil => exact ⟨34, [], rfl⟩
        | cons d t => exact ⟨d, t ++ [34], rfl⟩
      rw [List.cons_append, ht, unq, if_pos (Or.inl rfl), if_pos rfl]
    rw [e]
    constructor
    · intro he
      have := afterQuotes_length s
      rw [he] at this
      have hz : s.countP (fun c => c == 92 || c == 13) = 0 := by omega
      intro c hc
      have := List.countP_eq_zero.mp hz c hc
      simpa using this
    · exact afterQuotes_plain s

/-- The file name `my "x"` is quoted with escapes and the escapes are removed again. -/
example : quote [109, 121, 32, 34, 120, 34] 34 34 = .ok [34, 109, 121, 32, 92, 34, 120, 92, 34, 34]
    ∧ unquote [34, 109, 121, 32, 92, 34, 120, 92, 34, 34] = [109, 121, 32, 34, 120, 34] := by decide

example : ([109, 121, 32, 34, 120, 34] : Bytes) ≠ [] ∧ (∀ c ∈ ([109, 121, 32, 34, 120, 34] : Bytes), Valid c ∧ c ≠ 92 ∧ c ≠ 13) := by
  unfold Valid; decide

/-- C31 does not hold: the value `a\` comes back as `a\"` and `a\b` comes back as `a\\b`. -/
theorem quote_backslash :
    (quote [97, 92] 34 34 = .ok [34, 97, 92, 92, 34] ∧ unquote [34, 97, 92, 92, 34] = [97, 92, 34])
      ∧ (quote [97, 92, 98] 34 34 = .ok [34, 97, 92, 92, 98, 34] ∧ unquote [34, 97, 92, 92, 98, 34] = [97, 92, 92, 98]) := by decide

/-- C31. A value is refused exactly when it is empty or has a character which is not valid. -/
theorem quote_refuses (s : Bytes) : quote s 34 34 = .err ↔ s = [] ∨ ∃ c ∈ s, ¬ Valid c := by
  by_cases h0 : s = []
  · subst h0; simp [quote]
  · have hpos : s.length ≠ 0 := fun h => h0 (List.length_eq_zero_iff.mp h)
    have e : quoteCheckAll s = none ↔ ∃ c ∈ s, ¬ Valid c := by
      rw [quoteCheckAll_none]
      exact ⟨fun ⟨c, hc, h⟩ => ⟨c, hc, (quoteCheck_none c).mp h⟩, fun ⟨c, hc, h⟩ => ⟨c, hc, (quoteCheck_none c).mpr h⟩⟩
    simp only [h0, false_or]
    rw [← e]
    unfold quote
    rw [if_neg hpos]
    cases hq : quoteCheckAll s with
    | none => simp
    | some q =>
      cases q
      · simp only; split <;> simp
      · simp only; repeat' split
        all_goals simp

example : quote [97, 10] 34 34 = .err := by decide

/-- C31 does not hold for long values: the size of the output is computed with 32 bits, and a value of 2³¹-1 or more valid characters is written past the end of the
memory allocated for it. -/
theorem quote_overflow (s : Bytes) (hl : 2 ^ 31 - 1 ≤ s.length) (hu : s.length < 2 ^ 32 - 4) (hv : ∀ c ∈ s, Valid c) :
    quote s 34 34 = .fault := by
  have hpos : s.length ≠ 0 := by omega
  unfold quote
  rw [if_neg hpos]
  have hm : (s.length * 2 + 2 + 1) % 2 ^ 32 = s.length * 2 + 3 - 2 ^ 32 := by omega
  simp only [hm]
  cases hq : quoteCheckAll s with
  | none =>
    obtain ⟨c, hc, hn⟩ := (quoteCheckAll_none s).mp hq
    exact absurd (hv c hc) ((quoteCheck_none c).mp hn)
  | some q =>
    cases q with
    | false => simp only; rw [if_pos (by omega)]
    | true =>
      have := flatMap_quote_length s
      have hlen : (34 :: s.flatMap (quoteChar 34 34) ++ [34]).length = (s.flatMap (quoteChar 34 34)).length + 2 := by simp
      simp only
      rw [if_pos (by rw [hlen]; omega)]

example : ∃ s : Bytes, 2 ^ 31 - 1 ≤ s.length ∧ s.length < 2 ^ 32 - 4 ∧ ∀ c ∈ s, Valid c :=
  ⟨List.replicate (2 ^ 31) 97, by rw [List.length_replicate]; decide, by rw [List.length_replicate]; decide, by
    intro c hc
    rw [(List.mem_replicate.mp hc).2]
    unfold Valid; decide⟩

/-! ## C40: case insensitive search -/

theorem strcasestr_good (text needle : Bytes) (hn : needle ≠ []) :
    (text.length < needle.length ∧ strcasestr text needle = .err)
      ∨ ∃ r, Good text needle 0 r ∧ strcasestr text needle = match r.1 with | some p => .ok (p, r.2) | none => .err := by
  unfold strcasestr
  by_cases hl : text.length < needle.length
  · rw [if_pos hl]; exact Or.inl ⟨hl, rfl⟩
  · rw [if_neg hl]
    have hpos : 0 < needle.length := by
      cases needle with
      | nil => exact absurd rfl hn
      | cons a b => simp
    obtain ⟨r, hr, hg⟩ := searchLoop_good text needle hpos (text.length * (text.length + 2) + 1) 0 0 hpos (by omega) (by omega) (by simp)
    refine Or.inr ⟨r, hg, ?_⟩
    rw [show (⟨0, 0, none, none, 0⟩ : Search) = st 0 0 by rfl, hr]
    obtain ⟨a, b⟩ := r
    cases a <;> rfl

/-- C40, partial. For every text and every needle which is not empty, the search ends without an access outside of the two strings, and
- if it reports a position with the length of the needle, then the needle is there (ignoring case);
- if it reports a position with another length, then the text ends there with a proper beginning of the needle;
- if the needle is anywhere in the text where the character before is not the needle's first character, it is found, there or before.

Missing from the full property: occurrences after the needle's first character can be missed (`strcasestr_misses`) and the beginning of a needle at the end of the text
is reported as found (`strcasestr_reports_beginning`). -/
theorem strcasestr_partial (text needle : Bytes) (hn : needle ≠ []) :
    (strcasestr text needle = .err ∨ ∃ p n, strcasestr text needle = .ok (p, n) ∧
      ((n = needle.length ∧ OccursAt text needle p)
        ∨ (n < needle.length ∧ 0 < n ∧ p + n = text.length ∧ OccursAt text (needle.take n) p)))
      ∧ ∀ q, OccursAt text needle q → (q = 0 ∨ ¬ SameLetter (text.getD (q - 1) 0) (needle.getD 0 0)) →
        ∃ p, strcasestr text needle = .ok (p, needle.length) ∧ p ≤ q := by
  rcases strcasestr_good text needle hn with ⟨hl, he⟩ | ⟨r, hg, he⟩
  · refine ⟨Or.inl he, ?_⟩
    intro q ho
    have := ho.1
    omega
  · constructor
    · rw [he]
      cases hr : r.1 with
      | none => exact Or.inl rfl
      | some p =>
        refine Or.inr ⟨p, r.2, rfl, ?_⟩
        obtain ⟨_, h1, h2, h3, h4, h5⟩ := hg.sound p hr
        by_cases hfull : r.2 = needle.length
        · exact Or.inl ⟨hfull, by rw [← hfull]; exact h4, by rw [← hfull]; exact h5⟩
        · refine Or.inr ⟨by omega, h1, h3.resolve_left hfull, ?_, ?_⟩
          · rw [List.length_take]; omega
          · intro i hi
            rw [List.length_take] at hi
            have := h5 i (by omega)
            simpa [List.getElem?_take, show i < r.2 by omega] using this
    · intro q ho hq
      obtain ⟨p, hp, hpq⟩ := hg.complete q (Nat.zero_le _) ho (by
        rcases Nat.eq_zero_or_pos q with h | h
        · exact Or.inl h
        · exact Or.inr ⟨h, hq.resolve_left (by omega)⟩)
      exact ⟨p, by rw [he, hp], hpq⟩

/-- "://" in "HTTP://x" is found. -/
example : strcasestr [72, 84, 84, 80, 58, 47, 47, 120] [58, 47, 47] = .ok (4, 3) := by decide

example : OccursAt [72, 84, 84, 80, 58, 47, 47, 120] [58, 47, 47] 4 ∧ ¬ SameLetter 80 58 := by
  unfold OccursAt SameLetter; decide

/-- C40. A search is exact when what is asked for is whether the text begins with the needle. This is how the program checks a protocol version. -/
theorem strcasestr_beginning (text needle : Bytes) (hn : needle ≠ []) :
    (∃ n, strcasestr text needle = .ok (0, n)) ↔ OccursAt text needle 0 := by
  constructor
  · rintro ⟨n, h⟩
    rcases (strcasestr_partial text needle hn).1 with h' | ⟨p, m, h', hc⟩
    · rw [h] at h'; cases h'
    · rw [h] at h'
      cases h'
      rcases hc with ⟨_, ho⟩ | ⟨h1, _, h2, _⟩
      · exact ho
      · exfalso
        have : ¬ text.length < needle.length := by
          intro hl
          unfold strcasestr at h
          rw [if_pos hl] at h
          cases h
        omega
  · intro ho
    obtain ⟨p, hp, hle⟩ := (strcasestr_partial text needle hn).2 0 ho (Or.inl rfl)
    have : p = 0 := by omega
    subst this
    exact ⟨_, hp⟩

/-- "HTTP/1.1" and "http/1.1". -/
example : OccursAt [104, 116, 116, 112, 47, 49, 46, 49, 32] [72, 84, 84, 80, 47, 49, 46, 49] 0 := by
  unfold OccursAt SameLetter; decide

/-- C40. A search for one character is exact. -/
theorem strcasestr_single (text : Bytes) (c : UInt8) :
    (∃ p n, strcasestr text [c] = .ok (p, n)) ↔ ∃ q, OccursAt text [c] q := by
  constructor
  · rintro ⟨p, n, h⟩
    rcases (strcasestr_partial text [c] (by simp)).1 with h' | ⟨p', m, h', hc⟩
    · rw [h] at h'; cases h'
    · rcases hc with ⟨_, ho⟩ | ⟨h1, h2, _⟩
      · exact ⟨_, ho⟩
      · simp at h1; omega
  · rintro ⟨q, ho⟩
    have hmin : ∀ n q, q ≤ n → OccursAt text [c] q → ∃ q', OccursAt text [c] q' ∧ (q' = 0 ∨ ¬ SameLetter (text.getD (q' - 1) 0) ([c].getD 0 0)) := by
      intro n
      induction n with
      | zero => intro q hq ho; exact ⟨q, ho, Or.inl (by omega)⟩
      | succ n ih =>
        intro q hq ho
        by_cases h : q = 0
        · exact ⟨q, ho, Or.inl h⟩
        · by_cases hs : SameLetter (text.getD (q - 1) 0) ([c].getD 0 0)
          · refine ih (q - 1) (by omega) ⟨?_, ?_⟩
            · have := ho.1
              simp at this ⊢; omega
            · intro i hi
              have : i = 0 := by simp at hi; exact hi
              subst this
              exact hs
          · exact ⟨q, ho, Or.inr hs⟩
    obtain ⟨q', h1, h2⟩ := hmin q q (Nat.le_refl _) ho
    obtain ⟨p, hp, _⟩ := (strcasestr_partial text [c] (by simp)).2 q' h1 h2
    exact ⟨p, _, hp⟩

example : strcasestr [97, 97, 66] [98] = .ok (2, 1) := by decide

/-- C40 does not hold: "ab" is not found in "aab". -/
theorem strcasestr_misses : OccursAt [97, 97, 98] [97, 98] 1 ∧ strcasestr [97, 97, 98] [97, 98] = .err := by
  unfold OccursAt SameLetter; decide

/-- C40 does not hold: "ab" is reported as found in "xa". -/
theorem strcasestr_reports_beginning :
    (∀ p, ¬ OccursAt [120, 97] [97, 98] p) ∧ strcasestr [120, 97] [97, 98] = .ok (1, 1) := by
  refine ⟨?_, by decide⟩
  intro p h
  have h1 := h.1
  simp at h1
  subst h1
  have := h.2 0 (by decide)
  revert this
  unfold SameLetter; decide

/-! ## C56: end of lines and numbers -/

/-- C56. The search for the end of a line gives the first carriage return followed by a line feed. -/
theorem findCrlf_exact (l : Bytes) (p : Nat) :
    findCrlf l = some p ↔ (p + 1 < l.length ∧ l.getD p 0 = 13 ∧ l.getD (p + 1) 0 = 10)
      ∧ ∀ q, q < p → ¬ (l.getD q 0 = 13 ∧ l.getD (q + 1) 0 = 10) := by
  induction l generalizing p with
  | nil => simp [findCrlf]
  | cons c l ih =>
    by_cases h : c = 13 ∧ l.getD 0 0 = 10
    · obtain ⟨rfl, h2⟩ := h
      cases l with
      | nil => simp at h2
      | cons d l =>
        simp at h2
        subst h2
        simp only [findCrlf, Option.some.injEq]
        constructor
        · rintro rfl
          simp
        · rintro ⟨_, h⟩
          rcases Nat.eq_zero_or_pos p with h0 | h0
          · exact h0.symm
          · exact absurd ⟨rfl, rfl⟩ (h 0 h0)
    · have e : findCrlf (c :: l) = (findCrlf l).map (· + 1) := by
        cases l with
        | nil => rw [findCrlf]; simp
        | cons d l =>
          rw [findCrlf]
          intro t h1 h2
          simp at h2
          exact h ⟨h1, by simp [h2.1]⟩
      rw [e]
      cases p with
      | zero =>
        constructor
        · intro h'
          cases hl : findCrlf l <;> simp [hl] at h'
        · rintro ⟨⟨_, h1, h2⟩, _⟩
          simp only [List.getD_cons_zero, List.getD_cons_succ, Nat.zero_add] at h1 h2
          exact absurd ⟨h1, h2⟩ h
      | succ p =>
        have : (findCrlf l).map (· + 1) = some (p + 1) ↔ findCrlf l = some p := by
          cases findCrlf l <;> simp
        rw [this, ih p]
        simp only [List.length_cons, List.getD_cons_succ]
        constructor
        · rintro ⟨⟨h1, h2⟩, h3⟩
          refine ⟨⟨by omega, h2⟩, ?_⟩
          intro q hq
          cases q with
          | zero => simp only [List.getD_cons_zero]; exact h
          | succ q => simp only [List.getD_cons_succ]; exact h3 q (by omega)
        · rintro ⟨⟨h1, h2⟩, h3⟩
          refine ⟨⟨by omega, h2⟩, ?_⟩
          intro q hq
          have := h3 (q + 1) (by omega)
          simpa only [List.getD_cons_succ] using this

example : findCrlf [65, 13, 13, 10, 66, 13, 10] = some 2 := by decide

/-- C56. When there is no end of line, nothing is found. -/
theorem findCrlf_none (l : Bytes) : findCrlf l = none ↔ ∀ p, p + 1 < l.length → ¬ (l.getD p 0 = 13 ∧ l.getD (p + 1) 0 = 10) := by
  constructor
  · intro h p
    induction p using Nat.strongRecOn with
    | _ p ih =>
      intro hp hc
      have := (findCrlf_exact l p).mpr ⟨⟨hp, hc⟩, fun q hq => ih q hq (by omega)⟩
      rw [h] at this
      cases this
  · intro h
    cases hf : findCrlf l with
    | none => rfl
    | some p =>
      obtain ⟨⟨h1, h2⟩, _⟩ := (findCrlf_exact l p).mp hf
      exact absurd h2 (h p h1)

example : findCrlf [13, 65, 10, 13] = none := by decide

/-- The number which a list of decimal digits denotes. -/
def decimal (l : Bytes) : Nat := l.foldl (fun n c => n * 10 + (c.toNat - 48)) 0

/-- C56. Decimal numbers: the digits at the beginning are converted, there must be 1 to 63 of them, and a number of 2⁶⁴ or more becomes 2⁶⁴-1. -/
theorem strtoull_decimal (d rest : Bytes) (hd : ∀ c ∈ d, 48 ≤ c ∧ c ≤ 57) (h0 : d ≠ []) (hlen : d.length ≤ 63)
    (hr : ∀ c t, rest = c :: t → ¬ (48 ≤ c ∧ c ≤ 57)) :
    strtoullRaw 10 (d ++ rest) = some (min (decimal d) (2 ^ 64 - 1), d.length) := by
  have hall : ∀ c ∈ d, isDigit 10 c = true := by
    intro c hc
    simp [isDigit, hd c hc]
  have ht : (d ++ rest).takeWhile (isDigit 10) = d := by
    rw [List.takeWhile_append_of_pos hall]
    cases rest with
    | nil => simp
    | cons c t =>
      have := hr c t rfl
      rw [List.takeWhile_cons_of_neg]
      · simp
      · simp only [isDigit, if_true, Bool.and_eq_true, decide_eq_true_eq]
        exact this
  have hpos : d.length ≠ 0 := fun h => h0 (List.length_eq_zero_iff.mp h)
  unfold strtoullRaw
  simp only [ht]
  rw [if_neg hpos, if_neg (by omega)]
  have hv : d.foldl (fun n c => n * 10 + digitValue c) 0 = decimal d := by
    unfold decimal
    generalize 0 = a
    revert a
    clear ht hall h0 hlen hpos
    induction d with
    | nil => intro a; rfl
    | cons c d ih =>
      intro a
      have hc := hd c (by simp)
      simp only [List.foldl_cons]
      rw [show digitValue c = c.toNat - 48 by simp [digitValue, hc]]
      exact ih (fun x hx => hd x (by simp [hx])) _
  unfold strtoull
  simp only [hv]
  congr 2
  split <;> omega

example : strtoullRaw 10 ([50, 48, 52] ++ [32]) = some (204, 3) := by decide

/-- C56. A number which is not there, or with more than 63 digits, is refused. -/
theorem strtoull_refused (d rest : Bytes) (hd : ∀ c ∈ d, 48 ≤ c ∧ c ≤ 57) (hr : ∀ c t, rest = c :: t → ¬ (48 ≤ c ∧ c ≤ 57))
    (h : d = [] ∨ 63 < d.length) : strtoullRaw 10 (d ++ rest) = none := by
  have hall : ∀ c ∈ d, isDigit 10 c = true := by
    intro c hc
    simp [isDigit, hd c hc]
  have ht : (d ++ rest).takeWhile (isDigit 10) = d := by
    rw [List.takeWhile_append_of_pos hall]
    cases rest with
    | nil => simp
    | cons c t =>
      have := hr c t rfl
      rw [List.takeWhile_cons_of_neg]
      · simp
      · simp only [isDigit, if_true, Bool.and_eq_true, decide_eq_true_eq]
        exact this
  unfold strtoullRaw
  simp only [ht]
  rcases h with rfl | h
  · rfl
  · rw [if_neg (by omega), if_pos h]

example : strtoullRaw 10 ([] ++ [45, 49]) = none := by decide

end Verif.HttpUtil
