import Verif.Convert.Lemmas
/-!
# Properties of conversions
-/
namespace Verif.Convert
open Verif Types Types.Spec Endian Spec

/-- The setting which a host and flags are. -/
def setting (h : Host) (f : Flags) : Setting := ⟨h.le, h.mem, !f.strictBlobs, !f.strictStrings⟩

theorem is64_iff (v : Value) : is64 v.ty = true ↔ Number v := by
  unfold Number is64
  cases v.ty <;> decide

theorem blob_iff (h : Host) (f : Flags) (v : Value) : blobEnsure f v.ty = true ↔ Blobish (setting h f) v := by
  unfold Blobish blobEnsure isBlob setting
  cases v.ty <;> cases f.strictBlobs <;> simp <;> decide

theorem str_iff (h : Host) (f : Flags) (v : Value) : strEnsure f v.ty = true ↔ Strish (setting h f) v := by
  unfold Strish strEnsure isStr setting
  cases v.ty <;> cases f.strictStrings <;> simp <;> decide

theorem strish_data {s : Setting} {v : Value} (h : Strish s v) : bytes s v = v.data := by
  unfold bytes
  rcases h with h | ⟨_, h⟩
  · rw [h]; rfl
  · rw [if_neg]
    rintro e
    rw [e] at h
    revert h; decide

theorem dataOf_bytes (h : Host) (f : Flags) (v : Value) : dataOf h v = bytes (setting h f) v := rfl

/-- What `convert_exact` says of an outcome. -/
def Outcome (s : Setting) (size : Nat) (m : Method) (v : Value) (o : Out Value) : Prop :=
  (∃ w, o = .ok w ∧ Makes s m v w ∧ Good s size w) ∨ (o = .no ∧ ∀ w, ¬Makes s m v w)

theorem elements_pos {s : Setting} {size : Nat} {v : Value} (g : Good s size v) : 0 < v.elements.toNat := by
  have := g.some_
  have : v.elements.toNat ≠ 0 := fun e => this (UInt32.toNat_inj.mp (by simpa using e))
  omega

theorem numbers_length {s : Setting} {size : Nat} {v : Value} (g : Good s size v) (hn : Number v) : (numbers s v).length = v.elements.toNat := by
  unfold numbers
  rw [List.length_map, ints_length _ _ _ (g.eight hn)]

theorem elements_one (v : Value) : v.elements = 1 ↔ v.elements.toNat = 1 := by
  constructor
  · intro h; rw [h]; rfl
  · intro h; exact UInt32.toNat_inj.mp (by simpa using h)

theorem padded_flat_length (s : Setting) (v : Value) : ((numbers s v).flatMap padded).length = 20 * (numbers s v).length := by
  unfold numbers
  induction ints s.littleEndian v.data with
  | nil => rfl
  | cons x t ih =>
    rw [List.map_cons, List.flatMap_cons, List.length_append, ih, padded_length, List.length_cons]
    omega

theorem h2str_exact (h : Host) (f : Flags) (v : Value) (size : Nat) (g : Good (setting h f) size v) (hs : size < 2 ^ 32) :
    Outcome (setting h f) size .h2str v (convH2str h v) := by
  by_cases hn : ¬Number v
  · exact .inr ⟨by rw [convH2str, if_pos (by simpa using fun e => hn ((is64_iff v).mp e))], fun w hw => hn hw.1⟩
  have hn := Classical.not_not.mp hn
  have hl := g.eight hn
  have hp := elements_pos g
  have hnl := numbers_length g hn
  unfold convH2str
  rw [if_neg (by simp [(is64_iff v).mpr hn]), if_neg g.some_, if_neg (by omega)]
  simp only
  by_cases h1 : v.elements = 1
  · rw [if_pos h1]
    have he := (elements_one v).mp h1
    rw [he] at hl hnl
    have hi := ints_get h.le 0 v.data (by omega)
    unfold hToStr
    rw [if_neg (by omega), show (v.data.length + 7) / 8 = 1 by omega]
    simp only [joinNumbers, Nat.lt_irrefl, if_false, List.append_nil, List.nil_append, gt_iff_lt]
    rw [number_some h v 0 (by omega), hi, Option.getD_some, printNumber_text]
    refine .inl ⟨_, rfl, ⟨hn, rfl, rfl, rfl, rfl, rfl, ?_⟩, ⟨g.some_, ?_, ?_, ?_, g.room, fun _ => rfl⟩⟩
    · rw [if_pos hnl]
      obtain ⟨a, ha⟩ := List.length_eq_one_iff.mp (ints_length h.le 1 v.data hl)
      rw [ha] at hi
      simp only [List.getElem?_cons_zero, Option.some.injEq] at hi
      simp only [numbers, setting, ha, List.map_cons, List.map_nil, List.flatMap_cons, List.flatMap_nil, List.append_nil, hi]
    · rw [he, Nat.mod_one]
    · intro hh; exact absurd hh (by simp [Number])
    · have := text_length (isSigned v.flags) (hostInt h.le ((v.data.drop (8 * 0)).take 8))
      have := g.room
      show (text _).length ≤ size
      omega
  · rw [if_neg h1]
    have h1' : v.elements.toNat ≠ 1 := fun e => h1 ((elements_one v).mpr e)
    have := g.room
    rw [if_neg (by omega), slots_eq h v _ 0 (by omega)]
    have he : (((ints h.le v.data).drop 0).take v.elements.toNat).flatMap (fun x => padded (meaning (isSigned v.flags) x)) =
        (numbers (setting h f) v).flatMap padded := by
      rw [List.drop_zero, List.take_of_length_le (by rw [ints_length _ _ _ hl]; exact Nat.le_refl _)]
      simp [numbers, List.flatMap_map, setting]
    rw [he]
    refine .inl ⟨_, rfl, ⟨hn, rfl, rfl, rfl, rfl, rfl, ?_⟩, ⟨g.some_, ?_, ?_, ?_, g.room, fun _ => rfl⟩⟩
    · rw [if_neg (by omega)]
    · show ((numbers (setting h f) v).flatMap padded).length % v.elements.toNat = 0
      rw [padded_flat_length, hnl, Nat.mul_mod_left]
    · intro hh; exact absurd hh (by simp [Number])
    · show ((numbers (setting h f) v).flatMap padded).length ≤ size
      rw [padded_flat_length, hnl]
      exact g.room

theorem vain_good (s : Setting) (size : Nat) (tag : Bytes) (hs : 20 ≤ size) : Good s size ⟨.vain, 0, tag, 1, [], []⟩ where
  some_ := (by decide : (1 : UInt32) ≠ 0)
  equal := Nat.mod_one _
  eight := fun hh => absurd hh (by simp [Number])
  bound := Nat.zero_le _
  room := by show 20 * (1 : UInt32).toNat ≤ size; simpa using hs
  plain := fun _ => rfl

theorem size_pos {s : Setting} {size : Nat} {v : Value} (g : Good s size v) : 20 ≤ size := by
  have := elements_pos g
  have := g.room
  omega

theorem meaning_zero (signed : Bool) (x : UInt64) : meaning signed x = 0 ↔ x = 0 := by
  unfold meaning
  cases signed
  · simp only [Bool.false_eq_true, if_false]
    constructor
    · intro h; exact UInt64.toNat_inj.mp (by simpa using h)
    · rintro rfl; rfl
  · simp only [if_true]
    constructor
    · intro h
      have : x.toInt64 = 0 := Int64.toInt_inj.mp h
      rw [← UInt64.toUInt64_toInt64 x, this]; rfl
    · rintro rfl; rfl

theorem h2vain_exact (h : Host) (f : Flags) (v : Value) (size : Nat) (g : Good (setting h f) size v) :
    Outcome (setting h f) size .h2vain v (convH2vain h v) := by
  by_cases hn : ¬Number v
  · exact .inr ⟨by rw [convH2vain, if_pos (by simpa using fun e => hn ((is64_iff v).mp e))], fun w hw => hn hw.1⟩
  have hn := Classical.not_not.mp hn
  have hl := g.eight hn
  have hp := elements_pos g
  have hnl := numbers_length g hn
  unfold convH2vain
  rw [if_neg (by simp [(is64_iff v).mpr hn])]
  by_cases h1 : v.elements > 1
  · rw [if_pos h1]
    refine .inr ⟨rfl, fun w hw => ?_⟩
    rw [hw.2.1] at hnl
    have : (1 : UInt32).toNat < v.elements.toNat := UInt32.lt_iff_toNat_lt.mp h1
    rw [← hnl] at this
    exact absurd this (by decide)
  · rw [if_neg h1]
    have he : v.elements.toNat = 1 := by
      have : ¬(1 : UInt32).toNat < v.elements.toNat := fun e => h1 (UInt32.lt_iff_toNat_lt.mpr e)
      have h2 : (1 : UInt32).toNat = 1 := rfl
      omega
    rw [he] at hl
    have hi := ints_get h.le 0 v.data (by omega)
    obtain ⟨a, ha⟩ := List.length_eq_one_iff.mp (ints_length h.le 1 v.data hl)
    rw [number_some h v 0 (by omega), ha, List.getElem?_cons_zero]
    have hnum : numbers (setting h f) v = [meaning (isSigned v.flags) a] := by simp [numbers, setting, ha]
    simp only
    by_cases hz : a = 0
    · rw [if_neg (by simp [hz])]
      exact .inl ⟨_, rfl, ⟨hn, by rw [hnum, (meaning_zero _ _).mpr hz], rfl⟩, vain_good _ _ _ (size_pos g)⟩
    · rw [if_pos hz]
      refine .inr ⟨rfl, fun w hw => ?_⟩
      have := hw.2.1
      rw [hnum] at this
      exact hz ((meaning_zero _ _).mp (List.cons.inj this).1)

theorem retype_good {h : Host} {f : Flags} {v : Value} {size : Nat} (g : Good (setting h f) size v) (t : Ty) (ht : t = .str ∨ t = .blob) :
    Good (setting h f) size ⟨t, v.flags, v.tag, v.elements, bytes (setting h f) v, []⟩ := by
  have hb : bytes (setting h f) ⟨t, v.flags, v.tag, v.elements, bytes (setting h f) v, []⟩ = bytes (setting h f) v := by
    rcases ht with rfl | rfl <;> rfl
  refine ⟨g.some_, ?_, fun hh => ?_, ?_, g.room, fun _ => rfl⟩
  · rw [hb]; exact g.equal
  · rcases ht with rfl | rfl <;> exact absurd hh (by simp [Number])
  · rw [hb]; exact g.bound

theorem blob_exact (h : Host) (f : Flags) (v : Value) (size : Nat) (g : Good (setting h f) size v) :
    Outcome (setting h f) size .blob2str v (Method.apply h f .blob2str v) ∧ Outcome (setting h f) size .blob2blob v (Method.apply h f .blob2blob v) := by
  by_cases hn : Blobish (setting h f) v
  · have hb := (blob_iff h f v).mpr hn
    exact ⟨.inl ⟨_, by simp only [Method.apply, hb]; rfl, ⟨hn, rfl⟩, retype_good g _ (.inl rfl)⟩,
      .inl ⟨_, by simp only [Method.apply, hb]; rfl, ⟨hn, rfl⟩, retype_good g _ (.inr rfl)⟩⟩
  · have hb : blobEnsure f v.ty = false := by
      cases hx : blobEnsure f v.ty
      · rfl
      · exact absurd ((blob_iff h f v).mp hx) hn
    exact ⟨.inr ⟨by simp [Method.apply, hb], fun w hw => hn hw.1⟩, .inr ⟨by simp [Method.apply, hb], fun w hw => hn hw.1⟩⟩

theorem blob2hex_exact (h : Host) (f : Flags) (v : Value) (size : Nat) (g : Good (setting h f) size v) (hs : 2 * size + 1 < 2 ^ 32) :
    Outcome (setting h f) (2 * size) .blob2hex v (convBlob2hex h f v) := by
  by_cases hn : Blobish (setting h f) v
  · have hb := (blob_iff h f v).mpr hn
    unfold convBlob2hex
    rw [hb, dataOf_bytes h f]
    have hl := g.bound
    have hm : (2 * (bytes (setting h f) v).length) % v.elements.toNat = 0 := by
      rw [Nat.mul_mod, g.equal]; simp
    simp only [Bool.not_true, Bool.false_eq_true, if_false, binToHex]
    rw [if_neg (by omega), hex_eq]
    simp only
    rw [if_neg (by rw [hex_length]; simp [g.some_, hm])]
    have hbb : ∀ b, bytes (setting h f) ⟨.str, v.flags, v.tag, v.elements, b, []⟩ = b := fun _ => rfl
    refine .inl ⟨_, rfl, ⟨hn, rfl⟩, ⟨g.some_, ?_, fun hh => absurd hh (by simp [Number]), ?_, ?_, fun _ => rfl⟩⟩
    · rw [hbb, hex_length]; exact hm
    · rw [hbb, hex_length]; omega
    · have := g.room; show 20 * v.elements.toNat ≤ _; omega
  · have hb : blobEnsure f v.ty = false := by
      cases hx : blobEnsure f v.ty
      · rfl
      · exact absurd ((blob_iff h f v).mp hx) hn
    exact .inr ⟨by simp [convBlob2hex, hb], fun w hw => hn hw.1⟩

theorem strEnsure_false {h : Host} {f : Flags} {v : Value} (hn : ¬Strish (setting h f) v) : strEnsure f v.ty = false := by
  cases hx : strEnsure f v.ty
  · rfl
  · exact absurd ((str_iff h f v).mp hx) hn

theorem str_exact (h : Host) (f : Flags) (v : Value) (size : Nat) (g : Good (setting h f) size v) :
    Outcome (setting h f) size .str2str v (Method.apply h f .str2str v) ∧ Outcome (setting h f) size .str2blob v (Method.apply h f .str2blob v) ∧
    Outcome (setting h f) size .str2vain v (Method.apply h f .str2vain v) := by
  by_cases hn : Strish (setting h f) v
  · have hb := (str_iff h f v).mpr hn
    have hd := strish_data hn
    have hd' : dataOf h v = v.data := hd
    have hg1 := retype_good g .str (.inl rfl)
    have hg2 := retype_good g .blob (.inr rfl)
    rw [hd] at hg1 hg2
    refine ⟨.inl ⟨_, by simp only [Method.apply, hb, retype, hd']; rfl, ⟨hn, rfl⟩, hg1⟩, ?_, ?_⟩
    · by_cases he : v.data = []
      · exact .inr ⟨by simp [Method.apply, hb, he], fun w hw => hw.2.1 he⟩
      · refine .inl ⟨_, ?_, ⟨hn, he, rfl⟩, hg2⟩
        simp only [Method.apply, hb, retype, hd', List.length_eq_zero_iff]
        rw [if_neg (by simp), if_neg he]
    · simp only [Method.apply, convStr2vain, hb]
      rw [if_neg (by simp)]
      have hp := elements_pos g
      by_cases h1 : v.elements > 1
      · rw [if_pos h1]
        refine .inr ⟨rfl, fun w hw => ?_⟩
        rw [hw.2.2.1] at h1
        exact absurd h1 (by decide)
      · rw [if_neg h1]
        have he : v.elements.toNat = 1 := by
          have : ¬(1 : UInt32).toNat < v.elements.toNat := fun e => h1 (UInt32.lt_iff_toNat_lt.mpr e)
          have h2 : (1 : UInt32).toNat = 1 := rfl
          omega
        by_cases hz : v.data = []
        · rw [if_neg (by simp [hz])]
          exact .inl ⟨_, rfl, ⟨hn, hz, (elements_one v).mpr he, rfl⟩, vain_good _ _ _ (size_pos g)⟩
        · rw [if_pos (by simpa using hz)]
          exact .inr ⟨rfl, fun w hw => hz hw.2.1⟩
  · have hb := strEnsure_false hn
    exact ⟨.inr ⟨by simp [Method.apply, hb], fun w hw => hn hw.1⟩, .inr ⟨by simp [Method.apply, hb], fun w hw => hn hw.1⟩,
      .inr ⟨by simp [Method.apply, convStr2vain, hb], fun w hw => hn hw.1⟩⟩

theorem str2h_exact (h : Host) (f : Flags) (v : Value) (size : Nat) (g : Good (setting h f) size v) (hs : size < 2 ^ 32) :
    Outcome (setting h f) size .str2h v (convStr2h h f v) := by
  by_cases hn : ¬Strish (setting h f) v
  · exact .inr ⟨by simp [convStr2h, strEnsure_false hn], fun w hw => hn hw.1⟩
  have hn := Classical.not_not.mp hn
  have hb := (str_iff h f v).mpr hn
  have hp := elements_pos g
  have hq := g.equal
  rw [strish_data hn] at hq
  have hdiv : v.data.length = v.data.length / v.elements.toNat * v.elements.toNat := (Nat.div_mul_cancel (Nat.dvd_of_mod_eq_zero hq)).symm
  have hflat := parts_flatten _ _ v.data hdiv
  -- the bytes of a text which can be read
  have hread : ∀ ns : List Int, ns.length = v.elements.toNat →
      (∀ p ∈ (parts v.data (v.data.length / v.elements.toNat) v.elements.toNat).zip ns, Reads p.1 p.2) →
      v.data ≠ [] ∧ ∀ c ∈ v.data, (48 ≤ c ∧ c ≤ 57) ∨ c = 32 ∨ c = 43 ∨ c = 45 := by
    intro ns hl hr
    have hall : ∀ q ∈ parts v.data (v.data.length / v.elements.toNat) v.elements.toNat, ∃ n, Reads q n := by
      intro q hq
      obtain ⟨i, hi, he⟩ := List.mem_iff_getElem.mp hq
      have hi' : i < ns.length := by rw [parts_length] at hi; omega
      refine ⟨ns[i], hr (q, ns[i]) ?_⟩
      rw [List.mem_iff_getElem]
      exact ⟨i, by rw [List.length_zip]; omega, by rw [List.getElem_zip, he]⟩
    constructor
    · intro e
      have hl2 := parts_length (v.data.length / v.elements.toNat) v.elements.toNat v.data
      cases hpp : parts v.data (v.data.length / v.elements.toNat) v.elements.toNat with
      | nil => rw [hpp] at hl2; simp at hl2; omega
      | cons q t =>
        obtain ⟨n, hn⟩ := hall q (by rw [hpp]; simp)
        rw [hpp, e, List.flatten_cons] at hflat
        exact (reads_bytes hn).1 (List.append_eq_nil_iff.mp hflat).1
    · intro c hc
      rw [← hflat, List.mem_flatten] at hc
      obtain ⟨q, hq, hc⟩ := hc
      obtain ⟨n, hn⟩ := hall q hq
      exact (reads_bytes hn).2 c hc
  unfold convStr2h
  rw [if_neg (by simp [hb]), if_neg g.some_, if_neg (by omega)]
  by_cases he : v.data.length = 0
  · rw [if_pos he]
    refine .inr ⟨rfl, fun w hw => ?_⟩
    obtain ⟨_, _, ns, h1, h2, _⟩ := hw
    exact (hread ns h1 h2).1 (List.length_eq_zero_iff.mp he)
  rw [if_neg he]
  by_cases hc : v.data.all (fun c => (48 ≤ c && c ≤ 57) || c = 32 || c = 43 || c = 45) = true
  case neg =>
    rw [if_pos (by simpa using hc)]
    refine .inr ⟨rfl, fun w hw => ?_⟩
    obtain ⟨_, _, ns, h1, h2, _⟩ := hw
    apply hc
    rw [List.all_eq_true]
    intro c hm
    rcases (hread ns h1 h2).2 c hm with h | h | h | h <;> simp [h]
  rw [if_neg (by rw [hc]; decide)]
  have hroom := g.room
  simp only
  rw [if_neg (by omega)]
  by_cases h64 : v.data.length / v.elements.toNat > 64
  · rw [if_pos h64]
    exact .inr ⟨rfl, fun w hw => absurd hw.2.1 (by omega)⟩
  rw [if_neg h64]
  have hsig : v.data.any (· = 45) = decide ((45 : UInt8) ∈ v.data) := by
    rw [Bool.eq_iff_iff]; simp
  rw [hsig]
  cases hl : strLoop h (decide ((45 : UInt8) ∈ v.data)) (v.data.length / v.elements.toNat) v.elements.toNat v.data with
  | none =>
    refine .inr ⟨rfl, fun w hw => ?_⟩
    obtain ⟨_, _, ns, h1, h2, _⟩ := hw
    obtain ⟨d, hd⟩ := strLoop_exists h (decide ((45 : UInt8) ∈ v.data)) _ _ _ ns h1 h2
    rw [hl] at hd
    cases hd
  | some d =>
    obtain ⟨ns, h1, h2, h3⟩ := strLoop_some h _ _ _ _ d hl
    have hlen : d.length = 8 * ns.length := by rw [h3, hostBytes_flat_length, List.length_map]
    refine .inl ⟨_, rfl, ⟨hn, by omega, ns, h1, h2, rfl, ?_, rfl, rfl, rfl, hlen, ?_⟩, ⟨g.some_, ?_, ?_, ?_, g.room, fun _ => rfl⟩⟩
    · by_cases h45 : (45 : UInt8) ∈ v.data <;> simp [h45]
    · have hsg : isSigned (if (decide ((45 : UInt8) ∈ v.data)) = true then 1 else 0) = decide ((45 : UInt8) ∈ v.data) := by
        cases decide ((45 : UInt8) ∈ v.data) <;> rfl
      show (ints h.le d).map (meaning (isSigned (if (decide ((45 : UInt8) ∈ v.data)) = true then 1 else 0))) = _
      rw [hsg, h3, ints_hostBytes, List.map_map]
      apply List.map_congr_left
      intro n hmem
      apply clamp_meaning
      intro hf
      obtain ⟨i, hi, he⟩ := List.mem_iff_getElem.mp hmem
      have hz : ((parts v.data (v.data.length / v.elements.toNat) v.elements.toNat).zip ns)[i]'(by rw [List.length_zip, parts_length]; omega) =
          ((parts v.data (v.data.length / v.elements.toNat) v.elements.toNat)[i]'(by rw [parts_length]; omega), n) := by
        rw [List.getElem_zip, he]
      have hr := h2 _ (List.getElem_mem (by rw [List.length_zip, parts_length]; omega : i < _))
      rw [hz] at hr
      refine reads_nonneg hr fun hmm => ?_
      have : (45 : UInt8) ∈ v.data := by
        rw [← hflat, List.mem_flatten]
        exact ⟨_, List.getElem_mem (by rw [parts_length]; omega), hmm⟩
      simp [this] at hf
    · show d.length % v.elements.toNat = 0
      rw [hlen, h1, Nat.mul_mod_left]
    · intro _; show d.length = _; rw [hlen, h1]
    · show d.length ≤ size; omega

theorem vain_exact (h : Host) (f : Flags) (v : Value) (size : Nat) (g : Good (setting h f) size v) :
    Outcome (setting h f) size .vain2h v (Method.apply h f .vain2h v) ∧ Outcome (setting h f) size .vain2str v (Method.apply h f .vain2str v) := by
  have hsz := size_pos g
  by_cases hv : v.ty = .vain
  · constructor
    · refine .inl ⟨⟨.h, 0, v.tag, 1, List.replicate 8 0, []⟩, by simp only [Method.apply, hv]; rfl,
        ⟨hv, rfl, rfl, rfl, rfl, rfl, rfl, ?_⟩, ⟨?_, ?_, ?_, ?_, ?_, ?_⟩⟩
      · cases hle : h.le <;> simp only [numbers, setting, hle] <;> decide
      · exact (by decide : (1 : UInt32) ≠ 0)
      · exact Nat.mod_one _
      · intro _; rfl
      · show 8 ≤ size; omega
      · show 20 * 1 ≤ size; omega
      · intro _; rfl
    · refine .inl ⟨_, by simp only [Method.apply, hv]; rfl, ⟨hv, rfl⟩, ⟨?_, ?_, ?_, ?_, ?_, ?_⟩⟩
      · exact (by decide : (1 : UInt32) ≠ 0)
      · exact Nat.mod_one _
      · intro hh; exact absurd hh (by simp [Number])
      · exact Nat.zero_le _
      · show 20 * 1 ≤ size; omega
      · intro _; rfl
  · exact ⟨.inr ⟨by simp [Method.apply, hv], fun w hw => hv hw.1⟩, .inr ⟨by simp [Method.apply, hv], fun w hw => hv hw.1⟩⟩

theorem msg2blob_exact (h : Host) (f : Flags) (v : Value) (size : Nat) (g : Good (setting h f) size v) :
    Outcome (setting h f) size .msg2blob v (Method.apply h f .msg2blob v) := by
  by_cases hv : v.ty = .msg
  · exact .inl ⟨_, by simp only [Method.apply, hv]; rfl, ⟨hv, rfl⟩, retype_good g _ (.inr rfl)⟩
  · exact .inr ⟨by simp [Method.apply, hv], fun w hw => hv hw.1⟩

theorem meaning_small (signed : Bool) (x : UInt64) : (0 ≤ meaning signed x ∧ meaning signed x ≤ 255) ↔ x ≤ 0xff := by
  have hx := x.toNat_lt
  have hle : x ≤ 0xff ↔ x.toNat ≤ 255 := by rw [UInt64.le_iff_toNat_le]; rfl
  rw [hle]
  unfold meaning
  cases signed
  · simp only [Bool.false_eq_true, if_false]; omega
  · simp only [if_true]
    have : x.toInt64.toInt = (x.toNat : Int).bmod (2 ^ 64) := by
      rw [← toInt64_ofNat, UInt64.ofNat_toNat]
    rw [this, Int.bmod_def]
    split <;> omega

theorem small_byte (signed : Bool) (x : UInt64) (h : x ≤ 0xff) : UInt8.ofNat (meaning signed x).toNat = x.toUInt8 := by
  have hle : x.toNat ≤ 255 := by rw [UInt64.le_iff_toNat_le] at h; exact h
  have he : meaning signed x = x.toNat := by
    unfold meaning
    cases signed
    · rfl
    · simp only [if_true]
      have : x.toInt64.toInt = (x.toNat : Int).bmod (2 ^ 64) := by
        rw [← toInt64_ofNat, UInt64.ofNat_toNat]
      rw [this, Int.bmod_def]
      split <;> omega
  rw [he]
  apply UInt8.toNat_inj.mp
  simp

theorem hchar2str_exact (h : Host) (f : Flags) (v : Value) (size : Nat) (g : Good (setting h f) size v) :
    Outcome (setting h f) size .hchar2str v (convHchar2str h v) := by
  by_cases hn : ¬Number v
  · exact .inr ⟨by rw [convHchar2str, if_pos (by simpa using fun e => hn ((is64_iff v).mp e))], fun w hw => hn hw.1⟩
  have hn := Classical.not_not.mp hn
  have hl := g.eight hn
  have hp := elements_pos g
  have hil := ints_length h.le _ _ hl
  unfold convHchar2str
  rw [if_neg (by simp [(is64_iff v).mpr hn]), if_neg g.some_, if_neg (by omega), chars_ok h v _ 0 (by omega),
    List.drop_zero, List.take_of_length_le (by omega)]
  have hiff : (∀ n ∈ numbers (setting h f) v, 0 ≤ n ∧ n ≤ 255) ↔ ∀ x ∈ ints h.le v.data, x ≤ 0xff := by
    simp only [numbers, setting, List.mem_map]
    constructor
    · intro hh x hx
      exact (meaning_small _ x).mp (hh _ ⟨x, hx, rfl⟩)
    · rintro hh n ⟨x, hx, rfl⟩
      exact (meaning_small _ x).mpr (hh x hx)
  by_cases ha : ∀ x ∈ ints h.le v.data, x ≤ 0xff
  · rw [if_pos (by simpa using ha)]
    have hd : ((numbers (setting h f) v).map fun n => UInt8.ofNat n.toNat) = (ints h.le v.data).map (·.toUInt8) := by
      simp only [numbers, setting, List.map_map]
      exact List.map_congr_left fun x hx => small_byte _ x (ha x hx)
    have hr := g.room
    refine .inl ⟨_, rfl, ⟨hn, hiff.mpr ha, by rw [hd]⟩, ⟨(by decide : (1 : UInt32) ≠ 0), Nat.mod_one _, fun hh => absurd hh (by simp [Number]), ?_, ?_, fun _ => rfl⟩⟩
    · show ((ints h.le v.data).map (·.toUInt8)).length ≤ size
      rw [List.length_map]; omega
    · show 20 * 1 ≤ size; omega
  · rw [if_neg (by simpa using ha)]
    exact .inr ⟨rfl, fun w hw => ha (hiff.mp hw.2.1)⟩

/-- The size which a method needs for what it makes of `size` bytes. -/
def sizeAfter (m : Method) (size : Nat) : Nat := if m = .blob2hex then 2 * size else size

theorem to_target (m : Method) : m.to = target m := by cases m <;> rfl

/-! ## C116 -/

/-- **C116**, every method does what the manual says, for all values: when the value has another type than the one which the method makes, the
method makes exactly the value which the manual says, and when there is no such value the conversion is not possible. It never fails, aborts or reads outside of the value. -/
theorem convert_exact (h : Host) (f : Flags) (m : Method) (v : Value) (size : Nat) (g : Good (setting h f) size v)
    (hs : sizeAfter m size + 1 < 2 ^ 32) (ht : v.ty ≠ target m) :
    (∃ w, convert h f m v = .ok w ∧ Makes (setting h f) m v w ∧ Good (setting h f) (sizeAfter m size) w) ∨
    (convert h f m v = .no ∧ ∀ w, ¬Makes (setting h f) m v w) := by
  unfold convert
  rw [to_target, if_neg ht]
  cases m <;> simp only [sizeAfter, reduceCtorEq, if_true, if_false] at hs ⊢
  · exact h2str_exact h f v size g (by omega)
  · exact h2vain_exact h f v size g
  · exact (blob_exact h f v size g).1
  · exact (blob_exact h f v size g).2
  · exact blob2hex_exact h f v size g (by omega)
  · exact (str_exact h f v size g).1
  · exact (str_exact h f v size g).2.1
  · exact str2h_exact h f v size g (by omega)
  · exact (str_exact h f v size g).2.2
  · exact msg2blob_exact h f v size g
  · exact (vain_exact h f v size g).1
  · exact (vain_exact h f v size g).2
  · exact hchar2str_exact h f v size g

/-- **C116**, a value which has the type already is left as it is. -/
theorem convert_same (h : Host) (f : Flags) (m : Method) (v : Value) (ht : v.ty = target m) : convert h f m v = .ok v := by
  unfold convert
  rw [to_target, if_pos ht]

theorem makes_tag {s : Setting} {m : Method} {v w : Value} (h : Makes s m v w) : w.tag = v.tag := by
  cases m <;> simp only [Makes, With] at h
  · exact h.2.2.2.1
  · rw [h.2.2]
  · rw [h.2]
  · rw [h.2]
  · rw [h.2]
  · rw [h.2]
  · rw [h.2.2]
  · obtain ⟨_, _, ns, _, _, _, _, h, _⟩ := h; exact h
  · rw [h.2.2.2]
  · rw [h.2]
  · exact h.2.2.2.1
  · rw [h.2]
  · rw [h.2.2]

theorem recipe_tag {s : Setting} {ms : List Method} {v w : Value} (h : Recipe s ms v w) : w.tag = v.tag := by
  induction h with
  | done => rfl
  | step h _ ih => rw [ih, makes_tag h]
  | skip _ _ ih => exact ih

/-- When the value has the type already, the manual says that it stays, if it is not a string to be made hexadecimal. -/
theorem same_stays {s : Setting} {size : Nat} {m : Method} {v : Value} (g : Good s size v) (ht : v.ty = target m)
    (hh : m = .blob2hex → s.tolerantBlobs = false) : Recipe s [m] v v := by
  by_cases hm : Makes s m v v
  · exact .step hm (.done v)
  · refine .skip (fun w hw => hm ?_) (.done v)
    have hp : v.msgs = [] := g.plain (by rw [ht]; cases m <;> simp [target])
    obtain ⟨ty, fl, tg, el, d, mg⟩ := v
    simp only at hp ht
    subst hp ht
    cases m <;> simp only [Makes, With, Number, Blobish, Strish, target, bytes] at hw ⊢ <;>
      first
      | (exfalso; revert hw; simp; done)
      | (simp; done)
      | (have := hh rfl; simp [this] at hw)
      | exact ⟨hw.1, rfl⟩
      | exact hw

theorem single_recipe {s : Setting} {m : Method} {v w : Value} (h : Recipe s [m] v w) {ms : List Method} {u : Value} (hr : Recipe s ms w u) :
    Recipe s (m :: ms) v u := by
  cases h with
  | step h1 h2 => cases h2; exact .step h1 hr
  | skip h1 h2 => cases h2; exact .skip h1 hr

theorem recipe_snoc {s : Setting} {ms : List Method} {m : Method} {v u w : Value} (h : Recipe s ms v u) (hr : Recipe s [m] u w) :
    Recipe s (ms ++ [m]) v w := by
  induction h with
  | done => exact hr
  | step h1 _ ih => exact .step h1 (ih hr)
  | skip h1 _ ih => exact .skip h1 (ih hr)

/-- The size after all methods. -/
def sizeAfterAll (ms : List Method) (size : Nat) : Nat := 2 ^ (ms.count .blob2hex) * size

theorem sizeAfterAll_cons (m : Method) (ms : List Method) (size : Nat) : sizeAfterAll (m :: ms) size = sizeAfterAll ms (sizeAfter m size) := by
  unfold sizeAfterAll sizeAfter
  by_cases h : m = .blob2hex
  · subst h
    rw [List.count_cons_self, if_pos rfl, Nat.pow_succ, Nat.mul_assoc]
  · rw [List.count_cons_of_ne h, if_neg h]

theorem sizeAfterAll_ge (ms : List Method) (size : Nat) : size ≤ sizeAfterAll ms size := by
  unfold sizeAfterAll
  have : 0 < 2 ^ (ms.count Method.blob2hex) := Nat.two_pow_pos _
  exact Nat.le_mul_of_pos_left _ this

theorem convertList_snoc (h : Host) (f : Flags) (hf : f.tryNext = true) (m : Method) : ∀ (ms : List Method) (v : Value) (size : Nat),
    Good (setting h f) size v → sizeAfterAll (ms ++ [m]) size + 1 < 2 ^ 32 → (Method.blob2hex ∈ ms ++ [m] → f.strictBlobs = true) →
    ∃ u, Recipe (setting h f) ms v u ∧
      ((∃ w, convertList h f (ms ++ [m]) v = .ok w ∧ Recipe (setting h f) [m] u w ∧ (u.ty = target m ∨ ∃ x, Makes (setting h f) m u x)) ∨
       (convertList h f (ms ++ [m]) v = .no ∧ u.ty ≠ target m ∧ ∀ w, ¬Makes (setting h f) m u w))
  | [], v, size, g, hs, hh => by
    refine ⟨v, .done v, ?_⟩
    rw [List.nil_append, sizeAfterAll_cons] at hs
    have hs2 := sizeAfterAll_ge [] (sizeAfter m size)
    rw [List.nil_append, convertList]
    by_cases ht : v.ty = target m
    · rw [convert_same h f m v ht]
      exact .inl ⟨v, rfl, same_stays g ht (fun e => by simp [setting, hh (by simp [e])]), .inl ht⟩
    · rcases convert_exact h f m v size g (by omega) ht with ⟨w, h1, h2, _⟩ | ⟨h1, h2⟩
      · exact .inl ⟨w, by rw [h1]; rfl, .step h2 (.done w), .inr ⟨w, h2⟩⟩
      · exact .inr ⟨by rw [h1]; simp only [hf, if_true]; rfl, ht, h2⟩
  | m' :: ms, v, size, g, hs, hh => by
    rw [List.cons_append, sizeAfterAll_cons] at hs
    have hs2 := sizeAfterAll_ge (ms ++ [m]) (sizeAfter m' size)
    have hh' : Method.blob2hex ∈ ms ++ [m] → f.strictBlobs = true := fun hm => hh (List.mem_cons_of_mem _ hm)
    have key : ∀ w, Good (setting h f) (sizeAfter m' size) w → Recipe (setting h f) [m'] v w →
        (convertList h f (m' :: ms ++ [m]) v = match convertList h f (ms ++ [m]) w with | .done => .ok w | r => r) ∨
        (convertList h f (m' :: ms ++ [m]) v = match convertList h f (ms ++ [m]) w with | .done => .no | r => r) →
        ∃ u, Recipe (setting h f) (m' :: ms) v u ∧
      ((∃ w, convertList h f (m' :: ms ++ [m]) v = .ok w ∧ Recipe (setting h f) [m] u w ∧ (u.ty = target m ∨ ∃ x, Makes (setting h f) m u x)) ∨
       (convertList h f (m' :: ms ++ [m]) v = .no ∧ u.ty ≠ target m ∧ ∀ w, ¬Makes (setting h f) m u w)) := by
      intro w gw hr hc
      obtain ⟨u, hu, hx⟩ := convertList_snoc h f hf m ms w _ gw hs hh'
      refine ⟨u, single_recipe hr hu, ?_⟩
      rcases hx with ⟨x, h1, h2⟩ | ⟨h1, h2⟩
      · exact .inl ⟨x, by rcases hc with hc | hc <;> rw [hc, h1], h2⟩
      · exact .inr ⟨by rcases hc with hc | hc <;> rw [hc, h1], h2⟩
    by_cases ht : v.ty = target m'
    · have hge : size ≤ sizeAfter m' size := by unfold sizeAfter; split <;> omega
      refine key v ⟨g.some_, g.equal, g.eight, Nat.le_trans g.bound hge, Nat.le_trans g.room hge, g.plain⟩
        (same_stays g ht (fun e => by simp [setting, hh (by simp [e])])) (.inl ?_)
      rw [List.cons_append, convertList, convert_same h f m' v ht]
      rfl
    · rcases convert_exact h f m' v size g (by omega) ht with ⟨w, h1, h2, h3⟩ | ⟨h1, h2⟩
      · refine key w h3 (.step h2 (.done w)) (.inl ?_)
        rw [List.cons_append, convertList, h1]
        rfl
      · have hge : size ≤ sizeAfter m' size := by unfold sizeAfter; split <;> omega
        refine key v ⟨g.some_, g.equal, g.eight, Nat.le_trans g.bound hge, Nat.le_trans g.room hge, g.plain⟩ (.skip h2 (.done v)) (.inr ?_)
        rw [List.cons_append, convertList, h1]
        simp only [hf, if_true]
        rfl

/-- What the module makes of a value `v` with a recipe: the value which the recipe of the manual gives if the last method is possible, otherwise the value as it was. -/
def Processed (s : Setting) (ms : List Method) (m : Method) (v w : Value) : Prop :=
  ∃ u, Recipe s ms v u ∧
    (((u.ty = target m ∨ ∃ x, Makes s m u x) ∧ Recipe s (ms ++ [m]) v w) ∨
     (u.ty ≠ target m ∧ (∀ x, ¬Makes s m u x) ∧ w = v))

/-- **C116**, the recipe, partial. All conversions are applied from left to right, a conversion which is not possible is skipped, and the tag is kept, if
the last conversion of the recipe is possible. The program does not fail, abort or read outside of the value.

Missing from the full property: when the last conversion is not possible the others are undone, see `recipe_lost`; strings which are to be made hexadecimal
when `tolerantBlobs` is set, see `hex_of_string`; values for which `Good` does not hold, see `no_elements_aborts`. -/
theorem recipe_partial (h : Host) (f : Flags) (hf : f.tryNext = true) (ms : List Method) (m : Method) (v : Value) (size : Nat)
    (g : Good (setting h f) size v) (hs : sizeAfterAll (ms ++ [m]) size + 1 < 2 ^ 32) (hh : Method.blob2hex ∈ ms ++ [m] → f.strictBlobs = true) :
    ∃ w, processValue h f (ms ++ [m]) v = .ok w ∧ w.tag = v.tag ∧ Processed (setting h f) ms m v w := by
  obtain ⟨u, hu, ⟨w, h1, h2, h3⟩ | ⟨h1, h2⟩⟩ := convertList_snoc h f hf m ms v size g hs hh
  · have hr := recipe_snoc hu h2
    exact ⟨w, by rw [processValue, h1], recipe_tag hr, u, hu, .inl ⟨h3, hr⟩⟩
  · exact ⟨v, by rw [processValue, h1], rfl, u, hu, .inr ⟨h2.1, h2.2, rfl⟩⟩

theorem processAll_eq (h : Host) (f : Flags) (ms : List Method) : ∀ vs : List Value, (∀ v ∈ vs, ∃ w, processValue h f ms v = .ok w) →
    ∃ ws, processAll h f ms vs = .ok ws ∧ ws.length = vs.length ∧ ∀ p ∈ vs.zip ws, processValue h f ms p.1 = .ok p.2
  | [], _ => ⟨[], rfl, rfl, by simp⟩
  | v :: vs, hv => by
    obtain ⟨w, hw⟩ := hv v (by simp)
    obtain ⟨ws, h1, h2, h3⟩ := processAll_eq h f ms vs fun x hx => hv x (by simp [hx])
    refine ⟨w :: ws, by rw [processAll, hw, h1], by simp [h2], ?_⟩
    intro p hp
    rw [List.zip_cons_cons] at hp
    rcases List.mem_cons.mp hp with rfl | hp
    · exact hw
    · exact h3 p hp

theorem clearTags_eq (tags : List Bytes) (vs : List Value) : clearTags tags vs = vs.filter fun v => !tags.contains (v.tag.takeWhile (· ≠ 0)) := by
  unfold clearTags
  induction tags generalizing vs with
  | nil => exact (List.filter_eq_self.mpr fun _ _ => rfl).symm
  | cons t ts ih =>
    rw [List.foldl_cons, ih, List.filter_filter]
    congr 1
    funext v
    unfold isTag
    rw [List.contains_cons, Bool.not_or, Bool.and_comm]

/-- **C116**, the whole array, partial. One message is written for a message with array values. Values with one of the tags are deleted, all others are in the new message, in order, with
their tags, converted by the recipe. The topic is the configured one or that of the message, and the time is the time now.

Missing: as in `recipe_partial`, and values of which a message can not be made, see `empty_blob_dropped`. -/
theorem mangle_partial (h : Host) (c : Config) (time now : UInt64) (topic : Bytes) (vs : List Value) (ms : List Method) (m : Method) (size : Nat) (msg : Msg.MsgMsg)
    (hc : ∀ v ∈ vs, Content v) (ht : topic.length ≤ 0xffff) (hsz : 30 + topic.length + (vs.map packedSize).sum ≤ 0xffffffff)
    (hm : newMessage h.le vs time topic = .ok msg) (hcv : c.conversions = ms ++ [m])
    (hg : ∀ v ∈ vs, Good ⟨h.le, h.mem, c.tolerantBlobs, c.tolerantStrings⟩ size v) (hs : sizeAfterAll (ms ++ [m]) size + 1 < 2 ^ 32)
    (hh : Method.blob2hex ∈ ms ++ [m] → c.tolerantBlobs = false) (htt : ∀ t, c.topic = some t → t.length ≤ 0xffff) :
    let kept := vs.filter fun v => !c.clearTags.contains (v.tag.takeWhile (· ≠ 0))
    ∃ ws, ws.length = kept.length ∧
      (∀ p ∈ kept.zip ws, p.2.tag = p.1.tag ∧ Processed ⟨h.le, h.mem, c.tolerantBlobs, c.tolerantStrings⟩ ms m p.1 p.2) ∧
      ((∀ w ∈ ws, Content w) → 30 + (c.topic.getD topic).length + (ws.map packedSize).sum ≤ 0xffffffff →
        ∃ new, poll h c now msg = .written new ∧ toArray h.le new = .ok ws ∧ new.topic = c.topic.getD topic ∧ new.timestamp = now ∧ new.class_ = 11) := by
  intro kept
  obtain ⟨m0, hm0, hta, htop, _, hcl, _, _⟩ := (array_roundtrip_partial h.le vs time topic hc ht (fun v hv => by
    have := packedSize_le_total hv
    have : (vs.map packedSize).sum = total vs := rfl
    omega)).1 hsz
  rw [hm] at hm0
  cases hm0
  have hset : setting h ⟨true, !c.tolerantBlobs, !c.tolerantStrings⟩ = ⟨h.le, h.mem, c.tolerantBlobs, c.tolerantStrings⟩ := by
    simp [setting]
  have hrec : ∀ v ∈ kept, ∃ w, processValue h ⟨true, !c.tolerantBlobs, !c.tolerantStrings⟩ (ms ++ [m]) v = .ok w ∧ w.tag = v.tag ∧
      Processed ⟨h.le, h.mem, c.tolerantBlobs, c.tolerantStrings⟩ ms m v w := by
    intro v hv
    have := recipe_partial h ⟨true, !c.tolerantBlobs, !c.tolerantStrings⟩ rfl ms m v size (by rw [hset]; exact hg v (List.mem_filter.mp hv).1) hs
      (fun hx => by simp [hh hx])
    rw [hset] at this
    exact this
  obtain ⟨ws, h1, h2, h3⟩ := processAll_eq h ⟨true, !c.tolerantBlobs, !c.tolerantStrings⟩ (ms ++ [m]) kept fun v hv => by
    obtain ⟨w, hw, _⟩ := hrec v hv; exact ⟨w, hw⟩
  refine ⟨ws, h2, ?_, ?_⟩
  · intro p hp
    obtain ⟨w, hw, hx⟩ := hrec p.1 (List.of_mem_zip hp).1
    rw [h3 p hp] at hw
    cases hw
    exact hx
  · intro hcw hszw
    have htt' : (c.topic.getD topic).length ≤ 0xffff := by
      cases hct : c.topic with
      | none => exact ht
      | some t => exact htt t hct
    obtain ⟨new, hn1, hn2, hn3, hn4, hn5, _, _⟩ := (array_roundtrip_partial h.le ws now (c.topic.getD topic) hcw htt' (fun v hv => by
      have := packedSize_le_total hv
      have : (ws.map packedSize).sum = total ws := rfl
      omega)).1 hszw
    refine ⟨new, ?_, hn2, hn3, hn4, hn5⟩
    unfold poll
    rw [if_neg (by simp [hcl]), if_neg (by simp [hcv]), hta]
    simp only
    have hmv : mangleValues h c vs = .ok ws := by
      unfold mangleValues
      simp only
      rw [if_pos (by simp [hcv]), hcv, clearTags_eq]
      exact h1
    rw [hmv]
    simp only
    rw [htop, hn1]

/-! ### Numbers and text -/

theorem reads_text (n : Int) : Reads (text n) n := by
  have hd := Http.decimal_digits n.natAbs
  have hne := Http.decimal_ne n.natAbs
  have hv : Spec.digitsValue (Http.decimal n.natAbs) = n.natAbs := by
    rw [← digitsValue_eq]; exact Http.decimal_value n.natAbs
  refine ⟨0, Http.decimal n.natAbs, hne, hd, ?_⟩
  by_cases h : n < 0
  · refine .inr (.inr ⟨?_, by omega⟩)
    unfold text
    rw [if_pos h]
    rfl
  · refine .inl ⟨?_, by omega⟩
    unfold text
    rw [if_neg h]
    rfl

theorem reads_spaces {s : Bytes} {n : Int} (k : Nat) (h : Reads s n) : Reads (List.replicate k 32 ++ s) n := by
  obtain ⟨j, d, h1, h2, h3⟩ := h
  refine ⟨k + j, d, h1, h2, ?_⟩
  have hk : List.replicate (k + j) (32 : UInt8) = List.replicate k 32 ++ List.replicate j 32 := List.replicate_append_replicate.symm
  rw [hk]
  rcases h3 with ⟨rfl, h⟩ | ⟨rfl, h⟩ | ⟨rfl, h⟩
  · exact .inl ⟨by rw [List.append_assoc], h⟩
  · exact .inr (.inl ⟨by rw [List.append_assoc], h⟩)
  · exact .inr (.inr ⟨by rw [List.append_assoc], h⟩)

theorem parts_padded (signed : Bool) : ∀ xs : List UInt64,
    parts ((xs.map (meaning signed)).flatMap padded) 20 xs.length = xs.map fun x => padded (meaning signed x)
  | [] => rfl
  | x :: xs => by
    have hl := padded_length signed x
    rw [List.map_cons, List.flatMap_cons, List.length_cons, parts, List.take_left' hl, List.drop_left' hl, parts_padded signed xs]
    rfl

theorem text_minus (n : Int) : (45 : UInt8) ∈ text n ↔ n < 0 := by
  unfold text
  have hd : ∀ k, (45 : UInt8) ∉ (Nat.toDigits 10 k).map fun c => UInt8.ofNat c.toNat :=
    fun k hm => absurd (Http.decimal_digits k 45 hm).1 (by decide)
  by_cases h : n < 0
  · simp [h]
  · simp only [if_neg h, List.nil_append]
    exact ⟨fun hm => absurd hm (hd _), fun hx => absurd hx h⟩

theorem padded_minus (n : Int) : (45 : UInt8) ∈ padded n ↔ n < 0 := by
  unfold padded
  rw [List.mem_append, text_minus]
  constructor
  · rintro (h | h)
    · exact absurd (List.eq_of_mem_replicate h) (by decide)
    · exact h
  · exact .inr

/-- **C116**, numbers which are converted to text and back, as with the recipe `h2str,str2h`, are the same numbers. -/
theorem number_roundtrip (h : Host) (f : Flags) (v : Value) (size : Nat) (g : Good (setting h f) size v) (hs : size + 1 < 2 ^ 32) (hn : Number v) :
    ∃ w u, convert h f .h2str v = .ok w ∧ convert h f .str2h w = .ok u ∧ u.ty = .h ∧ u.tag = v.tag ∧ u.elements = v.elements ∧
      numbers (setting h f) u = numbers (setting h f) v := by
  have hty : v.ty ≠ .str := by intro e; rw [Number, e] at hn; revert hn; decide
  rcases convert_exact h f .h2str v size g hs hty with ⟨w, h1, h2, gw⟩ | ⟨_, h2⟩
  case inr =>
    refine absurd ?_ (h2 ⟨.str, 0, v.tag, v.elements, if (numbers (setting h f) v).length = 1 then (numbers (setting h f) v).flatMap text else (numbers (setting h f) v).flatMap padded, []⟩)
    exact ⟨hn, rfl, rfl, rfl, rfl, rfl, rfl⟩
  obtain ⟨_, hwt, hwf, hwg, hwe, hwm, hwd⟩ := h2
  have hp := elements_pos g
  have hl := g.eight hn
  have hil := ints_length h.le _ _ hl
  have hnl := numbers_length g hn
  have hnum : numbers (setting h f) v = (ints h.le v.data).map (meaning (isSigned v.flags)) := rfl
  -- the parts of the text are the numbers
  have hparts : parts w.data (w.data.length / w.elements.toNat) w.elements.toNat =
      (numbers (setting h f) v).map (if (numbers (setting h f) v).length = 1 then text else padded) := by
    rw [hwd, hwe]
    by_cases h1 : (numbers (setting h f) v).length = 1
    · simp only [if_pos h1]
      rw [← hnl, h1]
      obtain ⟨n, hn1⟩ := List.length_eq_one_iff.mp h1
      rw [hn1]
      simp [parts]
    · simp only [if_neg h1]
      rw [padded_flat_length, hnl, Nat.mul_div_cancel _ hp, hnum, ← hil, parts_padded, List.map_map]
      rfl
  have hminus : (45 : UInt8) ∈ w.data ↔ ∃ n ∈ numbers (setting h f) v, n < 0 := by
    rw [hwd]
    split
    · simp only [List.mem_flatMap, text_minus]
    · simp only [List.mem_flatMap, padded_minus]
  have hreads : ∀ p ∈ (parts w.data (w.data.length / w.elements.toNat) w.elements.toNat).zip (numbers (setting h f) v), Reads p.1 p.2 := by
    rw [hparts]
    intro p hp
    obtain ⟨i, hi, rfl⟩ := List.mem_iff_getElem.mp hp
    rw [List.getElem_zip, List.getElem_map]
    split
    · exact reads_text _
    · exact reads_spaces _ (reads_text _)
  have hrange : ∀ n ∈ numbers (setting h f) v, n < 2 ^ 64 ∧ (isSigned v.flags = true → -2 ^ 63 ≤ n ∧ n < 2 ^ 63) ∧ (isSigned v.flags = false → 0 ≤ n) := by
    intro n hm
    rw [hnum, List.mem_map] at hm
    obtain ⟨x, _, rfl⟩ := hm
    have := x.toNat_lt
    have := x.toInt64.toInt_lt
    have := x.toInt64.le_toInt
    unfold meaning
    cases isSigned v.flags
    · simp; omega
    · simp; omega
  have hfit : (numbers (setting h f) v).map (fit ((45 : UInt8) ∈ w.data)) = numbers (setting h f) v := by
    conv => rhs; rw [← List.map_id (numbers (setting h f) v)]
    apply List.map_congr_left
    intro n hm
    obtain ⟨r1, r2, r3⟩ := hrange n hm
    unfold fit
    by_cases h45 : (45 : UInt8) ∈ w.data
    · simp only [h45, decide_true, if_true, id]
      obtain ⟨k, hk, hk0⟩ := hminus.mp h45
      have : isSigned v.flags = true := by
        cases hsv : isSigned v.flags
        · have := (hrange k hk).2.2 hsv; omega
        · rfl
      have := r2 this
      omega
    · simp only [h45, decide_false, Bool.false_eq_true, if_false, id]
      omega
  have hsz : w.data.length / w.elements.toNat ≤ 64 := by
    have h0 : 0 < (parts w.data (w.data.length / w.elements.toNat) w.elements.toNat).length := by rw [parts_length, hwe]; exact hp
    rw [hwd, hwe]
    by_cases h1 : (numbers (setting h f) v).length = 1
    · rw [if_pos h1, ← hnl, h1]
      obtain ⟨x, hx⟩ := List.length_eq_one_iff.mp (show (ints h.le v.data).length = 1 by rw [hil, ← hnl, h1])
      rw [hnum, hx]
      have := text_length (isSigned v.flags) x
      simp
      omega
    · rw [if_neg h1, padded_flat_length, hnl, Nat.mul_div_cancel _ hp]
      omega
  have hsw : Strish (setting h f) w := .inl hwt
  rcases convert_exact h f .str2h w size gw hs (by rw [hwt]; decide) with ⟨u, u1, u2, _⟩ | ⟨_, u2⟩
  · refine ⟨w, u, h1, u1, ?_⟩
    obtain ⟨_, _, ns, n1, n2, n3, _, n5, n6, _, _, n9⟩ := u2
    have hns : ns = numbers (setting h f) v := by
      apply List.ext_getElem
      · rw [n1, hwe, hnl]
      · intro i hi1 hi2
        have hpl := parts_length (w.data.length / w.elements.toNat) w.elements.toNat w.data
        have ha := n2 _ (List.getElem_mem (by rw [List.length_zip, hpl]; omega : i < _))
        have hb := hreads _ (List.getElem_mem (by rw [List.length_zip, hpl, hwe]; omega : i < _))
        rw [List.getElem_zip] at ha hb
        exact reads_unique ha hb
    exact ⟨n3, by rw [n5, hwg], by rw [n6, hwe], by rw [n9, hns, hfit]⟩
  · exfalso
    refine u2 ⟨.h, if (45 : UInt8) ∈ w.data then 1 else 0, w.tag, w.elements, v.data, []⟩ ⟨hsw, hsz, numbers (setting h f) v, by rw [hnl, hwe], hreads, rfl, rfl, rfl, rfl, rfl,
      by rw [hnl]; exact hl, ?_⟩
    rw [hfit]
    have hsg : isSigned (if (45 : UInt8) ∈ w.data then 1 else 0) = decide ((45 : UInt8) ∈ w.data) := by
      by_cases h45 : (45 : UInt8) ∈ w.data <;> simp [h45] <;> rfl
    show (ints h.le v.data).map (meaning (isSigned (if (45 : UInt8) ∈ w.data then 1 else 0))) = numbers (setting h f) v
    rw [hsg, hnum]
    apply List.map_congr_left
    intro x hx
    have hmem : meaning (isSigned v.flags) x ∈ numbers (setting h f) v := by rw [hnum]; exact List.mem_map.mpr ⟨x, hx, rfl⟩
    by_cases h45 : (45 : UInt8) ∈ w.data
    · obtain ⟨k, hk, hk0⟩ := hminus.mp h45
      have : isSigned v.flags = true := by
        cases hsv : isSigned v.flags
        · have := (hrange k hk).2.2 hsv; omega
        · rfl
      simp [h45, this]
    · have hpos : ¬meaning (isSigned v.flags) x < 0 := fun hlt => h45 (hminus.mpr ⟨_, hmem, hlt⟩)
      simp only [h45, decide_false]
      cases hsv : isSigned v.flags
      · rfl
      · rw [hsv] at hpos
        unfold meaning at hpos ⊢
        simp only [if_true, Bool.false_eq_true, if_false] at hpos ⊢
        have : x.toInt64.toInt = (x.toNat : Int).bmod (2 ^ 64) := by
          rw [← toInt64_ofNat, UInt64.ofNat_toNat]
        rw [this, Int.bmod_def] at hpos ⊢
        have := x.toNat_lt
        split at hpos <;> split <;> omega

/-- The number a digit stands for. -/
def undigit (d : UInt8) : UInt8 := if d < 97 then d - 48 else d - 87

/-- **C116**, different bytes have different hexadecimal text, of double the size, with digits only. -/
theorem hex_exact (b b' : Bytes) : (hex b).length = 2 * b.length ∧ (hex b = hex b' → b = b') ∧
    ∀ c ∈ hex b, (48 ≤ c ∧ c ≤ 57) ∨ (97 ≤ c ∧ c ≤ 102) := by
  have hdig : ∀ c : UInt8, (((48 : UInt8) ≤ digit (c >>> 4) ∧ digit (c >>> 4) ≤ 57) ∨ ((97 : UInt8) ≤ digit (c >>> 4) ∧ digit (c >>> 4) ≤ 102)) ∧
      (((48 : UInt8) ≤ digit (c &&& 15) ∧ digit (c &&& 15) ≤ 57) ∨ ((97 : UInt8) ≤ digit (c &&& 15) ∧ digit (c &&& 15) ≤ 102)) := all256 (by decide +kernel)
  have hval : ∀ c : UInt8, undigit (digit (c >>> 4)) * 16 + undigit (digit (c &&& 15)) = c := all256 (by decide +kernel)
  refine ⟨hex_length b, ?_, ?_⟩
  · intro he
    induction b generalizing b' with
    | nil =>
      cases b' with
      | nil => rfl
      | cons c t => have := congrArg List.length he; rw [hex_length, hex_length] at this; simp at this
    | cons c t ih =>
      cases b' with
      | nil => have := congrArg List.length he; rw [hex_length, hex_length] at this; simp at this
      | cons c' t' =>
        simp only [hex, List.flatMap_cons, List.cons_append, List.nil_append, List.cons.injEq] at he
        have hc : c = c' := by rw [← hval c, ← hval c', he.1, he.2.1]
        rw [hc, ih t' he.2.2]
  · intro c hc
    simp only [hex, List.mem_flatMap] at hc
    obtain ⟨a, _, ha⟩ := hc
    rcases List.mem_cons.mp ha with rfl | ha
    · exact (hdig a).1
    · rcases List.mem_cons.mp ha with rfl | ha
      · exact (hdig a).2
      · cases ha

/-! ### Where the property does not hold -/

/-- A host for examples. -/
def exampleHost : Host := ⟨true, fun ms => ms.flatMap fun m => List.replicate (30 + m.body.length) 0⟩

/-- The default settings. -/
def strict : Flags := ⟨true, true, true⟩

/-- A string. -/
def abc : Value := ⟨.str, 0, [116], 1, [97, 98, 99], []⟩

/-- **C116** does not hold. The recipe `str2blob,h2vain` on a string: the first conversion is possible, the second is not and has to be skipped. The manual says that
a blob is the result, but the string is left as it was. -/
theorem recipe_lost : processValue exampleHost strict [.str2blob, .h2vain] abc = .ok abc ∧
    (∀ w, Recipe (setting exampleHost strict) [.str2blob, .h2vain] abc w → w = { abc with ty := .blob }) ∧
    Recipe (setting exampleHost strict) [.str2blob, .h2vain] abc { abc with ty := .blob } := by
  have hm : Makes (setting exampleHost strict) .str2blob abc { abc with ty := .blob } := ⟨.inl rfl, by decide, rfl⟩
  have hn : ∀ w, ¬Makes (setting exampleHost strict) .h2vain { abc with ty := .blob } w := fun w hw => absurd hw.1 (by simp [Number])
  refine ⟨by decide +kernel, ?_, .step hm (.skip hn (.done _))⟩
  intro w hw
  cases hw with
  | skip h _ => exact absurd hm (h _)
  | step h1 h2 =>
    have he := h1.2.2
    unfold With at he
    subst he
    cases h2 with
    | skip _ h => cases h; rfl
    | step h => exact absurd h (hn _)

/-- **C116** does not hold. When tags are to be cleared and there are no conversions, the array which is sent is empty, whatever the values and tags are. -/
theorem clear_loses_all (h : Host) (c : Config) (vs : List Value) (hc : c.conversions = []) : mangleValues h c vs = .ok [] := by
  simp [mangleValues, hc]

/-- **C116** does not hold. A string is compatible with `blob` when `tolerantBlobs` is set, but it is not made hexadecimal. -/
theorem hex_of_string (h : Host) (f : Flags) (v : Value) (hv : v.ty = .str) (hf : f.strictBlobs = false) (hd : v.data ≠ []) :
    convert h f .blob2hex v = .ok v ∧ (∃ w, Makes (setting h f) .blob2hex v w) ∧ ∀ w, Makes (setting h f) .blob2hex v w → w ≠ v := by
  refine ⟨convert_same h f _ v hv, ⟨_, .inr ⟨by simp [setting, hf], by rw [hv]; decide⟩, rfl⟩, ?_⟩
  rintro w ⟨_, hw⟩ rfl
  unfold With at hw
  have h1 : w.data = hex (bytes (setting h f) w) := by
    have h2 := congrArg Value.data hw
    exact h2
  have h2 : bytes (setting h f) w = w.data := by unfold bytes; rw [hv]; rfl
  rw [h2] at h1
  have := congrArg List.length h1
  rw [hex_length] at this
  have : w.data.length ≠ 0 := fun e => hd (List.length_eq_zero_iff.mp e)
  omega

/-- **C116** does not hold. A message which says that a number has no elements makes the program abort when numbers are converted to strings. The number of elements is not checked when a message is
received. -/
theorem no_elements_aborts (h : Host) (f : Flags) (v : Value) (hv : Number v) (he : v.elements = 0) :
    convert h f .h2str v = .bug ∧ convert h f .hchar2str v = .bug := by
  have h64 := (is64_iff v).mpr hv
  have hty : v.ty ≠ .str := by intro e; rw [Number, e] at hv; revert hv; decide
  constructor
  · simp only [convert, Method.to, if_neg hty, Method.apply, convH2str, h64, he]; rfl
  · simp only [convert, Method.to, if_neg hty, Method.apply, convHchar2str, h64, he]; rfl

/-- **C116** does not hold. When a message says that there are more numbers than there are, the program reads outside of the value. -/
theorem more_elements_outside (h : Host) (f : Flags) (v : Value) (hv : Number v) (h8 : v.data.length = 8) (he : v.elements = 2) :
    convert h f .h2str v = .oob := by
  have h64 := (is64_iff v).mpr hv
  have hty : v.ty ≠ .str := by intro e; rw [Number, e] at hv; revert hv; decide
  have h0 : number h v 0 = some (hostInt h.le ((v.data.drop (8 * 0)).take 8)) := by unfold number; rw [if_pos (by omega)]
  have h1 : number h v 1 = none := by unfold number; rw [if_neg (by omega)]
  simp only [convert, Method.to, if_neg hty, Method.apply, convH2str, h64, he, h8]
  have : slots h v 0 2 = .oob := by
    simp only [slots, h0, h1]
  rw [if_neg (by decide), if_neg (by decide), if_neg (by decide), if_neg (by decide), if_neg (by decide), show (2 : UInt32).toNat = 2 from rfl, this]

/-- A configuration. -/
def conf (ms : List Method) (tolerant : Bool) : Config := ⟨none, [], ms, false, tolerant, tolerant⟩

/-- **C116** does not hold. The program aborts and reads outside of a value because of a message which it has received. -/
theorem received_aborts :
    poll exampleHost (conf [.h2str] false) 7 (messageOf true [⟨.h, 0, [97], 0, [1, 0, 0, 0, 0, 0, 0, 0], []⟩] 5 []) = .bug ∧
    poll exampleHost (conf [.h2str] false) 7 (messageOf true [⟨.h, 0, [97], 2, [1, 0, 0, 0, 0, 0, 0, 0], []⟩] 5 []) = .oob ∧
    poll exampleHost (conf [.str2h] false) 7 (messageOf true [⟨.str, 0, [97], 2, [49, 50, 51], []⟩] 5 []) = .bug := by
  decide +kernel

/-- **C116** does not hold. An empty string can be converted to an empty blob, and then the message is dropped. -/
theorem empty_blob_dropped :
    poll exampleHost (conf [.blob2blob] true) 7 (messageOf true [⟨.str, 0, [97], 1, [], []⟩, ⟨.h, 0, [98], 1, [1, 0, 0, 0, 0, 0, 0, 0], []⟩] 5 []) = .dropped := by
  decide +kernel

/-- **C116** does not hold. Messages which are converted to a blob and then to hexadecimal make the program abort when their size in bytes can not be divided by their number. -/
theorem messages_hex_abort (h : Host) (v : Value) (hv : v.ty = .msg) (hl : (2 * (h.mem v.msgs).length) % v.elements.toNat ≠ 0) (hs : (h.mem v.msgs).length < 2 ^ 31 - 1) :
    processValue h strict [.msg2blob, .blob2hex] v = .bug := by
  have h1 : convert h strict .msg2blob v = .ok (retype h v .blob) := by
    simp [convert, Method.to, Method.apply, hv]
  have hd : dataOf h (retype h v .blob) = h.mem v.msgs := by
    simp [dataOf, retype, hv]
  have h2 : convert h strict .blob2hex (retype h v .blob) = .bug := by
    have hb : blobEnsure strict (retype h v .blob).ty = true := rfl
    have ht : (retype h v .blob).ty ≠ Method.blob2hex.to := by simp [retype, Method.to]
    unfold convert
    rw [if_neg ht]
    simp only [Method.apply, convBlob2hex, hb, hd, binToHex]
    rw [if_neg (by simp), if_neg (by omega), hex_eq]
    simp only
    rw [if_pos]
    right
    rw [hex_length]
    exact hl
  simp only [processValue, convertList, h1, h2]

/-! ### Examples -/

/-- Two numbers, one of which is negative. -/
def two : Value := ⟨.h, 1, [120], 2, [0xff, 0xff, 0xff, 0xff, 0xff, 0xff, 0xff, 0xff, 42, 0, 0, 0, 0, 0, 0, 0], []⟩

theorem two_good : Good (setting exampleHost strict) 40 two := by
  refine ⟨by decide, by decide, fun _ => by decide, by decide, by decide, fun _ => rfl⟩

-- `recipe_partial`, `number_roundtrip` and `convert_exact` apply to it.
example : ∃ w, processValue exampleHost strict ([.h2str, .str2blob] ++ [.blob2hex]) two = .ok w ∧ w.tag = two.tag ∧
    Processed (setting exampleHost strict) [.h2str, .str2blob] .blob2hex two w :=
  recipe_partial exampleHost strict rfl _ _ two 40 two_good (by decide) (fun _ => rfl)

example : ∃ w u, convert exampleHost strict .h2str two = .ok w ∧ convert exampleHost strict .str2h w = .ok u ∧ u.ty = .h ∧ u.tag = two.tag ∧ u.elements = two.elements ∧
    numbers (setting exampleHost strict) u = numbers (setting exampleHost strict) two :=
  number_roundtrip exampleHost strict two 40 two_good (by decide) (by simp [two, Number])

example : numbers (setting exampleHost strict) two = [-1, 42] := by decide +kernel

example : processValue exampleHost strict [.h2str] two =
    .ok ⟨.str, 0, [120], 2, "                  -1                  42".toUTF8.toList, []⟩ := by decide +kernel

example : processValue exampleHost strict [.h2str, .str2h] two = .ok two := by decide +kernel

example : processValue exampleHost strict [.blob2hex] ⟨.blob, 0, [], 1, [0xde, 0xad], []⟩ = .ok ⟨.str, 0, [], 1, "dead".toUTF8.toList, []⟩ := by decide +kernel

example : processValue exampleHost strict [.hchar2str] ⟨.h, 0, [], 2, [97, 0, 0, 0, 0, 0, 0, 0, 98, 0, 0, 0, 0, 0, 0, 0], []⟩ = .ok ⟨.str, 0, [], 1, [97, 98], []⟩ := by
  decide +kernel

-- A message with a deleted value, a number and a string.
example : poll exampleHost ⟨none, [[98]], [.h2str, .str2h], false, false, false⟩ 7
    (messageOf true [abc, ⟨.h, 0, [98], 1, [1, 0, 0, 0, 0, 0, 0, 0], []⟩, ⟨.str, 0, [99], 1, [49, 50], []⟩] 5 [116]) =
    .written (messageOf true [abc, ⟨.h, 0, [99], 1, [12, 0, 0, 0, 0, 0, 0, 0], []⟩] 7 [116]) := by decide +kernel

-- `mangle_partial` applies to such a message.
example : ∃ ws : List Value, ws.length = 2 ∧ (∀ p ∈ [abc, two].zip ws, p.2.tag = p.1.tag ∧
      Processed ⟨true, exampleHost.mem, false, false⟩ [.h2str] .str2h p.1 p.2) := by
  have hc : ∀ v ∈ [abc, two], Content v := by
    intro v hv
    rcases List.mem_cons.mp hv with rfl | hv
    · exact rfl
    · rcases List.mem_cons.mp hv with rfl | hv
      · exact ⟨rfl, rfl⟩
      · cases hv
  have hg : ∀ v ∈ [abc, two], Good ⟨true, exampleHost.mem, false, false⟩ 40 v := by
    intro v hv
    rcases List.mem_cons.mp hv with rfl | hv
    · exact ⟨by decide, by decide, fun h => absurd h (by simp [Number, abc]), by decide, by decide, fun _ => rfl⟩
    · rcases List.mem_cons.mp hv with rfl | hv
      · exact two_good
      · cases hv
  obtain ⟨ws, h1, h2, _⟩ := mangle_partial exampleHost (conf [.h2str, .str2h] false) 5 7 [116] [abc, two] [.h2str] .str2h 40 (messageOf true [abc, two] 5 [116]) hc
    (by decide) (by decide) (newMessage_eq true _ _ _ hc (by decide) (by decide)) rfl hg (by decide) (fun h => absurd h (by decide)) (fun t ht => by cases ht)
  exact ⟨ws, h1, h2⟩

end Verif.Convert
