import Verif.ArrayTree.Refine
/-!
# Trees: the values which have been read, references, conditions and `REWIND`
-/
namespace Verif.ArrayTree
open Verif Endian Msg Types Types.Spec Spec

/-! ## Values as numbers -/

theorem ints_head (le : Bool) (d : Bytes) (h : 8 ≤ d.length) : (ints le d).headD 0 = hostInt le (d.take 8) := by
  match d, h with
  | a :: b :: c :: e :: f :: g :: i :: j :: t, _ =>
    simp only [ints, List.headD_cons, List.take_succ_cons, List.take_zero, hostInt]
    cases le with
    | false => simp only [Bool.false_eq_true, if_false]; rw [ofBytes_eq]
    | true => simp only [if_true]; rw [first_ofBytes]
  | [], h | [_], h | [_, _], h | [_, _, _], h | [_, _, _, _], h | [_, _, _, _, _], h | [_, _, _, _, _, _], h | [_, _, _, _, _, _, _], h => simp at h

theorem ofNat_toNat64 (x : UInt64) : UInt64.ofNat x.toNat = x := UInt64.ofNat_toNat

theorem blob_num (d : Bytes) : blobTo64 d = UInt64.ofNat (valueBE (d.drop (d.length - 8))) ∧ valueBE (d.drop (d.length - 8)) < 2 ^ 64 := by
  have he : d.length - min 8 d.length = d.length - 8 := by omega
  refine ⟨by unfold blobTo64; rw [he, ofBytes_eq], ?_⟩
  rw [← ofBytes_eq]
  have h1 := ofBytes_lt (d.drop (d.length - 8))
  have h2 : (256 : Nat) ^ (d.drop (d.length - 8)).length ≤ 256 ^ 8 := Nat.pow_le_pow_right (by omega) (by simp only [List.length_drop]; omega)
  have h3 : (256 : Nat) ^ 8 = 2 ^ 64 := by decide
  omega

theorem reads_num {w : World} {ty : Ty} {sgn : Bool} {tag : Bytes} {n k : Nat} {p r : Bytes} {v : Value} (hk : 1 ≤ k) (h : Reads w ty sgn tag n k p r v) :
    to64 w v = some (UInt64.ofNat (num w v)) ∧ num w v < 2 ^ 64 := by
  have hint : ∀ (x : UInt64), UInt64.ofNat x.toNat = x ∧ x.toNat < 2 ^ 64 := fun x => ⟨ofNat_toNat64 x, x.toNat_lt⟩
  have h8 : ∀ (fl : UInt8) (e : UInt32) (d : Bytes), 8 ≤ d.length → to64 w ⟨.h, fl, tag, e, d, []⟩ = some (UInt64.ofNat (num w ⟨.h, fl, tag, e, d, []⟩)) ∧ num w ⟨.h, fl, tag, e, d, []⟩ < 2 ^ 64 := by
    intro fl e d hd
    simp only [to64, num]
    rw [if_neg (by omega), ints_head w.le d hd, (hint _).1]
    exact ⟨rfl, (hint _).2⟩
  cases ty with
  | err => exact h.elim
  | be => obtain ⟨d, rfl, _, hd, _⟩ := h; exact h8 _ _ d (by omega)
  | le => obtain ⟨d, rfl, _, hd, _⟩ := h; exact h8 _ _ d (by omega)
  | h => obtain ⟨d, rfl, _, hd, _⟩ := h; exact h8 _ _ d (by omega)
  | ustr => obtain ⟨d, x, rfl, _, y, rfl, _⟩ := h; exact h8 _ _ _ (by rw [hostBytes_length]; omega)
  | istr => obtain ⟨d, x, rfl, _, y, rfl, _⟩ := h; exact h8 _ _ _ (by rw [hostBytes_length]; omega)
  | blob => obtain ⟨rfl, _⟩ := h; simp only [to64, num]; exact ⟨by rw [(blob_num _).1], (blob_num _).2⟩
  | sep => obtain ⟨rfl, _⟩ := h; simp only [to64, num]; exact ⟨by rw [(blob_num _).1], (blob_num _).2⟩
  | stx => obtain ⟨rfl, _⟩ := h; simp only [to64, num]; exact ⟨by rw [(blob_num _).1], (blob_num _).2⟩
  | fixp => obtain ⟨rfl, _⟩ := h; simp only [to64, num]; exact ⟨by rw [(blob_num _).1], (blob_num _).2⟩
  | nsep => obtain ⟨rfl, _⟩ := h; simp only [to64, num]; exact ⟨by rw [(blob_num _).1], (blob_num _).2⟩
  | str => obtain ⟨d, body, rfl, _⟩ := h; simp only [to64, num]; exact ⟨by rw [(blob_num _).1], (blob_num _).2⟩
  | msg => obtain ⟨m, rfl, _⟩ := h; simp only [to64, num]; rw [(hint _).1]; exact ⟨rfl, (hint _).2⟩
  | hdlc => obtain ⟨d, rfl, _⟩ := h; exact ⟨rfl, by simp [num]⟩
  | vain => obtain ⟨rfl, _⟩ := h; exact ⟨rfl, by simp [num]⟩

theorem reads_tag {w : World} {ty : Ty} {sgn : Bool} {tag : Bytes} {n k : Nat} {p r : Bytes} {v : Value} (h : Reads w ty sgn tag n k p r v) : v.tag = tag := by
  cases ty with
  | err => exact h.elim
  | be => obtain ⟨d, rfl, _⟩ := h; rfl
  | le => obtain ⟨d, rfl, _⟩ := h; rfl
  | h => obtain ⟨d, rfl, _⟩ := h; rfl
  | ustr => obtain ⟨d, x, rfl, _⟩ := h; rfl
  | istr => obtain ⟨d, x, rfl, _⟩ := h; rfl
  | blob => obtain ⟨rfl, _⟩ := h; rfl
  | sep => obtain ⟨rfl, _⟩ := h; rfl
  | stx => obtain ⟨rfl, _⟩ := h; rfl
  | fixp => obtain ⟨rfl, _⟩ := h; rfl
  | nsep => obtain ⟨rfl, _⟩ := h; rfl
  | str => obtain ⟨d, body, rfl, _⟩ := h; rfl
  | msg => obtain ⟨m, rfl, _⟩ := h; rfl
  | hdlc => obtain ⟨d, rfl, _⟩ := h; rfl
  | vain => obtain ⟨rfl, _⟩ := h; rfl

theorem value_small (big : Bool) (b : Bytes) (h : b.length ≤ 2) : value big false b < 2 ^ 16 := by
  have hb : ∀ b : Bytes, b.length ≤ 2 → valueBE b < 2 ^ 16 := by
    intro b h
    rw [← ofBytes_eq]
    have h1 := ofBytes_lt b
    have h2 : (256 : Nat) ^ b.length ≤ 256 ^ 2 := Nat.pow_le_pow_right (by omega) h
    have h3 : (256 : Nat) ^ 2 = 2 ^ 16 := by decide
    omega
  have hl : valueLE b < 2 ^ 16 := by
    have := hb b.reverse (by simpa using h)
    rwa [valueBE, List.reverse_reverse] at this
  unfold value
  cases big with
  | true => have := hb b h; simp; omega
  | false => simp; omega

theorem integers_small {le big : Bool} {n k : Nat} {p d : Bytes} (hk : 1 ≤ k) (hn : n ≤ 2) (h : Integers le big false n k p d) : ((ints le d).headD 0).toNat < 2 ^ 16 := by
  obtain ⟨_, _, hi⟩ := h
  obtain ⟨x, hx, hm⟩ := hi 0 (by omega)
  have hs := value_small big ((p.drop (0 * n)).take n) (by rw [List.length_take]; omega)
  rw [← hm] at hs
  have : (ints le d).headD 0 = x := by
    cases hd : ints le d with
    | nil => rw [hd] at hx; cases hx
    | cons y t => rw [hd] at hx; simp only [List.length_cons, List.getElem?_cons_zero, Option.some.injEq] at hx; exact hx
  rw [this]
  simp only [meaning, Bool.false_eq_true, if_false] at hs
  omega

/-! ## The list of values -/

/-- What is known about a value which has been read. -/
def Known (F : List Field) (w : World) (v : Value) : Prop := to64 w v = some (UInt64.ofNat (num w v)) ∧ num w v < 2 ^ 64 ∧ ∃ f ∈ F, v.tag = f.tag ∧ (Short f → num w v < 2 ^ 16)

/-- The values of the model and those of the specification. -/
def Match (F : List Field) (w : World) (safe : Prop) : List Item → Parsed → Prop
  | [], [] => True
  | i :: is, x :: xs => i.v = x.1 ∧ (safe → i.ilen.toNat * i.v.elements.toNat = x.2.length) ∧ Known F w x.1 ∧ Match F w safe is xs
  | _, _ => False

/-- The state of the model and what has been read. -/
def Rel (F : List Field) (w : World) (safe : Prop) (b : Bytes) (s : St) (l : Parsed) : Prop := Match F w safe s.items l ∧ s.pos = l.bytes.length ∧ ∃ r, b = l.bytes ++ r

/-- No tag is at the start of the name. -/
def Differs (F : List Field) (name : Bytes) : Prop := ∀ f ∈ F, f.tag ≠ [] → f.tag <+: name → f.tag = name

theorem bytes_cons (x : Value × Bytes) (l : Parsed) : Parsed.bytes (x :: l) = l.bytes ++ x.2 := by
  simp [Parsed.bytes]

theorem match_length {F : List Field} {w : World} {safe : Prop} : ∀ {is : List Item} {l : Parsed}, Match F w safe is l → is.length = l.length
  | [], [], _ => rfl
  | _ :: _, _ :: _, h => by simp [match_length h.2.2.2]

theorem match_values {F : List Field} {w : World} {safe : Prop} : ∀ {is : List Item} {l : Parsed}, Match F w safe is l → is.map (·.v) = l.map (·.1)
  | [], [], _ => rfl
  | _ :: _, _ :: _, h => by simp [match_values h.2.2.2, h.1]

theorem match_drop {F : List Field} {w : World} {safe : Prop} : ∀ (k : Nat) {is : List Item} {l : Parsed}, Match F w safe is l → Match F w safe (is.drop k) (l.drop k)
  | 0, _, _, h => h
  | _ + 1, [], [], h => h
  | k + 1, _ :: _, _ :: _, h => match_drop k h.2.2.2

theorem tagMatches_eq {F : List Field} {tag name : Bytes} (hd : Differs F name) (ht : ∃ f ∈ F, tag = f.tag) : tagMatches tag name = decide (tag = name ∧ name ≠ []) := by
  obtain ⟨f, hf, rfl⟩ := ht
  unfold tagMatches
  rw [Bool.eq_iff_iff]
  simp only [Bool.and_eq_true, Bool.not_eq_true', List.isEmpty_eq_false_iff, List.isPrefixOf_iff_prefix, decide_eq_true_eq]
  constructor
  · rintro ⟨h1, h2⟩
    have := hd f hf h1 h2
    exact ⟨this, this ▸ h1⟩
  · rintro ⟨h1, h2⟩
    rw [h1]
    exact ⟨h2, List.prefix_refl _⟩

theorem find_last {F : List Field} {w : World} {safe : Prop} {name : Bytes} (hd : Differs F name) : ∀ {is : List Item} {l : Parsed}, Match F w safe is l →
    match is.find? (fun i => tagMatches i.v.tag name) with
    | none => l.last name = none
    | some i => l.last name = some i.v ∧ Known F w i.v
  | [], [], _ => rfl
  | i :: is, x :: l, h => by
    obtain ⟨hv, _, hk, hm⟩ := h
    have ih := find_last hd hm
    have ht := tagMatches_eq hd (by obtain ⟨_, _, f, hf, h, _⟩ := hk; exact ⟨f, hf, h⟩)
    rw [← hv] at ht
    rw [List.find?_cons]
    unfold Parsed.last
    rw [List.find?_cons]
    by_cases hx : i.v.tag = name ∧ name ≠ []
    · rw [ht, decide_eq_true hx]
      rw [hv] at hx
      simp only [hx, ne_eq, not_false_eq_true, and_self, decide_true, Option.map_some]
      rw [hv]
      exact ⟨rfl, hk⟩
    · rw [ht, decide_eq_false hx]
      rw [hv] at hx
      simp only [hx, decide_false]
      exact ih

theorem resolves_lt {w : World} {l : Parsed} {r : Option Bytes} {x : UInt32} {n : Nat} (h : Resolves w l r x n) : n < 2 ^ 32 := by
  cases r with
  | none => rw [show n = x.toNat from h]; exact x.toNat_lt
  | some name => obtain ⟨_, _, _, _, h⟩ := h; exact h

theorem resolveRef_iff {F : List Field} {w : World} {safe : Prop} {is : List Item} {l : Parsed} {r : Option Bytes} (hm : Match F w safe is l) (hd : ∀ name ∈ r.toList, Differs F name) (x n : UInt32) :
    resolveRef w is r x = .ok n ↔ Resolves w l r x n.toNat := by
  cases r with
  | none =>
    simp only [resolveRef, Resolves]
    constructor
    · intro h; cases h; rfl
    · intro h; rw [UInt32.toNat.inj h]
  | some name =>
    have hf := find_last (hd name (by simp)) hm
    simp only [resolveRef, resolve, Resolves]
    split at hf
    · rename_i hi
      rw [hi]
      simp only [hf, Res.bind]
      constructor
      · intro h; cases h
      · rintro ⟨v, h, _⟩; cases h
    · rename_i i hi
      rw [hi]
      obtain ⟨hl, h64, hlt, _⟩ := hf
      simp only [hl, h64]
      have hN : (UInt64.ofNat (num w i.v)).toNat = num w i.v := by rw [UInt64.toNat_ofNat']; exact Nat.mod_eq_of_lt hlt
      rw [hN]
      by_cases hbig : num w i.v > 0xffffffff
      · rw [if_pos hbig]
        simp only [Res.bind]
        constructor
        · intro h; cases h
        · rintro ⟨v, h, h1, h2, h3⟩; cases h; omega
      · rw [if_neg hbig]
        have hM : (UInt32.ofNat (num w i.v)).toNat = num w i.v := by rw [UInt32.toNat_ofNat']; exact Nat.mod_eq_of_lt (by omega)
        simp only [Res.bind]
        constructor
        · intro h
          split at h
          · cases h
          · rename_i hz
            cases h
            refine ⟨i.v, rfl, hM, ?_, by omega⟩
            rw [hM]
            have : num w i.v ≠ 0 := by intro h0; apply hz; rw [h0]; rfl
            omega
        · rintro ⟨v, h, h1, h2, h3⟩
          cases h
          have : UInt32.ofNat (num w i.v) = n := UInt32.toNat.inj (by rw [hM, h1])
          rw [this, if_neg]
          intro h0; rw [h0] at h2; simp at h2

/-! ## Conditions -/

theorem evaluateValue_congr {env env' : Bytes → Option Condition.Num} {v : Bytes} (h : v.head? = some 123 → env (v.drop 1).dropLast = env' (v.drop 1).dropLast) :
    Condition.evaluateValue env v = Condition.evaluateValue env' v := by
  unfold Condition.evaluateValue
  by_cases hv : v.head? = some 123
  · rw [if_pos hv, if_pos hv, h hv]
  · rw [if_neg hv, if_neg hv]

theorem evalLoop_congr {env env' : Bytes → Option Condition.Num} : ∀ (c : List Condition.Carrier), (∀ name ∈ condNames c, env name = env' name) → ∀ rs res,
    Condition.evalLoop env c rs res = Condition.evalLoop env' c rs res
  | [], _, _, _ => rfl
  | .op o :: l, h, rs, res => by
    simp only [Condition.evalLoop]
    cases Condition.evaluateOp o rs with
    | ok rs' => exact evalLoop_congr l h _ _
    | _ => rfl
  | .val v :: l, h, rs, res => by
    have h1 : v.head? = some 123 → env (v.drop 1).dropLast = env' (v.drop 1).dropLast := by
      intro hv; apply h; simp [condNames, hv]
    have h2 : ∀ name ∈ condNames l, env name = env' name := by
      intro name hn; apply h
      rw [condNames]; split
      · exact List.mem_cons_of_mem _ hn
      · exact hn
    simp only [Condition.evalLoop]
    rw [evaluateValue_congr h1]
    cases Condition.evaluateValue env' v with
    | ok n => exact evalLoop_congr l h2 _ _
    | _ => rfl

theorem nameValue_eq {F : List Field} {w : World} {safe : Prop} {is : List Item} {l : Parsed} {name : Bytes} (hm : Match F w safe is l) (hd : Differs F name) : nameValue w is name = names w l name := by
  have hf := find_last hd hm
  unfold nameValue names
  split at hf
  · rename_i hi; rw [hi, hf]; rfl
  · rename_i i hi
    rw [hi, hf.1]
    simp only [Option.map_some, hf.2.1, Option.getD_some]
    rfl

theorem holds_iff {F : List Field} {w : World} {safe : Prop} {is : List Item} {l : Parsed} {c : List Condition.Carrier} (hm : Match F w safe is l) (hd : ∀ name ∈ condNames c, Differs F name) (r : Bool) :
    holds w is c = .ok r ↔ Holds w l c r := by
  unfold holds Holds
  have he : Condition.evaluate (nameValue w is) c = Condition.evaluate (names w l) c := evalLoop_congr c (fun name hn => nameValue_eq hm (hd name hn)) _ _
  rw [he]
  constructor
  · intro h
    split at h
    · rename_i x hx; cases h; exact ⟨x, hx, rfl⟩
    all_goals cases h
  · rintro ⟨x, hx, rfl⟩
    rw [hx]

/-! ## Going back -/

theorem rewindLoop_ok {F : List Field} {w : World} {safe : Prop} (hs : safe) : ∀ (k total : Nat) {is : List Item} {l : Parsed}, Match F w safe is l → k ≤ l.length → total + l.bytes.length < 2 ^ 32 →
    rewindLoop k total ⟨is, l.bytes.length⟩ = .ok ⟨is.drop k, (Parsed.bytes (l.drop k)).length⟩
  | 0, _, _, _, _, _, _ => rfl
  | k + 1, total, [], [], _, hk, _ => by simp at hk
  | k + 1, total, i :: is, x :: l, h, hk, ht => by
    obtain ⟨hv, hl, hkn, hm⟩ := h
    rw [bytes_cons, List.length_append] at ht
    rw [rewindLoop]
    simp only
    rw [hl hs, if_neg (by omega), if_neg (by rw [bytes_cons, List.length_append]; omega)]
    rw [show (Parsed.bytes (x :: l)).length - x.2.length = (Parsed.bytes l).length by rw [bytes_cons, List.length_append]; omega]
    simp only [List.length_cons] at hk
    exact rewindLoop_ok hs k (total + x.2.length) hm (by omega) (by omega)

theorem bytes_drop (l : Parsed) (k : Nat) : ∃ r, l.bytes = Parsed.bytes (l.drop k) ++ r := by
  induction k generalizing l with
  | zero => exact ⟨[], by simp⟩
  | succ k ih =>
    cases l with
    | nil => exact ⟨[], by simp⟩
    | cons x l =>
      obtain ⟨r, hr⟩ := ih l
      exact ⟨r ++ x.2, by rw [bytes_cons, hr, List.drop_succ_cons, List.append_assoc]⟩

theorem rewind_iff {F : List Field} {w : World} {safe : Prop} {b : Bytes} {s : St} {l : Parsed} (hs : safe) (hb : b.length < 2 ^ 32) (hr : Rel F w safe b s l) (n : Nat) (s' : St) :
    rewind n s = .ok s' ↔ n ≤ l.length ∧ s' = ⟨s.items.drop n, (Parsed.bytes (l.drop n)).length⟩ := by
  obtain ⟨is, pos⟩ := s
  obtain ⟨hm, hp, r, hb'⟩ := hr
  simp only at hp hm
  have hlen := match_length hm
  unfold rewind
  simp only
  rw [hlen]
  by_cases hn : n > l.length
  · rw [if_pos hn]
    exact ⟨fun h => (nomatch h), fun h => absurd hn (by omega)⟩
  · rw [if_neg hn, hp, rewindLoop_ok hs n 0 hm (by omega) (by rw [hb', List.length_append] at hb; omega)]
    constructor
    · intro h; cases h; exact ⟨by omega, rfl⟩
    · rintro ⟨_, rfl⟩; rfl

theorem rel_drop {F : List Field} {w : World} {safe : Prop} {b : Bytes} {s : St} {l : Parsed} (hr : Rel F w safe b s l) (n : Nat) :
    Rel F w safe b ⟨s.items.drop n, (Parsed.bytes (l.drop n)).length⟩ (l.drop n) := by
  obtain ⟨hm, hp, r, hb⟩ := hr
  obtain ⟨r', hr'⟩ := bytes_drop l n
  exact ⟨match_drop n hm, rfl, r' ++ r, by rw [hb, hr', List.append_assoc]⟩

/-! ## Fields -/

theorem rel_drop_bytes {F : List Field} {w : World} {safe : Prop} {b : Bytes} {s : St} {l : Parsed} (hr : Rel F w safe b s l) : b = l.bytes ++ b.drop s.pos := by
  obtain ⟨_, hp, r, hb⟩ := hr
  rw [hp, hb]
  simp

/-- Kinds of fields which can be stepped back over. -/
def Back (ty : Ty) : Prop := ty ≠ .ustr ∧ ty ≠ .istr ∧ ty ≠ .fixp ∧ ty ≠ .msg ∧ ty ≠ .hdlc

theorem reads_ilen {w : World} {ty : Ty} {sgn : Bool} {tag : Bytes} {n k : UInt32} {p r : Bytes} {v : Value} (hb : Back ty) (hlong : n.toNat ≤ longest ty) (hp : p.length < 2 ^ 32)
    (h : Reads w ty sgn tag n.toNat k.toNat p r v) : (ilenOf ty n p).toNat * v.elements.toNat = p.length := by
  obtain ⟨h1, h2, h3, h4, h5⟩ := hb
  have hk : (UInt32.ofNat k.toNat).toNat = k.toNat := by rw [UInt32.ofNat_toNat]
  have hl : (UInt32.ofNat p.length).toNat = p.length := by rw [UInt32.toNat_ofNat']; exact Nat.mod_eq_of_lt hp
  cases ty with
  | ustr => exact absurd rfl h1
  | istr => exact absurd rfl h2
  | fixp => exact absurd rfl h3
  | msg => exact absurd rfl h4
  | hdlc => exact absurd rfl h5
  | err => exact h.elim
  | be => obtain ⟨d, rfl, hi, _⟩ := h; simp only [ilenOf, hk, hi]
  | le => obtain ⟨d, rfl, hi, _⟩ := h; simp only [ilenOf, hk, hi]
  | h => obtain ⟨d, rfl, hi, _⟩ := h; simp only [ilenOf, hk, hi]
  | blob => obtain ⟨rfl, hi⟩ := h; simp only [ilenOf, hk, hi]
  | sep => obtain ⟨rfl, hi, _⟩ := h; simp only [ilenOf, hk, hi]
  | stx => obtain ⟨rfl, hi, _⟩ := h; simp only [ilenOf, hk, hi]
  | nsep => obtain ⟨rfl, _⟩ := h; simp only [ilenOf, hl]; exact Nat.mul_one _
  | str => obtain ⟨d, body, rfl, _⟩ := h; simp only [ilenOf, hl]; exact Nat.mul_one _
  | vain =>
    obtain ⟨rfl, rfl⟩ := h
    simp only [longest] at hlong
    simp only [ilenOf, show n.toNat = 0 by omega]; simp

theorem known_of_reads {F : List Field} {w : World} {f : Field} {n k : Nat} {p r : Bytes} {v : Value} (hf : f ∈ F) (hk : 1 ≤ k) (hn : f.lenRef = none → n = f.len.toNat)
    (h : Reads w f.ty f.signed f.tag n k p r v) : Known F w v := by
  refine ⟨(reads_num hk h).1, (reads_num hk h).2, f, hf, reads_tag h, ?_⟩
  rintro ⟨hty, hsg, href, hlen⟩
  rw [hsg] at h
  have hn2 : n ≤ 2 := by rw [hn href]; exact hlen
  rcases hty with hty | hty | hty <;> rw [hty] at h
  · obtain ⟨d, rfl, hi⟩ := h; exact integers_small hk hn2 hi
  · obtain ⟨d, rfl, hi⟩ := h; exact integers_small hk hn2 hi
  · obtain ⟨d, rfl, hi⟩ := h; exact integers_small hk hn2 hi

/-- The demands of the specification on one field. -/
def Step (w : World) (b : Bytes) (f : Field) (l : Parsed) (n k : Nat) (p r : Bytes) (v : Value) : Prop :=
  Resolves w l f.lenRef f.len n ∧ Resolves w l f.countRef f.count k ∧ (1 ≤ n ∨ longest f.ty = 0) ∧ n ≤ longest f.ty ∧ 1 ≤ k ∧ b = l.bytes ++ (p ++ r) ∧ Reads w f.ty f.signed f.tag n k p r v

theorem readField_rel {F : List Field} {w : World} {safe : Prop} {b : Bytes} {s : St} {l : Parsed} {f : Field} {n k : UInt32} {p r : Bytes} {v : Value}
    (hr : Rel F w safe b s l) (hb : b.length < 2 ^ 32) (hf : f ∈ F) (hback : safe → Back f.ty) (h : Step w b f l n.toNat k.toNat p r v) :
    Rel F w safe b ⟨⟨v, ilenOf f.ty n p⟩ :: s.items, s.pos + p.length⟩ ((v, p) :: l) := by
  obtain ⟨hn, hk, h1, h2, h3, hbp, hrd⟩ := h
  obtain ⟨hm, hp, _⟩ := hr
  have hlen : p.length < 2 ^ 32 := by rw [hbp] at hb; simp only [List.length_append] at hb; omega
  refine ⟨⟨rfl, fun hs => reads_ilen (hback hs) h2 hlen hrd, known_of_reads hf h3 ?_ hrd, hm⟩, ?_, r, ?_⟩
  · intro href; rw [href] at hn; exact hn
  · rw [bytes_cons, List.length_append, hp]
  · rw [bytes_cons, hbp, List.append_assoc]

theorem readField_sound {F : List Field} {w : World} {safe : Prop} {b : Bytes} {s s' : St} {l : Parsed} {f : Field} (hr : Rel F w safe b s l) (hb : b.length < 2 ^ 32)
    (hok : FieldOk f) (hd : ∀ name ∈ f.lenRef.toList ++ f.countRef.toList, Differs F name) (hfew : ∀ k, Resolves w l f.countRef f.count k → k < 2 ^ 22) (h : readField w b f s = .ok s') :
    ∃ (n k : UInt32) (p r : Bytes) (v : Value), Step w b f l n.toNat k.toNat p r v ∧ s' = ⟨⟨v, ilenOf f.ty n p⟩ :: s.items, s.pos + p.length⟩ := by
  unfold readField at h
  obtain ⟨n, hn, h⟩ := bind_eq_ok h
  obtain ⟨k, hk, h⟩ := bind_eq_ok h
  have hn' := (resolveRef_iff hr.1 (fun name hm => hd name (List.mem_append_left _ hm)) _ _).mp hn
  have hk' := (resolveRef_iff hr.1 (fun name hm => hd name (List.mem_append_right _ hm)) _ _).mp hk
  split at h
  · cases h
  rename_i h1
  split at h
  · cases h
  rename_i h2
  split at h
  · cases h
  rename_i h3
  obtain ⟨⟨i, u⟩, hi, h⟩ := bind_eq_ok h
  split at h
  · cases h
  rename_i h4
  cases h
  have hk1 : 1 ≤ k.toNat := by
    have : k.toNat ≠ 0 := fun h => h2 (UInt32.toNat.inj h)
    omega
  have hn1 : 1 ≤ n.toNat ∨ longest f.ty = 0 := by
    rw [longest_eq]
    by_cases hz : maxLength f.ty = 0
    · exact Or.inr hz
    · left
      have : n.toNat ≠ 0 := fun h => h1 ⟨UInt32.toNat.inj h, hz⟩
      omega
  have hlong : n.toNat ≤ longest f.ty := by rw [longest_eq]; omega
  have h22 := hfew _ hk'
  obtain ⟨p, r, e1, e2, e3, e4⟩ := (importField_iff w f.ty f.signed f.tag n k (b.drop s.pos) i u hn1 hlong hk1 (fun hz => by
      obtain ⟨_, hc, hcr⟩ := hok.2 hz
      rw [hcr] at hk'
      exact UInt32.toNat.inj (by rw [show k.toNat = f.count.toNat from hk', hc]))
    (fun _ => by
      have : longest f.ty ≤ 1024 := by cases f.ty <;> simp [longest]
      refine ⟨?_, by omega⟩
      calc n.toNat * k.toNat ≤ 1024 * k.toNat := Nat.mul_le_mul_right _ (by omega)
        _ < 2 ^ 32 := by omega) (by rw [List.length_drop]; omega)).mp ⟨hi, h4⟩
  refine ⟨n, k, p, r, i.v, ⟨hn', hk', hn1, hlong, hk1, ?_, e3⟩, ?_⟩
  · rw [← e1]; exact rel_drop_bytes hr
  · rw [← e4, e2]

theorem readField_complete {F : List Field} {w : World} {safe : Prop} {b : Bytes} {s : St} {l : Parsed} {f : Field} {n k : UInt32} {p r : Bytes} {v : Value} (hr : Rel F w safe b s l) (hb : b.length < 2 ^ 29)
    (hok : FieldOk f) (hd : ∀ name ∈ f.lenRef.toList ++ f.countRef.toList, Differs F name) (h : Step w b f l n.toNat k.toNat p r v) :
    readField w b f s = .ok ⟨⟨v, ilenOf f.ty n p⟩ :: s.items, s.pos + p.length⟩ := by
  obtain ⟨hn, hk, h1, h2, h3, hbp, hrd⟩ := h
  unfold readField
  rw [(resolveRef_iff hr.1 (fun name hm => hd name (List.mem_append_left _ hm)) _ _).mpr hn]
  simp only [Res.bind]
  rw [(resolveRef_iff hr.1 (fun name hm => hd name (List.mem_append_right _ hm)) _ _).mpr hk]
  simp only [Res.bind]
  have hdrop : b.drop s.pos = p ++ r := by rw [hr.2.1, hbp]; simp
  have hplen : p.length < 2 ^ 29 := by rw [hbp] at hb; simp only [List.length_append] at hb; omega
  have hnk : longest f.ty ≠ 0 → n.toNat * k.toNat < 2 ^ 32 ∧ k.toNat < 2 ^ 29 := by
    intro hz
    have hn1 : 1 ≤ n.toNat := by omega
    have hprod : p.length = n.toNat * k.toNat := by
      cases hty : f.ty with
      | be => rw [hty] at hrd; obtain ⟨_, _, hi⟩ := hrd; exact hi.1
      | le => rw [hty] at hrd; obtain ⟨_, _, hi⟩ := hrd; exact hi.1
      | h => rw [hty] at hrd; obtain ⟨_, _, hi⟩ := hrd; exact hi.1
      | blob => rw [hty] at hrd; exact hrd.2
      | sep => rw [hty] at hrd; exact hrd.2.1
      | stx => rw [hty] at hrd; exact hrd.2.1
      | _ => rw [hty] at hz; simp [longest] at hz
    have : k.toNat ≤ n.toNat * k.toNat := Nat.le_mul_of_pos_left _ hn1
    omega
  obtain ⟨hi, hu⟩ := (importField_iff w f.ty f.signed f.tag n k (b.drop s.pos) ⟨v, ilenOf f.ty n p⟩ p.length h1 h2 h3 (fun hz => by
      obtain ⟨_, hc, hcr⟩ := hok.2 hz
      rw [hcr] at hk
      exact UInt32.toNat.inj (by rw [show k.toNat = f.count.toNat from hk, hc])) hnk (by rw [List.length_drop]; omega)).mpr ⟨p, r, hdrop, rfl, hrd, rfl⟩
  have hk0 : k ≠ 0 := by intro h; rw [h] at h3; simp at h3
  rw [if_neg, if_neg hk0, if_neg, hi]
  · simp only [Res.bind]
    rw [if_neg hu]
  · rw [← longest_eq]; omega
  · rw [← longest_eq]
    rintro ⟨hz, hl⟩
    rw [hz] at h1
    rcases h1 with h1 | h1
    · simp at h1
    · exact hl h1

/-! ## Trees -/

/-- What is demanded of the parts of a definition, given all fields `F` of it. -/
def PartOk (F : List Field) (safe : Prop) (fs : List Field) (names : List Bytes) (rw_ : Prop) : Prop :=
  (∀ f ∈ fs, f ∈ F ∧ FieldOk f ∧ (safe → Back f.ty)) ∧ (∀ name ∈ names, Differs F name) ∧ (rw_ → safe)

/-- Counts are small. -/
def FewIn (F : List Field) (f : Field) : Prop :=
  match f.countRef with
  | none => f.count.toNat < 2 ^ 22
  | some name => ∀ g ∈ F, g.tag = name → Short g

theorem last_known {F : List Field} {w : World} {safe : Prop} {name : Bytes} {v : Value} : ∀ {is : List Item} {l : Parsed}, Match F w safe is l → l.last name = some v → Known F w v ∧ v.tag = name
  | [], [], _, h => by cases h
  | i :: is, x :: l, hm, h => by
    unfold Parsed.last at h
    rw [List.find?_cons] at h
    by_cases hx : x.1.tag = name ∧ name ≠ []
    · rw [decide_eq_true hx] at h
      cases h
      exact ⟨hm.2.2.1, hx.1⟩
    · rw [decide_eq_false hx] at h
      exact last_known hm.2.2.2 h

theorem few_resolves {F : List Field} {w : World} {safe : Prop} {is : List Item} {l : Parsed} {f : Field} (hm : Match F w safe is l) (hfew : FewIn F f) : ∀ k, Resolves w l f.countRef f.count k → k < 2 ^ 22 := by
  intro k hk
  unfold FewIn at hfew
  cases hc : f.countRef with
  | none => rw [hc] at hfew hk; rw [show k = f.count.toNat from hk]; exact hfew
  | some name =>
    rw [hc] at hfew hk
    obtain ⟨v, hv, rfl, _⟩ := hk
    obtain ⟨⟨_, _, g, hg, htag, hs⟩, hvt⟩ := last_known hm hv
    have := hs (hfew g hg (by rw [← htag, hvt]))
    omega

mutual
theorem readTree_sound {F : List Field} {w : World} {safe : Prop} {b : Bytes} (hb : b.length < 2 ^ 32) : ∀ (t : Tree) (s s' : St) (l : Parsed),
    PartOk F safe (fields t) (refs t) (rewinds t) → (∀ f ∈ fields t, FewIn F f) → Rel F w safe b s l → readTree w b t s = .ok s' → ∃ l', Run w b t l l' ∧ Rel F w safe b s' l'
  | .nil, s, s', l, _, _, hr, h => by
    rw [readTree] at h; cases h
    exact ⟨l, rfl, hr⟩
  | .field f rest, s, s', l, hp, hfew, hr, h => by
    rw [readTree] at h
    obtain ⟨s1, h1, h2⟩ := bind_eq_ok h
    rw [fields, refs, rewinds] at hp
    rw [fields] at hfew
    obtain ⟨hF, hok, hback⟩ := hp.1 f (List.mem_cons_self ..)
    obtain ⟨n, k, p, r, v, hstep, rfl⟩ := readField_sound hr hb hok (fun name hm => hp.2.1 name (by
      rw [← List.append_assoc]; exact List.mem_append_left _ hm)) (few_resolves hr.1 (hfew f (List.mem_cons_self ..))) h1
    obtain ⟨l', hrun, hrel⟩ := readTree_sound hb rest _ s' ((v, p) :: l)
      ⟨fun g hg => hp.1 g (List.mem_cons_of_mem _ hg), fun name hm => hp.2.1 name (List.mem_append_right _ (List.mem_append_right _ hm)), hp.2.2⟩
      (fun g hg => hfew g (List.mem_cons_of_mem _ hg)) (readField_rel hr hb hF hback hstep) h2
    obtain ⟨a1, a2, a3, a4, a5, a6, a7⟩ := hstep
    exact ⟨l', ⟨_, _, p, r, v, a1, a2, a3, a4, a5, a6, a7, hrun⟩, hrel⟩
  | .rewind n rest, s, s', l, hp, hfew, hr, h => by
    rw [readTree] at h
    obtain ⟨s1, h1, h2⟩ := bind_eq_ok h
    rw [fields, refs] at hp
    rw [fields] at hfew
    have hs : safe := hp.2.2 (by rw [rewinds]; trivial)
    obtain ⟨hn, rfl⟩ := (rewind_iff hs hb hr n s1).mp h1
    obtain ⟨l', hrun, hrel⟩ := readTree_sound hb rest _ s' (l.drop n) ⟨hp.1, hp.2.1, fun _ => hs⟩ hfew (rel_drop hr n) h2
    exact ⟨l', ⟨hn, hrun⟩, hrel⟩
  | .cond bs rest, s, s', l, hp, hfew, hr, h => by
    rw [readTree] at h
    obtain ⟨s1, h1, h2⟩ := bind_eq_ok h
    rw [fields, refs, rewinds] at hp
    rw [fields] at hfew
    obtain ⟨m, hrun1, hrel1⟩ := readBranches_sound hb bs s s1 l ⟨fun f hf => hp.1 f (List.mem_append_left _ hf), fun name hm => hp.2.1 name (List.mem_append_left _ hm), fun h => hp.2.2 (Or.inl h)⟩
      (fun f hf => hfew f (List.mem_append_left _ hf)) hr h1
    obtain ⟨l', hrun2, hrel2⟩ := readTree_sound hb rest s1 s' m ⟨fun f hf => hp.1 f (List.mem_append_right _ hf), fun name hm => hp.2.1 name (List.mem_append_right _ hm), fun h => hp.2.2 (Or.inr h)⟩
      (fun f hf => hfew f (List.mem_append_right _ hf)) hrel1 h2
    exact ⟨l', ⟨m, hrun1, hrun2⟩, hrel2⟩
theorem readBranches_sound {F : List Field} {w : World} {safe : Prop} {b : Bytes} (hb : b.length < 2 ^ 32) : ∀ (bs : Branches) (s s' : St) (l : Parsed),
    PartOk F safe (fieldsOf bs) (refsOf bs) (rewindsOf bs) → (∀ f ∈ fieldsOf bs, FewIn F f) → Rel F w safe b s l → readBranches w b bs s = .ok s' → ∃ l', RunFirst w b bs l l' ∧ Rel F w safe b s' l'
  | .none, s, s', l, _, _, hr, h => by
    rw [readBranches] at h; cases h
    exact ⟨l, rfl, hr⟩
  | .els t, s, s', l, hp, hfew, hr, h => by
    rw [readBranches] at h
    rw [fieldsOf, refsOf, rewindsOf] at hp
    rw [fieldsOf] at hfew
    obtain ⟨l', h1, h2⟩ := readTree_sound hb t s s' l hp hfew hr h
    exact ⟨l', h1, h2⟩
  | .arm c t more, s, s', l, hp, hfew, hr, h => by
    rw [readBranches] at h
    rw [fieldsOf, refsOf, rewindsOf] at hp
    rw [fieldsOf] at hfew
    obtain ⟨x, h1, h2⟩ := bind_eq_ok h
    have hx := (holds_iff hr.1 (fun name hm => hp.2.1 name (List.mem_append_left _ hm)) x).mp h1
    cases x with
    | true =>
      rw [if_pos rfl] at h2
      obtain ⟨l', h3, h4⟩ := readTree_sound hb t s s' l ⟨fun f hf => hp.1 f (List.mem_append_left _ hf), fun name hm => hp.2.1 name (List.mem_append_right _ (List.mem_append_left _ hm)), fun h => hp.2.2 (Or.inl h)⟩
        (fun f hf => hfew f (List.mem_append_left _ hf)) hr h2
      exact ⟨l', Or.inl ⟨hx, h3⟩, h4⟩
    | false =>
      rw [if_neg (by simp)] at h2
      obtain ⟨l', h3, h4⟩ := readBranches_sound hb more s s' l ⟨fun f hf => hp.1 f (List.mem_append_right _ hf), fun name hm => hp.2.1 name (List.mem_append_right _ (List.mem_append_right _ hm)), fun h => hp.2.2 (Or.inr h)⟩
        (fun f hf => hfew f (List.mem_append_right _ hf)) hr h2
      exact ⟨l', Or.inr ⟨hx, h3⟩, h4⟩
end

theorem toNat32 {n : Nat} (h : n < 2 ^ 32) : (UInt32.ofNat n).toNat = n := by rw [UInt32.toNat_ofNat']; exact Nat.mod_eq_of_lt h

mutual
theorem readTree_complete {F : List Field} {w : World} {safe : Prop} {b : Bytes} (hb : b.length < 2 ^ 29) : ∀ (t : Tree) (s : St) (l l' : Parsed),
    PartOk F safe (fields t) (refs t) (rewinds t) → Rel F w safe b s l → Run w b t l l' → ∃ s', readTree w b t s = .ok s' ∧ Rel F w safe b s' l'
  | .nil, s, l, l', _, hr, h => by
    rw [Run] at h; subst h
    exact ⟨s, by rw [readTree], hr⟩
  | .field f rest, s, l, l', hp, hr, h => by
    rw [Run] at h
    obtain ⟨n, k, p, r, v, a1, a2, a3, a4, a5, a6, a7, hrun⟩ := h
    rw [fields, refs, rewinds] at hp
    obtain ⟨hF, hok, hback⟩ := hp.1 f (List.mem_cons_self ..)
    have hn := toNat32 (resolves_lt a1)
    have hk := toNat32 (resolves_lt a2)
    have hstep : Step w b f l (UInt32.ofNat n).toNat (UInt32.ofNat k).toNat p r v := by rw [hn, hk]; exact ⟨a1, a2, a3, a4, a5, a6, a7⟩
    have h1 := readField_complete hr hb hok (fun name hm => hp.2.1 name (by rw [← List.append_assoc]; exact List.mem_append_left _ hm)) hstep
    obtain ⟨s', h2, h3⟩ := readTree_complete hb rest _ ((v, p) :: l) l'
      ⟨fun g hg => hp.1 g (List.mem_cons_of_mem _ hg), fun name hm => hp.2.1 name (List.mem_append_right _ (List.mem_append_right _ hm)), hp.2.2⟩ (readField_rel hr (by omega) hF hback hstep) hrun
    exact ⟨s', by rw [readTree, h1]; exact h2, h3⟩
  | .rewind n rest, s, l, l', hp, hr, h => by
    rw [Run] at h
    rw [fields, refs] at hp
    have hs : safe := hp.2.2 (by rw [rewinds]; trivial)
    have h1 := (rewind_iff hs (by omega) hr n _).mpr ⟨h.1, rfl⟩
    obtain ⟨s', h2, h3⟩ := readTree_complete hb rest _ (l.drop n) l' ⟨hp.1, hp.2.1, fun _ => hs⟩ (rel_drop hr n) h.2
    exact ⟨s', by rw [readTree, h1]; exact h2, h3⟩
  | .cond bs rest, s, l, l', hp, hr, h => by
    rw [Run] at h
    obtain ⟨m, h1, h2⟩ := h
    rw [fields, refs, rewinds] at hp
    obtain ⟨s1, e1, r1⟩ := readBranches_complete hb bs s l m ⟨fun f hf => hp.1 f (List.mem_append_left _ hf), fun name hm => hp.2.1 name (List.mem_append_left _ hm), fun h => hp.2.2 (Or.inl h)⟩ hr h1
    obtain ⟨s2, e2, r2⟩ := readTree_complete hb rest s1 m l' ⟨fun f hf => hp.1 f (List.mem_append_right _ hf), fun name hm => hp.2.1 name (List.mem_append_right _ hm), fun h => hp.2.2 (Or.inr h)⟩ r1 h2
    exact ⟨s2, by rw [readTree, e1]; exact e2, r2⟩
theorem readBranches_complete {F : List Field} {w : World} {safe : Prop} {b : Bytes} (hb : b.length < 2 ^ 29) : ∀ (bs : Branches) (s : St) (l l' : Parsed),
    PartOk F safe (fieldsOf bs) (refsOf bs) (rewindsOf bs) → Rel F w safe b s l → RunFirst w b bs l l' → ∃ s', readBranches w b bs s = .ok s' ∧ Rel F w safe b s' l'
  | .none, s, l, l', _, hr, h => by
    rw [RunFirst] at h; subst h
    exact ⟨s, by rw [readBranches], hr⟩
  | .els t, s, l, l', hp, hr, h => by
    rw [RunFirst] at h
    rw [fieldsOf, refsOf, rewindsOf] at hp
    obtain ⟨s', h1, h2⟩ := readTree_complete hb t s l l' hp hr h
    exact ⟨s', by rw [readBranches]; exact h1, h2⟩
  | .arm c t more, s, l, l', hp, hr, h => by
    rw [RunFirst] at h
    rw [fieldsOf, refsOf, rewindsOf] at hp
    have hc := holds_iff (c := c) hr.1 (fun name hm => hp.2.1 name (List.mem_append_left _ hm))
    rcases h with ⟨hx, h⟩ | ⟨hx, h⟩
    · obtain ⟨s', h3, h4⟩ := readTree_complete hb t s l l' ⟨fun f hf => hp.1 f (List.mem_append_left _ hf), fun name hm => hp.2.1 name (List.mem_append_right _ (List.mem_append_left _ hm)), fun h => hp.2.2 (Or.inl h)⟩ hr h
      exact ⟨s', by rw [readBranches, (hc true).mpr hx]; exact h3, h4⟩
    · obtain ⟨s', h3, h4⟩ := readBranches_complete hb more s l l' ⟨fun f hf => hp.1 f (List.mem_append_right _ hf), fun name hm => hp.2.1 name (List.mem_append_right _ (List.mem_append_right _ hm)), fun h => hp.2.2 (Or.inr h)⟩ hr h
      exact ⟨s', by rw [readBranches, (hc false).mpr hx]; exact h3, h4⟩
end

theorem clean_part {t : Tree} (h : Clean t) : PartOk (fields t) (rewinds t) (fields t) (refs t) (rewinds t) :=
  ⟨fun f hf => ⟨hf, h.field f hf, fun hr => h.steps hr f hf⟩, fun name hn f hf => h.tags f hf name hn, id⟩

theorem rel_start (F : List Field) (w : World) (safe : Prop) (b : Bytes) : Rel F w safe b ⟨[], 0⟩ [] := ⟨trivial, rfl, b, rfl⟩

end Verif.ArrayTree
