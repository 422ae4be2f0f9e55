import Verif.ArrayTree.Texts
/-!
# Reading with a definition is what the specification says
-/
namespace Verif.ArrayTree
open Verif Endian Msg Types Types.Spec Spec

theorem longest_eq (ty : Ty) : longest ty = maxLength ty := by cases ty <;> rfl

theorem flag_eq (s : Bool) : flag s = flagsOf s := rfl

/-- `import_length` of a value which has been read from `p`. -/
def ilenOf (ty : Ty) (n : UInt32) (p : Bytes) : UInt32 :=
  match ty with
  | .ustr | .istr | .fixp => 0
  | .nsep | .str => UInt32.ofNat p.length
  | _ => n

theorem pair_eq {α β : Type} {a a' : α} {b b' : β} (h : (a, b) = (a', b')) : a = a' ∧ b = b' := by cases h; exact ⟨rfl, rfl⟩

theorem hostBytes_meaning {w : World} {sgn : Bool} {m : Int} {d : Bytes} : Integer w sgn m d ↔ ∃ x, d = hostBytes w.le x ∧ meaning sgn x = m := Iff.rfl

/-- Importing a field: exactly what the specification says. -/
theorem importField_iff (w : World) (ty : Ty) (sgn : Bool) (tag : Bytes) (n k : UInt32) (b : Bytes) (i : Item) (u : Nat)
    (hn : 1 ≤ n.toNat ∨ longest ty = 0) (hlong : n.toNat ≤ longest ty) (hk : 1 ≤ k.toNat) (hone : longest ty = 0 → k = 1)
    (hnk : longest ty ≠ 0 → n.toNat * k.toNat < 2 ^ 32 ∧ k.toNat < 2 ^ 29) (hb : b.length < 2 ^ 32) :
    (importField w ty sgn tag n k b = .ok (i, u) ∧ ¬ (u = 0 ∧ ty ≠ .vain)) ↔
      ∃ p r, b = p ++ r ∧ u = p.length ∧ Reads w ty sgn tag n.toNat k.toNat p r i.v ∧ i.ilen = ilenOf ty n p := by
  have hku : UInt32.ofNat k.toNat = k := UInt32.ofNat_toNat
  obtain ⟨v, il⟩ := i
  have intCase : ∀ big, (1 ≤ n.toNat) → n.toNat ≤ 8 → k.toNat < 2 ^ 29 →
      ((((importInt w.le big n k (flagsOf sgn) b).bind fun x => Res.ok ((⟨⟨.h, flagsOf sgn, tag, k, x.1, []⟩, n⟩ : Item), x.2.toNat)) = .ok (⟨v, il⟩, u) ∧ u ≠ 0) ↔
      ∃ p r, b = p ++ r ∧ u = p.length ∧ (∃ d, v = ⟨.h, flag sgn, tag, UInt32.ofNat k.toNat, d, []⟩ ∧ Integers w.le big sgn n.toNat k.toNat p d) ∧ il = n) := by
    intro big h1 h8 hk29
    rw [hku]
    constructor
    · rintro ⟨e, hu⟩
      obtain ⟨⟨d, u'⟩, e1, e2⟩ := bind_eq_ok e
      cases e2
      obtain ⟨p, r, hp, hl, hi⟩ := (importInt_iff h1 h8 hk29 b d u').mp e1
      exact ⟨p, r, hp, hl, ⟨d, rfl, hi⟩, rfl⟩
    · rintro ⟨p, r, hp, hl, ⟨d, rfl, hi⟩, rfl⟩
      have hlt : p.length < 2 ^ 32 := by rw [hp, List.length_append] at hb; omega
      have e1 := (importInt_iff h1 h8 hk29 b d (UInt32.ofNat p.length)).mpr ⟨p, r, hp, by rw [UInt32.toNat_ofNat']; exact Nat.mod_eq_of_lt hlt, hi⟩
      rw [e1]
      refine ⟨?_, ?_⟩
      · simp only [Res.bind, UInt32.toNat_ofNat', Nat.mod_eq_of_lt hlt, hl]; rfl
      · rw [hl, hi.1]; exact Nat.mul_ne_zero (by omega) (by omega)
  cases ty with
  | err => simp [importField, Reads]
  | be =>
    have := intCase true (by simpa [longest] using hn) hlong (hnk (by simp [longest])).2
    simpa [importField, Reads, ilenOf] using this
  | le =>
    have := intCase false (by simpa [longest] using hn) hlong (hnk (by simp [longest])).2
    simpa [importField, Reads, ilenOf] using this
  | h =>
    have := intCase (!w.le) (by simpa [longest] using hn) hlong (hnk (by simp [longest])).2
    simpa [importField, Reads, ilenOf, importHost] using this
  | blob =>
    obtain ⟨hnk, _⟩ := hnk (by simp [longest])
    have hn1 : 1 ≤ n.toNat := by simpa [longest] using hn
    have hz : n.toNat * k.toNat ≠ 0 := Nat.mul_ne_zero (by omega) (by omega)
    simp only [importField, Reads, ilenOf, hku]
    constructor
    · rintro ⟨e, hu⟩
      obtain ⟨⟨d, u'⟩, e1, e2⟩ := bind_eq_ok e
      cases e2
      obtain ⟨p, r, hp, hl, hlen, rfl⟩ := (importBlob_iff hnk b d u').mp e1
      exact ⟨d, r, hp, hl, ⟨rfl, hlen⟩, rfl⟩
    · rintro ⟨p, r, hp, hl, ⟨rfl, hlen⟩, rfl⟩
      rw [(importBlob_iff hnk b p u).mpr ⟨p, r, hp, hl, hlen, rfl⟩]
      refine ⟨rfl, fun h => ?_⟩
      omega
  | sep =>
    obtain ⟨hnk, _⟩ := hnk (by simp [longest])
    have hn1 : 1 ≤ n.toNat := by simpa [longest] using hn
    have hz : n.toNat * k.toNat ≠ 0 := Nat.mul_ne_zero (by omega) (by omega)
    simp only [importField, Reads, ilenOf, hku]
    constructor
    · rintro ⟨e, hu⟩
      obtain ⟨⟨d, u'⟩, e1, e2⟩ := bind_eq_ok e
      cases e2
      obtain ⟨p, r, hp, hl, hlen, hall, rfl⟩ := (importChars_iff hnk b d u').mp e1
      exact ⟨d, r, hp, hl, ⟨rfl, hlen, fun c hc => by have := hall c hc; rw [sep_chars] at this; exact of_decide_eq_true this⟩, rfl⟩
    · rintro ⟨p, r, hp, hl, ⟨rfl, hlen, hall⟩, rfl⟩
      rw [(importChars_iff hnk b p u).mpr ⟨p, r, hp, hl, hlen, fun c hc => by rw [sep_chars]; exact decide_eq_true (hall c hc), rfl⟩]
      refine ⟨rfl, fun h => ?_⟩
      omega
  | stx =>
    obtain ⟨hnk, _⟩ := hnk (by simp [longest])
    have hn1 : 1 ≤ n.toNat := by simpa [longest] using hn
    have hz : n.toNat * k.toNat ≠ 0 := Nat.mul_ne_zero (by omega) (by omega)
    simp only [importField, Reads, ilenOf, hku]
    constructor
    · rintro ⟨e, hu⟩
      obtain ⟨⟨d, u'⟩, e1, e2⟩ := bind_eq_ok e
      cases e2
      obtain ⟨p, r, hp, hl, hlen, hall, rfl⟩ := (importChars_iff hnk b d u').mp e1
      exact ⟨d, r, hp, hl, ⟨rfl, hlen, fun c hc => by have := hall c hc; rw [stx_chars] at this; exact of_decide_eq_true this⟩, rfl⟩
    · rintro ⟨p, r, hp, hl, ⟨rfl, hlen, hall⟩, rfl⟩
      rw [(importChars_iff hnk b p u).mpr ⟨p, r, hp, hl, hlen, fun c hc => by rw [stx_chars]; exact decide_eq_true (hall c hc), rfl⟩]
      refine ⟨rfl, fun h => ?_⟩
      omega
  | ustr =>
    have hn0 : n = 0 := by apply UInt32.toNat.inj; simpa [longest] using hlong
    have hk1 := hone rfl
    subst hn0 hk1
    simp only [importField, Reads, ilenOf]
    rw [if_neg (by simp)]
    constructor
    · rintro ⟨e, hu⟩
      obtain ⟨⟨x, u'⟩, e1, e2⟩ := bind_eq_ok e
      cases e2
      obtain ⟨p, r, y, hp, hl, ht, hx⟩ := (importNum_iff false b x u').mp e1
      exact ⟨p, r, hp, hl, ⟨_, y, rfl, ht, x, rfl, hx⟩, rfl⟩
    · rintro ⟨p, r, hp, hl, ⟨d, y, rfl, ht, x, rfl, hx⟩, rfl⟩
      rw [(importNum_iff false b x u).mpr ⟨p, r, y, hp, hl, ht, hx⟩]
      refine ⟨rfl, fun h => ?_⟩
      obtain ⟨spaces, sign, ds, neg, c, t, h1, h2, h3, h4, _⟩ := ht
      apply h4
      have : p = [] := List.length_eq_zero_iff.mp (by omega)
      rw [this] at h1
      exact (List.append_eq_nil_iff.mp (List.append_eq_nil_iff.mp h1.symm).2).2
  | istr =>
    have hn0 : n = 0 := by apply UInt32.toNat.inj; simpa [longest] using hlong
    have hk1 := hone rfl
    subst hn0 hk1
    simp only [importField, Reads, ilenOf]
    rw [if_neg (by simp)]
    constructor
    · rintro ⟨e, hu⟩
      obtain ⟨⟨x, u'⟩, e1, e2⟩ := bind_eq_ok e
      cases e2
      obtain ⟨p, r, y, hp, hl, ht, hx⟩ := (importNum_iff true b x u').mp e1
      exact ⟨p, r, hp, hl, ⟨_, y, rfl, ht, x, rfl, hx⟩, rfl⟩
    · rintro ⟨p, r, hp, hl, ⟨d, y, rfl, ht, x, rfl, hx⟩, rfl⟩
      rw [(importNum_iff true b x u).mpr ⟨p, r, y, hp, hl, ht, hx⟩]
      refine ⟨rfl, fun h => ?_⟩
      obtain ⟨spaces, sign, ds, neg, c, t, h1, h2, h3, h4, _⟩ := ht
      apply h4
      have : p = [] := List.length_eq_zero_iff.mp (by omega)
      rw [this] at h1
      exact (List.append_eq_nil_iff.mp (List.append_eq_nil_iff.mp h1.symm).2).2
  | fixp =>
    have hn0 : n = 0 := by apply UInt32.toNat.inj; simpa [longest] using hlong
    have hk1 := hone rfl
    subst hn0 hk1
    simp only [importField, Reads, ilenOf]
    rw [if_neg (by simp)]
    constructor
    · rintro ⟨e, hu⟩
      obtain ⟨⟨x, u'⟩, e1, e2⟩ := bind_eq_ok e
      cases e2
      obtain ⟨p, r, hp, hl, hx, ht⟩ := (importFixp_iff w b x u').mp e1
      exact ⟨p, r, hp, hl, ⟨by rw [hx]; rfl, ht⟩, rfl⟩
    · rintro ⟨p, r, hp, hl, ⟨rfl, ht⟩, rfl⟩
      rw [(importFixp_iff w b _ u).mpr ⟨p, r, hp, hl, rfl, ht⟩]
      refine ⟨rfl, fun h => ?_⟩
      obtain ⟨pre, sign, ds, neg, c, t, h1, h2, h3, h4, h5, _⟩ := ht
      apply h5
      have : p = [] := List.length_eq_zero_iff.mp (by omega)
      rw [this] at h1
      exact (List.append_eq_nil_iff.mp (List.append_eq_nil_iff.mp h1.symm).2).2
  | nsep =>
    have hn0 : n = 0 := by apply UInt32.toNat.inj; simpa [longest] using hlong
    have hk1 := hone rfl
    subst hn0 hk1
    simp only [importField, Reads, ilenOf]
    rw [if_neg (by simp)]
    constructor
    · rintro ⟨e, hu⟩
      obtain ⟨⟨x, u'⟩, e1, e2⟩ := bind_eq_ok e
      cases e2
      obtain ⟨p, r, hp, hl, rfl, ht⟩ := (importNsep_iff b x u').mp e1
      exact ⟨x, r, hp, hl, ⟨rfl, ht⟩, by rw [hl]⟩
    · rintro ⟨p, r, hp, hl, ⟨rfl, ht⟩, rfl⟩
      rw [(importNsep_iff b p u).mpr ⟨p, r, hp, hl, rfl, ht⟩]
      refine ⟨by rw [hl]; rfl, fun h => ?_⟩
      exact ht.1 (List.length_eq_zero_iff.mp (by omega))
  | str =>
    have hn0 : n = 0 := by apply UInt32.toNat.inj; simpa [longest] using hlong
    have hk1 := hone rfl
    subst hn0 hk1
    simp only [importField, Reads, ilenOf]
    rw [if_neg (by simp)]
    constructor
    · rintro ⟨e, hu⟩
      obtain ⟨⟨x, u'⟩, e1, e2⟩ := bind_eq_ok e
      cases e2
      obtain ⟨p, r, body, hp, hl, ht, hd⟩ := (strImport_iff b x u' hb).mp e1
      exact ⟨p, r, hp, hl, ⟨x, body, rfl, ht, hd⟩, by rw [hl]⟩
    · rintro ⟨p, r, hp, hl, ⟨d, body, rfl, ht, hd⟩, rfl⟩
      rw [(strImport_iff b d u hb).mpr ⟨p, r, body, hp, hl, ht, hd⟩]
      refine ⟨by rw [hl]; rfl, fun h => ?_⟩
      rw [ht] at hl
      simp at hl
      omega
  | msg =>
    have hn0 : n = 0 := by apply UInt32.toNat.inj; simpa [longest] using hlong
    have hk1 := hone rfl
    subst hn0 hk1
    simp only [importField, Reads, ilenOf]
    rw [if_neg (by simp)]
    constructor
    · rintro ⟨e, hu⟩
      obtain ⟨⟨x, u'⟩, e1, e2⟩ := bind_eq_ok e
      cases e2
      obtain ⟨p, r, m, hp, hl, rfl, hm⟩ := (importMsg_iff b x u').mp ⟨e1, fun h => hu ⟨h, by simp⟩⟩
      exact ⟨p, r, hp, hl, ⟨m, rfl, hm⟩, rfl⟩
    · rintro ⟨p, r, hp, hl, ⟨m, rfl, hm⟩, rfl⟩
      obtain ⟨e, hu⟩ := (importMsg_iff b [m] u).mpr ⟨p, r, m, hp, hl, rfl, hm⟩
      rw [e]
      exact ⟨rfl, fun h => hu h.1⟩
  | hdlc =>
    have hn0 : n = 0 := by apply UInt32.toNat.inj; simpa [longest] using hlong
    have hk1 := hone rfl
    subst hn0 hk1
    simp only [importField, Reads, ilenOf]
    constructor
    · rintro ⟨e, hu⟩
      obtain ⟨⟨x, u'⟩, e1, e2⟩ := bind_eq_ok e
      cases e2
      obtain ⟨p, r, hp, hl, hf⟩ := (importHdlc_iff b x u').mp e1
      exact ⟨p, r, hp, hl, ⟨x, rfl, hf⟩, rfl⟩
    · rintro ⟨p, r, hp, hl, ⟨d, rfl, hf⟩, rfl⟩
      rw [(importHdlc_iff b d u).mpr ⟨p, r, hp, hl, hf⟩]
      refine ⟨rfl, fun h => ?_⟩
      obtain ⟨junk, j, body, h1, _⟩ := hf
      rw [h1] at hl
      simp at hl
      omega
  | vain =>
    have hn0 : n = 0 := by apply UInt32.toNat.inj; simpa [longest] using hlong
    have hk1 := hone rfl
    subst hn0 hk1
    simp only [importField, Reads, ilenOf]
    constructor
    · rintro ⟨e, _⟩
      cases e
      exact ⟨[], b, rfl, rfl, ⟨rfl, rfl⟩, rfl⟩
    · rintro ⟨p, r, hp, rfl, ⟨rfl, rfl⟩, rfl⟩
      exact ⟨rfl, fun h => h.2 rfl⟩

end Verif.ArrayTree
