import Verif.Utf8.Model
import Verif.Utf8.Spec
/-!
# Helper lemmas for the UTF-8 validator
-/
namespace Verif.Utf8
open Verif Spec

theorem or2 (a b : Nat) (hb : b < 64) : (a <<< 6) ||| b = a * 64 + b := by
  rw [← Nat.shiftLeft_add_eq_or_of_lt (i := 6) (by simpa using hb), Nat.shiftLeft_eq]

theorem or3 (a b c : Nat) (hb : b < 64) (hc : c < 64) :
    (a <<< 12) ||| (b <<< 6) ||| c = a * 4096 + b * 64 + c := by
  have h1 : (a <<< 12) ||| (b <<< 6) = (a * 64 + b) <<< 6 := by
    rw [← Nat.shiftLeft_add_eq_or_of_lt (i := 12)]
    · simp only [Nat.shiftLeft_eq]; omega
    · simp only [Nat.shiftLeft_eq]; omega
  rw [h1, or2 _ _ hc]; omega

theorem or4 (a b c d : Nat) (hb : b < 64) (hc : c < 64) (hd : d < 64) :
    (a <<< 18) ||| (b <<< 12) ||| (c <<< 6) ||| d = a * 262144 + b * 4096 + c * 64 + d := by
  have h1 : (a <<< 18) ||| (b <<< 12) = (a * 64 + b) <<< 12 := by
    rw [← Nat.shiftLeft_add_eq_or_of_lt (i := 18)]
    · simp only [Nat.shiftLeft_eq]; omega
    · simp only [Nat.shiftLeft_eq]; omega
  rw [h1, or3 _ _ _ hc hd]; omega

theorem and1F (c : Nat) : c &&& 0x1F = c % 32 := Nat.and_two_pow_sub_one_eq_mod c 5
theorem and3F (c : Nat) : c &&& 0x3F = c % 64 := Nat.and_two_pow_sub_one_eq_mod c 6
theorem and0F (c : Nat) : c &&& 0x0F = c % 16 := Nat.and_two_pow_sub_one_eq_mod c 4
theorem and07 (c : Nat) : c &&& 0x07 = c % 8 := Nat.and_two_pow_sub_one_eq_mod c 3

theorem encodeChar_ne_nil (n : Nat) : encodeChar n ≠ [] := by
  unfold encodeChar; repeat' split
  all_goals simp

/-- A successfully parsed character is a scalar value whose encoding was read. -/
theorem getCharacter_sound {s : Bytes} {r : Nat} {rest : Bytes} (hs : s ≠ [])
    (h : getCharacter s = some (r, rest)) :
    IsScalar r ∧ s.map UInt8.toNat = encodeChar r ++ rest.map UInt8.toNat := by
  unfold getCharacter at h
  split at h
  · contradiction
  next c t =>
    have hc : c.toNat < 256 := c.toNat_lt
    split at h
    · simp only [Option.some.injEq, Prod.mk.injEq] at h
      obtain ⟨rfl, rfl⟩ := h
      refine ⟨Or.inl (by omega), ?_⟩
      rw [encodeChar, if_pos (by omega)]; rfl
    · unfold getCharacterContinue at h
      split at h
      · contradiction
      next d t =>
        have hd : d.toNat < 256 := d.toNat_lt
        simp only at h
        split at h
        next hcond =>
          simp only [Option.some.injEq, Prod.mk.injEq] at h
          obtain ⟨h1, rfl⟩ := h
          rw [and1F, and3F, or2 _ _ (Nat.mod_lt _ (by decide))] at h1
          refine ⟨Or.inl (by omega), ?_⟩
          rw [encodeChar, if_neg (by omega), if_pos (by omega)]
          simp only [List.map_cons, List.cons_append, List.nil_append, List.cons.injEq]
          refine ⟨by omega, by omega, trivial⟩
        next hcond =>
          split at h
          · contradiction
          next e t =>
            have he : e.toNat < 256 := e.toNat_lt
            split at h
            next hcond2 =>
              simp only [Option.some.injEq, Prod.mk.injEq] at h
              obtain ⟨h1, rfl⟩ := h
              rw [and0F, and3F, and3F, or3 _ _ _ (Nat.mod_lt _ (by decide)) (Nat.mod_lt _ (by decide))] at h1
              refine ⟨by unfold IsScalar; omega, ?_⟩
              rw [encodeChar, if_neg (by omega), if_neg (by omega), if_pos (by omega)]
              simp only [List.map_cons, List.cons_append, List.nil_append, List.cons.injEq]
              refine ⟨by omega, by omega, by omega, trivial⟩
            next hcond2 =>
              split at h
              · contradiction
              next f t =>
                have hf : f.toNat < 256 := f.toNat_lt
                split at h
                next hcond3 =>
                  simp only [Option.some.injEq, Prod.mk.injEq] at h
                  obtain ⟨h1, rfl⟩ := h
                  rw [and07, and3F, and3F, and3F, or4 _ _ _ _ (Nat.mod_lt _ (by decide))
                    (Nat.mod_lt _ (by decide)) (Nat.mod_lt _ (by decide))] at h1
                  refine ⟨by unfold IsScalar; omega, ?_⟩
                  rw [encodeChar, if_neg (by omega), if_neg (by omega), if_neg (by omega)]
                  simp only [List.map_cons, List.cons_append, List.nil_append, List.cons.injEq]
                  refine ⟨by omega, by omega, by omega, by omega, trivial⟩
                next => contradiction

/-- Reading the encoding of a scalar value returns it and leaves the rest. -/
theorem getCharacter_complete {s : Bytes} {r : Nat} {rest : Bytes} (hr : IsScalar r)
    (h : s.map UInt8.toNat = encodeChar r ++ rest.map UInt8.toNat) :
    getCharacter s = some (r, rest) := by
  have inj : ∀ {a b : Bytes}, a.map UInt8.toNat = b.map UInt8.toNat → a = b := by
    intro a b hab
    exact (List.map_inj_right (fun x y hxy => UInt8.toNat_inj.mp hxy)).mp hab
  unfold encodeChar at h
  split at h
  next h0 =>
    match s, h with
    | c :: t, h =>
      simp only [List.map_cons, List.cons_append, List.nil_append, List.cons.injEq] at h
      obtain ⟨h1, h2⟩ := h
      rw [getCharacter, if_pos (by omega), h1, inj h2]
  next h0 =>
  split at h
  next h1 =>
    match s, h with
    | [], h => simp at h
    | [_], h => simp at h
    | c :: d :: t, h =>
      simp only [List.map_cons, List.cons_append, List.nil_append, List.cons.injEq] at h
      obtain ⟨e1, e2, e3⟩ := h
      rw [getCharacter, if_neg (by omega)]
      simp only [getCharacterContinue]
      rw [if_pos (by omega), inj e3, and1F, and3F, or2 _ _ (Nat.mod_lt _ (by decide))]
      congr 2; omega
  next h1 =>
  split at h
  next h2 =>
    match s, h with
    | [], h => simp at h
    | [_], h => simp at h
    | [_, _], h => simp at h
    | c :: d :: e :: t, h =>
      simp only [List.map_cons, List.cons_append, List.nil_append, List.cons.injEq] at h
      obtain ⟨e1, e2, e3, e4⟩ := h
      unfold IsScalar at hr
      rw [getCharacter, if_neg (by omega)]
      simp only [getCharacterContinue]
      rw [if_neg (by omega)]
      rw [if_pos (by omega), inj e4, and0F, and3F, and3F, or3 _ _ _ (Nat.mod_lt _ (by decide))
        (Nat.mod_lt _ (by decide))]
      congr 2; omega
  next h2 =>
    match s, h with
    | [], h => simp at h
    | [_], h => simp at h
    | [_, _], h => simp at h
    | [_, _, _], h => simp at h
    | c :: d :: e :: f :: t, h =>
      simp only [List.map_cons, List.cons_append, List.nil_append, List.cons.injEq] at h
      obtain ⟨e1, e2, e3, e4, e5⟩ := h
      unfold IsScalar at hr
      rw [getCharacter, if_neg (by omega)]
      simp only [getCharacterContinue]
      rw [if_neg (by omega)]
      rw [if_neg (by omega)]
      rw [if_pos (by omega), inj e5, and07, and3F, and3F, and3F, or4 _ _ _ _ (Nat.mod_lt _ (by decide))
        (Nat.mod_lt _ (by decide)) (Nat.mod_lt _ (by decide))]
      congr 2; omega

/-- Every round of the loops consumes at least one byte. -/
theorem getCharacter_length {s : Bytes} {r : Nat} {rest : Bytes} (hs : s ≠ [])
    (h : getCharacter s = some (r, rest)) : rest.length < s.length := by
  have := (getCharacter_sound hs h).2
  have hl := congrArg List.length this
  simp only [List.length_map, List.length_append] at hl
  have := List.length_pos_iff.mpr (encodeChar_ne_nil r)
  omega

end Verif.Utf8
namespace Verif.Utf8
open Verif Spec

theorem encodeChar_mem_ne_zero {c b : Nat} (hc : c ≠ 0) (hb : b ∈ encodeChar c) : b ≠ 0 := by
  unfold encodeChar at hb
  repeat' split at hb
  all_goals simp only [List.mem_cons, List.not_mem_nil, or_false] at hb
  all_goals omega

theorem encode_mem_ne_zero {cs : List Nat} (hcs : ∀ c ∈ cs, c ≠ 0) {b : Nat} (hb : b ∈ encode cs) :
    b ≠ 0 := by
  unfold encode at hb
  obtain ⟨c, hc, hb⟩ := List.mem_flatMap.mp hb
  exact encodeChar_mem_ne_zero (hcs c hc) hb

/-- A text whose encoding has no zero octet has no zero character. -/
theorem char_ne_zero_of_encode {cs : List Nat} (h : ∀ b ∈ encode cs, b ≠ 0) : ∀ c ∈ cs, c ≠ 0 := by
  intro c hc h0
  subst h0
  exact h 0 (List.mem_flatMap.mpr ⟨0, hc, by simp [encodeChar]⟩) rfl

theorem iterateLoop_complete {σ : Type} (cb : σ → Nat → Option σ) :
    ∀ (cs : List Nat) (s tail : Bytes) (st : σ) (fuel : Nat),
      (∀ c ∈ cs, IsScalar c ∧ c ≠ 0) → s.map UInt8.toNat = encode cs ++ tail.map UInt8.toNat →
      (tail = [] ∨ ∃ t, tail = 0 :: t) → s.length < fuel →
      iterateLoop cb fuel s st = cs.foldlM cb st := by
  intro cs
  induction cs with
  | nil =>
    intro s tail st fuel _ hs htail hf
    obtain ⟨fuel, rfl⟩ : ∃ k, fuel = k + 1 := ⟨fuel - 1, by omega⟩
    have hs' : s = tail := (List.map_inj_right (fun x y hxy => UInt8.toNat_inj.mp hxy)).mp
      (by simpa [encode] using hs)
    subst hs'
    rcases htail with rfl | ⟨t, rfl⟩
    · simp [iterateLoop, getCharacter]
    · simp [iterateLoop, getCharacter]
  | cons c cs ih =>
    intro s tail st fuel hcs hs htail hf
    obtain ⟨fuel, rfl⟩ : ∃ k, fuel = k + 1 := ⟨fuel - 1, by omega⟩
    have hc := hcs c (by simp)
    -- split off the first character
    have hlen : s.map UInt8.toNat = encodeChar c ++ (encode cs ++ tail.map UInt8.toNat) := by
      simpa [encode, List.append_assoc] using hs
    obtain ⟨a, b, hab, ha, hb⟩ := List.map_eq_append_iff.mp hlen
    have hg : getCharacter s = some (c, b) := by
      apply getCharacter_complete hc.1
      rw [hlen, hb]
    have hs0 : s ≠ [] := by
      rintro rfl
      exact encodeChar_ne_nil c (List.append_eq_nil_iff.mp hlen.symm).1
    have hl := getCharacter_length hs0 hg
    simp only [iterateLoop, hg, hc.2, if_false, List.foldlM_cons]
    cases hcb : cb st c with
    | none => rfl
    | some st' =>
      simp only [Option.bind_eq_bind, Option.bind_some]
      exact ih b tail st' fuel (fun x hx => hcs x (by simp [hx])) hb htail (by omega)

theorem iterateLoop_sound {σ : Type} (cb : σ → Nat → Option σ) :
    ∀ (fuel : Nat) (s : Bytes) (st st' : σ), iterateLoop cb fuel s st = some st' →
      ∃ (cs : List Nat) (tail : Bytes), (∀ c ∈ cs, IsScalar c ∧ c ≠ 0) ∧
        s.map UInt8.toNat = encode cs ++ tail.map UInt8.toNat ∧
        (tail = [] ∨ ∃ t, tail = 0 :: t) := by
  intro fuel
  induction fuel with
  | zero => intro s st st' h; simp [iterateLoop] at h
  | succ fuel ih =>
    intro s st st' h
    cases hs : s with
    | nil => exact ⟨[], [], by simp, by simp [encode], Or.inl rfl⟩
    | cons x t =>
      rw [← hs]
      have hs0 : s ≠ [] := by simp [hs]
      unfold iterateLoop at h
      cases hg : getCharacter s with
      | none => simp [hg] at h
      | some p =>
        obtain ⟨r, rest⟩ := p
        obtain ⟨hsc, hmap⟩ := getCharacter_sound hs0 hg
        simp only [hg] at h
        by_cases hr : r = 0
        · refine ⟨[], s, by simp, by simp [encode], Or.inr ⟨t, ?_⟩⟩
          subst hr
          rw [hs] at hmap ⊢
          have : x.toNat = 0 := by
            have := congrArg List.head? hmap
            simpa [encodeChar] using this
          rw [show x = 0 from UInt8.toNat_inj.mp this]
        · rw [if_neg hr] at h
          cases hcb : cb st r with
          | none => simp [hcb] at h
          | some st2 =>
            simp only [hcb] at h
            obtain ⟨cs, tail, h1, h2, h3⟩ := ih rest st2 st' h
            refine ⟨r :: cs, tail, ?_, ?_, h3⟩
            · intro c hc
              rcases List.mem_cons.mp hc with rfl | hc
              · exact ⟨hsc, hr⟩
              · exact h1 c hc
            · rw [hmap, h2]; simp [encode, List.append_assoc]

theorem validateLoop_eq_iterate : ∀ (fuel : Nat) (s : Bytes),
    validateLoop fuel s = (iterateLoop (fun (_ : Unit) _ => some ()) fuel s ()).isSome := by
  intro fuel
  induction fuel with
  | zero => intro s; rfl
  | succ fuel ih =>
    intro s
    unfold validateLoop iterateLoop
    cases getCharacter s with
    | none => rfl
    | some p =>
      obtain ⟨r, rest⟩ := p
      simp only
      split
      · rfl
      · exact ih rest

/-- A decomposition "encoded nonzero text, then end or NUL" is the decomposition
at the first NUL byte. -/
theorem takeWhile_of_decomp {s tail : Bytes} {cs : List Nat} (hcs : ∀ c ∈ cs, c ≠ 0)
    (h : s.map UInt8.toNat = encode cs ++ tail.map UInt8.toNat)
    (ht : tail = [] ∨ ∃ t, tail = 0 :: t) :
    (s.takeWhile (· ≠ 0)).map UInt8.toNat = encode cs := by
  obtain ⟨a, b, rfl, ha, hb⟩ := List.map_eq_append_iff.mp h
  have hb' : b = tail := (List.map_inj_right (fun x y hxy => UInt8.toNat_inj.mp hxy)).mp hb
  subst hb'
  have hall : ∀ x ∈ a, (x ≠ 0) := by
    intro x hx h0
    have : x.toNat ∈ encode cs := ha ▸ List.mem_map_of_mem hx
    exact encode_mem_ne_zero hcs this (by rw [h0]; rfl)
  rw [List.takeWhile_append_of_pos (by simpa using hall)]
  rcases ht with rfl | ⟨t, rfl⟩
  · simpa using ha
  · simpa using ha

theorem decomp_of_takeWhile {s : Bytes} {cs : List Nat}
    (h : (s.takeWhile (· ≠ 0)).map UInt8.toNat = encode cs) :
    ∃ tail : Bytes, (∀ c ∈ cs, c ≠ 0) ∧ s.map UInt8.toNat = encode cs ++ tail.map UInt8.toNat ∧
      (tail = [] ∨ ∃ t, tail = 0 :: t) := by
  refine ⟨s.dropWhile (· ≠ 0), ?_, ?_, ?_⟩
  · apply char_ne_zero_of_encode
    intro b hb h0
    rw [← h] at hb
    obtain ⟨x, hx, rfl⟩ := List.mem_map.mp hb
    have := List.all_takeWhile (p := fun x : UInt8 => decide (x ≠ 0)) (l := s)
    rw [List.all_eq_true] at this
    have := this x hx
    simp only [decide_eq_true_eq] at this
    exact this (UInt8.toNat_inj.mp h0)
  · rw [← h, ← List.map_append, List.takeWhile_append_dropWhile]
  · cases hd : s.dropWhile (· ≠ 0) with
    | nil => exact Or.inl rfl
    | cons x t =>
      right
      have := List.head_dropWhile_not (fun x : UInt8 => decide (x ≠ 0)) (l := s) (by rw [hd]; simp)
      simp only [hd, List.head_cons, decide_eq_false_iff_not, ne_eq, Classical.not_not] at this
      exact ⟨t, by rw [this]⟩

end Verif.Utf8
