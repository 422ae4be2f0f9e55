import Verif.ArrayTree.Safe
/-!
# The verdict does not change when more data come
-/
namespace Verif.ArrayTree
open Verif Endian Msg Types Types.Spec Spec

/-- With less data (`x`) the answer is to wait, or it is the one which is given with more data (`y`); and if it is good, then `P`. -/
def Waits {α : Type} (P : α → Prop) (x y : Res α) : Prop := x = .incomplete ∨ (y = x ∧ ∀ a, x = .ok a → P a)

theorem waits_bind {α β : Type} {P : α → Prop} {Q : β → Prop} {x y : Res α} {f g : α → Res β} (h : Waits P x y) (hf : ∀ a, P a → Waits Q (f a) (g a)) : Waits Q (x.bind f) (y.bind g) := by
  rcases h with h | ⟨h, hP⟩
  · rw [h]; exact Or.inl rfl
  · rw [h]
    cases x with
    | ok a => exact hf a (hP a rfl)
    | incomplete => exact Or.inl rfl
    | soft => exact Or.inr ⟨rfl, fun _ h => (nomatch h)⟩
    | bug => exact Or.inr ⟨rfl, fun _ h => (nomatch h)⟩
    | oob => exact Or.inr ⟨rfl, fun _ h => (nomatch h)⟩

theorem waits_same {α : Type} {P : α → Prop} {x : Res α} (h : ∀ a, x = .ok a → P a) : Waits P x x := Or.inr ⟨rfl, h⟩

theorem waits_ok {α : Type} {P : α → Prop} {a : α} (h : P a) : Waits P (.ok a) (.ok a) := Or.inr ⟨rfl, fun _ e => by cases e; exact h⟩

theorem waits_soft {α : Type} {P : α → Prop} : Waits P (Res.soft : Res α) .soft := Or.inr ⟨rfl, fun _ h => (nomatch h)⟩
theorem waits_bug {α : Type} {P : α → Prop} : Waits P (Res.bug : Res α) .bug := Or.inr ⟨rfl, fun _ h => (nomatch h)⟩

theorem waits_ite {α : Type} {P : α → Prop} {c : Prop} [Decidable c] {x y x' y' : Res α} (h1 : c → Waits P x x') (h2 : ¬ c → Waits P y y') : Waits P (if c then x else y) (if c then x' else y') := by
  by_cases h : c
  · rw [if_pos h, if_pos h]; exact h1 h
  · rw [if_neg h, if_neg h]; exact h2 h

theorem importInt_waits (le big : Bool) (n k : UInt32) (s : Bool) (b c : Bytes) (h1 : 1 ≤ n.toNat) (h8 : n.toNat ≤ 8) :
    Waits (fun x : Bytes × UInt32 => x.2.toNat ≤ b.length) (importInt le big n k (flagsOf s) b) (importInt le big n k (flagsOf s) (b ++ c)) := by
  by_cases hk : k.toNat < 2 ^ 29
  · cases he : importInt le big n k (flagsOf s) b with
    | ok e =>
      obtain ⟨d, u⟩ := e
      obtain ⟨p, r, hp, hu, hi⟩ := (importInt_iff h1 h8 hk b d u).mp he
      rw [(importInt_iff h1 h8 hk (b ++ c) d u).mpr ⟨p, r ++ c, by rw [hp, List.append_assoc], hu, hi⟩]
      exact waits_ok (by simp only [hu]; rw [hp, List.length_append]; omega)
    | incomplete => exact Or.inl rfl
    | soft =>
      obtain ⟨h2, h3⟩ := import_ints_partial le big n k (flagsOf s) b h1 h8 hk
      by_cases hl : b.length < k.toNat * n.toNat
      · rw [h2 hl] at he; cases he
      · obtain ⟨_, _, _, h4, _⟩ := h3 (by omega); rw [h4] at he; cases he
    | bug => exact absurd he (importInt_fine h1 h8 hk).1
    | oob => exact absurd he (importInt_fine h1 h8 hk).2
  · by_cases hl : k.toNat * n.toNat % 2 ^ 32 ≤ b.length
    · rw [import_overflow le big n k (flagsOf s) b h1 h8 (by omega) hl, import_overflow le big n k (flagsOf s) (b ++ c) h1 h8 (by omega) (by rw [List.length_append]; omega)]
      exact waits_same fun _ h => (nomatch h)
    · left
      unfold importInt
      rw [if_neg (by omega)]
      simp only
      rw [if_pos (by rw [UInt32.toNat_mul]; omega)]

theorem take_append_le {b c : Bytes} {m : Nat} (h : m ≤ b.length) : (b ++ c).take m = b.take m := List.take_append_of_le_length h

theorem importBlob_waits (n k : UInt32) (b c : Bytes) : Waits (fun x : Bytes × Nat => x.2 ≤ b.length) (importBlob n k b) (importBlob n k (b ++ c)) := by
  unfold importBlob
  simp only
  by_cases h : (n * k).toNat > b.length
  · rw [if_pos h]; exact Or.inl rfl
  · rw [if_neg h, if_neg (by rw [List.length_append]; omega), take_append_le (by omega)]
    exact waits_ok (by show _ ≤ _; omega)

theorem importChars_waits (valid : UInt8 → Bool) (n k : UInt32) (b c : Bytes) : Waits (fun x : Bytes × Nat => x.2 ≤ b.length) (importChars valid n k b) (importChars valid n k (b ++ c)) := by
  unfold importChars
  simp only
  by_cases h : (n * k).toNat > b.length
  · rw [if_pos h]; exact Or.inl rfl
  · rw [if_neg h, if_neg (show ¬ (n * k).toNat > (b ++ c).length by rw [List.length_append]; omega), take_append_le (by omega)]
    exact waits_ite (fun _ => waits_ok (by show (n * k).toNat ≤ b.length; omega)) fun _ => waits_soft

theorem collect_waits (s : Bool) (c : Bytes) : ∀ (b : Bytes) (k : Nat), Waits (fun t => t.length ≤ b.length) (collect s k b) (collect s k (b ++ c))
  | [], _ => Or.inl rfl
  | x :: b, k => by
    rw [List.cons_append, collect, collect]
    refine waits_ite (fun _ => waits_ite (fun _ => waits_soft) fun _ => waits_bind (collect_waits s c b (k + 1)) fun t ht => waits_ok ?_) fun _ => waits_ok ?_
    · simp only [List.length_cons]; omega
    · simp

theorem takeWhile_append {α : Type} (P : α → Bool) (b c : List α) : (b.takeWhile P).length = b.length ∨ (b ++ c).takeWhile P = b.takeWhile P := by
  induction b with
  | nil => exact Or.inl rfl
  | cons x b ih =>
    rw [List.cons_append, List.takeWhile_cons, List.takeWhile_cons]
    by_cases h : P x = true
    · rw [if_pos h, if_pos h]
      rcases ih with ih | ih
      · left; simp [ih]
      · right; rw [ih]
    · rw [if_neg h, if_neg h]; exact Or.inr rfl

theorem takeWhile_length_le {α : Type} (P : α → Bool) (b : List α) : (b.takeWhile P).length ≤ b.length := by
  induction b with
  | nil => exact Nat.le_refl _
  | cons x b ih =>
    rw [List.takeWhile_cons]
    split
    · simp only [List.length_cons]; omega
    · simp

theorem importNum_waits (s : Bool) (b c : Bytes) : Waits (fun x : UInt64 × Nat => x.2 ≤ b.length) (importNum s b) (importNum s (b ++ c)) := by
  unfold importNum
  by_cases hb : b = []
  · rw [if_pos hb]; exact Or.inl rfl
  · rw [if_neg hb, if_neg (by simp [hb])]
    simp only
    rcases takeWhile_append (fun c => c == 32 || c == 9) b c with h | h
    · rw [h, List.drop_length]; exact Or.inl rfl
    · rw [h]
      have hle := takeWhile_length_le (fun c : UInt8 => c == 32 || c == 9) b
      rw [List.drop_append_of_le_length hle]
      refine waits_bind (collect_waits s c _ 0) fun t ht => waits_ite (fun _ => waits_soft) fun _ => ?_
      cases convert s t with
      | none => exact waits_soft
      | some x =>
        refine waits_ok ?_
        rw [List.length_drop] at ht
        show _ ≤ _
        omega

theorem importNsep_waits (b c : Bytes) : Waits (fun x : Bytes × Nat => x.2 ≤ b.length) (importNsep b) (importNsep (b ++ c)) := by
  unfold importNsep
  simp only
  have hle := takeWhile_length_le (fun c => !isEnd c) b
  by_cases h0 : (b.takeWhile fun c => !isEnd c).length = b.length
  · rw [if_pos h0]; exact Or.inl rfl
  · rcases takeWhile_append (fun c => !isEnd c) b c with h | h
    · exact absurd h h0
    · rw [h, if_neg h0, if_neg (show ¬ (b.takeWhile fun c => !isEnd c).length = (b ++ c).length by rw [List.length_append]; omega)]
      exact waits_ite (fun _ => waits_soft) fun _ => waits_ok (P := fun x : Bytes × Nat => x.2 ≤ b.length) hle

theorem strScan_append (c : Bytes) : ∀ (b : Bytes) (prev : Bool) (k : Nat), strScan prev b = some k → strScan prev (b ++ c) = some k ∧ k < b.length
  | [], _, _, h => by cases h
  | x :: b, prev, k, h => by
    rw [strScan] at h
    rw [List.cons_append, strScan]
    by_cases hq : (!prev && x == 0x22) = true
    · rw [if_pos hq] at h ⊢; cases h; exact ⟨rfl, by simp⟩
    · rw [if_neg hq] at h ⊢
      obtain ⟨j, hj, rfl⟩ := Option.map_eq_some_iff.mp h
      obtain ⟨h1, h2⟩ := strScan_append c b _ j hj
      rw [h1]; exact ⟨rfl, by simp only [List.length_cons]; omega⟩

theorem strImport_waits (b c : Bytes) (hl : (b ++ c).length < 2 ^ 32) : Waits (fun x : Bytes × Nat => x.2 ≤ b.length) (strImport b) (strImport (b ++ c)) := by
  have hb : b.length < 2 ^ 32 := by rw [List.length_append] at hl; omega
  unfold strImport
  rw [Nat.mod_eq_of_lt hb, Nat.mod_eq_of_lt hl, List.take_length, List.take_length]
  have key : Waits (fun n => n ≤ b.length ∧ 2 ≤ n) (strImportLength b) (strImportLength (b ++ c)) := by
    unfold strImportLength
    cases b with
    | nil => exact Or.inl rfl
    | cons x t =>
      simp only [List.cons_append]
      refine waits_ite (fun _ => waits_soft) fun _ => ?_
      cases hs : strScan false t with
      | none => exact Or.inl rfl
      | some k =>
        obtain ⟨h1, h2⟩ := strScan_append c t false k hs
        rw [h1]
        exact waits_ok ⟨by simp only [List.length_cons]; omega, by omega⟩
  refine waits_bind key fun n hn => ?_
  rw [if_neg (by omega), if_neg (by rw [List.length_append]; omega)]
  rw [List.drop_append_of_le_length (by omega), List.take_append_of_le_length (by rw [List.length_drop]; omega)]
  exact waits_ok hn.1

theorem importHdlc_waits (b c : Bytes) : Waits (fun x : Bytes × Nat => x.2 ≤ b.length) (importHdlc b) (importHdlc (b ++ c)) := by
  unfold importHdlc
  rw [Hdlc.parseFrame_append b Hdlc.init c (by simp [Hdlc.init])]
  rcases hp : Hdlc.parseFrame Hdlc.init b with ⟨r, s, rest⟩
  cases r with
  | incomplete => exact Or.inl rfl
  | softError => exact waits_soft
  | ok =>
    simp only
    rw [show (b ++ c).length - (rest ++ c).length = b.length - rest.length by simp only [List.length_append]; omega]
    exact waits_ok (by show _ ≤ _; omega)

theorem importField_waits (w : World) (ty : Ty) (sgn : Bool) (tag : Bytes) (n k : UInt32) (b c : Bytes) (hfixp : ty ≠ .fixp) (hmsg : ty ≠ .msg)
    (hn : 1 ≤ n.toNat ∨ longest ty = 0) (hlong : n.toNat ≤ longest ty) (hl : (b ++ c).length < 2 ^ 32) :
    Waits (fun x : Item × Nat => x.2 ≤ b.length) (importField w ty sgn tag n k b) (importField w ty sgn tag n k (b ++ c)) := by
  cases ty with
  | err => exact waits_soft
  | msg => exact absurd rfl hmsg
  | fixp => exact absurd rfl hfixp
  | be => exact waits_bind (importInt_waits _ _ _ _ _ _ _ (by simpa [longest] using hn) hlong) fun _ h => waits_ok h
  | le => exact waits_bind (importInt_waits _ _ _ _ _ _ _ (by simpa [longest] using hn) hlong) fun _ h => waits_ok h
  | h => exact waits_bind (importInt_waits _ _ _ _ _ _ _ (by simpa [longest] using hn) hlong) fun _ h => waits_ok h
  | blob => exact waits_bind (importBlob_waits _ _ _ _) fun _ h => waits_ok h
  | sep => exact waits_bind (importChars_waits _ _ _ _ _) fun _ h => waits_ok h
  | stx => exact waits_bind (importChars_waits _ _ _ _ _) fun _ h => waits_ok h
  | ustr => exact waits_ite (fun _ => waits_bug) fun _ => waits_bind (importNum_waits _ _ _) fun _ h => waits_ok h
  | istr => exact waits_ite (fun _ => waits_bug) fun _ => waits_bind (importNum_waits _ _ _) fun _ h => waits_ok h
  | nsep => exact waits_ite (fun _ => waits_bug) fun _ => waits_bind (importNsep_waits _ _) fun _ h => waits_ok h
  | str => exact waits_ite (fun _ => waits_bug) fun _ => waits_bind (strImport_waits _ _ hl) fun _ h => waits_ok h
  | hdlc => exact waits_bind (importHdlc_waits _ _) fun _ h => waits_ok h
  | vain => exact waits_ok (Nat.zero_le _)

theorem readField_waits (w : World) (b c : Bytes) (f : Field) (s : St) (hs : s.pos ≤ b.length) (hfixp : f.ty ≠ .fixp) (hmsg : f.ty ≠ .msg) (hl : (b ++ c).length < 2 ^ 32) :
    Waits (fun s' : St => s'.pos ≤ b.length) (readField w b f s) (readField w (b ++ c) f s) := by
  unfold readField
  refine waits_bind (P := fun _ => True) (waits_same fun _ _ => trivial) fun n _ => waits_bind (P := fun _ => True) (waits_same fun _ _ => trivial) fun k _ => ?_
  refine waits_ite (fun _ => waits_soft) fun h1 => waits_ite (fun _ => waits_soft) fun h2 => waits_ite (fun _ => waits_soft) fun h3 => ?_
  rw [List.drop_append_of_le_length hs]
  have hn1 : 1 ≤ n.toNat ∨ longest f.ty = 0 := by
    rw [longest_eq]
    by_cases hz : maxLength f.ty = 0
    · exact Or.inr hz
    · left
      have : n.toNat ≠ 0 := fun h => h1 ⟨UInt32.toNat.inj h, hz⟩
      omega
  refine waits_bind (importField_waits w f.ty f.signed f.tag n k (b.drop s.pos) c hfixp hmsg hn1 (by rw [longest_eq]; omega) ?_) fun x hx => waits_ite (fun _ => waits_bug) fun _ => waits_ok ?_
  · simp only [List.length_append, List.length_drop] at hl ⊢; omega
  · rw [List.length_drop] at hx
    show _ ≤ _
    simp only
    omega

theorem rewindLoop_pos : ∀ (k total : Nat) (s s' : St), rewindLoop k total s = .ok s' → s'.pos ≤ s.pos
  | 0, _, s, s', h => by cases h; exact Nat.le_refl _
  | k + 1, total, ⟨[], pos⟩, s', h => by cases h
  | k + 1, total, ⟨i :: r, pos⟩, s', h => by
    rw [rewindLoop] at h
    simp only at h
    split at h
    · cases h
    · split at h
      · cases h
      · have := rewindLoop_pos k _ _ _ h
        simp only at this ⊢
        omega

mutual
theorem readTree_waits (w : World) (b c : Bytes) (hl : (b ++ c).length < 2 ^ 32) : ∀ (t : Tree) (s : St), s.pos ≤ b.length → (∀ f ∈ fields t, f.ty ≠ .fixp ∧ f.ty ≠ .msg) →
    Waits (fun s' : St => s'.pos ≤ b.length) (readTree w b t s) (readTree w (b ++ c) t s)
  | .nil, s, hs, _ => by rw [readTree, readTree]; exact waits_ok hs
  | .field f rest, s, hs, hf => by
    rw [readTree, readTree]
    rw [fields] at hf
    obtain ⟨h1, h2⟩ := hf f (List.mem_cons_self ..)
    exact waits_bind (readField_waits w b c f s hs h1 h2 hl) fun s' hs' => readTree_waits w b c hl rest s' hs' fun g hg => hf g (List.mem_cons_of_mem _ hg)
  | .rewind n rest, s, hs, hf => by
    rw [readTree, readTree]
    rw [fields] at hf
    refine waits_bind (waits_same (P := fun s' : St => s'.pos ≤ b.length) fun s' h => ?_) fun s' hs' => readTree_waits w b c hl rest s' hs' hf
    unfold rewind at h
    split at h
    · cases h
    · have := rewindLoop_pos _ _ _ _ h; omega
  | .cond bs rest, s, hs, hf => by
    rw [readTree, readTree]
    rw [fields] at hf
    exact waits_bind (readBranches_waits w b c hl bs s hs fun f h => hf f (List.mem_append_left _ h)) fun s' hs' => readTree_waits w b c hl rest s' hs' fun f h => hf f (List.mem_append_right _ h)
theorem readBranches_waits (w : World) (b c : Bytes) (hl : (b ++ c).length < 2 ^ 32) : ∀ (bs : Branches) (s : St), s.pos ≤ b.length → (∀ f ∈ fieldsOf bs, f.ty ≠ .fixp ∧ f.ty ≠ .msg) →
    Waits (fun s' : St => s'.pos ≤ b.length) (readBranches w b bs s) (readBranches w (b ++ c) bs s)
  | .none, s, hs, _ => by rw [readBranches, readBranches]; exact waits_ok hs
  | .els t, s, hs, hf => by
    rw [readBranches, readBranches]
    rw [fieldsOf] at hf
    exact readTree_waits w b c hl t s hs hf
  | .arm cd t more, s, hs, hf => by
    rw [readBranches, readBranches]
    rw [fieldsOf] at hf
    refine waits_bind (P := fun _ => True) (waits_same fun _ _ => trivial) fun x _ => waits_ite (fun _ => ?_) fun _ => ?_
    · exact readTree_waits w b c hl t s hs fun f h => hf f (List.mem_append_left _ h)
    · exact readBranches_waits w b c hl more s hs fun f h => hf f (List.mem_append_right _ h)
end

end Verif.ArrayTree
