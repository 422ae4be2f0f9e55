import Verif.ArrayTree.Trees
/-!
# Reading does not abort or leave the data, and the verdict does not change when more data come
-/
namespace Verif.ArrayTree
open Verif Endian Msg Types Types.Spec Spec

/-- The code goes on after this result. -/
def Fine {α : Type} (r : Res α) : Prop := r ≠ .bug ∧ r ≠ .oob

theorem fine_ok {α : Type} (a : α) : Fine (Res.ok a) := ⟨fun h => (nomatch h), fun h => (nomatch h)⟩
theorem fine_soft {α : Type} : Fine (Res.soft : Res α) := ⟨fun h => (nomatch h), fun h => (nomatch h)⟩
theorem fine_inc {α : Type} : Fine (Res.incomplete : Res α) := ⟨fun h => (nomatch h), fun h => (nomatch h)⟩

theorem fine_bind {α β : Type} {r : Res α} {f : α → Res β} (hr : Fine r) (hf : ∀ a, r = .ok a → Fine (f a)) : Fine (r.bind f) := by
  cases r with
  | ok a => exact hf a rfl
  | incomplete => exact fine_inc
  | soft => exact fine_soft
  | bug => exact absurd rfl hr.1
  | oob => exact absurd rfl hr.2

theorem fine_ite {α : Type} {c : Prop} [Decidable c] {a b : Res α} (ha : c → Fine a) (hb : ¬ c → Fine b) : Fine (if c then a else b) := by
  by_cases h : c
  · rw [if_pos h]; exact ha h
  · rw [if_neg h]; exact hb h

theorem collect_fine (s : Bool) : ∀ (b : Bytes) (k : Nat), Fine (collect s k b)
  | [], _ => fine_inc
  | c :: t, k => by
    rw [collect]
    exact fine_ite (fun _ => fine_ite (fun _ => fine_soft) fun _ => fine_bind (collect_fine s t _) fun _ _ => fine_ok _) fun _ => fine_ok _

theorem importNum_fine (s : Bool) (b : Bytes) : Fine (importNum s b) := by
  unfold importNum
  refine fine_ite (fun _ => fine_inc) fun _ => fine_bind (collect_fine _ _ _) fun t _ => fine_ite (fun _ => fine_soft) fun _ => ?_
  split
  · exact fine_soft
  · exact fine_ok _

theorem importFixp_fine (w : World) (b : Bytes) : Fine (importFixp w b) := by
  unfold importFixp
  split
  · exact fine_soft
  · exact fine_ite (fun _ => fine_inc) fun _ => fine_ok _

theorem importNsep_fine (b : Bytes) : Fine (importNsep b) := by
  unfold importNsep
  exact fine_ite (fun _ => fine_inc) fun _ => fine_ite (fun _ => fine_soft) fun _ => fine_ok _

theorem strImport_fine (b : Bytes) : Fine (strImport b) := by
  unfold strImport
  refine fine_bind ?_ fun _ _ => fine_ite (fun _ => fine_inc) fun _ => fine_ok _
  unfold strImportLength
  split
  · exact fine_inc
  · refine fine_ite (fun _ => fine_soft) fun _ => ?_
    split
    · exact fine_inc
    · exact fine_ok _

theorem importHdlc_fine (b : Bytes) : Fine (importHdlc b) := by
  unfold importHdlc
  split
  · exact fine_ok _
  · exact fine_inc
  · exact fine_soft

theorem importInt_fine {le big : Bool} {n k : UInt32} {fl : UInt8} {b : Bytes} (h1 : 1 ≤ n.toNat) (h8 : n.toNat ≤ 8) (hk : k.toNat < 2 ^ 29) : Fine (importInt le big n k fl b) := by
  obtain ⟨h2, h3⟩ := import_ints_partial le big n k fl b h1 h8 hk
  by_cases h : b.length < k.toNat * n.toNat
  · rw [h2 h]; exact fine_inc
  · obtain ⟨_, _, _, he, _⟩ := h3 (by omega)
    rw [he]; exact fine_ok _

theorem importField_fine (w : World) (ty : Ty) (sgn : Bool) (tag : Bytes) (n k : UInt32) (b : Bytes) (hmsg : ty ≠ .msg)
    (hn : 1 ≤ n.toNat ∨ longest ty = 0) (hlong : n.toNat ≤ longest ty) (hone : longest ty = 0 → k = 1) (hnk : longest ty ≠ 0 → k.toNat < 2 ^ 29) : Fine (importField w ty sgn tag n k b) := by
  have hn0 : longest ty = 0 → n = 0 := fun h => UInt32.toNat.inj (by rw [h] at hlong; simpa using hlong)
  cases ty with
  | err => exact fine_soft
  | msg => exact absurd rfl hmsg
  | be => exact fine_bind (importInt_fine (by simpa [longest] using hn) hlong (hnk (by simp [longest]))) fun _ _ => fine_ok _
  | le => exact fine_bind (importInt_fine (by simpa [longest] using hn) hlong (hnk (by simp [longest]))) fun _ _ => fine_ok _
  | h => exact fine_bind (importInt_fine (by simpa [longest] using hn) hlong (hnk (by simp [longest]))) fun _ _ => fine_ok _
  | blob =>
    refine fine_bind ?_ fun _ _ => fine_ok _
    exact fine_ite (fun _ => fine_inc) fun _ => fine_ok _
  | sep =>
    refine fine_bind ?_ fun _ _ => fine_ok _
    exact fine_ite (fun _ => fine_inc) fun _ => fine_ite (fun _ => fine_ok _) fun _ => fine_soft
  | stx =>
    refine fine_bind ?_ fun _ _ => fine_ok _
    exact fine_ite (fun _ => fine_inc) fun _ => fine_ite (fun _ => fine_ok _) fun _ => fine_soft
  | ustr =>
    simp only [importField]
    rw [hn0 rfl, hone rfl, if_neg (by simp)]
    exact fine_bind (importNum_fine _ _) fun _ _ => fine_ok _
  | istr =>
    simp only [importField]
    rw [hn0 rfl, hone rfl, if_neg (by simp)]
    exact fine_bind (importNum_fine _ _) fun _ _ => fine_ok _
  | fixp =>
    simp only [importField]
    rw [hn0 rfl, hone rfl, if_neg (by simp)]
    exact fine_bind (importFixp_fine _ _) fun _ _ => fine_ok _
  | nsep =>
    simp only [importField]
    rw [hn0 rfl, hone rfl, if_neg (by simp)]
    exact fine_bind (importNsep_fine _) fun _ _ => fine_ok _
  | str =>
    simp only [importField]
    rw [hn0 rfl, hone rfl, if_neg (by simp)]
    exact fine_bind (strImport_fine _) fun _ _ => fine_ok _
  | hdlc => exact fine_bind (importHdlc_fine _) fun _ _ => fine_ok _
  | vain => exact fine_ok _

theorem numText_nonempty {s : Bool} {p r : Bytes} {y : Int} (h : NumText s p r y) : p.length ≠ 0 := by
  obtain ⟨spaces, sign, ds, neg, c, t, rfl, _, _, h4, _⟩ := h
  intro h0
  apply h4
  have := List.length_eq_zero_iff.mp h0
  exact (List.append_eq_nil_iff.mp (List.append_eq_nil_iff.mp this).2).2

theorem importField_used (w : World) (ty : Ty) (sgn : Bool) (tag : Bytes) (n k : UInt32) (b : Bytes) (i : Item) (u : Nat) (hmsg : ty ≠ .msg) (hvain : ty ≠ .vain)
    (hn : 1 ≤ n.toNat ∨ longest ty = 0) (hlong : n.toNat ≤ longest ty) (hk : 1 ≤ k.toNat)
    (hnk : longest ty ≠ 0 → n.toNat * k.toNat < 2 ^ 32 ∧ k.toNat < 2 ^ 29) (hb : b.length < 2 ^ 32) (h : importField w ty sgn tag n k b = .ok (i, u)) : u ≠ 0 := by
  have hz : longest ty ≠ 0 → n.toNat * k.toNat ≠ 0 := fun _ => Nat.mul_ne_zero (by omega) (by omega)
  have hint : ∀ {big : Bool} {e : Bytes × UInt32}, longest ty = 8 → importInt w.le big n k (flagsOf sgn) b = .ok e → e.2.toNat ≠ 0 := by
    intro big e h8 he
    obtain ⟨p, r, _, hl, hi⟩ := (importInt_iff (s := sgn) (by omega) (by omega) (hnk (by omega)).2 b e.1 e.2).mp he
    rw [hl, hi.1]; exact hz (by omega)
  cases ty with
  | err => cases h
  | msg => exact absurd rfl hmsg
  | vain => exact absurd rfl hvain
  | be => obtain ⟨e, h1, h2⟩ := bind_eq_ok h; cases h2; exact hint rfl h1
  | le => obtain ⟨e, h1, h2⟩ := bind_eq_ok h; cases h2; exact hint rfl h1
  | h => obtain ⟨e, h1, h2⟩ := bind_eq_ok h; cases h2; exact hint rfl h1
  | blob =>
    obtain ⟨⟨d, u'⟩, h1, h2⟩ := bind_eq_ok h; cases h2
    obtain ⟨p, r, _, hl, hlen, _⟩ := (importBlob_iff (hnk (by simp [longest])).1 _ _ _).mp h1
    rw [hl, hlen]; exact hz (by simp [longest])
  | sep =>
    obtain ⟨⟨d, u'⟩, h1, h2⟩ := bind_eq_ok h; cases h2
    obtain ⟨p, r, _, hl, hlen, _⟩ := (importChars_iff (hnk (by simp [longest])).1 _ _ _).mp h1
    rw [hl, hlen]; exact hz (by simp [longest])
  | stx =>
    obtain ⟨⟨d, u'⟩, h1, h2⟩ := bind_eq_ok h; cases h2
    obtain ⟨p, r, _, hl, hlen, _⟩ := (importChars_iff (hnk (by simp [longest])).1 _ _ _).mp h1
    rw [hl, hlen]; exact hz (by simp [longest])
  | ustr =>
    simp only [importField] at h
    split at h
    · cases h
    obtain ⟨⟨d, u'⟩, h1, h2⟩ := bind_eq_ok h; cases h2
    obtain ⟨p, r, y, _, hl, ht, _⟩ := (importNum_iff _ _ _ _).mp h1
    rw [hl]; exact numText_nonempty ht
  | istr =>
    simp only [importField] at h
    split at h
    · cases h
    obtain ⟨⟨d, u'⟩, h1, h2⟩ := bind_eq_ok h; cases h2
    obtain ⟨p, r, y, _, hl, ht, _⟩ := (importNum_iff _ _ _ _).mp h1
    rw [hl]; exact numText_nonempty ht
  | fixp =>
    simp only [importField] at h
    split at h
    · cases h
    obtain ⟨⟨d, u'⟩, h1, h2⟩ := bind_eq_ok h; cases h2
    obtain ⟨p, r, _, hl, _, pre, sign, ds, neg, c, t, hp, _, _, _, h5, _⟩ := (importFixp_iff _ _ _ _).mp h1
    rw [hl]
    intro h0
    apply h5
    rw [List.length_eq_zero_iff.mp h0] at hp
    exact (List.append_eq_nil_iff.mp (List.append_eq_nil_iff.mp hp.symm).2).2
  | nsep =>
    simp only [importField] at h
    split at h
    · cases h
    obtain ⟨⟨d, u'⟩, h1, h2⟩ := bind_eq_ok h; cases h2
    obtain ⟨p, r, _, hl, _, hne, _⟩ := (importNsep_iff _ _ _).mp h1
    rw [hl]
    intro h0; exact hne (List.length_eq_zero_iff.mp h0)
  | str =>
    simp only [importField] at h
    split at h
    · cases h
    obtain ⟨⟨d, u'⟩, h1, h2⟩ := bind_eq_ok h; cases h2
    obtain ⟨p, r, body, _, hl, hp, _⟩ := (strImport_iff _ _ _ hb).mp h1
    rw [hl, hp]; simp
  | hdlc =>
    obtain ⟨⟨d, u'⟩, h1, h2⟩ := bind_eq_ok h; cases h2
    obtain ⟨p, r, _, hl, junk, j, body, hp, _⟩ := (importHdlc_iff _ _ _).mp h1
    rw [hl, hp]; simp

theorem resolveRef_fine {F : List Field} {w : World} {safe : Prop} {is : List Item} {l : Parsed} {r : Option Bytes} (hm : Match F w safe is l) (hd : ∀ name ∈ r.toList, Differs F name) (x : UInt32) :
    Fine (resolveRef w is r x) := by
  cases r with
  | none => exact fine_ok _
  | some name =>
    have hf := find_last (hd name (by simp)) hm
    simp only [resolveRef, resolve]
    split at hf
    · rename_i hi; rw [hi]; exact fine_soft
    · rename_i i hi
      rw [hi]
      simp only [hf.2.1]
      refine fine_bind ?_ fun _ _ => fine_ite (fun _ => fine_soft) fun _ => fine_ok _
      exact fine_ite (fun _ => fine_soft) fun _ => fine_ok _

theorem readField_fine {F : List Field} {w : World} {safe : Prop} {b : Bytes} {s : St} {l : Parsed} {f : Field} (hr : Rel F w safe b s l) (hb : b.length < 2 ^ 32) (hmsg : f.ty ≠ .msg)
    (hok : FieldOk f) (hd : ∀ name ∈ f.lenRef.toList ++ f.countRef.toList, Differs F name) (hfew : ∀ k, Resolves w l f.countRef f.count k → k < 2 ^ 22) : Fine (readField w b f s) := by
  have hdc : ∀ name ∈ f.countRef.toList, Differs F name := fun name hm => hd name (List.mem_append_right _ hm)
  unfold readField
  refine fine_bind (resolveRef_fine hr.1 (fun name hm => hd name (List.mem_append_left _ hm)) _) fun n hn => fine_bind (resolveRef_fine hr.1 hdc _) fun k hk => ?_
  have hk' := (resolveRef_iff hr.1 hdc _ _).mp hk
  have h22 := hfew _ hk'
  refine fine_ite (fun _ => fine_soft) fun h1 => fine_ite (fun _ => fine_soft) fun h2 => fine_ite (fun _ => fine_soft) fun h3 => ?_
  have hn1 : 1 ≤ n.toNat ∨ longest f.ty = 0 := by
    rw [longest_eq]
    by_cases hz : maxLength f.ty = 0
    · exact Or.inr hz
    · left
      have : n.toNat ≠ 0 := fun h => h1 ⟨UInt32.toNat.inj h, hz⟩
      omega
  have hk1 : 1 ≤ k.toNat := by
    have : k.toNat ≠ 0 := fun h => h2 (UInt32.toNat.inj h)
    omega
  have hlong : n.toNat ≤ longest f.ty := by rw [longest_eq]; omega
  have hnk : longest f.ty ≠ 0 → n.toNat * k.toNat < 2 ^ 32 ∧ k.toNat < 2 ^ 29 := by
    intro _
    have : longest f.ty ≤ 1024 := by cases f.ty <;> simp [longest]
    refine ⟨?_, by omega⟩
    calc n.toNat * k.toNat ≤ 1024 * k.toNat := Nat.mul_le_mul_right _ (by omega)
      _ < 2 ^ 32 := by omega
  have hone : longest f.ty = 0 → k = 1 := by
    intro hz
    obtain ⟨_, hc, hcr⟩ := hok.2 hz
    rw [hcr] at hk'
    exact UInt32.toNat.inj (by rw [show k.toNat = f.count.toNat from hk', hc])
  refine fine_bind (importField_fine w f.ty f.signed f.tag n k _ hmsg hn1 hlong hone fun hz => (hnk hz).2) ?_
  rintro ⟨i, u⟩ hi
  refine fine_ite ?_ fun _ => fine_ok _
  rintro ⟨hu, hv⟩
  exact absurd hu (importField_used w f.ty f.signed f.tag n k _ i u hmsg hv hn1 hlong hk1 hnk (by rw [List.length_drop]; omega) hi)

theorem rewind_fine {F : List Field} {w : World} {safe : Prop} {b : Bytes} {s : St} {l : Parsed} (hs : safe) (hb : b.length < 2 ^ 32) (hr : Rel F w safe b s l) (n : Nat) : Fine (rewind n s) := by
  by_cases hn : n ≤ l.length
  · rw [(rewind_iff hs hb hr n _).mpr ⟨hn, rfl⟩]; exact fine_ok _
  · unfold rewind
    rw [if_pos (by rw [match_length hr.1]; omega)]
    exact fine_soft

/-- The condition can be evaluated, or gives an error. -/
def CondOk (c : List Condition.Carrier) : Prop := ∀ env, (∃ x, Condition.evaluate env c = .ok x) ∨ Condition.evaluate env c = .soft

theorem holds_fine {w : World} {is : List Item} {c : List Condition.Carrier} (h : CondOk c) : Fine (holds w is c) := by
  unfold holds
  rcases h (nameValue w is) with ⟨x, hx⟩ | hx
  · rw [hx]; exact fine_ok _
  · rw [hx]; exact fine_soft

mutual
theorem readTree_fine {F : List Field} {w : World} {safe : Prop} {b : Bytes} (hb : b.length < 2 ^ 32) : ∀ (t : Tree) (s : St) (l : Parsed),
    PartOk F safe (fields t) (refs t) (rewinds t) → (∀ f ∈ fields t, FewIn F f ∧ f.ty ≠ .msg) → (∀ c ∈ conds t, CondOk c) → Rel F w safe b s l → Fine (readTree w b t s)
  | .nil, s, l, _, _, _, _ => by rw [readTree]; exact fine_ok _
  | .field f rest, s, l, hp, hfew, hc, hr => by
    rw [readTree]
    rw [fields, refs, rewinds] at hp
    rw [fields] at hfew
    rw [conds] at hc
    obtain ⟨hF, hok, hback⟩ := hp.1 f (List.mem_cons_self ..)
    have hd : ∀ name ∈ f.lenRef.toList ++ f.countRef.toList, Differs F name := fun name hm => hp.2.1 name (by
      rw [← List.append_assoc]; exact List.mem_append_left _ hm)
    have hf22 := few_resolves hr.1 (hfew f (List.mem_cons_self ..)).1
    refine fine_bind (readField_fine hr hb (hfew f (List.mem_cons_self ..)).2 hok hd hf22) fun s1 h1 => ?_
    obtain ⟨n, k, p, r, v, hstep, rfl⟩ := readField_sound hr hb hok hd hf22 h1
    exact readTree_fine hb rest _ ((v, p) :: l)
      ⟨fun g hg => hp.1 g (List.mem_cons_of_mem _ hg), fun name hm => hp.2.1 name (List.mem_append_right _ (List.mem_append_right _ hm)), hp.2.2⟩
      (fun g hg => hfew g (List.mem_cons_of_mem _ hg)) hc (readField_rel hr hb hF hback hstep)
  | .rewind n rest, s, l, hp, hfew, hc, hr => by
    rw [readTree]
    rw [fields, refs] at hp
    rw [fields] at hfew
    rw [conds] at hc
    have hs : safe := hp.2.2 (by rw [rewinds]; trivial)
    refine fine_bind (rewind_fine hs hb hr n) fun s1 h1 => ?_
    obtain ⟨hn, rfl⟩ := (rewind_iff hs hb hr n s1).mp h1
    exact readTree_fine hb rest _ (l.drop n) ⟨hp.1, hp.2.1, fun _ => hs⟩ hfew hc (rel_drop hr n)
  | .cond bs rest, s, l, hp, hfew, hc, hr => by
    rw [readTree]
    rw [fields, refs, rewinds] at hp
    rw [fields] at hfew
    rw [conds] at hc
    have hp1 : PartOk F safe (fieldsOf bs) (refsOf bs) (rewindsOf bs) := ⟨fun f hf => hp.1 f (List.mem_append_left _ hf), fun name hm => hp.2.1 name (List.mem_append_left _ hm), fun h => hp.2.2 (Or.inl h)⟩
    have hfew1 : ∀ f ∈ fieldsOf bs, FewIn F f ∧ f.ty ≠ .msg := fun f hf => hfew f (List.mem_append_left _ hf)
    refine fine_bind (readBranches_fine hb bs s l hp1 hfew1 (fun c h => hc c (List.mem_append_left _ h)) hr) fun s1 h1 => ?_
    obtain ⟨m, _, hrel1⟩ := readBranches_sound hb bs s s1 l hp1 (fun f hf => (hfew1 f hf).1) hr h1
    exact readTree_fine hb rest s1 m ⟨fun f hf => hp.1 f (List.mem_append_right _ hf), fun name hm => hp.2.1 name (List.mem_append_right _ hm), fun h => hp.2.2 (Or.inr h)⟩
      (fun f hf => hfew f (List.mem_append_right _ hf)) (fun c h => hc c (List.mem_append_right _ h)) hrel1
theorem readBranches_fine {F : List Field} {w : World} {safe : Prop} {b : Bytes} (hb : b.length < 2 ^ 32) : ∀ (bs : Branches) (s : St) (l : Parsed),
    PartOk F safe (fieldsOf bs) (refsOf bs) (rewindsOf bs) → (∀ f ∈ fieldsOf bs, FewIn F f ∧ f.ty ≠ .msg) → (∀ c ∈ condsOf bs, CondOk c) → Rel F w safe b s l → Fine (readBranches w b bs s)
  | .none, s, l, _, _, _, _ => by rw [readBranches]; exact fine_ok _
  | .els t, s, l, hp, hfew, hc, hr => by
    rw [readBranches]
    rw [fieldsOf, refsOf, rewindsOf] at hp
    rw [fieldsOf] at hfew
    rw [condsOf] at hc
    exact readTree_fine hb t s l hp hfew hc hr
  | .arm c t more, s, l, hp, hfew, hc, hr => by
    rw [readBranches]
    rw [fieldsOf, refsOf, rewindsOf] at hp
    rw [fieldsOf] at hfew
    rw [condsOf] at hc
    refine fine_bind (holds_fine (hc c (List.mem_cons_self ..))) fun x _ => fine_ite (fun _ => ?_) fun _ => ?_
    · exact readTree_fine hb t s l ⟨fun f hf => hp.1 f (List.mem_append_left _ hf), fun name hm => hp.2.1 name (List.mem_append_right _ (List.mem_append_left _ hm)), fun h => hp.2.2 (Or.inl h)⟩
        (fun f hf => hfew f (List.mem_append_left _ hf)) (fun c h => hc c (List.mem_cons_of_mem _ (List.mem_append_left _ h))) hr
    · exact readBranches_fine hb more s l ⟨fun f hf => hp.1 f (List.mem_append_right _ hf), fun name hm => hp.2.1 name (List.mem_append_right _ (List.mem_append_right _ hm)), fun h => hp.2.2 (Or.inr h)⟩
        (fun f hf => hfew f (List.mem_append_right _ hf)) (fun c h => hc c (List.mem_cons_of_mem _ (List.mem_append_right _ h))) hr
end

end Verif.ArrayTree
