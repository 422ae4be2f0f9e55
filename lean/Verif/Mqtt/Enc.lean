import Verif.Mqtt.Safety
import Verif.Mqtt.Assemble
import Verif.Mqtt.Spec
import Verif.Bits
import Verif.Utf8.Props
/-!
# Parsing of encoded data

`EncAt p b a pos t`: at position `pos` of a packet of size `t`, `p` reads exactly the
bytes `b` and gives `a` whatever follows, and is incomplete while only a part of `b` is there.
-/
namespace Verif.Mqtt
open Verif

structure EncAt {α : Type} (p : P α) (b : Bytes) (a : α) (pos t : Nat) : Prop where
  full : ∀ pre rest : Bytes, pre.length = pos → p ⟨pre ++ (b ++ rest), t⟩ pos = .ok (a, pos + b.length)
  part : ∀ pre got more : Bytes, pre.length = pos → b = got ++ more → more ≠ [] →
    p ⟨pre ++ got, t⟩ pos = .incomplete

theorem EncAt.bind {α β : Type} {p : P α} {f : α → P β} {b1 b2 : Bytes} {a : α} {c : β} {pos t : Nat}
    (h1 : EncAt p b1 a pos t) (h2 : EncAt (f a) b2 c (pos + b1.length) t) :
    EncAt (p >>= f) (b1 ++ b2) c pos t := by
  refine ⟨?_, ?_⟩
  · intro pre rest hp
    rw [List.append_assoc, bind_ok (h1.full pre (b2 ++ rest) hp)]
    have := h2.full (pre ++ b1) rest (by simp [hp])
    rw [List.append_assoc] at this
    rw [this, List.length_append]
    simp only [Nat.add_assoc]
  · intro pre got more hp hb hm
    have key : ∀ g, got = b1 ++ g → b2 = g ++ more → (p >>= f) ⟨pre ++ got, t⟩ pos = .incomplete := by
      intro g e1 e2
      subst e1
      rw [bind_ok (h1.full pre g hp)]
      have := h2.part (pre ++ b1) g more (by simp [hp]) e2 hm
      rwa [List.append_assoc] at this
    rcases List.append_eq_append_iff.mp hb with ⟨g, e1, e2⟩ | ⟨g, e1, e2⟩
    · exact key g e1 e2
    · by_cases hg : g = []
      · subst hg
        exact key [] (by simpa using e1.symm) (by simpa using e2.symm)
      · simp only [bind_def, P.bind, h1.part pre got g hp e1 hg]

theorem EncAt.bind0 {α β : Type} {p : P α} {f : α → P β} {b : Bytes} {a : α} {c : β} {pos t : Nat}
    (h1 : EncAt p [] a pos t) (h2 : EncAt (f a) b c pos t) : EncAt (p >>= f) b c pos t := by
  have := h1.bind (f := f) (b2 := b) (c := c) (by simpa using h2)
  simpa using this

/-- Code which does not depend on the received data and succeeds. -/
theorem EncAt.const {α : Type} {p : P α} {a : α} {pos t : Nat} (h : ∀ b, p ⟨b, t⟩ pos = .ok (a, pos)) :
    EncAt p [] a pos t := by
  refine ⟨fun pre rest _ => h _, fun pre got more _ hb hm => ?_⟩
  have := List.append_eq_nil_iff.mp hb.symm
  exact absurd this.2 hm

theorem encAt_pure {α : Type} (a : α) (pos t : Nat) : EncAt (pure a : P α) [] a pos t := .const fun _ => rfl
theorem encAt_getPos (pos t : Nat) : EncAt getPos [] pos pos t := .const fun _ => rfl
theorem encAt_getTarget (pos t : Nat) : EncAt getTarget [] t pos t := .const fun _ => rfl
theorem encAt_targetEnd (pos t : Nat) : EncAt targetEnd [] (decide (pos + 1 > t)) pos t := .const fun _ => rfl
theorem encAt_require {c : Bool} (h : c = true) (pos t : Nat) : EncAt (require c) [] () pos t :=
  .const fun _ => by subst h; rfl

theorem encAt_u8 (x : UInt8) (pos t : Nat) : EncAt u8 [x] x pos t := by
  refine ⟨?_, ?_⟩
  · intro pre rest hp
    subst hp
    rw [u8_eq, dif_pos (by simp)]
    simp
  · intro pre got more hp hb hm
    have : got = [] := by
      cases got with
      | nil => rfl
      | cons g gs =>
        simp only [List.cons_append, List.cons.injEq, List.nil_eq, List.append_eq_nil_iff] at hb
        exact absurd hb.2.2 hm
    subst this
    rw [u8_eq, dif_neg (by simp [hp])]

theorem encAt_takeN (b : Bytes) (pos t : Nat) : EncAt (takeN b.length) b b pos t := by
  refine ⟨?_, ?_⟩
  · intro pre rest hp
    subst hp
    rw [takeN_eq, if_pos (by simp only [List.length_append]; omega)]
    simp
  · intro pre got more hp hb hm
    have := List.length_pos_iff.mpr hm
    rw [takeN_eq, if_neg (by rw [hb]; simp only [List.length_append]; omega)]

theorem encAt_takeN' {n : Nat} {b : Bytes} (h : b.length = n) (pos t : Nat) : EncAt (takeN n) b b pos t := by
  subst h; exact encAt_takeN b pos t

theorem u16_takeN : u16 = (takeN 2 >>= fun b => pure (beNat b)) := by
  funext e pos
  rw [u16_eq]
  by_cases h : pos + 1 < e.buf.length
  · rw [dif_pos h, bind_ok (by rw [takeN_eq, if_pos (by omega)])]
    have : (e.buf.drop pos).take 2 = [e.buf[pos], e.buf[pos + 1]] := by
      rw [List.drop_eq_getElem_cons (by omega), List.drop_eq_getElem_cons h]; rfl
    rw [this]
    simp [beNat]; rfl
  · rw [dif_neg h]
    simp only [bind_def, P.bind, takeN_eq]
    rw [if_neg (by omega)]

theorem encAt_u16 (n : Nat) (h : n < 65536) (pos t : Nat) : EncAt u16 (Asm.u16 n) n pos t := by
  rw [u16_takeN]
  have := (encAt_takeN' (n := 2) (b := Asm.u16 n) rfl pos t).bind (f := fun b => pure (beNat b))
    (encAt_pure _ _ _)
  rw [List.append_nil] at this
  have hb : beNat (Asm.u16 n) = n := by
    simp only [beNat, Asm.u16, List.foldl_cons, List.foldl_nil, UInt8.toNat_ofNat']
    omega
  rw [hb] at this
  exact this

theorem encAt_beInt {n : Nat} {b : Bytes} (h : b.length = n) (pos t : Nat) :
    EncAt (beInt n) b (beNat b) pos t := by
  rw [beInt_eq]
  have := (encAt_takeN' h pos t).bind (f := fun b => pure (beNat b)) (encAt_pure _ _ _)
  rwa [List.append_nil] at this

theorem encAt_packetId (n : Nat) (h0 : 0 < n) (h : n < 65536) (pos t : Nat) :
    EncAt packetId (Asm.u16 n) n pos t := by
  unfold packetId
  have := (encAt_u16 n h pos t).bind (f := fun id => require (decide (id ≠ 0)) >>= fun _ => pure id)
    ((encAt_require (by simp; omega) _ _).bind0 (encAt_pure n _ _))
  rwa [List.append_nil] at this

/-! ### Variable byte integers -/

theorem and7f (n : Nat) : n &&& 0x7f = n % 128 := Nat.and_two_pow_sub_one_eq_mod n 7

theorem or80 : ∀ m : Fin 128, (m.val ||| 0x80) = m.val + 128 ∧ (m.val + 128) &&& 0x80 ≠ 0 ∧
    (m.val + 128) &&& 0x7f = m.val ∧ m.val &&& 0x80 = 0 := by decide +kernel

theorem vintLoop_eq : ∀ k n, n < 128 ^ k → 0 < k → Asm.vintLoop k n = Spec.vint n
  | 0, _, _, h => by omega
  | k + 1, n, h, _ => by
    unfold Asm.vintLoop
    rw [Spec.vint]
    simp only [and7f, Nat.shiftRight_eq_div_pow, (by decide : (2 : Nat) ^ 7 = 128)]
    have hm : n % 128 < 128 := Nat.mod_lt _ (by decide)
    by_cases hn : n < 128
    · rw [if_pos (Nat.div_eq_of_lt hn), if_pos hn, Nat.mod_eq_of_lt hn]
    · have hd : n / 128 ≠ 0 := by omega
      rw [if_neg hd, if_neg hn, (or80 ⟨n % 128, hm⟩).1]
      have hk : 0 < k := by
        cases k with
        | zero => simp at h; omega
        | succ k => omega
      rw [vintLoop_eq k _ (by rw [Nat.pow_succ] at h; exact Nat.div_lt_of_lt_mul (by omega)) hk]

theorem vint_length_pos (n : Nat) : 0 < (Spec.vint n).length := by
  rw [Spec.vint]; split <;> simp

theorem headerVintLoop_eq : ∀ k n, n < 128 ^ k → 0 < k →
    (Asm.headerVintLoop k n).1.take (1 + (Asm.headerVintLoop k n).2) = Spec.vint n ∧
    1 + (Asm.headerVintLoop k n).2 = (Spec.vint n).length
  | 0, _, _, h => by omega
  | k + 1, n, h, _ => by
    unfold Asm.headerVintLoop
    rw [Spec.vint]
    simp only [and7f, Nat.shiftRight_eq_div_pow, (by decide : (2 : Nat) ^ 7 = 128)]
    have hm : n % 128 < 128 := Nat.mod_lt _ (by decide)
    by_cases hn : n < 128
    · rw [if_neg (by rw [Nat.div_eq_of_lt hn]; omega), if_pos hn]
      rw [Nat.div_eq_of_lt hn, Nat.mod_eq_of_lt hn]
      have h0 : ∀ k, (Asm.headerVintLoop k 0).2 = 0 := by
        intro k; induction k with
        | zero => rfl
        | succ k ih => unfold Asm.headerVintLoop; simp [ih]
      simp [h0]
    · have hd : n / 128 > 0 := by omega
      rw [if_pos hd, if_neg hn, (or80 ⟨n % 128, hm⟩).1]
      have hk : 0 < k := by
        cases k with
        | zero => simp at h; omega
        | succ k => omega
      obtain ⟨i1, i2⟩ := headerVintLoop_eq k (n / 128) (by rw [Nat.pow_succ] at h; exact Nat.div_lt_of_lt_mul (by omega)) hk
      constructor
      · simp only [Nat.add_comm 1, List.take_succ_cons]
        rw [Nat.add_comm] at i1
        rw [i1]
      · simp only [List.length_cons, ← i2]; omega

theorem vint_eq {n : Nat} (h : n < 268435456) : Asm.vint n = some (Spec.vint n) := by
  unfold Asm.vint
  rw [if_neg (by omega), vintLoop_eq 4 n (by simpa using h) (by decide)]

theorem headerVint_eq {n : Nat} (h : n < 268435456) : Asm.headerVint n = some (Spec.vint n) := by
  unfold Asm.headerVint
  rw [if_neg (by omega)]
  have := headerVintLoop_eq 4 n (by simpa using h) (by decide)
  simp only [this.1]

theorem encAt_varintLoop : ∀ (k n r x pos t : Nat), n < 128 ^ k → 0 < k →
    EncAt (varintLoop k r x) (Spec.vint n) (r + n * x) pos t
  | 0, _, _, _, _, _, _, h => by omega
  | k + 1, n, r, x, pos, t, h, _ => by
    rw [varintLoop_succ, Spec.vint]
    have hm : n % 128 < 128 := Nat.mod_lt _ (by decide)
    by_cases hn : n < 128
    · rw [if_pos hn]
      have := (encAt_u8 (UInt8.ofNat n) pos t).bind (f := fun c =>
        if c.toNat &&& 0x80 ≠ 0 then varintLoop k (r + (c.toNat &&& 0x7f) * x) (x * 128)
        else pure (r + (c.toNat &&& 0x7f) * x)) (b2 := []) (c := r + n * x) (by
          have e1 : (UInt8.ofNat n).toNat = n := by simp; omega
          rw [e1, (or80 ⟨n, hn⟩).2.2.2, and7f, Nat.mod_eq_of_lt hn]
          exact encAt_pure _ _ _)
      rwa [List.append_nil] at this
    · rw [if_neg hn]
      have hk : 0 < k := by
        cases k with
        | zero => simp at h; omega
        | succ k => omega
      refine (encAt_u8 (UInt8.ofNat (n % 128 + 128)) pos t).bind (b2 := Spec.vint (n / 128)) ?_
      have e1 : (UInt8.ofNat (n % 128 + 128)).toNat = n % 128 + 128 := by simp; omega
      have o := or80 ⟨n % 128, hm⟩
      rw [e1, if_pos o.2.1, o.2.2.1]
      have := encAt_varintLoop k (n / 128) (r + n % 128 * x) (x * 128) (pos + 1) t
        (by rw [Nat.pow_succ] at h; exact Nat.div_lt_of_lt_mul (by omega)) hk
      have e2 : r + n % 128 * x + n / 128 * (x * 128) = r + n * x := by
        have := Nat.div_add_mod n 128
        rw [Nat.add_assoc]
        congr 1
        calc n % 128 * x + n / 128 * (x * 128) = (128 * (n / 128) + n % 128) * x := by
              rw [Nat.add_mul, Nat.add_comm]
              congr 1
              rw [Nat.mul_comm x 128, ← Nat.mul_assoc, Nat.mul_comm (n / 128) 128]
          _ = n * x := by rw [this]
      rw [e2] at this
      exact this

theorem encAt_varint {n : Nat} (h : n < 268435456) (pos t : Nat) : EncAt varint (Spec.vint n) n pos t := by
  have := encAt_varintLoop 4 n 0 1 pos t (by simpa using h) (by decide)
  simpa [varint] using this

/-- What the decoder accepts is below 2^28. -/
theorem varintLoop_lt : ∀ k r x (e : Env) pos v pos', r < x → varintLoop k r x e pos = .ok (v, pos') →
    v < x * 128 ^ k
  | 0, _, _, _, _, _, _, _, h => by cases h
  | k + 1, r, x, e, pos, v, pos', hr, h => by
    rw [varintLoop_succ] at h
    obtain ⟨c, p1, h1, h2⟩ := bind_eq_ok h
    have hc : c.toNat &&& 0x7f < 128 := by rw [and7f]; exact Nat.mod_lt _ (by decide)
    have hs : r + (c.toNat &&& 0x7f) * x < x * 128 := by
      have : (c.toNat &&& 0x7f) * x ≤ 127 * x := Nat.mul_le_mul_right _ (by omega)
      omega
    split at h2
    · have := varintLoop_lt k _ _ e p1 v pos' hs h2
      rw [Nat.pow_succ, Nat.mul_comm (128 ^ k), ← Nat.mul_assoc]; exact this
    · cases h2
      rw [Nat.pow_succ, Nat.mul_comm (128 ^ k), ← Nat.mul_assoc]
      exact Nat.lt_of_lt_of_le hs (Nat.le_mul_of_pos_right _ (Nat.pow_pos (by decide)))

/-! ### Strings -/

theorem utf8Ok_iff (s : Bytes) : utf8Ok s = true ↔ Utf8.Spec.WellFormed (s.takeWhile (· ≠ 0)) := by
  unfold utf8Ok
  constructor
  · intro h
    apply Classical.byContradiction
    intro hn
    rw [Utf8.validateAndIterate_reject _ _ _ hn] at h
    simp at h
  · rintro ⟨cs, hcs⟩
    rw [Utf8.validateAndIterate_eq _ _ _ _ hcs]
    have hz : (0 : UInt8) ∉ s.takeWhile (· ≠ 0) := by
      intro h
      have := List.all_takeWhile (p := fun x : UInt8 => decide (x ≠ 0)) (l := s)
      rw [List.all_eq_true] at this
      simpa using this _ h
    have hc : ∀ c ∈ cs, utf8Cb () c = some () := by
      intro c hc
      have h1 := hcs.1 c hc
      unfold utf8Cb
      rw [if_neg]
      rintro (rfl | ⟨h2, h3⟩)
      · apply hz
        have : (0 : Nat) ∈ (s.takeWhile (· ≠ 0)).map UInt8.toNat := by
          rw [hcs.2]
          exact List.mem_flatMap.mpr ⟨0, hc, by decide⟩
        obtain ⟨b, hb, hb0⟩ := List.mem_map.mp this
        have : b = 0 := UInt8.toNat_inj.mp hb0
        rwa [this] at hb
      · unfold Utf8.Spec.IsScalar at h1; omega
    clear hcs
    induction cs with
    | nil => rfl
    | cons c cs ih =>
      simp only [List.foldlM_cons, hc c (by simp)]
      exact ih fun x hx => hc x (by simp [hx])

theorem utf8Ok_of_text {s : Bytes} (h : Spec.Text s) : utf8Ok s = true := by
  rw [utf8Ok_iff, Topic.takeWhile_nul_of h.1]; exact h.2.1

theorem encAt_blob {b : Bytes} {pos t : Nat} (hl : b.length ≤ 65535) (ht : pos + 2 + b.length ≤ t) :
    EncAt blob (Asm.u16 b.length ++ b) b pos t := by
  unfold blob
  refine (encAt_u16 b.length (by omega) pos t).bind ?_
  refine (encAt_getPos _ _).bind0 ((encAt_getTarget _ _).bind0 ?_)
  exact (encAt_require (by simpa [Asm.u16] using ht) _ _).bind0 (encAt_takeN b _ _)

theorem encAt_utf8 {m : Nat} {b : Bytes} {pos t : Nat} (hb : Spec.Text b) (hm : m ≤ b.length)
    (ht : pos + 2 + b.length ≤ t) : EncAt (utf8 m) (Asm.u16 b.length ++ b) b pos t := by
  unfold utf8
  have := (encAt_blob hb.2.2 ht).bind (f := fun s => require (decide (m ≤ s.length)) >>= fun _ =>
      require (utf8Ok s) >>= fun _ => pure s)
    ((encAt_require (by simpa using hm) _ _).bind0 ((encAt_require (utf8Ok_of_text hb) _ _).bind0 (encAt_pure b _ _)))
  rwa [List.append_nil] at this

theorem rawLen_eq {b : Bytes} (h0 : b ≠ []) (hl : b.length ≤ 65535) :
    Asm.rawLen b = some (Asm.u16 b.length ++ b) := by
  unfold Asm.rawLen Asm.raw
  rw [if_neg (by omega), if_neg h0]; rfl

theorem EncAt.map {α β : Type} {p : P α} {b : Bytes} {a : α} {pos t : Nat} (h : EncAt p b a pos t) (g : α → β) :
    EncAt (p >>= fun x => pure (g x)) b (g a) pos t := by
  have := h.bind (f := fun x => pure (g x)) (encAt_pure (g a) _ _)
  rwa [List.append_nil] at this

/-! ### Properties -/

/-- The value part of a property other than binary data. -/
theorem encAt_propValue {p : Property} (hok : Spec.PropOk p) (hnb : ¬ Spec.IsBinary p) :
    ∃ ty b, propType p.id = some ty ∧ Asm.prop p = some (p.id :: b) ∧ b.length = Spec.valSize p ∧
      Asm.propSize p = some b.length ∧
      ∀ pos t, pos + b.length ≤ t → EncAt (propValue ty) b p.val pos t := by
  obtain ⟨id, val⟩ := p
  unfold Spec.PropOk at hok
  unfold Asm.prop Asm.propSize Spec.valSize
  cases hty : propType id with
  | none => simp only [hty] at hok
  | some ty =>
    refine ⟨ty, ?_⟩
    cases ty <;> cases val <;> simp only [hty] at hok ⊢
    case one.num n =>
      refine ⟨_, trivial, rfl, rfl, rfl, fun pos t _ => ?_⟩
      have := (encAt_beInt (b := Asm.u8 n) (n := 1) rfl pos t).map PropVal.num
      have e : beNat (Asm.u8 n) = n := by simp [beNat, Asm.u8]; omega
      rw [e] at this; exact this
    case two.num n =>
      refine ⟨_, trivial, rfl, rfl, rfl, fun pos t _ => ?_⟩
      have := (encAt_beInt (b := Asm.u16 n) (n := 2) rfl pos t).map PropVal.num
      have e : beNat (Asm.u16 n) = n := by
        simp only [beNat, Asm.u16, List.foldl_cons, List.foldl_nil, UInt8.toNat_ofNat']; omega
      rw [e] at this; exact this
    case four.num n =>
      refine ⟨_, trivial, rfl, rfl, rfl, fun pos t _ => ?_⟩
      have := (encAt_beInt (b := Asm.u32 n) (n := 4) rfl pos t).map PropVal.num
      have e : beNat (Asm.u32 n) = n := by
        simp only [beNat, Asm.u32, List.foldl_cons, List.foldl_nil, UInt8.toNat_ofNat']; omega
      rw [e] at this; exact this
    case vint.num n =>
      refine ⟨Spec.vint n, trivial, ?_, rfl, ?_, fun pos t _ => ?_⟩
      · rw [vint_eq hok]; rfl
      · rw [if_neg (by omega)]
        congr 1
        have : ∀ k n, n < 128 ^ k → 0 < k → ∀ j, k ≤ j → Asm.vintSize j n = (Spec.vint n).length := by
          intro k
          induction k with
          | zero => intro n _ h; omega
          | succ k ih =>
            intro n hn _ j hj
            obtain ⟨j, rfl⟩ : ∃ i, j = i + 1 := ⟨j - 1, by omega⟩
            unfold Asm.vintSize
            rw [Spec.vint]
            simp only [Nat.shiftRight_eq_div_pow, (by decide : (2 : Nat) ^ 7 = 128)]
            by_cases h : n < 128
            · rw [if_pos (Nat.div_eq_of_lt h), if_pos h]; rfl
            · rw [if_neg (by omega), if_neg h]
              have hk : 0 < k := by
                cases k with
                | zero => simp at hn; omega
                | succ k => omega
              rw [ih (n / 128) (by rw [Nat.pow_succ] at hn; exact Nat.div_lt_of_lt_mul (by omega)) hk j (by omega)]
              simp [Nat.add_comm]
        exact this 4 n (by simpa using hok) (by decide) 5 (by decide)
      · exact (encAt_varint hok pos t).map PropVal.num
    case blob.data b =>
      exfalso
      apply hnb
      have : ∀ x : UInt8, propType x = some .blob → x = 0x09 ∨ x = 0x16 := by
        apply all256; decide +kernel
      exact this id hty
    case utf8.data b =>
      refine ⟨Asm.u16 b.length ++ b, trivial, ?_, ?_, ?_, fun pos t ht => ?_⟩
      · rw [rawLen_eq hok.1 hok.2.2.2]; rfl
      · simp [Asm.u16]; omega
      · simp [Asm.u16]; omega
      · exact (encAt_utf8 hok.2 (by omega) (by simp [Asm.u16] at ht; omega)).map PropVal.data
    case utf8x2.pair a b =>
      refine ⟨(Asm.u16 a.length ++ a) ++ (Asm.u16 b.length ++ b), trivial, ?_, ?_, ?_, fun pos t ht => ?_⟩
      · rw [rawLen_eq hok.1.1 hok.1.2.2.2, rawLen_eq hok.2.1 hok.2.2.2.2]; rfl
      · simp [Asm.u16]; omega
      · simp [Asm.u16]; omega
      · simp [Asm.u16] at ht
        refine (encAt_utf8 hok.1.2 (by omega) (by omega)).bind ?_
        exact (encAt_utf8 hok.2.2 (by omega) (by simp [Asm.u16]; omega)).map _

theorem encAt_propLoop (be t : Nat) (hbe : be ≤ t) : ∀ (ps : List Property) (acc : List Property) (pos fuel : Nat),
    (∀ p ∈ ps, Spec.PropOk p ∧ ¬ Spec.IsBinary p) →
    ∃ b, Asm.propsBody ps = some b ∧ b.length = (ps.map Spec.valSize).sum + ps.length ∧
      Asm.propsSize ps = some (ps.map Spec.valSize).sum ∧
      (pos + b.length = be → b.length ≤ fuel → EncAt (propLoop be fuel acc) b (acc ++ ps) pos t)
  | [], acc, pos, fuel, _ => by
    refine ⟨[], rfl, rfl, rfl, fun hp _ => ?_⟩
    rw [List.append_nil]
    cases fuel with
    | zero => exact encAt_pure _ _ _
    | succ fuel =>
      unfold propLoop
      refine (encAt_getPos _ _).bind0 ?_
      simp only [List.length_nil] at hp
      rw [if_neg (by omega)]
      exact encAt_pure _ _ _
  | p :: ps, acc, pos, fuel, h => by
    obtain ⟨ty, pb, hty, hpb, hlen, hsz, henc⟩ := encAt_propValue (h p (by simp)).1 (h p (by simp)).2
    obtain ⟨b, hb1, hb2, hb3, hb4⟩ := encAt_propLoop be t hbe ps (acc ++ [p]) (pos + 1 + pb.length) (fuel - 1)
      (fun q hq => h q (by simp [hq]))
    refine ⟨p.id :: pb ++ b, ?_, ?_, ?_, ?_⟩
    · simp [Asm.propsBody, hpb, hb1]
    · simp [hb2, hlen]; omega
    · simp [Asm.propsSize, hsz, hb3, hlen]
    · intro hp hf
      simp only [List.cons_append, List.length_cons, List.length_append] at hp hf
      obtain ⟨f, rfl⟩ : ∃ f, fuel = f + 1 := ⟨fuel - 1, by omega⟩
      unfold propLoop
      refine (encAt_getPos _ _).bind0 ?_
      rw [if_pos (by omega)]
      refine (encAt_u8 p.id pos t).bind (b2 := pb ++ b) ?_
      simp only [hty]
      refine (henc (pos + 1) t (by omega)).bind ?_
      have := hb4 (by omega) (by omega)
      simp only [List.append_assoc, List.singleton_append] at this
      simpa using this

theorem encAt_properties {ps : List Property} (h : Spec.PropsOk ps) (hnb : ∀ p ∈ ps, ¬ Spec.IsBinary p) :
    ∃ b, Asm.props ps = some b ∧ ∀ pos t, pos + b.length ≤ t → EncAt properties b ps pos t := by
  have hps : ∀ p ∈ ps, Spec.PropOk p ∧ ¬ Spec.IsBinary p := fun p hp => ⟨h.1 p hp, hnb p hp⟩
  obtain ⟨b, hb1, hb2, hb3, _⟩ := encAt_propLoop 0 0 (by omega) ps [] 0 0 hps
  have hsz := h.2
  refine ⟨Spec.vint b.length ++ b, ?_, ?_⟩
  · unfold Asm.props
    simp only [hb3, hb1, Option.bind_eq_bind, Option.bind_some]
    rw [if_neg (by omega), vint_eq (by omega)]
    simp only [Option.bind_some, ← hb2]
    rw [if_neg (by simp)]; rfl
  · intro pos t ht
    simp only [List.length_append] at ht
    unfold properties
    refine (encAt_varint (by omega) pos t).bind ?_
    refine (encAt_getPos _ _).bind0 ?_
    obtain ⟨b', e1, _, _, e4⟩ := encAt_propLoop (pos + (Spec.vint b.length).length + b.length) t (by omega) ps []
      (pos + (Spec.vint b.length).length) b.length hps
    rw [hb1] at e1
    cases e1
    exact e4 rfl (Nat.le_refl _)

theorem encAt_propsFor {ver : Nat} (hv : ver ≤ 5) {ps : List Property} (h : Spec.PropsFor ver ps)
    (hnb : ∀ p ∈ ps, ¬ Spec.IsBinary p) :
    ∃ b, Asm.propsIfV5 ver ps = some b ∧ ∀ pos t, pos + b.length ≤ t → EncAt (propertiesIfV5 ver) b ps pos t := by
  unfold Spec.PropsFor at h
  unfold Asm.propsIfV5 propertiesIfV5
  by_cases h5 : ver = 5
  · rw [if_pos h5] at h
    rw [if_pos (by omega)]
    obtain ⟨b, h1, h2⟩ := encAt_properties h hnb
    refine ⟨b, h1, fun pos t ht => ?_⟩
    rw [if_pos (by omega)]
    exact h2 pos t ht
  · rw [if_neg h5] at h
    subst h
    rw [if_neg (by omega)]
    refine ⟨[], rfl, fun pos t _ => ?_⟩
    rw [if_neg (by omega)]
    exact encAt_pure _ _ _

end Verif.Mqtt
