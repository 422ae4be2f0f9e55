import Verif.Mqtt.Roundtrip
/-!
# MQTT packets: property theorems (C32, C43, C45, C46, C47, C49)

`parsePacket ver buf` is the verdict on the received data `buf`; `Asm.packet ver p` the data sent.
-/
namespace Verif.Mqtt
open Verif

/-! ## C32: variable byte integers -/

/-- **C32** Both encoders write the encoding the standard prescribes. -/
theorem vint_encoders (n : Nat) (h : n ≤ 268435455) :
    Asm.vint n = some (Spec.vint n) ∧ Asm.headerVint n = some (Spec.vint n) :=
  ⟨vint_eq (by omega), headerVint_eq (by omega)⟩

/-- **C32** ... of which the length is 1, 2, 3 or 4. -/
theorem vint_encoders_length (n : Nat) (h : n ≤ 268435455) :
    (Spec.vint n).length = if n < 128 then 1 else if n < 16384 then 2 else if n < 2097152 then 3 else 4 := by
  rw [Spec.vint]
  by_cases h1 : n < 128
  · simp [h1]
  · rw [if_neg h1, if_neg h1, Spec.vint]
    by_cases h2 : n < 16384
    · rw [if_pos (by omega), if_pos h2]; rfl
    · rw [if_neg (by omega), if_neg h2, Spec.vint]
      by_cases h3 : n < 2097152
      · rw [if_pos (by omega), if_pos h3]; rfl
      · rw [if_neg (by omega), if_neg h3, Spec.vint, if_pos (by omega)]; rfl

/-- **C32** Larger values are refused by both encoders. -/
theorem vint_encoders_refuse (n : Nat) (h : 268435455 < n) : Asm.vint n = none ∧ Asm.headerVint n = none := by
  unfold Asm.vint Asm.headerVint
  rw [if_pos (by omega), if_pos (by omega)]; exact ⟨rfl, rfl⟩

/-- **C32** The decoder reads exactly the encoded bytes, whatever is before and after them. -/
theorem vint_decode (n : Nat) (h : n ≤ 268435455) (pre rest : Bytes) (t : Nat) :
    varint ⟨pre ++ (Spec.vint n ++ rest), t⟩ pre.length = .ok (n, pre.length + (Spec.vint n).length) :=
  (encAt_varint (by omega) pre.length t).full pre rest rfl

/-- **C32** Every strict prefix of an encoding is incomplete. -/
theorem vint_decode_prefix (n : Nat) (h : n ≤ 268435455) (pre got more : Bytes) (t : Nat)
    (hb : Spec.vint n = got ++ more) (hm : more ≠ []) : varint ⟨pre ++ got, t⟩ pre.length = .incomplete :=
  (encAt_varint (by omega) pre.length t).part pre got more rfl hb hm

theorem varintLoop_lt_used : ∀ k r x (e : Env) pos v pos', r < x → varintLoop k r x e pos = .ok (v, pos') →
    v < x * 128 ^ (pos' - pos)
  | 0, _, _, _, _, _, _, _, h => by cases h
  | k + 1, r, x, e, pos, v, pos', hr, h => by
    have hb := varintLoop_ok_bounds _ _ _ _ _ _ _ h
    rw [varintLoop_succ] at h
    obtain ⟨c, p1, h1, h2⟩ := bind_eq_ok h
    have hc : c.toNat &&& 0x7f < 128 := by rw [and7f]; exact Nat.mod_lt _ (by decide)
    have hs : r + (c.toNat &&& 0x7f) * x < x * 128 := by
      have : (c.toNat &&& 0x7f) * x ≤ 127 * x := Nat.mul_le_mul_right _ (by omega)
      omega
    have hp1 : p1 = pos + 1 := by rw [u8_eq] at h1; split at h1 <;> cases h1; rfl
    subst hp1
    obtain ⟨d, hd⟩ : ∃ d, pos' - pos = d + 1 := ⟨pos' - pos - 1, by omega⟩
    rw [hd, Nat.pow_succ, Nat.mul_comm (128 ^ d), ← Nat.mul_assoc]
    split at h2
    · have := varintLoop_lt_used k _ _ e (pos + 1) v pos' hs h2
      have e1 : pos' - (pos + 1) = d := by omega
      rwa [e1] at this
    · cases h2
      have e1 : d = 0 := by omega
      subst e1; simpa using hs

/-- **C32** No input decodes to a larger value, and nothing the decoder accepts for `n` is
shorter than the encoding of `n`: the encoding is minimal. -/
theorem vint_decode_max (e : Env) (pos n pos' : Nat) (h : varint e pos = .ok (n, pos')) :
    n ≤ 268435455 ∧ pos + (Spec.vint n).length ≤ pos' := by
  have h1 := varintLoop_lt 4 0 1 e pos n pos' (by decide) h
  have h2 := varintLoop_lt_used 4 0 1 e pos n pos' (by decide) h
  have h3 := varintLoop_ok_bounds 4 0 1 e pos n pos' h
  have h4 : n ≤ 268435455 := by simp at h1; omega
  refine ⟨h4, ?_⟩
  rw [vint_encoders_length n h4]
  rw [Nat.one_mul] at h2
  obtain ⟨d, hd⟩ : ∃ d, pos' = pos + d := ⟨pos' - pos, by omega⟩
  subst hd
  rw [Nat.add_sub_cancel_left] at h2
  have hd4 : d = 1 ∨ d = 2 ∨ d = 3 ∨ d = 4 := by omega
  rcases hd4 with rfl | rfl | rfl | rfl <;> simp at h2 <;> repeat' split
  all_goals omega

example : Asm.vint 321 = some [0xC1, 0x02] ∧ Asm.headerVint 321 = some [0xC1, 0x02] ∧
    varint ⟨[0xFF, 0xC1, 0x02, 0x55], 0⟩ 1 = .ok (321, 3) ∧ varint ⟨[0xFF, 0xC1], 0⟩ 1 = .incomplete := by decide
example : Asm.headerVint 268435455 = some [0xFF, 0xFF, 0xFF, 0x7F] := by decide +kernel

/-! ## C45: memory safety -/

/-- **C45** Whatever data is received, in whatever protocol version, the parser never reads a byte
which has not been received. -/
theorem parsePacket_in_bounds (ver : Option Nat) (buf : Bytes) : parsePacket ver buf ≠ .oob := by
  unfold parsePacket
  cases hf : fixedHeader buf with
  | ok h =>
    simp only [Res.bind]
    cases hb : parseBody ver h.ty h.flags ⟨buf, h.target⟩ h.vpos with
    | oob => exact absurd hb ((good_parseBody ver h.ty h.flags).safe _ _)
    | _ => simp
  | oob => exact absurd hf (fixedHeader_ne_oob buf).1
  | _ => simp [Res.bind]

-- the outcome exists: reading without a check gives it
example : rd 3 ⟨[1, 2, 3], 3⟩ 0 = .oob := by decide

/-! ## C46: more data does not change a verdict -/

/-- **C46** Once the parser has given a verdict other than incomplete, receiving more data does
not change it, so the verdict does not depend on how much had been received when it was given. -/
theorem parsePacket_stable (ver : Option Nat) (b ext : Bytes) (h : parsePacket ver b ≠ .incomplete) :
    parsePacket ver (b ++ ext) = parsePacket ver b := by
  unfold parsePacket at h ⊢
  cases hf : fixedHeader b with
  | incomplete => rw [hf] at h; exact absurd rfl h
  | ok x =>
    rw [fixedHeader_mono b ext _ hf (by simp)]
    rw [hf] at h
    simp only [Res.bind] at h ⊢
    cases hb : parseBody ver x.ty x.flags ⟨b, x.target⟩ x.vpos with
    | incomplete => rw [hb] at h; exact absurd rfl h
    | _ =>
      rw [(good_parseBody ver x.ty x.flags).mono b ext x.target x.vpos _ hb (by simp)]
  | soft => rw [fixedHeader_mono b ext _ hf (by simp)]; rfl
  | bug => rw [fixedHeader_mono b ext _ hf (by simp)]; rfl
  | oob => rw [fixedHeader_mono b ext _ hf (by simp)]; rfl

/-- **C46** Two receivers which have received different amounts of the same stream agree
as soon as both have a verdict. -/
theorem parsePacket_agree (ver : Option Nat) (stream : Bytes) (i j : Nat)
    (hi : parsePacket ver (stream.take i) ≠ .incomplete) (hj : parsePacket ver (stream.take j) ≠ .incomplete) :
    parsePacket ver (stream.take i) = parsePacket ver (stream.take j) := by
  have key : ∀ i j, i ≤ j → parsePacket ver (stream.take i) ≠ .incomplete →
      parsePacket ver (stream.take j) = parsePacket ver (stream.take i) := by
    intro i j hij h
    have : stream.take j = stream.take i ++ (stream.drop i).take (j - i) := by
      obtain ⟨d, rfl⟩ : ∃ d, j = i + d := ⟨j - i, by omega⟩
      rw [List.take_add, Nat.add_sub_cancel_left]
    rw [this]
    exact parsePacket_stable ver _ _ h
  rcases Nat.le_total i j with hij | hij
  · exact (key i j hij hi).symm
  · exact key j i hij hj

-- PINGREQ: a verdict exists, and it is the same with data behind it
example : parsePacket (some 4) [0xC0, 0x00] = .ok (.pingreq, 2) ∧
    parsePacket (some 4) [0xC0, 0x00, 0x30] = .ok (.pingreq, 2) := by decide

/-! ## C43: no packet aborts the broker -/

/-- **C43** (part) The only packets which can abort the process are SUBSCRIBE packets of
version 5. Missing for full strength: those do abort, see `subscribe_v5_aborts_iff`. -/
theorem parsePacket_no_abort_partial (ver : Option Nat) (buf : Bytes)
    (h : (∀ v, ver = some v → v < 5) ∨ ∀ b, buf.head? = some b → b.toNat / 16 ≠ 8) :
    parsePacket ver buf ≠ .bug := by
  unfold parsePacket
  cases hf : fixedHeader buf with
  | ok x =>
    simp only [Res.bind]
    cases hb : parseBody ver x.ty x.flags ⟨buf, x.target⟩ x.vpos with
    | bug =>
      refine absurd hb (noBug_parseBody ver x.ty x.flags ?_ _ _)
      rcases h with h | h
      · exact Or.inr h
      · refine Or.inl ?_
        unfold fixedHeader at hf
        cases buf with
        | nil => simp at hf
        | cons b bs =>
          have := h b rfl
          split at hf
          · cases hf
          · dsimp only at hf
            split at hf
            · cases hf
            · split at hf
              · cases hf
              · cases hv : varint ⟨b :: bs, 0⟩ 1 with
                | ok y => rw [hv] at hf; cases hf; exact this
                | _ => rw [hv] at hf; cases hf
    | _ => simp
  | bug => exact absurd hf (fixedHeader_ne_oob buf).2
  | _ => simp [Res.bind]

/-- `p` aborts on `b`, whatever follows. -/
def BugAt {α : Type} (p : P α) (b : Bytes) (pos t : Nat) : Prop :=
  ∀ pre rest : Bytes, pre.length = pos → p ⟨pre ++ (b ++ rest), t⟩ pos = .bug

theorem EncAt.bindBug {α β : Type} {p : P α} {f : α → P β} {b1 b2 : Bytes} {a : α} {pos t : Nat}
    (h1 : EncAt p b1 a pos t) (h2 : BugAt (f a) b2 (pos + b1.length) t) : BugAt (p >>= f) (b1 ++ b2) pos t := by
  intro pre rest hp
  rw [List.append_assoc, bind_ok (h1.full pre (b2 ++ rest) hp)]
  have := h2 (pre ++ b1) rest (by simp [hp])
  rwa [List.append_assoc] at this

theorem EncAt.bindBug0 {α β : Type} {p : P α} {f : α → P β} {b : Bytes} {a : α} {pos t : Nat}
    (h1 : EncAt p [] a pos t) (h2 : BugAt (f a) b pos t) : BugAt (p >>= f) b pos t := by
  have := h1.bindBug (f := f) (b2 := b) (by simpa using h2)
  simpa using this

theorem BugAt.bind {α β : Type} {p : P α} {f : α → P β} {b b2 : Bytes} {pos t : Nat} (h : BugAt p b pos t) :
    BugAt (p >>= f) (b ++ b2) pos t := by
  intro pre rest hp
  have := h pre (b2 ++ rest) hp
  simp only [bind_def, P.bind, List.append_assoc, this]

/-- A topic filter and its options byte as MQTT 5 permits them: QoS and retain handling at most
2, reserved bits clear; no-local (bit 2) and retain-as-published (bit 3) free. -/
def EntryOk (x : Bytes × UInt8) : Prop :=
  Spec.TopicFilter x.1 ∧ Spec.bits x.2.toNat 0 2 ≤ 2 ∧ Spec.bits x.2.toNat 4 2 ≤ 2 ∧ Spec.bits x.2.toNat 6 2 = 0

/-- No-local or retain-as-published is requested. -/
def Requests (x : Bytes × UInt8) : Prop := Spec.bits x.2.toNat 2 1 = 1 ∨ Spec.bits x.2.toNat 3 1 = 1

/-- MQTT 5, 3.8.3: payload of SUBSCRIBE. -/
def entriesWire : List (Bytes × UInt8) → Bytes
  | [] => []
  | (f, o) :: xs => (Asm.u16 f.length ++ f ++ [o]) ++ entriesWire xs

/-- MQTT 5, 3.8: a SUBSCRIBE packet with encoded properties `props`. -/
def subscribeWire (id : Nat) (props : Bytes) (xs : List (Bytes × UInt8)) : Bytes :=
  0x82 :: (Spec.vint (2 + props.length + (entriesWire xs).length) ++ (Asm.u16 id ++ (props ++ entriesWire xs)))

theorem parseFilter_entry {x : Bytes × UInt8} (h : EntryOk x) {pos t : Nat} (ht : pos + 2 + x.1.length ≤ t) :
    (¬ Requests x → ∃ s, EncAt (parseFilter 5 true) (Asm.u16 x.1.length ++ x.1 ++ [x.2]) s pos t) ∧
    (Requests x → BugAt (parseFilter 5 true) (Asm.u16 x.1.length ++ x.1 ++ [x.2]) pos t) := by
  obtain ⟨f, o⟩ := x
  obtain ⟨h1, h2, h3, h4⟩ := h
  simp only at h1 h2 h3 h4 ht ⊢
  constructor
  · intro hr
    have hr' : Spec.bits o.toNat 2 1 = 0 ∧ Spec.bits o.toNat 3 1 = 0 := by
      unfold Requests at hr
      simp only at hr
      rcases bits1_cases o.toNat 2 with a | a <;> rcases bits1_cases o.toNat 3 with b | b <;> simp_all
    refine ⟨⟨f, Spec.bits o.toNat 4 2, 0, 0, Spec.bits o.toNat 0 2⟩, ?_⟩
    unfold parseFilter
    refine encAt_filterPrefix (ver := 5) h1 (o := o) (ob := [o]) (fun pos t => ?_) ht ?_
    · simp only [filterOptions, if_true]; exact encAt_u8 _ _ _
    · simp only [flagBits_eq, hr'.1, hr'.2]
      refine (encAt_require (by simpa using h2) _ _).bind0 ?_
      refine (encAt_require (by simpa using h4) _ _).bind0 ?_
      refine (encAt_require (by simpa using h3) _ _).bind0 ?_
      refine (encAt_require (filterValidateName_of h1) _ _).bind0 ?_
      rw [new_some rfl rfl h3 (filterValidateName_of h1) h1.2.1]
      exact encAt_pure _ _ _
  · intro hr
    unfold parseFilter
    rw [List.append_assoc, ← List.append_assoc]
    refine (encAt_utf8 h1.1 (length_pos_of_ne h1.2.1) ht).bindBug ?_
    refine (encAt_require (by simpa using Topic.cstr_of_no_nul h1.1.1) _ _).bindBug0 ?_
    have : BugAt (filterOptions true >>= fun o => require (decide (flagBits o.toNat 0 2 ≤ 2)) >>= fun _ =>
        require (decide (flagBits o.toNat 6 2 = 0)) >>= fun _ =>
        require (if 5 ≥ 5 then decide (flagBits o.toNat 4 2 ≤ 2) else
          decide (flagBits o.toNat 4 2 = 0 ∧ flagBits o.toNat 3 1 = 0 ∧ flagBits o.toNat 2 1 = 0)) >>= fun _ =>
        require (Topic.filterValidateName f) >>= fun _ =>
        match Subscription.new f (flagBits o.toNat 4 2) (flagBits o.toNat 3 1) (flagBits o.toNat 2 1)
          (flagBits o.toNat 0 2) with
        | none => bug
        | some s => pure s) ([o] ++ []) (pos + (Asm.u16 f.length ++ f).length) t := by
      refine (show EncAt (filterOptions true) [o] o _ _ from encAt_u8 o _ _).bindBug ?_
      simp only [flagBits_eq]
      refine (encAt_require (by simpa using h2) _ _).bindBug0 ?_
      refine (encAt_require (by simpa using h4) _ _).bindBug0 ?_
      refine (encAt_require (by simpa using h3) _ _).bindBug0 ?_
      refine (encAt_require (filterValidateName_of h1) _ _).bindBug0 ?_
      have : Subscription.new f (Spec.bits o.toNat 4 2) (Spec.bits o.toNat 3 1) (Spec.bits o.toNat 2 1)
          (Spec.bits o.toNat 0 2) = none := by
        unfold Subscription.new
        rw [if_pos]
        rcases hr with hr | hr
        · left; simp only at hr; omega
        · right; left; simp only at hr; omega
      rw [this]
      intro pre rest hp; rfl
    rw [List.append_nil] at this
    exact this

theorem addUnique_small {acc : Subscription.Coll} {s : Subscription.Sub} (hl : acc.length < 65536) :
    ∃ r acc', Subscription.addUnique acc s true = (r, acc') ∧ r ≠ .refused ∧ acc'.length ≤ acc.length + 1 := by
  unfold Subscription.addUnique
  have hm : Subscription.collMax = 65536 := by unfold Subscription.collMax; rfl
  by_cases h0 : acc = []
  · exact ⟨.ok, [s], by simp [h0], by simp, by simp [h0]⟩
  · rw [if_neg h0]
    cases hr : Subscription.replaceFirst s acc with
    | none =>
      simp only
      rw [if_neg (by omega)]
      exact ⟨.ok, acc ++ [s], by simp, by simp, by simp⟩
    | some c =>
      obtain ⟨pre, x, post, e1, _, _, e2⟩ := Subscription.replaceFirst_some hr
      refine ⟨.replaced, c, rfl, by simp, ?_⟩
      rw [e1, e2]; simp

theorem filterLoop_entries (t : Nat) : ∀ (xs : List (Bytes × UInt8)) (acc : Subscription.Coll) (pos fuel : Nat),
    (∀ x ∈ xs, EntryOk x) → pos + (entriesWire xs).length = t → (entriesWire xs).length ≤ fuel →
    ((∃ x ∈ xs, Requests x) → acc.length + xs.length ≤ 65536 → BugAt (filterLoop 5 true fuel acc) (entriesWire xs) pos t) ∧
    ((∀ x ∈ xs, ¬ Requests x) → ∀ pre rest : Bytes, pre.length = pos →
      filterLoop 5 true fuel acc ⟨pre ++ (entriesWire xs ++ rest), t⟩ pos ≠ .bug)
  | [], acc, pos, fuel, _, hp, _ => by
    refine ⟨fun h => absurd h (by simp), fun _ pre rest _ => ?_⟩
    simp only [entriesWire, List.length_nil] at hp
    cases fuel with
    | zero => simp [filterLoop, pure_def, P.pure]
    | succ fuel =>
      unfold filterLoop
      rw [bind_ok (a := true) (pos' := pos) (by unfold targetEnd; simp; omega)]
      simp [pure_def, P.pure]
  | x :: xs, acc, pos, fuel, h, hp, hf => by
    obtain ⟨f, o⟩ := x
    simp only [entriesWire, List.length_append, List.length_cons, List.length_nil] at hp hf
    have e2 : (Asm.u16 f.length).length = 2 := rfl
    obtain ⟨fu, rfl⟩ : ∃ k, fuel = k + 1 := ⟨fuel - 1, by omega⟩
    have hx := parseFilter_entry (h (f, o) (by simp)) (pos := pos) (t := t) (by simp only; omega)
    simp only at hx
    have hnotend : decide (pos + 1 > t) = false := by simp; omega
    have hlen : (Asm.u16 f.length ++ f ++ [o]).length = 2 + f.length + 1 := by simp [e2]; omega
    by_cases hr : Requests (f, o)
    · refine ⟨fun _ _ => ?_, fun hn => absurd hr (hn _ (by simp))⟩
      unfold filterLoop
      refine (encAt_targetEnd pos t).bindBug0 ?_
      simp only [hnotend, Bool.false_eq_true, if_false]
      exact (hx.2 hr).bind
    · obtain ⟨s, hs⟩ := hx.1 hr
      constructor
      · intro hex hl
        simp only [List.length_cons] at hl
        obtain ⟨r, acc', ha, hne, hal⟩ := addUnique_small (acc := acc) (s := s) (by omega)
        unfold filterLoop
        refine (encAt_targetEnd pos t).bindBug0 ?_
        simp only [hnotend, Bool.false_eq_true, if_false]
        refine hs.bindBug ?_
        have hex' : ∃ x ∈ xs, Requests x := by
          obtain ⟨y, hy, hyr⟩ := hex
          rcases List.mem_cons.mp hy with rfl | hy
          · exact absurd hyr hr
          · exact ⟨y, hy, hyr⟩
        have := (filterLoop_entries t xs acc' (pos + (Asm.u16 f.length ++ f ++ [o]).length) fu
          (fun y hy => h y (by simp [hy])) (by omega) (by omega)).1 hex' (by omega)
        rw [ha]
        cases r with
        | refused => exact absurd rfl hne
        | ok => exact this
        | replaced => exact this
      · intro hn pre rest hpre
        unfold filterLoop
        rw [bind_ok (a := false) (pos' := pos) (by unfold targetEnd; rw [hnotend])]
        simp only [Bool.false_eq_true, if_false]
        have e1 : pre ++ (entriesWire ((f, o) :: xs) ++ rest) =
            pre ++ ((Asm.u16 f.length ++ f ++ [o]) ++ (entriesWire xs ++ rest)) := by simp [entriesWire]
        rw [e1, bind_ok (hs.full pre (entriesWire xs ++ rest) hpre)]
        have ih := fun acc' => (filterLoop_entries t xs acc' (pos + (Asm.u16 f.length ++ f ++ [o]).length) fu
          (fun y hy => h y (by simp [hy])) (by omega) (by omega)).2 (fun y hy => hn y (by simp [hy]))
          (pre ++ (Asm.u16 f.length ++ f ++ [o])) rest (by rw [List.length_append, hpre])
        rw [← List.append_assoc pre]
        cases ha : Subscription.addUnique acc s true with
        | mk r acc' =>
          cases r with
          | refused => simp [soft]
          | ok => exact ih acc'
          | replaced => exact ih acc'

theorem fixedHeader_wire {t0 : UInt8} {n : Nat} {b rest : Bytes} (h0 : t0.toNat / 16 ≠ 0)
    (hf : badFlags (t0.toNat / 16) (t0.toNat % 16) = false) (hn : n < 268435456) :
    fixedHeader (t0 :: (Spec.vint n ++ (b ++ rest))) =
      .ok ⟨t0.toNat / 16, t0.toNat % 16, 1 + (Spec.vint n).length, 1 + (Spec.vint n).length + n⟩ := by
  unfold fixedHeader
  have := vint_length_pos n
  rw [if_neg (by simp only [List.length_cons, List.length_append]; omega)]
  simp only
  rw [if_neg h0, if_neg (by rw [hf]; simp)]
  have := (encAt_varint hn 1 0).full [t0] (b ++ rest) rfl
  simp only [List.singleton_append] at this
  rw [this]
  rfl

/-- **C43** fails at full strength: a permitted version 5 SUBSCRIBE packet aborts the process
exactly when one of its filters requests the no-local or retain-as-published option. -/
theorem subscribe_v5_aborts_iff (id : Nat) (ps : List Property) (xs : List (Bytes × UInt8)) (pb rest : Bytes)
    (hid : 0 < id ∧ id < 65536) (hps : Spec.PropsOk ps) (hnb : ∀ p ∈ ps, ¬ Spec.IsBinary p)
    (hpb : Asm.props ps = some pb) (hx0 : xs ≠ []) (hxs : ∀ x ∈ xs, EntryOk x) (hcount : xs.length ≤ 65536)
    (hlen : 2 + pb.length + (entriesWire xs).length ≤ 268435455) :
    parsePacket (some 5) (subscribeWire id pb xs ++ rest) = .bug ↔ ∃ x ∈ xs, Requests x := by
  obtain ⟨pb', e1, hp⟩ := encAt_properties hps hnb
  rw [hpb] at e1; cases e1
  have hw : subscribeWire id pb xs ++ rest = 0x82 :: (Spec.vint (2 + pb.length + (entriesWire xs).length) ++
      ((Asm.u16 id ++ (pb ++ entriesWire xs)) ++ rest)) := by simp [subscribeWire]
  have e2 : (Asm.u16 id).length = 2 := rfl
  have hne : 0 < (entriesWire xs).length := by
    cases xs with
    | nil => exact absurd rfl hx0
    | cons x xs => obtain ⟨f, o⟩ := x; simp [entriesWire, Asm.u16]
  unfold parsePacket
  rw [hw, fixedHeader_wire (by decide) (by decide) (by omega)]
  simp only [Res.bind]
  generalize hv : Spec.vint (2 + pb.length + (entriesWire xs).length) = v
  have hpre : ([0x82] ++ v : Bytes).length = 1 + v.length := by simp; omega
  have hbuf : (0x82 :: (v ++ ((Asm.u16 id ++ (pb ++ entriesWire xs)) ++ rest)) : Bytes) =
      ([0x82] ++ v) ++ ((Asm.u16 id ++ (pb ++ entriesWire xs)) ++ rest) := by simp
  rw [hbuf]
  generalize htd : 1 + v.length + (2 + pb.length + (entriesWire xs).length) = t
  have hloop := filterLoop_entries t xs [] (1 + v.length + 2 + pb.length)
    (t - (1 + v.length + 2 + pb.length)) hxs (by omega) (by omega)
  have hbody : parseBody (some 5) (UInt8.toNat 0x82 / 16) (UInt8.toNat 0x82 % 16) = parseSubUsub 5 true := rfl
  rw [hbody]
  constructor
  · intro h
    apply Classical.byContradiction
    intro hno
    have hno' : ∀ x ∈ xs, ¬ Requests x := fun x hx hr => hno ⟨x, hx, hr⟩
    have hl := hloop.2 hno' (([0x82] ++ v) ++ Asm.u16 id ++ pb) rest
      (by simp only [List.length_append, hpre, e2])
    have hnb : parseSubUsub 5 true ⟨([0x82] ++ v) ++ ((Asm.u16 id ++ (pb ++ entriesWire xs)) ++ rest), t⟩
        (1 + v.length) ≠ .bug := by
      have hpropz : EncAt (propertiesIfV5 5) pb ps (1 + v.length + (Asm.u16 id).length) t := by
        unfold propertiesIfV5; rw [if_pos (by omega)]; exact hp _ _ (by omega)
      unfold parseSubUsub
      rw [List.append_assoc (Asm.u16 id), bind_ok ((encAt_packetId id hid.1 hid.2 _ t).full _ _ hpre)]
      rw [← List.append_assoc _ (Asm.u16 id), List.append_assoc pb]
      rw [bind_ok (hpropz.full ([0x82] ++ v ++ Asm.u16 id) _ (by rw [List.length_append, hpre]))]
      rw [e2] at *
      rw [bind_ok (a := ()) (pos' := 1 + v.length + 2 + pb.length) (by
        have := (encAt_endHeader (pos := 1 + v.length + 2 + pb.length) (t := t) (by omega)).full
        unfold endHeader
        simp only [bind_def, P.bind, getPos, getTarget, require]
        rw [if_pos (by simp; omega)]; rfl)]
      rw [bind_ok (a := false) (pos' := 1 + v.length + 2 + pb.length) (by
        unfold targetEnd; simp only [Res.ok.injEq, Prod.mk.injEq, and_true]; simp; omega)]
      rw [bind_ok (a := ()) (pos' := 1 + v.length + 2 + pb.length) (by rfl)]
      rw [bind_ok (p := getPos) rfl, bind_ok (p := getTarget) rfl]
      intro hb
      rcases bind_cases hb with ⟨a, p', h1, h2⟩ | ⟨_, h⟩ | ⟨_, h⟩ | ⟨h, _⟩ | ⟨_, h⟩
      · exact (noBug_verifyEnd.bind fun _ => NoBug.pure _) _ _ h2
      · cases h
      · cases h
      · rw [← List.append_assoc] at h
        exact hl h
      · cases h
    cases hr : parseSubUsub 5 true ⟨([0x82] ++ v) ++ ((Asm.u16 id ++ (pb ++ entriesWire xs)) ++ rest), t⟩
        (1 + v.length) with
    | bug => exact hnb hr
    | _ => rw [hr] at h; cases h
  · intro hex
    have hb := hloop.1 hex (by simpa using hcount)
    have : BugAt (parseSubUsub 5 true) (Asm.u16 id ++ (pb ++ entriesWire xs)) (1 + v.length) t := by
      unfold parseSubUsub
      refine (encAt_packetId id hid.1 hid.2 _ _).bindBug ?_
      refine EncAt.bindBug (p := propertiesIfV5 5) (a := ps) ?_ ?_
      · unfold propertiesIfV5; rw [if_pos (by omega)]; exact hp _ _ (by omega)
      refine (encAt_endHeader (by omega)).bindBug0 ?_
      refine (encAt_targetEnd _ _).bindBug0 ?_
      refine (encAt_require (by simp; omega) _ _).bindBug0 ?_
      refine (encAt_getPos _ _).bindBug0 ((encAt_getTarget _ _).bindBug0 ?_)
      have := hb.bind (f := fun subs => verifyEnd >>= fun _ =>
        pure (if true = true then Packet.subscribe id ps subs else Packet.unsubscribe id ps subs)) (b2 := [])
      rw [List.append_nil] at this
      exact this
    rw [this _ rest hpre]

/-- **C43** fails: SUBSCRIBE to "a" with the no-local option. -/
theorem subscribe_abort_witness :
    parsePacket (some 5) [0x82, 0x07, 0x00, 0x01, 0x00, 0x00, 0x01, 0x61, 0x04] = .bug := by decide +kernel

-- hypotheses of `subscribe_v5_aborts_iff` are met by that packet, and by one which does not abort
example : subscribeWire 1 [0] [([0x61], 4)] = [0x82, 0x07, 0x00, 0x01, 0x00, 0x00, 0x01, 0x61, 0x04] ∧
    Asm.props [] = some [0] := by
  simp [subscribeWire, entriesWire, Spec.vint, Asm.u16]; decide
example : parsePacket (some 5) [0x82, 0x07, 0x00, 0x01, 0x00, 0x00, 0x01, 0x61, 0x01] =
    .ok (.subscribe 1 [] [⟨[0x61], 0, 0, 0, 1⟩], 9) := by decide +kernel

/-! ## C47: what is sent is received -/

/-- **C47** Every well-formed packet (see `Spec.Sendable`) which is short enough is assembled
without abort, and the receiver gets exactly that packet, consuming exactly the bytes sent,
whatever follows them on the stream; while only a strict prefix has arrived the receiver waits.
Missing for full strength: packets with binary data properties, see `correlation_data_lost`. -/
theorem packet_roundtrip_partial (ver : Nat) (hv : ver = 3 ∨ ver = 4 ∨ ver = 5) (p : Packet)
    (h : Spec.Sendable ver p) (hnb : ∀ q ∈ Spec.allProps p, ¬ Spec.IsBinary q)
    (hlen : ∀ b, Asm.body ver p = some b → b.length + (Asm.payload p).length ≤ 268435455) :
    ∃ bytes, Asm.packet ver p = some bytes ∧
      (∀ rest, parsePacket (some ver) (bytes ++ rest) = .ok (p, bytes.length)) ∧
      (∀ got more, bytes = got ++ more → more ≠ [] → parsePacket (some ver) got = .incomplete) := by
  obtain ⟨b, hb, henc, _⟩ := body_roundtrip hv h hnb
  have hl := hlen b hb
  have hty : ∃ t0 : UInt8, Asm.u8 (p.ty * 16 + Asm.typeFlags p) = [t0] ∧ t0.toNat / 16 = p.ty ∧
      t0.toNat % 16 = Asm.typeFlags p ∧ p.ty ≠ 0 ∧ badFlags p.ty (Asm.typeFlags p) = false := by
    refine ⟨_, rfl, ?_⟩
    have key : ∀ ty : Fin 15, ty ≠ 0 → ty ≠ 3 → (UInt8.ofNat (ty.val * 16 + (reservedFlags ty.val).getD 0)).toNat / 16 = ty ∧
      (UInt8.ofNat (ty.val * 16 + (reservedFlags ty.val).getD 0)).toNat % 16 = (reservedFlags ty.val).getD 0 ∧
      ty.val ≠ 0 ∧ badFlags ty ((reservedFlags ty.val).getD 0) = false := by decide +kernel
    cases p with
    | publish flags topic id ps pl =>
      have hf := h.1
      simp only [Packet.ty, Asm.typeFlags, UInt8.toNat_ofNat']
      refine ⟨by omega, by omega, by decide, rfl⟩
    | ack ty id r ps =>
      obtain ⟨h4, h7, _⟩ := h
      have : ty = 4 ∨ ty = 5 ∨ ty = 6 ∨ ty = 7 := by omega
      rcases this with rfl | rfl | rfl | rfl
      · exact key 4 (by decide) (by decide)
      · exact key 5 (by decide) (by decide)
      · exact key 6 (by decide) (by decide)
      · exact key 7 (by decide) (by decide)
    | connect => exact key 1 (by decide) (by decide)
    | connack => exact key 2 (by decide) (by decide)
    | subscribe => exact key 8 (by decide) (by decide)
    | unsubscribe => exact key 10 (by decide) (by decide)
    | suback => exact key 9 (by decide) (by decide)
    | unsuback => exact key 11 (by decide) (by decide)
    | pingreq => exact key 12 (by decide) (by decide)
    | pingresp => exact key 13 (by decide) (by decide)
    | disconnect => exact key 14 (by decide) (by decide)
  obtain ⟨t0, ht0, hq, hm, hne, hbf⟩ := hty
  generalize hvn : Spec.vint (b.length + (Asm.payload p).length) = v
  have hpk : Asm.packet ver p = some (t0 :: (v ++ (b ++ Asm.payload p))) := by
    unfold Asm.packet
    simp only [hb, headerVint_eq (show b.length + (Asm.payload p).length < 268435456 by omega), hvn, ht0,
      Option.bind_eq_bind, Option.bind_some]
    simp
  have hpre : ([t0] ++ v : Bytes).length = 1 + v.length := by simp; omega
  have henc' := henc (1 + v.length) (1 + v.length + (b ++ Asm.payload p).length) rfl
  refine ⟨_, hpk, ?_, ?_⟩
  · intro rest
    unfold parsePacket
    have e : (t0 :: (v ++ (b ++ Asm.payload p)) ++ rest : Bytes) =
        t0 :: (Spec.vint (b.length + (Asm.payload p).length) ++ ((b ++ Asm.payload p) ++ rest)) := by simp [hvn]
    rw [e, fixedHeader_wire (by omega) (by rw [hq, hm]; exact hbf) (by omega)]
    simp only [Res.bind, hq, hm, hvn]
    have := henc'.full ([t0] ++ v) rest hpre
    rw [List.length_append] at this
    have e2 : (t0 :: (v ++ ((b ++ Asm.payload p) ++ rest)) : Bytes) = ([t0] ++ v) ++ ((b ++ Asm.payload p) ++ rest) := by simp
    rw [e2, this]
    simp; omega
  · intro got more hgm hmore
    unfold parsePacket
    cases got with
    | nil => rfl
    | cons g got =>
      simp only [List.cons_append, List.cons.injEq] at hgm
      obtain ⟨rfl, hgm⟩ := hgm
      by_cases h2 : (t0 :: got).length < 2
      · unfold fixedHeader; rw [if_pos h2]; rfl
      · rcases List.append_eq_append_iff.mp hgm with ⟨g, e1, e2⟩ | ⟨g, e1, e2⟩
        · -- the fixed header is complete
          subst e1
          have := fixedHeader_wire (t0 := t0) (b := g) (rest := []) (n := b.length + (Asm.payload p).length)
            (by omega) (by rw [hq, hm]; exact hbf) (by omega)
          rw [hvn, List.append_nil] at this
          rw [this]
          simp only [Res.bind, hq, hm]
          have := henc'.part ([t0] ++ v) g more hpre e2 hmore
          rw [List.length_append] at this
          have e3 : (t0 :: (v ++ g) : Bytes) = ([t0] ++ v) ++ g := by simp
          rw [e3, this]
        · by_cases hg : g = []
          · subst hg
            rw [List.append_nil] at e1
            subst e1
            have := fixedHeader_wire (t0 := t0) (b := []) (rest := []) (n := b.length + (Asm.payload p).length)
              (by omega) (by rw [hq, hm]; exact hbf) (by omega)
            rw [hvn] at this
            simp only [List.append_nil] at this
            rw [this]
            simp only [Res.bind, hq, hm]
            have := henc'.part ([t0] ++ v) [] more hpre (by simpa using e2.symm) hmore
            rw [List.length_append, List.append_nil] at this
            have e3 : (t0 :: v : Bytes) = [t0] ++ v := rfl
            rw [e3, this]
          · have hvp := (encAt_varint (n := b.length + (Asm.payload p).length) (by omega) 1 0).part [t0] got g rfl
              (by rw [hvn]; exact e1) hg
            unfold fixedHeader
            rw [if_neg h2]
            simp only
            rw [if_neg (by omega), if_neg (by rw [hq, hm, hbf]; simp)]
            have e3 : (t0 :: got : Bytes) = [t0] ++ got := rfl
            rw [e3, hvp]
            rfl

/-- **C47** CONNECT is understood before the protocol version is known. -/
theorem connect_roundtrip_partial (ver : Nat) (hv : ver = 3 ∨ ver = 4 ∨ ver = 5) (p : Packet) (hty : p.ty = 1)
    (h : Spec.Sendable ver p) (hnb : ∀ q ∈ Spec.allProps p, ¬ Spec.IsBinary q)
    (hlen : ∀ b, Asm.body ver p = some b → b.length + (Asm.payload p).length ≤ 268435455) :
    ∃ bytes, Asm.packet ver p = some bytes ∧
      ∀ rest, parsePacket none (bytes ++ rest) = .ok (p, bytes.length) := by
  obtain ⟨bytes, h1, h2, _⟩ := packet_roundtrip_partial ver hv p h hnb hlen
  refine ⟨bytes, h1, fun rest => ?_⟩
  rw [← h2 rest]
  have hb : ∀ flags, parseBody none 1 flags = parseBody (some ver) 1 flags := fun _ => rfl
  have h3 := h2 rest
  unfold parsePacket at h3 ⊢
  cases hf : fixedHeader (bytes ++ rest) with
  | ok x =>
    rw [hf] at h3
    simp only [Res.bind] at h3 ⊢
    have hx : x.ty = 1 := by
      cases p with
      | ack ty id r ps => obtain ⟨h4, _⟩ := h; simp [Packet.ty] at hty; omega
      | connect v flags ka ps cid will user pass =>
        -- the first byte sent is 0x10
        have hb1 : ∃ tl, bytes = 0x10 :: tl := by
          unfold Asm.packet at h1
          simp only [Option.bind_eq_bind, Option.bind_eq_some_iff, Option.pure_def, Option.some.injEq] at h1
          obtain ⟨_, _, _, _, e⟩ := h1
          exact ⟨_, by rw [← e]; rfl⟩
        obtain ⟨tl, rfl⟩ := hb1
        unfold fixedHeader at hf
        split at hf
        · cases hf
        · simp only [List.cons_append] at hf
          split at hf
          · cases hf
          · split at hf
            · cases hf
            · cases hvv : varint ⟨0x10 :: (tl ++ rest), 0⟩ 1 with
              | ok y => rw [hvv] at hf; cases hf; rfl
              | _ => rw [hvv] at hf; cases hf
      | _ => simp [Packet.ty] at hty
    rw [hx, hb]
  | _ => rfl

/-- **C47** fails at full strength: a PUBLISH packet with Correlation Data is well-formed and is
sent, but what arrives is a different packet; here a user property is swallowed. -/
theorem correlation_data_lost :
    ∃ p bytes q, Spec.Sendable 5 p ∧ Asm.packet 5 p = some bytes ∧
      parsePacket (some 5) bytes = .ok (q, bytes.length) ∧ p ≠ q := by
  refine ⟨.publish 0 [0x61] 0 [⟨0x09, .data [0x78, 0x79]⟩, ⟨0x01, .num 1⟩] [], _,
    .publish 0 [0x61] 0 [⟨0x09, .data [0x78, 0x79]⟩] [], ?_, rfl, by decide +kernel, by decide⟩
  refine ⟨by decide, by decide, by decide, ⟨⟨by decide, ⟨[0x61], by decide, by decide⟩, by decide⟩, by decide,
    by decide, by decide⟩, by rw [if_pos (by decide)], ?_⟩
  show Spec.PropsOk _
  refine ⟨?_, by decide⟩
  intro p hp
  rcases List.mem_cons.mp hp with rfl | hp
  · show _ ∧ _; decide
  · rcases List.mem_cons.mp hp with rfl | hp
    · show _ < _; decide
    · simp at hp

theorem text_a : Spec.Text [0x61] := ⟨by decide, ⟨[0x61], by decide, by decide⟩, by decide⟩

-- the hypotheses of `packet_roundtrip_partial` are met by a CONNECT packet with will, user name and
-- password, and by a QoS 1 PUBLISH packet with a user property and a payload
example : Spec.Sendable 5 (.connect 5 0xEE 60 [⟨0x21, .num 10⟩] [0x61]
    (some ⟨[⟨0x18, .num 100⟩], [0x61], [0x62, 0x63]⟩) (some [0x61]) (some [0x61])) := by
  refine ⟨rfl, ⟨by decide, by decide, by decide, by decide, by decide, by decide, by decide, ?_, ?_, ?_⟩, by decide, ?_,
    text_a⟩
  · rintro w h; cases h
    refine ⟨?_, ⟨text_a, by decide, by decide, by decide⟩, by decide, by decide⟩
    show Spec.PropsOk _
    refine ⟨?_, by decide⟩
    intro p hp; rcases List.mem_singleton.mp hp with rfl; show _ < _; decide
  · rintro s h; cases h; exact ⟨by decide, text_a⟩
  · rintro s h; cases h; exact ⟨by decide, text_a⟩
  · show Spec.PropsOk _
    refine ⟨?_, by decide⟩
    intro p hp; rcases List.mem_singleton.mp hp with rfl; show _ < _; decide
example : Spec.Sendable 5 (.publish 2 [0x61] 7 [⟨0x26, .pair [0x61] [0x61]⟩] [1, 2, 3]) ∧
    Asm.packet 5 (.publish 2 [0x61] 7 [⟨0x26, .pair [0x61] [0x61]⟩] [1, 2, 3]) =
      some [0x32, 0x10, 0x00, 0x01, 0x61, 0x00, 0x07, 0x07, 0x26, 0x00, 0x01, 0x61, 0x00, 0x01, 0x61, 1, 2, 3] := by
  refine ⟨⟨by decide, by decide, by decide, ⟨text_a, by decide, by decide, by decide⟩, ?_, ?_⟩, by decide +kernel⟩
  · rw [if_neg (by decide)]; exact ⟨by decide, by decide⟩
  · show Spec.PropsOk _
    refine ⟨?_, by decide⟩
    intro p hp; rcases List.mem_singleton.mp hp with rfl
    exact ⟨⟨by decide, text_a⟩, by decide, text_a⟩

/-! ## C49: the verdict depends on the packet's own bytes only -/

/-- **C49** fails: a SUBSCRIBE packet from which the last options byte is missing is not complete
when all its bytes have been received, and is accepted with the first byte of the next packet
(here PINGREQ would be 0xC0; 0x00 stands for any byte which is a valid options byte). -/
theorem verdict_uses_next_packet :
    ∃ (own next : Bytes) (p : Packet), (own.length : Nat) = 7 ∧
      parsePacket (some 4) own = .incomplete ∧ parsePacket (some 4) (own ++ next) = .ok (p, own.length) := by
  exact ⟨[0x82, 0x05, 0x00, 0x01, 0x00, 0x01, 0x61], [0x01], .subscribe 1 [] [⟨[0x61], 0, 0, 0, 1⟩], rfl,
    by decide +kernel, by decide +kernel⟩

/-- **C49** (part) For data which a conforming sender produces, the verdict on a packet is the
same whatever follows it. Missing for full strength: malformed packets, see above. -/
theorem verdict_own_bytes_partial (ver : Nat) (hv : ver = 3 ∨ ver = 4 ∨ ver = 5) (p : Packet)
    (h : Spec.Sendable ver p) (hnb : ∀ q ∈ Spec.allProps p, ¬ Spec.IsBinary q) (bytes next : Bytes)
    (hb : Asm.packet ver p = some bytes)
    (hlen : ∀ b, Asm.body ver p = some b → b.length + (Asm.payload p).length ≤ 268435455) :
    parsePacket (some ver) (bytes ++ next) = parsePacket (some ver) bytes := by
  obtain ⟨bs, h1, h2, _⟩ := packet_roundtrip_partial ver hv p h hnb hlen
  rw [hb] at h1; cases h1
  have := h2 []
  rw [List.append_nil] at this
  rw [this, h2 next]

end Verif.Mqtt
