import Verif.Types.Props
/-!
# Messages with arrays: packing again, access by tag, safety (C57 – C60)
-/
namespace Verif.Types
open Verif Endian Msg Spec

/-- What an array message is to hold, by its bytes: one value after the other. -/
theorem toArray_ok {le : Bool} {m : MsgMsg} {vs : List Value} (h : Consistent m) (ho : toArray le m = .ok vs) :
    m.class_ = 11 ∧ m.version = 7 ∧ ∃ rs : List Raw, m.data = rs.flatMap rawBytes ∧ (∀ r ∈ rs, RawFine r) ∧
      iterList (appendCallback le) rs [] = .ok (vs, true) := by
  have hc : m.class_ = 11 := by
    by_cases hc : m.class_ = 11
    · exact hc
    · simp [toArray, messageIterate, hc, Res.bind] at ho
  have hv : m.version = 7 := by
    by_cases hv : m.version = 7
    · exact hv
    · simp [toArray, messageIterate, hc, hv, Res.bind, arrayVersion] at ho
  refine ⟨hc, hv, ?_⟩
  unfold toArray at ho
  rw [messageIterate_eq _ _ _ h hc hv] at ho
  obtain ⟨⟨vs', ok⟩, h1, h2⟩ := bind_eq_ok ho
  dsimp only at h2
  cases ok with
  | false => cases h2
  | true =>
    cases h2
    obtain ⟨rs, hb, hf⟩ := iterate_append_ok le _ _ _ _ h1
    refine ⟨rs, hb, hf, ?_⟩
    rw [hb, iterate_eq _ _ hf _ _ (Nat.le_refl _)] at h1
    exact h1

/-- The values unpacked are those of the raw values, one by one. -/
theorem append_iterList_ok (le : Bool) (rs : List Raw) : ∀ acc vs, iterList (appendCallback le) rs acc = .ok (vs, true) →
    ∃ ws, vs = acc ++ ws ∧ ws.length = rs.length ∧
      ∀ p ∈ rs.zip ws, unpack le p.1.ty p.1.flags p.1.tag p.1.data p.1.elements = .ok p.2 := by
  induction rs with
  | nil =>
    intro acc vs h
    cases h
    exact ⟨[], by simp, rfl, by simp⟩
  | cons r rs ih =>
    intro acc vs h
    unfold iterList at h
    obtain ⟨⟨acc', c⟩, h1, h2⟩ := bind_eq_ok h
    dsimp only at h2
    unfold appendCallback at h1
    split at h1
    · rename_i v hv
      cases h1
      obtain ⟨ws, rfl, hl, hz⟩ := ih _ _ h2
      refine ⟨v :: ws, by simp, by simp [hl], ?_⟩
      intro p hp
      rcases List.mem_cons.mp hp with rfl | hp
      · exact hv
      · exact hz p hp
    · cases h1
    · cases h1
    · cases h1
      cases h2

/-- A value which is unpacked and packed again gives the same bytes, unless it has type `msg` or is a `vain` value
with data. -/
theorem raw_repack {le : Bool} {r : Raw} {v : Value} (hf : RawFine r)
    (h : unpack le r.ty r.flags r.tag r.data r.elements = .ok v) (hm : v.ty ≠ .msg) (hv : v.ty = .vain → v.data = []) :
    Content v ∧ rawOf le v = r := by
  obtain ⟨ty, flags, tag, data, elements⟩ := r
  dsimp only at h
  have c64 : ∀ {t : Ty} {w : Value}, (conv64 le data).bind (fun d => Res.ok (⟨t, flags, tag, elements, d, []⟩ : Value)) = .ok w →
      w = ⟨t, flags, tag, elements, swap64 le data, []⟩ ∧ data.length % 8 = 0 := by
    intro t w hw
    obtain ⟨d, h1, h2⟩ := bind_eq_ok hw
    unfold conv64 at h1
    split at h1
    · cases h1
    · rename_i hl
      cases h1; cases h2
      exact ⟨rfl, by omega⟩
  have s2 := fun (hl : data.length % 8 = 0) => swap64_twice le data
  cases ty <;> simp only [unpack] at h
  all_goals first
    | (obtain ⟨rfl, hl⟩ := c64 h
       exact ⟨⟨by rw [swap64_length]; exact hl, rfl⟩, by simp [rawOf, wireTy, wireData, swap64_twice]⟩)
    | (split at h
       · cases h
       · rename_i hl
         cases h
         exact ⟨⟨by intro e; exact hl (by rw [show data = [] from e]; rfl), rfl⟩, by simp [rawOf, wireTy, wireData]⟩)
    | (cases h; exact ⟨rfl, rfl⟩)
    | (cases h; have := hv rfl; exact ⟨⟨this, rfl⟩, by simpa [rawOf, wireTy, wireData] using this.symm⟩)
    | (cases h; done)
    | (obtain ⟨ms, _, h2⟩ := bind_eq_ok h; cases h2; exact absurd rfl hm)

theorem repack_all {le : Bool} : ∀ (rs : List Raw) (ws : List Value), ws.length = rs.length →
    (∀ r ∈ rs, RawFine r) → (∀ p ∈ rs.zip ws, unpack le p.1.ty p.1.flags p.1.tag p.1.data p.1.elements = .ok p.2) →
    (∀ v ∈ ws, v.ty ≠ .msg ∧ (v.ty = .vain → v.data = [])) → (∀ v ∈ ws, Content v) ∧ ws.map (rawOf le) = rs
  | [], [], _, _, _, _ => by simp
  | r :: rs, w :: ws, hl, hf, hz, hv => by
    obtain ⟨hc, hr⟩ := raw_repack (hf r (by simp)) (hz (r, w) (by simp)) (hv w (by simp)).1 (hv w (by simp)).2
    obtain ⟨hcs, hrs⟩ := repack_all rs ws (by simpa using hl) (fun x hx => hf x (by simp [hx]))
      (fun p hp => hz p (by simp [hp])) (fun x hx => hv x (by simp [hx]))
    refine ⟨?_, by rw [List.map_cons, hr, hrs]⟩
    intro v hvm
    rcases List.mem_cons.mp hvm with rfl | hvm
    · exact hc
    · exact hcs v hvm
  | [], _ :: _, hl, _, _, _ => by simp at hl
  | _ :: _, [], hl, _, _, _ => by simp at hl

/-! ## C57 -/

/-- **C57**, partial. What is unpacked from a message can be packed again, and this gives the same topic and the same bytes.

Missing from the full property: values which are messages themselves, and `vain` values which arrive with data. For the latter
the property is false, see `repack_vain_aborts`. -/
theorem repack_partial (le : Bool) (m : MsgMsg) (vs : List Value) (h : Consistent m) (hsz : m.topicLength.toNat ≤ 0xffff)
    (ho : toArray le m = .ok vs) (hv : ∀ v ∈ vs, v.ty ≠ .msg ∧ (v.ty = .vain → v.data = [])) (time : UInt64) :
    ∃ m', newMessage le vs time m.topic = .ok m' ∧ m'.topic = m.topic ∧ m'.data = m.data ∧ m'.timestamp = time ∧
      m'.head.size = m.head.size := by
  obtain ⟨_, _, rs, hd, hf, hi⟩ := toArray_ok h ho
  obtain ⟨ws, hws, hl, hz⟩ := append_iterList_ok le rs [] vs hi
  rw [List.nil_append] at hws
  subst hws
  obtain ⟨hc, hr⟩ := repack_all rs vs hl hf hz hv
  obtain ⟨_, _, h3, h4⟩ := consistent_data h
  have ht : total vs = m.data.length := by rw [← flat_length le vs hc, hr, ← hd]
  have hlen : m.body.length = m.topic.length + m.data.length := by rw [← List.length_append, ← h3]
  have hsize := h.1
  have hlt : m.head.size.toNat < 2 ^ 32 := UInt32.toNat_lt _
  have hsum : 30 + m.topic.length + total vs ≤ 0xffffffff := by omega
  have htl : m.topic.length ≤ 0xffff := by omega
  obtain ⟨_, e1, e2, _, _⟩ := messageOf_consistent le vs time m.topic hc htl hsum
  refine ⟨_, newMessage_eq le vs time m.topic hc htl hsum, e1, by rw [e2, hr, ← hd], rfl, ?_⟩
  show UInt32.ofNat _ = _
  rw [← UInt32.toNat_inj, UInt32.toNat_ofNat', Nat.mod_eq_of_lt (by omega), hsize]
  omega

/-- A message with a `vain` value which has a byte of data. -/
def vainMsg : MsgMsg := ⟨⟨46, 2, 0⟩, 0, setClass (setType 0 1) 11, 7, 1, [0x74] ++ rawBytes ⟨.vain, 0, [], [5], 1⟩⟩

/-- **C57** fails: a message with a `vain` value which has data is received and unpacked, and packing the values again aborts the
program. -/
theorem repack_vain_aborts : ∃ (m : MsgMsg) (vs : List Value), Consistent m ∧
    (∃ b, msgToNetwork m = .ok b ∧ receive b = .ok (.msg m, b.length)) ∧
    toArray true m = .ok vs ∧ newMessage true vs 0 m.topic = .bug := by
  refine ⟨vainMsg, [⟨.vain, 0, [], 1, [5], []⟩], ⟨by decide, by decide⟩, ?_, by decide +kernel, by decide +kernel⟩
  have hg : GoodMsg vainMsg :=
    ⟨by decide, by decide, rfl, by decide, by decide,
      by rw [← Utf8.validate_iff_of_no_nul _ (by decide)]; decide +kernel, by decide⟩
  refine ⟨_, (good_wire hg).1, ?_⟩
  have hrl : vainMsg.head.size.toNat = 18 + (msgRest vainMsg).length := by rw [hg.size, msgRest_length]; omega
  have := receive_wire vainMsg.head (msgRest vainMsg) [] hrl
  rw [List.append_nil] at this
  rw [this, toHost_wire _ _ hrl (show typeFine 2 = true by decide), good_host hg]
  rfl

/-! ## C58 -/

theorem unpack_tag {le : Bool} {r : Raw} {v : Value} (h : unpack le r.ty r.flags r.tag r.data r.elements = .ok v) :
    v.tag = r.tag := by
  obtain ⟨ty, flags, tag, data, elements⟩ := r
  dsimp only at h
  cases ty <;> simp only [unpack] at h
  all_goals first
    | (obtain ⟨d, _, h2⟩ := bind_eq_ok h; cases h2; rfl)
    | (split at h
       · cases h
       · cases h; rfl)
    | (cases h; done)
    | (cases h; rfl)

theorem hasTag_list (tag : Bytes) : ∀ (rs : List Raw),
    iterList (fun (_ : Unit) r => .ok ((), if r.tag == tag then .fail else .next)) rs () =
      .ok ((), !(rs.any fun r => r.tag == tag))
  | [] => rfl
  | r :: rs => by
    unfold iterList
    simp only [Res.bind, List.any_cons]
    cases hb : r.tag == tag
    · simpa using hasTag_list tag rs
    · simp

/-- The tags of the values unpacked. -/
theorem tags_eq {le : Bool} : ∀ (rs : List Raw) (ws : List Value), ws.length = rs.length →
    (∀ p ∈ rs.zip ws, unpack le p.1.ty p.1.flags p.1.tag p.1.data p.1.elements = .ok p.2) →
    ws.map (·.tag) = rs.map (·.tag)
  | [], [], _, _ => rfl
  | r :: rs, w :: ws, hl, hz => by
    rw [List.map_cons, List.map_cons, tags_eq rs ws (by simpa using hl) (fun p hp => hz p (by simp [hp])),
      unpack_tag (hz (r, w) (by simp))]
  | [], _ :: _, hl, _ => by simp at hl
  | _ :: _, [], hl, _ => by simp at hl

/-- **C58**, the presence of a tag. For a message which can be unpacked, looking for a tag in the message finds it exactly
when a value with this tag is among those unpacked. -/
theorem has_tag_exact (le : Bool) (m : MsgMsg) (vs : List Value) (tag : Bytes) (h : Consistent m) (ho : toArray le m = .ok vs) :
    ∃ b, messageHasTag m tag = .ok b ∧ (b = true ↔ ∃ v ∈ vs, v.tag = tag) := by
  obtain ⟨hc, hver, rs, hd, hf, hi⟩ := toArray_ok h ho
  obtain ⟨ws, hws, hl, hz⟩ := append_iterList_ok le rs [] vs hi
  rw [List.nil_append] at hws
  subst hws
  refine ⟨rs.any fun r => r.tag == tag, ?_, ?_⟩
  · unfold messageHasTag
    rw [if_neg (by simp [hc]), messageIterate_eq _ _ _ h hc hver, hd, iterate_eq _ _ hf _ _ (Nat.le_refl _), hasTag_list]
    simp [Res.bind]
  · have ht := tags_eq rs vs hl hz
    have e1 : (∃ v ∈ vs, v.tag = tag) ↔ tag ∈ vs.map (·.tag) := by simp
    rw [e1, ht]
    simp

theorem byTag_list (le : Bool) (tag : Bytes) : ∀ (rs : List Raw) (ws : List Value), ws.length = rs.length →
    (∀ p ∈ rs.zip ws, unpack le p.1.ty p.1.flags p.1.tag p.1.data p.1.elements = .ok p.2) →
    iterList (tagCallback le tag) rs none = .ok (ws.find? fun v => isTag v tag, true)
  | [], [], _, _ => rfl
  | r :: rs, w :: ws, hl, hz => by
    unfold iterList
    have hw : unpack le r.ty r.flags r.tag r.data r.elements = .ok w := hz (r, w) (by simp)
    simp only [tagCallback, hw, Res.bind, List.find?_cons]
    cases hb : isTag w tag
    · simpa using byTag_list le tag rs ws (by simpa using hl) (fun p hp => hz p (by simp [hp]))
    · simp
  | [], _ :: _, hl, _ => by simp at hl
  | _ :: _, [], hl, _ => by simp at hl

/-- **C58**, the value with a tag. For a message which can be unpacked, taking the value with a tag from the message gives the first value with this tag among those
unpacked, or nothing when there is none. This is the value which is found in the unpacked array too. (Tags given by
the program are C strings.) -/
theorem value_by_tag_exact (le : Bool) (m : MsgMsg) (vs : List Value) (tag : Bytes) (h : Consistent m)
    (ho : toArray le m = .ok vs) (hn : ∀ v ∈ vs, (0 : UInt8) ∉ v.tag) :
    valueByTag le m tag = .ok (vs.find? fun v => v.tag == tag) ∧ getByTag vs tag = vs.find? fun v => v.tag == tag := by
  obtain ⟨hc, hver, rs, hd, hf, hi⟩ := toArray_ok h ho
  obtain ⟨ws, hws, hl, hz⟩ := append_iterList_ok le rs [] vs hi
  rw [List.nil_append] at hws
  subst hws
  have htw : ∀ t : Bytes, (0 : UInt8) ∉ t → t.takeWhile (· ≠ 0) = t := by
    intro t ht
    induction t with
    | nil => rfl
    | cons a t ih =>
      have ha : a ≠ 0 := fun e => ht (by simp [e])
      rw [List.takeWhile_cons, if_pos (by simpa using ha), ih fun e => ht (by simp [e])]
  have he : (vs.find? fun v => isTag v tag) = vs.find? fun v => v.tag == tag := by
    clear hz hl hi ho hd
    induction vs with
    | nil => rfl
    | cons w vs ih =>
      rw [List.find?_cons, List.find?_cons, ih fun v hv => hn v (by simp [hv])]
      have : isTag w tag = (w.tag == tag) := by unfold isTag; rw [htw _ (hn w (by simp))]
      rw [this]
  refine ⟨?_, he⟩
  unfold valueByTag
  rw [if_neg (by simp [hc]), messageIterate_eq _ _ _ h hc hver, hd, iterate_eq _ _ hf _ _ (Nat.le_refl _),
    byTag_list le tag rs vs hl hz, he]
  simp [Res.bind]

/-- The message with the values of the example. -/
def sampleMsg : MsgMsg := messageOf true sample 9 [0x74]

theorem sampleMsg_ok : Consistent sampleMsg ∧ toArray true sampleMsg = .ok sample := by
  obtain ⟨hc, _⟩ := messageOf_consistent true sample 9 [0x74] sample_content (by decide) (by decide)
  refine ⟨hc, ?_⟩
  rw [sampleMsg, toArray_messageOf true true sample 9 [0x74] sample_content (by decide) (by decide)]
  have : sample.map (onHost true true) = sample.map id := List.map_congr_left fun v _ => onHost_self true v
  rw [this, List.map_id]

example : valueByTag true sampleMsg [0x62] = .ok (some ⟨.blob, 0, [0x62], 3, [1, 2, 3], []⟩) := by
  rw [(value_by_tag_exact true sampleMsg sample [0x62] sampleMsg_ok.1 sampleMsg_ok.2 (by decide)).1]
  decide
example : ∃ b, messageHasTag sampleMsg [0x63] = .ok b ∧ b = false := by
  obtain ⟨b, h1, h2⟩ := has_tag_exact true sampleMsg sample [0x63] sampleMsg_ok.1 sampleMsg_ok.2
  refine ⟨b, h1, ?_⟩
  cases b
  · rfl
  · exact absurd (h2.mp rfl) (by decide)

/-- **C58** fails for messages which cannot be unpacked: any tag is found to be present. -/
theorem has_tag_malformed : ∃ m : MsgMsg, Consistent m ∧ m.class_ = 11 ∧ toArray true m = .soft ∧
    ∀ tag, messageHasTag m tag = .ok true := by
  refine ⟨⟨⟨32, 2, 0⟩, 0, setClass (setType 0 1) 11, 7, 1, [0x74, 0]⟩, ⟨by decide, by decide⟩, by decide, by decide, ?_⟩
  intro tag
  have hit : ∀ cb : Unit → Raw → Res (Unit × Ctl), messageIterate cb
      ⟨⟨32, 2, 0⟩, 0, setClass (setType 0 1) 11, 7, 1, [0x74, 0]⟩ () = .ok ((), false) := by
    intro cb
    rfl
  unfold messageHasTag
  rw [if_neg (by decide), hit]
  rfl

/-! ## C59 -/

/-- **C59**, partial. The first integer of a value, read by its tag.

Missing from the full property: other indexes than zero, for which it is false, see `get64_wrong` and `get64_oob`. -/
theorem get64_first_partial (le : Bool) (vs : List Value) (tag : Bytes) (v : Value) (signed : Bool) (x : UInt64) (xs : List UInt64)
    (hv : getByTag vs tag = some v) (he : v.elements ≠ 0) (hd : ints le v.data = x :: xs) :
    get64ByTag le vs tag 0 signed =
      if isSigned v.flags = signed ∨ x.toNat ≤ 0x7fffffffffffffff then .ok x else .soft := by
  have hx : 8 ≤ v.data.length ∧ hostInt le (v.data.take 8) = x := by
    generalize v.data = d at hd
    match d, hd with
    | a :: b :: c :: d :: e :: f :: g :: h :: t, hd =>
      simp only [ints, List.cons.injEq] at hd
      refine ⟨by simp, ?_⟩
      rw [← hd.1]
      cases le <;> simp [hostInt, valueBE, ofBytes_eq]
  unfold get64ByTag
  rw [hv]
  dsimp only
  have h0 : ¬ ((0 : UInt32) ≥ v.elements) := by
    intro h; exact he (UInt32.toNat_inj.mp (by have : v.elements.toNat ≤ 0 := h; simpa using this))
  rw [if_neg h0]
  simp only [UInt32.toNat_zero, Nat.mul_zero, List.drop_zero]
  rw [if_neg (by omega), hx.2]
  have hc : (x > 0x7fffffffffffffff) ↔ ¬ (x.toNat ≤ 0x7fffffffffffffff) := by
    rw [Nat.not_le]; exact Iff.rfl
  by_cases hle : x.toNat ≤ 0x7fffffffffffffff
  · have : ¬ (x > 0x7fffffffffffffff) := by rw [hc]; simpa using hle
    simp [hle, this]
  · have : x > 0x7fffffffffffffff := by rw [hc]; exact hle
    cases signed <;> cases hs : isSigned v.flags <;> simp [hle, this]

example : get64ByTag true sample [0x61] 0 true = .ok (UInt64.ofNat (2 ^ 64 - 2)) := by
  have := get64_first_partial true sample [0x61] ⟨.h, 1, [0x61], 2, [0xfe, 0xff, 0xff, 0xff, 0xff, 0xff, 0xff, 0xff, 3, 0, 0, 0, 0, 0, 0, 0], []⟩
    true (UInt64.ofNat (2 ^ 64 - 2)) [3] (by decide) (by decide) (by decide)
  rw [this]; decide

/-- **C59** fails: reading the second integer of a value which has two reads outside of the value. -/
theorem get64_oob : ∃ (vs : List Value) (tag : Bytes) (index : UInt32) (v : Value),
    (∀ v ∈ vs, Content v) ∧ getByTag vs tag = some v ∧ index < v.elements ∧
    v.elements.toNat * 8 = v.data.length ∧ get64ByTag true vs tag index true = .oob :=
  ⟨sample, [0x61], 1, _, sample_content, rfl, by decide, by decide, by decide⟩

/-- **C59** fails: with enough integers another one than asked for is given. -/
theorem get64_wrong : ∃ (vs : List Value) (tag : Bytes) (index : UInt32) (v : Value) (x : UInt64),
    (∀ v ∈ vs, Content v) ∧ getByTag vs tag = some v ∧ v.elements.toNat = (ints true v.data).length ∧
    (ints true v.data)[index.toNat]? = some x ∧
    get64ByTag true vs tag index true ≠ .ok x ∧ get64ByTag true vs tag index true = .ok 8 := by
  refine ⟨[⟨.h, 1, [0x61], 9, (List.range 9).flatMap fun i => [UInt8.ofNat i, 0, 0, 0, 0, 0, 0, 0], []⟩], [0x61], 1, _, 1,
    ?_, rfl, by decide, by decide, by decide, by decide⟩
  intro v hv
  rcases List.mem_singleton.mp hv with rfl
  exact ⟨by decide, rfl⟩

/-! ## C60 -/

theorem unpack_safe {le : Bool} {r : Raw} (h : r.ty ≠ .msg) :
    unpack le r.ty r.flags r.tag r.data r.elements ≠ .bug ∧ unpack le r.ty r.flags r.tag r.data r.elements ≠ .oob := by
  obtain ⟨ty, flags, tag, data, elements⟩ := r
  dsimp only at h ⊢
  cases ty <;> simp only [unpack, conv64]
  all_goals first
    | exact absurd rfl h
    | (by_cases hl : data.length % 8 = 0 <;> simp [hl, Res.bind]; done)
    | (by_cases hl : data = [] <;> simp [hl]; done)
    | (split <;> simp; done)
    | (simp; done)

theorem rawNext_safe (b : Bytes) : rawNext b ≠ .bug ∧ rawNext b ≠ .oob := by
  have : rawNext b = .soft ∨ ∃ p, rawNext b = .ok p := by
    unfold rawNext
    split
    · exact Or.inl rfl
    · dsimp only
      split
      · exact Or.inl rfl
      · split
        · exact Or.inl rfl
        · split
          · exact Or.inl rfl
          · exact Or.inr ⟨_, rfl⟩
  rcases this with h | ⟨p, h⟩ <;> simp [h]

theorem iterate_unsafe (le : Bool) : ∀ (k : Nat) (b : Bytes) (acc : List Value), b.length ≤ k →
    (iterate (appendCallback le) k b acc = .bug ∨ iterate (appendCallback le) k b acc = .oob) →
    ∃ (pre : List Raw) (r : Raw) (rest : Bytes), b = pre.flatMap rawBytes ++ rawBytes r ++ rest ∧ r.ty = .msg := by
  intro k
  induction k with
  | zero =>
    intro b acc hk h
    have : b = [] := List.length_eq_zero_iff.mp (by omega)
    subst this
    rcases h with h | h <;> simp [iterate] at h
  | succ k ih =>
    intro b acc hk h
    unfold iterate at h
    by_cases hb : b = []
    · subst hb; rcases h with h | h <;> simp at h
    · rw [if_neg hb] at h
      cases hr : rawNext b with
      | bug => exact absurd hr (rawNext_safe b).1
      | oob => exact absurd hr (rawNext_safe b).2
      | soft => rw [hr] at h; rcases h with h | h <;> simp at h
      | incomplete => rw [hr] at h; rcases h with h | h <;> simp at h
      | ok p =>
        obtain ⟨r, n⟩ := p
        rw [hr] at h
        dsimp only at h
        obtain ⟨hf, hn, hbe⟩ := rawNext_ok hr
        by_cases hm : r.ty = .msg
        · exact ⟨[], r, b.drop n, by simpa using hbe, hm⟩
        · obtain ⟨s1, s2⟩ := unpack_safe (le := le) hm
          have hlen := rawBytes_length r
          have hdl : (b.drop n).length ≤ k := by rw [List.length_drop]; omega
          unfold appendCallback at h
          cases hu : unpack le r.ty r.flags r.tag r.data r.elements with
          | bug => exact absurd hu s1
          | oob => exact absurd hu s2
          | soft => rw [hu] at h; rcases h with h | h <;> simp [Res.bind] at h
          | incomplete => rw [hu] at h; rcases h with h | h <;> simp [Res.bind] at h
          | ok v =>
            rw [hu] at h
            simp only [Res.bind] at h
            obtain ⟨pre, r', rest, he, hm'⟩ := ih _ _ hdl h
            refine ⟨r :: pre, r', rest, ?_, hm'⟩
            rw [hbe, he, List.flatMap_cons]
            simp

/-- **C60**, partial. Unpacking an array message which was received gives values or is refused; it neither aborts nor reads outside of the message.

Missing from the full property: messages in which there is a value of the type for messages. There the property is
false, see `nested_aborts` and `nested_oob`. -/
theorem unpack_safe_partial (le : Bool) (m : MsgMsg) (h : Consistent m) (hc : m.class_ = 11)
    (hm : ¬ ∃ (pre : List Raw) (r : Raw) (rest : Bytes), m.data = pre.flatMap rawBytes ++ rawBytes r ++ rest ∧ r.ty = .msg) :
    toArray le m = .soft ∨ ∃ vs, toArray le m = .ok vs := by
  unfold toArray
  by_cases hv : m.version = 7
  · rw [messageIterate_eq _ _ _ h hc hv]
    have hu := iterate_unsafe le m.data.length m.data [] (Nat.le_refl _)
    cases hi : iterate (appendCallback le) m.data.length m.data [] with
    | bug => exact absurd (hu (Or.inl hi)) hm
    | oob => exact absurd (hu (Or.inr hi)) hm
    | soft => left; rfl
    | incomplete =>
      exfalso
      have : ∀ (k : Nat) (b : Bytes) acc, iterate (appendCallback le) k b acc ≠ .incomplete := by
        intro k
        induction k with
        | zero => intro b acc; unfold iterate; split <;> simp
        | succ k ih =>
          intro b acc
          unfold iterate
          split
          · simp
          · split
            · unfold appendCallback
              split
              · simp only [Res.bind]; exact ih _ _
              · simp [Res.bind]
              · simp [Res.bind]
              · simp [Res.bind]
            · simp
            · simp
            · simp
      exact this _ _ _ hi
    | ok p =>
      obtain ⟨vs, ok⟩ := p
      cases ok
      · left; rfl
      · right; exact ⟨vs, rfl⟩
  · left
    unfold messageIterate
    rw [if_neg (by simp [hc]), if_pos (by simpa [arrayVersion] using hv)]
    rfl

/-- A message which holds the given bytes as a value of the type for messages. -/
def nested (b : Bytes) : MsgMsg :=
  ⟨⟨UInt32.ofNat (45 + b.length), 2, 0⟩, 0, setClass (setType 0 1) 11, 7, 1, [0x74] ++ rawBytes ⟨.msg, 0, [], b, 1⟩⟩

/-- Such messages are received when the topic and the sizes are fine. -/
theorem nested_received (b : Bytes) (h : b.length < 2 ^ 31) : Consistent (nested b) ∧
    ∃ w, msgToNetwork (nested b) = .ok w ∧ receive w = .ok (.msg (nested b), w.length) := by
  have hb : (nested b).body.length = 15 + b.length := by
    show ([0x74] ++ rawBytes ⟨.msg, 0, [], b, 1⟩).length = _
    rw [List.length_append, rawBytes_length]; simp; omega
  have hs : (nested b).head.size.toNat = 45 + b.length := by
    show (UInt32.ofNat _).toNat = _
    rw [UInt32.toNat_ofNat']; omega
  have ht : (nested b).topic = [0x74] := rfl
  have hg : GoodMsg (nested b) :=
    ⟨by omega, by show 1 ≤ _; omega, rfl, ⟨show 1 ≤ setClass (setType 0 1) 11 &&& 0x0f by decide, show setClass (setType 0 1) 11 &&& 0x0f ≤ 5 by decide⟩,
      Or.inr (show (setClass (setType 0 1) 11 &&& 0xf0) >>> 4 = 11 by decide),
      by rw [ht, ← Utf8.validate_iff_of_no_nul _ (by decide)]; decide +kernel, by rw [ht]; decide⟩
  refine ⟨⟨hg.1, hg.2⟩, _, (good_wire hg).1, ?_⟩
  have hrl : (nested b).head.size.toNat = 18 + (msgRest (nested b)).length := by rw [hg.size, msgRest_length]; omega
  have := receive_wire (nested b).head (msgRest (nested b)) [] hrl
  rw [List.append_nil] at this
  rw [this, toHost_wire _ _ hrl (show typeFine 2 = true by decide), good_host hg]
  rfl

/-- **C60** fails: a message in an array message whose head gives a size below that of the head. -/
theorem nested_aborts : ∃ m : MsgMsg, Consistent m ∧ (∃ w, msgToNetwork m = .ok w ∧ receive w = .ok (.msg m, w.length)) ∧
    toArray true m = .bug :=
  ⟨nested (wireOf ⟨5, 2, 0⟩ []), (nested_received _ (by decide)).1, (nested_received _ (by decide)).2, by decide +kernel⟩

/-- **C60** fails: a message in an array message whose topic is longer than the message. -/
theorem nested_oob : ∃ m : MsgMsg, Consistent m ∧ (∃ w, msgToNetwork m = .ok w ∧ receive w = .ok (.msg m, w.length)) ∧
    toArray true m = .oob :=
  ⟨nested (wireOf ⟨31, 2, 0⟩ (be64 0 ++ [0x11, 0] ++ be16 9 ++ [0x61])), (nested_received _ (by decide)).1,
    (nested_received _ (by decide)).2, by decide +kernel⟩

end Verif.Types
