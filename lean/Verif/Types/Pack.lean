import Verif.Types.Import
import Verif.Msg.Props
import Verif.Utf8.Props
/-!
# Packing and unpacking: lemmas
-/
namespace Verif.Types
open Verif Endian Msg Spec

/-! ## Integers -/

theorem swapBe_twice (le : Bool) (b : Bytes) : swapBe le (swapBe le b) = b := by
  cases le <;> simp [swapBe]

theorem swap64_length (le : Bool) : ∀ b : Bytes, (swap64 le b).length = b.length
  | a :: b :: c :: d :: e :: f :: g :: h :: t => by
    simp only [swap64]
    rw [List.length_append, swap64_length le t]
    cases le <;> simp [swapBe] <;> omega
  | [] | [_] | [_, _] | [_, _, _] | [_, _, _, _] | [_, _, _, _, _] | [_, _, _, _, _, _] | [_, _, _, _, _, _, _] => rfl

theorem swap64_twice (le : Bool) : ∀ b : Bytes, swap64 le (swap64 le b) = b
  | a :: b :: c :: d :: e :: f :: g :: h :: t => by
    have ih := swap64_twice le t
    cases le <;> simp [swap64, swapBe, ih]
  | [] | [_] | [_, _] | [_, _, _] | [_, _, _, _] | [_, _, _, _, _] | [_, _, _, _, _, _] | [_, _, _, _, _, _, _] => rfl

theorem ints_swap (le le' : Bool) : ∀ b : Bytes, ints le' (swap64 le' (swap64 le b)) = ints le b
  | a :: b :: c :: d :: e :: f :: g :: h :: t => by
    have ih := ints_swap le le' t
    cases le <;> cases le' <;> simp [swap64, swapBe, ints, valueBE] at ih ⊢ <;> exact ih
  | [] | [_] | [_, _] | [_, _, _] | [_, _, _, _] | [_, _, _, _, _] | [_, _, _, _, _, _] | [_, _, _, _, _, _, _] => rfl

theorem conv64_eq (le : Bool) (d : Bytes) (h : d.length % 8 = 0) : conv64 le d = .ok (swap64 le d) := by
  unfold conv64; rw [if_neg (by omega)]

theorem conv64_ok {le : Bool} {d r : Bytes} (h : conv64 le d = .ok r) : d.length % 8 = 0 ∧ r = swap64 le d := by
  unfold conv64 at h
  split at h
  · cases h
  · cases h; exact ⟨by omega, rfl⟩

/-! ## Messages -/

theorem msgRest_length (m : MsgMsg) : (msgRest m).length = 12 + m.body.length := by
  simp only [msgRest, List.length_append, be64_length, be16_length, List.length_cons, List.length_nil]; omega

theorem good_host {m : MsgMsg} (h : GoodMsg m) : msgToHost m.head (msgRest m) = .ok m :=
  msgToHost_rest m h.size h.topicInside h.type h.class_ ((Utf8.validate_iff_of_no_nul m.topic h.topicText.2).mpr h.topicText.1)

theorem good_wire {m : MsgMsg} (h : GoodMsg m) : msgToNetwork m = .ok (wireOf m.head (msgRest m)) ∧
    (wireOf m.head (msgRest m)).length = 30 + m.body.length := by
  constructor
  · exact toNetwork_eq' m.head (msgRest m) (by rw [h.size, msgRest_length]; omega)
  · rw [wireOf_length, msgRest_length]; omega

theorem msgSingle_wire {m : MsgMsg} (h : GoodMsg m) (rest : Bytes) :
    msgSingle (wireOf m.head (msgRest m) ++ rest) = .ok (m, 30 + m.body.length) := by
  have hs : m.head.size.toNat = 18 + (msgRest m).length := by rw [h.size, msgRest_length]; omega
  have hwl := (good_wire h).2
  have hh := headToHost_wire m.head (msgRest m) hs (by rw [h.headType]; decide)
  have hc := checkData_wire m.head (msgRest m) hs
  unfold msgSingle
  rw [getTargetSize_wire]
  dsimp only
  rw [if_neg (by rw [List.length_append, hwl, h.size]; omega)]
  have htake : (wireOf m.head (msgRest m) ++ rest).take m.head.size.toNat = wireOf m.head (msgRest m) := by
    rw [h.size, ← hwl, List.take_left]
  have hat : ∀ i, i < 18 → (wireOf m.head (msgRest m) ++ rest).getD i 0 = (wireOf m.head (msgRest m)).getD i 0 := by
    intro i hi
    rw [List.getD, List.getD, List.getElem?_append_left (by omega)]
  have h32 : ∀ i, i + 3 < 18 → at32 (wireOf m.head (msgRest m) ++ rest) i = at32 (wireOf m.head (msgRest m)) i := by
    intro i hi
    simp only [at32, hat i (by omega), hat (i + 1) (by omega), hat (i + 2) (by omega), hat (i + 3) (by omega)]
  have h16 : at16 (wireOf m.head (msgRest m) ++ rest) 8 = at16 (wireOf m.head (msgRest m)) 8 := by
    simp only [at16, hat 8 (by omega), hat 9 (by omega)]
  rw [htake, h32 4 (by omega), h32 10 (by omega), h32 14 (by omega), h16]
  unfold headToHost at hh
  rw [if_neg (by rw [hwl]; simp [headSize]; omega)] at hh
  dsimp only at hh
  by_cases hv : headValidate ⟨at32 (wireOf m.head (msgRest m)) 4, at16 (wireOf m.head (msgRest m)) 8,
      at32 (wireOf m.head (msgRest m)) 10⟩ (wireOf m.head (msgRest m)).length = true
  · rw [if_pos hv] at hh
    injection hh with hh
    injection hh with e1 e2
    rw [hwl] at hv
    rw [h.size, hv, e1, e2, hc]
    simp only [Bool.not_true, Bool.false_eq_true, if_false, Res.bind]
    rw [good_host h]
  · rw [if_neg hv] at hh; cases hh

theorem msgsPack_eq (ms : List MsgMsg) (h : ∀ m ∈ ms, GoodMsg m) :
    msgsPack ms = .ok (ms.flatMap fun m => wireOf m.head (msgRest m)) := by
  induction ms with
  | nil => rfl
  | cons m ms ih =>
    have hm := h m (by simp)
    unfold msgsPack
    rw [if_neg (by rw [hm.size]; simp [msgMinSize]), (good_wire hm).1]
    simp only [Res.bind]
    rw [ih fun x hx => h x (by simp [hx])]
    simp

theorem wires_length (ms : List MsgMsg) (h : ∀ m ∈ ms, GoodMsg m) :
    (ms.flatMap fun m => wireOf m.head (msgRest m)).length = (ms.map fun m => 30 + m.body.length).sum := by
  induction ms with
  | nil => rfl
  | cons m ms ih =>
    rw [List.flatMap_cons, List.length_append, (good_wire (h m (by simp))).2, ih fun x hx => h x (by simp [hx])]
    simp

theorem msgsUnpack_eq (ms : List MsgMsg) (h : ∀ m ∈ ms, GoodMsg m) : ∀ k, ms.length ≤ k →
    msgsUnpack k (ms.flatMap fun m => wireOf m.head (msgRest m)) = .ok ms := by
  induction ms with
  | nil => intro k _; cases k <;> rfl
  | cons m ms ih =>
    intro k hk
    match k, hk with
    | k + 1, hk =>
      have hm := h m (by simp)
      have hl := (good_wire hm).2
      rw [List.flatMap_cons]
      unfold msgsUnpack
      rw [if_neg (by intro e; have := congrArg List.length e; rw [List.length_append, hl] at this; simp at this),
        msgSingle_wire hm]
      simp only [Res.bind]
      rw [← hl, List.drop_left, ih (fun x hx => h x (by simp [hx])) k (by simpa using hk)]

/-! ## Values -/

/-- The type number in the message. -/
def wireTy (t : Ty) : Ty := if t = .h then .be else t

/-- What is stored in the message for a value. -/
def wireData (le : Bool) (v : Value) : Bytes :=
  match v.ty with
  | .h | .fixp => swap64 le v.data
  | .msg => v.msgs.flatMap fun m => wireOf m.head (msgRest m)
  | _ => v.data

/-- The value in the memory of a host with another byte order. -/
def onHost (le le' : Bool) (v : Value) : Value :=
  match v.ty with
  | .h | .fixp => { v with data := swap64 le' (swap64 le v.data) }
  | _ => v

theorem onHost_same (le le' : Bool) (v : Value) : Same le le' v (onHost le le' v) := by
  obtain ⟨ty, flags, tag, elements, data, msgs⟩ := v
  cases ty <;> simp [Same, onHost, swap64_length, ints_swap]

theorem onHost_self (le : Bool) (v : Value) : onHost le le v = v := by
  obtain ⟨ty, flags, tag, elements, data, msgs⟩ := v
  cases ty <;> simp [onHost, swap64_twice]

theorem stored_eq {v : Value} (h : Content v) : v.stored = v.data.length + (v.msgs.map fun m => 30 + m.body.length).sum := by
  obtain ⟨ty, flags, tag, elements, data, msgs⟩ := v
  unfold Value.stored
  by_cases hm : ty = .msg
  · subst hm
    simp only [Content] at h
    rw [if_pos rfl, h.1]
    have : msgs.map (fun m => m.head.size.toNat) = msgs.map fun m => 30 + m.body.length :=
      List.map_congr_left fun m hm => (h.2.1 m hm).size
    rw [this]; simp
  · rw [if_neg hm]
    have : msgs = [] := by cases ty <;> simp_all [Content]
    rw [this]; simp

theorem wireData_length (le : Bool) {v : Value} (h : Content v) : (wireData le v).length = v.stored := by
  rw [stored_eq h]
  obtain ⟨ty, flags, tag, elements, data, msgs⟩ := v
  cases ty <;> simp [Content, wireData, swap64_length] at h ⊢ <;> try simp [h]
  have := wires_length msgs h.2.1
  simpa using this

theorem pack_eq (le : Bool) {v : Value} (h : Content v) : pack le v = .ok ((wireTy v.ty).id, wireData le v) := by
  have hst := stored_eq h
  obtain ⟨ty, flags, tag, elements, data, msgs⟩ := v
  cases ty <;> simp only [Content] at h <;> try (cases h; done)
  all_goals simp only [pack, wireTy, wireData]
  case h => rw [conv64_eq _ _ h.1]; rfl
  case fixp => rw [conv64_eq _ _ h.1]; rfl
  case msg => rw [msgsPack_eq _ h.2.1]; rfl
  case vain => rw [h.1]; rfl
  case str => rfl
  all_goals
    rw [if_neg]
    · rfl
    · rw [hst]; have := List.length_pos_iff.mpr h.1; show ¬ data.length + _ = 0; omega

theorem unpack_eq (le le' : Bool) {v : Value} (h : Content v) :
    unpack le' (wireTy v.ty) v.flags v.tag (wireData le v) v.elements = .ok (onHost le le' v) := by
  have hw := wireData_length le h
  have hst := stored_eq h
  obtain ⟨ty, flags, tag, elements, data, msgs⟩ := v
  cases ty <;> simp only [Content] at h <;> try (cases h; done)
  all_goals simp only [unpack, wireTy, wireData, onHost, reduceCtorEq, if_false, if_true]
  case h => rw [conv64_eq _ _ (by rw [swap64_length]; exact h.1)]; simp [Res.bind, h.2]
  case fixp => rw [conv64_eq _ _ (by rw [swap64_length]; exact h.1)]; simp [Res.bind, h.2]
  case msg =>
    rw [msgsUnpack_eq _ h.2.1]
    · simp [Res.bind, h.1, ← h.2.2]
    · rw [wires_length _ h.2.1]
      clear hw hst h
      induction msgs with
      | nil => simp
      | cons m ms ih => simp; omega
  case vain => rw [h.1, h.2]
  case str => rw [h]
  all_goals
    rw [if_neg]
    · rw [h.2]
    · have := List.length_pos_iff.mpr h.1; omega

/-! ## The values in a message -/

/-- The bytes of a value in a message. -/
def rawBytes (r : Raw) : Bytes :=
  packedHead r.ty.id r.flags (UInt32.ofNat r.tag.length) (UInt32.ofNat r.data.length) r.elements ++ (r.tag ++ r.data)

/-- Lengths which the head can hold and a type which is allowed. -/
def RawFine (r : Raw) : Prop := r.tag.length < 2 ^ 32 ∧ r.data.length < 2 ^ 32 ∧ r.ty.hasUnpack = true

theorem rawBytes_length (r : Raw) : (rawBytes r).length = 14 + r.tag.length + r.data.length := by
  simp only [rawBytes, packedHead, List.length_append, be32_length, List.length_cons, List.length_nil]; omega

theorem ofId_id (t : Ty) : Ty.ofId t.id = some t := by cases t <;> decide

theorem id_ofId {i : UInt8} {t : Ty} (h : Ty.ofId i = some t) : t.id = i := by
  have := List.find?_some h
  simpa using this

theorem rawNext_eq {r : Raw} (h : RawFine r) (rest : Bytes) :
    rawNext (rawBytes r ++ rest) = .ok (r, (rawBytes r).length) := by
  obtain ⟨h1, h2, h3⟩ := h
  have hl := rawBytes_length r
  have e : rawBytes r ++ rest = [r.ty.id, r.flags] ++ (be32 (UInt32.ofNat r.tag.length) ++ (be32 (UInt32.ofNat r.data.length) ++
      (be32 r.elements ++ (r.tag ++ (r.data ++ rest))))) := by simp [rawBytes, packedHead]
  have a2 : at32 (rawBytes r ++ rest) 2 = UInt32.ofNat r.tag.length := by
    rw [e]; exact at32_append rfl _ _
  have a6 : at32 (rawBytes r ++ rest) 6 = UInt32.ofNat r.data.length := by
    rw [e, ← List.append_assoc]; exact at32_append rfl _ _
  have a10 : at32 (rawBytes r ++ rest) 10 = r.elements := by
    rw [e, ← List.append_assoc, ← List.append_assoc]; exact at32_append rfl _ _
  have t1 : (UInt32.ofNat r.tag.length).toNat = r.tag.length := by rw [UInt32.toNat_ofNat', Nat.mod_eq_of_lt h1]
  have t2 : (UInt32.ofNat r.data.length).toNat = r.data.length := by rw [UInt32.toNat_ofNat', Nat.mod_eq_of_lt h2]
  have d14 : (rawBytes r ++ rest).drop 14 = r.tag ++ (r.data ++ rest) := by rw [e]; rfl
  unfold rawNext
  rw [if_neg (by rw [List.length_append]; omega)]
  dsimp only
  have dt : (rawBytes r ++ rest).drop (14 + r.tag.length) = r.data ++ rest := by
    rw [← List.drop_drop, d14, List.drop_left]
  have g0 : (rawBytes r ++ rest).getD 0 0 = r.ty.id := by rw [e]; rfl
  have g1 : (rawBytes r ++ rest).getD 1 0 = r.flags := by rw [e]; rfl
  rw [a2, a6, a10, t1, t2, if_neg (by rw [List.length_append]; omega), g0, g1, ofId_id, d14, dt]
  dsimp only
  rw [h3, List.take_left, List.take_left, hl]
  rfl

theorem be32_at {b : Bytes} {i : Nat} (h : i + 4 ≤ b.length) : be32 (at32 b i) = (b.drop i).take 4 := by
  unfold at32
  rw [be32_of]
  have e : b.drop i = b.getD i 0 :: b.getD (i + 1) 0 :: b.getD (i + 2) 0 :: b.getD (i + 3) 0 :: b.drop (i + 4) := by
    rw [List.drop_eq_getElem_cons (show i < b.length by omega), List.drop_eq_getElem_cons (show i + 1 < b.length by omega),
      List.drop_eq_getElem_cons (show i + 1 + 1 < b.length by omega), List.drop_eq_getElem_cons (show i + 1 + 1 + 1 < b.length by omega)]
    simp only [List.getD, List.getElem?_eq_getElem (show i < b.length by omega), List.getElem?_eq_getElem (show i + 1 < b.length by omega),
      List.getElem?_eq_getElem (show i + 2 < b.length by omega), List.getElem?_eq_getElem (show i + 3 < b.length by omega), Option.getD_some]
  rw [e]
  rfl

theorem take_split {b : Bytes} (i j : Nat) (hj : i ≤ j) : b.drop i = (b.drop i).take (j - i) ++ b.drop j := by
  conv => lhs; rw [← List.take_append_drop (j - i) (b.drop i)]
  rw [List.drop_drop, show i + (j - i) = j by omega]

theorem take_two : ∀ {b : Bytes}, 2 ≤ b.length → b = [b.getD 0 0, b.getD 1 0] ++ b.drop 2
  | x :: y :: t, _ => rfl

theorem rawNext_ok {b : Bytes} {r : Raw} {n : Nat} (h : rawNext b = .ok (r, n)) :
    RawFine r ∧ n = (rawBytes r).length ∧ b = rawBytes r ++ b.drop n := by
  unfold rawNext at h
  split at h
  · cases h
  rename_i hl
  dsimp only at h
  split at h
  · cases h
  rename_i hl2
  split at h
  · cases h
  rename_i ty hty
  split at h
  · cases h
  rename_i hu
  have hu : ty.hasUnpack = true := by simpa using hu
  injection h with h
  injection h with hr hn
  subst hr
  have l1 : ((b.drop 14).take (at32 b 2).toNat).length = (at32 b 2).toNat := by
    rw [List.length_take, List.length_drop]; omega
  have l2 : ((b.drop (14 + (at32 b 2).toNat)).take (at32 b 6).toNat).length = (at32 b 6).toNat := by
    rw [List.length_take, List.length_drop]; omega
  have t1 := (at32 b 2).toNat_lt
  have t2 := (at32 b 6).toNat_lt
  refine ⟨⟨by show _ < _; rw [l1]; exact t1, by show _ < _; rw [l2]; exact t2, hu⟩, ?_, ?_⟩
  · rw [rawBytes_length, l1, l2, hn]
  · unfold rawBytes packedHead
    rw [l1, l2, UInt32.ofNat_toNat, UInt32.ofNat_toNat, be32_at (by omega), be32_at (by omega), be32_at (by omega), id_ofId hty, ← hn]
    have s0 := take_two (b := b) (by omega)
    have s2 := take_split (b := b) 2 6 (by omega)
    have s6 := take_split (b := b) 6 10 (by omega)
    have s10 := take_split (b := b) 10 14 (by omega)
    have s14 := take_split (b := b) 14 (14 + (at32 b 2).toNat) (by omega)
    have sd := take_split (b := b) (14 + (at32 b 2).toNat) (14 + (at32 b 2).toNat + (at32 b 6).toNat) (by omega)
    rw [show 14 + (at32 b 2).toNat - 14 = (at32 b 2).toNat by omega] at s14
    rw [show 14 + (at32 b 2).toNat + (at32 b 6).toNat - (14 + (at32 b 2).toNat) = (at32 b 6).toNat by omega] at sd
    simp only [List.append_assoc]
    rw [← sd, ← s14, ← s10, ← s6, ← s2]
    generalize b.getD 0 0 = x0 at s0 ⊢
    generalize b.getD 1 0 = x1 at s0 ⊢
    exact s0

/-- The iteration over a list of values. -/
def iterList {σ : Type} (cb : σ → Raw → Res (σ × Ctl)) : List Raw → σ → Res (σ × Bool)
  | [], s => .ok (s, true)
  | r :: rs, s => (cb s r).bind fun (s', c) =>
    match c with
    | .next => iterList cb rs s'
    | .stop => .ok (s', true)
    | .fail => .ok (s', false)

theorem iterate_eq {σ : Type} (cb : σ → Raw → Res (σ × Ctl)) (rs : List Raw) (h : ∀ r ∈ rs, RawFine r) :
    ∀ (k : Nat) (s : σ), (rs.flatMap rawBytes).length ≤ k → iterate cb k (rs.flatMap rawBytes) s = iterList cb rs s := by
  induction rs with
  | nil => intro k s _; cases k <;> rfl
  | cons r rs ih =>
    intro k s hk
    have hl := rawBytes_length r
    rw [List.flatMap_cons, List.length_append] at hk
    match k, hk with
    | 0, hk => omega
    | k + 1, hk =>
      rw [List.flatMap_cons]
      unfold iterate
      rw [if_neg (by intro e; have := congrArg List.length e; rw [List.length_append, hl] at this; simp only [List.length_nil] at this; omega),
        rawNext_eq (h r (by simp))]
      simp only [List.drop_left]
      unfold iterList
      congr 1
      funext x
      obtain ⟨s', c⟩ := x
      cases c
      · exact ih (fun x hx => h x (by simp [hx])) k s' (by omega)
      · rfl
      · rfl

/-- When the iteration goes through to the end, the bytes are those of a list of values. -/
theorem iterate_append_ok (le : Bool) : ∀ (k : Nat) (b : Bytes) (acc vs : List Value),
    iterate (appendCallback le) k b acc = .ok (vs, true) →
    ∃ rs : List Raw, b = rs.flatMap rawBytes ∧ ∀ r ∈ rs, RawFine r := by
  intro k
  induction k with
  | zero =>
    intro b acc vs h
    unfold iterate at h
    split at h
    · rename_i hb; exact ⟨[], by simp [hb], by simp⟩
    · cases h
  | succ k ih =>
    intro b acc vs h
    unfold iterate at h
    split at h
    · rename_i hb; exact ⟨[], by simp [hb], by simp⟩
    · split at h
      · rename_i r n hr
        obtain ⟨hf, _, hb⟩ := rawNext_ok hr
        unfold appendCallback at h
        split at h
        · simp only [Res.bind] at h
          obtain ⟨rs, h1, h2⟩ := ih _ _ _ h
          refine ⟨r :: rs, ?_, ?_⟩
          · rw [List.flatMap_cons, ← h1]; exact hb
          · intro x hx
            rcases List.mem_cons.mp hx with rfl | hx
            · exact hf
            · exact h2 x hx
        · cases h
        · cases h
        · simp [Res.bind] at h
      · cases h
      · cases h
      · simp at h

end Verif.Types
