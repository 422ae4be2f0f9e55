import Verif.Json.Arrays
/-!
# C130: the object which an array is made into
-/
namespace Verif.Json
open Verif Types Json Spec

/-- What a value becomes, when it can be converted. -/
def member (le u64 : Bool) (v : Value) : Out J := (split v).andThen (convert le u64)

theorem addValue_eq (le u64 : Bool) (base : List (Bytes × J)) (v : Value) :
    addValue le u64 base v = (member le u64 v).andThen fun j => .ok (setKey (cstr v.tag) j base) := by
  unfold addValue member
  cases split v <;> rfl

theorem lookup_setKey (key key' : Bytes) (j : J) (ms : List (Bytes × J)) :
    lookup key' (setKey key j ms) = if key = key' then some j else lookup key' ms := by
  induction ms with
  | nil => simp [setKey, lookup]
  | cons p ms ih =>
    obtain ⟨k, i⟩ := p
    by_cases h : k = key
    · subst h
      by_cases h' : k = key' <;> simp [setKey, lookup, h']
    · by_cases h' : k = key'
      · subst h'
        have : ¬ key = k := fun h' => h h'.symm
        simp [setKey, lookup, h, this]
      · simp only [setKey, lookup, h, if_false, h', ih]

theorem keys_setKey (key : Bytes) (j : J) (ms : List (Bytes × J)) :
    (setKey key j ms).map (·.1) = if key ∈ ms.map (·.1) then ms.map (·.1) else ms.map (·.1) ++ [key] := by
  induction ms with
  | nil => simp [setKey]
  | cons p ms ih =>
    obtain ⟨k, i⟩ := p
    by_cases h : k = key
    · subst h; simp [setKey]
    · have h' : ¬ key = k := fun h' => h h'.symm
      simp only [setKey, h, if_false, List.map_cons, ih, List.mem_cons, h', false_or]
      split <;> simp

theorem nodup_setKey (key : Bytes) (j : J) (ms : List (Bytes × J)) (h : (ms.map (·.1)).Nodup) :
    ((setKey key j ms).map (·.1)).Nodup := by
  rw [keys_setKey]
  split
  · exact h
  · rename_i hn
    rw [List.nodup_append]
    refine ⟨h, by simp, ?_⟩
    intro a ha b hb he
    rw [List.mem_singleton.1 hb] at he
    exact hn (he ▸ ha)

theorem fromLoop_found (le u64 : Bool) (tags : Option (List Bytes)) (vs : List Value) (found : Nat) (base : List (Bytes × J)) (n : Nat)
    (ms : List (Bytes × J)) (h : fromLoop le u64 tags found base vs = .ok (n, ms)) (hb : (base.map (·.1)).Nodup) :
    n = found + (vs.filter (chosen tags)).length ∧ (ms.map (·.1)).Nodup ∧
    (∀ v ∈ vs.filter (chosen tags), ∃ j, member le u64 v = .ok j) ∧
    ∀ key, lookup key ms = match (vs.filter (chosen tags)).reverse.find? (fun v => decide (cstr v.tag = key)) with
      | none => lookup key base
      | some v => match member le u64 v with
        | .ok j => some j
        | _ => none := by
  induction vs generalizing found base with
  | nil =>
    cases h
    exact ⟨rfl, hb, by simp, fun key => rfl⟩
  | cons v vs ih =>
    cases hc : chosen tags v
    · simp only [fromLoop, hc, Bool.false_eq_true, if_false] at h
      have := ih found base h hb
      simpa [List.filter_cons, hc] using this
    · simp only [fromLoop, hc, if_true, addValue_eq] at h
      cases hm : member le u64 v with
      | fail => rw [hm] at h; cases h
      | fault => rw [hm] at h; cases h
      | ok j =>
        rw [hm] at h
        obtain ⟨h1, h2, h3, h4⟩ := ih (found + 1) (setKey (cstr v.tag) j base) h (nodup_setKey _ _ _ hb)
        rw [List.filter_cons, hc]
        refine ⟨by rw [h1]; simp; omega, h2, ?_, ?_⟩
        · intro w hw
          simp only [if_true, List.mem_cons] at hw
          rcases hw with rfl | hw
          · exact ⟨j, hm⟩
          · exact h3 w hw
        · intro key
          rw [h4 key]
          simp only [if_true, List.reverse_cons, List.find?_append]
          cases hf : (vs.filter (chosen tags)).reverse.find? fun v => decide (cstr v.tag = key) with
          | some w => rfl
          | none =>
            simp only [Option.none_or]
            rw [lookup_setKey]
            by_cases hk : cstr v.tag = key
            · simp [hk, hm]
            · simp [hk]

theorem fromLoop_ok (le u64 : Bool) (tags : Option (List Bytes)) (vs : List Value) (found : Nat) (base : List (Bytes × J))
    (h : ∀ v ∈ vs.filter (chosen tags), ∃ j, member le u64 v = .ok j) : ∃ r, fromLoop le u64 tags found base vs = .ok r := by
  induction vs generalizing found base with
  | nil => exact ⟨_, rfl⟩
  | cons v vs ih =>
    cases hc : chosen tags v
    · simp only [fromLoop, hc, Bool.false_eq_true, if_false]
      exact ih found base (by simpa [List.filter_cons, hc] using h)
    · rw [List.filter_cons, hc] at h
      simp only [fromLoop, hc, if_true, addValue_eq]
      obtain ⟨j, hj⟩ := h v (by simp)
      rw [hj]
      exact ih _ _ fun w hw => h w (by simp [hw])

/-- The tags which are asked for: all of them, or those of a list. -/
def Asked (tags : Option (List Bytes)) (v : Value) : Prop := ∀ ts, tags = some ts → v.tag.takeWhile (· ≠ 0) ∈ ts

theorem chosen_iff (tags : Option (List Bytes)) (v : Value) : chosen tags v = true ↔ Asked tags v := by
  cases tags with
  | none => simp [chosen, Asked]
  | some ts => simp [chosen, Asked, isTag, List.any_eq_true]

/-- **C130**. An object is made exactly when each value which is asked for can be converted. -/
theorem object_iff (le u64 : Bool) (tags : Option (List Bytes)) (vs : List Value) :
    (∃ r, fromArray le u64 tags vs = .ok r) ↔ ∀ v ∈ vs, Asked tags v → ∃ j, member le u64 v = .ok j := by
  have hm : (∀ v ∈ vs.filter (chosen tags), ∃ j, member le u64 v = .ok j) ↔ ∀ v ∈ vs, Asked tags v → ∃ j, member le u64 v = .ok j := by
    simp [List.mem_filter, chosen_iff]
  rw [← hm]
  unfold fromArray
  constructor
  · rintro ⟨r, h⟩
    cases hf : fromLoop le u64 tags 0 [] vs with
    | fail => rw [hf] at h; cases h
    | fault => rw [hf] at h; cases h
    | ok p => exact (fromLoop_found le u64 tags vs 0 [] p.1 p.2 hf (by simp)).2.2.1
  · intro h
    obtain ⟨r, hr⟩ := fromLoop_ok le u64 tags vs 0 [] h
    exact ⟨_, by rw [hr]; rfl⟩

/-- **C130**. The object has each name once, and the member of a name is what the last value of that name becomes. Values which are not asked for
are not in it. The number told is that of the values asked for. -/
theorem object_exact (le u64 : Bool) (tags : Option (List Bytes)) (vs : List Value) (n : Nat) (j : J)
    (h : fromArray le u64 tags vs = .ok (n, j)) : ∃ ms asked, j = .obj ms ∧ (ms.map (·.1)).Nodup ∧
      asked.Sublist vs ∧ (∀ v ∈ vs, v ∈ asked ↔ Asked tags v) ∧ n = asked.length ∧
      ∀ key i, lookup key ms = some i ↔ ∃ a v b, asked = a ++ v :: b ∧ v.tag.takeWhile (· ≠ 0) = key ∧
        (∀ w ∈ b, w.tag.takeWhile (· ≠ 0) ≠ key) ∧ member le u64 v = .ok i := by
  unfold fromArray at h
  cases hf : fromLoop le u64 tags 0 [] vs with
  | fail => rw [hf] at h; cases h
  | fault => rw [hf] at h; cases h
  | ok p =>
    rw [hf] at h
    cases h
    obtain ⟨h1, h2, h3, h4⟩ := fromLoop_found le u64 tags vs 0 [] p.1 p.2 hf (by simp)
    refine ⟨p.2, vs.filter (chosen tags), rfl, h2, List.filter_sublist, ?_, by omega, ?_⟩
    · intro v hv
      rw [List.mem_filter, chosen_iff]
      exact ⟨fun h => h.2, fun h => ⟨hv, h⟩⟩
    · intro key i
      rw [h4 key]
      cases hfd : (vs.filter (chosen tags)).reverse.find? fun v => decide (cstr v.tag = key) with
      | none =>
        simp only [lookup]
        constructor
        · intro h; cases h
        rintro ⟨a, v, b, he, hk, _, _⟩
        have := List.find?_eq_none.1 hfd v (by rw [List.mem_reverse, he]; simp)
        exact absurd hk (by simpa [cstr] using this)
      | some v =>
        obtain ⟨hp, as, bs, he, hn⟩ := List.find?_eq_some_iff_append.1 hfd
        have he' : vs.filter (chosen tags) = bs.reverse ++ v :: as.reverse := by
          have := congrArg List.reverse he
          simpa using this
        have hk : v.tag.takeWhile (· ≠ 0) = key := by simpa [cstr] using hp
        obtain ⟨j, hj⟩ := h3 v (by rw [he']; simp)
        simp only [hj, Option.some.injEq]
        constructor
        · rintro rfl
          refine ⟨bs.reverse, v, as.reverse, he', hk, ?_, hj⟩
          intro w hw
          have := hn w (by simpa using hw)
          simpa [cstr] using this
        · rintro ⟨a, w, b, hab, hkw, hnb, hmw⟩
          -- the last value of a name is one
          have hr : (a ++ w :: b).reverse.find? (fun v => decide (cstr v.tag = key)) = some w := by
            rw [List.find?_eq_some_iff_append]
            refine ⟨by simpa [cstr] using hkw, b.reverse, a.reverse, by simp, ?_⟩
            intro x hx
            have := hnb x (by simpa using hx)
            simpa [cstr] using this
          rw [← hab, hfd] at hr
          cases hr
          rw [hj] at hmw
          cases hmw; rfl

/-! ## What a value becomes -/

theorem chunks_all (size : Nat) (hs : 0 < size) (n : Nat) (b : Bytes) (hb : b.length ≤ size) (hn : b ≠ []) (h0 : 0 < n) : chunks size n b = [b] := by
  cases n with
  | zero => omega
  | succ n =>
    have h1 : b.drop size = [] := List.drop_eq_nil_iff.2 hb
    have h2 : b.take size = b := List.take_of_length_le hb
    simp only [chunks, hn, if_false, h1, h2]
    cases n <;> simp [chunks]

theorem split_one (v : Value) (h : v.elements = 1) : split v = .ok [{ v with tag := [], elements := 1, msgs := [] }] := by
  obtain ⟨ty, fl, tag, el, data, msgs⟩ := v
  have h : el = 1 := h
  subst h
  unfold split
  by_cases hd : data = []
  · subst hd; rfl
  · have hl : 0 < data.length := List.length_pos_iff.2 hd
    have h0 : ¬ data.length = 0 := by omega
    have h1 : (1 : UInt32).toNat = 1 := rfl
    rw [if_neg h0]
    simp only [h1, Nat.one_ne_zero, if_false, Nat.div_one, Nat.mul_one, ne_eq, not_true_eq_false]
    rw [chunks_all data.length hl data.length data (Nat.le_refl _) hd hl]
    rfl

theorem chunks_length (size : Nat) (hs : 0 < size) : ∀ (k n : Nat) (b : Bytes), b.length = k * size → k ≤ n → (chunks size n b).length = k := by
  intro k
  induction k with
  | zero =>
    intro n b hb _
    have : b = [] := List.length_eq_zero_iff.1 (by omega)
    subst this
    cases n <;> rfl
  | succ k ih =>
    intro n b hb hn
    cases n with
    | zero => omega
    | succ n =>
      have hne : b ≠ [] := by
        rintro rfl
        simp only [List.length_nil, Nat.succ_mul] at hb
        omega
      simp only [chunks, hne, if_false, List.length_cons]
      rw [ih n (b.drop size) (by rw [List.length_drop, hb, Nat.succ_mul]; omega) (by omega)]

theorem convertAll_eq (le u64 : Bool) (first : Value) (j : J) (hj : typeToObject le u64 first = .ok j) (vs : List Value) :
    convertAll le u64 first vs = .ok (List.replicate vs.length j) := by
  induction vs with
  | nil => rfl
  | cons v vs ih =>
    simp only [convertAll, hj, ih, Out.andThen]
    rfl

/-- A text of a host's integers. -/
theorem host_first (le : Bool) (x : UInt64) (t : Bytes) : hostInt le ((hostBytes le x ++ t).take 8) = x := by
  rw [List.take_append_of_le_length (by rw [hostBytes_length]; omega), List.take_of_length_le (by rw [hostBytes_length]; omega)]
  exact ofBytes_host le x

/-- What a number is in JSON: signed or not. Without unsigned numbers in the library large numbers are text. -/
def number (u64 signed : Bool) (x : UInt64) : J :=
  if signed then .int (toI64 x) else if u64 || decide (x.toNat < 2 ^ 63) then .int x.toNat else .str (digits x.toNat)

theorem typeToObject_number (le u64 : Bool) (v : Value) (x : UInt64) (h : is64 v.ty = true) (hd : v.data = hostBytes le x) :
    typeToObject le u64 v = .ok (number u64 (isSigned v.flags) x) := by
  have hv : v.ty ≠ .vain := by intro hv; rw [hv] at h; cases h
  have hl : ¬ v.data.length < 8 := by rw [hd, hostBytes_length]; omega
  have hx : hostInt le (v.data.take 8) = x := by
    have := host_first le x []
    rwa [List.append_nil, ← hd] at this
  unfold typeToObject number
  rw [if_neg hv, if_pos h, if_neg hl, hx]
  cases hs : isSigned v.flags
  · cases hu : u64
    · by_cases hb : x.toNat < 2 ^ 63
      · have h1 : ¬ x.toNat > 2 ^ 63 - 1 := by omega
        simp [hb, h1, toI64]
      · have h1 : x.toNat > 2 ^ 63 - 1 := by omega
        simp [hb, h1]
    · simp
  · simp

/-- **C130**. A value of one number becomes that number. -/
theorem number_partial (le u64 : Bool) (v : Value) (x : UInt64) (h : is64 v.ty = true) (he : v.elements = 1) (hd : v.data = hostBytes le x) :
    member le u64 v = .ok (number u64 (isSigned v.flags) x) := by
  unfold member
  rw [split_one v he]
  exact typeToObject_number le u64 _ x h hd

/-- **C130**. The empty value becomes `null`. -/
theorem vain_null (le u64 : Bool) (v : Value) (h : v.ty = .vain) (he : v.elements = 1) : member le u64 v = .ok .null := by
  unfold member
  rw [split_one v he]
  simp [Out.andThen, convert, typeToObject, h]

/-- **C130**. A value of one text, or of one piece of bytes, becomes that text, when the library takes it. -/
theorem text_partial (le u64 : Bool) (v : Value) (h : is64 v.ty = false) (hv : v.ty ≠ .vain) (he : v.elements = 1) (hl : v.data.length < 2 ^ 31) :
    member le u64 v = .ok (.str v.data) := by
  unfold member
  rw [split_one v he]
  have h1 : ¬ v.data.length > 2 ^ 31 - 1 := by omega
  simp [Out.andThen, convert, typeToObject, h, hv, h1]

/-- **C130**. A value of several numbers becomes a list of as many numbers, but all of them are the first one. -/
theorem first_repeated (le u64 : Bool) (v : Value) (x : UInt64) (xs : List UInt64) (h : is64 v.ty = true) (hx : xs ≠ [])
    (he : v.elements.toNat = xs.length + 1) (hd : v.data = (x :: xs).flatMap (hostBytes le)) :
    member le u64 v = .ok (.arr (List.replicate (xs.length + 1) (number u64 (isSigned v.flags) x))) := by
  have hlen : v.data.length = (xs.length + 1) * 8 := by
    rw [hd, hostBytes_flat_length, List.length_cons, Nat.mul_comm]
  have h0 : ¬ v.data.length = 0 := by omega
  have hdiv : v.data.length / v.elements.toNat = 8 := by rw [hlen, he, Nat.mul_comm]; exact Nat.mul_div_cancel _ (by omega)
  have hs : split v = .ok ((chunks 8 v.data.length v.data).map fun b => { ty := v.ty, flags := v.flags, tag := [], elements := 1, data := b }) := by
    unfold split
    rw [if_neg h0, if_neg (by omega), hdiv, if_neg (by rw [he, hlen]; omega)]
  have hcl : (chunks 8 v.data.length v.data).length = xs.length + 1 := chunks_length 8 (by omega) _ _ _ hlen (by omega)
  obtain ⟨r, hr⟩ : ∃ r, chunks 8 v.data.length v.data = hostBytes le x :: r := by
    have hne : v.data ≠ [] := fun h => by rw [h] at h0; exact h0 rfl
    have ht : v.data.take 8 = hostBytes le x := by
      rw [hd, List.flatMap_cons, List.take_append_of_le_length (by rw [hostBytes_length]; omega),
        List.take_of_length_le (by rw [hostBytes_length]; omega)]
    refine ⟨chunks 8 (xs.length * 8 + 7) (v.data.drop 8), ?_⟩
    rw [hlen, show (xs.length + 1) * 8 = (xs.length * 8 + 7) + 1 by omega]
    show (if v.data = [] then [] else v.data.take 8 :: chunks 8 (xs.length * 8 + 7) (v.data.drop 8)) = _
    rw [if_neg hne, ht]
  unfold member
  rw [hs, hr]
  rw [hr] at hcl
  cases r with
  | nil =>
    have : xs.length = 0 := by simpa using hcl.symm
    exact absurd (List.length_eq_zero_iff.1 this) hx
  | cons b r =>
    have hj := typeToObject_number le u64 { ty := v.ty, flags := v.flags, tag := [], elements := 1, data := hostBytes le x } x h rfl
    simp only [List.map_cons, Out.andThen, convert]
    rw [convertAll_eq le u64 _ _ hj]
    simp only [List.length_cons, List.length_map]
    rw [show r.length + 1 + 1 = xs.length + 1 by simpa using hcl]

/-- **C130**. The numbers 1 and 2 in a value become the list of 1 and 1. -/
theorem elements_lost : fromArray true true none [{ ty := .h, flags := 0, tag := [97], elements := 2, data :=
    [1, 0, 0, 0, 0, 0, 0, 0, 2, 0, 0, 0, 0, 0, 0, 0] }] = .ok (1, .obj [([97], .arr [.int 1, .int 1])]) := by
  rfl

/-- **C130**. A fixed point number becomes a text of the eight bytes which it is in memory, and not a number. -/
theorem fixp_bytes (le u64 : Bool) (v : Value) (h : v.ty = .fixp) (he : v.elements = 1) (hl : v.data.length = 8) :
    member le u64 v = .ok (.str v.data) :=
  text_partial le u64 v (by rw [h]; rfl) (by rw [h]; decide) he (by omega)

/-! ## There and back -/

/-- What comes back: truth values come back as numbers. -/
def back : J → J
  | .bool b => .int (if b then 1 else 0)
  | j => j

/-- What survives: no floating point numbers, numbers which a signed integer holds, and texts without zero bytes which the library takes. -/
def Survives : J → Prop
  | .null => True
  | .bool _ => True
  | .int i => -2 ^ 63 ≤ i ∧ i < 2 ^ 63
  | .str s => (0 : UInt8) ∉ s ∧ s.length < 2 ^ 31
  | _ => False

theorem cstr_id (s : Bytes) (h : (0 : UInt8) ∉ s) : cstr s = s := by
  unfold cstr
  induction s with
  | nil => rfl
  | cons c s ih =>
    have hc : c ≠ 0 := fun hc => h (by simp [hc])
    rw [List.takeWhile_cons, ih fun hm => h (List.mem_cons_of_mem _ hm)]
    simp [hc]

theorem member_back (e : Env) (u64 : Bool) (k : Bytes) (j : J) (h : Survives j) :
    ∃ v, push e k j = some (some v) ∧ v.tag = k ∧ member e.le u64 v = .ok (back j) := by
  cases j with
  | null => exact ⟨_, rfl, rfl, vain_null _ _ _ rfl rfl⟩
  | bool b =>
    refine ⟨_, rfl, rfl, ?_⟩
    rw [number_partial _ _ _ (if b then 1 else 0) rfl rfl rfl]
    cases b <;> cases u64 <;> simp [number, back, isSigned]
  | int i =>
    refine ⟨_, rfl, rfl, ?_⟩
    rw [number_partial _ _ _ (toU64 (getInt64 i)) rfl rfl rfl]
    have hg : getInt64 i = i := by
      have := h.1; have := h.2
      unfold getInt64
      rw [if_neg (by omega), if_neg (by omega)]
    rw [hg]
    have hf : isSigned 1 = true := by decide
    simp only [number, hf, if_true, toI64_toU64 i h.1 h.2, back]
  | str s =>
    refine ⟨_, rfl, rfl, ?_⟩
    have hs := cstr_id s h.1
    rw [text_partial _ _ _ rfl (by intro h; cases h) rfl (by show (cstr s).length < _; rw [hs]; exact h.2)]
    show Out.ok (J.str (cstr s)) = _
    rw [hs]; rfl
  | double d => exact absurd h id
  | arr l => exact absurd h id
  | obj ms => exact absurd h id

theorem setKey_new (key : Bytes) (j : J) (ms : List (Bytes × J)) (h : key ∉ ms.map (·.1)) : setKey key j ms = ms ++ [(key, j)] := by
  induction ms with
  | nil => rfl
  | cons p ms ih =>
    obtain ⟨k, i⟩ := p
    have hk : ¬ k = key := fun hk => h (by simp [hk])
    simp only [setKey, hk, if_false, List.cons_append]
    rw [ih fun hm => h (by simp only [List.map_cons, List.mem_cons]; exact .inr hm)]

theorem fromLoop_back (e : Env) (u64 : Bool) (ms : List (Bytes × J)) (found : Nat) (base : List (Bytes × J))
    (h : ∀ k j, (k, j) ∈ ms → Survives j ∧ (0 : UInt8) ∉ k) (hk : (base.map (·.1) ++ ms.map (·.1)).Nodup) :
    fromLoop e.le u64 none found base (valuesOf e ms) = .ok (found + ms.length, base ++ ms.map fun p => (p.1, back p.2)) := by
  induction ms generalizing found base with
  | nil => simp [valuesOf, fromLoop]
  | cons p ms ih =>
    obtain ⟨k, j⟩ := p
    obtain ⟨hs, h0⟩ := h k j (by simp)
    obtain ⟨v, hv, ht, hm⟩ := member_back e u64 k j hs
    have h1 : valuesOf e ((k, j) :: ms) = v :: valuesOf e ms := by simp [valuesOf, hv]
    have hn : k ∉ base.map (·.1) := by
      intro hb
      exact (List.nodup_append.1 hk).2.2 k hb k (by simp) rfl
    rw [h1]
    simp only [fromLoop, chosen, if_true, addValue_eq, hm, Out.andThen]
    rw [ht, cstr_id k h0, setKey_new k _ _ hn, ih (found + 1) (base ++ [(k, back j)])]
    · simp; omega
    · exact fun k j hm => h k j (List.mem_cons_of_mem _ hm)
    · simpa using hk

/-- **C130**, partial. An object of plain members which survive, made into an array and back, is the same object, with truth values as numbers.
Floating point numbers, and what is inside of lists, are missing: see `fixp_bytes` and `first_repeated`. -/
theorem roundtrip_partial (e : Env) (u64 : Bool) (parse : Bytes → Parsed) (max : Nat) (data : Bytes) (ms : List (Bytes × J))
    (hp : parse data = .tree (.obj ms)) (hl : data.length < 2 ^ 31) (hk : (ms.map (·.1)).Nodup)
    (h : ∀ k j, (k, j) ∈ ms → Survives j ∧ (0 : UInt8) ∉ k) :
    ∃ a, toArrays e parse max collect [] data = (OK, [a]) ∧
      fromArray e.le u64 none a = .ok (ms.length, .obj (ms.map fun p => (p.1, back p.2))) := by
  refine ⟨valuesOf e ms, ?_, ?_⟩
  · unfold toArrays
    rw [if_neg (by omega), hp]
    simp only [recurse_eq]
    have hplain : ∀ k j, (k, j) ∈ ms → isPlain j = true ∧ convertible e j = true := by
      intro k j hm
      have := (h k j hm).1
      cases j <;> first | exact ⟨rfl, rfl⟩ | exact absurd this id
    have hw : walkMembers 0 ms = ms.map fun p => (0, Item.value p.2) := by
      clear hp hk h
      induction ms with
      | nil => rfl
      | cons p ms ih =>
        obtain ⟨k, j⟩ := p
        simp only [walkMembers, (hplain k j (by simp)).1, if_true, List.map_cons]
        rw [ih fun k j hm => hplain k j (List.mem_cons_of_mem _ hm)]
        rfl
    have hv : visible max (walk 0 (.obj ms)) = (ms.map fun p => Item.value p.2) ++ [.object ms] := by
      simp only [walk, hw, visible_append]
      have h1 : visible max [(0, Item.object ms)] = [.object ms] := by simp [visible]
      have h2 : visible max (ms.map fun p => (0, Item.value p.2)) = ms.map fun p => Item.value p.2 := by
        unfold visible
        rw [List.filter_eq_self.2 (by
          intro p hp
          obtain ⟨q, _, rfl⟩ := List.mem_map.1 hp
          simp), List.map_map]
        rfl
      rw [h1, h2]
    rw [feed_good e _ (by
      rw [hv]
      intro i hi
      rcases List.mem_append.1 hi with hi | hi
      · obtain ⟨⟨k, j⟩, hm, rfl⟩ := List.mem_map.1 hi
        exact (hplain k j hm).2
      · rw [List.mem_singleton.1 hi]; trivial), hv]
    have : (ms.map fun p => Item.value p.2).filterMap objectOf = [] := by
      rw [List.filterMap_eq_nil_iff]
      intro i hi
      obtain ⟨p, _, rfl⟩ := List.mem_map.1 hi
      rfl
    rw [List.filterMap_append, this]
    rfl
  · unfold fromArray
    rw [fromLoop_back e u64 ms 0 [] h (by simpa using hk)]
    simp [Out.andThen]

example : fromArray true true none [{ ty := .str, flags := 0, tag := [97], elements := 1, data := [120] },
    { ty := .h, flags := 0, tag := [98], elements := 1, data := hostBytes true 1 }] = .ok (2, .obj [([97], .str [120]), ([98], .int 1)]) := by
  rfl

/-- Members which survive. -/
example : ∀ k j, (k, j) ∈ ([([97], .int (-5)), ([98], .str [120]), ([99], .bool true), ([100], .null)] : List (Bytes × J)) →
    Survives j ∧ (0 : UInt8) ∉ k := by
  intro k j h
  simp only [List.mem_cons, List.not_mem_nil, or_false, Prod.mk.injEq] at h
  rcases h with ⟨rfl, rfl⟩ | ⟨rfl, rfl⟩ | ⟨rfl, rfl⟩ | ⟨rfl, rfl⟩ <;> simp [Survives]

/-! ## Maps -/

theorem fold_lookup (m : List (Bytes × Bytes)) (base : List (Bytes × J)) (key : Bytes) :
    lookup key (m.foldl (fun base p => setKey p.1 (.str p.2) base) base) =
      match m.reverse.find? (fun p => decide (p.1 = key)) with
      | none => lookup key base
      | some p => some (.str p.2) := by
  induction m generalizing base with
  | nil => rfl
  | cons p m ih =>
    rw [List.foldl_cons, ih, List.reverse_cons, List.find?_append]
    cases hf : m.reverse.find? fun p => decide (p.1 = key) with
    | some q => rfl
    | none =>
      simp only [Option.none_or]
      rw [lookup_setKey]
      by_cases hk : p.1 = key <;> simp [hk]

/-- **C130**. A map becomes an object, whose member of a name is the text of the last entry of that name. -/
theorem map_exact (m : List (Bytes × Bytes)) : ∃ ms, fromMap m = .obj ms ∧ ∀ key s,
    lookup key ms = some (.str s) ↔ ∃ a b, m = a ++ (key, s) :: b ∧ ∀ p ∈ b, p.1 ≠ key := by
  refine ⟨_, rfl, ?_⟩
  intro key s
  rw [fold_lookup]
  have hs : ∀ s, (∃ a b, m = a ++ (key, s) :: b ∧ ∀ p ∈ b, p.1 ≠ key) ↔ m.reverse.find? (fun p => decide (p.1 = key)) = some (key, s) := by
    intro s
    rw [List.find?_eq_some_iff_append]
    constructor
    · rintro ⟨a, b, rfl, hb⟩
      exact ⟨by simp, b.reverse, a.reverse, by simp, fun x hx => by simpa using hb x (by simpa using hx)⟩
    · rintro ⟨_, as, bs, he, hn⟩
      refine ⟨bs.reverse, as.reverse, ?_, fun p hp => by simpa using hn p (by simpa using hp)⟩
      have := congrArg List.reverse he
      simpa using this
  rw [hs]
  cases hf : m.reverse.find? fun p => decide (p.1 = key) with
  | none => simp [lookup]
  | some p =>
    have hk : p.1 = key := by simpa using (List.find?_eq_some_iff_append.1 hf).1
    obtain ⟨k, t⟩ := p
    cases hk
    simp

end Verif.Json
