import Verif.Settings.Lemmas
import Verif.Topic.Props
import Verif.Utf8.Props
/-!
# Settings mean what the configuration says

What the functions for settings give modules, for every configuration.
-/
namespace Verif.Settings
open Verif Verif.Settings.Spec

/-- **The settings are a dictionary.** For every history of settings added and replaced, with names of
at most 243 bytes, the operations succeed as for a dictionary with room for `max` names, and reading
gives the value last set for the name. Missing: longer names, for which see `long_name_leaves`. -/
theorem store_exact_partial (max : Nat) (ops : List Op) (h : ∀ op ∈ ops, op.name.length ≤ 243) :
    (play (new max) ops).2 = (run max .empty ops).2 ∧
    ∀ n, string (play (new max) ops).1 n = match (run max .empty ops).1.get n with
      | none => .notFound
      | some v => .ok v := by
  have h0 : Agree (new max) .empty := ⟨fun _ => rfl, rfl, List.nodup_nil⟩
  obtain ⟨h1, h2⟩ := play_agree ops h0 h
  refine ⟨h1, fun n => ?_⟩
  have h3 := h2.get n
  rw [show (new max).max = max from rfl] at h3
  unfold string
  rw [findUsed_snd]
  unfold look at h3
  cases hf : (play (new max) ops).1.list.find? fun x => x.name == n with
  | none =>
    rw [hf] at h3
    rw [Option.map_eq_none_iff.mp h3.symm]
    rfl
  | some x =>
    rw [hf] at h3
    obtain ⟨v, hv, hd⟩ := Option.map_eq_some_iff.mp h3.symm
    rw [hv]
    obtain ⟨nm, dt⟩ := x
    cases hd
    rfl

/-- The settings have distinct names after every such history. -/
theorem names_distinct (max : Nat) (ops : List Op) (h : ∀ op ∈ ops, op.name.length ≤ 243) :
    ((play (new max) ops).1.list.map (·.name)).Nodup :=
  (play_agree ops (s := new max) (d := .empty) ⟨fun _ => rfl, rfl, List.nodup_nil⟩ h).2.nodup

-- "a" is added, added again (refused), replaced; "b" is added; there is no room for "c".
example : let ops : List Op := [⟨false, [97], [49]⟩, ⟨false, [97], [50]⟩, ⟨true, [97], [51]⟩,
      ⟨false, [98], []⟩, ⟨true, [99], [52]⟩]
    (play (new 2) ops).2 = [true, false, true, true, false] ∧
    string (play (new 2) ops).1 [97] = .ok [51] ∧ string (play (new 2) ops).1 [98] = .ok [] ∧
    string (play (new 2) ops).1 [99] = .notFound := by decide

/-- A setting which is refused because its name is too long takes up room: a setting with an empty name
stays, the next setting is refused, and reading the empty name aborts. -/
theorem long_name_leaves :
    (addString (new 1) (List.replicate 244 97) [49]).2 = false ∧
    (addString (addString (new 1) (List.replicate 244 97) [49]).1 [98] [49]).2 = false ∧
    string (addString (new 1) (List.replicate 244 97) [49]).1 [] = .abort := by decide +kernel

/-- A value which is set to the empty string aborts the program when it is read as most string settings
are. -/
theorem empty_value_aborts (n : Bytes) : noconvert (some ⟨n, .str []⟩) = .abort := rfl

/-- Other values are read as they are. -/
theorem value_read (n v : Bytes) (h : v ≠ []) : noconvert (some ⟨n, .str v⟩) = .ok v := by
  have : 0 < v.length := List.length_pos_iff.mpr h
  unfold noconvert
  simp only
  rw [if_neg (by omega)]

/-- **Numbers.** A value is accepted as a number exactly when it has only digits, and a number below
2^64 is read exactly. Missing: greater numbers are not refused (`huge_number`), nor is an empty value
(`empty_number`). -/
theorem number_exact_partial (n v : Bytes) (k : Nat) (hk : number v < 2 ^ 64) :
    readUint (some ⟨n, .str v⟩) = .ok k ↔ Digits v ∧ k = number v := by
  have hs : strtoull v = number v := by
    unfold strtoull
    exact if_pos hk
  have hd : (v.all fun c => 48 ≤ c && c ≤ 57) = true ↔ Digits v := by
    rw [List.all_eq_true]
    unfold Digits
    constructor
    · intro h c hc; simpa using h c hc
    · intro h c hc; simpa using h c hc
  unfold readUint toUint
  simp only [hs]
  by_cases h : Digits v
  · rw [if_pos (hd.mpr h)]
    constructor
    · intro e; cases e; exact ⟨h, rfl⟩
    · rintro ⟨_, rfl⟩; rfl
  · rw [if_neg (fun e => h (hd.mp e))]
    constructor
    · intro e; cases e
    · rintro ⟨e, _⟩; exact absurd e h

/-- Text which is not only digits is refused, and never aborts. -/
theorem number_refused (n v : Bytes) (h : ¬ Digits v) : readUint (some ⟨n, .str v⟩) = .err := by
  unfold readUint toUint
  simp only
  rw [if_neg]
  intro e
  apply h
  intro c hc
  simpa using List.all_eq_true.mp e c hc

-- "600" is 600; "6a" is refused.
example : readUint (some ⟨[], .str [54, 48, 48]⟩) = .ok 600 ∧
    readUint (some ⟨[], .str [54, 97]⟩) = .err ∧ number [54, 48, 48] = 600 := by decide

/-- Every number below 2^64, written in decimal, is read back. -/
theorem decimal_read (n : Bytes) (k : Nat) (hk : k < 2 ^ 64) :
    readUint (some ⟨n, .str (Http.decimal k)⟩) = .ok k := by
  have hv : number (Http.decimal k) = k := Http.decimal_value k
  rw [number_exact_partial n _ k (by rw [hv]; exact hk)]
  refine ⟨fun c hc => ?_, hv.symm⟩
  exact Http.decimal_digits k c hc

/-- "18446744073709551616" is 2^64, and is read as 2^64 - 1 with no error. -/
theorem huge_number : let v : Bytes := [49,56,52,52,54,55,52,52,48,55,51,55,48,57,53,53,49,54,49,54]
    number v = 2 ^ 64 ∧ readUint (some ⟨[], .str v⟩) = .ok (2 ^ 64 - 1) := by decide +kernel

/-- An empty value is the number 0. -/
theorem empty_number : readUint (some ⟨[], .str []⟩) = .ok 0 := by decide

/-- A setting which is held as a number aborts the program when it is read as a number. -/
theorem uint_aborts (n : Bytes) (k : Nat) : readUint (some ⟨n, .uint k⟩) = .abort := rfl

/-- **Port numbers.** Exactly the numbers 1 to 65535 are accepted, and 0 where it is allowed. -/
theorem port_exact (n v : Bytes) (zero opt : Bool) (k : Nat) :
    readPort (some ⟨n, .str v⟩) zero opt = .ok k ↔
      Digits v ∧ k = number v ∧ k ≤ 65535 ∧ (k = 0 → zero = true) := by
  by_cases hd : Digits v
  · by_cases hk : number v < 2 ^ 64
    · have := (number_exact_partial n v _ hk).mpr ⟨hd, rfl⟩
      unfold readPort
      rw [this]
      simp only
      by_cases hz : number v = 0
      · rw [hz]
        cases zero
        · simp; intro _ h _; omega
        · simp; exact ⟨fun e => by subst e; exact ⟨hd, rfl, by omega⟩, fun e => e.2.1.symm⟩
      · have h1 : ¬ number v < 1 := by omega
        simp only [h1, decide_false, Bool.and_false, Bool.false_or, decide_eq_true_eq]
        by_cases h2 : number v > 65535
        · rw [if_pos h2]
          constructor
          · intro h; cases h
          · rintro ⟨_, h, h', _⟩; omega
        · rw [if_neg h2]
          constructor
          · intro h; cases h; exact ⟨hd, rfl, by omega, fun e => absurd e hz⟩
          · rintro ⟨_, rfl, _⟩; rfl
    · have hr : readUint (some ⟨n, .str v⟩) = .ok (2 ^ 64 - 1) := by
        unfold readUint toUint
        simp only
        rw [if_pos]
        · exact congrArg Ret.ok (if_neg hk)
        · rw [List.all_eq_true]
          intro c hc
          simpa using hd c hc
      unfold readPort
      rw [hr]
      constructor
      · intro h
        simp at h
      · rintro ⟨_, h, h', _⟩
        omega
  · have := number_refused n v hd
    unfold readPort
    rw [this]
    constructor
    · intro h; cases h
    · rintro ⟨h, _⟩; exact absurd h hd

/-- A port which is not set is 0 where it may be left out, and not found otherwise. -/
theorem port_missing (zero opt : Bool) : readPort none zero opt = if opt then .ok 0 else .notFound := by
  cases opt <;> rfl

-- 0 with and without permission, 65535 and 65536.
example : readPort (some ⟨[], .str [48]⟩) false true = .err ∧
    readPort (some ⟨[], .str [48]⟩) true true = .ok 0 ∧
    readPort (some ⟨[], .str [54, 53, 53, 51, 53]⟩) false true = .ok 65535 ∧
    readPort (some ⟨[], .str [54, 53, 53, 51, 54]⟩) true true = .err ∧
    readPort none false true = .ok 0 ∧ readPort none true false = .notFound := by decide

/-- **Yes and no.** "yes" and "no" are read as such, a missing setting is the default, and a value which
does not begin with one of the letters y, Y, n, N or the digits 0 and 1 is refused. -/
theorem yesno (n : Bytes) (b : Bool) :
    optionalYesno (some ⟨n, .str [121, 101, 115]⟩) b = .ok true ∧
    optionalYesno (some ⟨n, .str [110, 111]⟩) b = .ok false ∧
    optionalYesno none b = .ok b ∧
    ∀ v : Bytes, (∀ c ∈ v.head?, c ∉ ([121, 89, 49, 110, 78, 48] : Bytes)) →
      optionalYesno (some ⟨n, .str v⟩) b = .err := by
  refine ⟨rfl, rfl, rfl, ?_⟩
  intro v h
  cases v with
  | nil => rfl
  | cons c v =>
    have h' := h c rfl
    simp only [List.mem_cons, List.not_mem_nil, or_false, not_or] at h'
    simp only [optionalYesno, checkYesno, readString, toStr, Ret.andThen]
    rw [if_neg (by simp [h'.1, h'.2.1, h'.2.2.1]), if_neg (by simp [h'.2.2.2.1, h'.2.2.2.2.1, h'.2.2.2.2.2])]

/-- Only the first letter is looked at: "10" and "y-combinator" are yes, "nein" and "0.9" are no. -/
theorem yesno_loose (n v : Bytes) (c : UInt8) :
    (c ∈ ([121, 89, 49] : Bytes) → checkYesno (some ⟨n, .str (c :: v)⟩) = .ok true) ∧
    (c ∈ ([110, 78, 48] : Bytes) → checkYesno (some ⟨n, .str (c :: v)⟩) = .ok false) := by
  constructor
  · intro h
    simp only [List.mem_cons, List.not_mem_nil, or_false] at h
    simp only [checkYesno, readString, toStr, Ret.andThen]
    rw [if_pos h]
  · intro h
    simp only [List.mem_cons, List.not_mem_nil, or_false] at h
    simp only [checkYesno, readString, toStr, Ret.andThen]
    rw [if_neg (by rcases h with rfl | rfl | rfl <;> decide), if_pos h]

/-- **Milliseconds.** A number of milliseconds which has less than 2^64 microseconds is turned into
microseconds exactly. Missing: greater numbers, see `ms_wraps` and `ms_aborts`. -/
theorem ms_exact_partial (n v : Bytes) (d : Nat) (hd : Digits v) (h : number v * 1000 < 2 ^ 64) :
    optionalMs (some ⟨n, .str v⟩) d = .ok (number v * 1000) := by
  have := (number_exact_partial n v _ (by omega)).mpr ⟨hd, rfl⟩
  unfold optionalMs optionalUint
  rw [this]
  simp only [Ret.andThen]
  rw [Nat.mod_eq_of_lt h, if_pos (by omega)]

-- 1500 milliseconds, and the default.
example : optionalMs (some ⟨[], .str [49, 53, 48, 48]⟩) 0 = .ok 1500000 ∧ optionalMs none 7 = .ok 7000 := by
  decide

/-- A number which is not set is the default, and a number which is set is not. -/
theorem number_default (n v : Bytes) (d : Nat) : optionalUint none d = .ok d ∧
    optionalUint (some ⟨n, .str v⟩) d = readUint (some ⟨n, .str v⟩) := by
  refine ⟨rfl, ?_⟩
  unfold optionalUint readUint toUint
  simp only
  split
  · rename_i h; split at h <;> cases h
  · rfl

/-- "20000000000000000" milliseconds become another time, with no error. -/
theorem ms_wraps : let v : Bytes := [50,48,48,48,48,48,48,48,48,48,48,48,48,48,48,48,48]
    number v = 20000000000000000 ∧
    optionalMs (some ⟨[], .str v⟩) 0 = .ok 1553255926290448384 := by decide +kernel

/-- "18446744073709552" milliseconds abort the program. -/
theorem ms_aborts : optionalMs (some ⟨[], .str [49,56,52,52,54,55,52,52,48,55,51,55,48,57,53,53,50]⟩) 0 =
    .abort := by decide +kernel

/-- **Lists.** The two functions which split a value at its commas give the same values. -/
theorem splits_agree : ∀ v : Bytes, v ≠ [] → splitArray v = splitTraverse v := by
  have : ∀ (k : Nat) (v : Bytes), v.length ≤ k → v ≠ [] → splitArray v = splitTraverse v := by
    intro k
    induction k with
    | zero => intro v h hv; exact absurd (List.length_eq_zero_iff.mp (by omega)) hv
    | succ k ih =>
      intro v h hv
      rcases comma_cases v with hc | ⟨a, r, rfl, hc⟩
      · rw [array_none hc, split_none hv hc]
      · rw [array_comma hc, split_comma hc]
        by_cases hr : r = []
        · subst hr; rfl
        · rw [if_neg hr, ih r (by simp at h; omega) hr]
  intro v hv
  exact this v.length v (Nat.le_refl _) hv

/-- Values without commas which are written with commas between them are read back, when the last is not
empty. -/
theorem split_join : ∀ (vs : List Bytes) (last : Bytes), (∀ v ∈ vs, (44 : UInt8) ∉ v) → (44 : UInt8) ∉ last →
    last ≠ [] → splitTraverse (join (vs ++ [last])) = vs ++ [last] := by
  intro vs last
  have hne : ∀ (v : Bytes), (44 : UInt8) ∉ v → ∀ c ∈ v, c ≠ 44 := by
    intro v h c hc e
    exact h (e ▸ hc)
  induction vs with
  | nil =>
    intro _ h1 h2
    exact split_none h2 (hne _ h1)
  | cons v vs ih =>
    intro h h1 h2
    have : join ((v :: vs) ++ [last]) = v ++ 44 :: join (vs ++ [last]) := by
      cases vs <;> rfl
    rw [this, split_comma (hne v (h v List.mem_cons_self)), ih (fun w hw => h w (List.mem_cons_of_mem _ hw)) h1 h2]
    rfl

/-- Nothing of a value is lost when it is split, but for a comma at its end, and no value has a
comma. -/
theorem split_whole : ∀ v : Bytes, v ≠ [] →
    (join (splitTraverse v) = v ∨ join (splitTraverse v) ++ [44] = v) ∧
    splitTraverse v ≠ [] ∧ ∀ w ∈ splitTraverse v, (44 : UInt8) ∉ w := by
  have : ∀ (k : Nat) (v : Bytes), v.length ≤ k → v ≠ [] →
      (join (splitTraverse v) = v ∨ join (splitTraverse v) ++ [44] = v) ∧
      splitTraverse v ≠ [] ∧ ∀ w ∈ splitTraverse v, (44 : UInt8) ∉ w := by
    intro k
    induction k with
    | zero => intro v h hv; exact absurd (List.length_eq_zero_iff.mp (by omega)) hv
    | succ k ih =>
      intro v h hv
      rcases comma_cases v with hc | ⟨a, r, rfl, hc⟩
      · rw [split_none hv hc]
        refine ⟨Or.inl rfl, by simp, ?_⟩
        intro w hw
        rw [List.mem_singleton] at hw
        subst hw
        exact fun e => hc _ e rfl
      · rw [split_comma hc]
        by_cases hr : r = []
        · subst hr
          refine ⟨Or.inr rfl, by simp, ?_⟩
          intro w hw
          have : w = a := by simpa [splitTraverse, traverse_nil] using hw
          subst this
          exact fun e => hc _ e rfl
        · obtain ⟨h1, h2, h3⟩ := ih r (by simp at h; omega) hr
          refine ⟨?_, by simp, ?_⟩
          · have hj : join (a :: splitTraverse r) = a ++ 44 :: join (splitTraverse r) := by
              cases hs : splitTraverse r with
              | nil => exact absurd hs h2
              | cons x xs => rfl
            rw [hj]
            rcases h1 with h1 | h1
            · left; rw [h1]
            · right
              rw [List.append_assoc, List.cons_append, h1]
          · intro w hw
            rcases List.mem_cons.mp hw with rfl | hw
            · exact fun e => hc _ e rfl
            · exact h3 w hw
  intro v hv
  exact this v.length v (Nat.le_refl _) hv

-- "a,,b" has an empty value in the middle; "a," has one value.
example : splitTraverse [97, 44, 44, 98] = [[97], [], [98]] ∧ splitTraverse [97, 44] = [[97]] ∧
    splitArray [97, 44] = [[97]] := by decide

/-- **Pairs.** With a delimiter which is in the value, the tag is what is before its first occurrence and
the value of the item is what is after it. It is an error when nothing is after it. -/
theorem pair_exact (d v a b : Bytes) (hd : d ≠ []) :
    (First d v a b → parsePair d v = if b = [] then none else some (a, b)) ∧
    (¬ d <:+: v → parsePair d v = some (v, [])) ∧
    (parsePair d v = some (a, b) → First d v a b ∧ b ≠ [] ∨ ¬ d <:+: v ∧ a = v ∧ b = []) := by
  refine ⟨fun h => ?_, fun h => ?_, fun h => ?_⟩
  · unfold parsePair
    rw [if_neg hd, (strstr_iff hd).mpr h]
  · unfold parsePair
    rw [if_neg hd, (strstr_none hd).mpr h]
  · unfold parsePair at h
    rw [if_neg hd] at h
    cases hs : strstr d v with
    | none =>
      rw [hs] at h
      cases h
      exact Or.inr ⟨(strstr_none hd).mp hs, rfl, rfl⟩
    | some x =>
      obtain ⟨a', b'⟩ := x
      rw [hs] at h
      simp only at h
      split at h
      · cases h
      · rename_i hb
        cases h
        exact Or.inl ⟨(strstr_iff hd).mp hs, hb⟩

-- "tag->column" with the delimiter "->", "a=b=c" and "a=" with "=".
example : parsePair [45, 62] [116, 45, 62, 99] = some ([116], [99]) ∧
    parsePair [61] [97, 61, 98, 61, 99] = some ([97], [98, 61, 99]) ∧ parsePair [61] [97, 61] = none ∧
    parsePair [61] [97] = some ([97], []) := by decide

theorem parsePairs_iff (d : Bytes) : ∀ (vs : List Bytes) (m : List (Bytes × Bytes)),
    parsePairs d vs = some m ↔ vs.map (parsePair d) = m.map some := by
  intro vs
  induction vs with
  | nil => intro m; cases m <;> simp [parsePairs]
  | cons v vs ih =>
    intro m
    rw [parsePairs]
    cases hp : parsePair d v with
    | none => cases m <;> simp [hp]
    | some x =>
      cases m with
      | nil => simp
      | cons y m =>
        simp only [Option.map_eq_some_iff, List.map_cons, hp, List.cons.injEq, Option.some.injEq]
        constructor
        · rintro ⟨m', h1, h2, h3⟩
          subst h3
          exact ⟨h2, (ih _).mp h1⟩
        · rintro ⟨h1, h2⟩
          exact ⟨m, (ih _).mpr h2, h1, rfl⟩

/-- A list of pairs is accepted exactly when each of its values is, and the items are those of the values
in order. -/
theorem map_exact (n d v : Bytes) (m : List (Bytes × Bytes)) (hv : v ≠ []) :
    parseMap d (some ⟨n, .str v⟩) = .ok m ↔ (splitTraverse v).map (parsePair d) = m.map some := by
  unfold parseMap
  rw [value_read n v hv]
  simp only
  rw [← parsePairs_iff]
  cases parsePairs d (splitTraverse v) <;> simp

/-- A missing setting gives no items. -/
theorem map_missing (d : Bytes) : parseMap d none = .ok [] := rfl

-- "a=1,b=2", and an error in "a=,b".
example : parseMap [61] (some ⟨[], .str [97, 61, 49, 44, 98, 61, 50]⟩) = .ok [([97], [49]), ([98], [50])] ∧
    parseMap [61] (some ⟨[], .str [97, 61, 44, 98]⟩) = .err := by decide

/-- **What is written.** With values given, the message itself may not be asked for, `*` is all values,
and anything else is the list of tags. -/
theorem method_values (n v : Bytes) (hv : v ≠ []) (msg : Option Setting) (yes : Bool)
    (hm : optionalYesno msg false = .ok yes) :
    writeMethod msg (some ⟨n, .str v⟩) =
      if yes then .err else if v = [42] then .ok .all else .ok (.tags (splitTraverse v)) := by
  have hne := (split_whole v hv).2.1
  have hp : parsePairs [] (splitTraverse v) = some ((splitTraverse v).map fun w => (w, [])) := by
    rw [parsePairs_iff, List.map_map]
    rfl
  have hu : unaryAll (some ⟨n, .str v⟩) =
      if v = [42] then .ok .all else .ok (.tags (splitTraverse v)) := by
    unfold unaryAll parseMap
    rw [value_read n v hv]
    simp only [readString, toStr, hp, Ret.andThen, List.map_eq_nil_iff, if_neg hne, List.map_map]
    congr 3
    exact List.map_id _
  unfold writeMethod
  rw [hm, hu]
  simp only [Ret.andThen]
  cases yes <;> by_cases h : v = [42] <;> simp [h]

/-- With no values given, the message is written when it is asked for and nothing is written
otherwise. -/
theorem method_message (msg : Option Setting) (yes : Bool) (hm : optionalYesno msg false = .ok yes) :
    writeMethod msg none = .ok (if yes then .message else .none) := by
  unfold writeMethod
  rw [hm]
  rfl

-- "*", "a,b", and "a" with the message asked for.
example : writeMethod none (some ⟨[], .str [42]⟩) = .ok .all ∧
    writeMethod none (some ⟨[], .str [97, 44, 98]⟩) = .ok (.tags [[97], [98]]) ∧
    writeMethod (some ⟨[], .str [121]⟩) (some ⟨[], .str [97]⟩) = .err ∧
    writeMethod (some ⟨[], .str [121]⟩) none = .ok .message := by decide

/-- **Topics.** A topic is accepted exactly when it is valid UTF-8 of at most 65535 bytes without the
characters `+` and `#`. -/
theorem topic_exact (n v : Bytes) (hv : v ≠ []) (h0 : (0 : UInt8) ∉ v) :
    optionalTopic (some ⟨n, .str v⟩) = .ok (some v) ↔
      Utf8.Spec.WellFormed v ∧ v.length ≤ 65535 ∧ (43 : UInt8) ∉ v ∧ (35 : UInt8) ∉ v := by
  have h1 := Utf8.validate_iff_of_no_nul v h0
  have h2 := Topic.validateName_iff v h0
  unfold optionalTopic optionalUtf8
  rw [value_read n v hv]
  simp only
  by_cases hw : Utf8.Spec.WellFormed v
  · rw [if_pos (h1.mpr hw)]
    simp only [Ret.andThen, if_neg hv]
    by_cases hl : v.length > 0xffff
    · rw [if_pos hl]
      constructor
      · intro h; cases h
      · rintro ⟨_, h, _⟩; omega
    · rw [if_neg hl]
      by_cases ht : Topic.validateName v = true
      · rw [if_pos ht]
        obtain ⟨_, _, h3, h4⟩ := h2.mp ht
        exact ⟨fun _ => ⟨hw, by omega, h4, h3⟩, fun _ => rfl⟩
      · rw [if_neg ht]
        constructor
        · intro h; cases h
        · rintro ⟨h3, _, h4, h5⟩
          exact absurd (h2.mpr ⟨hv, h3, h5, h4⟩) ht
  · rw [if_neg (fun h => hw (h1.mp h))]
    constructor
    · intro h; cases h
    · rintro ⟨h, _⟩; exact absurd h hw

-- "a/b" is a topic and "a/+" is not.
example : optionalTopic (some ⟨[], .str [97, 47, 98]⟩) = .ok (some [97, 47, 98]) ∧
    optionalTopic (some ⟨[], .str [97, 47, 43]⟩) = .err := by decide

theorem updateUsed_get (s : Store) (n : Bytes) (m : Bool) (u : List Bool) (i : Nat) (x : Setting)
    (hx : s.list[i]? = some x) :
    (updateUsed s n m u)[i]? = u[i]?.map fun b => if x.name = n then m else b := by
  unfold updateUsed
  rw [List.getElem?_mapIdx, hx]

theorem findUsed_get (s : Store) (n : Bytes) (u : List Bool) (hn : (s.list.map (·.name)).Nodup)
    (i : Nat) (x : Setting) (hx : s.list[i]? = some x) :
    (findUsed u s n).1[i]? = u[i]?.map fun b => if x.name = n then true else b := by
  obtain ⟨hi, hxi⟩ := List.getElem?_eq_some_iff.mp hx
  unfold findUsed
  cases hf : find s.list n with
  | none =>
    unfold find at hf
    rw [List.findIdx?_eq_none_iff] at hf
    have := hf x (List.mem_of_getElem? hx)
    have hne : ¬ x.name = n := by simpa using this
    simp [hne]
  | some j =>
    unfold find at hf
    rw [List.findIdx?_eq_some_iff_getElem] at hf
    obtain ⟨hj, hnj, _⟩ := hf
    have hnj' : s.list[j].name = n := by simpa using hnj
    show (u.set j true)[i]? = _
    rw [List.getElem?_set]
    by_cases hij : j = i
    · subst hij
      rw [hxi] at hnj'
      simp only [if_true, hnj']
      split
      · rename_i h; rw [List.getElem?_eq_getElem h]; rfl
      · rename_i h; rw [List.getElem?_eq_none (by omega)]; rfl
    · rw [if_neg hij]
      have hne : ¬ x.name = n := by
        intro e
        apply hij
        have h1 : j < (s.list.map (·.name)).length := by simpa using hj
        have h2 : i < (s.list.map (·.name)).length := by simpa using hi
        refine (List.getElem_inj (h₀ := h1) (h₁ := h2) hn).mp ?_
        simp only [List.getElem_map]
        rw [hnj', hxi, e]
      simp [hne]

theorem ask_get (s : Store) (hn : (s.list.map (·.name)).Nodup) (i : Nat) (x : Setting)
    (hx : s.list[i]? = some x) : ∀ (names : List Bytes) (u : List Bool),
    (ask s names u)[i]? = u[i]?.map fun b => decide (x.name ∈ names) || b := by
  intro names
  induction names with
  | nil => intro u; simp [ask]
  | cons n names ih =>
    intro u
    show (ask s names (findUsed u s n).1)[i]? = _
    rw [ih, findUsed_get s n u hn i x hx, Option.map_map]
    congr 1
    funext b
    simp only [Function.comp_apply, List.mem_cons]
    by_cases h1 : x.name = n <;> by_cases h2 : x.name ∈ names <;> simp [h1, h2]

/-- **Unused settings.** After any settings have been asked for, in any order, a warning is given exactly
when there is a setting which nobody asked for. -/
theorem used_exact (s : Store) (names : List Bytes) (hn : (s.list.map (·.name)).Nodup) :
    allUsed (ask s names (List.replicate s.list.length false)) s = true ↔
      ∀ x ∈ s.list, x.name ∈ names := by
  unfold allUsed
  rw [List.all_eq_true]
  constructor
  · intro h x hx
    obtain ⟨i, hi, e⟩ := List.getElem_of_mem hx
    have hx' : s.list[i]? = some x := by rw [List.getElem?_eq_getElem hi, e]
    have := h i (List.mem_range.mpr hi)
    rw [ask_get s hn i x hx', List.getElem?_replicate, if_pos hi] at this
    simpa using this
  · intro h i hi
    have hi' := List.mem_range.mp hi
    rw [ask_get s hn i s.list[i] (List.getElem?_eq_getElem hi'), List.getElem?_replicate, if_pos hi']
    simpa using h _ (List.getElem_mem hi')

-- Of the settings "a" and "b", "b" is asked for and a setting which does not exist.
example : let s : Store := ⟨4, [⟨[97], .str [49]⟩, ⟨[98], .str [50]⟩]⟩
    allUsed (ask s [[98], [99]] [false, false]) s = false ∧
    allUsed (ask s [[98], [99], [97]] [false, false]) s = true := by decide

theorem receive_get (s : Store) (i : Nat) (x : Setting) (hx : s.list[i]? = some x) (m : Bool) :
    ∀ (l : List (Bytes × Bool)) (u : List Bool), (∀ y ∈ l, y.1 = x.name → y.2 = m) →
    (receive s l u)[i]? = u[i]?.map fun b => if x.name ∈ l.map (·.1) then m else b := by
  intro l
  induction l with
  | nil => intro u _; simp [receive]
  | cons y l ih =>
    intro u h
    show (receive s l (updateUsed s y.1 y.2 u))[i]? = _
    rw [ih _ (fun z hz => h z (List.mem_cons_of_mem _ hz)), updateUsed_get s y.1 y.2 u i x hx, Option.map_map]
    congr 1
    funext b
    simp only [Function.comp_apply, List.map_cons, List.mem_cons]
    by_cases h1 : x.name = y.1
    · have := h y List.mem_cons_self h1.symm
      simp [h1, this]
    · simp [h1]

theorem packAll_get (w : List Bool) : ∀ (xs : List Setting) (i : Nat) (l : List (Bytes × Bool)),
    packAll w i xs = some l → l.length = xs.length ∧ ∀ (k : Nat) (x : Setting), xs[k]? = some x →
      l[k]? = some (x.name, w[i + k]? == some true) := by
  intro xs
  induction xs with
  | nil => intro i l h; cases h; exact ⟨rfl, by intro k x h; cases h⟩
  | cons y xs ih =>
    intro i l h
    rw [packAll] at h
    by_cases hs : dataSize y.data > maxDataSize
    · rw [if_pos hs] at h; cases h
    · rw [if_neg hs, Option.map_eq_some_iff] at h
      obtain ⟨l', h1, rfl⟩ := h
      obtain ⟨h2, h3⟩ := ih _ _ h1
      refine ⟨by simp [h2], ?_⟩
      intro k x hk
      cases k with
      | zero => cases hk; rfl
      | succ k =>
        rw [List.getElem?_cons_succ] at hk ⊢
        rw [h3 k x hk, show i + 1 + k = i + (k + 1) by omega]

/-- **Settings of worker processes.** When a worker sends its settings, the parent process has the marks
which the worker has, for each setting with the same name. The settings have distinct names in both. -/
theorem worker_marks (sp sw : Store) (up uw : List Bool) (l : List (Bytes × Bool))
    (hw : (sw.list.map (·.name)).Nodup) (hl : packAll uw 0 sw.list = some l)
    (i j : Nat) (x y : Setting) (b : Bool) (hx : sp.list[i]? = some x) (hy : sw.list[j]? = some y)
    (hxy : y.name = x.name) (hi : i < up.length) (hj : uw[j]? = some b) :
    (receive sp l up)[i]? = some b := by
  obtain ⟨hlen, hget⟩ := packAll_get uw _ _ _ hl
  have hyl := hget j y hy
  rw [Nat.zero_add, hj] at hyl
  have huniq : ∀ z ∈ l, z.1 = x.name → z.2 = b := by
    intro z hz e
    obtain ⟨k, hk, rfl⟩ := List.getElem_of_mem hz
    have hk' : k < sw.list.length := by omega
    have hg := hget k sw.list[k] (List.getElem?_eq_getElem hk')
    rw [List.getElem?_eq_getElem hk, Option.some.injEq] at hg
    obtain ⟨hj', hyj⟩ := List.getElem?_eq_some_iff.mp hy
    have hkj : k = j := by
      have h1 : k < (sw.list.map (·.name)).length := by simpa using hk'
      have h2 : j < (sw.list.map (·.name)).length := by simpa using hj'
      refine (List.getElem_inj (h₀ := h1) (h₁ := h2) hw).mp ?_
      simp only [List.getElem_map]
      rw [hyj, hxy, ← e, hg]
    subst hkj
    rw [hg, Nat.zero_add, hj]
    cases b <;> rfl
  rw [receive_get sp i x hx b l up huniq, List.getElem?_eq_getElem hi]
  have hmem : x.name ∈ l.map (·.1) := by
    rw [← hxy]
    exact List.mem_map.mpr ⟨_, List.mem_of_getElem? hyl, rfl⟩
  simp [hmem]

/-- Settings of the parent which the worker does not have keep their marks. -/
theorem worker_others (sp : Store) (up : List Bool) (l : List (Bytes × Bool)) (i : Nat) (x : Setting)
    (hx : sp.list[i]? = some x) (h : x.name ∉ l.map (·.1)) : (receive sp l up)[i]? = up[i]? := by
  rw [receive_get sp i x hx true l up]
  · simp [h]
  · intro y hy e
    exact absurd (List.mem_map.mpr ⟨y, hy, e⟩) h

-- The worker has used "b" and made "c"; the parent has used "a".
example : let sp : Store := ⟨4, [⟨[97], .str [49]⟩, ⟨[98], .str [50]⟩]⟩
    let sw : Store := ⟨4, [⟨[97], .str [49]⟩, ⟨[98], .str [51]⟩, ⟨[99], .str [52]⟩]⟩
    ∃ l, packAll [false, true, true] 0 sw.list = some l ∧ receive sp l [true, false] = [false, true] := by
  refine ⟨[([97], false), ([98], true), ([99], true)], by decide, by decide⟩

/-- The worker can send its settings exactly when no string has more than 1023 bytes. -/
theorem worker_sends (uw : List Bool) : ∀ (xs : List Setting) (i : Nat),
    (∃ l, packAll uw i xs = some l) ↔ ∀ x ∈ xs, ∀ v, x.data = .str v → v.length ≤ 1023 := by
  intro xs
  induction xs with
  | nil => intro i; exact ⟨fun _ => by simp, fun _ => ⟨[], rfl⟩⟩
  | cons y xs ih =>
    intro i
    rw [packAll]
    by_cases hs : dataSize y.data > maxDataSize
    · rw [if_pos hs]
      constructor
      · rintro ⟨l, h⟩; cases h
      · intro h
        exfalso
        have h1 := h y List.mem_cons_self
        cases hd : y.data with
        | str v =>
          have := h1 v hd
          rw [hd] at hs
          simp only [dataSize, maxDataSize] at hs
          omega
        | uint k => rw [hd] at hs; simp [dataSize, maxDataSize] at hs
        | zero => rw [hd] at hs; simp [dataSize, maxDataSize] at hs
    · rw [if_neg hs]
      have hy : ∀ v, y.data = .str v → v.length ≤ 1023 := by
        intro v hd
        rw [hd] at hs
        simp only [dataSize, maxDataSize] at hs
        omega
      constructor
      · rintro ⟨l, h⟩
        rw [Option.map_eq_some_iff] at h
        obtain ⟨l', h1, _⟩ := h
        intro x hx v hd
        rcases List.mem_cons.mp hx with rfl | hx
        · exact hy v hd
        · exact (ih (i + 1)).mp ⟨l', h1⟩ x hx v hd
      · intro h
        obtain ⟨l, hl⟩ := (ih (i + 1)).mpr (fun x hx => h x (List.mem_cons_of_mem _ hx))
        exact ⟨_, by rw [hl]; rfl⟩

/-- A value of 1024 bytes, which may be in the configuration and which modules without worker processes
read, makes the worker fail. -/
theorem long_value_worker : let v : Bytes := List.replicate 1024 97
    noconvert (some ⟨[97], .str v⟩) = .ok v ∧ packAll [true] 0 [⟨[97], .str v⟩] = none := by
  decide +kernel

end Verif.Settings
