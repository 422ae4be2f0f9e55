import Verif.Http.FieldExact
import Verif.Http.LineLemmas
/-!
# Header lines are read exactly
-/
namespace Verif.Http
open Verif Verif.HttpUtil Verif.HttpUtil.Spec

theorem lower_length (s : Bytes) : (lower s).length = s.length := by simp [lower]

theorem toLower_toLower (c : UInt8) : toLower (toLower c) = toLower c := by
  unfold toLower
  split
  · rename_i h
    simp only [Bool.and_eq_true, decide_eq_true_eq, UInt8.le_iff_toNat_le, UInt8.reduceToNat] at h
    rw [if_neg]
    simp only [Bool.and_eq_true, decide_eq_true_eq, UInt8.le_iff_toNat_le, UInt8.toNat_add, UInt8.reduceToNat]
    omega
  · rfl

theorem lower_lower (s : Bytes) : lower (lower s) = lower s := by
  unfold lower
  rw [List.map_map]
  apply List.map_congr_left
  intro c _
  exact toLower_toLower c

theorem eqCase_lower (a b : Bytes) (hb : lower b = b) : eqCase a b = decide (lower a = b) := by
  unfold eqCase
  show (lower a == lower b) = _
  rw [hb]
  by_cases h : lower a = b <;> simp [h]

theorem same_lower (a b : Bytes) (hl : a.length = b.length) : OccursAt a b 0 ↔ lower a = lower b := by
  constructor
  · intro ⟨_, h⟩
    apply List.ext_getElem (by simp [lower, hl])
    intro i h1 h2
    have hb : i < b.length := by simpa [lower] using h2
    have ha : i < a.length := by omega
    have := h i hb
    rw [← toLower_iff] at this
    simpa [lower, List.getD_eq_getElem?_getD, List.getElem?_eq_getElem ha, List.getElem?_eq_getElem hb] using this
  · intro h
    refine ⟨by omega, fun i hi => ?_⟩
    have ha : i < a.length := by omega
    rw [← toLower_iff]
    have h1 : (lower a)[i]? = (lower b)[i]? := by rw [h]
    simpa [lower, List.getD_eq_getElem?_getD, List.getElem?_eq_getElem ha, List.getElem?_eq_getElem hi] using h1

theorem definitions_names : ∀ d ∈ definitions, d.name ≠ [] ∧ lower d.name = d.name := by decide +kernel

theorem nameMatches_eq (name : Bytes) (d : Def) (hd : d.name ≠ [] ∧ lower d.name = d.name) : nameMatches name d = decide (d.name = lower name) := by
  have hb := strcasestr_beginning name d.name hd.1
  unfold nameMatches
  by_cases hl : name.length = d.name.length
  · rw [same_lower name d.name hl, hd.2] at hb
    by_cases he : lower name = d.name
    · obtain ⟨n, hn⟩ := hb.2 he
      rw [hn]
      simp [hl, he]
    · have hno : ∀ n, strcasestr name d.name ≠ .ok (0, n) := fun n hn => he (hb.1 ⟨n, hn⟩)
      have : decide (d.name = lower name) = false := by simpa using fun h => he h.symm
      rw [this]
      cases hs : strcasestr name d.name with
      | ok r =>
        obtain ⟨p, n⟩ := r
        simp only
        by_cases hp : p = 0
        · subst hp; exact absurd hs (hno n)
        · simp [hp]
      | err => rfl
      | bug => rfl
      | fault => rfl
  · have : decide (d.name = lower name) = false := by
      simp only [decide_eq_false_iff_not]
      intro h
      exact hl (by rw [h, lower_length])
    rw [this]
    cases hs : strcasestr name d.name with
    | ok r => simp [hl]
    | err => rfl
    | bug => rfl
    | fault => rfl

theorem definitionGet_eq (name : Bytes) : definitionGet name = definitions.find? fun d => decide (d.name = lower name) := by
  unfold definitionGet
  have : ∀ (ds : List Def), (∀ d ∈ ds, d.name ≠ [] ∧ lower d.name = d.name) → ds.find? (nameMatches name) = ds.find? fun d => decide (d.name = lower name) := by
    intro ds
    induction ds with
    | nil => intro _; rfl
    | cons d ds ih =>
      intro h
      rw [List.find?_cons, List.find?_cons, nameMatches_eq name d (h d (by simp)), ih fun x hx => h x (by simp [hx])]
  exact this definitions definitions_names

/-- The table and the lists of names agree: flags. -/
theorem definitions_flags : ∀ d ∈ definitions, 58 ∈ d.name ∨
    (d.flags.multiple = decide (d.name ∈ listNames.map str) ∧ d.flags.noPairs = decide (d.name ∈ wholeNames.map str) ∧
      d.flags.angled = decide (d.name ∈ ["link"].map str)) := by decide +kernel

/-- What the lists say about a parse function. -/
def Parser.listed (d : Def) : Bool :=
  let has (ns : List String) := decide (d.name ∈ ns.map str)
  match d.parser with
  | .none => true
  | .single => has wordNames && !d.flags.trim
  | .unsigned => has numberNames && has wordNames && d.flags.trim && !has listNames
  | .base64 => has base64Names && has wordNames && !d.flags.trim && !has listNames
  | .first => has firstNames
  | .contentType => has firstNames && has decodingNames
  | .contentDisposition => has firstNames && has decodingNames
  | .altSvc => has decodingNames

/-- The table and the lists of names agree: parse functions. -/
theorem definitions_parsers : ∀ d ∈ definitions, 58 ∈ d.name ∨ Parser.listed d = true := by decide +kernel

theorem lists_definitions : ∀ n ∈ (listNames ++ wholeNames).map str, ∃ d ∈ definitions, d.name = n := by decide +kernel

theorem definitionGet_none (name : Bytes) (h : definitionGet name = none) : lower name ∉ listNames.map str ∧ lower name ∉ wholeNames.map str := by
  rw [definitionGet_eq, List.find?_eq_none] at h
  have key : ∀ n ∈ (listNames ++ wholeNames).map str, lower name ≠ n := by
    intro n hn he
    obtain ⟨d, hd, hdn⟩ := lists_definitions n hn
    exact h d hd (by simp [hdn, he])
  constructor
  · intro hm; exact key _ (by rw [List.map_append]; exact List.mem_append_left _ hm) rfl
  · intro hm; exact key _ (by rw [List.map_append]; exact List.mem_append_right _ hm) rfl

theorem definitionGet_some (name : Bytes) (d : Def) (h : definitionGet name = some d) : d ∈ definitions ∧ d.name = lower name := by
  rw [definitionGet_eq] at h
  exact ⟨List.mem_of_find?_eq_some h, by simpa using List.find?_some h⟩

theorem toLower_colon (c : UInt8) (h : toLower c = 58) : c = 58 := by
  unfold toLower at h
  split at h
  · rename_i h1
    simp only [Bool.and_eq_true, decide_eq_true_eq, UInt8.le_iff_toNat_le, UInt8.reduceToNat] at h1
    have := congrArg UInt8.toNat h
    simp only [UInt8.toNat_add, UInt8.reduceToNat] at this
    omega
  · exact h

theorem lower_colon (name : Bytes) (h : ∀ c ∈ name, c ≠ 58) : 58 ∉ lower name := by
  intro hm
  unfold lower at hm
  rw [List.mem_map] at hm
  obtain ⟨c, hc, he⟩ := hm
  exact h c hc (toLower_colon c he)

/-! ## Numbers -/

theorem str_toString (n : Nat) : str (toString n) = decimal n := by
  unfold str decimal
  rw [Nat.toString_eq_repr, Nat.toList_repr]

theorem decimal_digits (n : Nat) : ∀ c ∈ decimal n, 48 ≤ c ∧ c ≤ 57 := by
  intro c hc
  unfold decimal at hc
  rw [List.mem_map] at hc
  obtain ⟨x, hx, rfl⟩ := hc
  have := Nat.isDigit_of_mem_toDigits (by omega) (by omega) hx
  simp only [Char.isDigit, Bool.and_eq_true, decide_eq_true_eq, UInt32.le_iff_toNat_le] at this
  have h1 : x.toNat = x.val.toNat := rfl
  simp only [UInt8.le_iff_toNat_le, UInt8.toNat_ofNat', UInt8.reduceToNat]
  have h2 : (48 : UInt32).toNat = 48 := rfl
  have h3 : (57 : UInt32).toNat = 57 := rfl
  have h4 : '0'.val.toNat = 48 := rfl
  have h5 : '9'.val.toNat = 57 := rfl
  omega

theorem decimal_ne (n : Nat) : decimal n ≠ [] := by
  unfold decimal
  simp [Nat.toDigits_ne_nil]

theorem decimal_length (n : Nat) (h : n < 2 ^ 64) : (decimal n).length ≤ 20 := by
  unfold decimal
  rw [List.length_map, Nat.length_toDigits_le_iff (by omega) (by omega)]
  omega

theorem decimal_value (n : Nat) : HttpUtil.decimal (decimal n) = n := by
  have h1 := Nat.ofDigitChars_ten_toDigits (n := n)
  have h2 : ∀ (cs : List Char) (a : Nat), (∀ c ∈ cs, c.isDigit = true) →
      (cs.map fun c => UInt8.ofNat c.toNat).foldl (fun n c => n * 10 + (c.toNat - 48)) a = Nat.ofDigitChars 10 cs a := by
    intro cs
    induction cs with
    | nil => intro a _; rfl
    | cons c cs ih =>
      intro a hc
      have hd := hc c (by simp)
      simp only [Char.isDigit, Bool.and_eq_true, decide_eq_true_eq, UInt32.le_iff_toNat_le] at hd
      have h4 : '0'.val.toNat = 48 := rfl
      have h5 : '9'.val.toNat = 57 := rfl
      have h6 : c.toNat = c.val.toNat := rfl
      rw [List.map_cons, List.foldl_cons, ih _ fun x hx => hc x (by simp [hx])]
      rw [Nat.ofDigitChars_cons]
      congr 1
      have h7 : (UInt8.ofNat c.toNat).toNat = c.toNat := by
        rw [UInt8.toNat_ofNat']
        omega
      rw [h7]
      have h8 : '0'.toNat = 48 := rfl
      omega
  unfold HttpUtil.decimal decimal
  rw [h2 _ _ fun c hc => Nat.isDigit_of_mem_toDigits (by omega) (by omega) hc]
  exact h1

theorem strtoullRaw_number (n : Nat) (h : n < 2 ^ 64) (rest : Bytes) (hr : ∀ c t, rest = c :: t → ¬ (48 ≤ c ∧ c ≤ 57)) :
    strtoullRaw 10 (decimal n ++ rest) = some (n, (decimal n).length) := by
  rw [strtoull_decimal _ _ (decimal_digits n) (decimal_ne n) (by have := decimal_length n h; omega) hr, decimal_value]
  congr 2
  omega

/-! ## The parse functions accept what the lists allow -/

theorem trimEnd_keep (s : Bytes) (h : s.getLast? ≠ some 32) : trimEnd s = s := by
  unfold trimEnd
  cases hr : s.reverse with
  | nil => simp at hr; simp [hr]
  | cons c r =>
    have hs : s = r.reverse ++ [c] := by
      have := congrArg List.reverse hr
      simpa using this
    have hc : c ≠ 32 := by
      intro he
      apply h
      rw [hs, he]
      simp
    have hd : (c :: r).dropWhile (· == 32) = c :: r := by
      rw [List.dropWhile_cons, if_neg (by simpa using hc)]
    rw [hd, hs]
    simp

theorem decimal_last (n : Nat) : (decimal n).getLast? ≠ some 32 := by
  intro h
  have hm := List.mem_of_getLast? h
  have := (decimal_digits n 32 hm).1
  exact absurd this (by decide)

theorem unquoteSubs_none (names : List Bytes) (subs : List Sub) (h : ∀ s ∈ subs, names.any (eqCase s.name) = false) : unquoteSubs names subs = some subs := by
  induction subs with
  | nil => rfl
  | cons s r ih =>
    rw [unquoteSubs, if_neg (by simp [h s (by simp)]), ih fun x hx => h x (by simp [hx])]
    rfl

theorem not_decoded (names : List String) (hn : ∀ n ∈ names, n ∈ decodedNames) (hl : ∀ n ∈ names, lower (str n) = str n) (key : Bytes)
    (h : ¬ named decodedNames key) : (names.map str).any (eqCase key) = false := by
  rw [List.any_eq_false]
  intro x hx
  rw [List.mem_map] at hx
  obtain ⟨n, hm, rfl⟩ := hx
  rw [eqCase_lower _ _ (hl n hm)]
  simp only [decide_eq_true_eq]
  intro he
  exact h (by unfold named; rw [he]; exact List.mem_map_of_mem (hn n hm))

/-- What is known about the field made from an element. -/
structure Made (l : Line) (e : Element) (f : Field) : Prop where
  name : f.name = lower l.name
  definition : f.definition = definitionGet l.name
  subs : f.subs = e.items.map Item.stored
  full : f.full = []
  value : ∀ d, definitionGet l.name = some d → d.parser ≠ .none → d.parser ≠ .unsigned → d.parser ≠ .altSvc → f.value = e.first.key
  number : ∀ d, definitionGet l.name = some d → d.parser = .unsigned → e.first.key = str (toString f.unsigned)

theorem Line.Ok.flags {l : Line} (h : l.Ok) : (flagsOf (definitionGet l.name)).multiple = decide (lower l.name ∈ listNames.map str) ∧
    (flagsOf (definitionGet l.name)).noPairs = decide (lower l.name ∈ wholeNames.map str) ∧ (flagsOf (definitionGet l.name)).angled = false := by
  cases hd : definitionGet l.name with
  | none =>
    obtain ⟨h1, h2⟩ := definitionGet_none _ hd
    simp [flagsOf, h1, h2]
  | some d =>
    obtain ⟨h1, h2⟩ := definitionGet_some _ _ hd
    rcases definitions_flags d h1 with h3 | ⟨h3, h4, h5⟩
    · rw [h2] at h3
      exact absurd h3 (lower_colon _ fun c hc => (h.name.2.1 c hc).1)
    · rw [h2] at h3 h4 h5
      refine ⟨h3, h4, ?_⟩
      show d.flags.angled = false
      rw [h5]
      have := h.link
      unfold named at this
      simp only [decide_eq_false_iff_not]
      exact this


theorem parseFirst_made (l : Line) (h : l.Ok) (e : Element) (he : e ∈ l.elements) (hf : named firstNames l.name) (fl : Flags) :
    parseFirst fl { name := lower l.name, definition := definitionGet l.name, subs := e.items.map Item.stored } =
      some { name := lower l.name, definition := definitionGet l.name, subs := e.items.map Item.stored, value := e.first.key } := by
  obtain ⟨h1, h2⟩ := h.first hf e he
  have hne := (h.items e he e.first (by simp [Element.items])).nonempty
  have ht : trimIf fl e.first.key = e.first.key := by
    unfold trimIf
    split
    · exact trimEnd_keep _ h2
    · rfl
  unfold parseFirst
  simp [Element.items, Item.stored, h1, ht, hne]

theorem applyDef_made (l : Line) (h : l.Ok) (e : Element) (he : e ∈ l.elements) :
    ∃ f, applyDef { name := lower l.name, definition := definitionGet l.name, subs := e.items.map Item.stored } = some f ∧ Made l e f := by
  have hfi := h.items e he e.first (by simp [Element.items])
  cases hd : definitionGet l.name with
  | none =>
    refine ⟨_, rfl, rfl, hd.symm, rfl, rfl, fun d hd' => ?_, fun d hd' => ?_⟩
    · rw [hd] at hd'; cases hd'
    · rw [hd] at hd'; cases hd'
  | some d =>
    obtain ⟨hdm, hdn⟩ := definitionGet_some _ _ hd
    have hlist : Parser.listed d = true := by
      rcases definitions_parsers d hdm with h3 | h3
      · rw [hdn] at h3
        exact absurd h3 (lower_colon _ fun c hc => (h.name.2.1 c hc).1)
      · exact h3
    have hval : ∀ f : Field, f.name = lower l.name → f.definition = some d → f.subs = e.items.map Item.stored → f.full = [] →
        (d.parser ≠ .none → d.parser ≠ .unsigned → d.parser ≠ .altSvc → f.value = e.first.key) →
        (d.parser = .unsigned → e.first.key = str (toString f.unsigned)) → Made l e f := by
      intro f h1 h2 h3 h4 h5 h6
      refine ⟨h1, h2.trans hd.symm, h3, h4, fun d' hd' => ?_, fun d' hd' => ?_⟩
      · rw [hd] at hd'; cases hd'; exact h5
      · rw [hd] at hd'; cases hd'; exact h6
    have hpf := fun hf => parseFirst_made l h e he hf d.flags
    rw [hd] at hpf
    unfold applyDef
    simp only
    unfold Parser.listed at hlist
    have hsingle : named wordNames l.name → e.items.map Item.stored = [⟨e.first.key, []⟩] := by
      intro hw
      obtain ⟨h1, h2⟩ := h.word hw e he
      simp [Element.items, Item.stored, h1, h2]
    cases hp : d.parser with
    | none => exact ⟨_, rfl, hval _ rfl rfl rfl rfl (fun h1 => absurd hp h1) (fun h1 => by rw [hp] at h1; cases h1)⟩
    | single =>
      rw [hp] at hlist
      simp only [Bool.and_eq_true, decide_eq_true_eq, Bool.not_eq_true', hdn] at hlist
      have hw : named wordNames l.name := hlist.1
      have hs := hsingle hw
      simp only
      unfold parseSingle singleVerify
      simp only [hs, ne_eq, not_true_eq_false, if_false, trimIf, hlist.2, Bool.false_eq_true, if_neg hfi.nonempty]
      exact ⟨_, rfl, hval _ rfl rfl hs.symm rfl (fun _ _ _ => rfl) (fun h1 => by rw [hp] at h1; cases h1)⟩
    | unsigned =>
      rw [hp] at hlist
      simp only [Bool.and_eq_true, decide_eq_true_eq, Bool.not_eq_true', hdn, decide_eq_false_iff_not] at hlist
      obtain ⟨⟨⟨hl1, hl2⟩, hl3⟩, hl4⟩ := hlist
      have hs := hsingle hl2
      obtain ⟨n, hn, hk⟩ := h.number hl1
      have hel : e = l.first := by
        have := h.list hl4
        simp only [Line.elements, this, List.mem_cons, List.not_mem_nil, or_false] at he
        exact he
      rw [← hel] at hk
      rw [str_toString] at hk
      simp only
      unfold parseUnsigned singleVerify
      have h1 := strtoullRaw_number n hn [] (by simp)
      rw [List.append_nil] at h1
      simp only [hs, ne_eq, not_true_eq_false, if_false, trimIf, hl3, if_true, hk, trimEnd_keep _ (decimal_last n), h1]
      refine ⟨_, rfl, hval _ rfl rfl ?_ rfl (fun _ h1 => absurd hp h1) (fun _ => ?_)⟩
      · rw [hs, hk]
      · rw [str_toString, hk]
    | base64 =>
      rw [hp] at hlist
      simp only [Bool.and_eq_true, decide_eq_true_eq, Bool.not_eq_true', hdn, decide_eq_false_iff_not] at hlist
      obtain ⟨⟨⟨hl1, hl2⟩, hl3⟩, hl4⟩ := hlist
      have hs := hsingle hl2
      have hb := h.base64 hl1
      have hel : e = l.first := by
        have := h.list hl4
        simp only [Line.elements, this, List.mem_cons, List.not_mem_nil, or_false] at he
        exact he
      rw [← hel] at hb
      obtain ⟨b, hb⟩ := Option.isSome_iff_exists.1 hb
      simp only
      unfold parseBase64 parseSingle singleVerify
      simp only [hs, ne_eq, not_true_eq_false, if_false, trimIf, hl3, Bool.false_eq_true, if_neg hfi.nonempty, hb]
      exact ⟨_, rfl, hval _ rfl rfl hs.symm rfl (fun _ _ _ => rfl) (fun h1 => by rw [hp] at h1; cases h1)⟩
    | first =>
      rw [hp] at hlist
      simp only [decide_eq_true_eq, hdn] at hlist
      simp only
      rw [hpf hlist]
      exact ⟨_, rfl, hval _ rfl rfl rfl rfl (fun _ _ _ => rfl) (fun h1 => by rw [hp] at h1; cases h1)⟩
    | contentType =>
      rw [hp] at hlist
      simp only [Bool.and_eq_true, decide_eq_true_eq, hdn] at hlist
      simp only
      unfold parseContentType
      rw [hpf hlist.1]
      simp only
      have hu : unquoteSubs [str "charset", str "boundary"] (e.items.map Item.stored) = some (e.items.map Item.stored) := by
        refine unquoteSubs_none _ _ fun s hs => ?_
        rw [List.mem_map] at hs
        obtain ⟨i, hi, rfl⟩ := hs
        exact not_decoded ["charset", "boundary"] (by decide) (by decide +kernel) i.key (h.decoded hlist.2 e he i hi)
      rw [hu]
      exact ⟨_, rfl, hval _ rfl rfl rfl rfl (fun _ _ _ => rfl) (fun h1 => by rw [hp] at h1; cases h1)⟩
    | contentDisposition =>
      rw [hp] at hlist
      simp only [Bool.and_eq_true, decide_eq_true_eq, hdn] at hlist
      simp only
      unfold parseContentDisposition
      rw [hpf hlist.1]
      simp only [Element.items, List.map_cons]
      have hu : unquoteSubs [str "name", str "filename"] (e.more.map Item.stored) = some (e.more.map Item.stored) := by
        refine unquoteSubs_none _ _ fun s hs => ?_
        rw [List.mem_map] at hs
        obtain ⟨i, hi, rfl⟩ := hs
        exact not_decoded ["name", "filename"] (by decide) (by decide +kernel) i.key (h.decoded hlist.2 e he i (by simp [Element.items, hi]))
      rw [hu]
      split
      · exact ⟨_, rfl, hval _ rfl rfl rfl rfl (fun _ _ _ => rfl) (fun h1 => by rw [hp] at h1; cases h1)⟩
      · exact ⟨_, rfl, hval _ rfl rfl rfl rfl (fun _ _ _ => rfl) (fun h1 => by rw [hp] at h1; cases h1)⟩
    | altSvc =>
      rw [hp] at hlist
      simp only [decide_eq_true_eq, hdn] at hlist
      simp only
      unfold parseAltSvc
      have hu : unquoteSubs [str "h2", str "h3", str "h3-29", str "h3-32", str "ma", str "persist"] (e.items.map Item.stored) =
          some (e.items.map Item.stored) := by
        refine unquoteSubs_none _ _ fun s hs => ?_
        rw [List.mem_map] at hs
        obtain ⟨i, hi, rfl⟩ := hs
        exact not_decoded ["h2", "h3", "h3-29", "h3-32", "ma", "persist"] (by decide) (by decide +kernel) i.key (h.decoded hlist e he i hi)
      simp only [hu]
      exact ⟨_, rfl, hval _ rfl rfl rfl rfl (fun _ _ h1 => absurd hp h1) (fun h1 => by rw [hp] at h1; cases h1)⟩

/-- The field made from an element. -/
def Line.made (l : Line) (e : Element) : Field :=
  (applyDef { name := lower l.name, definition := definitionGet l.name, subs := e.items.map Item.stored }).getD ⟨[], none, [], [], 0, [], []⟩

theorem Line.Ok.made {l : Line} (h : l.Ok) (e : Element) (he : e ∈ l.elements) :
    applyDef { name := lower l.name, definition := definitionGet l.name, subs := e.items.map Item.stored } = some (l.made e) ∧ Made l e (l.made e) := by
  obtain ⟨f, hf, hm⟩ := applyDef_made l h e he
  have : l.made e = f := by unfold Line.made; rw [hf]; rfl
  rw [this]
  exact ⟨hf, hm⟩

/-! ## Lines -/

theorem elementsText_length : ∀ es : List Element, es.length ≤ (elementsText es).length
  | [] => by simp [elementsText]
  | e :: es => by
    have := elementsText_length es
    simp only [elementsText, List.flatMap_cons, List.cons_append, List.length_cons, List.length_append] at *
    omega

theorem lastExtra_cases : ∀ (is : List Item) (i : Item), lastExtra i is = 0 ∨ lastExtra i is = 2
  | [], i => by unfold lastExtra; split <;> simp
  | j :: js, i => lastExtra_cases js j

theorem endExtra_cases : ∀ (es : List Element) (e : Element), endExtra e es = 0 ∨ endExtra e es = 2
  | [], e => lastExtra_cases e.more e.first
  | e' :: es, e => endExtra_cases es e'

/-- The fields made from a line. -/
def Line.fields (l : Line) : List Field :=
  { l.made l.first with full := strip l.value } :: l.more.map l.made

theorem trimSet_crlf (x : Bytes) : trimSet (x ++ [13, 10]) = trimSet x := by
  unfold trimSet
  simp [List.dropWhile_cons]

theorem dropWhile_append_stop (f : UInt8 → Bool) (a b : Bytes) (h : ∃ c ∈ a, f c = false) : (a ++ b).dropWhile f = a.dropWhile f ++ b := by
  induction a with
  | nil => obtain ⟨c, hc, _⟩ := h; simp at hc
  | cons x a ih =>
    rw [List.cons_append, List.dropWhile_cons, List.dropWhile_cons]
    cases hx : f x with
    | false => simp
    | true =>
      simp only [if_true]
      apply ih
      obtain ⟨c, hc, hfc⟩ := h
      rw [List.mem_cons] at hc
      rcases hc with rfl | hc
      · rw [hx] at hfc; cases hfc
      · exact ⟨c, hc, hfc⟩

theorem drop_countWhsp (v : Bytes) : v.drop (countWhsp v) = v.dropWhile isLwsp := by
  unfold countWhsp
  induction v with
  | nil => rfl
  | cons c v ih =>
    rw [List.takeWhile_cons, List.dropWhile_cons]
    cases isLwsp c with
    | true => simpa using ih
    | false => rfl

theorem strip_eq (v : Bytes) : trimSet (v.drop (countWhsp v)) = strip v := by
  rw [drop_countWhsp]
  unfold trimSet strip
  have h1 : (isLwsp : UInt8 → Bool) = fun c => c == 32 || c == 9 := by
    funext c
    unfold isLwsp
    by_cases h1 : c = 32 <;> by_cases h2 : c = 9 <;> simp [h1, h2]
  have h2 : (fun c : UInt8 => c == 13 || c == 10 || c == 9 || c == 32) = fun c => c == 32 || c == 9 || c == 13 || c == 10 := by
    funext c
    cases c == 13 <;> cases c == 10 <;> cases c == 9 <;> cases c == 32 <;> rfl
  rw [h1, h2]

theorem strip_crlf (v : Bytes) (h : ∃ c ∈ v, isLwsp c = false) : trimSet ((v ++ [13, 10]).drop (countWhsp (v ++ [13, 10]))) = strip v := by
  rw [drop_countWhsp, dropWhile_append_stop _ _ _ h, trimSet_crlf, ← drop_countWhsp, strip_eq]

theorem Line.Ok.value_solid {l : Line} (h : l.Ok) : ∃ c ∈ l.value, isLwsp c = false := by
  have hf := h.items l.first (by simp [Line.elements]) l.first.first (by simp [Element.items])
  cases hk : l.first.first.key with
  | nil => exact absurd hk hf.nonempty
  | cons c k =>
    refine ⟨c, ?_, ?_⟩
    · simp [Line.value, Element.text, Item.text, Item.word, hk]
    · have := hf.start c (by rw [hk]; rfl)
      simp [isLwsp, this.1, this.2.1]

theorem fieldParse_line (l : Line) (h : l.Ok) (tail : Bytes) (ht : Stop tail) (hmax : (l.text ++ tail).length ≤ lengthMax) :
    fieldParse (l.text ++ tail) = .ok (l.fields, l.name.length + 1 + l.value.length + endExtra l.first l.more) := by
  have hvcr : ∀ c ∈ l.value, c ≠ 13 := by
    intro c hc
    unfold Line.value at hc
    rcases List.mem_append.1 hc with hc | hc
    · exact l.first.text_nocr (fun i hi => (h.items l.first (by simp [Line.elements]) i hi).oneLine) c hc
    · exact elementsText_nocr l.more (fun e he i hi => (h.items e (by simp [Line.elements, he]) i hi).oneLine) c hc
  have hl : l.text ++ tail = (l.name ++ 58 :: l.value) ++ 13 :: 10 :: tail := by simp [Line.text]
  have hcr : ∀ c ∈ l.name ++ 58 :: l.value, c ≠ 13 := by
    intro c hc
    rcases List.mem_append.1 hc with hc | hc
    · exact (h.name.2.1 c hc).2
    · rw [List.mem_cons] at hc
      rcases hc with rfl | hc
      · decide
      · exact hvcr c hc
  unfold fieldParse
  rw [if_neg (by omega), hl, findCrlf_line _ _ hcr]
  have hlen : (l.name ++ 58 :: l.value).length = l.name.length + l.value.length + 1 := by simp; omega
  rw [hlen]
  simp only
  have htake : ((l.name ++ 58 :: l.value) ++ 13 :: 10 :: tail).take (l.name.length + l.value.length + 1) = l.name ++ 58 :: l.value := by
    rw [← hlen]; exact List.take_left' rfl
  rw [htake, strchr_at _ _ _ fun c hc => (h.name.2.1 c hc).1]
  simp only
  have hn : ((l.name ++ 58 :: l.value) ++ 13 :: 10 :: tail).take l.name.length = l.name := by
    rw [List.append_assoc]; exact List.take_left' rfl
  have hd : ((l.name ++ 58 :: l.value) ++ 13 :: 10 :: tail).drop (l.name.length + 1) = l.first.text ++ (elementsText l.more ++ 13 :: 10 :: tail) := by
    rw [show (l.name ++ 58 :: l.value) ++ 13 :: 10 :: tail = (l.name ++ [58]) ++ (l.value ++ 13 :: 10 :: tail) by simp,
      List.drop_left' (by simp)]
    simp [Line.value]
  obtain ⟨hf1, hf2, hf3⟩ := h.flags
  rw [hn, hd, show l.name.map toLower = lower l.name from rfl, fieldLoop_elements _ _ hf3 tail ht l.made l.more l.first false 0 [] _ (by
      have := elementsText_length l.more
      simp only [List.length_append, List.length_cons, Line.value]
      omega)
    (fun e he i hi => by rw [hf1, hf2]; exact h.items e he i hi)
    (fun hm => h.list (by rw [hf1] at hm; simpa [named] using hm))
    (fun hm => h.whole (by rw [hf2] at hm; simpa [named] using hm))
    (fun e he => (h.made e he).1)]
  simp only [R.map, R.bind, List.nil_append, List.map_cons]
  have hfull : trimSet (((l.first.text ++ (elementsText l.more ++ 13 :: 10 :: tail)).take ((l.first.text ++ elementsText l.more).length + endExtra l.first l.more)).drop
      (countWhsp ((l.first.text ++ (elementsText l.more ++ 13 :: 10 :: tail)).take ((l.first.text ++ elementsText l.more).length + endExtra l.first l.more)))) =
      strip l.value := by
    have hv : l.value = l.first.text ++ elementsText l.more := rfl
    rw [← List.append_assoc, ← hv]
    rcases endExtra_cases l.more l.first with he | he
    · rw [he, Nat.add_zero, List.take_left' rfl, strip_eq]
    · rw [he, show l.value ++ 13 :: 10 :: tail = (l.value ++ [13, 10]) ++ tail by simp, List.take_left' (by simp)]
      exact strip_crlf _ h.value_solid
  rw [setFull, hfull]
  congr 2
  simp [Line.value]
  omega

/-- The lines of a header. -/
def linesText (ls : List Line) : Bytes := ls.flatMap Line.text

theorem linesText_stop (ls : List Line) (hok : ∀ l ∈ ls, l.Ok) (tail : Bytes) : Stop (linesText ls ++ 13 :: 10 :: tail) := by
  cases ls with
  | nil => exact ⟨13, _, rfl, by decide, by decide, by decide, by decide⟩
  | cons l ls =>
    have h := (hok l (by simp)).name
    cases hn : l.name with
    | nil => exact absurd hn h.1
    | cons c n =>
      obtain ⟨h1, h2, h3, h4⟩ := h.2.2 c (by rw [hn]; rfl)
      have : ∃ t, linesText (l :: ls) ++ 13 :: 10 :: tail = c :: t := by
        rw [linesText, List.flatMap_cons, Line.text, hn]
        exact ⟨_, rfl⟩
      obtain ⟨t, ht⟩ := this
      exact ⟨c, t, ht, h3, h4, h1, h2⟩

theorem headerFields_lines (tail : Bytes) : ∀ (ls : List Line) (fuel : Nat) (acc : List Field) (pos : Nat), ls.length < fuel → (∀ l ∈ ls, l.Ok) →
    (linesText ls ++ 13 :: 10 :: tail).length ≤ lengthMax →
    headerFields fuel acc pos (linesText ls ++ 13 :: 10 :: tail) = (.ok, acc ++ ls.flatMap Line.fields, pos + (linesText ls).length + 2)
  | ls, 0, _, _, hf, _, _ => by omega
  | [], fuel + 1, acc, pos, _, _, _ => by
    show headerFields (fuel + 1) acc pos (13 :: 10 :: tail) = _
    rw [headerFields, show findCrlf (13 :: 10 :: tail) = some 0 from rfl]
    simp [linesText]
  | l :: ls, fuel + 1, acc, pos, hf, hok, hmax => by
    have hl := hok l (by simp)
    have hls := fun x hx => hok x (List.mem_cons_of_mem l hx)
    have ht : linesText (l :: ls) ++ 13 :: 10 :: tail = l.text ++ (linesText ls ++ 13 :: 10 :: tail) := by simp [linesText]
    rw [ht] at hmax ⊢
    have hp := fieldParse_line l hl (linesText ls ++ 13 :: 10 :: tail) (linesText_stop ls hls tail) hmax
    have hcr : ∀ c ∈ l.name ++ 58 :: l.value, c ≠ 13 := by
      intro c hc
      rcases List.mem_append.1 hc with hc | hc
      · exact (hl.name.2.1 c hc).2
      · rw [List.mem_cons] at hc
        rcases hc with rfl | hc
        · decide
        · unfold Line.value at hc
          rcases List.mem_append.1 hc with hc | hc
          · exact l.first.text_nocr (fun i hi => (hl.items l.first (by simp [Line.elements]) i hi).oneLine) c hc
          · exact elementsText_nocr l.more (fun e he i hi => (hl.items e (by simp [Line.elements, he]) i hi).oneLine) c hc
    have hlt : l.text ++ (linesText ls ++ 13 :: 10 :: tail) = (l.name ++ 58 :: l.value) ++ 13 :: 10 :: (linesText ls ++ 13 :: 10 :: tail) := by
      simp [Line.text]
    have hcrlf : findCrlf (l.text ++ (linesText ls ++ 13 :: 10 :: tail)) = some (l.name.length + l.value.length + 1) := by
      rw [hlt, findCrlf_line _ _ hcr]
      simp
      omega
    rw [headerFields, hcrlf]
    simp only
    rw [hp]
    simp only
    have hn : (if l.name.length + 1 + l.value.length + endExtra l.first l.more = l.name.length + l.value.length + 1 then
        l.name.length + 1 + l.value.length + endExtra l.first l.more + 2 else l.name.length + 1 + l.value.length + endExtra l.first l.more) = l.text.length := by
      have : l.text.length = l.name.length + l.value.length + 3 := by simp [Line.text]; omega
      rcases endExtra_cases l.more l.first with he | he <;> rw [he] <;> split <;> omega
    rw [hn, List.drop_left' rfl, headerFields_lines tail ls fuel _ _ (by simp only [List.length_cons] at hf; omega) hls (by
      rw [List.length_append] at hmax; omega)]
    simp only [List.flatMap_cons, linesText, List.length_append, List.append_assoc]
    congr 2
    omega

end Verif.Http
