import Verif.Http.HeaderLemmas
import Verif.Http.Spec
/-!
# The words of a header value
-/
namespace Verif.Http
open Verif Verif.HttpUtil

theorem strchr_none (l : Bytes) (c : UInt8) (h : ∀ x ∈ l, x ≠ c) : strchr l c = none := by
  unfold strchr
  rw [List.findIdx?_eq_none_iff]
  intro x hx
  simpa using h x hx

theorem strchr_at (a b : Bytes) (c : UInt8) (h : ∀ x ∈ a, x ≠ c) : strchr (a ++ c :: b) c = some a.length := by
  induction a with
  | nil => simp [strchr, List.findIdx?_cons]
  | cons x a ih =>
    have hx := h x (by simp)
    unfold strchr at *
    rw [List.cons_append, List.findIdx?_cons, ih fun y hy => h y (by simp [hy])]
    simp [hx]

/-- What is found lies after a beginning without it. -/
theorem strchr_ge (a b : Bytes) (c : UInt8) (h : ∀ x ∈ a, x ≠ c) (n : Nat) (hn : strchr (a ++ b) c = some n) : a.length ≤ n := by
  induction a generalizing n with
  | nil => simp
  | cons x a ih =>
    have hx := h x (by simp)
    unfold strchr at *
    rw [List.cons_append, List.findIdx?_cons] at hn
    simp only [beq_iff_eq, hx, if_false, Option.map_eq_some_iff] at hn
    obtain ⟨j, hj, rfl⟩ := hn
    have := ih (fun y hy => h y (by simp [hy])) j hj
    simp only [List.length_cons]
    omega

theorem firstPos_min (a b c : Option Nat) (e : Nat) : firstPos a b c e =
    let f := a.getD e
    let f := match b with | some b => min b f | none => f
    match c with | some c => min c f | none => f := by
  unfold firstPos
  simp only
  cases b <;> cases c <;> simp only [Nat.min_def] <;> repeat' split
  all_goals omega

/-- The rest of a line after a word: nothing, or a separator and more. -/
def Rest (pairs list : Bool) (rest : Bytes) : Prop :=
  rest = [] ∨ (pairs = true ∧ rest.head? = some 59) ∨ (list = true ∧ rest.head? = some 44)

theorem Rest.cases {pairs list : Bool} {rest : Bytes} (h : Rest pairs list rest) :
    rest = [] ∨ (pairs = true ∧ ∃ r, rest = 59 :: r) ∨ (list = true ∧ ∃ r, rest = 44 :: r) := by
  rcases h with h | ⟨hp, h⟩ | ⟨hp, h⟩
  · exact .inl h
  · cases rest with
    | nil => simp at h
    | cons c r => simp at h; exact .inr (.inl ⟨hp, r, by rw [h]⟩)
  · cases rest with
    | nil => simp at h
    | cons c r => simp at h; exact .inr (.inr ⟨hp, r, by rw [h]⟩)

theorem sepAt_zero (on : Bool) (line : Bytes) (c : UInt8) : sepAt on line 0 c = if on then strchr line c else none := by
  unfold sepAt
  cases on
  · rfl
  · simp only [if_true, List.drop_zero, Nat.add_zero]
    cases strchr line c <;> rfl

/-- One word at the beginning of a line. -/
theorem subLine_item (fl : Flags) (i : Item) (rest : Bytes) (h : i.Ok (!fl.noPairs) fl.multiple) (ha : fl.angled = false)
    (hr : Rest (!fl.noPairs) fl.multiple rest) :
    subLine fl (i.word ++ rest) = .ok (⟨i.key, i.value.getD []⟩, i.word.length + if rest = [] ∧ i.value = none then 2 else 0) := by
  have hq : quoteEnd fl (i.word ++ rest) = none := by unfold quoteEnd; rw [ha]; rfl
  unfold subLine
  rw [hq]
  simp only [Option.getD_none, sepAt_zero]
  have hkl : 0 < i.key.length := List.length_pos_iff.2 h.nonempty
  -- the comma is not within the word
  have hcomma : ∀ n, (if fl.multiple = true then strchr (i.word ++ rest) 44 else none) = some n → i.word.length ≤ n := by
    intro n hn
    cases hm : fl.multiple with
    | false => rw [hm] at hn; cases hn
    | true =>
      rw [hm, if_pos rfl] at hn
      exact strchr_ge _ _ _ (h.list hm) n hn
  have hword : ∀ c ∈ i.word, fl.noPairs = false → c ≠ 59 := by
    intro c hc hp
    unfold Item.word at hc
    rcases List.mem_append.1 hc with hc | hc
    · exact (h.key (by simp [hp]) c hc).2
    · cases hv : i.value with
      | none => rw [hv] at hc; simp at hc
      | some v =>
        rw [hv] at hc
        simp only [List.mem_cons] at hc
        rcases hc with rfl | hc
        · decide
        · exact (h.value v hv).2.2.2 c hc
  have hsemi : ∀ n, (if (!fl.noPairs) = true then strchr (i.word ++ rest) 59 else none) = some n → i.word.length ≤ n := by
    intro n hn
    cases hm : fl.noPairs with
    | true => rw [hm] at hn; cases hn
    | false =>
      rw [hm] at hn
      simp only [Bool.not_false, if_true] at hn
      exact strchr_ge _ _ _ (fun c hc => hword c hc hm) n hn
  have hsep : rest ≠ [] → (if fl.multiple = true then strchr (i.word ++ rest) 44 else none) = some i.word.length ∨
      (if (!fl.noPairs) = true then strchr (i.word ++ rest) 59 else none) = some i.word.length := by
    intro hne
    rcases hr.cases with h0 | ⟨hp, r, rfl⟩ | ⟨hp, r, rfl⟩
    · exact absurd h0 hne
    · right
      rw [if_pos hp]
      exact strchr_at _ _ _ fun c hc => hword c hc (by simpa using hp)
    · left
      rw [if_pos hp]
      exact strchr_at _ _ _ (h.list hp)
  have hlen : (i.word ++ rest).length = i.word.length + rest.length := List.length_append
  have hrest0 : rest = [] ↔ rest.length = 0 := by simp
  generalize hC : (if fl.multiple = true then strchr (i.word ++ rest) 44 else none) = comma at *
  generalize hS : (if (!fl.noPairs) = true then strchr (i.word ++ rest) 59 else none) = semi at *
  -- the end of the word according to the separators
  have hend : firstPos comma semi none (i.word ++ rest).length = i.word.length := by
    rw [firstPos_min]
    simp only
    by_cases hne : rest = []
    · have hc : comma.getD (i.word ++ rest).length = i.word.length := by
        cases hcc : comma with
        | none => rw [Option.getD_none, hlen, hne]; rfl
        | some n =>
          have h1 := hcomma n hcc
          have h2 : n < (i.word ++ rest).length := by
            rw [← hC] at hcc
            split at hcc
            · exact strchr_lt _ _ _ hcc
            · cases hcc
          rw [hne, List.append_nil] at h2
          omega
      rw [hc]
      cases hss : semi with
      | none => rfl
      | some n => have := hsemi n hss; simp only; omega
    · rcases hsep hne with hc | hc
      · rw [hc, Option.getD_some]
        cases hss : semi with
        | none => rfl
        | some n => have := hsemi n hss; simp only; omega
      · rw [hc]
        simp only
        cases hcc : comma with
        | none => rw [Option.getD_none]; omega
        | some n => have := hcomma n hcc; rw [Option.getD_some]; omega
  cases hv : i.value with
  | none =>
    have hw : i.word = i.key := by unfold Item.word; rw [hv]; simp
    have heq : ∀ n, (if (!fl.noPairs) = true then strchr (i.word ++ rest) 61 else none) = some n → i.word.length ≤ n := by
      intro n hn
      cases hm : fl.noPairs with
      | true => rw [hm] at hn; cases hn
      | false =>
        rw [hm] at hn
        simp only [Bool.not_false, if_true] at hn
        exact strchr_ge _ _ _ (fun c hc => by rw [hw] at hc; exact (h.key (by simp [hm]) c hc).1) n hn
    have hname : firstPos comma semi (if (!fl.noPairs) = true then strchr (i.word ++ rest) 61 else none) (i.word ++ rest).length = i.word.length := by
      have h1 := hend
      rw [firstPos_min] at h1 ⊢
      simp only at h1 ⊢
      cases hee : (if (!fl.noPairs) = true then strchr (i.word ++ rest) 61 else none) with
      | none => exact h1
      | some n => have := heq n hee; simp only; rw [h1]; omega
    rw [hname]
    unfold subFrom
    have hz : ¬ i.word.length = 0 := by rw [hw]; omega
    rw [if_neg hz]
    by_cases hne : rest = []
    · rw [if_pos (by rw [hne, List.append_nil]), if_pos ⟨hne, rfl⟩, hne, List.append_nil, List.take_length, hw]
      rfl
    · have hz2 : ¬ i.word.length = (i.word ++ rest).length := fun hh => hne (hrest0.2 (by omega))
      rw [if_neg hz2, if_pos (by rcases hsep hne with hc | hc; exact .inl hc.symm; exact .inr hc.symm),
        if_neg (fun hh => hne hh.1), List.take_left' rfl, hw]
      rfl
  | some v =>
    obtain ⟨hp, hvne, hv0, hv59⟩ := h.value v hv
    have hw : i.word = i.key ++ 61 :: v := by unfold Item.word; rw [hv]
    have hvl : 0 < v.length := List.length_pos_iff.2 hvne
    have hwl : i.word.length = i.key.length + 1 + v.length := by rw [hw]; simp; omega
    have heq : (if (!fl.noPairs) = true then strchr (i.word ++ rest) 61 else none) = some i.key.length := by
      rw [if_pos hp, hw, List.append_assoc, List.cons_append]
      exact strchr_at _ _ _ fun c hc => (h.key hp c hc).1
    have hname : firstPos comma semi (some i.key.length) (i.word ++ rest).length = i.key.length := by
      have h1 := hend
      rw [firstPos_min] at h1 ⊢
      simp only at h1 ⊢
      rw [h1]
      omega
    rw [heq, hname]
    unfold subFrom
    have hn1 : ¬ some i.key.length = comma := fun hh => by have := hcomma _ hh.symm; omega
    have hn2 : ¬ some i.key.length = semi := fun hh => by have := hsemi _ hh.symm; omega
    rw [if_neg (by omega), if_neg (by omega), if_neg (by rintro (hh | hh); exact hn1 hh; exact hn2 hh)]
    have hd : (i.word ++ rest).drop i.key.length = 61 :: (v ++ rest) := by
      rw [hw, List.append_assoc, List.drop_left' rfl]; rfl
    have hcw : countWhsp ((i.word ++ rest).drop i.key.length) = 0 := by rw [hd]; rfl
    simp only [hcw, Nat.add_zero]
    rw [if_neg (by omega), hend, if_neg (by omega)]
    have hd2 : (i.word ++ rest).drop (i.key.length + 1) = v ++ rest := by
      rw [← List.drop_drop, hd]; rfl
    have ht : (i.word ++ rest).take i.key.length = i.key := by
      rw [hw, List.append_assoc, List.take_left' rfl]
    rw [hd2, ht, List.take_left' (by omega), if_neg (by simp)]
    simp only [valueSet, if_neg hv0, Option.getD_some, Nat.add_zero]

theorem findCrlf_line : ∀ (a t : Bytes), (∀ c ∈ a, c ≠ 13) → findCrlf (a ++ 13 :: 10 :: t) = some a.length
  | [], t, _ => rfl
  | c :: a, t, h => by
    rw [List.cons_append, findCrlf_cons _ _ (fun hh => h c (by simp) hh.1), findCrlf_line a t fun x hx => h x (by simp [hx])]
    rfl

theorem takeWhile_stop (f : UInt8 → Bool) (a b : Bytes) (ha : ∀ c ∈ a, f c = true) (hb : ∀ c, b.head? = some c → f c = false) :
    (a ++ b).takeWhile f = a := by
  induction a with
  | nil =>
    cases b with
    | nil => rfl
    | cons c b => rw [List.nil_append, List.takeWhile_cons, hb c rfl]; rfl
  | cons c a ih =>
    rw [List.cons_append, List.takeWhile_cons, ha c (by simp), if_pos rfl, ih fun x hx => ha x (by simp [hx])]

theorem word_head (i : Item) (rest : Bytes) (hk : i.key ≠ []) : (i.word ++ rest).head? = i.key.head? := by
  unfold Item.word
  cases hkk : i.key with
  | nil => exact absurd hkk hk
  | cons c k => rfl

/-- A word at some position, after spaces. -/
theorem subAt_item (fl : Flags) (i : Item) (l rest tail : Bytes) (s k : Nat) (h : i.Ok (!fl.noPairs) fl.multiple) (ha : fl.angled = false)
    (hr : Rest (!fl.noPairs) fl.multiple rest) (hcr : ∀ c ∈ rest, c ≠ 13)
    (hl : l.drop s = List.replicate k 32 ++ (i.word ++ rest) ++ 13 :: 10 :: tail) :
    subAt fl l s = .ok (some ⟨i.key, i.value.getD []⟩, s + k + (i.word.length + if rest = [] ∧ i.value = none then 2 else 0)) := by
  have hno : ∀ c ∈ List.replicate k 32 ++ (i.word ++ rest), c ≠ 13 := by
    intro c hc
    rcases List.mem_append.1 hc with hc | hc
    · rw [List.eq_of_mem_replicate hc]; decide
    · rcases List.mem_append.1 hc with hc | hc
      · exact h.oneLine c hc
      · exact hcr c hc
  unfold subAt
  rw [hl, findCrlf_line _ _ hno]
  simp only
  rw [List.take_left' rfl]
  have htw : (List.replicate k 32 ++ (i.word ++ rest)).takeWhile (· == 32) = List.replicate k 32 := by
    refine takeWhile_stop _ _ _ (fun c hc => by rw [List.eq_of_mem_replicate hc]; rfl) fun c hc => ?_
    rw [word_head _ _ h.nonempty] at hc
    simpa using (h.start c hc).1
  have hwl : 0 < i.word.length := by
    unfold Item.word
    rw [List.length_append]
    have := List.length_pos_iff.2 h.nonempty
    omega
  rw [htw, List.length_replicate, List.length_append, List.length_replicate, List.length_append, if_neg (by omega)]
  rw [List.drop_left' List.length_replicate, subLine_item fl i rest h ha hr]
  rfl

/-- The separators before a word. -/
def Pre (pre : Bytes) : Prop := ∀ c ∈ pre, c = 59

theorem text_head (i : Item) (rest : Bytes) (hk : i.key ≠ []) :
    (List.replicate i.space 32 ++ (i.word ++ rest)).head? = if i.space = 0 then i.key.head? else some 32 := by
  cases hs : i.space with
  | zero => rw [if_pos rfl]; exact word_head i rest hk
  | succ n => rw [if_neg (by omega)]; rfl

theorem subvalue_item (fl : Flags) (i : Item) (pre rest tail : Bytes) (noWs : Bool) (h : i.Ok (!fl.noPairs) fl.multiple) (ha : fl.angled = false)
    (hr : Rest (!fl.noPairs) fl.multiple rest) (hcr : ∀ c ∈ rest, c ≠ 13) (hp : Pre pre) (hw : noWs = true ∨ 0 < i.space) :
    subvalue fl noWs (pre ++ (List.replicate i.space 32 ++ (i.word ++ rest) ++ 13 :: 10 :: tail)) =
      .ok (some ⟨i.key, i.value.getD []⟩, pre.length + i.space + (i.word.length + if rest = [] ∧ i.value = none then 2 else 0)) := by
  have hhead : ∀ c, (List.replicate i.space 32 ++ (i.word ++ rest) ++ 13 :: 10 :: tail).head? = some c → c ≠ 59 ∧ c ≠ 44 := by
    intro c hc
    rw [List.append_assoc, List.append_assoc, text_head _ _ h.nonempty] at hc
    split at hc
    · exact ⟨(h.start c hc).2.2.1, (h.start c hc).2.2.2⟩
    · simp only [Option.some.injEq] at hc
      rw [← hc]; decide
  have hseps : seps (pre ++ (List.replicate i.space 32 ++ (i.word ++ rest) ++ 13 :: 10 :: tail)) = pre.length := by
    unfold seps
    rw [takeWhile_stop _ _ _ (fun c hc => by rw [hp c hc]; rfl) fun c hc => by have := hhead c hc; simp [this.1, this.2]]
  have hd : (pre ++ (List.replicate i.space 32 ++ (i.word ++ rest) ++ 13 :: 10 :: tail)).drop pre.length =
      List.replicate i.space 32 ++ (i.word ++ rest) ++ 13 :: 10 :: tail := List.drop_left' rfl
  unfold subvalue
  rw [hseps]
  cases noWs with
  | true => rw [if_pos rfl]; exact subAt_item fl i _ rest tail pre.length i.space h ha hr hcr hd
  | false =>
    have hsp : 0 < i.space := by simpa using hw
    have hcw : countWhsp ((pre ++ (List.replicate i.space 32 ++ (i.word ++ rest) ++ 13 :: 10 :: tail)).drop pre.length) = i.space := by
      rw [hd]
      unfold countWhsp
      rw [List.append_assoc, List.append_assoc, takeWhile_stop _ _ _ (fun c hc => by rw [List.eq_of_mem_replicate hc]; rfl) fun c hc => ?_,
        List.length_replicate]
      rw [word_head _ _ h.nonempty] at hc
      have := h.start c hc
      simp [isLwsp, this.1, this.2.1]
    rw [if_neg (by simp), hcw, if_neg (by omega)]
    have := subAt_item fl i (pre ++ (List.replicate i.space 32 ++ (i.word ++ rest) ++ 13 :: 10 :: tail)) rest tail (pre.length + i.space) 0 h ha hr hcr
      (by rw [← List.drop_drop, hd, List.append_assoc, List.drop_left' List.length_replicate]; rfl)
    rw [this]
    rfl

/-- Nothing of a field follows. -/
def Stop (l : Bytes) : Prop := ∃ c t, l = c :: t ∧ c ≠ 59 ∧ c ≠ 44 ∧ c ≠ 32 ∧ c ≠ 9

theorem nextOf_stop (l : Bytes) (h : Stop l) : nextOf l = .more false := by
  obtain ⟨c, t, rfl, h1, h2, h3, h4⟩ := h
  simp [nextOf, h1, h2]

theorem subvalues_stop (fl : Flags) (fuel : Nat) (acc : List Sub) (l : Bytes) (h : Stop l) : subvalues fl (fuel + 1) false acc l = .ok (acc, 0, false) := by
  rw [subvalues_succ]
  have hs : subvalue fl false l = .ok (none, 0) := by
    obtain ⟨c, t, rfl, h1, h2, h3, h4⟩ := h
    have h5 : seps (c :: t) = 0 := by simp [seps, List.takeWhile_cons, h1, h2]
    have h6 : countWhsp (c :: t) = 0 := by simp [countWhsp, isLwsp, List.takeWhile_cons, h3, h4]
    unfold subvalue
    rw [h5, if_neg (by simp), List.drop_zero, h6, if_pos rfl]
  rw [hs]
  simp only [R.bind, List.drop_zero, nextOf_stop l h]
  rfl

/-- Two more bytes are taken if the last word of the line has no value. -/
def lastExtra : Item → List Item → Nat
  | i, [] => if i.value = none then 2 else 0
  | _, j :: js => lastExtra j js

theorem subvalues_items (fl : Flags) (ha : fl.angled = false) (R tail : Bytes) (hR : R = [] ∨ (fl.multiple = true ∧ ∃ r, R = 44 :: r))
    (hRcr : ∀ c ∈ R, c ≠ 13) (ht : R = [] → Stop tail) : ∀ (is : List Item) (i : Item) (pre : Bytes) (noWs : Bool) (acc : List Sub) (fuel : Nat),
      is.length + 2 ≤ fuel → (noWs = true ∨ 0 < i.space) → (∀ j ∈ i :: is, j.Ok (!fl.noPairs) fl.multiple) → (fl.noPairs = true → is = []) → Pre pre →
      subvalues fl fuel noWs acc (pre ++ (i.text ++ (moreText is ++ (R ++ 13 :: 10 :: tail)))) =
        .ok (acc ++ (i :: is).map Item.stored, pre.length + (i.text ++ moreText is).length + (if R = [] then lastExtra i is else 0), decide (R ≠ []))
  | is, i, pre, noWs, acc, 0, hf, _, _, _, _ => by omega
  | [], i, pre, noWs, acc, fuel + 1, hf, hw, hok, hnp, hpre => by
    have hi := hok i (by simp)
    have hrest : Rest (!fl.noPairs) fl.multiple R := by
      rcases hR with h | ⟨h, r, h'⟩
      · exact .inl h
      · exact .inr (.inr ⟨h, by rw [h']; rfl⟩)
    have hl : pre ++ (i.text ++ (moreText [] ++ (R ++ 13 :: 10 :: tail))) = pre ++ (List.replicate i.space 32 ++ (i.word ++ R) ++ 13 :: 10 :: tail) := by
      simp [moreText, Item.text]
    have htl : i.text.length = i.space + i.word.length := by simp [Item.text]
    rw [subvalues_succ, hl, subvalue_item fl i pre R tail noWs hi ha hrest hRcr hpre hw]
    simp only [Http.R.bind]
    rcases hR with hR0 | ⟨hm, r, hRr⟩
    · subst hR0
      have hstop := ht rfl
      simp only [true_and, if_true, List.append_nil, moreText, List.flatMap_nil, lastExtra]
      cases hv : i.value with
      | none =>
        have hd : (pre ++ (List.replicate i.space 32 ++ i.word ++ 13 :: 10 :: tail)).drop (pre.length + i.space + (i.word.length + 2)) = tail := by
          rw [show pre ++ (List.replicate i.space 32 ++ i.word ++ 13 :: 10 :: tail) = (pre ++ List.replicate i.space 32 ++ i.word ++ [13, 10]) ++ tail by simp]
          apply List.drop_left'
          simp
          omega
        simp only [if_true]
        rw [hd, nextOf_stop _ hstop]
        simp only [Option.isNone_some, Bool.false_eq_true, if_false]
        obtain ⟨fuel', rfl⟩ : ∃ f', fuel = f' + 1 := ⟨fuel - 1, by omega⟩
        rw [subvalues_stop fl fuel' _ _ hstop]
        simp only [Http.R.map, Http.R.bind, Option.toList, List.map_cons, List.map_nil, Item.stored, hv, htl, ne_eq, not_true_eq_false, decide_false]
        congr 3
        omega
      | some v =>
        have hd : (pre ++ (List.replicate i.space 32 ++ i.word ++ 13 :: 10 :: tail)).drop (pre.length + i.space + (i.word.length + 0)) = 13 :: 10 :: tail := by
          rw [show pre ++ (List.replicate i.space 32 ++ i.word ++ 13 :: 10 :: tail) = (pre ++ List.replicate i.space 32 ++ i.word) ++ 13 :: 10 :: tail by simp]
          apply List.drop_left'
          simp
          omega
        have hstop' : Stop (13 :: 10 :: tail) := ⟨13, _, rfl, by decide, by decide, by decide, by decide⟩
        simp only [reduceCtorEq, if_false]
        rw [hd, nextOf_stop _ hstop']
        simp only [Option.isNone_some, Bool.false_eq_true, if_false]
        obtain ⟨fuel', rfl⟩ : ∃ f', fuel = f' + 1 := ⟨fuel - 1, by omega⟩
        rw [subvalues_stop fl fuel' _ _ hstop']
        simp only [Http.R.map, Http.R.bind, Option.toList, List.map_cons, List.map_nil, Item.stored, hv, htl, ne_eq, not_true_eq_false, decide_false]
        congr 3
        omega
    · subst hRr
      have hd : (pre ++ (List.replicate i.space 32 ++ (i.word ++ 44 :: r) ++ 13 :: 10 :: tail)).drop (pre.length + i.space + (i.word.length + 0)) =
          44 :: (r ++ 13 :: 10 :: tail) := by
        rw [show pre ++ (List.replicate i.space 32 ++ (i.word ++ 44 :: r) ++ 13 :: 10 :: tail) =
          (pre ++ List.replicate i.space 32 ++ i.word) ++ 44 :: (r ++ 13 :: 10 :: tail) by simp]
        apply List.drop_left'
        simp
        omega
      simp only [reduceCtorEq, false_and, if_false]
      rw [hd]
      simp [nextOf, Item.stored, moreText, htl]
      omega
  | j :: js, i, pre, noWs, acc, fuel + 1, hf, hw, hok, hnp, hpre => by
    have hi := hok i (by simp)
    have hj := hok j (by simp)
    have hpairs : fl.noPairs = false := by
      cases h : fl.noPairs with
      | false => rfl
      | true => exact absurd (hnp h) (by simp)
    have hmt : moreText (j :: js) = 59 :: (j.text ++ moreText js) := by simp [moreText]
    have hrest : Rest (!fl.noPairs) fl.multiple (moreText (j :: js) ++ R) := .inr (.inl ⟨by simp [hpairs], by rw [hmt]; rfl⟩)
    have htcr : ∀ (k : Item), k.Ok (!fl.noPairs) fl.multiple → ∀ c ∈ k.text, c ≠ 13 := by
      intro k hk c hc
      unfold Item.text at hc
      rcases List.mem_append.1 hc with hc | hc
      · rw [List.eq_of_mem_replicate hc]; decide
      · exact hk.oneLine c hc
    have hrcr : ∀ c ∈ moreText (j :: js) ++ R, c ≠ 13 := by
      intro c hc
      rcases List.mem_append.1 hc with hc | hc
      · unfold moreText at hc
        rw [List.mem_flatMap] at hc
        obtain ⟨k, hk, hc⟩ := hc
        rw [List.mem_cons] at hc
        rcases hc with rfl | hc
        · decide
        · exact htcr k (hok k (by simp only [List.mem_cons] at hk ⊢; exact .inr hk)) c hc
      · exact hRcr c hc
    have hl : pre ++ (i.text ++ (moreText (j :: js) ++ (R ++ 13 :: 10 :: tail))) =
        pre ++ (List.replicate i.space 32 ++ (i.word ++ (moreText (j :: js) ++ R)) ++ 13 :: 10 :: tail) := by
      simp [Item.text]
    have htl : i.text.length = i.space + i.word.length := by simp [Item.text]
    rw [subvalues_succ, hl, subvalue_item fl i pre _ tail noWs hi ha hrest hrcr hpre hw]
    simp only [Http.R.bind]
    have hne : ¬ (moreText (j :: js) ++ R = [] ∧ i.value = none) := by rw [hmt]; simp
    rw [if_neg hne]
    have hd : (pre ++ (List.replicate i.space 32 ++ (i.word ++ (moreText (j :: js) ++ R)) ++ 13 :: 10 :: tail)).drop
        (pre.length + i.space + (i.word.length + 0)) = [59] ++ (j.text ++ (moreText js ++ (R ++ 13 :: 10 :: tail))) := by
      rw [show pre ++ (List.replicate i.space 32 ++ (i.word ++ (moreText (j :: js) ++ R)) ++ 13 :: 10 :: tail) =
        (pre ++ List.replicate i.space 32 ++ i.word) ++ ([59] ++ (j.text ++ (moreText js ++ (R ++ 13 :: 10 :: tail)))) by rw [hmt]; simp]
      apply List.drop_left'
      simp
      omega
    rw [hd]
    have hnext : nextOf ([59] ++ (j.text ++ (moreText js ++ (R ++ 13 :: 10 :: tail)))) = .more (decide (j.space = 0)) := by
      have hh : (j.text ++ (moreText js ++ (R ++ 13 :: 10 :: tail))).head? = if j.space = 0 then j.key.head? else some 32 := by
        unfold Item.text
        rw [List.append_assoc]
        exact text_head _ _ hj.nonempty
      cases hr : j.text ++ (moreText js ++ (R ++ 13 :: 10 :: tail)) with
      | nil => rw [hr] at hh; split at hh; · have := hj.nonempty; cases hk : j.key with
          | nil => exact absurd hk this
          | cons c k => rw [hk] at hh; simp at hh
               · simp at hh
      | cons d r =>
        rw [hr] at hh
        simp only [List.head?_cons] at hh
        simp only [List.singleton_append, nextOf, if_true]
        by_cases hz : j.space = 0
        · rw [if_pos hz] at hh
          have hs := hj.start d hh.symm
          have h13 : d ≠ 13 := by
            apply hj.oneLine d
            unfold Item.word
            refine List.mem_append_left _ ?_
            exact List.mem_of_mem_head? (by rw [← hh]; rfl)
          rw [if_neg hs.2.2.2]
          simp [hs.1, hs.2.1, h13, hz]
        · rw [if_neg hz] at hh
          simp only [Option.some.injEq] at hh
          subst hh
          simp [hz]
    rw [hnext]
    simp only [Option.isNone_some, Bool.false_eq_true, if_false]
    have ih := subvalues_items fl ha R tail hR hRcr ht js j [59] (decide (j.space = 0)) (acc ++ [i.stored]) fuel (by simp only [List.length_cons] at hf; omega)
      (by by_cases hz : j.space = 0; · exact .inl (by simp [hz])
          · exact .inr (by omega)) (fun k hk => hok k (by simp only [List.mem_cons] at hk ⊢; exact .inr hk))
      (fun h => by rw [hpairs] at h; cases h) (fun c hc => by simpa using hc)
    have hacc : acc ++ (some (⟨i.key, i.value.getD []⟩ : Sub)).toList = acc ++ [i.stored] := rfl
    rw [hacc, ih]
    simp only [Http.R.map, Http.R.bind, List.length_append, hmt, List.length_cons, lastExtra, List.map_cons, List.append_assoc, List.cons_append, List.nil_append,
      List.length_nil, htl]
    congr 3
    omega

end Verif.Http
