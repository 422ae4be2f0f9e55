import Verif.Http.Model
/-!
# Results of the parser do not change when more data arrives
-/
namespace Verif.Http
open Verif Verif.HttpUtil

/-! ## Lists -/

theorem drop_app (l m : Bytes) (n : Nat) (h : n ≤ l.length) : (l ++ m).drop n = l.drop n ++ m :=
  List.drop_append_of_le_length h

theorem take_app (l m : Bytes) (n : Nat) (h : n ≤ l.length) : (l ++ m).take n = l.take n :=
  List.take_append_of_le_length h

theorem takeWhile_app (f : UInt8 → Bool) : ∀ (l m : Bytes), (l.takeWhile f).length < l.length → (l ++ m).takeWhile f = l.takeWhile f
  | [], _, h => by simp at h
  | a :: l, m, h => by
    by_cases ha : f a = true
    · simp only [List.cons_append, List.takeWhile_cons, ha, if_true, List.length_cons, List.cons.injEq, true_and] at h ⊢
      exact takeWhile_app f l m (by omega)
    · simp [ha]

theorem takeWhile_len (f : UInt8 → Bool) (l : Bytes) : (l.takeWhile f).length ≤ l.length :=
  List.Sublist.length_le (List.takeWhile_sublist f)

theorem findCrlf_cons (c : UInt8) (l : Bytes) (h : ¬ (c = 13 ∧ l.head? = some 10)) : findCrlf (c :: l) = (findCrlf l).map (· + 1) := by
  rw [findCrlf]
  intro l' hc hl
  exact h ⟨hc, by simp [hl]⟩

theorem findCrlf_app : ∀ (l m : Bytes) (p : Nat), findCrlf l = some p → findCrlf (l ++ m) = some p
  | [], _, _, h => by simp [findCrlf] at h
  | c :: l, m, p, h => by
    by_cases hc : c = 13 ∧ l.head? = some 10
    · obtain ⟨rfl, hl⟩ := hc
      cases l with
      | nil => simp at hl
      | cons d l =>
        simp only [List.head?_cons, Option.some.injEq] at hl
        subst hl
        simp only [findCrlf] at h
        simpa [findCrlf] using h
    · rw [findCrlf_cons c l hc] at h
      cases hl : findCrlf l with
      | none => simp [hl] at h
      | some q =>
        rw [hl] at h
        have hne : l ≠ [] := by rintro rfl; simp [findCrlf] at hl
        have : ¬ (c = 13 ∧ (l ++ m).head? = some 10) := by
          cases l with
          | nil => exact absurd rfl hne
          | cons d l => exact hc
        rw [List.cons_append, findCrlf_cons c (l ++ m) this, findCrlf_app l m q hl]
        exact h

theorem findCrlf_len : ∀ (l : Bytes) (p : Nat), findCrlf l = some p → p + 2 ≤ l.length
  | [], _, h => by simp [findCrlf] at h
  | c :: l, p, h => by
    by_cases hc : c = 13 ∧ l.head? = some 10
    · obtain ⟨rfl, hl⟩ := hc
      cases l with
      | nil => simp at hl
      | cons d l =>
        simp only [List.head?_cons, Option.some.injEq] at hl
        subst hl
        simp only [findCrlf, Option.some.injEq] at h
        subst h
        simp only [List.length_cons]; omega
    · rw [findCrlf_cons c l hc] at h
      cases hl : findCrlf l with
      | none => simp [hl] at h
      | some q =>
        rw [hl] at h
        have := findCrlf_len l q hl
        simp only [Option.map_some, Option.some.injEq] at h
        simp only [List.length_cons]; omega

/-- The end of the line is a CR and an LF. -/
theorem findCrlf_at : ∀ (l : Bytes) (p : Nat), findCrlf l = some p → ∃ r, l.drop p = 13 :: 10 :: r
  | [], _, h => by simp [findCrlf] at h
  | c :: l, p, h => by
    by_cases hc : c = 13 ∧ l.head? = some 10
    · obtain ⟨rfl, hl⟩ := hc
      cases l with
      | nil => simp at hl
      | cons d l =>
        simp only [List.head?_cons, Option.some.injEq] at hl
        subst hl
        simp only [findCrlf, Option.some.injEq] at h
        subst h
        exact ⟨l, rfl⟩
    · rw [findCrlf_cons c l hc] at h
      cases hl : findCrlf l with
      | none => simp [hl] at h
      | some q =>
        rw [hl] at h
        simp only [Option.map_some, Option.some.injEq] at h
        subst h
        exact findCrlf_at l q hl

/-- Going forward within the line, the end of the line is the same. -/
theorem findCrlf_drop : ∀ (l : Bytes) (p n : Nat), findCrlf l = some p → n ≤ p → findCrlf (l.drop n) = some (p - n)
  | l, p, 0, h, _ => by simpa using h
  | [], _, n + 1, h, _ => by simp [findCrlf] at h
  | c :: l, p, n + 1, h, hn => by
    by_cases hc : c = 13 ∧ l.head? = some 10
    · obtain ⟨rfl, hl⟩ := hc
      cases l with
      | nil => simp at hl
      | cons d l =>
        simp only [List.head?_cons, Option.some.injEq] at hl
        subst hl
        simp only [findCrlf, Option.some.injEq] at h
        omega
    · rw [findCrlf_cons c l hc] at h
      cases hl : findCrlf l with
      | none => simp [hl] at h
      | some q =>
        rw [hl] at h
        simp only [Option.map_some, Option.some.injEq] at h
        subst h
        rw [List.drop_succ_cons, findCrlf_drop l q n hl (by omega)]
        congr 1; omega

theorem countWhsp_len (l : Bytes) : countWhsp l ≤ l.length := takeWhile_len _ _

theorem countWhsp_app (l m : Bytes) (h : countWhsp l < l.length) : countWhsp (l ++ m) = countWhsp l := by
  unfold countWhsp at *
  rw [takeWhile_app _ _ _ h]

/-- White space does not go past the end of a line. -/
theorem countWhsp_crlf (l : Bytes) (p : Nat) (h : findCrlf l = some p) : countWhsp l ≤ p := by
  induction l generalizing p with
  | nil => simp [findCrlf] at h
  | cons c l ih =>
    by_cases hc : isLwsp c = true
    · have h13 : ¬ (c = 13 ∧ l.head? = some 10) := by
        rintro ⟨rfl, -⟩; exact absurd hc (by decide)
      rw [findCrlf_cons c l h13] at h
      cases hl : findCrlf l with
      | none => simp [hl] at h
      | some q =>
        rw [hl] at h
        simp only [Option.map_some, Option.some.injEq] at h
        have := ih q hl
        simp only [countWhsp, List.takeWhile_cons, hc, if_true, List.length_cons] at this ⊢
        omega
    · simp [countWhsp, List.takeWhile_cons, hc]

/-! ## Values of header fields -/

theorem subFrom_ret (line : Bytes) (e : Nat) (c s : Option Nat) :
    subFrom line e c s ≠ .incomplete ∧ subFrom line e c s ≠ .hard ∧ subFrom line e c s ≠ .fault := by
  unfold subFrom
  by_cases h1 : e = 0
  · simp [h1]
  by_cases h2 : e = line.length
  · rw [if_neg h1, if_pos h2]; simp
  by_cases h3 : some e = c ∨ some e = s
  · rw [if_neg h1, if_neg h2, if_pos h3]; simp
  rw [if_neg h1, if_neg h2, if_neg h3]
  simp only
  split
  · simp
  · split <;> simp

theorem subLine_ret (fl : Flags) (line : Bytes) : subLine fl line ≠ .incomplete ∧ subLine fl line ≠ .hard ∧ subLine fl line ≠ .fault :=
  subFrom_ret ..

theorem firstPos_le (a b c : Option Nat) (e : Nat) (ha : ∀ x, a = some x → x ≤ e) : firstPos a b c e ≤ e := by
  have h1 : a.getD e ≤ e := by cases a with | none => simp | some x => simpa using ha x rfl
  unfold firstPos
  generalize a.getD e = f at *
  cases b with
  | none =>
    cases c with
    | none => exact h1
    | some c => simp only; split <;> omega
  | some b =>
    by_cases hb : b < f
    · simp only [hb, if_true]
      cases c with
      | none => simp only; omega
      | some c => simp only; split <;> omega
    · simp only [hb, if_false]
      cases c with
      | none => exact h1
      | some c => simp only; split <;> omega

theorem strchr_lt (l : Bytes) (c : UInt8) (i : Nat) (h : strchr l c = some i) : i < l.length := by
  unfold strchr at h
  obtain ⟨h1, -⟩ := List.findIdx?_eq_some_iff_getElem.1 h
  exact h1

theorem sepAt_lt (on : Bool) (line : Bytes) (sep : Nat) (c : UInt8) (i : Nat) (h : sepAt on line sep c = some i) : i < line.length := by
  unfold sepAt at h
  split at h
  · rw [Option.map_eq_some_iff] at h
    obtain ⟨j, hj, rfl⟩ := h
    have := strchr_lt _ _ _ hj
    rw [List.length_drop] at this
    omega
  · cases h

theorem quoteEnd_le (fl : Flags) (line : Bytes) (q : Nat) (h : quoteEnd fl line = some q) : q ≤ line.length := by
  unfold quoteEnd at h
  split at h
  · rw [Option.map_eq_some_iff] at h
    obtain ⟨j, hj, rfl⟩ := h
    have := strchr_lt _ _ _ hj
    omega
  · cases h

/-- The number of bytes is at least one and, if it is past the end of the line, goes to the next line. -/
theorem subFrom_len (line : Bytes) (e : Nat) (c s : Option Nat) (he : e ≤ line.length) (hc : ∀ x, c = some x → x ≤ line.length) (v : Sub) (n : Nat)
    (h : subFrom line e c s = .ok (v, n)) : 1 ≤ n ∧ (n ≤ line.length ∨ n = line.length + 2) := by
  unfold subFrom at h
  by_cases h1 : e = 0
  · simp [h1] at h
  by_cases h2 : e = line.length
  · rw [if_neg h1, if_pos h2] at h
    simp only [R.ok.injEq, Prod.mk.injEq] at h
    omega
  by_cases h3 : some e = c ∨ some e = s
  · rw [if_neg h1, if_neg h2, if_pos h3] at h
    simp only [R.ok.injEq, Prod.mk.injEq] at h
    omega
  rw [if_neg h1, if_neg h2, if_neg h3] at h
  simp only at h
  split at h
  · cases h
  · split at h
    · cases h
    · simp only [R.ok.injEq, Prod.mk.injEq] at h
      have := firstPos_le c s none line.length hc
      omega

theorem subLine_len (fl : Flags) (line : Bytes) (v : Sub) (n : Nat) (h : subLine fl line = .ok (v, n)) :
    1 ≤ n ∧ (n ≤ line.length ∨ n = line.length + 2) := by
  refine subFrom_len _ _ _ _ ?_ ?_ v n h
  · cases hq : quoteEnd fl line with
    | some q => exact quoteEnd_le fl line q hq
    | none => exact firstPos_le _ _ _ _ fun x hx => Nat.le_of_lt (sepAt_lt _ _ _ _ _ hx)
  · exact fun x hx => Nat.le_of_lt (sepAt_lt _ _ _ _ _ hx)

theorem R.map_ok {β γ : Type} {f : β → γ} {r : R β} {c : γ} : r.map f = .ok c ↔ ∃ b, r = .ok b ∧ f b = c := by
  cases r <;> simp [R.map, R.bind]

theorem R.map_inc {β γ : Type} {f : β → γ} {r : R β} : r.map f = .incomplete ↔ r = .incomplete := by cases r <;> simp [R.map, R.bind]
theorem R.map_hard {β γ : Type} {f : β → γ} {r : R β} : r.map f = .hard ↔ r = .hard := by cases r <;> simp [R.map, R.bind]
theorem R.map_fault {β γ : Type} {f : β → γ} {r : R β} : r.map f = .fault ↔ r = .fault := by cases r <;> simp [R.map, R.bind]
theorem R.map_bug {β γ : Type} {f : β → γ} {r : R β} : r.map f = .bug ↔ r = .bug := by cases r <;> simp [R.map, R.bind]

theorem subAt_ret (fl : Flags) (l : Bytes) (s : Nat) : subAt fl l s ≠ .hard ∧ subAt fl l s ≠ .fault := by
  unfold subAt
  cases findCrlf (l.drop s) with
  | none => simp
  | some e =>
    simp only
    split
    · simp
    · rw [ne_eq, ne_eq, R.map_hard, R.map_fault]
      exact (subLine_ret _ _).2

theorem subAt_app (fl : Flags) (l m : Bytes) (s : Nat) (hs : s ≤ l.length) (h : subAt fl l s ≠ .incomplete) :
    subAt fl (l ++ m) s = subAt fl l s ∧ s + 2 ≤ l.length := by
  unfold subAt at *
  cases hc : findCrlf (l.drop s) with
  | none => simp [hc] at h
  | some e =>
    have he := findCrlf_len _ _ hc
    rw [List.length_drop] at he
    rw [drop_app l m s hs, findCrlf_app _ m _ hc]
    simp only
    rw [take_app (l.drop s) m e (by rw [List.length_drop]; omega)]
    exact ⟨rfl, by omega⟩

/-- The number of bytes taken is within the data, and there are some if there is a value. -/
theorem subAt_len (fl : Flags) (l : Bytes) (s : Nat) (hs : s ≤ l.length) (v : Option Sub) (n : Nat) (h : subAt fl l s = .ok (v, n)) :
    n ≤ l.length ∧ (v.isSome → s + 1 ≤ n) := by
  unfold subAt at h
  cases hc : findCrlf (l.drop s) with
  | none => simp [hc] at h
  | some e =>
    have he := findCrlf_len _ _ hc
    rw [List.length_drop] at he
    simp only [hc] at h
    generalize hk : (((l.drop s).take e).takeWhile (· == 32)).length = k at h
    have hke : k ≤ e := by
      have := takeWhile_len (· == 32) ((l.drop s).take e)
      rw [hk, List.length_take] at this
      omega
    split at h
    · simp only [R.ok.injEq, Prod.mk.injEq] at h
      obtain ⟨rfl, rfl⟩ := h
      simp
    · obtain ⟨⟨v', n'⟩, hb, hf⟩ := R.map_ok.1 h
      obtain ⟨h1, h2⟩ := subLine_len _ _ _ _ hb
      simp only [List.length_drop, List.length_take] at h2
      simp only [Prod.mk.injEq] at hf
      obtain ⟨rfl, rfl⟩ := hf
      refine ⟨?_, fun _ => by omega⟩
      have : min e (l.length - s) = e := by omega
      omega

theorem seps_len (l : Bytes) : seps l ≤ l.length := takeWhile_len _ _

theorem seps_app (l m : Bytes) (h : seps l < l.length) : seps (l ++ m) = seps l := by
  unfold seps at *
  rw [takeWhile_app _ _ _ h]

theorem subvalue_ret (fl : Flags) (b : Bool) (l : Bytes) : subvalue fl b l ≠ .hard ∧ subvalue fl b l ≠ .fault := by
  unfold subvalue
  cases b with
  | true => exact subAt_ret _ _ _
  | false =>
    simp only [Bool.false_eq_true, if_false]
    split
    · simp
    · exact subAt_ret _ _ _

theorem sepsw_len (l : Bytes) : seps l + countWhsp (l.drop (seps l)) ≤ l.length := by
  have h1 := seps_len l
  have h2 := countWhsp_len (l.drop (seps l))
  rw [List.length_drop] at h2
  omega

theorem subvalue_len (fl : Flags) (b : Bool) (l : Bytes) (v : Option Sub) (n : Nat) (h : subvalue fl b l = .ok (v, n)) :
    n ≤ l.length ∧ (v.isSome → 1 ≤ n) := by
  unfold subvalue at h
  cases b with
  | true =>
    obtain ⟨h1, h2⟩ := subAt_len _ _ _ (seps_len l) _ _ h
    exact ⟨h1, fun hv => by have := h2 hv; omega⟩
  | false =>
    simp only [Bool.false_eq_true, if_false] at h
    split at h
    · simp only [R.ok.injEq, Prod.mk.injEq] at h
      obtain ⟨rfl, rfl⟩ := h
      exact ⟨seps_len l, by simp⟩
    · obtain ⟨h1, h2⟩ := subAt_len _ _ _ (sepsw_len l) _ _ h
      exact ⟨h1, fun hv => by have := h2 hv; omega⟩

theorem subvalue_app (fl : Flags) (b : Bool) (l m : Bytes) (h : subvalue fl b l ≠ .incomplete)
    (hn : ∀ v n, subvalue fl b l = .ok (v, n) → n < l.length) : subvalue fl b (l ++ m) = subvalue fl b l := by
  unfold subvalue at *
  cases b with
  | true =>
    simp only [if_true] at *
    obtain ⟨h1, h2⟩ := subAt_app fl l m (seps l) (seps_len l) h
    rw [seps_app l m (by omega), h1]
  | false =>
    simp only [Bool.false_eq_true, if_false] at *
    by_cases hw : countWhsp (l.drop (seps l)) = 0
    · rw [if_pos hw] at h hn ⊢
      have hs := hn none (seps l) rfl
      rw [seps_app l m hs, drop_app l m _ (seps_len l), countWhsp_app _ m (by rw [hw, List.length_drop]; omega), if_pos hw]
    · rw [if_neg hw] at h hn ⊢
      obtain ⟨h1, h2⟩ := subAt_app fl l m _ (sepsw_len l) h
      rw [seps_app l m (by omega), drop_app l m _ (seps_len l), countWhsp_app _ m (by rw [List.length_drop]; omega), if_neg hw, h1]

theorem nextOf_app (l m : Bytes) (h : nextOf l ≠ .missing) : nextOf (l ++ m) = nextOf l := by
  cases l with
  | nil => simp [nextOf] at h
  | cons c r =>
    cases r with
    | nil =>
      by_cases h1 : c = 59
      · simp [nextOf, h1] at h
      · cases m <;> simp [nextOf, h1]
    | cons d r => rfl

/-- After a value there is at least one byte; if there is a comma, it is at the given distance. -/
theorem nextOf_comma (l : Bytes) (k : Nat) (h : nextOf l = .comma k) : k < l.length ∧ (l.drop k).head? = some 44 := by
  cases l with
  | nil => simp [nextOf] at h
  | cons c r =>
    by_cases h1 : c = 59
    · cases r with
      | nil => simp [nextOf, h1] at h
      | cons d r =>
        by_cases h2 : d = 44
        · simp only [nextOf, h1, h2, if_true] at h
          cases h
          simp [h2]
        · simp [nextOf, h1, h2] at h
    · by_cases h2 : c = 44
      · simp only [nextOf, h1, h2, if_false, if_true] at h
        cases h
        simp [h2]
      · simp [nextOf, h1, h2] at h

theorem nextOf_more (l : Bytes) (b : Bool) (h : nextOf l = .more b) : 0 < l.length := by
  cases l with
  | nil => simp [nextOf] at h
  | cons c r => simp

theorem subvalues_succ (fl : Flags) (fuel : Nat) (b : Bool) (acc : List Sub) (l : Bytes) :
    subvalues fl (fuel + 1) b acc l = (subvalue fl b l).bind fun (v, n) =>
      match nextOf (l.drop n) with
      | .missing => .incomplete
      | .comma k => .ok (acc ++ v.toList, n + k, true)
      | .more noWs =>
        if v.isNone then .ok (acc, n, false)
        else (subvalues fl fuel noWs (acc ++ v.toList) (l.drop n)).map fun (a, k, m) => (a, n + k, m) := rfl

theorem subvalues_nofault (fl : Flags) : ∀ (fuel : Nat) (b : Bool) (acc : List Sub) (l : Bytes), l.length < fuel →
    subvalues fl fuel b acc l ≠ .fault ∧ subvalues fl fuel b acc l ≠ .hard
  | 0, _, _, _, h => by omega
  | fuel + 1, b, acc, l, hf => by
    rw [subvalues_succ]
    cases hs : subvalue fl b l with
    | ok r =>
      obtain ⟨v, n⟩ := r
      obtain ⟨hn, hv⟩ := subvalue_len _ _ _ _ _ hs
      simp only [R.bind]
      cases hx : nextOf (l.drop n) with
      | missing => simp
      | comma k => simp
      | more w =>
        simp only
        split
        · simp
        · rename_i hsome
          have : v.isSome := by cases v <;> simp_all
          have := hv this
          rw [ne_eq, ne_eq, R.map_fault, R.map_hard]
          exact subvalues_nofault fl fuel w _ _ (by rw [List.length_drop]; omega)
    | incomplete => simp [R.bind]
    | soft => simp [R.bind]
    | hard => exact absurd hs (subvalue_ret _ _ _).1
    | bug => simp [R.bind]
    | fault => exact absurd hs (subvalue_ret _ _ _).2

theorem subvalues_len (fl : Flags) : ∀ (fuel : Nat) (b : Bool) (acc : List Sub) (l : Bytes) (a : List Sub) (n : Nat) (c : Bool),
    subvalues fl fuel b acc l = .ok (a, n, c) → n < l.length ∧ (c = true → (l.drop n).head? = some 44)
  | 0, _, _, _, _, _, _, h => by simp [subvalues] at h
  | fuel + 1, b, acc, l, a, n, c, h => by
    rw [subvalues_succ] at h
    cases hs : subvalue fl b l with
    | ok r =>
      obtain ⟨v, k⟩ := r
      obtain ⟨hn, hv⟩ := subvalue_len _ _ _ _ _ hs
      simp only [hs, R.bind] at h
      cases hx : nextOf (l.drop k) with
      | missing => simp [hx] at h
      | comma j =>
        simp only [hx, R.ok.injEq, Prod.mk.injEq] at h
        obtain ⟨rfl, rfl, rfl⟩ := h
        obtain ⟨h1, h2⟩ := nextOf_comma _ _ hx
        rw [List.length_drop] at h1
        rw [List.drop_drop] at h2
        exact ⟨by omega, fun _ => h2⟩
      | more w =>
        have h0 := nextOf_more _ _ hx
        rw [List.length_drop] at h0
        simp only [hx] at h
        split at h
        · simp only [R.ok.injEq, Prod.mk.injEq] at h
          obtain ⟨rfl, rfl, rfl⟩ := h
          exact ⟨by omega, by simp⟩
        · obtain ⟨⟨a', k', c'⟩, hr, he⟩ := R.map_ok.1 h
          simp only [Prod.mk.injEq] at he
          obtain ⟨rfl, rfl, rfl⟩ := he
          obtain ⟨h1, h2⟩ := subvalues_len fl fuel _ _ _ _ _ _ hr
          rw [List.length_drop] at h1
          rw [List.drop_drop] at h2
          exact ⟨by omega, h2⟩
    | incomplete => simp [hs, R.bind] at h
    | soft => simp [hs, R.bind] at h
    | hard => simp [hs, R.bind] at h
    | bug => simp [hs, R.bind] at h
    | fault => simp [hs, R.bind] at h

theorem subvalues_app (fl : Flags) (m : Bytes) : ∀ (fuel fuel' : Nat) (b : Bool) (acc : List Sub) (l : Bytes), fuel ≤ fuel' →
    subvalues fl fuel b acc l ≠ .incomplete → subvalues fl fuel b acc l ≠ .fault →
    subvalues fl fuel' b acc (l ++ m) = subvalues fl fuel b acc l
  | 0, _, _, _, _, _, _, h => by simp [subvalues] at h
  | fuel + 1, 0, _, _, _, h, _, _ => by omega
  | fuel + 1, fuel' + 1, b, acc, l, hf, hi, hb => by
    rw [subvalues_succ] at hi hb
    rw [subvalues_succ, subvalues_succ]
    have hn : ∀ v n, subvalue fl b l = .ok (v, n) → n < l.length := by
      intro v n hs
      rw [hs] at hi
      simp only [R.bind] at hi
      apply Nat.lt_of_not_le
      intro hle
      rw [List.drop_of_length_le hle] at hi
      exact hi rfl
    have hi' : subvalue fl b l ≠ .incomplete := by
      intro h; rw [h] at hi; exact hi rfl
    rw [subvalue_app fl b l m hi' hn]
    cases hs : subvalue fl b l with
    | ok r =>
      obtain ⟨v, n⟩ := r
      have := hn v n hs
      rw [hs] at hi hb
      simp only [R.bind] at hi hb ⊢
      rw [drop_app l m n (by omega)]
      have hx : nextOf (l.drop n) ≠ .missing := by intro h; rw [h] at hi; exact hi rfl
      rw [nextOf_app _ m hx]
      cases hx' : nextOf (l.drop n) with
      | missing => exact absurd hx' hx
      | comma k => rfl
      | more w =>
        rw [hx'] at hi hb
        simp only at hi hb ⊢
        by_cases hv : v.isNone = true
        · rw [if_pos hv, if_pos hv]
        · rw [if_neg hv, if_neg hv]
          rw [if_neg hv, ne_eq, R.map_inc] at hi
          rw [if_neg hv, ne_eq, R.map_fault] at hb
          rw [subvalues_app fl m fuel fuel' w _ _ (by omega) hi hb]
    | incomplete => rfl
    | soft => rfl
    | hard => rfl
    | bug => rfl
    | fault => rfl

/-! ## Header fields -/

theorem whitespaceCheck_len (b : Bool) (l : Bytes) (w : Nat) (c : Bool) (h : whitespaceCheck b l = .ok (w, c)) : w + 2 ≤ l.length := by
  unfold whitespaceCheck at h
  cases hc : findCrlf l with
  | none => simp [hc] at h
  | some p =>
    simp only [hc] at h
    generalize hr : (if countWhsp (l.take p) = p then (p + 2, b) else if countWhsp (l.take p) = 0 then (0, true) else (0, b)) = r at h
    cases hd : findCrlf (l.drop r.1) with
    | none => simp [hd] at h
    | some q =>
      simp only [hd, R.ok.injEq] at h
      have h1 := findCrlf_len _ _ hd
      rw [List.length_drop] at h1
      subst h
      simp only at h1
      omega

theorem whitespaceCheck_ret (b : Bool) (l : Bytes) : whitespaceCheck b l ≠ .hard ∧ whitespaceCheck b l ≠ .fault ∧ whitespaceCheck b l ≠ .bug ∧
    whitespaceCheck b l ≠ .soft := by
  unfold whitespaceCheck
  cases findCrlf l with
  | none => simp
  | some p =>
    simp only
    cases findCrlf (l.drop (if countWhsp (l.take p) = p then (p + 2, b) else if countWhsp (l.take p) = 0 then (0, true) else (0, b)).1) <;> simp

theorem whitespaceCheck_app (b : Bool) (l m : Bytes) (h : whitespaceCheck b l ≠ .incomplete) :
    whitespaceCheck b (l ++ m) = whitespaceCheck b l := by
  unfold whitespaceCheck at *
  cases hc : findCrlf l with
  | none => simp [hc] at h
  | some p =>
    have hp := findCrlf_len _ _ hc
    rw [findCrlf_app _ m _ hc]
    simp only [hc] at h ⊢
    rw [take_app l m p (by omega)]
    generalize hr : (if countWhsp (l.take p) = p then (p + 2, b) else if countWhsp (l.take p) = 0 then (0, true) else (0, b)) = r at h ⊢
    have hr1 : r.1 ≤ l.length := by
      rw [← hr]; split
      · exact hp
      · split <;> simp
    cases hd : findCrlf (l.drop r.1) with
    | none => simp [hd] at h
    | some q => rw [drop_app l m _ hr1, findCrlf_app _ m _ hd]

theorem createNext_app (l m : Bytes) (h : createNext l ≠ .incomplete) : createNext (l ++ m) = createNext l := by
  unfold createNext at *
  cases hc : findCrlf l with
  | none => simp [hc] at h
  | some p =>
    rw [findCrlf_app _ m _ hc]
    cases l with
    | nil => simp [findCrlf] at hc
    | cons a l => rfl

theorem createNext_len (l : Bytes) (k : Nat) (h : createNext l = .ok k) : k + 2 ≤ l.length ∧ (l.head? = some 44 → k = 1) := by
  unfold createNext at h
  cases hc : findCrlf l with
  | none => simp [hc] at h
  | some p =>
    have := findCrlf_len _ _ hc
    cases p with
    | zero => simp [hc] at h
    | succ p =>
      simp only [hc, R.ok.injEq] at h
      subst h
      refine ⟨by split <;> omega, fun h => by simp [h]⟩

theorem createNext_ret (l : Bytes) : createNext l ≠ .hard ∧ createNext l ≠ .fault ∧ createNext l ≠ .bug := by
  unfold createNext
  cases findCrlf l with
  | none => simp
  | some p => cases p <;> simp

theorem R.softened_ok {β : Type} {r : R β} {b : β} : r.softened = .ok b ↔ r = .ok b := by cases r <;> simp [R.softened]

end Verif.Http
