import Verif.Http.Stable
/-!
# Results of the header field parser do not change when more data arrives
-/
namespace Verif.Http
open Verif Verif.HttpUtil

/-- The number of empty values seen. -/
def empties (n e : Nat) : Nat := if n = 0 then e + 1 else e

/-- The second half of the loop: from the values on. -/
def fieldRest (name : Bytes) (d : Option Def) (fuel : Nat) (missing : Bool) (e : Nat) (acc : List Field) (l : Bytes) (w : Nat)
    (subs : List Sub) (n : Nat) (more : Bool) : R (List Field × Nat) :=
  if n = 0 ∧ empties n e = 4 then .soft
  else match applyDef { name := name, definition := d, subs := subs } with
    | none => .soft
    | some f =>
      if more then
        (createNext (l.drop (w + n))).bind fun k =>
          (fieldLoop name d fuel missing (empties n e) (acc ++ [f]) (l.drop (w + n + k))).map fun (fs, m) => (fs, w + n + k + m)
      else .ok (acc ++ [f], w + n)

theorem fieldLoop_succ (name : Bytes) (d : Option Def) (fuel : Nat) (b : Bool) (e : Nat) (acc : List Field) (l : Bytes) :
    fieldLoop name d (fuel + 1) b e acc l = if l = [] then .soft else (whitespaceCheck b l).bind fun r =>
      (subvalues (flagsOf d) (l.length + 1) r.2 [] (l.drop r.1)).softened.bind fun x => fieldRest name d fuel r.2 e acc l r.1 x.1 x.2.1 x.2.2 := rfl

theorem R.bind_ret {β γ : Type} {r : R β} {f : β → R γ} {x : R γ} (hx : ∀ c, x ≠ .ok c) (h : r.bind f = x)
    (h1 : ∀ b, r = .ok b → f b ≠ x) : r.bind (fun _ => R.ok ()) = x.bind (fun _ => R.ok ()) := by
  cases r with
  | ok b => exact absurd h (h1 b rfl)
  | _ => simp only [R.bind] at h ⊢; rw [← h]

theorem fieldLoop_nofault (name : Bytes) (d : Option Def) : ∀ (fuel : Nat) (b : Bool) (e : Nat) (acc : List Field) (l : Bytes), l.length < fuel →
    fieldLoop name d fuel b e acc l ≠ .fault ∧ fieldLoop name d fuel b e acc l ≠ .hard
  | 0, _, _, _, _, h => by omega
  | fuel + 1, b, e, acc, l, hf => by
    rw [fieldLoop_succ]
    split
    · simp
    · obtain ⟨hw1, hw2, -, -⟩ := whitespaceCheck_ret b l
      cases hw : whitespaceCheck b l with
      | ok r =>
        obtain ⟨w, b'⟩ := r
        have hwl := whitespaceCheck_len _ _ _ _ hw
        obtain ⟨hs1, hs2⟩ := subvalues_nofault (flagsOf d) (l.length + 1) b' [] (l.drop w) (by rw [List.length_drop]; omega)
        simp only [R.bind]
        cases hs : subvalues (flagsOf d) (l.length + 1) b' [] (l.drop w) with
        | ok x =>
          obtain ⟨subs, n, more⟩ := x
          obtain ⟨hn, hc⟩ := subvalues_len _ _ _ _ _ _ _ _ hs
          simp only [R.softened, Bool.false_eq_true, if_false]
          unfold fieldRest
          by_cases h4 : n = 0 ∧ empties n e = 4
          · rw [if_pos h4]; simp
          · rw [if_neg h4]
            cases hd : applyDef { name := name, definition := d, subs := subs } with
            | none => simp
            | some f =>
              cases more with
              | false => simp
              | true =>
                simp only [if_true]
                obtain ⟨hk1, hk2, -⟩ := createNext_ret (l.drop (w + n))
                cases hk : createNext (l.drop (w + n)) with
                | ok k =>
                  obtain ⟨hk3, hk4⟩ := createNext_len _ _ hk
                  have hc' := hc rfl
                  rw [List.drop_drop] at hc'
                  have := hk4 hc'
                  rw [List.length_drop] at hk3
                  simp only [R.bind]
                  rw [ne_eq, ne_eq, R.map_fault, R.map_hard]
                  exact fieldLoop_nofault name d fuel _ _ _ _ (by rw [List.length_drop]; omega)
                | incomplete => simp [R.bind]
                | soft => simp [R.bind]
                | hard => exact absurd hk hk1
                | bug => simp [R.bind]
                | fault => exact absurd hk hk2
        | incomplete => simp [R.softened]
        | soft => simp [R.softened]
        | hard => simp [R.softened]
        | bug => simp [R.softened]
        | fault => exact absurd hs hs1
      | incomplete => simp [R.bind]
      | soft => simp [R.bind]
      | hard => exact absurd hw hw1
      | bug => simp [R.bind]
      | fault => exact absurd hw hw2

/-- Take apart a result which is a value. -/
theorem fieldLoop_ok (name : Bytes) (d : Option Def) (fuel : Nat) (b : Bool) (e : Nat) (acc : List Field) (l : Bytes) (fs : List Field) (n : Nat)
    (h : fieldLoop name d (fuel + 1) b e acc l = .ok (fs, n)) :
    ∃ w b' subs k more, whitespaceCheck b l = .ok (w, b') ∧ subvalues (flagsOf d) (l.length + 1) b' [] (l.drop w) = .ok (subs, k, more) ∧
      fieldRest name d fuel b' e acc l w subs k more = .ok (fs, n) := by
  rw [fieldLoop_succ] at h
  split at h
  · cases h
  · cases hw : whitespaceCheck b l with
    | ok r =>
      obtain ⟨w, b'⟩ := r
      simp only [hw, R.bind] at h
      cases hs : subvalues (flagsOf d) (l.length + 1) b' [] (l.drop w) with
      | ok x =>
        obtain ⟨subs, k, more⟩ := x
        simp only [hs, R.softened] at h
        exact ⟨w, b', subs, k, more, rfl, hs, h⟩
      | incomplete => simp [hs, R.softened] at h
      | soft => simp [hs, R.softened] at h
      | hard => simp [hs, R.softened] at h
      | bug => simp [hs, R.softened] at h
      | fault => simp [hs, R.softened] at h
    | incomplete => simp [hw, R.bind] at h
    | soft => simp [hw, R.bind] at h
    | hard => simp [hw, R.bind] at h
    | bug => simp [hw, R.bind] at h
    | fault => simp [hw, R.bind] at h

theorem fieldRest_ok (name : Bytes) (d : Option Def) (fuel : Nat) (b : Bool) (e : Nat) (acc : List Field) (l : Bytes) (w : Nat) (subs : List Sub)
    (k : Nat) (more : Bool) (fs : List Field) (n : Nat) (h : fieldRest name d fuel b e acc l w subs k more = .ok (fs, n)) :
    ∃ f, applyDef { name := name, definition := d, subs := subs } = some f ∧
      ((more = false ∧ fs = acc ++ [f] ∧ n = w + k) ∨
       (more = true ∧ ∃ j m, createNext (l.drop (w + k)) = .ok j ∧
         fieldLoop name d fuel b (empties k e) (acc ++ [f]) (l.drop (w + k + j)) = .ok (fs, m) ∧ n = w + k + j + m)) := by
  unfold fieldRest at h
  by_cases h4 : k = 0 ∧ empties k e = 4
  · rw [if_pos h4] at h; cases h
  · rw [if_neg h4] at h
    cases hd : applyDef { name := name, definition := d, subs := subs } with
    | none => simp [hd] at h
    | some f =>
      simp only [hd] at h
      refine ⟨f, rfl, ?_⟩
      cases more with
      | false =>
        simp only [Bool.false_eq_true, if_false, R.ok.injEq, Prod.mk.injEq] at h
        exact .inl ⟨rfl, h.1.symm, h.2.symm⟩
      | true =>
        simp only [if_true] at h
        cases hj : createNext (l.drop (w + k)) with
        | ok j =>
          simp only [hj, R.bind] at h
          obtain ⟨⟨fs', m⟩, h1, h2⟩ := R.map_ok.1 h
          simp only [Prod.mk.injEq] at h2
          obtain ⟨rfl, rfl⟩ := h2
          exact .inr ⟨rfl, j, m, rfl, h1, rfl⟩
        | incomplete => simp [hj, R.bind] at h
        | soft => simp [hj, R.bind] at h
        | hard => simp [hj, R.bind] at h
        | bug => simp [hj, R.bind] at h
        | fault => simp [hj, R.bind] at h

theorem fieldLoop_len (name : Bytes) (d : Option Def) : ∀ (fuel : Nat) (b : Bool) (e : Nat) (acc : List Field) (l : Bytes) (fs : List Field) (n : Nat),
    fieldLoop name d fuel b e acc l = .ok (fs, n) → n < l.length
  | 0, _, _, _, _, _, _, h => by simp [fieldLoop] at h
  | fuel + 1, b, e, acc, l, fs, n, h => by
    obtain ⟨w, b', subs, k, more, hw, hs, hr⟩ := fieldLoop_ok _ _ _ _ _ _ _ _ _ h
    obtain ⟨hk, -⟩ := subvalues_len _ _ _ _ _ _ _ _ hs
    rw [List.length_drop] at hk
    obtain ⟨f, -, hc | ⟨-, j, m, hj, hl, rfl⟩⟩ := fieldRest_ok _ _ _ _ _ _ _ _ _ _ _ _ _ hr
    · omega
    · have := fieldLoop_len name d fuel _ _ _ _ _ _ hl
      rw [List.length_drop] at this
      omega

theorem fieldLoop_app (name : Bytes) (d : Option Def) (m : Bytes) : ∀ (fuel fuel' : Nat) (b : Bool) (e : Nat) (acc : List Field) (l : Bytes),
    fuel ≤ fuel' → l ≠ [] → fieldLoop name d fuel b e acc l ≠ .incomplete → fieldLoop name d fuel b e acc l ≠ .fault →
    fieldLoop name d fuel' b e acc (l ++ m) = fieldLoop name d fuel b e acc l
  | 0, _, _, _, _, _, _, _, _, h => by simp [fieldLoop] at h
  | fuel + 1, 0, _, _, _, _, h, _, _, _ => by omega
  | fuel + 1, fuel' + 1, b, e, acc, l, hf, hl, hi, hb => by
    rw [fieldLoop_succ, if_neg hl] at hi hb
    rw [fieldLoop_succ, fieldLoop_succ, if_neg hl, if_neg (by simp [hl])]
    have hi' : whitespaceCheck b l ≠ .incomplete := by intro h; rw [h] at hi; exact hi rfl
    rw [whitespaceCheck_app b l m hi']
    cases hw : whitespaceCheck b l with
    | ok r =>
      obtain ⟨w, b'⟩ := r
      have hwl := whitespaceCheck_len _ _ _ _ hw
      simp only [hw, R.bind] at hi hb ⊢
      have hsi : subvalues (flagsOf d) (l.length + 1) b' [] (l.drop w) ≠ .incomplete := by
        intro h; rw [h] at hi; exact hi rfl
      have hsf : subvalues (flagsOf d) (l.length + 1) b' [] (l.drop w) ≠ .fault := by
        intro h; rw [h] at hb; exact hb rfl
      rw [drop_app l m w (by omega), subvalues_app (flagsOf d) m (l.length + 1) ((l ++ m).length + 1) b' [] (l.drop w)
        (by rw [List.length_append]; omega) hsi hsf]
      cases hs : subvalues (flagsOf d) (l.length + 1) b' [] (l.drop w) with
      | ok x =>
        obtain ⟨subs, n, more⟩ := x
        obtain ⟨hn, -⟩ := subvalues_len _ _ _ _ _ _ _ _ hs
        rw [List.length_drop] at hn
        simp only [hs, R.softened, Bool.false_eq_true, if_false] at hi hb ⊢
        unfold fieldRest at hi hb ⊢
        by_cases h4 : n = 0 ∧ empties n e = 4
        · rw [if_pos h4, if_pos h4]
        rw [if_neg h4] at hi hb
        rw [if_neg h4, if_neg h4]
        cases hd : applyDef { name := name, definition := d, subs := subs } with
        | none => rfl
        | some f =>
          simp only [hd] at hi hb ⊢
          cases more with
          | false => rfl
          | true =>
            simp only [if_true] at hi hb ⊢
            have hci : createNext (l.drop (w + n)) ≠ .incomplete := by intro h; rw [h] at hi; exact hi rfl
            rw [drop_app l m (w + n) (by omega), createNext_app _ m hci]
            cases hk : createNext (l.drop (w + n)) with
            | ok k =>
              obtain ⟨hk3, -⟩ := createNext_len _ _ hk
              rw [List.length_drop] at hk3
              simp only [hk, R.bind] at hi hb ⊢
              rw [ne_eq, R.map_inc] at hi
              rw [ne_eq, R.map_fault] at hb
              rw [drop_app l m (w + n + k) (by omega), fieldLoop_app name d m fuel fuel' _ _ _ _ (by omega)
                (by intro h; have := congrArg List.length h; simp only [List.length_drop, List.length_nil] at this; omega) hi hb]
            | incomplete => rfl
            | soft => rfl
            | hard => rfl
            | bug => rfl
            | fault => rfl
      | incomplete => rfl
      | soft => rfl
      | hard => rfl
      | bug => rfl
      | fault => rfl
    | incomplete => rfl
    | soft => rfl
    | hard => rfl
    | bug => rfl
    | fault => rfl

theorem fieldParse_nofault (l : Bytes) : fieldParse l ≠ .fault ∧ fieldParse l ≠ .hard := by
  unfold fieldParse
  split
  · simp
  · split
    · simp
    · simp
    · split
      · simp
      · rename_i c hc
        simp only
        rw [ne_eq, ne_eq, R.map_fault, R.map_hard]
        exact fieldLoop_nofault _ _ _ _ _ _ _ (by rw [List.length_drop]; omega)

theorem fieldParse_len (l : Bytes) (fs : List Field) (n : Nat) (h : fieldParse l = .ok (fs, n)) : 1 ≤ n ∧ n < l.length := by
  unfold fieldParse at h
  split at h
  · cases h
  · split at h
    · cases h
    · cases h
    · split at h
      · cases h
      · obtain ⟨⟨fs', k⟩, h1, h2⟩ := R.map_ok.1 h
        simp only [Prod.mk.injEq] at h2
        obtain ⟨-, rfl⟩ := h2
        have := fieldLoop_len _ _ _ _ _ _ _ _ _ h1
        rw [List.length_drop] at this
        omega

theorem fieldParse_app (l m : Bytes) (hlen : (l ++ m).length ≤ lengthMax) (h : fieldParse l ≠ .incomplete) : fieldParse (l ++ m) = fieldParse l := by
  have hlen1 : ¬ l.length > lengthMax := by rw [List.length_append] at hlen; omega
  have hlen2 : ¬ (l ++ m).length > lengthMax := by omega
  unfold fieldParse at *
  rw [if_neg hlen1] at h
  rw [if_neg hlen1, if_neg hlen2]
  cases hc : findCrlf l with
  | none => simp [hc] at h
  | some p =>
    have hp := findCrlf_len _ _ hc
    rw [findCrlf_app _ m _ hc]
    cases p with
    | zero => rfl
    | succ p =>
      simp only [hc] at h ⊢
      rw [take_app l m (p + 1) (by omega)]
      cases hcol : strchr (l.take (p + 1)) 58 with
      | none => rfl
      | some c =>
        have hcl := strchr_lt _ _ _ hcol
        rw [List.length_take] at hcl
        simp only [hcol] at h ⊢
        rw [ne_eq, R.map_inc] at h
        rw [take_app l m c (by omega), drop_app l m (c + 1) (by omega)]
        rw [fieldLoop_app _ _ m (l.length + 1) ((l ++ m).length + 1) _ _ _ _ (by rw [List.length_append]; omega)
          (by intro h; have := congrArg List.length h; simp only [List.length_drop, List.length_nil] at this; omega) h
          (fieldLoop_nofault _ _ _ _ _ _ _ (by rw [List.length_drop]; omega)).1]
        cases hr : fieldLoop (List.map toLower (List.take c l)) (definitionGet (List.take c l)) (l.length + 1) false 0 [] (List.drop (c + 1) l) with
        | ok r =>
          obtain ⟨fs, n⟩ := r
          have hn := fieldLoop_len _ _ _ _ _ _ _ _ _ hr
          simp only [R.map, R.bind]
          rw [take_app _ m n (by omega)]
        | incomplete => rfl
        | soft => rfl
        | hard => rfl
        | bug => rfl
        | fault => rfl

/-! ## The header -/

/-- Advance after a field (L352). -/
def adv (n p : Nat) : Nat := if n = p then n + 2 else n

theorem headerFields_nofault : ∀ (fuel : Nat) (acc : List Field) (pos : Nat) (l : Bytes), l.length < fuel →
    (headerFields fuel acc pos l).1 ≠ .fault ∧ (headerFields fuel acc pos l).1 ≠ .hard
  | 0, _, _, _, h => by omega
  | fuel + 1, acc, pos, l, hf => by
    rw [headerFields]
    split
    · simp
    · simp
    · rename_i p hp1 hc
      have hp := findCrlf_len _ _ hc
      split
      · rename_i fs n hfp
        have := fieldParse_len _ _ _ hfp
        exact headerFields_nofault fuel _ _ _ (by rw [List.length_drop]; split <;> omega)
      · simp
      · simp
      · rename_i h; exact absurd h (fieldParse_nofault l).2
      · simp
      · rename_i h; exact absurd h (fieldParse_nofault l).1

theorem headerFields_fuel : ∀ (fuel fuel' : Nat) (acc : List Field) (pos : Nat) (l : Bytes), l.length < fuel → l.length < fuel' →
    headerFields fuel acc pos l = headerFields fuel' acc pos l
  | 0, _, _, _, _, h, _ => by omega
  | _ + 1, 0, _, _, _, _, h => by omega
  | fuel + 1, fuel' + 1, acc, pos, l, h, h' => by
    rw [headerFields, headerFields]
    split
    · rfl
    · rfl
    · rename_i p hp1 hc
      have hp := findCrlf_len _ _ hc
      split
      · rename_i fs n hfp
        have := fieldParse_len _ _ _ hfp
        exact headerFields_fuel fuel fuel' _ _ _ (by rw [List.length_drop]; split <;> omega) (by rw [List.length_drop]; split <;> omega)
      all_goals rfl

/-- The position does not matter for the rest. -/
theorem headerFields_pos : ∀ (fuel : Nat) (acc : List Field) (pos : Nat) (l : Bytes),
    headerFields fuel acc pos l = ((headerFields fuel acc 0 l).1, (headerFields fuel acc 0 l).2.1, pos + (headerFields fuel acc 0 l).2.2)
  | 0, _, _, _ => rfl
  | fuel + 1, acc, pos, l => by
    rw [headerFields, headerFields]
    split
    · rfl
    · simp
    · split
      · rename_i fs n hfp
        simp only
        rw [headerFields_pos fuel _ (pos + _), headerFields_pos fuel _ (0 + _)]
        simp only [Prod.mk.injEq, true_and]
        omega
      all_goals rfl

theorem headerFields_len : ∀ (fuel : Nat) (acc : List Field) (l : Bytes), (headerFields fuel acc 0 l).2.2 ≤ l.length
  | 0, _, _ => by simp [headerFields]
  | fuel + 1, acc, l => by
    rw [headerFields]
    split
    · simp
    · rename_i hc
      have := findCrlf_len _ _ hc
      simp only; omega
    · rename_i p hp1 hc
      have hp := findCrlf_len _ _ hc
      split
      · rename_i fs n hfp
        have := fieldParse_len _ _ _ hfp
        simp only
        rw [headerFields_pos]
        have h2 := headerFields_len fuel (acc ++ fs) (l.drop (if n = p then n + 2 else n))
        rw [List.length_drop] at h2
        simp only
        split at h2 <;> split <;> omega
      all_goals simp

/-- With more data the result is the same or, if data was missing, parsing goes on from where it had come. -/
theorem headerFields_app (m : Bytes) : ∀ (fuel fuel' : Nat) (acc : List Field) (l : Bytes), l.length < fuel → (l ++ m).length < fuel' →
    (l ++ m).length ≤ lengthMax →
    headerFields fuel' acc 0 (l ++ m) = (if (headerFields fuel acc 0 l).1 = .incomplete then
      headerFields fuel' (headerFields fuel acc 0 l).2.1 (headerFields fuel acc 0 l).2.2 ((l ++ m).drop (headerFields fuel acc 0 l).2.2)
      else headerFields fuel acc 0 l)
  | 0, _, _, _, h, _, _ => by omega
  | _ + 1, 0, _, _, _, h, _ => by omega
  | fuel + 1, fuel' + 1, acc, l, hf, hf', hlen => by
    cases hc : findCrlf l with
    | none =>
      have : headerFields (fuel + 1) acc 0 l = (.incomplete, acc, 0) := by rw [headerFields, hc]
      rw [this]; simp
    | some p =>
      have hp := findCrlf_len _ _ hc
      cases p with
      | zero =>
        have : headerFields (fuel + 1) acc 0 l = (.ok, acc, 2) := by rw [headerFields, hc]; rfl
        rw [this, headerFields, findCrlf_app _ m _ hc]
        simp
      | succ p =>
        by_cases hi : fieldParse l = .incomplete
        · have : headerFields (fuel + 1) acc 0 l = (.incomplete, acc, 0) := by rw [headerFields, hc]; simp only [hi]
          rw [this]; simp
        · have happ := fieldParse_app l m hlen hi
          rw [headerFields, headerFields, findCrlf_app _ m _ hc, hc]
          simp only [happ]
          cases hfp : fieldParse l with
          | ok r =>
            obtain ⟨fs, n⟩ := r
            simp only
            have hn := fieldParse_len _ _ _ hfp
            have hadv : (if n = p + 1 then n + 2 else n) ≤ l.length := by split <;> omega
            have hadv1 : 1 ≤ (if n = p + 1 then n + 2 else n) := by split <;> omega
            generalize (if n = p + 1 then n + 2 else n) = k at hadv hadv1
            rw [drop_app l m k hadv]
            rw [headerFields_pos fuel' (acc ++ fs) (0 + k), headerFields_pos fuel (acc ++ fs) (0 + k)]
            have ih := headerFields_app m fuel fuel' (acc ++ fs) (l.drop k) (by rw [List.length_drop]; omega)
              (by rw [List.length_append] at *; rw [List.length_drop]; omega) (by rw [List.length_append] at *; rw [List.length_drop]; omega)
            have hle := headerFields_len fuel (acc ++ fs) (l.drop k)
            rw [List.length_drop] at hle
            rw [ih]
            simp only
            generalize headerFields fuel (acc ++ fs) 0 (l.drop k) = x at *
            by_cases hx : x.1 = .incomplete
            · rw [if_pos hx, if_pos hx]
              rw [drop_app (l.drop k) m x.2.2 (by rw [List.length_drop]; omega), List.drop_drop]
              rw [drop_app l m (0 + k + x.2.2) (by omega)]
              rw [Nat.zero_add]
              rw [headerFields_pos fuel' _ x.2.2, headerFields_pos (fuel' + 1) _ (k + x.2.2)]
              have := headerFields_fuel fuel' (fuel' + 1) x.2.1 0 (l.drop (k + x.2.2) ++ m)
                (by rw [List.length_append] at *; rw [List.length_drop]; omega) (by rw [List.length_append] at *; rw [List.length_drop]; omega)
              rw [this]
              simp only [Prod.mk.injEq, true_and]
              omega
            · rw [if_neg hx, if_neg hx]
          | incomplete => exact absurd hfp hi
          | soft => simp
          | hard => simp
          | bug => simp
          | fault => simp

end Verif.Http
