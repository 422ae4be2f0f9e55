import Verif.Env.Model
import Verif.Env.Spec

/-! # Lemmas about environment files -/
namespace Verif.Env
open Verif Verif.Parse Verif.Env.Spec

theorem ignore_eq (p : UInt8 → Bool) (hp : p 13 = true → p 10 = true) : ∀ b : Bytes, ignore p b = b.dropWhile p := by
  have key : ∀ n (b : Bytes), b.length ≤ n → ignore p b = b.dropWhile p := by
    intro n
    induction n with
    | zero => intro b hb; rw [List.length_eq_zero_iff.mp (Nat.le_zero.mp hb)]; rfl
    | succ n ih =>
      intro b hb
      match b with
      | [] => rfl
      | [c] => unfold ignore; split <;> simp_all
      | c :: d :: t =>
        simp at hb
        unfold ignore
        by_cases hc : p c = true
        · rw [if_pos hc, List.dropWhile_cons, if_pos hc]
          dsimp only
          split
          · rename_i h
            simp at h
            rw [h.1] at hc
            rw [ih t (by omega), List.dropWhile_cons, h.2, if_pos (hp hc)]
          · exact ih (d :: t) (by simp; omega)
        · rw [if_neg hc, List.dropWhile_cons, if_neg hc]
  exact fun b => key b.length b (Nat.le_refl _)

theorem ignoreSpaces_eq (b : Bytes) : ignoreSpaces b = b.dropWhile isSpaces := ignore_eq _ (by decide) b
theorem ignoreBlank_eq (b : Bytes) : ignore isSpaceTab b = b.dropWhile isSpaceTab := ignore_eq _ (by decide) b

theorem newline_iff (c : UInt8) : isNewline c = true ↔ c = 13 ∨ c = 10 := by simp [isNewline]
theorem blank_eq : blank = isSpaceTab := by funext c; simp only [blank, isSpaceTab]; rfl

theorem lines_ne (b : Bytes) : ∃ l ls, lines b = l :: ls := by
  induction b with
  | nil => exact ⟨[], [], rfl⟩
  | cons c r ih =>
    obtain ⟨l, ls, e⟩ := ih
    unfold lines
    split
    · exact ⟨_, _, rfl⟩
    · rw [e]; exact ⟨_, _, rfl⟩

theorem readLine_blank (c : UInt8) (l : Bytes) (h : blank c = true) : readLine (c :: l) = readLine l := by
  unfold readLine left
  rw [List.dropWhile_cons, if_pos h]

theorem readLine_nil : readLine [] = .none := rfl

/-- White space before what is to be read does not matter. -/
theorem readLines_spaces (b : Bytes) : readLines (lines b) = readLines (lines (b.dropWhile isSpaces)) := by
  induction b with
  | nil => rfl
  | cons c r ih =>
    rw [List.dropWhile_cons]
    split
    · rename_i h
      rw [← ih]
      by_cases hn : c = 13 ∨ c = 10
      · conv => lhs; unfold lines
        rw [if_pos hn, readLines, readLine_nil]
      · have hb : blank c = true := by
          simp only [not_or] at hn
          simp [isSpaces, isSpaceTab, isNewline, hn] at h
          simp [blank, h]
        obtain ⟨l, ls, e⟩ := lines_ne r
        conv => lhs; unfold lines
        rw [if_neg hn, e]
        simp only [readLines, readLine_blank c l hb]
    · rfl

theorem lines_split (b : Bytes) : lines b = match afterLine b with
    | [] => [lineOf b]
    | _ :: r => lineOf b :: lines r := by
  induction b with
  | nil => rfl
  | cons c r ih =>
    unfold afterLine lineOf at *
    rw [List.dropWhile_cons, List.takeWhile_cons]
    conv => lhs; unfold lines
    by_cases hn : c = 13 ∨ c = 10
    · have := (newline_iff c).mpr hn
      rw [if_pos hn]
      simp [this]
    · have : isNewline c = false := by
        cases h : isNewline c with
        | false => rfl
        | true => exact absurd ((newline_iff c).mp h) hn
      rw [if_neg hn]
      simp only [this, Bool.not_false, if_true]
      rw [ih]
      split <;> split at * <;> simp_all

/-- After a line come the lines after it. -/
theorem readLines_line (b : Bytes) : readLines (lines b) = match readLine (lineOf b) with
    | .none => readLines (lines (afterLine b))
    | .bad => none
    | .var n v => (readLines (lines (afterLine b))).map ((n, v) :: ·) := by
  rw [lines_split b]
  have h0 : ∀ c r, afterLine b = c :: r → readLines (lines (afterLine b)) = readLines (lines r) := by
    intro c r e
    have hc : c = 13 ∨ c = 10 := by
      have := List.head?_dropWhile_not (fun c => !isNewline c) b
      unfold afterLine at e
      rw [e] at this
      simpa [newline_iff] using this
    rw [e]
    conv => lhs; unfold lines
    rw [if_pos hc, readLines, readLine_nil]
  split
  · rename_i e
    rw [e]
    simp only [readLines]
    split <;> simp_all [lines, readLines, readLine_nil]
  · rename_i c r e
    rw [h0 c r e]
    rfl

theorem cstr_eq (l : Bytes) (h : 0 ∉ l) : cstr l = l := by
  unfold cstr
  induction l with
  | nil => rfl
  | cons c r ih =>
    simp only [List.mem_cons, not_or] at h
    rw [List.takeWhile_cons, if_pos (by simpa using Ne.symm h.1), ih h.2]

theorem dropWhile_congr' {p q : UInt8 → Bool} (l : Bytes) (h : ∀ c ∈ l, p c = q c) : l.dropWhile p = l.dropWhile q := by
  induction l with
  | nil => rfl
  | cons c r ih =>
    rw [List.dropWhile_cons, List.dropWhile_cons, h c (by simp), ih fun x hx => h x (by simp [hx])]

/-- There are no line ends in a line. -/
theorem trim_eq (l : Bytes) (h : ∀ c ∈ l, isNewline c = false) : trim l = right l := by
  unfold trim right
  rw [dropWhile_congr' _ fun c hc => ?_]
  rw [blank_eq]
  simp [isSpaces, h c (by simpa using hc)]

theorem lineOf_noNewline (b : Bytes) : ∀ c ∈ lineOf b, isNewline c = false := by
  intro c hc
  have := List.all_takeWhile (p := fun c => !isNewline c) (l := b)
  rw [List.all_eq_true] at this
  simpa using this c hc

theorem lineOf_sub (b : Bytes) : ∀ c ∈ lineOf b, c ∈ b := fun _ hc => (List.takeWhile_prefix _).subset hc

theorem readLine_left (l : Bytes) (h : ∀ c r, l = c :: r → blank c = false) : left l = l := by
  cases l with
  | nil => rfl
  | cons c r => unfold left; rw [List.dropWhile_cons, h c r rfl]; rfl

theorem line_append (b : Bytes) : b = lineOf b ++ afterLine b := (List.takeWhile_append_dropWhile).symm

theorem afterLine_head (b : Bytes) (c : UInt8) (r : Bytes) (h : afterLine b = c :: r) : isNewline c = true := by
  have := List.head?_dropWhile_not (fun c => !isNewline c) b
  unfold afterLine at h
  rw [h] at this
  simpa using this

theorem lineOf_append (x a : Bytes) (hx : ∀ c ∈ x, isNewline c = false) (ha : ∀ c r, a = c :: r → isNewline c = true) : lineOf (x ++ a) = x := by
  induction x with
  | nil =>
    cases a with
    | nil => rfl
    | cons c r => simp [lineOf, ha c r rfl]
  | cons c r ih =>
    have := ih fun d hd => hx d (by simp [hd])
    unfold lineOf at *
    rw [List.cons_append, List.takeWhile_cons, hx c (by simp)]
    simp [this]

theorem dropBlank_append (x a : Bytes) (ha : ∀ c r, a = c :: r → isNewline c = true) :
    (x ++ a).dropWhile isSpaceTab = x.dropWhile isSpaceTab ++ a := by
  induction x with
  | nil =>
    cases a with
    | nil => rfl
    | cons c r =>
      have : isSpaceTab c = false := by
        have := (newline_iff c).mp (ha c r rfl)
        rcases this with rfl | rfl <;> decide
      simp [this]
  | cons c r ih =>
    rw [List.cons_append, List.dropWhile_cons, List.dropWhile_cons, ih]
    split <;> rfl

/-- The value is what is after the equals sign in the line. -/
theorem value_eq (b : Bytes) (k : Nat) (hk : k ≤ (lineOf b).length) :
    lineOf (ignore isSpaceTab (b.drop k)) = left ((lineOf b).drop k) := by
  rw [ignoreBlank_eq]
  conv => lhs; rw [line_append b]
  rw [List.drop_append_of_le_length hk, dropBlank_append _ _ (afterLine_head b), lineOf_append _ _ _ (afterLine_head b)]
  · unfold left; rw [blank_eq]
  · intro c hc
    exact lineOf_noNewline b c (List.mem_of_mem_drop ((List.dropWhile_suffix _).subset hc))

theorem right_ne (l : Bytes) (h : left l = l) (hn : l ≠ []) : right l ≠ [] := by
  unfold right
  intro e
  rw [List.reverse_eq_nil_iff] at e
  have : ∀ c ∈ l.reverse, blank c = true := by
    generalize l.reverse = x at e
    intro c hc
    induction x with
    | nil => simp at hc
    | cons d r ih =>
      rw [List.dropWhile_cons] at e
      split at e
      · rename_i hd
        rcases List.mem_cons.mp hc with rfl | hc
        · exact hd
        · exact ih e hc
      · simp at e
  cases l with
  | nil => exact hn rfl
  | cons c r =>
    have hc := this c (by simp)
    unfold left at h
    rw [List.dropWhile_cons, if_pos hc] at h
    have := (List.dropWhile_suffix (l := r) blank).length_le
    rw [h] at this
    simp at this
    omega

theorem left_left (l : Bytes) : left (left l) = left l := by
  apply readLine_left
  intro c r e
  have := List.head?_dropWhile_not blank l
  unfold left at e
  rw [e] at this
  simpa using this

theorem right_nil : right [] = [] := rfl

theorem takeWhile_len (p : UInt8 → Bool) (l : Bytes) : l.drop (l.takeWhile p).length = l.dropWhile p := by
  conv => lhs; arg 2; rw [← List.takeWhile_append_dropWhile (p := p) (l := l)]
  rw [List.drop_left]

theorem takeWhile_take (p : UInt8 → Bool) (l : Bytes) : l.take (l.takeWhile p).length = l.takeWhile p := by
  conv => lhs; arg 2; rw [← List.takeWhile_append_dropWhile (p := p) (l := l)]
  rw [List.take_left]

theorem takeWhile_lt (l : Bytes) (h : 61 ∈ l) : (l.takeWhile (· ≠ 61)).length < l.length := by
  induction l with
  | nil => simp at h
  | cons c r ih =>
    rw [List.takeWhile_cons]
    split
    · rename_i hc
      simp at hc
      have := ih (by simpa [Ne.symm hc] using h)
      simp only [List.length_cons]; omega
    · simp

theorem afterLine_lt (c : UInt8) (r : Bytes) (h : isNewline c = false) : (afterLine (c :: r)).length ≤ r.length := by
  unfold afterLine
  rw [List.dropWhile_cons, h]
  exact (List.dropWhile_suffix _).length_le

theorem loop_vars (n : Nat) (b : Bytes) (r : Result) (hn : b.length < n) (h0 : 0 ∉ b) :
    (loop n b r).map Result.vars = (readLines (lines b)).map (r.vars ++ ·) := by
  induction n generalizing b r with
  | zero => omega
  | succ n ih =>
    rw [readLines_spaces, loop, ignoreSpaces_eq]
    have hs : b.dropWhile isSpaces <:+ b := List.dropWhile_suffix _
    have hl := hs.length_le
    have h0' : 0 ∉ b.dropWhile isSpaces := fun e => h0 (hs.subset e)
    have hd := List.head?_dropWhile_not isSpaces b
    generalize b.dropWhile isSpaces = d at *
    match d with
    | [] => simp [lines, readLines, readLine_nil]
    | c :: t =>
      simp only [List.head?_cons] at hd
      have hsp : isSpaces c = false := by simpa using hd
      have hnl : isNewline c = false := by
        cases h : isNewline c with
        | false => rfl
        | true => simp [isSpaces, h] at hsp
      have hbl : blank c = false := by
        rw [blank_eq]
        cases h : isSpaceTab c with
        | false => rfl
        | true => simp [isSpaces, h] at hsp
      have hal := afterLine_lt c t hnl
      have ha0 : 0 ∉ afterLine (c :: t) := fun e => h0' ((List.dropWhile_suffix _).subset e)
      have hL : ∃ x, lineOf (c :: t) = c :: x := ⟨lineOf t, by simp [lineOf, hnl]⟩
      obtain ⟨x, hx⟩ := hL
      have hleft : left (lineOf (c :: t)) = lineOf (c :: t) := readLine_left _ fun d r e => by
        rw [hx] at e; simp at e; rw [← e.1]; exact hbl
      have hc0 : cstr (lineOf (c :: t)) = lineOf (c :: t) := cstr_eq _ fun e => h0' (lineOf_sub _ _ e)
      have hlen : (c :: t).length ≤ n := by omega
      simp at hlen
      rw [readLines_line]
      dsimp only
      by_cases h35 : c = 35
      · rw [if_pos h35]
        have hr : readLine (lineOf (c :: t)) = .none := by
          unfold readLine
          rw [hleft, hx, h35]
          simp
        rw [hr]
        have hcom : comment (c :: t) = (afterLine (c :: t)).dropWhile isSpaces := by
          unfold comment
          rw [if_neg (by simp), ignoreSpaces_eq]; rfl
        have hsub : (comment (c :: t)) <:+ afterLine (c :: t) := by rw [hcom]; exact List.dropWhile_suffix _
        rw [ih _ _ (by have := hsub.length_le; omega) (fun e => ha0 (hsub.subset e)), hcom, ← readLines_spaces]
      · rw [if_neg h35, hc0]
        generalize hLd : lineOf (c :: t) = L at *
        have hLn : ∀ c ∈ L, isNewline c = false := by rw [← hLd]; exact lineOf_noNewline _
        by_cases hlen0 : untilEquals L = 0
        · rw [if_pos hlen0]
          have hr : readLine L = .var (right L) [49] := by
            unfold readLine
            rw [hleft, hx]
            simp only [List.head?_cons, reduceCtorEq, false_or, Option.some.injEq]
            rw [if_neg (by simpa using h35), if_pos]
            unfold untilEquals at hlen0
            rw [hx] at hlen0
            by_cases hm : 61 ∈ c :: x
            · right
              rw [if_pos (by simpa using hm)] at hlen0
              rw [List.takeWhile_cons] at hlen0
              split at hlen0
              · simp at hlen0
              · rename_i hc; simpa using hc
            · exact .inl hm
          rw [hr, ih _ _ (by omega) ha0, trim_eq L hLn]
          simp [Option.map_map, Function.comp_def]
        · rw [if_neg hlen0]
          have hm : 61 ∈ L := by
            unfold untilEquals at hlen0
            split at hlen0
            · rename_i h; simpa using h
            · exact absurd rfl hlen0
          have hu : untilEquals L = (L.takeWhile (· ≠ 61)).length := by unfold untilEquals; rw [if_pos (by simpa using hm)]
          have hlt := takeWhile_lt L hm
          have hv : lineOf (ignore isSpaceTab ((c :: t).drop (untilEquals L + 1))) = left ((L.dropWhile (· ≠ 61)).drop 1) := by
            rw [value_eq _ _ (by rw [hLd, hu]; omega), hLd, hu, ← List.drop_drop, takeWhile_len]
          rw [hv]
          have hc61 : c ≠ 61 := by
            intro e
            rw [hu, hx, List.takeWhile_cons, e] at hlen0
            simp at hlen0
          have hr : readLine L = if right (left ((L.dropWhile (· ≠ 61)).drop 1)) = [] then .bad
              else .var (right (L.takeWhile (· ≠ 61))) (right (left ((L.dropWhile (· ≠ 61)).drop 1))) := by
            unfold readLine
            rw [hleft]
            simp only
            rw [if_neg (by rw [hx]; simpa using h35), if_neg (by rw [not_or]; exact ⟨by simpa using hm, by rw [hx]; simpa using hc61⟩)]
          rw [hr]
          by_cases hve : left ((L.dropWhile (· ≠ 61)).drop 1) = []
          · rw [hve]; simp [right_nil]
          · rw [if_neg hve, if_neg (right_ne _ (left_left _) hve), ih _ _ (by omega) ha0]
            have hvs : ∀ d ∈ left ((L.dropWhile (· ≠ 61)).drop 1), d ∈ L := fun d hd =>
              (List.dropWhile_suffix _).subset (List.mem_of_mem_drop ((List.dropWhile_suffix _).subset hd))
            have hL0 : 0 ∉ L := fun e => h0' (lineOf_sub _ _ (hLd ▸ e))
            rw [hu, takeWhile_take, trim_eq _ fun d hd => hLn d ((List.takeWhile_prefix _).subset hd),
              cstr_eq _ fun e => hL0 (hvs 0 e), trim_eq _ fun d hd => hLn d (hvs d hd)]
            simp [Option.map_map, Function.comp_def]

/-- The byte after the text is looked at only if the last line is a comment. -/
theorem loop_over (n : Nat) (b : Bytes) (r r' : Result) (h : loop n b r = some r') (he : ∀ x c, b = x ++ [c] → isNewline c = true) : r'.over = r.over := by
  have suf : ∀ {a b : Bytes}, a <:+ b → (∀ x c, b = x ++ [c] → isNewline c = true) → ∀ x c, a = x ++ [c] → isNewline c = true := by
    intro a b hs hb x c e
    obtain ⟨p, hp⟩ := hs
    exact hb (p ++ x) c (by rw [← hp, e]; simp)
  induction n generalizing b r with
  | zero => simp [loop] at h; rw [h]
  | succ n ih =>
    rw [loop, ignoreSpaces_eq] at h
    have he' := suf (List.dropWhile_suffix (l := b) isSpaces) he
    generalize b.dropWhile isSpaces = d at *
    have ha := suf (List.dropWhile_suffix (l := d) fun c => !isNewline c) he'
    match d with
    | [] => simp at h; rw [h]
    | c :: t =>
      dsimp only at h
      split at h
      · have hov : commentOver (c :: t) = false := by
          unfold commentOver
          have e := (List.dropLast_concat_getLast (l := c :: t) (by simp)).symm
          have := he' _ _ e
          simp only [Bool.not_eq_false', List.any_eq_true]
          exact ⟨_, List.getLast_mem (by simp), this⟩
        have := ih _ _ h (by
          unfold comment
          rw [if_neg (by simp), ignoreSpaces_eq]
          exact suf (List.dropWhile_suffix _) ha)
        rw [this, hov]; simp
      · split at h
        · have := ih _ _ h ha; exact this
        · split at h
          · simp at h
          · have := ih _ _ h ha; exact this

end Verif.Env
