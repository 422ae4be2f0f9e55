import Verif.Env.Lemmas

/-! # Environment files mean what their lines say -/
namespace Verif.Env
open Verif Verif.Env.Spec

/-- C146. Every file without NUL bytes is read as the variables of its lines, in order, and is refused exactly if there is a line without a value. -/
theorem file_exact (text : Bytes) (h : 0 ∉ text) : (parse text).map Result.vars = readLines (lines text) := by
  unfold parse
  rw [loop_vars _ _ _ (by omega) h]
  simp

/-- `# c`, ` A = b c ` with CR and LF, and `D` -/
def sample : Bytes := [35, 32, 99, 10, 32, 65, 32, 61, 32, 98, 32, 99, 32, 13, 10, 68]

example : 0 ∉ sample ∧ readLines (lines sample) = some [([65], [98, 32, 99]), ([68], [49])] ∧ parse sample = some ⟨[([65], [98, 32, 99]), ([68], [49])], false⟩ := by
  decide +kernel

/-- A name: it has no blanks at its ends, no equals sign, no line end and no NUL byte, and does not begin with `#`. -/
structure Name (n : Bytes) : Prop where
  ne : n ≠ []
  left : Spec.left n = n
  right : Spec.right n = n
  chars : ∀ c ∈ n, c ≠ 0 ∧ c ≠ 10 ∧ c ≠ 13 ∧ c ≠ 61
  first : n.head? ≠ some 35

/-- A value: it has no blanks at its ends, no line end and no NUL byte. -/
structure Value (v : Bytes) : Prop where
  ne : v ≠ []
  left : Spec.left v = v
  right : Spec.right v = v
  chars : ∀ c ∈ v, c ≠ 0 ∧ c ≠ 10 ∧ c ≠ 13

/-- `NAME=VALUE` on lines which end with LF. -/
def write (vars : List (Bytes × Bytes)) : Bytes := vars.flatMap fun x => x.1 ++ 61 :: x.2 ++ [10]

theorem takeWhile_name (n v : Bytes) (h : ∀ c ∈ n, c ≠ 61) : (n ++ 61 :: v).takeWhile (· ≠ 61) = n ∧ (n ++ 61 :: v).dropWhile (· ≠ 61) = 61 :: v := by
  induction n with
  | nil => simp
  | cons c r ih =>
    have := ih fun d hd => h d (by simp [hd])
    rw [List.cons_append, List.takeWhile_cons, List.dropWhile_cons, if_pos (by simpa using h c (by simp)), if_pos (by simpa using h c (by simp))]
    exact ⟨by rw [this.1], this.2⟩

theorem readLine_write (n v : Bytes) (hn : Name n) (hv : Value v) : readLine (n ++ 61 :: v) = .var n v := by
  obtain ⟨c, r, e⟩ := List.exists_cons_of_ne_nil hn.ne
  have hl : left (n ++ 61 :: v) = n ++ 61 :: v := readLine_left _ fun d t ed => by
    have h1 := hn.left
    rw [e, List.cons_append] at ed
    have hd : c = d := by simpa using (List.cons.inj ed).1
    cases hb : blank d with
    | false => rfl
    | true =>
      exfalso
      rw [e, hd] at h1
      unfold left at h1
      rw [List.dropWhile_cons, if_pos hb] at h1
      have := (List.dropWhile_suffix (l := r) blank).length_le
      rw [h1] at this
      simp at this
      omega
  have ht := takeWhile_name n v fun c hc => (hn.chars c hc).2.2.2
  unfold readLine
  rw [hl]
  simp only [ht.1, ht.2]
  have h35 : (n ++ 61 :: v).head? ≠ some 35 := by rw [e]; have := hn.first; rw [e] at this; simpa using this
  have h61 : (n ++ 61 :: v).head? ≠ some 61 := by
    rw [e]; simpa using (hn.chars c (by rw [e]; simp)).2.2.2
  rw [if_neg (by rw [not_or]; exact ⟨by simp, h35⟩), if_neg (by rw [not_or]; exact ⟨by simp, h61⟩)]
  simp only [List.drop_succ_cons, List.drop_zero, hv.left, hv.right, hn.right]
  rw [if_neg hv.ne]

theorem lines_newline (l r : Bytes) (h : ∀ c ∈ l, c ≠ 10 ∧ c ≠ 13) : lines (l ++ 10 :: r) = l :: lines r := by
  induction l with
  | nil => simp [lines]
  | cons c t ih =>
    have hc := h c (by simp)
    rw [List.cons_append, lines, if_neg (by simp [hc]), ih fun d hd => h d (by simp [hd])]

/-- C146. Variables which are written to a file are read as the same variables, in the same order. -/
theorem file_roundtrip (vars : List (Bytes × Bytes)) (h : ∀ x ∈ vars, Name x.1 ∧ Value x.2) : (parse (write vars)).map Result.vars = some vars := by
  have h0 : 0 ∉ write vars := by
    intro e
    unfold write at e
    rw [List.mem_flatMap] at e
    obtain ⟨x, hx, he⟩ := e
    obtain ⟨hn, hv⟩ := h x hx
    simp at he
    rcases he with he | he
    · exact (hn.chars 0 he).1 rfl
    · exact (hv.chars 0 he).1 rfl
  rw [file_exact _ h0]
  clear h0
  induction vars with
  | nil => rfl
  | cons x r ih =>
    obtain ⟨hn, hv⟩ := h x (by simp)
    have hl : lines (write (x :: r)) = (x.1 ++ 61 :: x.2) :: lines (write r) := by
      have : write (x :: r) = (x.1 ++ 61 :: x.2) ++ 10 :: write r := by simp [write]
      rw [this, lines_newline]
      intro c hc
      rcases List.mem_append.mp hc with hc | hc
      · exact ⟨(hn.chars c hc).2.1, (hn.chars c hc).2.2.1⟩
      · rcases List.mem_cons.mp hc with rfl | hc
        · decide
        · exact ⟨(hv.chars c hc).2.1, (hv.chars c hc).2.2⟩
    rw [hl, readLines, readLine_write _ _ hn hv, ih fun y hy => h y (by simp [hy])]
    rfl

example : Name [65, 32, 66] ∧ Value [61, 35, 61] := ⟨⟨by decide, by decide, by decide, by decide, by decide⟩, ⟨by decide, by decide, by decide, by decide⟩⟩

theorem setAll_eq (vars : List (Bytes × Bytes)) (env : Bytes → Option Bytes) (h : ∀ x ∈ vars, x.1 ≠ [] ∧ 61 ∉ x.1) :
    setAll env vars = some fun n => match (vars.filter (·.1 == n)).getLast? with | some x => some x.2 | none => env n := by
  induction vars generalizing env with
  | nil => rfl
  | cons x r ih =>
    obtain ⟨a, v⟩ := x
    have hx := h (a, v) (by simp)
    rw [setAll, setenv, if_neg (by rw [not_or]; exact hx)]
    simp only
    rw [ih _ fun y hy => h y (by simp [hy])]
    congr 1
    funext n
    by_cases e : a = n
    · subst e
      simp only [List.filter_cons, beq_self_eq_true, if_true, List.getLast?_cons]
      cases (r.filter (·.1 == a)).getLast? <;> rfl
    · have e' : ¬ n = a := fun x => e x.symm
      simp only [List.filter_cons, beq_iff_eq, e, if_false]
      split <;> simp [e']

/-- C146. The program sees the last value of each variable in the file, and variables which are not in the file are not changed. -/
theorem last_value_seen (env : Bytes → Option Bytes) (vars : List (Bytes × Bytes)) (h : ∀ x ∈ vars, Name x.1 ∧ Value x.2) :
    load env (write vars) = some fun n => match (vars.filter (·.1 == n)).getLast? with | some x => some x.2 | none => env n := by
  have hp := file_roundtrip vars h
  unfold load
  cases hr : parse (write vars) with
  | none => rw [hr] at hp; simp at hp
  | some r =>
    rw [hr] at hp
    simp at hp
    simp only [hp]
    exact setAll_eq vars env fun x hx => ⟨(h x hx).1.ne, fun e => ((h x hx).1.chars 61 e).2.2.2 rfl⟩

example : (([([65], [49]), ([65], [50])] : List (Bytes × Bytes)).filter (·.1 == [65])).getLast? = some ([65], [50]) := by decide

theorem setAll_refuses (env : Bytes → Option Bytes) (vars : List (Bytes × Bytes)) (x : Bytes × Bytes) (hx : x ∈ vars) (h : x.1 = [] ∨ 61 ∈ x.1) :
    setAll env vars = none := by
  induction vars generalizing env with
  | nil => simp at hx
  | cons y r ih =>
    obtain ⟨a, v⟩ := y
    rw [setAll]
    rcases List.mem_cons.mp hx with rfl | hx
    · rw [setenv, if_pos h]
    · split
      · rfl
      · exact ih _ hx

/-- A value without name is not accepted: the program does not start. -/
theorem nameless_refused (env : Bytes → Option Bytes) (v : Bytes) (h : 0 ∉ v) (hl : ∀ c ∈ v, c ≠ 10 ∧ c ≠ 13) : load env (61 :: v) = none := by
  have h0 : (0 : UInt8) ∉ 61 :: v := by simpa using h
  have he := file_exact (61 :: v) h0
  have hlines : lines (61 :: v) = [61 :: v] := by
    rw [lines_split, show afterLine (61 :: v) = [] from ?_, show lineOf (61 :: v) = 61 :: v from ?_]
    · have := lineOf_append (61 :: v) [] ?_ (by simp)
      · simpa using this
      · intro c hc
        rcases List.mem_cons.mp hc with rfl | hc
        · decide
        · simpa [Parse.isNewline] using (hl c hc).symm
    · unfold afterLine
      have all : ∀ l : Bytes, (∀ c ∈ l, (!Parse.isNewline c) = true) → l.dropWhile (fun c => !Parse.isNewline c) = [] := by
        intro l
        induction l with
        | nil => intro _; rfl
        | cons d t ih => intro hx; rw [List.dropWhile_cons, if_pos (hx d (by simp))]; exact ih fun e he => hx e (by simp [he])
      apply all
      intro c hc
      rcases List.mem_cons.mp hc with rfl | hc
      · decide
      · have := hl c hc; simp [Parse.isNewline, this]
  have hleft : left (61 :: v) = 61 :: v := readLine_left _ fun c r e => by
    have : 61 = c := (List.cons.inj e).1
    rw [← this]; decide
  have hread : readLine (61 :: v) = .var (right (61 :: v)) [49] := by
    unfold readLine
    rw [hleft]
    simp
  have hmem : 61 ∈ right (61 :: v) := by
    have hr := right_ne (61 :: v) hleft (by simp)
    have hsuf : (61 :: v).reverse.dropWhile blank <:+ (61 :: v).reverse := List.dropWhile_suffix _
    obtain ⟨p, hp⟩ := hsuf
    have hp' : right (61 :: v) ++ p.reverse = 61 :: v := by
      have := congrArg List.reverse hp
      simpa [right] using this
    cases hx : right (61 :: v) with
    | nil => exact absurd hx hr
    | cons c r => rw [hx, List.cons_append] at hp'; rw [(List.cons.inj hp').1]; simp
  rw [hlines, readLines, hread] at he
  unfold load
  cases hr : parse (61 :: v) with
  | none => rfl
  | some r =>
    rw [hr] at he
    simp [readLines] at he
    simp only [he]
    exact setAll_refuses env _ (right (61 :: v), [49]) (by simp) (.inr hmem)

example : load (fun _ => none) [61, 98] = none := by
  exact nameless_refused _ [98] (by decide) (by decide)

/-- C146. Nothing after the end of the file is looked at, if the file ends with a line end. -/
theorem file_safe_partial (text : Bytes) (r : Result) (h : parse text = some r) (he : ∀ x c, text = x ++ [c] → c = 10 ∨ c = 13) : r.over = false :=
  loop_over _ _ _ _ h fun x c e => (newline_iff c).mpr (he x c e).symm

example : parse [65, 61, 98, 10] = some ⟨[([65], [98])], false⟩ := by decide +kernel

/-- A comment on the last line without line end: the byte after the file is looked at. -/
theorem comment_overreads : parse [65, 10, 35, 99] = some ⟨[([65], [49])], true⟩ := by decide +kernel

/-- What is after a NUL byte on a line is not seen: neither the value nor the rest of the value. -/
theorem nul_cuts : parse [65, 0, 61, 98] = some ⟨[([65], [49])], false⟩ ∧ parse [65, 61, 98, 0, 99] = some ⟨[([65], [98])], false⟩ := by decide +kernel

end Verif.Env
