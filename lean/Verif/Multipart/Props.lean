import Verif.Multipart.Split
/-!
# C133: multipart bodies which are accepted, and what goes wrong
-/
namespace Verif.Multipart
open Verif Verif.HttpUtil Verif.Http Spec

/-! ## No undefined behaviour -/

theorem parsePart_nofault (start : Nat) (text : Bytes) : parsePart start text ≠ .fault := by
  have h := (headerFields_nofault (text.length + 1) [] 0 text (by omega)).1
  unfold parsePart
  split
  · simp
  · split
    · split
      · split <;> simp
      · simp
    all_goals first | simp; done | skip
    rename_i he
    rw [he] at h
    exact absurd rfl h

theorem endOf_len (b text : Bytes) (p l : Nat) (isLast : Bool) (h : endOf (line b) (lastLine b) (text.drop p) = some (l, isLast)) : p + l + 2 ≤ text.length := by
  apply (ends_len b text p (p + l) _).2
  rcases (endOf_iff b text p l isLast).1 h with ⟨_, hf⟩ | ⟨_, hn, hf⟩
  · exact .inl hf
  · exact .inr ⟨hn, hf⟩

theorem bind_nofault {β γ : Type} {r : R β} {f : β → R γ} (h : r ≠ .fault) (hf : ∀ b, r = .ok b → f b ≠ .fault) : r.bind f ≠ .fault := by
  cases r with
  | ok b => exact hf b rfl
  | fault => exact absurd rfl h
  | _ => simp [R.bind]

theorem step_nofault (sub : List Field → Nat → R (List Tree)) (b text : Bytes) (pos count : Nat) (hsub : ∀ hs e, e < text.length → sub hs e ≠ .fault) :
    step sub (line b) (lastLine b) pos (text.drop pos) count ≠ .fault := by
  unfold step
  split
  · simp
  · split
    · simp
    · split
      · simp
      · rw [List.drop_drop]
        split
        · simp
        · rename_i l isLast he
          have hl := endOf_len b text _ l isLast he
          refine bind_nofault (parsePart_nofault _ _) fun r _ => ?_
          refine bind_nofault (hsub _ _ (by omega)) fun ts _ => ?_
          simp

theorem loop_nofault (sub : List Field → Nat → R (List Tree)) (b text : Bytes) (hsub : ∀ hs e, e < text.length → sub hs e ≠ .fault) :
    ∀ (rest : Bytes) (pos : Nat) (acc : List Tree), text.drop pos = rest → loop sub (line b) (lastLine b) pos rest acc ≠ .fault
  | [], pos, acc, _ => by simp [loop]
  | c :: t, pos, acc, hr => by
    have hr' : text.drop (pos + 1) = t := by
      rw [← List.drop_drop, hr]; rfl
    unfold loop
    split
    · refine bind_nofault (by rw [← hr]; exact step_nofault sub b text pos _ hsub) fun r _ => ?_
      split
      · exact loop_nofault sub b text hsub t _ _ hr'
      · simp
      · exact loop_nofault sub b text hsub t _ _ hr'
    · exact loop_nofault sub b text hsub t _ _ hr'

theorem process_nofault : ∀ (fuel : Nat) (hs : List Field) (isGet : Bool) (text : Bytes), text.length < fuel → process fuel hs isGet text ≠ .fault
  | 0, _, _, _, h => by omega
  | fuel + 1, hs, isGet, text, h => by
    unfold process
    split
    · simp
    · simp
    · split
      · simp
      · split
        · simp
        · simp
        · rename_i b _
          split
          · simp
          · have hl := loop_nofault (fun hs e => process fuel hs false (text.take e)) b text
              (fun hs e he => process_nofault fuel hs false _ (by rw [List.length_take]; omega)) text 0 [] (by simp)
            rw [needleOf_eq, lastOf_eq]
            cases hh : loop (fun hs e => process fuel hs false (text.take e)) (line b) (lastLine b) 0 text [] with
            | fault => exact absurd hh hl
            | _ => simp [onlySoft]

/-- **C133**. Whatever the header and the body of a request are, the parts are found in finitely many steps, with parts inside of parts as deep as they go, and no
value is taken from outside of the data. -/
theorem receive_nofault (hs : List Field) (isGet : Bool) (bodyEnd : Nat) (data : Bytes) : receiveForm hs isGet bodyEnd data ≠ .fault := by
  unfold receiveForm
  refine bind_nofault (process_nofault _ _ _ _ (by rw [List.length_take]; omega)) fun ts hts => ?_
  cases hm : isMultipart hs with
  | none => simp [process, hm] at hts
  | some m =>
    cases m with
    | false =>
      simp only [process, hm, R.ok.injEq] at hts
      subst hts
      simp [fields]
    | true =>
      cases hb : subvalueGet hs (str "content-type") (str "boundary") with
      | none => simp only [process, hm, hb] at hts; split at hts <;> cases hts
      | some o =>
        cases o with
        | none => simp only [process, hm, hb] at hts; split at hts <;> cases hts
        | some b => exact values_within hs isGet bodyEnd data b ts hts hm hb

/-! ## The last boundary -/

/-- **C133**. A body which is cut off before its last boundary is refused: when a body with a boundary is accepted, the last boundary is after all other ones. -/
theorem end_needed (fuel : Nat) (hs : List Field) (isGet : Bool) (text b : Bytes) (ts : List Tree) (h : process fuel hs isGet text = .ok ts)
    (hm : isMultipart hs = some true) (hbd : subvalueGet hs (str "content-type") (str "boundary") = some (some b)) (hb : (10 : UInt8) ∉ b) (hne : ∃ i, At (line b) text i) :
    ∃ e, At (lastLine b) text e ∧ ∀ i, At (line b) text i → i < e := by
  obtain ⟨h1, _, _, h5⟩ := split_exact _ hs isGet _ b ts h hm hbd hb
  obtain ⟨i, hi⟩ := hne
  have key : ∀ (k i : Nat), text.length - i ≤ k → At (line b) text i → ∃ e, At (lastLine b) text e ∧ ∀ i, At (line b) text i → i < e := by
    intro k
    induction k with
    | zero =>
      intro i hk hi
      have := at_lt _ _ (line_ne b) _ hi
      omega
    | succ k ih =>
      intro i hk hi
      obtain ⟨t, ht, hst⟩ := (h1 i).1 hi
      obtain ⟨e, he, _⟩ := h5 t ht
      have hlt := at_lt _ _ (line_ne b) _ hi
      rcases he with hf | ⟨hn, hf⟩
      · exact ih e (by have := hf.1; have := line_length b; omega) hf.2.1
      · refine ⟨e, hf.2.1, ?_⟩
        intro j hj
        apply Classical.byContradiction
        intro hje
        exact hn j (by have := hf.1; omega) hj
  exact key _ i (Nat.le_refl _) hi

/-- **C133**. A body in which the boundary is nowhere is accepted as a form without fields. -/
theorem no_boundary_empty (hs : List Field) (bodyEnd : Nat) (data b : Bytes) (hm : isMultipart hs = some true)
    (hbd : subvalueGet hs (str "content-type") (str "boundary") = some (some b)) (hl : bodyEnd ≤ lengthMax) (hn : Nowhere (line b) (data.take bodyEnd) 0) :
    receiveForm hs false bodyEnd data = .ok [] := by
  have hloop : ∀ (sub : List Field → Nat → R (List Tree)) (rest : Bytes) (pos : Nat) (acc : List Tree), (data.take bodyEnd).drop pos = rest →
      loop sub (line b) (lastLine b) pos rest acc = .ok acc := by
    intro sub rest
    induction rest with
    | nil => intro pos acc _; rfl
    | cons c t ih =>
      intro pos acc hr
      unfold loop
      rw [if_neg]
      · apply ih
        rw [← List.drop_drop, hr]; rfl
      · intro hp
        apply hn pos (by omega)
        unfold At
        rw [hr]
        exact (prefix_iff _ _).1 hp
  unfold receiveForm
  have : process (bodyEnd + 1) hs false (data.take bodyEnd) = .ok [] := by
    simp only [process, hm, hbd, needleOf_eq, lastOf_eq]
    rw [if_neg (by simp), if_neg (by rw [List.length_take]; omega), hloop _ _ 0 [] (by simp)]
    rfl
  rw [this]
  rfl

/-! ## Examples -/

/-- The lines of the head of a request, after its first line. -/
def headLines : Bytes := str "Content-Type: multipart/form-data; boundary=X\r\n\r\n"
/-- Its header fields. -/
def headFields : List Field := (headerFields (headLines.length + 1) [] 0 headLines).2.1
/-- A request with a body. -/
def request (first body : String) : Bytes := str first ++ (headLines ++ str body)
/-- The fields of it. -/
def received (first body : String) : R (List FormField) := receiveForm headFields false (request first body).length (request first body)

/-- The boundary of it. -/
theorem head_boundary : isMultipart headFields = some true ∧ subvalueGet headFields (str "content-type") (str "boundary") = some (some (str "X")) := by decide +kernel

/-- A form with two fields. -/
theorem two_fields : received "POST / HTTP/1.1\r\n" "--X\r\nContent-Disposition: form-data; name=\"a\"\r\n\r\n1\r\n--X\r\nContent-Disposition: form-data; name=b\r\nContent-Type: text/plain\r\n\r\nx\r\ny\r\n--X--\r\n" =
    .ok [⟨str "a", str "1", []⟩, ⟨str "b", str "x\r\ny", str "text/plain"⟩] := by decide +kernel

/-- The hypotheses of the theorems above are met by it. -/
example : ∃ ts, process ((request "" "--X\r\nContent-Disposition: form-data; name=a\r\n\r\n1\r\n--X--\r\n").length + 1) headFields false
    (request "" "--X\r\nContent-Disposition: form-data; name=a\r\n\r\n1\r\n--X--\r\n") = .ok ts ∧ ts.length = 1 := ⟨_, rfl, rfl⟩

/-- **C133**. The head of the request is searched too, so a line of it which ends with the boundary makes a field, and the lines after it are its value. -/
theorem head_searched : received "POST / HTTP/1.1\r\nX-A: --X\r\nContent-Disposition: f; name=z\r\n\r\n" "--X\r\nContent-Disposition: form-data; name=a\r\n\r\n1\r\n--X--\r\n" =
    .ok [⟨str "z", str "Content-Type: multipart/form-data; boundary=X\r\n", []⟩, ⟨str "a", str "1", []⟩] := by decide +kernel

/-- **C133**. A value with the boundary at the end of a line, but not at its beginning, is split, and two bytes of it are lost. -/
theorem cut_in_line : received "" "--X\r\nContent-Disposition: form-data; name=a\r\n\r\ntext--X\r\nContent-Disposition: f; name=z\r\n\r\n1\r\n--X--\r\n" =
    .ok [⟨str "a", str "te", []⟩, ⟨str "z", str "1", []⟩] := by decide +kernel

/-- **C133**. A value which begins with NUL is lost. -/
theorem nul_lost : received "" "--X\r\nContent-Disposition: form-data; name=a\r\n\r\n\x00text\r\n--X--\r\n" = .ok [⟨str "a", [], []⟩] := by decide +kernel

/-- **C133**. What is after the last boundary is not left out: with another boundary there, it belongs to the last value, and there are more fields. -/
theorem epilogue_read : received "" "--X\r\nContent-Disposition: form-data; name=a\r\n\r\nt\r\n--X--\r\nend\r\n--X\r\nContent-Disposition: f; name=z\r\n\r\n1\r\n--X--\r\n" =
    .ok [⟨str "a", str "t\r\n--X--\r\nend", []⟩, ⟨str "z", str "1", []⟩] := by decide +kernel

/-- **C133**. White space after a boundary, which may be there, hides it. -/
theorem padding_hides : received "" "--X\r\nContent-Disposition: form-data; name=a\r\n\r\n1\r\n--X  \r\nContent-Disposition: form-data; name=b\r\n\r\n2\r\n--X--\r\n" =
    .ok [⟨str "a", str "1\r\n--X  \r\nContent-Disposition: form-data; name=b\r\n\r\n2", []⟩] := by decide +kernel

/-- A body without the last boundary is refused, and so is one which ends without the end of the line. -/
example : received "" "--X\r\nContent-Disposition: form-data; name=a\r\n\r\nt\r\n" = .soft := by decide +kernel
example : received "" "--X\r\nContent-Disposition: form-data; name=a\r\n\r\nt\r\n--X--" = .soft := by decide +kernel
/-- A form without a boundary is empty. -/
example : received "" "something else" = .ok [] := by decide +kernel
/-- Parts inside of parts are found, but they make no fields. -/
example : received "" "--X\r\nContent-Disposition: form-data; name=a\r\nContent-Type: multipart/form-data; boundary=Y\r\n\r\n--Y\r\nContent-Disposition: f; name=z\r\n\r\n1\r\n--Y--\r\n\r\n--X--\r\n" =
    .ok [⟨str "a", str "--Y\r\nContent-Disposition: f; name=z\r\n\r\n1\r\n--Y--\r\n", str "multipart/form-data"⟩] := by decide +kernel

/-! ## Which boundary -/

/-- **C133**. A request is a form when its content type is `multipart/form-data`, in small or capital letters. -/
theorem multipart_any_case (hs : List Field) (f : Field) (h : headerGet hs (str "content-type") = some (some f)) :
    isMultipart hs = some true ↔ f.value.map toLower = str "multipart/form-data" := by
  unfold isMultipart
  rw [h]
  have hl : (str "multipart/form-data").map toLower = str "multipart/form-data" := by decide +kernel
  simp only [eqCase, hl, Option.some.injEq, beq_iff_eq]

/-- **C133**. A parameter of a header field, like the boundary or the name of a form field, is the first one with the name and a value, in small or capital letters. -/
theorem subvalue_first (hs : List Field) (field name v : Bytes) (f : Field) (h : headerGet hs field = some (some f)) :
    subvalueGet hs field name = some (some v) ↔ ∃ pre s post, f.subs = pre ++ s :: post ∧ (s.name ≠ [] ∧ s.value ≠ [] ∧ s.name.map toLower = name.map toLower) ∧ s.value = v ∧
      ∀ x ∈ pre, ¬ (x.name ≠ [] ∧ x.value ≠ [] ∧ x.name.map toLower = name.map toLower) := by
  unfold subvalueGet
  rw [h]
  simp only [Option.some.injEq, Option.map_eq_some_iff, List.find?_eq_some_iff_append, eqCase, Bool.and_eq_true, decide_eq_true_eq, beq_iff_eq, Bool.not_eq_true', Bool.and_eq_false_imp]
  constructor
  · rintro ⟨s, ⟨h1, pre, post, h2, h3⟩, h4⟩
    refine ⟨pre, s, post, h2, h1, h4, ?_⟩
    rintro x hx ⟨h5, h6, h7⟩
    have := h3 x hx h5 h6
    simp [h7] at this
  · rintro ⟨pre, s, post, h2, h1, h4, h3⟩
    refine ⟨s, ⟨h1, pre, post, h2, ?_⟩, h4⟩
    intro x hx h5 h6
    cases hh : (x.name.map toLower == name.map toLower) with
    | false => rfl
    | true => exact absurd ⟨h5, h6, by simpa using hh⟩ (h3 x hx)

example : (headerFields 200 [] 0 (str "Content-Type: Multipart/Form-Data; boundary=X; boundary=Y\r\n\r\n")).2.1.length = 1 ∧
    subvalueGet (headerFields 200 [] 0 (str "Content-Type: Multipart/Form-Data; boundary=X; boundary=Y\r\n\r\n")).2.1 (str "content-type") (str "boundary") = some (some (str "X")) ∧
    isMultipart (headerFields 200 [] 0 (str "Content-Type: Multipart/Form-Data; boundary=X; boundary=Y\r\n\r\n")).2.1 = some true := by decide +kernel

end Verif.Multipart
