import Verif.Multipart.Props
import Verif.Multipart.Header
import Verif.Http.MessageLemmas
/-!
# C134: the fields of a form which is made are read back
-/
namespace Verif.Multipart
open Verif Verif.HttpUtil Verif.HttpUtil.Spec Verif.Http Spec

/-! ## Header lines of a field -/

def dispName : Bytes := str "Content-Disposition"
def typeName : Bytes := str "Content-Type"
def dispDef : Def := ⟨str "content-disposition", {}, .contentDisposition⟩
def typeDef : Def := ⟨str "content-type", { trim := true }, .contentType⟩

theorem dispDef_get : definitionGet dispName = some dispDef := by decide +kernel
theorem typeDef_get : definitionGet typeName = some typeDef := by decide +kernel

def dispLine (q : Bytes) : Line := ⟨dispName, ⟨⟨1, str "form-data", none⟩, [⟨1, str "name", some q⟩]⟩, []⟩
def typeLine (ct : Bytes) : Line := ⟨typeName, ⟨⟨1, ct, none⟩, []⟩, []⟩

def dispField (nm : Bytes) : Field := { name := str "content-disposition", definition := some dispDef, subs := [⟨str "form-data", []⟩, ⟨str "name", nm⟩], value := str "form-data" }
def typeField (ct : Bytes) : Field := { name := str "content-type", definition := some typeDef, subs := [⟨ct, []⟩], value := ct }

theorem dispLine_text (q : Bytes) : (dispLine q).text = str "Content-Disposition: form-data" ++ (str "; name=" ++ q ++ [13, 10]) := by
  simp [Line.text, Line.value, dispLine, Element.text, Item.text, Item.word, moreText, elementsText]
  rfl

theorem typeLine_text (ct : Bytes) : (typeLine ct).text = str "Content-Type: " ++ (ct ++ [13, 10]) := by
  simp [Line.text, Line.value, typeLine, Element.text, Item.text, Item.word, moreText, elementsText]
  rfl

/-- What is known of the quoted name. -/
structure Quoted (nm q : Bytes) : Prop where
  ne : q ≠ []
  nul : q.head? ≠ some 0
  chars : ∀ c ∈ q, c ≠ 59 ∧ c ≠ 13
  back : urlDecode (unquote q) = .ok nm
  some : nm ≠ []

theorem dispLine_reads (nm q : Bytes) (h : Quoted nm q) : Reads (dispLine q) (fun _ => dispField nm) := by
  have hfl : flagsOf (definitionGet dispName) = {} := by decide +kernel
  refine ⟨⟨(by decide +kernel : dispName ≠ []), (by decide +kernel : ∀ c ∈ dispName, c ≠ 58 ∧ c ≠ 13), (by decide +kernel : ∀ c, dispName.head? = some c → c ≠ 32 ∧ c ≠ 9 ∧ c ≠ 59 ∧ c ≠ 44)⟩, ?_, ?_, ?_, ?_, ?_⟩
  · show (flagsOf (definitionGet dispName)).angled = false
    rw [hfl]
  · intro e he i hi
    show i.Ok (!(flagsOf (definitionGet dispName)).noPairs) (flagsOf (definitionGet dispName)).multiple
    rw [hfl]
    simp only [dispLine, Line.elements, List.mem_singleton] at he
    subst he
    simp only [Element.items, List.mem_cons, List.not_mem_nil, or_false] at hi
    rcases hi with rfl | rfl
    · refine ⟨by decide +kernel, by decide +kernel, by decide +kernel, fun _ => by decide +kernel, (fun h => by cases h), (fun v h => by cases h)⟩
    · refine ⟨(by decide +kernel : str "name" ≠ []), (by decide +kernel : ∀ c, (str "name").head? = some c → c ≠ 32 ∧ c ≠ 9 ∧ c ≠ 59 ∧ c ≠ 44), ?_,
        fun _ => (by decide +kernel : ∀ c ∈ str "name", c ≠ 61 ∧ c ≠ 59), (fun h => by cases h), ?_⟩
      · intro c hc
        simp only [Item.word, List.mem_append, List.mem_cons] at hc
        rcases hc with hc | rfl | hc
        · exact (by decide +kernel : ∀ c ∈ str "name", c ≠ 13) c hc
        · decide
        · exact (h.chars c hc).2
      · intro v hv
        simp only [Option.some.injEq] at hv
        subst hv
        exact ⟨rfl, h.ne, h.nul, fun c hc => (h.chars c hc).1⟩
  · intro _; rfl
  · show (flagsOf (definitionGet dispName)).noPairs = true → _
    rw [hfl]
    intro h; cases h
  · intro e he
    simp only [dispLine, Line.elements, List.mem_singleton] at he
    subst he
    show applyDef { name := lower dispName, definition := definitionGet dispName, subs := [⟨str "form-data", []⟩, ⟨str "name", q⟩] } = _
    rw [dispDef_get]
    have hu : unquoteSubs [str "name", str "filename"] [⟨str "name", q⟩] = some [⟨str "name", nm⟩] := by
      have he : [str "name", str "filename"].any (eqCase (str "name")) = true := by decide +kernel
      simp only [unquoteSubs, he, if_true, unquoteSub, if_neg h.ne, h.back, if_neg h.some]
    have hany : [str "form-data", str "attachment", str "inline"].any (eqCase (str "form-data")) = true := by decide +kernel
    have hl : lower dispName = str "content-disposition" := by decide +kernel
    have hne : str "form-data" ≠ [] := by decide +kernel
    simp only [applyDef, dispDef, parseContentDisposition, parseFirst, trimIf, hl]
    simp [hne, dispField, dispDef, hu, hany]

theorem typeLine_reads (ct : Bytes) (h0 : ct ≠ []) (hc : ∀ c ∈ ct, 33 ≤ c ∧ c < 127 ∧ c ≠ 59 ∧ c ≠ 61 ∧ c ≠ 44) (hsl : 47 ∈ ct) : Reads (typeLine ct) (fun _ => typeField ct) := by
  have hfl : flagsOf (definitionGet typeName) = { trim := true } := by decide +kernel
  have hbig : ∀ c ∈ ct, c ≠ 32 ∧ c ≠ 9 ∧ c ≠ 13 := by
    intro c hcc
    have := (hc c hcc).1
    have key : ∀ c : UInt8, 33 ≤ c → c ≠ 32 ∧ c ≠ 9 ∧ c ≠ 13 := all256 (by decide +kernel)
    exact key c this
  refine ⟨⟨(by decide +kernel : typeName ≠ []), (by decide +kernel : ∀ c ∈ typeName, c ≠ 58 ∧ c ≠ 13), (by decide +kernel : ∀ c, typeName.head? = some c → c ≠ 32 ∧ c ≠ 9 ∧ c ≠ 59 ∧ c ≠ 44)⟩, ?_, ?_, ?_, ?_, ?_⟩
  · show (flagsOf (definitionGet typeName)).angled = false
    rw [hfl]
  · intro e he i hi
    show i.Ok (!(flagsOf (definitionGet typeName)).noPairs) (flagsOf (definitionGet typeName)).multiple
    rw [hfl]
    simp only [typeLine, Line.elements, List.mem_singleton] at he
    subst he
    simp only [Element.items, List.mem_cons, List.not_mem_nil, or_false] at hi
    subst hi
    refine ⟨h0, ?_, ?_, ?_, (fun h => by cases h), (fun v h => by cases h)⟩
    · intro c hh
      have hm := List.mem_of_mem_head? hh
      exact ⟨(hbig c hm).1, (hbig c hm).2.1, (hc c hm).2.2.1, (hc c hm).2.2.2.2⟩
    · intro c hh
      simp only [Item.word, List.append_nil] at hh
      exact (hbig c hh).2.2
    · intro _ c hh
      exact ⟨(hc c hh).2.2.2.1, (hc c hh).2.2.1⟩
  · intro _; rfl
  · show (flagsOf (definitionGet typeName)).noPairs = true → _
    rw [hfl]
    intro h; cases h
  · intro e he
    simp only [typeLine, Line.elements, List.mem_singleton] at he
    subst he
    show applyDef { name := lower typeName, definition := definitionGet typeName, subs := [⟨ct, []⟩] } = _
    rw [typeDef_get]
    have hl : lower typeName = str "content-type" := by decide +kernel
    have ht : trimEnd ct = ct := by
      apply trimEnd_keep
      intro hh
      exact (hbig 32 (List.mem_of_getLast? hh)).1 rfl
    have hu : unquoteSubs [str "charset", str "boundary"] [⟨ct, []⟩] = some [⟨ct, []⟩] := by
      have hnot : ∀ x : String, lower (str x) = str x → 47 ∉ str x → eqCase ct (str x) = false := by
        intro x hx hn
        rw [eqCase_lower _ _ hx]
        simp only [decide_eq_false_iff_not]
        intro hh
        exact hn (hh ▸ List.mem_map.2 ⟨47, hsl, by decide⟩)
      have h1 := hnot "charset" (by decide +kernel) (by decide +kernel)
      have h2 := hnot "boundary" (by decide +kernel) (by decide +kernel)
      simp [unquoteSubs, h1, h2]
    simp only [applyDef, typeDef, parseContentType, parseFirst, trimIf, hl, ht]
    simp [h0, typeField, typeDef, hu]

/-! ## Quoted names -/

theorem percent_plain : ∀ s : Bytes, (∀ c ∈ s, c ≠ 37) → percentDecode s = some s
  | [], _ => rfl
  | c :: s, h => by
    have ih := percent_plain s fun x hx => h x (by simp [hx])
    have hc := h c (by simp)
    rw [percentDecode.eq_3]
    · rw [if_neg hc, ih]; rfl
    · intro a b t h1 h2
      exact hc h1

theorem quoted (nm : Bytes) (h0 : nm ≠ []) (hl : nm.length ≤ 65536) (hc : ∀ c ∈ nm, ((32 ≤ c ∧ c < 127) ∨ c = 9) ∧ c ≠ 59 ∧ c ≠ 92 ∧ c ≠ 37) :
    ∃ q, quote nm 34 34 = .ok q ∧ Quoted nm q := by
  have h13 : ∀ c : UInt8, ((32 ≤ c ∧ c < 127) ∨ c = 9) → c ≠ 13 ∧ c ≠ 0 := all256 (by decide +kernel)
  have hv : ∀ c ∈ nm, Valid c := fun c h => by
    rcases (hc c h).1 with h | h
    · exact .inl h
    · exact .inr (.inl h)
  obtain ⟨q, hq, hback⟩ := quote_roundtrip_partial nm h0 (by omega) hv
  have hback := hback.2 fun c h => ⟨(hc c h).2.2.1, (h13 c (hc c h).1).1⟩
  refine ⟨q, hq, ?_⟩
  have hdec : urlDecode (unquote q) = .ok nm := by
    rw [hback]
    exact urlDecode_rfc _ _ (percent_plain nm fun c h => (hc c h).2.2.2)
  rcases quote_value nm h0 (by omega) hv with ⟨h, _⟩ | ⟨h, _⟩
  · rw [hq] at h
    cases h
    refine ⟨h0, ?_, ?_, hdec, h0⟩
    · intro hh
      have := List.mem_of_mem_head? hh
      exact (h13 0 (hc 0 this).1).2 rfl
    · intro c h
      exact ⟨(hc c h).2.1, (h13 c (hc c h).1).1⟩
  · rw [hq] at h
    cases h
    refine ⟨by simp, by simp, ?_, hdec, h0⟩
    intro c h
    simp only [List.cons_append, List.mem_cons, List.mem_append, List.mem_flatMap, List.not_mem_nil, or_false] at h
    rcases h with rfl | ⟨d, hd, h⟩ | rfl
    · decide
    · unfold quoteChar at h
      have hh : c = 92 ∨ c = d := by
        split at h
        · simpa using h
        · right; simpa using h
      rcases hh with rfl | rfl
      · decide
      · exact ⟨(hc c hd).2.1, (h13 c (hc c hd).1).1⟩
    · decide

/-! ## Fields as texts -/

/-- The lines of a field, with how they are read. -/
def linesOf (f : FormField) (q : Bytes) : List (Line × (Element → Field)) :=
  (dispLine q, fun _ => dispField f.name) :: (if f.contentType = [] then [] else [(typeLine f.contentType, fun _ => typeField f.contentType)])

/-- The text of a field after its boundary. -/
def seg (f : FormField) (q : Bytes) : Bytes := readText (linesOf f q) ++ 13 :: 10 :: f.value

theorem fieldText_eq (b : Bytes) (f : FormField) (q : Bytes) (isFirst : Bool) (h0 : f.name ≠ []) (hq : quote f.name 34 34 = .ok q) :
    fieldText b isFirst f = .ok ((if isFirst then [] else [13, 10]) ++ (line b ++ seg f q)) := by
  unfold fieldText
  rw [if_neg h0, hq]
  simp only [Out.ok.injEq]
  rw [seg, readText, linesOf, List.flatMap_cons, dispLine_text]
  rw [← needleOf_eq]
  unfold needleOf
  by_cases hc : f.contentType = []
  · simp [hc]
  · rw [if_neg hc, if_neg hc, List.flatMap_cons, typeLine_text]
    simp

theorem linesOf_reads (b : Bytes) (f : FormField) (q : Bytes) (h : Sendable b f) (hq : Quoted f.name q) : ∀ l ∈ linesOf f q, Reads l.1 l.2 := by
  intro l hl
  unfold linesOf at hl
  rcases List.mem_cons.1 hl with rfl | hl
  · exact dispLine_reads f.name q hq
  · split at hl
    · simp at hl
    · rename_i hc
      rw [List.mem_singleton] at hl
      subst hl
      obtain ⟨h1, h2, _⟩ := h.type hc
      exact typeLine_reads _ hc h1 h2

/-- The header fields of a field. -/
def headersOf (f : FormField) (q : Bytes) : List Field := (linesOf f q).flatMap fieldsOf

theorem headersOf_eq (f : FormField) (q : Bytes) : ∃ x y, headersOf f q = { dispField f.name with full := x } ::
    (if f.contentType = [] then [] else [{ typeField f.contentType with full := y }]) := by
  unfold headersOf linesOf
  by_cases hc : f.contentType = []
  · exact ⟨_, [], by simp [hc, fieldsOf, dispLine]; rfl⟩
  · exact ⟨_, _, by simp [hc, fieldsOf, dispLine, typeLine]; exact ⟨rfl, rfl⟩⟩

theorem headersOf_get (f : FormField) (q : Bytes) :
    headerGet (headersOf f q) (str "connection") = some none ∧ headerGet (headersOf f q) (str "content-length") = some none ∧
    headerGet (headersOf f q) (str "transfer-encoding") = some none ∧
    (∃ y, headerGet (headersOf f q) (str "content-type") = some (if f.contentType = [] then none else some { typeField f.contentType with full := y })) ∧
    (∃ x, headerGet (headersOf f q) (str "content-disposition") = some (some { dispField f.name with full := x })) := by
  obtain ⟨x, y, h⟩ := headersOf_eq f q
  rw [h]
  have a1 : eqCase (str "content-disposition") (str "connection") = false := by decide +kernel
  have a2 : eqCase (str "content-disposition") (str "content-length") = false := by decide +kernel
  have a3 : eqCase (str "content-disposition") (str "transfer-encoding") = false := by decide +kernel
  have a4 : eqCase (str "content-disposition") (str "content-type") = false := by decide +kernel
  have a5 : eqCase (str "content-disposition") (str "content-disposition") = true := by decide +kernel
  have b1 : eqCase (str "content-type") (str "connection") = false := by decide +kernel
  have b2 : eqCase (str "content-type") (str "content-length") = false := by decide +kernel
  have b3 : eqCase (str "content-type") (str "transfer-encoding") = false := by decide +kernel
  have b4 : eqCase (str "content-type") (str "content-type") = true := by decide +kernel
  by_cases hc : f.contentType = []
  · simp [hc, headerGet, List.find?_cons, dispField, a1, a2, a3, a4, a5, dispDef]
  · simp [hc, headerGet, List.find?_cons, dispField, typeField, a1, a2, a3, a4, a5, b1, b2, b3, b4, dispDef, typeDef]

theorem headersOf_plain (b : Bytes) (f : FormField) (q : Bytes) (h : Sendable b f) : isMultipart (headersOf f q) = some false := by
  obtain ⟨_, _, _, ⟨y, h4⟩, _⟩ := headersOf_get f q
  unfold isMultipart
  rw [h4]
  by_cases hc : f.contentType = []
  · simp [hc]
  · rw [if_neg hc]
    simp only [typeField, (h.type hc).2.2]

theorem headersOf_name (f : FormField) (q : Bytes) (h0 : f.name ≠ []) : subvalueGet (headersOf f q) (str "content-disposition") (str "name") = some (some f.name) := by
  obtain ⟨_, _, _, _, ⟨x, h5⟩⟩ := headersOf_get f q
  unfold subvalueGet
  rw [h5]
  have h1 : eqCase (str "name") (str "name") = true := by decide +kernel
  have h2 : str "name" ≠ [] := by decide +kernel
  simp [dispField, List.find?_cons, h0, h1, h2]

theorem parsePart_seg (b : Bytes) (f : FormField) (q : Bytes) (start : Nat) (h : Sendable b f) (hq : Quoted f.name q) (hs : start ≤ 65536) (hl : (seg f q).length ≤ 65536) :
    parsePart start (seg f q ++ [13, 10]) = .ok (headersOf f q, (readText (linesOf f q)).length + 2) := by
  have hr := headerFields_reads (f.value ++ [13, 10]) (linesOf f q) ((seg f q ++ [13, 10]).length + 1) [] 0 (by
      have : (linesOf f q).length ≤ 2 := by unfold linesOf; split <;> simp
      simp [seg]; omega) (linesOf_reads b f q h hq) (by
      have hmax : lengthMax = 2 ^ 32 - 1 := rfl
      simp only [seg, List.length_append, List.length_cons, List.length_nil] at hl ⊢
      omega)
  have ht : readText (linesOf f q) ++ 13 :: 10 :: (f.value ++ [13, 10]) = seg f q ++ [13, 10] := by simp [seg]
  rw [ht] at hr
  unfold parsePart
  have hlim : limits.header = 65536 := rfl
  rw [if_neg (by omega), hr]
  obtain ⟨h1, h2, h3, _⟩ := headersOf_get f q
  simp only [List.nil_append]
  show (match headerGet (headersOf f q) (str "connection"), headerGet (headersOf f q) (str "content-length"), headerGet (headersOf f q) (str "transfer-encoding") with
    | some _, some contentLength, some transferEncoding => if contentLength.isNone ∧ isChunked transferEncoding then R.soft else .ok (headersOf f q, _)
    | _, _, _ => .bug) = _
  rw [h1, h2, h3]
  simp [isChunked]

/-! ## No boundary inside -/

theorem prefix_clear (D x r : Bytes) (h13 : (13 : UInt8) ∉ D) (hD : D ≠ []) (hx : ¬ D <:+: x) (i : Nat) (hi : i ≤ x.length) : ¬ D <+: (x ++ 13 :: r).drop i := by
  intro hp
  rw [List.drop_append_of_le_length hi] at hp
  by_cases hlen : D.length ≤ (x.drop i).length
  · have : D <+: x.drop i := List.prefix_of_prefix_length_le hp (List.prefix_append _ _) hlen
    exact hx (this.isInfix.trans (List.drop_suffix i x).isInfix)
  · have h2 : x.drop i ++ [13] <+: D := by
      apply List.prefix_of_prefix_length_le (l₃ := x.drop i ++ 13 :: r) _ hp (by simp at hlen ⊢; omega)
      exact ⟨r, by simp⟩
    exact h13 (h2.subset (by simp))

theorem boundary_not (b : Bytes) (h : Boundary b) : (13 : UInt8) ∉ b ∧ (10 : UInt8) ∉ b ∧ (45 : UInt8) ∉ b := by
  have key : ∀ c : UInt8, ((48 ≤ c ∧ c ≤ 57) ∨ (65 ≤ c ∧ c ≤ 90) ∨ (97 ≤ c ∧ c ≤ 122)) → c ≠ 13 ∧ c ≠ 10 ∧ c ≠ 45 := all256 (by decide +kernel)
  exact ⟨fun hh => (key _ (h.2 _ hh)).1 rfl, fun hh => (key _ (h.2 _ hh)).2.1 rfl, fun hh => (key _ (h.2 _ hh)).2.2 rfl⟩

/-- The beginning of both boundaries. -/
def dashed (b : Bytes) : Bytes := 45 :: 45 :: b
theorem dashed_line (b : Bytes) : dashed b <+: line b := by
  rw [← needleOf_eq]; exact ⟨[13, 10], by simp [dashed, needleOf]⟩
theorem dashed_last (b : Bytes) : dashed b <+: lastLine b := by
  rw [← lastOf_eq]; exact ⟨[45, 45, 13, 10], by simp [dashed, lastOf]⟩

theorem clear_crlf (b x r : Bytes) (hb : Boundary b) (hx : ¬ dashed b <:+: x) (i : Nat) (hi : i < x.length + 2) : ¬ dashed b <+: (x ++ 13 :: 10 :: r).drop i := by
  by_cases h : i ≤ x.length
  · apply prefix_clear _ _ _ _ (by simp [dashed]) hx i h
    have := (boundary_not b hb).1
    simp [dashed, this]
  · have : i = x.length + 1 := by omega
    subst this
    rw [show x ++ 13 :: 10 :: r = (x ++ [13]) ++ 10 :: r by simp, List.drop_left' (by simp)]
    rintro ⟨t, ht⟩
    simp [dashed] at ht

theorem indexOf_skip (n x r : Bytes) (l : Nat) (h : ∀ i, i < x.length → ¬ n <+: (x ++ r).drop i) (hr : indexOf n r = some l) : indexOf n (x ++ r) = some (x.length + l) := by
  induction x with
  | nil => simpa using hr
  | cons c x ih =>
    rw [List.cons_append, indexOf, if_neg (by intro hh; exact h 0 (by simp) (by simpa using (prefix_iff _ _).1 hh)), ih fun i hi => h (i + 1) (by simpa using hi)]
    simp; omega

theorem indexOf_skip_none (n x r : Bytes) (h : ∀ i, i < x.length → ¬ n <+: (x ++ r).drop i) (hr : indexOf n r = none) : indexOf n (x ++ r) = none := by
  induction x with
  | nil => simpa using hr
  | cons c x ih =>
    rw [List.cons_append, indexOf, if_neg (by intro hh; exact h 0 (by simp) (by simpa using (prefix_iff _ _).1 hh)), ih fun i hi => h (i + 1) (by simpa using hi)]
    rfl

theorem indexOf_here (n r : Bytes) (h : n <+: r) (hr : r ≠ []) : indexOf n r = some 0 := by
  cases r with
  | nil => exact absurd rfl hr
  | cons c r => rw [indexOf, if_pos ((prefix_iff _ _).2 h)]

theorem loop_skip (sub : List Field → Nat → R (List Tree)) (n last x r : Bytes) (pos : Nat) (acc : List Tree) (h : ∀ i, i < x.length → ¬ n <+: (x ++ r).drop i) :
    loop sub n last pos (x ++ r) acc = loop sub n last (pos + x.length) r acc := by
  induction x generalizing pos with
  | nil => rfl
  | cons c x ih =>
    rw [List.cons_append, loop, if_neg (by intro hh; exact h 0 (by simp) (by simpa using (prefix_iff _ _).1 hh)), ih (pos + 1) fun i hi => h (i + 1) (by simpa using hi)]
    rw [List.length_cons]
    congr 1
    omega

/-- There is no other boundary in the last boundary. -/
theorem last_clear (b : Bytes) (hb : Boundary b) : indexOf (line b) (lastLine b) = none := by
  rw [indexOf_none _ (line_ne b)]
  intro j hp
  have hlen := hp.length_le
  rw [List.length_drop, line_length, lastLine_length] at hlen
  have hj : j = 0 ∨ j = 1 ∨ j = 2 := by omega
  rcases hj with rfl | rfl | rfl
  · exact not_both b (lastLine b) 0 (by simpa [Spec.At] using hp) (by simp [Spec.At])
  · rw [← lastOf_eq, ← needleOf_eq] at hp
    obtain ⟨t, ht⟩ := hp
    cases b with
    | nil => exact hb.1 rfl
    | cons c b =>
      simp [needleOf, lastOf] at ht
      exact (boundary_not _ hb).2.2 (by simp [ht.1])
  · rw [← lastOf_eq, ← needleOf_eq] at hp
    obtain ⟨t, ht⟩ := hp
    cases b with
    | nil => exact hb.1 rfl
    | cons c b =>
      simp [needleOf, lastOf] at ht
      exact (boundary_not _ hb).2.2 (by simp [ht.1])

theorem loop_last (sub : List Field → Nat → R (List Tree)) (b : Bytes) (hb : Boundary b) (pos : Nat) (acc : List Tree) :
    loop sub (line b) (lastLine b) pos (lastLine b) acc = .ok acc := by
  have h := (indexOf_none _ (line_ne b) _).1 (last_clear b hb)
  have := loop_skip sub (line b) (lastLine b) (lastLine b) [] pos acc (fun i _ => by rw [List.append_nil]; exact h i)
  rw [List.append_nil] at this
  rw [this]
  rfl

/-! ## Forms -/

/-- The fields with their quoted names, each with its boundary before it, and the last boundary. -/
def tailText (b : Bytes) : List (FormField × Bytes) → Bytes
  | [] => lastLine b
  | (f, q) :: ss => line b ++ (seg f q ++ 13 :: 10 :: tailText b ss)

/-- The parts of the fields. -/
def trees (b : Bytes) : Nat → List (FormField × Bytes) → List Tree
  | _, [] => []
  | pos, (f, q) :: ss => .node (headersOf f q) (pos + (line b).length) ((readText (linesOf f q)).length + 2) f.value.length [] ::
      trees b (pos + (line b).length + ((seg f q).length + 2)) ss

theorem tailText_starts (b : Bytes) (ss : List (FormField × Bytes)) : dashed b <+: tailText b ss := by
  cases ss with
  | nil => exact dashed_last b
  | cons s ss => exact (dashed_line b).trans (List.prefix_append _ _)

/-- A field which is sent. -/
structure Sent (b : Bytes) (s : FormField × Bytes) : Prop where
  ok : Sendable b s.1
  quote : quote s.1.name 34 34 = .ok s.2
  quoted : Quoted s.1.name s.2

theorem Sent.clear {b : Bytes} {s : FormField × Bytes} (h : Sent b s) : ¬ dashed b <:+: seg s.1 s.2 := by
  have := h.ok.clear (seg s.1 s.2)
  rw [fieldText_eq b s.1 s.2 true h.ok.named.1 h.quote] at this
  exact this rfl

theorem dataLen_eq (l n : Nat) (h : n + 2 ≤ l) (hl : l ≤ 65538) : dataLen l n = l - n - 2 := by
  unfold dataLen
  omega

theorem endOf_tail (b : Bytes) (hb : Boundary b) (s : FormField × Bytes) (hs : Sent b s) (ss : List (FormField × Bytes)) :
    endOf (line b) (lastLine b) (seg s.1 s.2 ++ 13 :: 10 :: tailText b ss) = some ((seg s.1 s.2).length + 2, ss.isEmpty) := by
  have hc : ∀ (n : Bytes), dashed b <+: n → ∀ i, i < (seg s.1 s.2 ++ [13, 10]).length → ¬ n <+: ((seg s.1 s.2 ++ [13, 10]) ++ tailText b ss).drop i := by
    intro n hn i hi hp
    rw [show (seg s.1 s.2 ++ [13, 10]) ++ tailText b ss = seg s.1 s.2 ++ 13 :: 10 :: tailText b ss by simp] at hp
    exact clear_crlf b _ _ hb hs.clear i (by simpa using hi) (hn.trans hp)
  rw [show seg s.1 s.2 ++ 13 :: 10 :: tailText b ss = (seg s.1 s.2 ++ [13, 10]) ++ tailText b ss by simp]
  unfold endOf
  cases ss with
  | nil =>
    rw [indexOf_skip_none _ _ _ (hc _ (dashed_line b)) (last_clear b hb), indexOf_skip _ _ _ 0 (hc _ (dashed_last b)) (indexOf_here _ _ List.prefix_rfl (lastLine_ne b))]
    simp
  | cons s' ss =>
    obtain ⟨f', q'⟩ := s'
    rw [indexOf_skip _ _ _ 0 (hc _ (dashed_line b)) (indexOf_here _ _ (List.prefix_append _ _) (by
      intro h
      have := congrArg List.length h
      simp [tailText, line_length] at this))]
    simp

theorem loop_trees (sub : List Field → Nat → R (List Tree)) (b : Bytes) (hb : Boundary b) (hsub : ∀ f q e, Sendable b f → sub (headersOf f q) e = .ok []) :
    ∀ (ss : List (FormField × Bytes)) (pos : Nat) (acc : List Tree), (∀ s ∈ ss, Sent b s) → pos + (tailText b ss).length ≤ 65536 → acc.length + ss.length ≤ 1000 →
      loop sub (line b) (lastLine b) pos (tailText b ss) acc = .ok (acc ++ trees b pos ss)
  | [], pos, acc, _, _, _ => by
    rw [tailText, loop_last sub b hb]
    simp [trees]
  | (f, q) :: ss, pos, acc, hs, hpos, hacc => by
    have hsent := hs (f, q) (by simp)
    have hlen : (tailText b ((f, q) :: ss)).length = (line b).length + (seg f q).length + 2 + (tailText b ss).length := by
      simp [tailText]; omega
    have htl : 2 ≤ (tailText b ss).length := by
      have := (tailText_starts b ss).length_le
      simp [dashed] at this
      omega
    have hseg2 : (readText (linesOf f q)).length + 2 + f.value.length = (seg f q).length := by
      simp [seg]; omega
    have hll := line_length b
    have hstep : step sub (line b) (lastLine b) pos (tailText b ((f, q) :: ss)) acc.length =
        .ok (some (.node (headersOf f q) (pos + (line b).length) ((readText (linesOf f q)).length + 2) f.value.length [], ss.isEmpty)) := by
      unfold step
      simp only [List.length_cons] at hacc
      rw [if_neg (by omega), if_neg (by omega), if_neg]
      · have hd : (tailText b ((f, q) :: ss)).drop (line b).length = seg f q ++ 13 :: 10 :: tailText b ss := by
          rw [tailText, List.drop_left' rfl]
        rw [hd, endOf_tail b hb (f, q) hsent ss]
        have ht : (seg f q ++ 13 :: 10 :: tailText b ss).take ((seg f q).length + 2) = seg f q ++ [13, 10] := by
          rw [show seg f q ++ 13 :: 10 :: tailText b ss = (seg f q ++ [13, 10]) ++ tailText b ss by simp, List.take_left' (by simp)]
        simp only
        rw [ht, parsePart_seg b f q _ hsent.ok hsent.quoted (by omega) (by omega)]
        have hdl : dataLen ((seg f q).length + 2) ((readText (linesOf f q)).length + 2) = f.value.length := by
          rw [dataLen_eq _ _ (by omega) (by omega)]
          omega
        simp only [R.bind, hsub f q _ hsent.ok, hdl]
      · intro hh
        have h1 : Spec.At (line b) (tailText b ((f, q) :: ss)) 0 := by
          simp only [Spec.At, List.drop_zero]
          exact List.prefix_append _ _
        have h2 : Spec.At (lastLine b) (tailText b ((f, q) :: ss)) 0 := by
          simp only [Spec.At, List.drop_zero]
          exact (prefix_iff _ _).1 hh
        exact not_both b _ 0 h1 h2
    have hcons : ∃ c t, tailText b ((f, q) :: ss) = c :: t := by
      cases ht : tailText b ((f, q) :: ss) with
      | nil => rw [ht] at hlen; simp at hlen; omega
      | cons c t => exact ⟨c, t, rfl⟩
    obtain ⟨c, t, hct⟩ := hcons
    have hpre : line b <+: c :: t := by rw [← hct]; exact List.prefix_append _ _
    rw [hct, loop, if_pos ((prefix_iff _ _).2 hpre), ← hct, hstep]
    simp only [R.bind]
    cases ss with
    | nil => simp [trees]
    | cons s' ss' =>
      simp only [List.isEmpty_cons]
      have hx : t = ((line b).tail ++ (seg f q ++ [13, 10])) ++ tailText b (s' :: ss') := by
        have hl : line b = 45 :: (line b).tail := by rw [← needleOf_eq]; rfl
        have h1 : c :: t = 45 :: ((line b).tail ++ (seg f q ++ [13, 10]) ++ tailText b (s' :: ss')) := by
          rw [← hct, tailText, hl]
          simp
        exact (List.cons.inj h1).2
      have hskip : ∀ i, i < ((line b).tail ++ (seg f q ++ [13, 10])).length → ¬ line b <+: (((line b).tail ++ (seg f q ++ [13, 10])) ++ tailText b (s' :: ss')).drop i := by
        intro i hi hp
        rw [← hx] at hp
        have ht : t.drop i = (tailText b ((f, q) :: s' :: ss')).drop (i + 1) := by rw [hct]; rfl
        rw [ht] at hp
        have h0 : Spec.At (line b) (tailText b ((f, q) :: s' :: ss')) 0 := by
          simp only [Spec.At, List.drop_zero]
          exact List.prefix_append _ _
        have hov := no_overlap b _ (boundary_not b hb).2.1 0 (i + 1) h0 hp (by omega)
        rw [Nat.zero_add] at hov
        simp only [List.length_append, List.length_tail, List.length_cons, List.length_nil] at hi
        have hd : (tailText b ((f, q) :: s' :: ss')).drop (i + 1) = (seg f q ++ 13 :: 10 :: tailText b (s' :: ss')).drop (i + 1 - (line b).length) := by
          rw [tailText, List.drop_append, List.drop_eq_nil_of_le hov, List.nil_append]
        rw [hd] at hp
        exact clear_crlf b (seg f q) _ hb hsent.clear (i + 1 - (line b).length) (by omega) ((dashed_line b).trans hp)
      rw [hx, loop_skip _ _ _ _ _ _ _ hskip]
      have hp2 : pos + 1 + ((line b).tail ++ (seg f q ++ [13, 10])).length = pos + (line b).length + ((seg f q).length + 2) := by
        simp only [List.length_append, List.length_tail, List.length_cons, List.length_nil]
        omega
      rw [hp2, loop_trees sub b hb hsub (s' :: ss') _ _ (fun s h => hs s (List.mem_cons_of_mem _ h)) (by omega) (by simp at hacc ⊢; omega)]
      simp [trees]

theorem fields_trees (b : Bytes) (data rest : Bytes) : ∀ (ss : List (FormField × Bytes)) (pos : Nat), (∀ s ∈ ss, Sent b s) → data.drop pos = tailText b ss ++ rest →
    pos + (tailText b ss).length ≤ 65536 → pos ≤ data.length → fields data (trees b pos ss) = .ok (ss.map (·.1))
  | [], _, _, _, _, _ => rfl
  | (f, q) :: ss, pos, hs, hd, hlen, hpd => by
    have hsent := hs (f, q) (by simp)
    have htl : (tailText b ((f, q) :: ss)).length = (line b).length + ((seg f q).length + 2) + (tailText b ss).length := by
      simp [tailText]; omega
    have hseg : (readText (linesOf f q)).length + 2 + f.value.length = (seg f q).length := by
      simp [seg]; omega
    have hdl : data.length - pos = (tailText b ((f, q) :: ss)).length + rest.length := by
      have := congrArg List.length hd
      rwa [List.length_drop, List.length_append] at this
    have hval : (data.drop (pos + (line b).length + ((readText (linesOf f q)).length + 2))).take f.value.length = f.value := by
      rw [Nat.add_assoc, ← List.drop_drop, hd, tailText]
      rw [show (line b ++ (seg f q ++ 13 :: 10 :: tailText b ss)) ++ rest = (line b ++ (readText (linesOf f q) ++ [13, 10])) ++ (f.value ++ (13 :: 10 :: tailText b ss ++ rest)) by simp [seg]]
      rw [List.drop_left' (by simp), List.take_left' rfl]
    have hnext : data.drop (pos + (line b).length + ((seg f q).length + 2)) = tailText b ss ++ rest := by
      rw [Nat.add_assoc, ← List.drop_drop, hd, tailText]
      rw [show (line b ++ (seg f q ++ 13 :: 10 :: tailText b ss)) ++ rest = (line b ++ (seg f q ++ [13, 10])) ++ (tailText b ss ++ rest) by simp]
      rw [List.drop_left' (by simp)]
    have ih := fields_trees b data rest ss _ (fun s h => hs s (List.mem_cons_of_mem _ h)) hnext (by omega) (by omega)
    obtain ⟨_, _, _, ⟨y, h4⟩, _⟩ := headersOf_get f q
    have hv : (if f.value.length > 0 then valueSet ((data.drop (pos + (line b).length + ((readText (linesOf f q)).length + 2))).take f.value.length) else []) = f.value := by
      rw [hval]
      split
      · rw [valueSet, if_neg hsent.ok.nul]
      · rename_i hz
        exact (List.eq_nil_of_length_eq_zero (by omega)).symm
    have hmax : lengthMax = 2 ^ 32 - 1 := rfl
    rw [trees, fields, if_neg (by omega), headersOf_name f q hsent.ok.named.1, h4]
    simp only
    rw [if_neg (by omega), ih, hv]
    simp only [R.map, R.bind, List.map_cons]
    congr 2
    by_cases hc : f.contentType = []
    · simp [hc]
      cases f; simp_all
    · simp [hc, typeField]

theorem fieldsText_eq (b : Bytes) : ∀ (ss : List (FormField × Bytes)), (∀ s ∈ ss, Sent b s) →
    ∃ t, fieldsText b false (ss.map (·.1)) = .ok t ∧ t ++ ([13, 10, 45, 45] ++ (b ++ [45, 45, 13, 10])) = 13 :: 10 :: tailText b ss
  | [], _ => ⟨[], rfl, by
      rw [tailText, ← lastOf_eq]
      simp [lastOf]⟩
  | (f, q) :: ss, hs => by
    have hsent := hs (f, q) (by simp)
    obtain ⟨t, h1, h2⟩ := fieldsText_eq b ss fun s h => hs s (List.mem_cons_of_mem _ h)
    refine ⟨[13, 10] ++ (line b ++ seg f q) ++ t, ?_, ?_⟩
    · rw [List.map_cons, fieldsText, fieldText_eq b f q false hsent.ok.named.1 hsent.quote, h1]
      simp
    · rw [List.append_assoc, h2, tailText]
      simp

theorem formText_eq (b : Bytes) (s : FormField × Bytes) (ss : List (FormField × Bytes)) (hs : ∀ x ∈ s :: ss, Sent b x) :
    formText b ((s :: ss).map (·.1)) = .ok (tailText b (s :: ss)) := by
  obtain ⟨f, q⟩ := s
  have hsent := hs (f, q) (by simp)
  obtain ⟨t, h1, h2⟩ := fieldsText_eq b ss fun s h => hs s (List.mem_cons_of_mem _ h)
  unfold formText
  rw [List.map_cons, fieldsText, fieldText_eq b f q true hsent.ok.named.1 hsent.quote, h1]
  simp only [Out.ok.injEq]
  rw [List.append_assoc, h2, tailText]
  simp

theorem sent_all (b : Bytes) : ∀ fs : List FormField, (∀ f ∈ fs, Sendable b f) → ∃ ss : List (FormField × Bytes), ss.map (·.1) = fs ∧ ∀ s ∈ ss, Sent b s
  | [], _ => ⟨[], rfl, by simp⟩
  | f :: fs, h => by
    obtain ⟨ss, h1, h2⟩ := sent_all b fs fun x hx => h x (List.mem_cons_of_mem _ hx)
    have hf := h f (by simp)
    obtain ⟨q, h3, h4⟩ := quoted f.name hf.named.1 hf.named.2 hf.chars
    refine ⟨(f, q) :: ss, by simp [h1], ?_⟩
    intro s hs
    rcases List.mem_cons.1 hs with rfl | hs
    · exact ⟨hf, h3, h4⟩
    · exact h2 s hs

/-- **C134**. A form of at least one and at most 1000 fields can be made, and when it is received after a head in which the boundary is not, the same fields are read
from it in the same order, whatever follows it. The head and the form are up to 64 kB together. -/
theorem form_roundtrip_partial (b : Bytes) (fs : List FormField) (hb : Boundary b) (h0 : fs ≠ []) (hcount : fs.length ≤ 1000) (h : ∀ f ∈ fs, Sendable b f) :
    ∃ body, formText b fs = .ok body ∧ ∀ (hs : List Field) (head rest : Bytes), isMultipart hs = some true →
      subvalueGet hs (str "content-type") (str "boundary") = some (some b) → ¬ (str "--" ++ b) <:+: head → (head ++ [13, 10] ++ body).length ≤ 65536 →
      receiveForm hs false (head ++ [13, 10] ++ body).length (head ++ [13, 10] ++ body ++ rest) = .ok fs := by
  obtain ⟨ss, rfl, hsent⟩ := sent_all b fs h
  cases ss with
  | nil => simp at h0
  | cons s ss =>
    refine ⟨tailText b (s :: ss), formText_eq b s ss hsent, ?_⟩
    intro hs head rest hm hbd hclear hlen
    have htake : (head ++ [13, 10] ++ tailText b (s :: ss) ++ rest).take (head ++ [13, 10] ++ tailText b (s :: ss)).length = head ++ [13, 10] ++ tailText b (s :: ss) :=
      List.take_left' rfl
    unfold receiveForm
    rw [htake]
    have hp : process ((head ++ [13, 10] ++ tailText b (s :: ss)).length + 1) hs false (head ++ [13, 10] ++ tailText b (s :: ss)) =
        .ok (trees b (head ++ [13, 10]).length (s :: ss)) := by
      have hmax : lengthMax = 2 ^ 32 - 1 := rfl
      simp only [process, hm, hbd]
      rw [if_neg (by simp), if_neg (by omega), needleOf_eq, lastOf_eq, loop_skip]
      · rw [Nat.zero_add, loop_trees _ b hb _ (s :: ss) _ _ hsent (by rw [List.length_append] at hlen; exact hlen) (by simpa using hcount)]
        · simp [onlySoft]
        · intro f q e hf
          cases hk : (head ++ [13, 10] ++ tailText b (s :: ss)).length with
          | zero => simp at hk
          | succ k => simp only [process, headersOf_plain b f q hf]
      · intro i hi hpre
        rw [show head ++ [13, 10] ++ tailText b (s :: ss) = head ++ 13 :: 10 :: tailText b (s :: ss) by simp] at hpre
        exact clear_crlf b head _ hb hclear i (by simpa using hi) ((dashed_line b).trans hpre)
    rw [hp]
    simp only [R.bind]
    apply fields_trees b _ rest (s :: ss) _ hsent
    · rw [List.append_assoc (head ++ [13, 10]), List.drop_left' rfl]
    · rw [List.length_append] at hlen; exact hlen
    · simp

/-! ## Examples -/

/-- What is read from a form which is made of the fields. -/
def sentAndRead (fs : List FormField) : R (List FormField) :=
  match formText (str "X") fs with
  | .ok body => receiveForm headFields false (headLines ++ body).length (headLines ++ body)
  | _ => .hard

/-- A field which can be sent. -/
theorem sendable_example : Sendable (str "X") ⟨str "a \"b\"", str "1\r\n--", str "text/plain"⟩ := by
  refine ⟨by decide +kernel, by decide +kernel, by decide +kernel, by decide +kernel, ?_⟩
  intro t ht
  have h : fieldText (str "X") true ⟨str "a \"b\"", str "1\r\n--", str "text/plain"⟩ =
    .ok (line (str "X") ++ str "Content-Disposition: form-data; name=\"a \\\"b\\\"\"\r\nContent-Type: text/plain\r\n\r\n1\r\n--") := by decide +kernel
  rw [h] at ht
  simp only [Out.ok.injEq] at ht
  rw [← List.append_cancel_left ht]
  decide +kernel

example : sentAndRead [⟨str "a b", str "1", []⟩, ⟨str "c\"d(+,=", str "x\r\ny--", str "text/plain"⟩, ⟨str "e", [], []⟩] =
    .ok [⟨str "a b", str "1", []⟩, ⟨str "c\"d(+,=", str "x\r\ny--", str "text/plain"⟩, ⟨str "e", [], []⟩] := by decide +kernel

/-- **C134**. A name with a semicolon is cut off there, although it is quoted. -/
theorem name_cut : sentAndRead [⟨str "a;b", str "1", []⟩] = .ok [⟨str "a", str "1", []⟩] := by decide +kernel
/-- **C134**. A name with a percent sign is decoded, although it is not encoded, or the form is refused. -/
theorem name_decoded : sentAndRead [⟨str "a%41", str "1", []⟩] = .ok [⟨str "aA", str "1", []⟩] ∧ sentAndRead [⟨str "50%", str "1", []⟩] = .soft := by decide +kernel
/-- **C134**. A backslash in a name is doubled. -/
theorem name_doubled : sentAndRead [⟨str "a\\b", str "1", []⟩] = .ok [⟨str "a\\\\b", str "1", []⟩] := by decide +kernel
/-- **C134**. A name with bytes which are not ASCII cannot be sent. -/
theorem name_refused : formText (str "X") [⟨[97, 200], str "1", []⟩] = .err := by decide +kernel
/-- **C134**. A field without a name is sent, but it is not read. -/
theorem nameless_lost : sentAndRead [⟨[], str "1", []⟩] = .ok [] := by decide +kernel
/-- **C134**. The parameters of a content type are lost. -/
theorem type_cut : sentAndRead [⟨str "a", str "1", str "text/plain; charset=x"⟩] = .ok [⟨str "a", str "1", str "text/plain"⟩] := by decide +kernel
/-- **C134**. A value which begins with NUL is lost. -/
theorem sent_nul_lost : sentAndRead [⟨str "a", 0 :: str "1", []⟩] = .ok [⟨str "a", [], []⟩] := by decide +kernel
/-- **C134**. A field with the boundary in its value is split. -/
theorem value_split :
    sentAndRead [⟨str "a", str "123--X\r\nContent-Disposition: x; name=b\r\n\r\n2", []⟩] = .ok [⟨str "a", str "1", []⟩, ⟨str "b", str "2", []⟩] := by decide +kernel

end Verif.Multipart
