import Verif.Http.LineExact
import Verif.Http.PieceProps
/-!
# Messages are read exactly: lemmas
-/
namespace Verif.Http
open Verif Verif.HttpUtil Verif.HttpUtil.Spec

theorem Line.Ok.fields_name {l : Line} (h : l.Ok) : ∀ f ∈ l.fields, f.name = lower l.name ∧ f.definition = definitionGet l.name := by
  intro f hf
  unfold Line.fields at hf
  rw [List.mem_cons] at hf
  rcases hf with rfl | hf
  · have := (h.made l.first (by simp [Line.elements])).2
    exact ⟨this.name, this.definition⟩
  · rw [List.mem_map] at hf
    obtain ⟨e, he, rfl⟩ := hf
    have := (h.made e (by simp [Line.elements, he])).2
    exact ⟨this.name, this.definition⟩

theorem Line.Ok.stored {l : Line} (h : l.Ok) : l.fields.map Field.seen = l.stored := by
  unfold Line.fields Line.stored
  rw [List.map_cons, List.map_map]
  have h1 := (h.made l.first (by simp [Line.elements])).2
  congr 1
  · simp [Field.seen, h1.name, h1.subs]
  · apply List.map_congr_left
    intro e he
    have h2 := (h.made e (by simp [Line.elements, he])).2
    simp [Field.seen, h2.name, h2.subs, h2.full]

theorem stored_lines (ls : List Line) (h : ∀ l ∈ ls, l.Ok) : (ls.flatMap Line.fields).map Field.seen = ls.flatMap Line.stored := by
  induction ls with
  | nil => rfl
  | cons l ls ih =>
    rw [List.flatMap_cons, List.flatMap_cons, List.map_append, (h l (by simp)).stored, ih fun x hx => h x (by simp [hx])]

/-- The first field of a line. -/
def Line.head (l : Line) : Field := { l.made l.first with full := strip l.value }

theorem headerGet_lines (nm : String) (hl : lower (str nm) = str nm)
    (hd : ∃ d, definitions.find? (fun d => decide (d.name = str nm)) = some d ∧ d.parser ≠ .none) (ls : List Line) (h : ∀ l ∈ ls, l.Ok) :
    headerGet (ls.flatMap Line.fields) (str nm) = some ((find ls nm).map Line.head) := by
  have hf : (ls.flatMap Line.fields).find? (fun f => eqCase f.name (str nm)) = (find ls nm).map Line.head := by
    induction ls with
    | nil => rfl
    | cons l ls ih =>
      have hok := h l (by simp)
      rw [List.flatMap_cons, List.find?_append]
      unfold find
      rw [List.find?_cons]
      by_cases hn : lower l.name = str nm
      · have h1 : l.fields.find? (fun f => eqCase f.name (str nm)) = some l.head := by
          show (l.head :: l.more.map l.made).find? _ = _
          rw [List.find?_cons]
          have : eqCase l.head.name (str nm) = true := by
            have hm := (hok.fields_name l.head (by unfold Line.fields Line.head; simp)).1
            rw [eqCase_lower _ _ hl, hm, lower_lower, hn]
            simp
          rw [this]
        rw [h1]
        simp [hn]
      · have h1 : l.fields.find? (fun f => eqCase f.name (str nm)) = none := by
          rw [List.find?_eq_none]
          intro f hfm
          rw [eqCase_lower _ _ hl, (hok.fields_name f hfm).1, lower_lower]
          simpa using hn
        rw [h1, Option.none_or, ih fun x hx => h x (by simp [hx])]
        unfold find
        simp [hn]
  unfold headerGet
  rw [hf]
  cases hl2 : find ls nm with
  | none => rfl
  | some l =>
    have hm : l ∈ ls := List.mem_of_find?_eq_some hl2
    have hn : lower l.name = str nm := by
      have := List.find?_some hl2
      simpa using this
    have hdef : l.head.definition = definitionGet l.name := ((h l hm).fields_name l.head (by unfold Line.fields Line.head; simp)).2
    obtain ⟨d, hd1, hd2⟩ := hd
    have : definitionGet l.name = some d := by
      rw [definitionGet_eq, hn, hd1]
    simp only [Option.map_some]
    rw [hdef, this]
    simp only
    rw [if_neg hd2]

theorem get_contentType (ls : List Line) (h : ∀ l ∈ ls, l.Ok) :
    headerGet (ls.flatMap Line.fields) (str "content-type") = some ((find ls "content-type").map Line.head) :=
  headerGet_lines "content-type" (by decide +kernel) ⟨⟨str "content-type", { trim := true }, .contentType⟩, by decide +kernel, by decide⟩ ls h

theorem get_connection (ls : List Line) (h : ∀ l ∈ ls, l.Ok) :
    headerGet (ls.flatMap Line.fields) (str "connection") = some ((find ls "connection").map Line.head) :=
  headerGet_lines "connection" (by decide +kernel) ⟨⟨str "connection", { multiple := true }, .single⟩, by decide +kernel, by decide⟩ ls h

theorem get_contentLength (ls : List Line) (h : ∀ l ∈ ls, l.Ok) :
    headerGet (ls.flatMap Line.fields) (str "content-length") = some ((find ls "content-length").map Line.head) :=
  headerGet_lines "content-length" (by decide +kernel) ⟨⟨str "content-length", { noPairs := true, trim := true }, .unsigned⟩, by decide +kernel, by decide⟩ ls h

theorem get_transferEncoding (ls : List Line) (h : ∀ l ∈ ls, l.Ok) :
    headerGet (ls.flatMap Line.fields) (str "transfer-encoding") = some ((find ls "transfer-encoding").map Line.head) :=
  headerGet_lines "transfer-encoding" (by decide +kernel) ⟨⟨str "transfer-encoding", { noPairs := true }, .single⟩, by decide +kernel, by decide⟩ ls h

theorem find_ok {ls : List Line} {nm : String} {l : Line} (h : find ls nm = some l) : l ∈ ls ∧ lower l.name = str nm :=
  ⟨List.mem_of_find?_eq_some h, by have := List.find?_some h; simpa using this⟩

theorem head_number {ls : List Line} (hok : ∀ l ∈ ls, l.Ok) {l : Line} (h : find ls "content-length" = some l) (n : Nat) (hn : l.key = str (toString n)) :
    l.head.unsigned = n := by
  obtain ⟨h1, h2⟩ := find_ok h
  have hm := (hok l h1).made l.first (by simp [Line.elements])
  have hd : definitionGet l.name = some ⟨str "content-length", { noPairs := true, trim := true }, .unsigned⟩ := by
    rw [definitionGet_eq, h2]; decide +kernel
  have := hm.2.number _ hd rfl
  have hk : l.first.first.key = str (toString n) := hn
  rw [hk, str_toString, str_toString] at this
  have := congrArg HttpUtil.decimal this
  rw [decimal_value, decimal_value] at this
  exact this.symm

theorem head_transferEncoding {ls : List Line} (hok : ∀ l ∈ ls, l.Ok) {l : Line} (h : find ls "transfer-encoding" = some l) : l.head.value = l.key := by
  obtain ⟨h1, h2⟩ := find_ok h
  have hm := (hok l h1).made l.first (by simp [Line.elements])
  have hd : definitionGet l.name = some ⟨str "transfer-encoding", { noPairs := true }, .single⟩ := by
    rw [definitionGet_eq, h2]; decide +kernel
  exact hm.2.value _ hd (by decide) (by decide) (by decide)

theorem head_connection {ls : List Line} (hok : ∀ l ∈ ls, l.Ok) {l : Line} (h : find ls "connection" = some l) : l.head.value = l.key := by
  obtain ⟨h1, h2⟩ := find_ok h
  have hm := (hok l h1).made l.first (by simp [Line.elements])
  have hd : definitionGet l.name = some ⟨str "connection", { multiple := true }, .single⟩ := by
    rw [definitionGet_eq, h2]; decide +kernel
  exact hm.2.value _ hd (by decide) (by decide) (by decide)

theorem connection_expected (ls : List Line) (hok : ∀ l ∈ ls, l.Ok) (v : Version) :
    connectionOf ((find ls "connection").map Line.head) (some v) = expectedConnection ls v := by
  unfold connectionOf expectedConnection
  have hv : (some v = some Version.v10) = (v = .v10) := by simp
  cases hf : find ls "connection" with
  | none => simp [hv]
  | some l =>
    simp only [Option.map_some, head_connection hok hf]
    rw [eqCase_lower _ _ (show lower (str "close") = str "close" by decide +kernel),
      eqCase_lower _ _ (show lower (str "keep-alive") = str "keep-alive" by decide +kernel),
      eqCase_lower _ _ (show lower (str "upgrade") = str "upgrade" by decide +kernel)]
    simp only [decide_eq_true_eq, hv]
    by_cases h1 : lower l.key = str "close"
    · simp [h1]
    · by_cases h2 : lower l.key = str "keep-alive"
      · have hA : lower l.key = str "keep-alive" ∨ lower l.key = str "upgrade" := .inl h2
        rw [if_neg h1, if_pos h2, if_neg h1, if_pos hA]
      · by_cases h3 : lower l.key = str "upgrade"
        · have hA : lower l.key = str "keep-alive" ∨ lower l.key = str "upgrade" := .inr h3
          rw [if_neg h1, if_neg h2, if_pos h3, if_neg h1, if_pos hA]
        · have hA : ¬ (lower l.key = str "keep-alive" ∨ lower l.key = str "upgrade") := fun h => h.elim h2 h3
          rw [if_neg h1, if_neg h2, if_neg h3, if_neg h1, if_neg hA]

theorem isChunked_eq (ls : List Line) (hok : ∀ l ∈ ls, l.Ok) : isChunked ((find ls "transfer-encoding").map Line.head) = true ↔
    ∃ l, find ls "transfer-encoding" = some l ∧ lower l.key = str "chunked" := by
  unfold isChunked
  cases hf : find ls "transfer-encoding" with
  | none => simp
  | some l =>
    simp only [Option.map_some, head_transferEncoding hok hf]
    rw [eqCase_lower _ _ (show lower (str "chunked") = str "chunked" by decide +kernel)]
    simp

/-! ## First lines -/

theorem findWhsp_word : ∀ (a : Bytes) (c : UInt8) (b : Bytes), (∀ x ∈ a, x ≠ 32 ∧ x ≠ 9) → b ≠ [] → (c = 32 ∨ c = 9) →
    findWhsp (a ++ c :: b) = some a.length
  | [], c, b, _, hb, hc => by
    cases b with
    | nil => exact absurd rfl hb
    | cons d b => rw [List.nil_append, findWhsp_cons, if_pos hc]; rfl
  | x :: a, c, b, ha, hb, hc => by
    have ih := findWhsp_word a c b (fun y hy => ha y (by simp [hy])) hb hc
    obtain ⟨d, t, ht⟩ : ∃ d t, a ++ c :: b = d :: t := by
      cases a with
      | nil => exact ⟨c, b, rfl⟩
      | cons y a => exact ⟨y, _, rfl⟩
    rw [List.cons_append, ht, findWhsp_cons, if_neg (by have := ha x (by simp); simp [this]), ← ht, ih]
    rfl

theorem countWhsp_one (c : UInt8) (l : Bytes) (hc : c = 32) (h : ∀ d, l.head? = some d → d ≠ 32 ∧ d ≠ 9) : countWhsp (c :: l) = 1 := by
  subst hc
  unfold countWhsp
  rw [show (32 : UInt8) :: l = [32] ++ l from rfl, takeWhile_stop _ _ _ (by decide) fun d hd => by
    have := h d hd; simp [isLwsp, this.1, this.2]]
  rfl

theorem countWhsp_none (l : Bytes) (h : ∀ d, l.head? = some d → d ≠ 32 ∧ d ≠ 9) : countWhsp l = 0 := by
  unfold countWhsp
  rw [show l = [] ++ l from rfl, takeWhile_stop _ _ _ (by simp) fun d hd => by
    have := h d hd; simp [isLwsp, this.1, this.2]]
  rfl

theorem method_facts (m : Method) : (∀ c ∈ m.text, c ≠ 32 ∧ c ≠ 9 ∧ c ≠ 13) ∧ m.text ≠ [] ∧ m.text.length ≤ 10 ∧ methodOf m.text = some m := by
  cases m <;> decide +kernel

theorem version_facts (v : Version) : v.text ≠ [] ∧ (∀ c ∈ v.text, c ≠ 32 ∧ c ≠ 9 ∧ c ≠ 13) ∧ v.text.length = 8 ∧ versionAt v.text = some (v, 8) := by
  cases v <;> decide +kernel

theorem requestLine_exact (r : Request) (hu : r.uri ≠ [] ∧ ∀ c ∈ r.uri, c ≠ 32 ∧ c ≠ 9 ∧ c ≠ 13) (tail : Bytes) :
    requestLine (r.line ++ tail) = .ok (r.method.text, r.uri, r.version, r.line.length) := by
  obtain ⟨m1, m2, m3, -⟩ := method_facts r.method
  obtain ⟨v1, v2, v3, v4⟩ := version_facts r.version
  have hl : r.line ++ tail = (r.method.text ++ 32 :: r.uri ++ 32 :: r.version.text) ++ 13 :: 10 :: tail := by simp [Request.line]
  have hcr : ∀ c ∈ r.method.text ++ 32 :: r.uri ++ 32 :: r.version.text, c ≠ 13 := by
    intro c hc
    simp only [List.mem_append, List.mem_cons] at hc
    rcases hc with (hc | rfl | hc) | rfl | hc
    · exact (m1 c hc).2.2
    · decide
    · exact (hu.2 c hc).2.2
    · decide
    · exact (v2 c hc).2.2
  have hlen : (r.method.text ++ 32 :: r.uri ++ 32 :: r.version.text).length = r.method.text.length + r.uri.length + 9 + 1 := by
    simp [v3]; omega
  have hcf : findCrlf (r.line ++ tail) = some (r.method.text.length + r.uri.length + 9 + 1) := by rw [hl, findCrlf_line _ _ hcr, hlen]
  have hm0 : 0 < r.method.text.length := List.length_pos_iff.2 m2
  rw [requestLine_eq _ _ hcf]
  have e1 : r.line ++ tail = r.method.text ++ 32 :: (r.uri ++ 32 :: (r.version.text ++ 13 :: 10 :: tail)) := by simp [Request.line]
  have f1 : findWhsp (r.line ++ tail) = some r.method.text.length := by
    rw [e1]
    exact findWhsp_word _ _ _ (fun c hc => ⟨(m1 c hc).1, (m1 c hc).2.1⟩) (by simp) (.inl rfl)
  rw [f1]
  simp only [Option.elim]
  rw [if_neg (by omega)]
  have d1 : (r.line ++ tail).drop r.method.text.length = 32 :: (r.uri ++ 32 :: (r.version.text ++ 13 :: 10 :: tail)) := by
    rw [e1]; exact List.drop_left' rfl
  have hh : ∀ d, (r.uri ++ 32 :: (r.version.text ++ 13 :: 10 :: tail)).head? = some d → d ≠ 32 ∧ d ≠ 9 := by
    intro d hd
    cases hur : r.uri with
    | nil => exact absurd hur hu.1
    | cons c u =>
      rw [hur] at hd
      simp only [List.cons_append, List.head?_cons, Option.some.injEq] at hd
      have := hu.2 c (by rw [hur]; simp)
      rw [← hd]
      exact ⟨this.1, this.2.1⟩
  have w1 : countWhsp ((r.line ++ tail).drop r.method.text.length) = 1 := by
    rw [d1]; exact countWhsp_one _ _ rfl hh
  rw [w1]
  have d2 : (r.line ++ tail).drop (r.method.text.length + 1) = r.uri ++ 32 :: (r.version.text ++ 13 :: 10 :: tail) := by
    rw [← List.drop_drop, d1]; rfl
  have f2 : findWhsp ((r.line ++ tail).drop (r.method.text.length + 1)) = some r.uri.length := by
    rw [d2]
    exact findWhsp_word _ _ _ (fun c hc => ⟨(hu.2 c hc).1, (hu.2 c hc).2.1⟩) (by simp) (.inl rfl)
  rw [f2]
  simp only
  unfold requestTail
  have d3 : (r.line ++ tail).drop (r.method.text.length + 1 + r.uri.length) = 32 :: (r.version.text ++ 13 :: 10 :: tail) := by
    rw [← List.drop_drop, d2]; exact List.drop_left' rfl
  have w2 : countWhsp ((r.line ++ tail).drop (r.method.text.length + 1 + r.uri.length)) = 1 := by
    rw [d3]
    refine countWhsp_one _ _ rfl fun d hd => ?_
    cases hvr : r.version.text with
    | nil => exact absurd hvr v1
    | cons c u =>
      rw [hvr] at hd
      simp only [List.cons_append, List.head?_cons, Option.some.injEq] at hd
      have := v2 c (by rw [hvr]; simp)
      rw [← hd]
      exact ⟨this.1, this.2.1⟩
  rw [w2, if_neg (by omega)]
  have d4 : ((r.line ++ tail).take (r.method.text.length + r.uri.length + 9 + 1)).drop (r.method.text.length + 1 + r.uri.length + 1) = r.version.text := by
    rw [hl, ← hlen, List.take_left' rfl,
      show r.method.text ++ 32 :: r.uri ++ 32 :: r.version.text = (r.method.text ++ 32 :: r.uri ++ [32]) ++ r.version.text by simp]
    apply List.drop_left'
    simp
    omega
  rw [d4, v4]
  simp only
  rw [if_neg (by omega)]
  congr 2
  · rw [e1]; exact List.take_left' rfl
  · congr 1
    · rw [d2]; exact List.take_left' rfl
    · congr 1
      simp [Request.line, v3]
      omega

theorem occurs_prefix (a b : Bytes) : OccursAt (a ++ b) a 0 := by
  refine ⟨by simp, fun i hi => .inl ?_⟩
  simp [List.getD_eq_getElem?_getD, List.getElem?_append_left hi]

theorem versionAt_prefix (v : Version) (rest : Bytes) : versionAt (v.text ++ rest) = some (v, 8) := by
  have hfind : ∀ a : Bytes, a ≠ [] → strcasestr (a ++ rest) a = .ok (0, a.length) := by
    intro a ha
    obtain ⟨p, hp, h0⟩ := (strcasestr_partial (a ++ rest) a ha).2 0 (occurs_prefix a rest) (.inl rfl)
    rw [hp, Nat.le_zero.1 h0]
  unfold versionAt
  cases v with
  | v11 =>
    rw [show Version.v11.text = str "HTTP/1.1" from rfl, hfind _ (by decide +kernel)]
    rfl
  | v10 =>
    have h1 : ¬ ∃ n, strcasestr (Version.v10.text ++ rest) (str "HTTP/1.1") = .ok (0, n) := by
      rw [strcasestr_beginning _ _ (by decide +kernel)]
      intro h
      have := h.2 7 (by decide +kernel)
      have e1 : (Version.v10.text ++ rest).getD (0 + 7) 0 = 48 := by
        rw [List.getD_eq_getElem?_getD, List.getElem?_append_left (by decide +kernel)]
        decide +kernel
      have e2 : (str "HTTP/1.1").getD 7 0 = 49 := by decide +kernel
      rw [e1, e2] at this
      revert this
      unfold SameLetter
      decide
    have h2 := hfind Version.v10.text (by decide +kernel)
    have h3 : str "HTTP/1.0" = Version.v10.text := rfl
    rw [h3]
    cases hs : strcasestr (Version.v10.text ++ rest) (str "HTTP/1.1") with
    | ok x =>
      obtain ⟨p, n⟩ := x
      cases p with
      | zero => exact absurd ⟨n, hs⟩ h1
      | succ p => simp only; rw [h2]; rfl
    | err => simp only; rw [h2]; rfl
    | bug => simp only; rw [h2]; rfl
    | fault => simp only; rw [h2]; rfl

theorem responseLine_exact (r : Response) (hc : 100 ≤ r.code ∧ r.code ≤ 999) (hr : (∀ c ∈ r.reason, c ≠ 13) ∧ (r.reason = [] ∨ r.reason.head? = some 32))
    (tail : Bytes) : responseLine (r.line ++ tail) = .ok (r.version, r.code, r.line.length) := by
  obtain ⟨v1, v2, v3, -⟩ := version_facts r.version
  have hdig := decimal_digits r.code
  have hstr : str (toString r.code) = decimal r.code := str_toString r.code
  have hdl : 3 ≤ (decimal r.code).length := by
    apply Nat.lt_of_not_le
    intro h
    unfold decimal at h
    rw [List.length_map, Nat.length_toDigits_le_iff (by omega) (by omega)] at h
    omega
  have hl : r.line ++ tail = (r.version.text ++ 32 :: decimal r.code ++ r.reason) ++ 13 :: 10 :: tail := by
    rw [Response.line, hstr]; simp
  have hcr : ∀ c ∈ r.version.text ++ 32 :: decimal r.code ++ r.reason, c ≠ 13 := by
    intro c hc
    simp only [List.mem_append, List.mem_cons] at hc
    rcases hc with (hc | rfl | hc) | hc
    · exact (v2 c hc).2.2
    · decide
    · have := hdig c hc
      intro he
      rw [he] at this
      exact absurd this.1 (by decide)
    · exact hr.1 c hc
  have hlen : (r.version.text ++ 32 :: decimal r.code ++ r.reason).length = 9 + (decimal r.code).length + r.reason.length := by
    simp [v3]; omega
  obtain ⟨q, hq⟩ : ∃ q, 9 + (decimal r.code).length + r.reason.length = q + 1 := ⟨8 + (decimal r.code).length + r.reason.length, by omega⟩
  unfold responseLine
  rw [hl, findCrlf_line _ _ hcr, hlen, hq]
  simp only
  rw [← hq, if_neg (by omega)]
  have ht : ((r.version.text ++ 32 :: decimal r.code ++ r.reason) ++ 13 :: 10 :: tail).take (9 + (decimal r.code).length + r.reason.length) =
      r.version.text ++ (32 :: decimal r.code ++ r.reason) := by
    rw [← hlen, List.take_left' rfl]; simp
  rw [ht, versionAt_prefix]
  simp only
  have d1 : ((r.version.text ++ 32 :: decimal r.code ++ r.reason) ++ 13 :: 10 :: tail).drop 8 = 32 :: (decimal r.code ++ (r.reason ++ 13 :: 10 :: tail)) := by
    rw [show (r.version.text ++ 32 :: decimal r.code ++ r.reason) ++ 13 :: 10 :: tail =
      r.version.text ++ (32 :: (decimal r.code ++ (r.reason ++ 13 :: 10 :: tail))) by simp]
    exact List.drop_left' v3
  have w1 : countWhsp (((r.version.text ++ 32 :: decimal r.code ++ r.reason) ++ 13 :: 10 :: tail).drop 8) = 1 := by
    rw [d1]
    refine countWhsp_one _ _ rfl fun d hd => ?_
    cases hvr : decimal r.code with
    | nil => exact absurd hvr (decimal_ne _)
    | cons c u =>
      rw [hvr] at hd
      simp only [List.cons_append, List.head?_cons, Option.some.injEq] at hd
      have := hdig c (by rw [hvr]; simp)
      rw [hd] at this
      constructor <;> intro he <;> rw [he] at this <;> exact absurd this.1 (by decide)
  rw [w1]
  have d2 : (r.version.text ++ (32 :: decimal r.code ++ r.reason)).drop (8 + 1) = decimal r.code ++ r.reason := by
    rw [← List.drop_drop, List.drop_left' v3]; rfl
  rw [d2, strtoullRaw_number r.code (by omega) r.reason (by
    intro c t hct
    rcases hr.2 with h | h
    · rw [h] at hct; cases hct
    · rw [hct] at h
      simp only [List.head?_cons, Option.some.injEq] at h
      rw [h]; decide)]
  simp only
  rw [if_neg (by omega)]
  have d3 : ((r.version.text ++ 32 :: decimal r.code ++ r.reason) ++ 13 :: 10 :: tail).drop (8 + 1 + (decimal r.code).length) = r.reason ++ 13 :: 10 :: tail := by
    rw [show (r.version.text ++ 32 :: decimal r.code ++ r.reason) ++ 13 :: 10 :: tail =
      (r.version.text ++ 32 :: decimal r.code) ++ (r.reason ++ 13 :: 10 :: tail) by simp]
    apply List.drop_left'
    simp [v3]; omega
  have w2 : countWhsp (r.reason ++ 13 :: 10 :: tail) ≤ r.reason.length := by
    unfold countWhsp
    have : ∀ l : Bytes, ((l ++ 13 :: 10 :: tail).takeWhile isLwsp).length ≤ l.length := by
      intro l
      induction l with
      | nil => simp [isLwsp]
      | cons c l ih =>
        rw [List.cons_append, List.takeWhile_cons]
        split
        · simp only [List.length_cons]; omega
        · simp
    exact this _
  rw [d3, if_neg (by omega)]
  congr 3
  rw [Response.line, hstr]
  simp [v3]
  omega

/-! ## The header -/

/-- The part when the header of a request is complete. -/
def Request.part (r : Request) : Part :=
  { headers := r.lines.flatMap Line.fields, methodStr := r.method.text, uri := r.uri, complete := true, started := true, version := some r.version,
    headroom := r.line.length, headerLength := (headerText r.lines).length }

/-- The part when the header of a response is complete. -/
def Response.part (r : Response) : Part :=
  { headers := r.lines.flatMap Line.fields, code := r.code, complete := true, started := true, version := some r.version,
    headroom := r.line.length, headerLength := (headerText r.lines).length }

theorem Line.text_pos (l : Line) : 0 < l.text.length := by simp [Line.text]; omega

theorem linesText_length : ∀ ls : List Line, ls.length ≤ (linesText ls).length
  | [] => by simp [linesText]
  | l :: ls => by
    have := linesText_length ls
    have := l.text_pos
    simp only [linesText, List.flatMap_cons, List.length_append, List.length_cons] at *
    omega

theorem headerText_eq (ls : List Line) (tail : Bytes) : headerText ls ++ tail = linesText ls ++ 13 :: 10 :: tail := by
  simp [headerText, linesText]

theorem parseHeader_exact (lim : Limits) (kind : Kind) (base : Nat) (p : Part) (hc : p.complete = false) (hh : p.headers = []) (hl : p.headerLength = 0)
    (line tail : Bytes) (ls : List Line) (hok : ∀ l ∈ ls, l.Ok) (hr : p.headroom = line.length)
    (hmax : (line ++ (headerText ls ++ tail)).length ≤ lengthMax) :
    parseHeader lim kind base p (line ++ (headerText ls ++ tail)) 0 line.length =
      afterHeader kind base { p with headers := ls.flatMap Line.fields, headerLength := (headerText ls).length, complete := true }
        (line ++ (headerText ls ++ tail)) 0 (line.length + (headerText ls).length) := by
  unfold parseHeader
  rw [if_neg (by simp [hc]), if_neg (by omega), Nat.zero_add, List.drop_left' rfl, hh, headerText_eq,
    headerFields_lines tail ls _ _ _ (by
      have := linesText_length ls
      simp only [List.length_append, List.length_cons]
      omega) hok (by rw [headerText_eq, List.length_append] at hmax; omega)]
  simp only [if_true, List.nil_append, hl]
  have : (linesText ls).length + 2 = (headerText ls).length := by simp [headerText, linesText]
  rw [show 0 + (0 + (linesText ls).length + 2) = (headerText ls).length by omega, show 0 + (linesText ls).length + 2 = (headerText ls).length by omega]

theorem parse_request (lim : Limits) (base : Nat) (r : Request) (hu : r.uri ≠ [] ∧ ∀ c ∈ r.uri, c ≠ 32 ∧ c ≠ 9 ∧ c ≠ 13) (hok : ∀ l ∈ r.lines, l.Ok)
    (tail : Bytes) (hmax : (r.head ++ tail).length ≤ lengthMax) :
    parse lim .request base {} (r.head ++ tail) 0 = afterHeader .request base r.part (r.head ++ tail) 0 r.head.length := by
  have hl : r.head ++ tail = r.line ++ (headerText r.lines ++ tail) := by simp [Request.head]
  rw [hl] at hmax ⊢
  unfold parse parseFirstLine
  rw [if_neg (by simp), if_pos (show (!({} : Part).started) = true from rfl)]
  simp only [List.drop_zero, requestLine_exact r hu, R.map, R.bind]
  rw [parseHeader_exact lim .request base _ rfl rfl rfl r.line tail r.lines hok rfl hmax]
  simp only [Request.head, List.length_append]
  rfl

theorem parse_response (lim : Limits) (base : Nat) (r : Response) (hc : 100 ≤ r.code ∧ r.code ≤ 999)
    (hr : (∀ c ∈ r.reason, c ≠ 13) ∧ (r.reason = [] ∨ r.reason.head? = some 32)) (hok : ∀ l ∈ r.lines, l.Ok)
    (tail : Bytes) (hmax : (r.head ++ tail).length ≤ lengthMax) :
    parse lim .response base {} (r.head ++ tail) 0 = afterHeader .response base r.part (r.head ++ tail) 0 r.head.length := by
  have hl : r.head ++ tail = r.line ++ (headerText r.lines ++ tail) := by simp [Response.head]
  rw [hl] at hmax ⊢
  unfold parse parseFirstLine
  rw [if_neg (by simp), if_pos (show (!({} : Part).started) = true from rfl)]
  simp only [List.drop_zero, responseLine_exact r hc hr, R.map, R.bind]
  rw [parseHeader_exact lim .response base _ rfl rfl rfl r.line tail r.lines hok rfl hmax]
  simp only [Response.head, List.length_append]
  rfl

end Verif.Http
