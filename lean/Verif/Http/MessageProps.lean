import Verif.Http.ChunkLemmas
/-!
# C88, C89: requests and responses are read exactly
-/
namespace Verif.Http
open Verif Verif.HttpUtil Verif.HttpUtil.Spec

theorem head_contentType {ls : List Line} (hok : ∀ l ∈ ls, l.Ok) {l : Line} (h : find ls "content-type" = some l) : l.head.value = l.key := by
  obtain ⟨h1, h2⟩ := find_ok h
  have hm := (hok l h1).made l.first (by simp [Line.elements])
  have hd : definitionGet l.name = some ⟨str "content-type", { trim := true }, .contentType⟩ := by
    rw [definitionGet_eq, h2]; decide +kernel
  exact hm.2.value _ hd (by decide) (by decide) (by decide)

theorem format_expected (ls : List Line) (hok : ∀ l ∈ ls, l.Ok) : formatOf ((find ls "content-type").map Line.head) = expectedFormat ls := by
  unfold formatOf expectedFormat
  cases hf : find ls "content-type" with
  | none => rfl
  | some l =>
    simp only [Option.map_some, head_contentType hok hf]
    rw [eqCase_lower _ _ (show lower (str "multipart/form-data") = str "multipart/form-data" by decide +kernel),
      eqCase_lower _ _ (show lower (str "application/x-www-form-urlencoded") = str "application/x-www-form-urlencoded" by decide +kernel),
      eqCase_lower _ _ (show lower (str "application/json") = str "application/json" by decide +kernel)]
    simp only [decide_eq_true_eq]

/-- The part of a request when the header has been looked at. -/
def Request.ready (r : Request) : Part :=
  { r.part with method := some r.method, format := expectedFormat r.lines, connection := some (expectedConnection r.lines r.version) }

/-- The part of a response when the header has been looked at. -/
def Response.ready (r : Response) : Part :=
  { r.part with connection := some (expectedConnection r.lines r.version) }

theorem afterHeader_request (r : Request) (h : ∀ l ∈ r.lines, l.Ok) (base n : Nat) (buf : Bytes) :
    afterHeader .request base r.part buf 0 n =
      match find r.lines "content-length" with
      | some l => { ret := .ok, part := { r.ready with dataLength := l.head.unsigned }, target := (r.ready.top + l.head.unsigned) % 2 ^ 64, parsed := n }
      | none =>
        if isChunked ((find r.lines "transfer-encoding").map Line.head) then parseChunked base r.ready buf 0 n
        else { ret := .ok, part := r.ready, target := r.ready.top, parsed := n } := by
  unfold afterHeader
  rw [show r.part.headers = r.lines.flatMap Line.fields from rfl, get_contentType _ h, get_connection _ h, get_contentLength _ h, get_transferEncoding _ h]
  simp only
  rw [show r.part.methodStr = r.method.text from rfl, (method_facts r.method).2.2.2]
  simp only [Option.map_some]
  rw [show r.part.version = some r.version from rfl, connection_expected _ h, format_expected _ h]
  cases find r.lines "content-length" with
  | some l => rfl
  | none =>
    simp only [Option.map_none]
    split
    · rfl
    · rw [if_pos (.inl trivial)]; rfl

theorem afterHeader_response (r : Response) (h : ∀ l ∈ r.lines, l.Ok) (base n : Nat) (buf : Bytes) :
    afterHeader .response base r.part buf 0 n =
      match find r.lines "content-length" with
      | some l => { ret := .ok, part := { r.ready with dataLength := l.head.unsigned }, target := (r.ready.top + l.head.unsigned) % 2 ^ 64, parsed := n }
      | none =>
        if isChunked ((find r.lines "transfer-encoding").map Line.head) then parseChunked base r.ready buf 0 n
        else if r.code = 204 ∨ r.code = 101 then { ret := .ok, part := r.ready, target := r.ready.top, parsed := n }
        else { ret := .incomplete, part := { r.ready with unknownLength := true }, parsed := n } := by
  unfold afterHeader
  rw [show r.part.headers = r.lines.flatMap Line.fields from rfl, get_contentType _ h, get_connection _ h, get_contentLength _ h, get_transferEncoding _ h]
  simp only
  rw [show r.part.version = some r.version from rfl, connection_expected _ h]
  cases find r.lines "content-length" with
  | some l => rfl
  | none =>
    simp only [Option.map_none]
    split
    · rfl
    · by_cases hc : r.code = 204 ∨ r.code = 101
      · rw [if_pos hc, if_pos (.inr hc)]; rfl
      · rw [if_neg hc, if_neg (by rintro (h | h); cases h; exact hc h)]; rfl

theorem Request.ready_seen (r : Request) (h : ∀ l ∈ r.lines, l.Ok) : r.Seen r.ready :=
  ⟨rfl, rfl, rfl, rfl, stored_lines _ h, rfl, rfl⟩

theorem Request.Seen.of {r : Request} {p q : Part} (h : r.Seen p) (h1 : q.method = p.method) (h2 : q.methodStr = p.methodStr) (h3 : q.uri = p.uri)
    (h4 : q.version = p.version) (h5 : q.headers = p.headers) (h6 : q.connection = p.connection) (h7 : q.format = p.format) : r.Seen q :=
  ⟨by rw [h1, h.method], by rw [h2, h.methodStr], by rw [h3, h.uri], by rw [h4, h.version], by rw [h5, h.headers], by rw [h6, h.connection],
    by rw [h7, h.format]⟩

theorem Response.ready_seen (r : Response) (h : ∀ l ∈ r.lines, l.Ok) : r.Seen r.ready :=
  ⟨rfl, rfl, stored_lines _ h, rfl⟩

theorem Response.Seen.of {r : Response} {p q : Part} (h : r.Seen p) (h1 : q.code = p.code)
    (h4 : q.version = p.version) (h5 : q.headers = p.headers) (h6 : q.connection = p.connection) : r.Seen q :=
  ⟨by rw [h1, h.code], by rw [h4, h.version], by rw [h5, h.headers], by rw [h6, h.connection]⟩

theorem validate_request (r : Request) (h : r.Ok) (p : Part) (hm : p.method = some r.method) (hh : p.headers = r.lines.flatMap Line.fields) :
    validate p = some true := by
  unfold validate
  rw [hh, get_contentType _ h.lines, get_contentLength _ h.lines, get_transferEncoding _ h.lines, hm]
  simp only
  split
  · rename_i hs
    obtain ⟨h1, h2, h3⟩ := h.safe hs
    rw [h2, h3]
    simp only [Option.map_none, Option.isSome_none, Bool.or_false]
    cases hc : find r.lines "content-length" with
    | none => rfl
    | some l =>
      have := head_number h.lines hc 0 (h1 l hc)
      simp [this]
  · rfl

/-- The outcome for any pieces follows from the run over all of the data. -/
theorem receive_of_run (kind : Kind) (base : Nat) (pieces : List Bytes) (hmax : pieces.flatten.length ≤ lengthMax) (o : Ret × Part × Nat × Nat)
    (hrun : run (unlimited pieces.flatten) kind base pieces.flatten {} 0 = o) (hw : (sizeOf kind o).Within limits pieces.flatten) :
    receive limits kind base {} 0 [] pieces = sizeOf kind o := by
  have ht : targetSize (unlimited pieces.flatten) kind base {} 0 pieces.flatten = sizeOf kind o := by rw [targetSize_start, hrun]
  rw [http_pieces_within limits kind base pieces hmax (by rw [ht]; exact hw), ht]

theorem Request.limits (r : Request) (h : r.Ok) (data : Bytes) (p : Part) (hp : p.started = true ∧ p.headroom = r.line.length ∧
    p.headerLength = (headerText r.lines).length) : WithinLimits Http.limits data p :=
  ⟨fun _ => by rw [hp.2.1]; exact h.line, fun hs => (by rw [hp.1] at hs; cases hs), by rw [hp.2.2]; exact h.header⟩

theorem Response.limits (r : Response) (h : r.Ok) (data : Bytes) (p : Part) (hp : p.started = true ∧ p.headroom = r.line.length ∧
    p.headerLength = (headerText r.lines).length) : WithinLimits Http.limits data p :=
  ⟨fun _ => by rw [hp.2.1]; exact h.line, fun hs => (by rw [hp.1] at hs; cases hs), by rw [hp.2.2]; exact h.header⟩

theorem Request.top_eq (r : Request) : r.ready.top = r.head.length := by
  show r.line.length + (headerText r.lines).length = _
  simp [Request.head]

theorem Response.top_eq (r : Response) : r.ready.top = r.head.length := by
  show r.line.length + (headerText r.lines).length = _
  simp [Response.head]

theorem lengthMax_eq : lengthMax = 2 ^ 32 - 1 := rfl

/-- The end of a run which has its answer in the first call. -/
theorem run_ok (lim : Limits) (kind : Kind) (base : Nat) (buf : Bytes) (p : Part) (t n : Nat) (q : Part)
    (h : parse lim kind base q buf 0 = { ret := .ok, part := p, target := t, parsed := n }) (hq : Good q) :
    run lim kind base buf q 0 = (.ok, p, t, 0) := by
  rw [run_eq _ _ _ _ _ _ hq (Nat.zero_le _), h]
  simp [outOf]

/-! ## C88 -/

/-- **C88.** A request which is in order, and which has a body with the length given in its header or neither a body nor a length, is received exactly,
however it arrives and whatever comes after it. -/
theorem http_request (base : Nat) (r : Request) (h : r.Ok) (body more : Bytes) (hb : Plain r.lines body ∨ (Bare r.lines ∧ body = []))
    (pieces : List Bytes) (hp : pieces.flatten = r.head ++ body ++ more) (hmax : pieces.flatten.length ≤ lengthMax) :
    ∃ p, receive limits .request base {} 0 [] pieces = .message p (r.head ++ body).length ∧ r.Seen p ∧ receivedBody p (r.head ++ body) = .ok body := by
  have hmax' := hmax
  rw [lengthMax_eq] at hmax'
  have hlen : pieces.flatten.length = r.head.length + body.length + more.length := by rw [hp]; simp; omega
  have hfl : pieces.flatten = r.head ++ (body ++ more) := by rw [hp, List.append_assoc]
  have hparse := parse_request (unlimited pieces.flatten) base r h.uri h.lines (body ++ more) (by rw [← hfl]; exact hmax)
  rw [← hfl, afterHeader_request r h.lines] at hparse
  rcases hb with ⟨l, hl, hk⟩ | ⟨⟨hl, hte⟩, rfl⟩
  · rw [hl] at hparse
    simp only [head_number h.lines hl _ hk, r.top_eq] at hparse
    rw [Nat.mod_eq_of_lt (by omega)] at hparse
    have hrun := run_ok _ _ _ _ _ _ _ _ hparse good_empty
    have hv := validate_request r h { r.ready with dataLength := body.length } rfl rfl
    have hs : sizeOf .request (.ok, { r.ready with dataLength := body.length }, r.head.length + body.length, 0) =
        .message { r.ready with dataLength := body.length } (r.head.length + body.length) := by
      simp only [sizeOf, hv]
    refine ⟨{ r.ready with dataLength := body.length }, ?_, (r.ready_seen h.lines).of rfl rfl rfl rfl rfl rfl rfl, ?_⟩
    · rw [receive_of_run .request base pieces hmax _ hrun (by rw [hs]; exact r.limits h _ _ ⟨rfl, rfl, rfl⟩), hs, List.length_append]
    · unfold receivedBody Http.body
      have ht : Part.top { r.ready with dataLength := body.length } = r.head.length := r.top_eq
      rw [if_neg (by simp [Request.ready, Request.part]), ht, List.length_append, if_neg (by simp), List.drop_left' rfl]
      simp
  · rw [hl] at hparse
    have hnc : isChunked ((find r.lines "transfer-encoding").map Line.head) = false := by
      cases hc : isChunked ((find r.lines "transfer-encoding").map Line.head) with
      | false => rfl
      | true =>
        obtain ⟨l, h1, h2⟩ := (isChunked_eq r.lines h.lines).1 hc
        exact absurd h2 (hte l h1)
    simp only [hnc, Bool.false_eq_true, if_false, r.top_eq] at hparse
    have hrun := run_ok _ _ _ _ _ _ _ _ hparse good_empty
    have hv := validate_request r h r.ready rfl rfl
    have hs : sizeOf .request (.ok, r.ready, r.head.length, 0) = .message r.ready r.head.length := by
      simp only [sizeOf, hv]
    refine ⟨r.ready, ?_, r.ready_seen h.lines, ?_⟩
    · rw [receive_of_run .request base pieces hmax _ hrun (by rw [hs]; exact r.limits h _ _ ⟨rfl, rfl, rfl⟩), hs, List.append_nil]
    · unfold receivedBody Http.body
      rw [if_neg (by simp [Request.ready, Request.part]), r.top_eq, List.append_nil, if_neg (by simp [Request.ready, Request.part])]
      simp [Request.ready, Request.part]

/-- **C88.** The same for responses: a body with the length given in the header, or no body and no length if the code is 204 or 101. -/
theorem http_response (base : Nat) (r : Response) (h : r.Ok) (body more : Bytes)
    (hb : Plain r.lines body ∨ (Bare r.lines ∧ body = [] ∧ (r.code = 204 ∨ r.code = 101)))
    (pieces : List Bytes) (hp : pieces.flatten = r.head ++ body ++ more) (hmax : pieces.flatten.length ≤ lengthMax) :
    ∃ p, receive limits .response base {} 0 [] pieces = .message p (r.head ++ body).length ∧ r.Seen p ∧ responseBody p (r.head ++ body) = .ok body := by
  have hmax' := hmax
  rw [lengthMax_eq] at hmax'
  have hlen : pieces.flatten.length = r.head.length + body.length + more.length := by rw [hp]; simp; omega
  have hfl : pieces.flatten = r.head ++ (body ++ more) := by rw [hp, List.append_assoc]
  have hparse := parse_response (unlimited pieces.flatten) base r h.code h.reason h.lines (body ++ more) (by rw [← hfl]; exact hmax)
  rw [← hfl, afterHeader_response r h.lines] at hparse
  rcases hb with ⟨l, hl, hk⟩ | ⟨⟨hl, hte⟩, rfl, hcode⟩
  · rw [hl] at hparse
    simp only [head_number h.lines hl _ hk, r.top_eq] at hparse
    rw [Nat.mod_eq_of_lt (by omega)] at hparse
    have hrun := run_ok _ _ _ _ _ _ _ _ hparse good_empty
    have hs : sizeOf .response (.ok, { r.ready with dataLength := body.length }, r.head.length + body.length, 0) =
        .message { r.ready with dataLength := body.length } (r.head.length + body.length) := rfl
    refine ⟨{ r.ready with dataLength := body.length }, ?_, (r.ready_seen h.lines).of rfl rfl rfl rfl, ?_⟩
    · rw [receive_of_run .response base pieces hmax _ hrun (by rw [hs]; exact r.limits h _ _ ⟨rfl, rfl, rfl⟩), hs, List.length_append]
    · unfold responseBody
      have ht : Part.top { r.ready with dataLength := body.length } = r.head.length := r.top_eq
      rw [show Part.chunks { r.ready with dataLength := body.length } = [] from rfl]
      simp only
      rw [ht, List.length_append, Nat.mod_eq_of_lt (by omega), if_neg (by simp), List.drop_left' rfl]
      simp
  · rw [hl] at hparse
    have hnc : isChunked ((find r.lines "transfer-encoding").map Line.head) = false := by
      cases hc : isChunked ((find r.lines "transfer-encoding").map Line.head) with
      | false => rfl
      | true =>
        obtain ⟨l, h1, h2⟩ := (isChunked_eq r.lines h.lines).1 hc
        exact absurd h2 (hte l h1)
    simp only [hnc, Bool.false_eq_true, if_false, r.top_eq, if_pos hcode] at hparse
    have hrun := run_ok _ _ _ _ _ _ _ _ hparse good_empty
    have hs : sizeOf .response (.ok, r.ready, r.head.length, 0) = .message r.ready r.head.length := rfl
    refine ⟨r.ready, ?_, r.ready_seen h.lines, ?_⟩
    · rw [receive_of_run .response base pieces hmax _ hrun (by rw [hs]; exact r.limits h _ _ ⟨rfl, rfl, rfl⟩), hs, List.append_nil]
    · unfold responseBody
      rw [show r.ready.chunks = [] from rfl]
      simp only
      rw [r.top_eq, List.append_nil, show r.ready.dataLength = 0 from rfl, if_neg (by simp)]
      simp

/-- **C88** does not hold for a response without a length: it is read until the connection is closed, and then its body is empty, whatever has been
received (the length of the body is never set). -/
theorem http_response_close (base : Nat) (r : Response) (h : r.Ok) (hb : Bare r.lines) (hcode : r.code ≠ 204 ∧ r.code ≠ 101) (body : Bytes)
    (pieces : List Bytes) (hp : pieces.flatten = r.head ++ body) (hmax : pieces.flatten.length ≤ lengthMax) :
    ∃ p, receive limits .response base {} 0 [] pieces = .untilClose p ∧ r.Seen p ∧ responseBody p (r.head ++ body) = .ok [] := by
  have hfl : pieces.flatten = r.head ++ body := hp
  have hparse := parse_response (unlimited pieces.flatten) base r h.code h.reason h.lines body (by rw [← hfl]; exact hmax)
  rw [← hfl, afterHeader_response r h.lines, hb.1] at hparse
  have hnc : isChunked ((find r.lines "transfer-encoding").map Line.head) = false := by
    cases hc : isChunked ((find r.lines "transfer-encoding").map Line.head) with
    | false => rfl
    | true =>
      obtain ⟨l, h1, h2⟩ := (isChunked_eq r.lines h.lines).1 hc
      exact absurd h2 (hb.2 l h1)
  have hA : ¬ (r.code = 204 ∨ r.code = 101) := fun hh => hh.elim hcode.1 hcode.2
  simp only [hnc, Bool.false_eq_true, if_false, if_neg hA] at hparse
  have hpos : r.head.length ≠ 0 := by simp [Response.head, Response.line]
  have hg : Good { r.ready with unknownLength := true } := ⟨fun _ => rfl, fun _ => ⟨rfl, rfl⟩⟩
  have hrun : run (unlimited pieces.flatten) .response base pieces.flatten {} 0 = (.incomplete, { r.ready with unknownLength := true }, 0, r.head.length) := by
    rw [run_eq _ _ _ _ _ _ good_empty (Nat.zero_le _), hparse]
    simp only
    rw [if_pos ⟨hpos, trivial⟩, run_unknown _ _ _ _ _ _ hg (by rw [hfl, List.length_append]; omega) rfl, Nat.zero_add]
  have hs : sizeOf .response (.incomplete, { r.ready with unknownLength := true }, 0, r.head.length) = .untilClose { r.ready with unknownLength := true } := rfl
  refine ⟨{ r.ready with unknownLength := true }, ?_, (r.ready_seen h.lines).of rfl rfl rfl rfl, ?_⟩
  · rw [receive_of_run .response base pieces hmax _ hrun (by rw [hs]; exact r.limits h _ _ ⟨rfl, rfl, rfl⟩), hs]
  · unfold responseBody
    rw [show Part.chunks { r.ready with unknownLength := true } = [] from rfl]
    simp only
    rw [show Part.top { r.ready with unknownLength := true } = r.head.length from r.top_eq, show Part.dataLength { r.ready with unknownLength := true } = 0 from rfl,
      if_neg (by simp)]
    simp

end Verif.Http
