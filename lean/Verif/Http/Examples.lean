import Verif.Http.CrashLemmas
/-!
# Concrete messages: the hypotheses of C87, C88 and C89 are met, and where the code departs from the properties
-/
namespace Verif.Http
open Verif Verif.HttpUtil Verif.HttpUtil.Spec

/-! ## Checking the hypotheses -/

def Item.okB (pairs list : Bool) (i : Item) : Bool :=
  !i.key.isEmpty && i.key.head?.all (fun c => c != 32 && c != 9 && c != 59 && c != 44) && i.word.all (· != 13) &&
  (!pairs || i.key.all fun c => c != 61 && c != 59) && (!list || i.word.all (· != 44)) &&
  i.value.all (fun v => pairs && !v.isEmpty && v.head? != some 0 && v.all (· != 59))

theorem Item.Ok.of {pairs list : Bool} {i : Item} (h : i.okB pairs list = true) : i.Ok pairs list := by
  simp only [Item.okB, Bool.and_eq_true, Bool.or_eq_true, Bool.not_eq_true', List.isEmpty_eq_false_iff, Option.all_eq_true,
    List.all_eq_true, bne_iff_ne, ne_eq] at h
  obtain ⟨⟨⟨⟨⟨h1, h2⟩, h3⟩, h4⟩, h5⟩, h6⟩ := h
  refine ⟨h1, fun c hc => ?_, h3, fun hp => ?_, fun hl => ?_, fun v hv => ?_⟩
  · have := h2 c hc; exact ⟨this.1.1.1, this.1.1.2, this.1.2, this.2⟩
  · rcases h4 with h4 | h4
    · rw [hp] at h4; cases h4
    · exact h4
  · rcases h5 with h5 | h5
    · rw [hl] at h5; cases h5
    · exact h5
  · have := h6 v hv; exact ⟨this.1.1.1, this.1.1.2, this.1.2, this.2⟩

def isNamed (ns : List String) (l : Line) : Bool := decide (lower l.name ∈ ns.map str)

def Line.okB (l : Line) (n : Nat) : Bool :=
  !l.name.isEmpty && l.name.all (fun c => c != 58 && c != 13) && l.name.head?.all (fun c => c != 32 && c != 9 && c != 59 && c != 44) &&
  !isNamed ["link"] l && l.elements.all (fun e => e.items.all fun i => i.okB (!isNamed wholeNames l) (isNamed listNames l)) &&
  (isNamed listNames l || l.more.isEmpty) && (!isNamed wholeNames l || l.elements.all fun e => e.more.isEmpty) &&
  (!isNamed wordNames l || l.elements.all fun e => e.more.isEmpty && e.first.value.isNone) &&
  (!isNamed firstNames l || l.elements.all fun e => e.first.value.isNone && e.first.key.getLast? != some 32) &&
  (!isNamed numberNames l || (decide (n < 2 ^ 64) && l.first.first.key == str (toString n))) &&
  (!isNamed base64Names l || (Base64.decode l.first.first.key).isSome) &&
  (!isNamed decodingNames l || l.elements.all fun e => e.items.all fun i => !decide (lower i.key ∈ decodedNames.map str))

theorem Line.Ok.of {l : Line} (n : Nat) (h : l.okB n = true) : l.Ok := by
  simp only [Line.okB, Bool.and_eq_true, Bool.or_eq_true, Bool.not_eq_true', List.isEmpty_eq_false_iff, Option.all_eq_true,
    List.all_eq_true, bne_iff_ne, ne_eq, isNamed, decide_eq_true_eq, decide_eq_false_iff_not, List.isEmpty_iff, Option.isNone_iff_eq_none, beq_iff_eq] at h
  obtain ⟨⟨⟨⟨⟨⟨⟨⟨⟨⟨⟨h1, h2⟩, h3⟩, h4⟩, h5⟩, h6⟩, h7⟩, h8⟩, h9⟩, h10⟩, h11⟩, h12⟩ := h
  refine ⟨⟨h1, h2, fun c hc => ?_⟩, h4, fun e he i hi => Item.Ok.of (h5 e he i hi), fun hn => h6.resolve_left hn, fun hn => h7.resolve_left (fun k => k hn),
    fun hn => h8.resolve_left (fun k => k hn), fun hn => h9.resolve_left (fun k => k hn), fun hn => ⟨n, h10.resolve_left (fun k => k hn)⟩,
    fun hn => h11.resolve_left (fun k => k hn), fun hn => h12.resolve_left (fun k => k hn)⟩
  have := h3 c hc; exact ⟨this.1.1.1, this.1.1.2, this.1.2, this.2⟩

/-- Builds a line with one word. -/
def one (name : String) (key : String) : Line := ⟨str name, ⟨⟨1, str key, none⟩, []⟩, []⟩

/-- A request with several kinds of header lines: lists, pairs, words. -/
def post : Request := ⟨.post, str "/a?b=c", .v11,
  [one "Host" "example.com:80", one "Content-Length" "5",
   ⟨str "accept", ⟨⟨1, str "text/html", none⟩, []⟩, [⟨⟨1, str "*/*", none⟩, [⟨0, str "q", some (str "0.8")⟩]⟩]⟩,
   ⟨str "Cookie", ⟨⟨1, str "a", some (str "b")⟩, [⟨1, str "c", some (str "d")⟩]⟩, []⟩,
   one "Connection" "close", one "Content-Type" "application/json"]⟩

theorem post_ok : post.Ok := by
  refine ⟨⟨by decide, by decide⟩, ?_, by decide +kernel, by decide +kernel, fun h => by revert h; decide⟩
  intro l hl
  refine Line.Ok.of 5 ?_
  revert l
  decide +kernel

theorem post_head : post.head = str ("POST /a?b=c HTTP/1.1\r\nHost: example.com:80\r\nContent-Length: 5\r\naccept: text/html, */*;q=0.8\r\n" ++
    "Cookie: a=b; c=d\r\nConnection: close\r\nContent-Type: application/json\r\n\r\n") := by decide +kernel

/-- C88 for this request, with whatever comes after it and in any pieces. -/
example (base : Nat) (more : Bytes) (pieces : List Bytes) (hp : pieces.flatten = post.head ++ str "hello" ++ more) (hmax : pieces.flatten.length ≤ lengthMax) :
    ∃ p, receive limits .request base {} 0 [] pieces = .message p (post.head.length + 5) ∧ p.uri = str "/a?b=c" ∧ p.connection = some .close ∧
      p.format = .json ∧ receivedBody p (post.head ++ str "hello") = .ok (str "hello") := by
  obtain ⟨p, h1, h2, h3⟩ := http_request base post post_ok (str "hello") more (.inl ⟨one "Content-Length" "5", by decide +kernel, by decide +kernel⟩) pieces hp hmax
  refine ⟨p, (by rw [h1, List.length_append, show (str "hello").length = 5 by decide +kernel]), h2.uri, ?_, ?_, h3⟩
  · rw [h2.connection]; decide +kernel
  · rw [h2.format]; decide +kernel

/-- A request without a body. -/
def get : Request := ⟨.get, str "/", .v10, [one "host" "a"]⟩

theorem get_ok : get.Ok := by
  refine ⟨⟨by decide, by decide⟩, ?_, by decide +kernel, by decide +kernel, fun h => ⟨fun l hl => ?_, by decide +kernel, by decide +kernel⟩⟩
  · intro l hl
    refine Line.Ok.of 0 ?_
    revert l
    decide +kernel
  · rw [show find get.lines "content-length" = none by decide +kernel] at hl; cases hl

example (base : Nat) (pieces : List Bytes) (hp : pieces.flatten = str "GET / HTTP/1.0\r\nhost: a\r\n\r\nGET /") :
    ∃ p, receive limits .request base {} 0 [] pieces = .message p 27 ∧ get.Seen p ∧ receivedBody p get.head = .ok [] := by
  have hh : pieces.flatten = get.head ++ [] ++ str "GET /" := by rw [hp]; decide +kernel
  obtain ⟨p, h1, h2, h3⟩ := http_request base get get_ok [] (str "GET /") (.inr ⟨⟨by decide +kernel, fun l hl => by
    rw [show find get.lines "transfer-encoding" = none by decide +kernel] at hl; cases hl⟩, rfl⟩) pieces hh (by rw [hp]; decide +kernel)
  refine ⟨p, h1.trans ?_, h2, by rw [List.append_nil] at h3; exact h3⟩
  rw [show (get.head ++ ([] : Bytes)).length = 27 by decide +kernel]

/-- A chunked response. -/
def chunkedResponse : Response := ⟨.v11, 200, str " OK", [one "Transfer-Encoding" "Chunked"]⟩

theorem chunkedResponse_ok : chunkedResponse.Ok := by
  refine ⟨by decide, ⟨by decide, .inr rfl⟩, ?_, by decide +kernel, by decide +kernel⟩
  intro l hl
  refine Line.Ok.of 0 ?_
  revert l
  decide +kernel

def someChunks : List Piece := [⟨str "5", str "hello"⟩, ⟨str "0a", str " chunked\r\n"⟩]

theorem someChunks_ok : ∀ c ∈ someChunks, Digits c.size c.data.length ∧ c.data ≠ [] := by
  have h : ∀ c ∈ someChunks, (∀ x ∈ c.size, (hexDigit? x).isSome) ∧ (c.size ≠ [] ∧ c.size.length ≤ 63) ∧ hexValue c.size = c.data.length ∧ c.data ≠ [] := by
    decide +kernel
  exact fun c hc => ⟨⟨(h c hc).1, (h c hc).2.1, (h c hc).2.2.1⟩, (h c hc).2.2.2⟩

theorem zero_ok : Digits (str "0") 0 := ⟨by decide, by decide, by decide⟩

/-- C89 for this response. -/
example (pieces : List Bytes) (hp : pieces.flatten = str ("HTTP/1.1 200 OK\r\nTransfer-Encoding: Chunked\r\n\r\n" ++ "5\r\nhello\r\n0a\r\n chunked\r\n\r\n0\r\n\r\n")) :
    ∃ p, receive limits .response 4096 {} 0 [] pieces = .message p 78 ∧ chunkedResponse.Seen p ∧
      responseBody p (chunkedResponse.head ++ chunkedText someChunks (str "0")) = .ok (str "hello chunked\r\n") := by
  have hh : pieces.flatten = chunkedResponse.head ++ chunkedText someChunks (str "0") ++ [] := by rw [hp]; decide +kernel
  obtain ⟨p, h1, h2, h3⟩ := http_response_chunked 4096 chunkedResponse chunkedResponse_ok
    ⟨by decide +kernel, one "Transfer-Encoding" "Chunked", by decide +kernel, by decide +kernel⟩ someChunks (str "0") [] someChunks_ok zero_ok pieces hh
    (by rw [hp]; decide +kernel) (by rw [hp]; decide +kernel)
  refine ⟨p, h1.trans ?_, h2, h3.trans (congrArg _ (by decide +kernel))⟩
  rw [show (chunkedResponse.head ++ chunkedText someChunks (str "0")).length = 78 by decide +kernel]

/-- A chunked request: C89 fails. -/
def chunkedRequest : Request := ⟨.post, str "/", .v11, [one "Transfer-Encoding" "chunked"]⟩

theorem chunkedRequest_ok : chunkedRequest.Ok := by
  refine ⟨⟨by decide, by decide⟩, ?_, by decide +kernel, by decide +kernel, fun h => by revert h; decide⟩
  intro l hl
  refine Line.Ok.of 0 ?_
  revert l
  decide +kernel

example : ∃ p, receive limits .request 4096 {} 0 [] [str "POST / HTTP/1.1\r\nTransfer-Encoding: chunked\r\n\r\n5\r\nhello\r\n0a\r\n chunked\r\n\r\n0\r\n\r\n"] =
      .message p (chunkedRequest.head ++ chunkedText someChunks (str "0")).length ∧
    receivedBody p (chunkedRequest.head ++ chunkedText someChunks (str "0")) = .fault :=
  http_request_chunked_overread 4096 chunkedRequest chunkedRequest_ok
    ⟨by decide +kernel, one "Transfer-Encoding" "chunked", by decide +kernel, by decide +kernel⟩ someChunks (str "0") [] someChunks_ok zero_ok _
    (by decide +kernel) (by decide +kernel) (by decide +kernel)

/-- A response which ends when the connection is closed: its body is lost. -/
def closeResponse : Response := ⟨.v10, 200, str " OK", [one "Content-Type" "text/plain"]⟩

theorem closeResponse_ok : closeResponse.Ok := by
  refine ⟨by decide, ⟨by decide, .inr rfl⟩, ?_, by decide +kernel, by decide +kernel⟩
  intro l hl
  refine Line.Ok.of 0 ?_
  revert l
  decide +kernel

example : ∃ p, receive limits .response 0 {} 0 [] [str "HTTP/1.0 200 OK\r\nContent-Type: text/plain\r\n\r\nhello"] = .untilClose p ∧
    closeResponse.Seen p ∧ responseBody p (closeResponse.head ++ str "hello") = .ok [] :=
  http_response_close 0 closeResponse closeResponse_ok ⟨by decide +kernel, fun l hl => by
    rw [show find closeResponse.lines "transfer-encoding" = none by decide +kernel] at hl; cases hl⟩ ⟨by decide, by decide⟩ (str "hello") _
    (by decide +kernel) (by decide +kernel)

/-! ## C87: what the limits do -/

/-- Beyond the limits the way the data arrives matters: the same request is received if it comes at once and refused if the header comes later. -/
theorem http_limit_depends_on_pieces :
    (∃ p, receive ⟨16, 1024⟩ .request 0 {} 0 [] [str "GET /aaaaaaaaaa HTTP/1.1\r\n\r\n"] = .message p 28) ∧
    receive ⟨16, 1024⟩ .request 0 {} 0 [] [str "GET /aaaaaaaaaa HTTP", str "/1.1\r\n\r\n"] = .error := by
  have h : (match receive ⟨16, 1024⟩ .request 0 {} 0 [] [str "GET /aaaaaaaaaa HTTP/1.1\r\n\r\n"] with | .message _ n => n == 28 | _ => false) = true := by
    decide +kernel
  refine ⟨?_, by decide +kernel⟩
  revert h
  cases receive ⟨16, 1024⟩ .request 0 {} 0 [] [str "GET /aaaaaaaaaa HTTP/1.1\r\n\r\n"] <;> simp

/-- C87 has something to say for requests in several pieces. -/
example : receive limits .request 0 {} 0 [] [str "GET / HT", str "TP/1.1\r\nHo", str "st: a\r\n\r", str "\nGET"] =
    receive limits .request 0 {} 0 [] [str "GET / HTTP/1.1\r\nHost: a\r\n\r\nGET"] :=
  http_pieces_agree limits .request 0 _ _ (by decide +kernel) (by decide +kernel) (by
    have h : (match targetSize (unlimited (List.flatten [str "GET / HT", str "TP/1.1\r\nHo", str "st: a\r\n\r", str "\nGET"])) .request 0 {} 0
        (List.flatten [str "GET / HT", str "TP/1.1\r\nHo", str "st: a\r\n\r", str "\nGET"]) with
        | .message p _ => p.started && decide (p.headroom ≤ limits.headroom) && decide (p.headerLength ≤ limits.header) | _ => false) = true := by
      decide +kernel
    revert h
    generalize targetSize _ _ _ _ _ _ = s
    cases s <;> simp [Size.Within]
    intro h1 h2 h3
    exact ⟨fun _ => h2, fun hs => (by rw [h1] at hs; cases hs), h3⟩)

/-! ## Where the code departs from what a user would expect -/

/-- The kind of the outcome and the size. -/
def Size.tag : Size → String × Nat
  | .need _ pos => ("need", pos)
  | .message _ n => ("message", n)
  | .bad n => ("bad", n)
  | .untilClose _ => ("untilClose", 0)
  | .error => ("error", 0)
  | .crash => ("crash", 0)

/-- The outcome for a request which comes at once at a usual address. -/
def tryRequest (s : String) : String × Nat := (receive limits .request 0x600000000000 {} 0 [] [str s]).tag
def tryResponse (s : String) : String × Nat := (receive limits .response 0x600000000000 {} 0 [] [str s]).tag

/-- A link target followed by a space ends the program. -/
theorem http_link_crash : tryRequest "GET / HTTP/1.1\r\nLink: <u> ; rel=x\r\n\r\n" = ("crash", 0) := by decide +kernel

/-- A chunk length near the end of the address space leads to a pointer beyond it. -/
theorem http_chunk_crash : tryRequest "POST / HTTP/1.1\r\nTransfer-Encoding: chunked\r\n\r\nffffffffffffff00\r\nhello" = ("crash", 0) := by decide +kernel

/-- Basic credentials which end with an equal sign, and empty cookies, close the connection. -/
theorem http_equal_refused : tryRequest "GET / HTTP/1.1\r\nAuthorization: Basic dTpwYQ=\r\n\r\n" = ("error", 0) ∧
    tryRequest "GET / HTTP/1.1\r\nCookie: a=\r\n\r\n" = ("error", 0) ∧ tryRequest "GET / HTTP/1.1\r\nX: a; \r\n\r\n" = ("error", 0) := by
  refine ⟨?_, ?_, ?_⟩ <;> decide +kernel

/-- A length takes precedence over chunks, and the first of two lengths counts. -/
theorem http_smuggling : tryRequest "POST / HTTP/1.1\r\nContent-Length: 3\r\nTransfer-Encoding: chunked\r\n\r\n0\r\n\r\n" = ("message", 69) ∧
    tryRequest "POST / HTTP/1.1\r\nContent-Length: 1\r\nContent-Length: 3\r\n\r\nabc" = ("message", 58) := by
  refine ⟨?_, ?_⟩ <;> decide +kernel

/-- A length with a space before the colon is overlooked. -/
theorem http_length_overlooked : tryRequest "POST / HTTP/1.1\r\nContent-Length : 3\r\n\r\nabc" = ("message", 39) := by decide +kernel

/-- A length which does not fit in 64 bits leads to a message which ends before its header does. -/
theorem http_length_wraps : tryRequest "POST / HTTP/1.1\r\nContent-Length: 99999999999999999999\r\n\r\n" = ("message", 56) := by decide +kernel

/-- The line end after the data of a chunk may be missing, and there may be anything in the place of the last line end. -/
theorem http_chunk_ends : tryRequest "POST / HTTP/1.1\r\nTransfer-Encoding: chunked\r\n\r\n1\r\na0\r\nxx" = ("message", 56) := by decide +kernel

/-- A status line which is too short is never refused. -/
theorem http_short_status : tryResponse "HTTP/1.1 20\r\n\r\nHTTP/1.1 204 \r\n\r\n" = ("need", 0) := by decide +kernel

/-- The two kinds of data which C90 speaks of are found in the two messages above which lead to a crash. -/
example : LinkTarget (str "GET / HTTP/1.1\r\nLink: <u> ; rel=x\r\n\r\n") :=
  ⟨str "GET / HTTP/1.1\r\n", str "Link", str " <u> ; rel=x\r\n\r\n", by decide +kernel, by decide +kernel, by decide +kernel⟩

example : HugeLength 0x600000000000 (str "POST / HTTP/1.1\r\nTransfer-Encoding: chunked\r\n\r\nffffffffffffff00\r\nhello") :=
  ⟨str "POST / HTTP/1.1\r\nTransfer-Encoding: chunked\r\n\r\n", str "ffffffffffffff00", str "hello", 0xffffffffffffff00, by decide +kernel, by decide +kernel,
    by decide +kernel⟩

/-- Data without angle brackets and without line ends: there is no crash, whatever it is. -/
example (lim : Limits) (kind : Kind) (base : Nat) (pieces : List Bytes) (hmax : pieces.flatten.length ≤ lengthMax)
    (h : ∀ c ∈ pieces.flatten, c ≠ 60 ∧ c ≠ 10) : receive lim kind base {} 0 [] pieces ≠ .crash := by
  intro hc
  rcases http_crash_partial lim kind base pieces hmax hc with ⟨a, n, v, h1, -, h3⟩ | ⟨a, s, b, v, h1, -, -⟩
  · exact (h 60 (by rw [h1]; simp [h3])).1 rfl
  · exact (h 10 (by rw [h1]; simp)).2 rfl

end Verif.Http
