import Verif.Http.Model
/-!
# Specification of the reception of HTTP/1 messages
-/
namespace Verif.Http
open Verif Verif.HttpUtil

/-- The data comes in pieces. After each of them the target size function is called with all the data there is, and with the part and the position
which it left behind the last time, until it has an answer. -/
def receive (lim : Limits) (kind : Kind) (base : Nat) (p : Part) (pos : Nat) (buf : Bytes) : List Bytes → Size
  | [] => .need p pos
  | x :: xs =>
    match targetSize lim kind base p pos (buf ++ x) with
    | .need p pos => receive lim kind base p pos (buf ++ x) xs
    | s => s

/-- The first line and the header are not longer than the limits (or, if the first line is not complete, all the data). -/
structure WithinLimits (lim : Limits) (data : Bytes) (p : Part) : Prop where
  line : p.started = true → p.headroom ≤ lim.headroom
  noLine : p.started = false → data.length ≤ lim.headroom
  header : p.headerLength ≤ lim.header

/-- The outcome is one which the limits have nothing to do with: the first line and the header are not longer than the limits. Where the outcome does
not tell how long they are, all the data is not longer. -/
def Size.Within (lim : Limits) (data : Bytes) : Size → Prop
  | .need p _ => WithinLimits lim data p
  | .message p _ => WithinLimits lim data p
  | .untilClose p => WithinLimits lim data p
  | .bad n => n ≤ lim.headroom ∧ n ≤ lim.header
  | .error => data.length ≤ lim.headroom ∧ data.length ≤ lim.header
  | .crash => data.length ≤ lim.headroom ∧ data.length ≤ lim.header

/-- Limits which the data does not reach. -/
def unlimited (data : Bytes) : Limits := ⟨data.length, data.length⟩

/-! ## Header lines -/

/-- A word of a header value, `key` or `key=value`, with some spaces in front of it. -/
structure Item where
  space : Nat := 0
  key : Bytes
  value : Option Bytes := none
deriving DecidableEq, Repr

/-- The word. -/
def Item.word (i : Item) : Bytes := i.key ++ match i.value with | none => [] | some v => 61 :: v

/-- The word with its spaces. -/
def Item.text (i : Item) : Bytes := List.replicate i.space 32 ++ i.word

/-- Words with semicolons between them. -/
structure Element where
  first : Item
  more : List Item := []
deriving DecidableEq, Repr

def Element.items (e : Element) : List Item := e.first :: e.more

/-- Each further word with the semicolon before it. -/
def moreText (is : List Item) : Bytes := is.flatMap fun i => 59 :: i.text

def Element.text (e : Element) : Bytes := e.first.text ++ moreText e.more

/-- A header line: a name, and elements with commas between them. -/
structure Line where
  name : Bytes
  first : Element
  more : List Element := []
deriving DecidableEq, Repr

def Line.elements (l : Line) : List Element := l.first :: l.more

/-- Each further element with the comma before it. -/
def elementsText (es : List Element) : Bytes := es.flatMap fun e => 44 :: e.text

def Line.value (l : Line) : Bytes := l.first.text ++ elementsText l.more

def Line.text (l : Line) : Bytes := l.name ++ 58 :: l.value ++ [13, 10]

/-- A word which is read as such. `pairs` says that semicolons and equal signs have a meaning in the field and `list` that commas have. -/
structure Item.Ok (pairs list : Bool) (i : Item) : Prop where
  nonempty : i.key ≠ []
  start : ∀ c, i.key.head? = some c → c ≠ 32 ∧ c ≠ 9 ∧ c ≠ 59 ∧ c ≠ 44
  oneLine : ∀ c ∈ i.word, c ≠ 13
  key : pairs = true → ∀ c ∈ i.key, c ≠ 61 ∧ c ≠ 59
  list : list = true → ∀ c ∈ i.word, c ≠ 44
  value : ∀ v, i.value = some v → pairs = true ∧ v ≠ [] ∧ v.head? ≠ some 0 ∧ ∀ c ∈ v, c ≠ 59

/-- A name in lower case. -/
def lower (s : Bytes) : Bytes := s.map toLower

/-- The name is one of those in the list, ignoring case. -/
def named (ns : List String) (name : Bytes) : Prop := lower name ∈ ns.map str

/-- Fields with a list of elements. All other fields have one element. -/
def listNames : List String :=
  ["accept", "accept-language", "accept-encoding", "cache-control", "connection", "link", "server-timing", "vary", "alt-svc"]

/-- Fields where semicolons and equal signs have no meaning. -/
def wholeNames : List String :=
  ["host", "access-control-request-headers", "upgrade", "content-length", "content-encoding", "date", "location", "transfer-encoding", "user-agent",
   "x-clue", "sec-websocket-key", "sec-websocket-accept", "sec-websocket-version", "http2-settings"]

/-- Fields where each element is a single word. -/
def wordNames : List String :=
  ["host", "accept-encoding", "access-control-request-headers", "connection", "upgrade", "content-length", "content-encoding", "date", "location", "server",
   "transfer-encoding", "vary", "sec-websocket-key", "sec-websocket-accept", "sec-websocket-version", "http2-settings"]

/-- Fields where each element begins with a word and not with a pair. -/
def firstNames : List String := ["content-type", "content-disposition", "server-timing"]

/-- Fields with a number. -/
def numberNames : List String := ["content-length"]

/-- Fields with Base64 data. -/
def base64Names : List String := ["sec-websocket-key", "sec-websocket-accept"]

/-- Fields where some values are decoded, and the names of those values. -/
def decodingNames : List String := ["content-type", "content-disposition", "alt-svc"]
def decodedNames : List String := ["charset", "boundary", "name", "filename", "h2", "h3", "h3-29", "h3-32", "ma", "persist"]

/-- A header line which is read as it is written. Fields with link targets in angle brackets and values which are decoded are left out. -/
structure Line.Ok (l : Line) : Prop where
  name : l.name ≠ [] ∧ (∀ c ∈ l.name, c ≠ 58 ∧ c ≠ 13) ∧ ∀ c, l.name.head? = some c → c ≠ 32 ∧ c ≠ 9 ∧ c ≠ 59 ∧ c ≠ 44
  link : ¬ named ["link"] l.name
  items : ∀ e ∈ l.elements, ∀ i ∈ e.items, i.Ok (!decide (lower l.name ∈ wholeNames.map str)) (decide (lower l.name ∈ listNames.map str))
  list : ¬ named listNames l.name → l.more = []
  whole : named wholeNames l.name → ∀ e ∈ l.elements, e.more = []
  word : named wordNames l.name → ∀ e ∈ l.elements, e.more = [] ∧ e.first.value = none
  first : named firstNames l.name → ∀ e ∈ l.elements, e.first.value = none ∧ e.first.key.getLast? ≠ some 32
  number : named numberNames l.name → ∃ n, n < 2 ^ 64 ∧ l.first.first.key = str (toString n)
  base64 : named base64Names l.name → (Base64.decode l.first.first.key).isSome
  decoded : named decodingNames l.name → ∀ e ∈ l.elements, ∀ i ∈ e.items, ¬ named decodedNames i.key

/-- A value without white space around it. -/
def strip (v : Bytes) : Bytes :=
  ((v.dropWhile fun c => c == 32 || c == 9).reverse.dropWhile fun c => c == 32 || c == 9 || c == 13 || c == 10).reverse

/-- What is stored of a word. -/
def Item.stored (i : Item) : Sub := ⟨i.key, i.value.getD []⟩

/-- What is stored of a line: for each element the name of the field in lower case and the words, and for the first one also the value as it is. -/
def Line.stored (l : Line) : List (Bytes × List Sub × Bytes) :=
  (lower l.name, l.first.items.map Item.stored, strip l.value) :: l.more.map fun e => (lower l.name, e.items.map Item.stored, [])

/-! ## Messages -/

def Version.text : Version → Bytes
  | .v10 => str "HTTP/1.0"
  | .v11 => str "HTTP/1.1"

def Method.text : Method → Bytes
  | .get => str "GET"
  | .options => str "OPTIONS"
  | .post => str "POST"
  | .put => str "PUT"
  | .patch => str "PATCH"
  | .head => str "HEAD"
  | .delete => str "DELETE"

/-- The lines of a header and the empty line after it. -/
def headerText (ls : List Line) : Bytes := ls.flatMap Line.text ++ [13, 10]

/-- The first line with a name. -/
def find (ls : List Line) (name : String) : Option Line := ls.find? fun l => decide (lower l.name = str name)

/-- The first word of a line. -/
def Line.key (l : Line) : Bytes := l.first.first.key

/-- A request. -/
structure Request where
  method : Method
  uri : Bytes
  version : Version
  lines : List Line
deriving DecidableEq, Repr

def Request.line (r : Request) : Bytes := r.method.text ++ 32 :: r.uri ++ 32 :: r.version.text ++ [13, 10]

def Request.head (r : Request) : Bytes := r.line ++ headerText r.lines

/-- The first line and the header of a request are in order. -/
structure Request.Ok (r : Request) : Prop where
  uri : r.uri ≠ [] ∧ ∀ c ∈ r.uri, c ≠ 32 ∧ c ≠ 9 ∧ c ≠ 13
  lines : ∀ l ∈ r.lines, l.Ok
  line : r.line.length ≤ 1024 * 1024
  header : (headerText r.lines).length ≤ 64 * 1024
  safe : r.method = .get ∨ r.method = .options ∨ r.method = .head ∨ r.method = .delete →
    (∀ l, find r.lines "content-length" = some l → l.key = str "0") ∧ find r.lines "transfer-encoding" = none ∧ find r.lines "content-type" = none

/-- The body has the length which the header says. -/
def Plain (ls : List Line) (body : Bytes) : Prop := ∃ l, find ls "content-length" = some l ∧ l.key = str (toString body.length)

/-- The header says nothing about a body. -/
def Bare (ls : List Line) : Prop :=
  find ls "content-length" = none ∧ ∀ l, find ls "transfer-encoding" = some l → lower l.key ≠ str "chunked"

/-- The header says that the body comes in chunks. -/
def Chunked (ls : List Line) : Prop :=
  find ls "content-length" = none ∧ ∃ l, find ls "transfer-encoding" = some l ∧ lower l.key = str "chunked"

/-- What becomes of the connection after the message. -/
def expectedConnection (ls : List Line) (v : Version) : Connection :=
  let otherwise := if v = .v10 then Connection.close else .keepalive
  match find ls "connection" with
  | none => otherwise
  | some l =>
    if lower l.key = str "close" then .close
    else if lower l.key = str "keep-alive" ∨ lower l.key = str "upgrade" then .keepalive
    else otherwise

/-- How the fields of the body are coded. -/
def expectedFormat (ls : List Line) : Format :=
  match find ls "content-type" with
  | none => .raw
  | some l =>
    if lower l.key = str "multipart/form-data" then .multipart
    else if lower l.key = str "application/x-www-form-urlencoded" then .urlencoded
    else if lower l.key = str "application/json" then .json
    else .raw

/-- What can be seen of a header field. -/
def Field.seen (f : Field) : Bytes × List Sub × Bytes := (f.name, f.subs, f.full)

/-- The part has been filled in from the request. -/
structure Request.Seen (r : Request) (p : Part) : Prop where
  method : p.method = some r.method
  methodStr : p.methodStr = r.method.text
  uri : p.uri = r.uri
  version : p.version = some r.version
  headers : p.headers.map Field.seen = r.lines.flatMap Line.stored
  connection : p.connection = some (expectedConnection r.lines r.version)
  format : p.format = expectedFormat r.lines

/-- A response; the reason is what follows the code on the first line. -/
structure Response where
  version : Version
  code : Nat
  reason : Bytes
  lines : List Line
deriving DecidableEq, Repr

def Response.line (r : Response) : Bytes := r.version.text ++ 32 :: str (toString r.code) ++ r.reason ++ [13, 10]

def Response.head (r : Response) : Bytes := r.line ++ headerText r.lines

/-- The first line and the header of a response are in order. -/
structure Response.Ok (r : Response) : Prop where
  code : 100 ≤ r.code ∧ r.code ≤ 999
  reason : (∀ c ∈ r.reason, c ≠ 13) ∧ (r.reason = [] ∨ r.reason.head? = some 32)
  lines : ∀ l ∈ r.lines, l.Ok
  line : r.line.length ≤ 1024 * 1024
  header : (headerText r.lines).length ≤ 64 * 1024

/-- The part has been filled in from the response. -/
structure Response.Seen (r : Response) (p : Part) : Prop where
  code : p.code = r.code
  version : p.version = some r.version
  headers : p.headers.map Field.seen = r.lines.flatMap Line.stored
  connection : p.connection = some (expectedConnection r.lines r.version)

/-! ## Chunks -/

/-- A hexadecimal digit and its value. -/
def hexDigit? (c : UInt8) : Option Nat :=
  if 48 ≤ c ∧ c ≤ 57 then some (c.toNat - 48)
  else if 97 ≤ c ∧ c ≤ 102 then some (c.toNat - 97 + 10)
  else if 65 ≤ c ∧ c ≤ 70 then some (c.toNat - 65 + 10)
  else none

/-- The number which hexadecimal digits denote. -/
def hexValue (l : Bytes) : Nat := l.foldl (fun n c => n * 16 + (hexDigit? c).getD 0) 0

/-- A chunk as it is sent: its length in hexadecimal digits and its data. -/
structure Piece where
  size : Bytes
  data : Bytes
deriving DecidableEq, Repr

def Piece.text (c : Piece) : Bytes := c.size ++ [13, 10] ++ c.data ++ [13, 10]

/-- A length in hexadecimal digits. -/
structure Digits (size : Bytes) (n : Nat) : Prop where
  digits : ∀ c ∈ size, (hexDigit? c).isSome
  length : size ≠ [] ∧ size.length ≤ 63
  value : hexValue size = n

/-- The last chunk, which is empty, has `zero` for its length. -/
def chunkedText (cs : List Piece) (zero : Bytes) : Bytes := cs.flatMap Piece.text ++ (zero ++ [13, 10, 13, 10])

/-! ## Data which is dangerous -/

/-- Somewhere in the data the name of the link field is followed by a colon, and then by a target in angle brackets. -/
def LinkTarget (data : Bytes) : Prop := ∃ a n v, data = a ++ n ++ 58 :: v ∧ lower n = str "link" ∧ 60 ∈ v

/-- Somewhere in the data there is a number, as read by `strtoull`, at the end of a line, which is so large that there are not so many addresses
after those of the data. -/
def HugeLength (base : Nat) (data : Bytes) : Prop :=
  ∃ a s b v, data = a ++ s ++ 13 :: 10 :: b ∧ strtoullRaw 16 s = some (v, s.length) ∧ 2 ^ 64 ≤ base + data.length + v

end Verif.Http
