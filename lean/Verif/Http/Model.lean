import Verif.HttpUtil.Model
import Verif.Base64.Model
/-!
# Model of the HTTP/1 parser

`src/lib/http/http_part_parse.c`, the header field parser in `src/lib/http/http_header_fields.c`, the target size function in
`src/lib/http/http_application_http1.c` and the merging of chunks in `src/lib/http/http_part.c`.

The data from the current position to the end of what has been received is a list of bytes; lengths and positions are numbers. Memory
allocation is assumed to succeed. A definition which models a C function with the `parsed_bytes` argument returns the number of bytes.
Header fields are only parsed in the mode where lines end with CRLF (the other mode is for HTTP/2). Multipart bodies, JSON bodies and the
upgrades to HTTP/2 and WebSocket are not modelled. Positions are natural numbers: the model is for data of less than 2^32 bytes, which is also
the limit in `rrr_http_header_field_parse_name_and_value`.
-/
namespace Verif.Http
open Verif Verif.HttpUtil

/-- A string of ASCII characters. -/
def str (s : String) : Bytes := s.toList.map fun c => UInt8.ofNat c.toNat

/-- Return value of a parse function (`http_common.h:54-57`), or `RRR_BUG`, or undefined behaviour. -/
inductive Ret where
  | ok | incomplete | soft | hard | bug | fault
deriving DecidableEq, Repr

/-- Outcome of a parse function which gives a value if it returns `RRR_HTTP_PARSE_OK`. -/
inductive R (β : Type) where
  | ok (b : β) | incomplete | soft | hard | bug | fault
deriving DecidableEq, Repr

/-- Go on if the outcome is a value. -/
def R.bind {β γ : Type} (r : R β) (f : β → R γ) : R γ :=
  match r with
  | .ok b => f b
  | .incomplete => .incomplete
  | .soft => .soft
  | .hard => .hard
  | .bug => .bug
  | .fault => .fault

/-- Change the value. -/
def R.map {β γ : Type} (f : β → γ) (r : R β) : R γ := r.bind fun b => .ok (f b)

/-- A hard error becomes a soft one. -/
def R.softened {β : Type} (r : R β) : R β := if r matches .hard then .soft else r

/-! ## Header field definitions -/

/-- `http_header_fields.h` `RRR_HTTP_HEADER_FIELD_*` flags. -/
structure Flags where
  multiple : Bool := false
  noPairs : Bool := false
  trim : Bool := false
  angled : Bool := false
deriving DecidableEq, Repr

/-- The parse functions in the definition table. -/
inductive Parser where
  | none | single | unsigned | base64 | first | contentType | contentDisposition | altSvc
deriving DecidableEq, Repr

/-- `struct rrr_http_header_field_definition`. -/
structure Def where
  name : Bytes
  flags : Flags
  parser : Parser
deriving DecidableEq, Repr

/-- `http_header_fields.c:383-422 definitions`. -/
def definitions : List Def := [
  ⟨str ":status", { noPairs := true }, .unsigned⟩,
  ⟨str ":method", { noPairs := true }, .single⟩,
  ⟨str ":path", { noPairs := true }, .single⟩,
  ⟨str ":authority", { noPairs := true }, .single⟩,
  ⟨str "host", { noPairs := true }, .single⟩,
  ⟨str "accept", { multiple := true }, .none⟩,
  ⟨str "accept-language", { multiple := true }, .none⟩,
  ⟨str "accept-encoding", { multiple := true }, .single⟩,
  ⟨str "access-control-request-headers", { noPairs := true }, .single⟩,
  ⟨str "cache-control", { multiple := true }, .none⟩,
  ⟨str "connection", { multiple := true }, .single⟩,
  ⟨str "upgrade", { noPairs := true }, .single⟩,
  ⟨str "content-disposition", {}, .contentDisposition⟩,
  ⟨str "content-length", { noPairs := true, trim := true }, .unsigned⟩,
  ⟨str "content-type", { trim := true }, .contentType⟩,
  ⟨str "content-encoding", { noPairs := true }, .single⟩,
  ⟨str "date", { noPairs := true }, .single⟩,
  ⟨str "link", { multiple := true, angled := true }, .none⟩,
  ⟨str "location", { noPairs := true }, .single⟩,
  ⟨str "server", {}, .single⟩,
  ⟨str "server-timing", { multiple := true }, .first⟩,
  ⟨str "transfer-encoding", { noPairs := true }, .single⟩,
  ⟨str "user-agent", { noPairs := true }, .none⟩,
  ⟨str "vary", { multiple := true }, .single⟩,
  ⟨str "x-clue", { noPairs := true }, .none⟩,
  ⟨str "sec-websocket-key", { noPairs := true }, .base64⟩,
  ⟨str "sec-websocket-accept", { noPairs := true }, .base64⟩,
  ⟨str "sec-websocket-version", { noPairs := true }, .single⟩,
  ⟨str "http2-settings", { noPairs := true }, .single⟩,
  ⟨str "alt-svc", { multiple := true }, .altSvc⟩]

/-- `http_header_fields.c:435-449`: a name matches a definition. `strcasestr` of a non-empty needle does not fault
(`HttpUtil.strcasestr_good`), hence no such outcome here. -/
def nameMatches (name : Bytes) (d : Def) : Bool :=
  match strcasestr name d.name with
  | .ok (p, _) => p == 0 && name.length == d.name.length
  | _ => false

/-- `http_header_fields.c:424-453 __rrr_http_header_field_definition_get`. -/
def definitionGet (name : Bytes) : Option Def := definitions.find? (nameMatches name)

/-- `nullsafe_str.c:631-655 rrr_nullsafe_str_cmpto_case`, whether equal. A string which is not set is not equal to anything; the model has
the empty string for it and no comparison with an empty string is done. -/
def eqCase (a b : Bytes) : Bool := a.map toLower == b.map toLower

/-! ## Values of a header field -/

/-- `struct rrr_http_field` as used in header fields; a value which is not set is empty. -/
structure Sub where
  name : Bytes
  value : Bytes := []
deriving DecidableEq, Repr

/-- `struct rrr_http_header_field`. Strings which are not set are empty. -/
structure Field where
  name : Bytes
  definition : Option Def
  subs : List Sub
  value : Bytes := []
  unsigned : Nat := 0
  binary : Bytes := []
  full : Bytes := []
deriving DecidableEq, Repr

/-- `nullsafe_str.c:995-1014 rrr_nullsafe_str_trim`: spaces at the end are removed. -/
def trimEnd (s : Bytes) : Bytes := (s.reverse.dropWhile (· == 32)).reverse

/-- `nullsafe_str.c:1016-1039 rrr_nullsafe_str_trim_set` with the set `"\r\n\t "`. -/
def trimSet (s : Bytes) : Bytes := (s.reverse.dropWhile (fun c => c == 13 || c == 10 || c == 9 || c == 32)).reverse

/-- The trimming flag applied to the name of the first value. -/
def trimIf (fl : Flags) (s : Bytes) : Bytes := if fl.trim then trimEnd s else s

/-- `http_header_fields.c:49-76 __rrr_http_header_parse_single_value_verify`: the only value, after trimming. The `RRR_BUG` in L50 is for
an empty field name, which has no definition. -/
def singleVerify (fl : Flags) (f : Field) : Option Bytes :=
  match f.subs with
  | [s] => if s.value ≠ [] then none else some (trimIf fl s.name)
  | _ => none

/-- `http_header_fields.c:115-138 __rrr_http_header_parse_single_string_value`; the check in L40 is for an empty string. -/
def parseSingle (fl : Flags) (f : Field) : Option Field :=
  match singleVerify fl f with
  | none => none
  | some n => if n = [] then none else some { f with subs := [⟨n, []⟩], value := n }

/-- Decimal digits, as `%llu` prints them. -/
def decimal (n : Nat) : Bytes := (Nat.toDigits 10 n).map fun c => UInt8.ofNat c.toNat

/-- `http_header_fields.c:78-113 __rrr_http_header_parse_single_unsigned_value`: the digits at the beginning are the value, and the length
of the value when printed must be the length of the string. -/
def parseUnsigned (fl : Flags) (f : Field) : Option Field :=
  match singleVerify fl f with
  | none => none
  | some n =>
    match strtoullRaw 10 n with
    | none => none
    | some (v, _) => if (decimal v).length ≠ n.length then none else some { f with subs := [⟨n, []⟩], unsigned := v }

/-- `http_header_fields.c:155-201 __rrr_http_header_parse_base64_value`. -/
def parseBase64 (fl : Flags) (f : Field) : Option Field :=
  match parseSingle fl f with
  | none => none
  | some f =>
    match Base64.decode f.value with
    | none => none
    | some b => some { f with binary := b }

/-- `http_header_fields.c:203-237 __rrr_http_header_parse_first_string_value`. -/
def parseFirst (fl : Flags) (f : Field) : Option Field :=
  match f.subs with
  | [] => none
  | s :: r =>
    if s.value ≠ [] then none
    else
      let n := trimIf fl s.name
      if n = [] then none else some { f with subs := ⟨n, s.value⟩ :: r, value := n }

/-- `http_header_fields.c:252-278 __rrr_http_header_parse_unquote_fields` with the check of the length in its callers: the new value, or
nothing if it is empty or cannot be decoded. -/
def unquoteSub (s : Sub) : Option Sub :=
  if s.value = [] then none
  else match urlDecode (unquote s.value) with
    | .ok v => if v = [] then none else some { s with value := v }
    | _ => none

/-- The loops in L289-305, L359-377: the values with one of the names are unquoted. -/
def unquoteSubs (names : List Bytes) : List Sub → Option (List Sub)
  | [] => some []
  | s :: r =>
    if names.any (eqCase s.name) then
      match unquoteSub s, unquoteSubs names r with
      | some s, some r => some (s :: r)
      | _, _ => none
    else (unquoteSubs names r).map (s :: ·)

/-- `http_header_fields.c:280-309 __rrr_http_header_parse_content_type_value`. -/
def parseContentType (fl : Flags) (f : Field) : Option Field :=
  match parseFirst fl f with
  | none => none
  | some f => (unquoteSubs [str "charset", str "boundary"] f.subs).map fun s => { f with subs := s }

/-- `http_header_fields.c:311-352 __rrr_http_header_parse_content_disposition_value`. -/
def parseContentDisposition (fl : Flags) (f : Field) : Option Field :=
  match parseFirst fl f with
  | none => none
  | some f =>
    match f.subs with
    | [] => some f
    | s :: r =>
      if [str "form-data", str "attachment", str "inline"].any (eqCase s.name) then
        (unquoteSubs [str "name", str "filename"] r).map fun r => { f with subs := s :: r }
      else some f                                                     -- L328 break

/-- `http_header_fields.c:354-381 __rrr_http_header_parse_alt_svc_value`. -/
def parseAltSvc (f : Field) : Option Field :=
  (unquoteSubs [str "h2", str "h3", str "h3-29", str "h3-32", str "ma", str "persist"] f.subs).map fun s => { f with subs := s }

/-- `http_header_fields.c:1108`: the parse function of the definition, if any. -/
def applyDef (f : Field) : Option Field :=
  match f.definition with
  | none => some f
  | some d =>
    match d.parser with
    | .none => some f
    | .single => parseSingle d.flags f
    | .unsigned => parseUnsigned d.flags f
    | .base64 => parseBase64 d.flags f
    | .first => parseFirst d.flags f
    | .contentType => parseContentType d.flags f
    | .contentDisposition => parseContentDisposition d.flags f
    | .altSvc => parseAltSvc f

/-! ## Parsing of header fields -/

/-- `http_header_fields.c:747-766 __rrr_http_header_field_parse_get_first_position`. -/
def firstPos (a b c : Option Nat) (lineEnd : Nat) : Nat :=
  let first := a.getD lineEnd
  let first := match b with | some b => if b < first then b else first | none => first
  match c with | some c => if c < first then c else first | none => first

/-- `http_fields.c:125-142 rrr_http_field_value_set`. -/
def valueSet (v : Bytes) : Bytes := if v.head? = some 0 then [] else v

/-- `http_header_fields.c:880-936`, the end of `__rrr_http_header_field_parse_subvalue`: the name ends at `nameEnd` and the separators are
known. The value and the number of bytes, which includes the CRLF if the name ends the line. -/
def subFrom (line : Bytes) (nameEnd : Nat) (comma semicolon : Option Nat) : R (Sub × Nat) :=
  if nameEnd = 0 then .soft                                                                   -- L881
  else if nameEnd = line.length then .ok (⟨line.take nameEnd, []⟩, nameEnd + 2)               -- L899
  else if some nameEnd = comma ∨ some nameEnd = semicolon then .ok (⟨line.take nameEnd, []⟩, nameEnd)   -- L903
  else
    let start := nameEnd + 1 + countWhsp (line.drop nameEnd)                                  -- L908
    if start ≥ line.length then .soft                                                         -- L911
    else
      let valueEnd := firstPos comma semicolon none line.length
      if valueEnd < start then .bug                                                           -- L920 rrr_length_from_ptr_sub_bug_const
      else .ok (⟨line.take nameEnd, valueSet ((line.drop start).take (valueEnd - start))⟩, valueEnd)

/-- L856-865: the end of a name in angle brackets, if the definition has them. -/
def quoteEnd (fl : Flags) (line : Bytes) : Option Nat :=
  if fl.angled && line.head? == some 60 then (strchr line 62).map (· + 1) else none

/-- `rrr_http_util_strchr` from a position, if it is done. -/
def sepAt (on : Bool) (line : Bytes) (sep : Nat) (c : UInt8) : Option Nat :=
  if on then (strchr (line.drop sep) c).map (· + sep) else none

/-- `http_header_fields.c:856-936`, the part of `__rrr_http_header_field_parse_subvalue` after spaces have been skipped and the line is
known not to be at its end: `line` is what remains of the line, without CRLF. -/
def subLine (fl : Flags) (line : Bytes) : R (Sub × Nat) :=
  let quote := quoteEnd fl line
  let sep := quote.getD 0
  let equal := sepAt (!fl.noPairs) line sep 61                                                -- L867
  let semicolon := sepAt (!fl.noPairs) line sep 59
  let comma := sepAt fl.multiple line sep 44                                                  -- L872
  subFrom line (quote.getD (firstPos comma semicolon equal line.length)) comma semicolon

/-- `http_header_fields.c:840-854` and the rest of `__rrr_http_header_field_parse_subvalue`, from position `s`. -/
def subAt (fl : Flags) (l : Bytes) (s : Nat) : R (Option Sub × Nat) :=
  match findCrlf (l.drop s) with
  | none => .incomplete                                                                       -- L840
  | some e =>
    let line := (l.drop s).take e
    let k := (line.takeWhile (· == 32)).length                                                -- L847
    if k = e then .ok (none, 0)                                                               -- L851
    else (subLine fl (line.drop k)).map fun (v, n) => (some v, s + k + n)

/-- L822: the separators before a value. -/
def seps (l : Bytes) : Nat := (l.takeWhile fun c => c == 59 || c == 44).length

/-- `http_header_fields.c:803-947 __rrr_http_header_field_parse_subvalue`: the value if there is one, and the number of bytes. -/
def subvalue (fl : Flags) (noWs : Bool) (l : Bytes) : R (Option Sub × Nat) :=
  if noWs then subAt fl l (seps l)
  else if countWhsp (l.drop (seps l)) = 0 then .ok (none, seps l)                             -- L829
  else subAt fl l (seps l + countWhsp (l.drop (seps l)))

/-- `http_header_fields.c:984-1015`, what comes after a value: nothing if data is missing, otherwise how many bytes to skip and whether there
is a comma, or whether the next value has no space in front. -/
inductive Next where
  | missing | comma (skip : Nat) | more (noWs : Bool)
deriving DecidableEq, Repr

/-- L984-1015. -/
def nextOf : Bytes → Next
  | [] => .missing                                                                            -- L988
  | c :: r =>
    if c = 59 then                                                                            -- L993
      match r with
      | [] => .missing                                                                        -- L995
      | d :: _ => if d = 44 then .comma 1 else .more (!(d == 32 || d == 9 || d == 13))        -- L999-1008
    else if c = 44 then .comma 0                                                              -- L1011
    else .more false

/-- `http_header_fields.c:949-1021 __rrr_http_header_field_parse_subvalues`: values, number of bytes, and whether a comma follows. The fuel
is for the loop, each turn which goes on has taken at least one byte. -/
def subvalues (fl : Flags) : Nat → Bool → List Sub → Bytes → R (List Sub × Nat × Bool)
  | 0, _, _, _ => .fault
  | fuel + 1, noWs, acc, l =>
    (subvalue fl noWs l).bind fun (v, n) =>
      match nextOf (l.drop n) with
      | .missing => .incomplete
      | .comma k => .ok (acc ++ v.toList, n + k, true)
      | .more noWs =>
        if v.isNone then .ok (acc, n, false)                                                  -- L1015
        else (subvalues fl fuel noWs (acc ++ v.toList) (l.drop n)).map fun (a, k, m) => (a, n + k, m)

/-- `http_header_fields.c:1299-1333 __rrr_http_header_field_parse_name_and_value_whitespace_check_callback`: number of bytes and the new
value of the flag. -/
def whitespaceCheck (missing : Bool) (l : Bytes) : R (Nat × Bool) :=
  match findCrlf l with
  | none => .incomplete
  | some p =>
    let w := countWhsp (l.take p)
    let r : Nat × Bool := if w = p then (p + 2, missing) else if w = 0 then (0, true) else (0, missing)
    match findCrlf (l.drop r.1) with
    | none => .incomplete
    | some _ => .ok r

/-- The flags of the definition of a field (L979). -/
def flagsOf (d : Option Def) : Flags := match d with | some d => d.flags | none => {}

/-- `http_header_fields.c:1245-1297 …_name_and_value_field_create_callback` for a field after a comma: the number of bytes. -/
def createNext (l : Bytes) : R Nat :=
  match findCrlf l with
  | none => .incomplete
  | some 0 => .soft
  | some _ => .ok (if l.head? = some 44 then 1 else 0)

/-- `http_header_fields.c:1061-1118`, the loop of `__rrr_http_header_field_parse` from L1070, for the field with the given name and
definition. `l` is what follows after the field has been created. The fields and the number of bytes. -/
def fieldLoop (name : Bytes) (d : Option Def) : Nat → Bool → Nat → List Field → Bytes → R (List Field × Nat)
  | 0, _, _, _, _ => .fault
  | fuel + 1, missing, empties, acc, l =>
    if l = [] then .soft                                                                      -- L1070
    else (whitespaceCheck missing l).bind fun (w, missing) =>
      (subvalues (flagsOf d) (l.length + 1) missing [] (l.drop w)).softened.bind fun (subs, n, more) =>     -- L1093
        let empties := if n = 0 then empties + 1 else empties
        if n = 0 ∧ empties = 4 then .soft                                                     -- L1099
        else match applyDef { name := name, definition := d, subs := subs } with
          | none => .soft                                                                     -- L1108
          | some f =>
            if more then
              (createNext (l.drop (w + n))).bind fun k =>
                (fieldLoop name d fuel missing empties (acc ++ [f]) (l.drop (w + n + k))).map fun (fs, m) => (fs, w + n + k + m)
            else .ok (acc ++ [f], w + n)

/-- L1119-1134: the full value of a field is set for the first one. -/
def setFull (v : Bytes) : List Field → List Field
  | [] => []
  | f :: r => { f with full := trimSet (v.drop (countWhsp v)) } :: r

/-- `http_header_fields.c:1335-1360 rrr_http_header_field_parse_name_and_value` with `http_header_fields.c:1040-1147
__rrr_http_header_field_parse` and the creation of the first field (L1245-1276). -/
def fieldParse (l : Bytes) : R (List Field × Nat) :=
  if l.length > lengthMax then .soft                                                          -- L1341
  else match findCrlf l with
    | none => .incomplete
    | some 0 => .soft
    | some p =>
      match strchr (l.take p) 58 with
      | none => .soft
      | some colon =>
        let name := l.take colon
        (fieldLoop (name.map toLower) (definitionGet name) (l.length + 1) false 0 [] (l.drop (colon + 1))).map fun (fs, n) =>
          (setFull ((l.drop (colon + 1)).take n) fs, colon + 1 + n)

/-- `http_part_parse.c:317-362 __rrr_http_part_header_fields_parse`: return value, the fields and the number of bytes. Fields which are
complete are kept if data is missing. -/
def headerFields : Nat → List Field → Nat → Bytes → Ret × List Field × Nat
  | 0, acc, pos, _ => (.fault, acc, pos)
  | fuel + 1, acc, pos, l =>
    match findCrlf l with
    | none => (.incomplete, acc, pos)
    | some 0 => (.ok, acc, pos + 2)
    | some p =>
      match fieldParse l with
      | .ok (fs, n) =>
        let n := if n = p then n + 2 else n                                                   -- L352
        headerFields fuel (acc ++ fs) (pos + n) (l.drop n)
      | .incomplete => (.incomplete, acc, pos)
      | .soft => (.soft, acc, pos)
      | .hard => (.hard, acc, pos)
      | .bug => (.bug, acc, pos)
      | .fault => (.fault, acc, pos)

/-! ## Parts -/

/-- `http_common.h` `enum rrr_http_version`. -/
inductive Version where
  | v10 | v11
deriving DecidableEq, Repr

/-- `http_common.h` `enum rrr_http_method`. -/
inductive Method where
  | get | options | post | put | patch | head | delete
deriving DecidableEq, Repr

/-- `http_common.h` `enum rrr_http_body_format`. -/
inductive Format where
  | raw | multipart | urlencoded | json
deriving DecidableEq, Repr

/-- `http_common.h` `enum rrr_http_connection`. -/
inductive Connection where
  | close | keepalive
deriving DecidableEq, Repr

/-- `struct rrr_http_chunk` (`http_part.h`). -/
structure Chunk where
  start : Nat
  length : Nat
deriving DecidableEq, Repr

/-- `struct rrr_http_part` (`http_part.h`). `started` is `parsed_application_type` not being zero. -/
structure Part where
  headers : List Field := []
  chunks : List Chunk := []
  code : Nat := 0
  methodStr : Bytes := []
  uri : Bytes := []
  method : Option Method := none
  format : Format := .raw
  complete : Bool := false
  chunked : Bool := false
  started : Bool := false
  version : Option Version := none
  connection : Option Connection := none
  headroom : Nat := 0
  headerLength : Nat := 0
  dataLength : Nat := 0
  unknownLength : Bool := false
deriving DecidableEq, Repr

/-- `RRR_HTTP_PART_TOP_LENGTH` (`http_part.h`). -/
def Part.top (p : Part) : Nat := p.headroom + p.headerLength

/-- The version at the beginning of a string: L65-75, L190-201 of `http_part_parse.c`. -/
def versionAt (l : Bytes) : Option (Version × Nat) :=
  match strcasestr l (str "HTTP/1.1") with
  | .ok (0, n) => some (.v11, n)
  | _ =>
    match strcasestr l (str "HTTP/1.0") with
    | .ok (0, n) => some (.v10, n)
    | _ => none

/-- `http_part_parse.c:32-107 __rrr_http_part_parse_response_code`: version, code and number of bytes. -/
def responseLine (l : Bytes) : R (Version × Nat × Nat) :=
  match findCrlf l with
  | none => .incomplete
  | some 0 => .soft
  | some p =>
    if p < 12 then .incomplete                                                                -- L57
    else match versionAt (l.take p) with
      | none => .soft
      | some (v, n) =>
        let s := n + countWhsp (l.drop n)                                                     -- L79
        match strtoullRaw 10 ((l.take p).drop s) with
        | none => .soft
        | some (code, k) =>
          if code > 999 then .soft
          else if s + k + countWhsp (l.drop (s + k)) > p then .bug                            -- L97
          else .ok (v, code, p + 2)

/-- `http_part_parse.c:109-215 __rrr_http_part_parse_request`: method, URI, version and number of bytes. -/
def requestLine (l : Bytes) : R (Bytes × Bytes × Version × Nat) :=
  match findCrlf l with
  | none => .incomplete
  | some 0 => .soft
  | some p =>
    match findWhsp l with                                                                     -- L136: up to the end of the data
    | none => .soft
    | some m =>
      if m > 10 ∨ m = 0 then .soft                                                            -- L145
      else
        let s := m + countWhsp (l.drop m)
        match findWhsp (l.drop s) with
        | none => .soft                                                                       -- L163
        | some u =>
          let t := s + u + countWhsp (l.drop (s + u))
          if p < t then .soft                                                                 -- L190: strcasestr with a negative length
          else match versionAt ((l.take p).drop t) with
            | none => .soft
            | some (v, n) =>
              if t + n ≠ p then .soft                                                         -- L203
              else .ok (l.take m, (l.drop s).take u, v, p + 2)

/-- `http_part_parse.c:219-315 __rrr_http_part_parse_chunk_header`, at position `pos` of the data: the chunk and the number of bytes. -/
def chunkHeader (buf : Bytes) (pos : Nat) : R (Chunk × Nat) :=
  if pos ≥ buf.length then .incomplete
  else
    let l := buf.drop pos
    let k := if findCrlf l = some 0 then 2 else 0                                             -- L258
    match findCrlf (l.drop k) with
    | none => .incomplete
    | some e =>
      match strtoullRaw 16 ((l.drop k).take e) with
      | none => .soft
      | some (v, n) =>
        if k + n = l.length then .incomplete                                                  -- L278
        else if e ≠ n then .soft
        else if k + n + 2 + 1 ≥ l.length then .incomplete                                     -- L292
        else .ok (⟨pos + k + n + 2, v⟩, k + n + 2)

/-- `http_part_parse.c:364-430 __rrr_http_part_parse_chunk`: return value, chunks, number of bytes. `base` is the address of the data.
Pointer arithmetic which goes past the end of the address space (L381) is undefined behaviour. -/
def parseChunk (base : Nat) (chunks : List Chunk) (buf : Bytes) (pos : Nat) : Ret × List Chunk × Nat :=
  let go (prev : Nat) : Ret × List Chunk × Nat :=
    match chunkHeader buf (pos + prev) with
    | .ok (c, n) => (if c.length = 0 then .ok else .incomplete, chunks ++ [c], n + prev)
    | .incomplete => (.incomplete, chunks, 0)
    | .bug => (.bug, chunks, 0)
    | .fault => (.fault, chunks, 0)
    | _ => (.hard, chunks, 0)                                                                 -- L425
  match chunks.getLast? with
  | none => go 0
  | some c =>
    if base + c.start + c.length ≥ 2 ^ 64 then (.fault, chunks, 0)
    else if c.start + c.length > buf.length then (.incomplete, chunks, 0)                     -- L381
    else go c.length

/-- `http_part_parse.c:444-466`: the method. -/
def methodOf (s : Bytes) : Option Method :=
  if s = str "GET" then some .get
  else if s = str "OPTIONS" then some .options
  else if s = str "POST" then some .post
  else if s = str "PUT" then some .put
  else if s = str "PATCH" then some .patch
  else if s = str "HEAD" then some .head
  else if s = str "DELETE" then some .delete
  else none

/-- `http_header_fields.c:472-487 rrr_http_header_field_collection_get`; `none` is the `RRR_BUG` for a field which has no parse function. -/
def headerGet (hs : List Field) (name : Bytes) : Option (Option Field) :=
  match hs.find? fun f => eqCase f.name name with
  | none => some none
  | some f =>
    match f.definition with
    | none => none
    | some d => if d.parser = .none then none else some (some f)

/-- `http_part_parse.c:473-487`: body format. -/
def formatOf (contentType : Option Field) : Format :=
  match contentType with
  | none => .raw
  | some f =>
    if eqCase f.value (str "multipart/form-data") then .multipart
    else if eqCase f.value (str "application/x-www-form-urlencoded") then .urlencoded
    else if eqCase f.value (str "application/json") then .json
    else .raw

/-- `http_part_parse.c:666-701`: what becomes of the connection. -/
def connectionOf (connection : Option Field) (v : Option Version) : Connection :=
  let c := match connection with
    | none => none
    | some f =>
      if eqCase f.value (str "close") then some Connection.close
      else if eqCase f.value (str "keep-alive") then some .keepalive
      else if eqCase f.value (str "upgrade") then some .keepalive
      else none
  match c with
  | some c => c
  | none => if v = some .v10 then .close else .keepalive

/-- Request or response (`enum rrr_http_parse_type`; multipart is not modelled). -/
inductive Kind where
  | request | response
deriving DecidableEq, Repr

/-- Result of `rrr_http_part_parse`: return value, part, target size and number of bytes. -/
structure Res where
  ret : Ret
  part : Part
  target : Nat := 0
  parsed : Nat := 0
deriving DecidableEq, Repr

/-- `http_part_parse.c:491-537 __rrr_http_part_parse_chunked` and L739-752; `n` bytes have been parsed already. -/
def parseChunked (base : Nat) (p : Part) (buf : Bytes) (pos n : Nat) : Res :=
  let p := { p with chunked := true }
  match parseChunk base p.chunks buf (pos + n) with
  | (.ok, chunks, k) =>
    match chunks.getLast? with
    | none => { ret := .bug, part := p }
    | some c =>
      if c.length ≠ 0 then { ret := .bug, part := p }                                         -- L523
      else { ret := .ok, part := { p with chunks := chunks, dataLength := (c.start + 2 + 2 ^ 64 - p.headerLength - p.headroom) % 2 ^ 64 },
             target := c.start + 2, parsed := n + k }
  | (r, chunks, k) => { ret := r, part := { p with chunks := chunks }, parsed := n + k }

/-- `http_part_parse.c:717`: whether the transfer encoding is chunked. -/
def isChunked (transferEncoding : Option Field) : Bool :=
  match transferEncoding with
  | some f => eqCase f.value (str "chunked")
  | none => false

/-- `http_part_parse.c:645-737`, after the header is complete; `n` is `parsed_bytes_total`. -/
def afterHeader (kind : Kind) (base : Nat) (p : Part) (buf : Bytes) (pos n : Nat) : Res :=
  match headerGet p.headers (str "content-type"), headerGet p.headers (str "connection"), headerGet p.headers (str "content-length"),
        headerGet p.headers (str "transfer-encoding") with
  | some contentType, some connection, some contentLength, some transferEncoding =>
    match (match kind with
      | .response => some p
      | .request => (methodOf p.methodStr).map fun m => { p with method := some m, format := formatOf contentType }) with
    | none => { ret := .soft, part := p, parsed := n }                                        -- L660
    | some p =>
      let p := { p with connection := some (connectionOf connection p.version) }
      match contentLength with
      | some f => { ret := .ok, part := { p with dataLength := f.unsigned }, target := (p.top + f.unsigned) % 2 ^ 64, parsed := n }   -- L705
      | none =>
        if isChunked transferEncoding then
          parseChunked base p buf pos n                                                       -- L718
        else if kind = .request ∨ p.code = 204 ∨ p.code = 101 then
          { ret := .ok, part := { p with dataLength := 0 }, target := p.top, parsed := n }    -- L733
        else { ret := .incomplete, part := { p with unknownLength := true }, parsed := n }    -- L728
  | _, _, _, _ => { ret := .bug, part := p }

/-- The limits on the lengths of the first line and of the header. -/
structure Limits where
  headroom : Nat
  header : Nat
deriving DecidableEq, Repr

/-- `http_common.h:31-32`. -/
def limits : Limits := ⟨1024 * 1024, 64 * 1024⟩

/-- `http_part_parse.c:609-643`: the header fields; `n` bytes have been parsed already. -/
def parseHeader (lim : Limits) (kind : Kind) (base : Nat) (p : Part) (buf : Bytes) (pos n : Nat) : Res :=
  if p.complete then { ret := .incomplete, part := p, parsed := n }                           -- L609
  else if pos + n - p.headroom > lim.header then { ret := .soft, part := p, parsed := n }    -- L613
  else match headerFields (buf.length + 1) p.headers 0 (buf.drop (pos + n)) with
    | (r, hs, k) =>
      let p := { p with headers := hs, headerLength := p.headerLength + k }
      if r = .ok then afterHeader kind base { p with complete := true } buf pos (n + k)
      else { ret := r, part := p, parsed := n + k }

/-- The result of parsing the first line, in the same form for a request and a response. -/
def parseFirstLine (kind : Kind) (p : Part) (l : Bytes) : R (Part × Nat) :=
  match kind with
  | .request =>
    (requestLine l).map fun (m, u, v, n) => ({ p with methodStr := m, uri := u, version := some v, started := true }, n)
  | .response =>
    (responseLine l).map fun (v, c, n) => ({ p with code := c, version := some v, started := true }, n)

/-- `http_part_parse.c:539-757 rrr_http_part_parse`. -/
def parse (lim : Limits) (kind : Kind) (base : Nat) (p : Part) (buf : Bytes) (pos : Nat) : Res :=
  if p.chunked then parseChunked base p buf pos 0                                             -- L559
  else if !p.started then
    match parseFirstLine kind p (buf.drop pos) with
    | .ok (p, n) => parseHeader lim kind base { p with headroom := n } buf pos n
    | .incomplete => { ret := if buf.length > lim.headroom then .soft else .incomplete, part := p }    -- L589
    | .soft => { ret := .soft, part := p }
    | .hard => { ret := .hard, part := p }
    | .bug => { ret := .bug, part := p }
    | .fault => { ret := .fault, part := p }
  else parseHeader lim kind base p buf pos 0

/-! ## Target size -/

/-- `http_application_http1.c:1163-1175`, the loop: the last result and the parse position. The fuel is for the loop: each turn which goes on has
taken at least one byte. -/
def parseLoop (lim : Limits) (kind : Kind) (base : Nat) : Nat → Part → Bytes → Nat → Res × Nat
  | 0, p, _, pos => ({ ret := .fault, part := p }, pos)
  | fuel + 1, p, buf, pos =>
    let r := parse lim kind base p buf pos
    if r.parsed ≠ 0 ∧ r.ret = .incomplete then parseLoop lim kind base fuel r.part buf (pos + r.parsed)
    else (r, pos + r.parsed)

/-- `http_application_http1.c:1022-1061 …_receive_get_target_size_validate_request`: whether the request is accepted, `none` for `RRR_BUG`. -/
def validate (p : Part) : Option Bool :=
  match headerGet p.headers (str "content-type"), headerGet p.headers (str "content-length"), headerGet p.headers (str "transfer-encoding"), p.method with
  | some contentType, some contentLength, some transferEncoding, some m =>
    if m = .get ∨ m = .options ∨ m = .head ∨ m = .delete then
      some (!((match contentLength with | some f => f.unsigned ≠ 0 | none => false) || transferEncoding.isSome || contentType.isSome))
    else some true
  | _, _, _, _ => none

/-- Outcome of the target size function: more data is needed (with the part so far and the parse position), a complete message of some size, a
request which will be answered with 400, reading until the connection is closed, an error which closes the connection, or an abort or undefined
behaviour. -/
inductive Size where
  | need (p : Part) (pos : Nat)
  | message (p : Part) (size : Nat)
  | bad (size : Nat)
  | untilClose (p : Part)
  | error
  | crash
deriving DecidableEq, Repr

/-- `http_application_http1.c:1063-1227 …_receive_get_target_size`. For a request the part is new when the position is zero
(L1098). -/
def targetSize (lim : Limits) (kind : Kind) (base : Nat) (p : Part) (pos : Nat) (buf : Bytes) : Size :=
  let p := if kind = .request ∧ pos = 0 then {} else p
  match parseLoop lim kind base (buf.length + 2) p buf pos with
  | ({ ret := .ok, part := p, target := t, parsed := _ }, _) =>
    match kind with
    | .response => .message p t
    | .request =>
      match validate p with
      | none => .crash
      | some true => .message p t
      | some false => .bad p.top                                                              -- L1189
  | ({ ret := .incomplete, part := p, target := _, parsed := _ }, pos) => if p.unknownLength then .untilClose p else .need p pos
  | ({ ret := .bug, part := _, target := _, parsed := _ }, _) => .crash
  | ({ ret := .fault, part := _, target := _, parsed := _ }, _) => .crash
  | (_, _) => .error

/-! ## Merging of chunks and the body -/

/-- `http_part.c:710-772 rrr_http_part_chunks_merge` for a part which is chunked: the new data and the part. A chunk which is not within the
data is undefined behaviour. -/
def chunksMerge (p : Part) (buf : Bytes) : Out (Bytes × Part) :=
  if p.top + (p.chunks.map (·.length)).sum ≥ 2 ^ 64 then .err                                 -- L730
  else if p.top > buf.length ∨ p.chunks.any (fun c => c.start + c.length > buf.length) then .fault
  else
    let data := buf.take p.top ++ p.chunks.flatMap fun c => (buf.drop c.start).take c.length
    .ok (data, { p with chunked := false, chunks := [], dataLength := data.length })          -- L762

/-- `RRR_HTTP_PART_BODY_PTR` and `RRR_HTTP_PART_BODY_LENGTH` (`http_part.h:44-51`), the body as seen by `p_httpserver.c:900`. -/
def body (p : Part) (data : Bytes) : Out Bytes :=
  if p.top + p.dataLength > data.length then .fault else .ok ((data.drop p.top).take p.dataLength)

/-- `http_application_http1.c:907-913`: the body in the receive callback. -/
def receivedBody (p : Part) (buf : Bytes) : Out Bytes :=
  if p.chunked then
    match chunksMerge p buf with
    | .ok (data, p) => body p data
    | .err => .err
    | .bug => .bug
    | .fault => .fault
  else body p buf

/-- `http_client.c:427-446 __rrr_http_client_chunks_iterate_callback` for each chunk: what has been appended. -/
def appendChunks (buf : Bytes) (dataEnd : Nat) : List Chunk → Bytes → Out Bytes
  | [], acc => .ok acc
  | c :: cs, acc =>
    if c.start + c.length > dataEnd then .bug                                                 -- http_part.c:358
    else if c.length > lengthMax then .err
    else if c.start + c.length > buf.length then .fault
    else appendChunks buf dataEnd cs (acc ++ (buf.drop c.start).take c.length)

/-- `http_part.c:326-372 rrr_http_part_chunks_iterate` as called by `http_client.c:596`: the body of a response. Without chunks the length is
converted to 32 bits (`rrr_types.h:390-396`). -/
def responseBody (p : Part) (buf : Bytes) : Out Bytes :=
  match p.chunks with
  | [] => if p.top + p.dataLength % 2 ^ 32 > buf.length then .fault else .ok ((buf.drop p.top).take (p.dataLength % 2 ^ 32))
  | cs => appendChunks buf (p.top + p.dataLength) cs []

end Verif.Http
