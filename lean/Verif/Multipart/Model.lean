import Verif.Http.Model
/-!
# Model of `src/lib/http/http_part_multipart.c` and of the fields which `http_part.c` makes of the parts

The header of a part is parsed with the model of the HTTP/1 parser. Not modelled: allocation failure, log messages.

Positions and lengths are natural numbers, apart from the length of the data in a part, which is unsigned with 64 bits. The end of the data is the sum of
position and lengths, for which the compiler is taken to let pointers wrap.
-/
namespace Verif.Multipart
open Verif Verif.HttpUtil Verif.Http

/-- `nullsafe_str.c:475-554 rrr_nullsafe_str_str` with a callback which stops it (`http_part_multipart.c:40-63`): the first position. The string which is
searched for is not empty. -/
def indexOf (needle : Bytes) : Bytes → Option Nat
  | [] => none
  | c :: t => if needle.isPrefixOf (c :: t) then some 0 else (indexOf needle t).map (· + 1)

/-- `struct rrr_http_part`, for a part of a multipart body. -/
inductive Tree where
  | node (headers : List Field) (start headerLength dataLength : Nat) (parts : List Tree)

/-- `http_part_parse.c:539-757 rrr_http_part_parse` with the type for multipart, and `http_part_multipart.c:146-162`: header fields and their length. -/
def parsePart (start : Nat) (text : Bytes) : R (List Field × Nat) :=
  if start > limits.header then .soft                                                         -- http_part_parse.c:613
  else match headerFields (text.length + 1) [] 0 text with
    | (.ok, hs, n) =>
      match headerGet hs (str "connection"), headerGet hs (str "content-length"), headerGet hs (str "transfer-encoding") with
      | some _, some contentLength, some transferEncoding =>
        if contentLength.isNone ∧ isChunked transferEncoding then .soft                       -- http_part_parse.c:507
        else .ok (hs, n)
      | _, _, _ => .bug
    | (.incomplete, hs, n) => .ok (hs, n)
    | (.soft, _, _) => .soft
    | (.hard, _, _) => .hard
    | (.bug, _, _) => .bug
    | (.fault, _, _) => .fault

/-- `http_part.c:42-56 __rrr_http_part_content_type_equals`; `none` is `RRR_BUG`. -/
def isMultipart (hs : List Field) : Option Bool :=
  match headerGet hs (str "content-type") with
  | none => none
  | some none => some false
  | some (some f) => some (eqCase f.value (str "multipart/form-data"))

/-- `http_part.c:58-78 __rrr_http_part_header_field_subvalue_get`; the outer `none` is `RRR_BUG`. -/
def subvalueGet (hs : List Field) (field name : Bytes) : Option (Option Bytes) :=
  match headerGet hs field with
  | none => none
  | some none => some none
  | some (some f) => some ((f.subs.find? fun s => decide (s.name ≠ []) && (decide (s.value ≠ []) && eqCase s.name name)).map (·.value))

/-- `http_part_multipart.c:174`: the length of the data, without the header and one CRLF. The numbers are unsigned with 64 bits. -/
def dataLen (partLength headerLength : Nat) : Nat := (partLength + 2 ^ 64 - headerLength - 2) % 2 ^ 64

/-- Where a part ends, and whether this is the last part. -/
def endOf (needle last after : Bytes) : Option (Nat × Bool) :=
  match indexOf needle after with
  | some l => some (l, false)
  | none => (indexOf last after).map fun l => (l, true)

/-- `http_part_multipart.c:73-197 __rrr_http_part_multipart_process_part_callback`, where the boundary is found at `pos`, and `rest` is the text from there. There
are `count` parts already. The new part, unless this is the last boundary, and whether it is the last part. `sub` is for parts inside of the part. -/
def step (sub : List Field → Nat → R (List Tree)) (needle last : Bytes) (pos : Nat) (rest : Bytes) (count : Nat) : R (Option (Tree × Bool)) :=
  if count ≥ 1000 then .soft                                                                  -- L87
  else if rest.length - needle.length < 2 then .soft                                          -- L93
  else if last.isPrefixOf rest then .ok none                                                  -- L100
  else match endOf needle last (rest.drop needle.length) with
    | none => .soft                                                                           -- L123
    | some (l, isLast) =>
      (parsePart (pos + needle.length) ((rest.drop needle.length).take l)).bind fun (hs, n) =>
        (sub hs (pos + needle.length + l - 2)).bind fun ts =>
          .ok (some (.node hs (pos + needle.length) n (dataLen l n) ts, isLast))

/-- `nullsafe_str.c:475-554 rrr_nullsafe_str_str` with the callback for parts: the text is searched from one position to the next. -/
def loop (sub : List Field → Nat → R (List Tree)) (needle last : Bytes) : Nat → Bytes → List Tree → R (List Tree)
  | _, [], acc => .ok acc
  | pos, c :: t, acc =>
    if needle.isPrefixOf (c :: t) then
      (step sub needle last pos (c :: t) acc.length).bind fun r =>
        match r with
        | none => loop sub needle last (pos + 1) t acc
        | some (tree, true) => .ok (acc ++ [tree])
        | some (tree, false) => loop sub needle last (pos + 1) t (acc ++ [tree])
    else loop sub needle last (pos + 1) t acc

/-- The boundary with what is before and after it, `http_part_multipart.c:227-248`. -/
def needleOf (boundary : Bytes) : Bytes := 45 :: 45 :: (boundary ++ [13, 10])
/-- The last boundary. -/
def lastOf (boundary : Bytes) : Bytes := 45 :: 45 :: (boundary ++ [45, 45, 13, 10])

/-- `http_part_multipart.c:329`: only soft errors are returned. -/
def onlySoft {β : Type} : R β → R β
  | .ok b => .ok b
  | .incomplete => .soft
  | .soft => .soft
  | .hard => .soft
  | .bug => .bug
  | .fault => .fault

/-- `http_part_multipart.c:281-335 rrr_http_part_multipart_process` with `:204-279 __rrr_http_part_multipart_process_parts`. The text begins where all the
data of the request begins, and it ends where the data of the part does. The parts are searched in all of it. The fuel is for parts inside of parts. -/
def process : Nat → List Field → Bool → Bytes → R (List Tree)
  | 0, _, _, _ => .fault
  | fuel + 1, hs, isGet, text =>
    match isMultipart hs with
    | none => .bug
    | some false => .ok []
    | some true =>
      if isGet then .soft
      else match subvalueGet hs (str "content-type") (str "boundary") with
        | none => .bug
        | some none => .soft
        | some (some b) =>
          if text.length > lengthMax then .soft
          else onlySoft (loop (fun hs e => process fuel hs false (text.take e)) (needleOf b) (lastOf b) 0 text [])

/-- `struct rrr_http_field` as made of a part: name, value and content type. -/
structure FormField where
  name : Bytes
  value : Bytes
  contentType : Bytes
deriving DecidableEq, Repr

/-- `http_part.c:600-646`: the fields, of the parts which have a name. A value which is not within the data is undefined behaviour. -/
def fields (data : Bytes) : List Tree → R (List FormField)
  | [] => .ok []
  | .node hs start headerLength dataLength _ :: ts =>
    if dataLength > lengthMax then .soft                                                      -- L604
    else match subvalueGet hs (str "content-disposition") (str "name"), headerGet hs (str "content-type") with
      | some none, _ => fields data ts                                                        -- L614
      | some (some name), some contentType =>
        if start + headerLength + dataLength > data.length then .fault
        else (fields data ts).map fun fs =>
          ⟨name, if dataLength > 0 then valueSet ((data.drop (start + headerLength)).take dataLength) else [],
            match contentType with | some f => f.value | none => []⟩ :: fs
      | _, _ => .bug

/-- `http_part.c:685-708 rrr_http_part_multipart_and_fields_process` for a part with the type for multipart, after the fields of the URI. `bodyEnd` is where
its data ends. -/
def receiveForm (hs : List Field) (isGet : Bool) (bodyEnd : Nat) (data : Bytes) : R (List FormField) :=
  (process (bodyEnd + 1) hs isGet (data.take bodyEnd)).bind (fields data)

/-! ## Making of forms -/

/-- `http_part_multipart.c:344-430 __rrr_http_part_multipart_form_data_make_field_callback`: the text of a field. The content type is the string for `%s`.
Nothing if the name cannot be quoted. -/
def fieldText (boundary : Bytes) (isFirst : Bool) (f : FormField) : Out Bytes :=
  let make (name : Bytes) : Bytes :=
    (if isFirst then [] else [13, 10]) ++ (([45, 45] : Bytes) ++ (boundary ++ (([13, 10] : Bytes) ++ (str "Content-Disposition: form-data" ++ (name ++ (([13, 10] : Bytes) ++
      ((if f.contentType = [] then [] else str "Content-Type: " ++ (f.contentType ++ [13, 10])) ++ (([13, 10] : Bytes) ++ f.value))))))))
  if f.name = [] then .ok (make [])
  else match quote f.name 34 34 with
    | .ok q => .ok (make (str "; name=" ++ q))
    | .err => .err
    | .bug => .bug
    | .fault => .fault

/-- The fields one after another. -/
def fieldsText (boundary : Bytes) : Bool → List FormField → Out Bytes
  | _, [] => .ok []
  | isFirst, f :: fs =>
    match fieldText boundary isFirst f, fieldsText boundary false fs with
    | .ok a, .ok b => .ok (a ++ b)
    | .ok _, r => r
    | r, _ => r

/-- `http_part_multipart.c:432-506 rrr_http_part_multipart_form_data_make`: the body. -/
def formText (boundary : Bytes) (fs : List FormField) : Out Bytes :=
  match fieldsText boundary true fs with
  | .ok t => .ok (t ++ ([13, 10, 45, 45] ++ (boundary ++ [45, 45, 13, 10])))
  | r => r

end Verif.Multipart
