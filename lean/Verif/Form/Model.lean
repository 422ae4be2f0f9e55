import Verif.HttpUtil.Model

/-!
# Model of forms and query strings: `src/lib/http/http_fields.c:413-511` and `http_part.c:374-573`

Not modelled: allocation failure, values which come from arrays, texts of 4 GiB and more.
-/
namespace Verif.Form
open Verif Verif.HttpUtil

/-- A field of a form. A value which is empty is the same as none, `rrr_nullsafe_str_isset`. -/
structure Field where
  name : Bytes
  value : Bytes
deriving DecidableEq, Repr

/-- `http_util.c:336-382` for texts which are not too long, see `HttpUtil.uriEncode`. -/
def encode (s : Bytes) : Bytes := s.flatMap encodeByte

/-- `http_fields.c:433-465`: one field. -/
def fieldText (f : Field) : Bytes :=
  (if f.name ≠ [] then encode f.name else []) ++ (if f.value ≠ [] then (if f.name ≠ [] then [61] else []) ++ encode f.value else [])

/-- `http_fields.c:471-511 rrr_http_field_collection_to_urlencoded_form_data`. -/
def toForm : List Field → Bytes
  | [] => []
  | [f] => fieldText f
  | f :: g :: r => fieldText f ++ [38] ++ toForm (g :: r)

/-- White space at `http_part.c:388` and L414. -/
def isSpace (c : UInt8) : Bool := c == 32 || c == 9 || c == 13 || c == 10

/-- `http_part.c:492-505`: a field without value is added, if there is a name. -/
def pushName (acc : List Field) (buf : Bytes) : List Field := if buf = [] then acc else acc ++ [⟨buf, []⟩]

/-- `http_part.c:480-487` and `http_fields.c:125-142 rrr_http_field_value_set`: the value of the last field. -/
def setValue (acc : List Field) (buf : Bytes) : List Field :=
  if buf.head? = some 0 ∨ buf = [] then acc
  else match acc.getLast? with
    | none => acc
    | some f => acc.dropLast ++ [{ f with value := buf }]

/-- `http_part.c:458-465, 471-476`: what has been read is stored, as a value if there is a name to have it. -/
def flush (target : Bool) (acc : List Field) (buf : Bytes) : List Field := if target then setValue acc buf else pushName acc buf

/-- `http_part.c:445-447`: the end, or white space, follows. -/
def nearEnd (r : Bytes) : Bool := match r with
  | [] => true
  | c :: _ => isSpace c

/-- `http_part.c:408-518`, the loop: what has been read since the last name or value, whether a value is to come, and the fields. -/
def loop : Bytes → Bytes → Bool → List Field → Out (List Field)
  | [], _, _, acc => .ok acc
  | c :: r, buf, target, acc =>
    let near := r = [] || isSpace c
    if c = 37 then match r with
      | a :: b :: r' => match strtoullRaw 16 [a, b] with
        | none => .err
        | some (v, _) =>
          if v > 0xff then .bug
          else if nearEnd r' then .ok (flush target acc (buf ++ [UInt8.ofNat v]))
          else loop r' (buf ++ [UInt8.ofNat v]) target acc
      | _ => .err
    else if c = 61 then
      if target then .err
      else if near then .ok (pushName acc buf)
      else loop r [] (buf ≠ []) (pushName acc buf)
    else if c = 38 then
      if near then .ok (flush target acc buf) else loop r [] false (flush target acc buf)
    else
      let c' := if c = 43 then 32 else c
      if near then .ok (flush target acc (buf ++ [c'])) else loop r (buf ++ [c']) target acc

/-- `http_part.c:374-527 __rrr_http_part_query_string_parse`. -/
def parse (l : Bytes) : Out (List Field) := loop (l.dropWhile isSpace) [] false []

/-- `http_part.c:529-573`: the fields of a URI, after the first question mark. -/
def fromUri (uri : Bytes) : Out (List Field) :=
  match uri.dropWhile (· ≠ 63) with
  | [] => .ok []
  | _ :: q => if q = [] then .ok [] else parse q

end Verif.Form
