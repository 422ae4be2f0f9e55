import Verif.Convert.Model
/-!
# Model of `src/lib/http/http_query_builder.c` and `src/modules/p_influxdb.c`: lines for InfluxDB

Not modelled: allocation failure, sizes of 2⁶³ bytes and more, sending of the line with HTTP. The text of fixed point numbers is a parameter.
-/
namespace Verif.Influx
open Verif Types
open Verif.Convert (Out Host)

/-- `out` with what follows, when it succeeds. -/
def andThen {α β : Type} : Out α → (α → Out β) → Out β
  | .ok a, f => f a
  | .no, _ => .no
  | .done, _ => .done
  | .soft, _ => .soft
  | .hard, _ => .hard
  | .bug, _ => .bug
  | .oob, _ => .oob

/-- The bytes of a C string. -/
def cstr (b : Bytes) : Bytes := b.takeWhile (· ≠ 0)

/-- `http_query_builder.c:88-94`, a character in the loop. -/
def escapeChar (quotes : Bool) (c : UInt8) : Bytes :=
  if c = 34 ∨ (!quotes ∧ (c = 44 ∨ c = 61 ∨ c = 32 ∨ c = 9 ∨ c = 13 ∨ c = 10)) then [92, c] else [c]

/-- `http_query_builder.c:57-104 __rrr_http_query_builder_escape_field`. -/
def escapeField (quotes : Bool) (b : Bytes) : Bytes :=
  (if quotes then [34] else []) ++ (b.flatMap (escapeChar quotes) ++ (if quotes then [34] else []))

/-- The host, and the text `%.10Lf` of a fixed point number. -/
structure Env where
  host : Host
  fixp : UInt64 → Bytes

/-- The first number. -/
def firstNumber (e : Env) (v : Value) : Out UInt64 :=
  match Convert.number e.host v 0 with
  | none => .oob
  | some x => .ok x

/-- `http_query_builder.c:106-170 rrr_http_query_builder_append_type_value_as_escaped_string`: what is appended, or nothing if the value was empty. The string builder appends C strings. -/
def valueText (e : Env) (v : Value) (quotes : Bool) : Out (Option Bytes) :=
  if v.ty = .fixp then andThen (firstNumber e v) fun x => .ok (some (cstr (e.fixp x)))
  else if Convert.is64 v.ty then andThen (firstNumber e v) fun x => .ok (some (Convert.printNumber (isSigned v.flags) x))
  else if Convert.isBlob v.ty then
    if (Convert.dataOf e.host v).length > 0 then .ok (some (cstr (escapeField quotes (Convert.dataOf e.host v)))) else .ok none
  else if v.ty = .vain then .ok none
  else .soft

/-- `http_query_builder.c:172-223 __rrr_http_query_builder_append_type_value`: the line after it. Without a value the `=` is chopped off. -/
def appendValue (e : Env) (line : Bytes) (v : Value) (tag : Bytes) (separator : Bytes) (quotes : Bool) : Out Bytes :=
  if cstr tag = [] then .hard
  else andThen (valueText e v quotes) fun t =>
    let name := line ++ (separator ++ escapeField false (cstr tag))
    match t with
    | some t => .ok (name ++ (61 :: t))
    | none => .ok name

/-- `http_query_builder.c:247-280`, the loop over the columns. -/
def appendColumns (e : Env) (vs : List Value) (separator : Bytes) (quotes : Bool) : Bool → List (Bytes × Option Bytes) → Bytes → Out Bytes
  | _, [], line => .ok line
  | first, (tag, name) :: cs, line =>
    match getByTag vs tag with
    | none => .soft
    | some v =>
      if v.elements > 1 then .soft
      else andThen (appendValue e line v (name.getD tag) (if first then [] else separator) quotes) fun l =>
        appendColumns e vs separator quotes false cs l

/-- `http_query_builder.c:284-300`, the loop over all values. -/
def appendAll (e : Env) (separator : Bytes) (quotes : Bool) : Bool → List Value → Bytes → Out Bytes
  | _, [], line => .ok line
  | first, v :: vs, line =>
    andThen (appendValue e line v v.tag (if first then [] else separator) quotes) fun l => appendAll e separator quotes false vs l

/-- `http_query_builder.c:225-303 rrr_http_query_builder_append_values_from_array`. `version` is that of the array. -/
def appendArray (e : Env) (version : UInt16) (vs : List Value) (columns : List (Bytes × Option Bytes)) (separator : Bytes) (noFirst quotes : Bool) (line : Bytes) : Out Bytes :=
  if version ≠ 7 then .bug
  else if columns ≠ [] then appendColumns e vs separator quotes noFirst columns line
  else appendAll e separator quotes noFirst vs line

/-- `http_query_builder.c:305-354 rrr_http_query_builder_append_values_from_map`. -/
def appendMap (separator : Bytes) : Bool → List (Bytes × Option Bytes) → Bytes → Bytes
  | _, [], line => line
  | first, (tag, value) :: cs, line =>
    appendMap separator false cs
      (line ++ ((if first then [] else separator) ++ (escapeField false tag ++
        (match value with
         | some (c :: t) => 61 :: escapeField false (c :: t)
         | _ => []))))

/-- The configuration, `http_client_config.c` and `p_influxdb.c:544-600`. Names and values are C strings. -/
structure Config where
  table : Bytes
  tags : List (Bytes × Option Bytes)
  fixedTags : List (Bytes × Option Bytes)
  fields : List (Bytes × Option Bytes)
  fixedFields : List (Bytes × Option Bytes)

/-- `p_influxdb.c:251-305`: the line. -/
def line (e : Env) (c : Config) (version : UInt16) (vs : List Value) : Out Bytes :=
  andThen (appendArray e version vs c.tags [44] false true c.table) fun l =>
  andThen (appendArray e version vs c.fields [44] true true (appendMap [44] false c.fixedTags l ++ [32])) fun l =>
  .ok (appendMap [44] c.fields.isEmpty c.fixedFields l)

/-- What becomes of a message. -/
inductive Sent where
  | sent (line : Bytes) | discarded | failed | bug | oob
deriving DecidableEq, Repr

/-- `p_influxdb.c:399-450 influxdb_process_entry` with `:169-365 influxdb_send_data_callback`, up to the sending. The array is initialised with zeros, and `array.c:1419-1448
rrr_array_message_append_to_array` gives the version to the caller without storing it in the array, so the version of the array is 0. -/
def process (e : Env) (c : Config) (m : Msg.MsgMsg) : Sent :=
  if m.class_ ≠ 11 then .discarded
  else match toArray e.host.le m with
  | .ok vs =>
    match line e c 0 vs with
    | .ok l => .sent l
    | .bug => .bug
    | .oob => .oob
    | .hard => .failed
    | _ => .discarded
  | .bug => .bug
  | .oob => .oob
  | _ => .discarded

end Verif.Influx
