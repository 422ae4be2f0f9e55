import Verif.Types.Model
/-!
# Model of `src/lib/json/json.c`: from JSON to arrays of values and back

JSON is given as the tree which the parser of the library json-c gives, and which its printer is given. The parser and the
printer are not modelled. In the tree an object has its members in the order of insertion, keys are C strings, and no key is there twice.
The conversion of floating point numbers to fixed point numbers is a parameter.

Not modelled: allocation failure and log messages.
-/
namespace Verif.Json
open Verif Types Endian

/-- A JSON value as json-c holds it. An integer is a number which may be larger than what 64 bits hold, numbers of the library lie in
-2^63 … 2^64-1. A floating point number is the bits of the `double`. -/
inductive J where
  | null
  | bool (b : Bool)
  | int (i : Int)
  | double (d : UInt64)
  | str (s : Bytes)
  | arr (l : List J)
  | obj (ms : List (Bytes × J))
deriving Repr

/-- `read_constants.h:63-72`, through `json.h:28-31`. -/
def OK : Nat := 0
/-- `json.h:30 RRR_JSON_PARSE_ERROR`. -/
def PARSE_ERROR : Nat := 2
/-- `json.h:31 RRR_JSON_PARSE_INCOMPLETE`. -/
def PARSE_INCOMPLETE : Nat := 4

/-- The host, and the conversion `fixed_point.c:64-97 rrr_fixp_ldouble_to_fixp`, which may fail (it is modelled in `Verif.Fixp.Model`). -/
structure Env where
  le : Bool
  fixp : UInt64 → Option UInt64

/-- The bytes of a C string. -/
def cstr (b : Bytes) : Bytes := b.takeWhile (· ≠ 0)

/-- `json_object_get_int64` of json-c: numbers which do not fit become the nearest which does. -/
def getInt64 (i : Int) : Int := if i > 2 ^ 63 - 1 then 2 ^ 63 - 1 else if i < -2 ^ 63 then -2 ^ 63 else i

/-- The cast of an `int64_t` to `uint64_t`. -/
def toU64 (i : Int) : UInt64 := UInt64.ofNat (i % 2 ^ 64).toNat

/-- The cast of a `uint64_t` to `int64_t`. -/
def toI64 (x : UInt64) : Int := if x.toNat < 2 ^ 63 then x.toNat else (x.toNat : Int) - 2 ^ 64

/-- `json.c:79-126`: what is pushed to the array for a member. `some none` means that the member is no plain value. The functions which push are
`array.c:146-180` (null), `array.c:182-260` (integers) and `array.c:262-324` and `array.c:434-453` (strings and fixed point numbers). -/
def push (e : Env) (key : Bytes) : J → Option (Option Value)
  | .str s => some (some { ty := .str, flags := 0, tag := key, elements := 1, data := cstr s })
  | .int i => some (some { ty := .h, flags := 1, tag := key, elements := 1, data := hostBytes e.le (toU64 (getInt64 i)) })
  | .double d => match e.fixp d with
    | none => none
    | some x => some (some { ty := .fixp, flags := 0, tag := key, elements := 1, data := hostBytes e.le x })
  | .bool b => some (some { ty := .h, flags := 0, tag := key, elements := 1, data := hostBytes e.le (if b then 1 else 0) })
  | .null => some (some { ty := .vain, flags := 0, tag := key, elements := 1, data := [] })
  | .arr _ => some none
  | .obj _ => some none

/-- The callback which is given the arrays: it has a state, and returns a code. -/
abbrev Callback (σ : Type) := σ → List Value → Nat × σ

mutual
/-- `json.c:152-208 __rrr_json_to_array_recurse`. -/
def recurse {σ : Type} (e : Env) (max : Nat) (cb : Callback σ) (level : Nat) (s : σ) : J → Nat × σ
  | .arr l => if level > max then (OK, s) else elements e max cb level s l
  | .obj ms => if level > max then (OK, s) else members e max cb level s [] ms
  | .null => if level > max then (OK, s) else (PARSE_ERROR, s)
  | .bool _ => if level > max then (OK, s) else (PARSE_ERROR, s)
  | .int _ => if level > max then (OK, s) else (PARSE_ERROR, s)
  | .double _ => if level > max then (OK, s) else (PARSE_ERROR, s)
  | .str _ => if level > max then (OK, s) else (PARSE_ERROR, s)

/-- `json.c:168-185`: the loop over the elements of an array. -/
def elements {σ : Type} (e : Env) (max : Nat) (cb : Callback σ) (level : Nat) (s : σ) : List J → Nat × σ
  | [] => (OK, s)
  | j :: l => match recurse e max cb (level + 1) s j with
    | (0, s) => elements e max cb level s l
    | r => r

/-- `json.c:52-150 __rrr_json_to_array_recurse_object`: the loop over the members, and the call of the callback with what was pushed. The
check of the level at its start (`json.c:64-67`) is the one its caller has made. -/
def members {σ : Type} (e : Env) (max : Nat) (cb : Callback σ) (level : Nat) (s : σ) (pushed : List Value) :
    List (Bytes × J) → Nat × σ
  | [] => cb s pushed
  | (key, j) :: ms => match push e key j with
    | none => (PARSE_ERROR, s)
    | some (some v) => members e max cb level s (pushed ++ [v]) ms
    | some none => match recurse e max cb (level + 1) s j with
      | (0, s) => members e max cb level s pushed ms
      | r => r
end

/-- What `json_tokener_parse_ex` tells. The text `null` gives no object, like an error (`json.c:239-250`). -/
inductive Parsed where
  | incomplete
  | error
  | tree (j : J)

/-- `json.c:215-269 rrr_json_to_arrays`. -/
def toArrays {σ : Type} (e : Env) (parse : Bytes → Parsed) (max : Nat) (cb : Callback σ) (s : σ) (data : Bytes) : Nat × σ :=
  if data.length > 2 ^ 31 - 1 then (PARSE_ERROR, s)
  else match parse data with
    | .incomplete => (PARSE_INCOMPLETE, s)
    | .error => (PARSE_ERROR, s)
    | .tree j => recurse e max cb 0 s j

/-! ## From arrays to JSON -/

/-- How a function ends: with a result, with an error, or outside of what the language defines (`fault`). -/
inductive Out (α : Type) where
  | ok (a : α)
  | fail
  | fault
deriving Repr, DecidableEq

/-- Sequencing. -/
def Out.andThen {α β : Type} : Out α → (α → Out β) → Out β
  | .ok a, f => f a
  | .fail, _ => .fail
  | .fault, _ => .fault

/-- `type.h:107-109 RRR_TYPE_IS_64`. -/
def is64 : Ty → Bool
  | .le | .be | .h | .ustr | .istr => true
  | _ => false

/-- Decimal digits, as `sprintf` with `PRIu64` gives. -/
def digits (n : Nat) : Bytes := (Nat.toDigits 10 n).map fun c => UInt8.ofNat c.toNat

/-- `json.c:271-332 __rrr_json_type_to_object`. Older versions of the library do not have unsigned integers (`u64` is false). Reading an integer
which is not there is outside of what is defined. -/
def typeToObject (le u64 : Bool) (v : Value) : Out J :=
  if v.ty = .vain then .ok .null
  else if is64 v.ty then
    if v.data.length < 8 then .fault
    else if isSigned v.flags then .ok (.int (toI64 (hostInt le (v.data.take 8))))
    else if u64 then .ok (.int (hostInt le (v.data.take 8)).toNat)
    else if (hostInt le (v.data.take 8)).toNat > 2 ^ 63 - 1 then .ok (.str (digits (hostInt le (v.data.take 8)).toNat))
    else .ok (.int (toI64 (hostInt le (v.data.take 8))))
  else if v.data.length > 2 ^ 31 - 1 then .fail
  else .ok (.str v.data)

/-- Pieces of a size, the loop `array.c:917-924`. The first argument bounds the number of rounds. -/
def chunks (size : Nat) : Nat → Bytes → List Bytes
  | 0, _ => []
  | n + 1, b => if b = [] then [] else b.take size :: chunks size n (b.drop size)

/-- `array.c:895-934 __rrr_array_selected_tags_split_callback`: the values which a value is split into. A division by zero is a fault.
Values of type `msg` are not modelled, their data is elsewhere. -/
def split (v : Value) : Out (List Value) :=
  if v.data.length = 0 then
    .ok (List.replicate v.elements.toNat { ty := v.ty, flags := v.flags, tag := [], elements := 1, data := [] })
  else if v.elements.toNat = 0 then .fault
  else if v.data.length / v.elements.toNat * v.elements.toNat ≠ v.data.length then .fail
  else .ok ((chunks (v.data.length / v.elements.toNat) v.data.length v.data).map fun b =>
    { ty := v.ty, flags := v.flags, tag := [], elements := 1, data := b })

/-- `json_object_object_add` of json-c: a member which is there has its value replaced, otherwise the member is added as the last. -/
def setKey (key : Bytes) (j : J) : List (Bytes × J) → List (Bytes × J)
  | [] => [(key, j)]
  | (k, i) :: ms => if k = key then (k, j) :: ms else (k, i) :: setKey key j ms

/-- `json.c:452-459`: the loop over the elements of a value. The conversion is given the first of them in every round. -/
def convertAll (le u64 : Bool) (first : Value) : List Value → Out (List J)
  | [] => .ok []
  | _ :: vs => (typeToObject le u64 first).andThen fun j => (convertAll le u64 first vs).andThen fun js => .ok (j :: js)

/-- `json.c:434-459`: what a value becomes. -/
def convert (le u64 : Bool) : List Value → Out J
  | [] => .ok (.arr [])
  | [v] => typeToObject le u64 v
  | v :: vs => (convertAll le u64 v (v :: vs)).andThen fun js => .ok (.arr js)

/-- `json.c:404-467 __rrr_json_from_array_callback`. -/
def addValue (le u64 : Bool) (base : List (Bytes × J)) (v : Value) : Out (List (Bytes × J)) :=
  (split v).andThen fun vs => (convert le u64 vs).andThen fun j => .ok (setKey (cstr v.tag) j base)

/-- `array.c:794-837 __rrr_array_array_iterate_chosen_tags`: whether a value is chosen. -/
def chosen (tags : Option (List Bytes)) (v : Value) : Bool :=
  match tags with
  | none => true
  | some ts => ts.any fun t => isTag v t

/-- The loop of `array.c:805-834`, with the callback above. -/
def fromLoop (le u64 : Bool) (tags : Option (List Bytes)) : Nat → List (Bytes × J) → List Value → Out (Nat × List (Bytes × J))
  | found, base, [] => .ok (found, base)
  | found, base, v :: vs =>
    if chosen tags v then (addValue le u64 base v).andThen fun base => fromLoop le u64 tags (found + 1) base vs
    else fromLoop le u64 tags found base vs

/-- `json.c:469-512 rrr_json_from_array`: how many values were found, and the object. -/
def fromArray (le u64 : Bool) (tags : Option (List Bytes)) (vs : List Value) : Out (Nat × J) :=
  (fromLoop le u64 tags 0 [] vs).andThen fun r => .ok (r.1, .obj r.2)

/-- `json.c:514-541 rrr_json_from_map_nolog`. Names and values of a map are C strings. -/
def fromMap (m : List (Bytes × Bytes)) : J := .obj (m.foldl (fun base p => setKey p.1 (.str p.2) base) [])

end Verif.Json
