import Verif.Types.Model
import Verif.Http.Model
/-!
# Model of `src/lib/type_conversion.c` and of `src/modules/p_mangler.c`: conversion of values

Values are those of `Verif.Types.Model`. Not modelled: allocation failure, log messages.
-/
namespace Verif.Convert
open Verif Types

/-- What a function does: it succeeds, the conversion is not possible (`RRR_TYPE_CONVERSION_NOT_POSSIBLE`), the end of the list
is reached (`RRR_TYPE_CONVERSION_DONE`), it fails with a soft or hard error, the program aborts (`RRR_BUG`), or it
accesses memory outside of a buffer. -/
inductive Out (α : Type) where
  | ok (a : α) | no | done | soft | hard | bug | oob
deriving DecidableEq, Repr

/-- The host: byte order and the bytes which messages have in memory. -/
structure Host where
  le : Bool
  mem : List Msg.MsgMsg → Bytes

/-- `type_conversion.h:35-37`, the flags. -/
structure Flags where
  tryNext : Bool
  strictBlobs : Bool
  strictStrings : Bool

/-- `type_conversion.c:524-539 enum rrr_type_conversion`. -/
inductive Method where
  | h2str | h2vain | blob2str | blob2blob | blob2hex | str2str | str2blob | str2h | str2vain | msg2blob | vain2h | vain2str | hchar2str
deriving DecidableEq, Repr

/-- `type_conversion.c:541-553`: the type which a method makes. `type.h:288`: that of `hex` is `str`. -/
def Method.to : Method → Ty
  | .h2str | .blob2str | .blob2hex | .str2str | .vain2str | .hchar2str => .str
  | .h2vain | .str2vain => .vain
  | .blob2blob | .str2blob | .msg2blob => .blob
  | .str2h | .vain2h => .h

/-- `type.h:107-109 RRR_TYPE_IS_64`. -/
def is64 : Ty → Bool
  | .le | .be | .h | .ustr | .istr => true
  | _ => false

/-- `type.h:110-113 RRR_TYPE_IS_BLOB`. -/
def isBlob : Ty → Bool
  | .blob | .sep | .msg | .str | .nsep | .stx | .hdlc => true
  | _ => false

/-- `type.h:119-120 RRR_TYPE_IS_STR`. -/
def isStr : Ty → Bool
  | .str | .sep | .nsep | .stx => true
  | _ => false

/-- `type_conversion.c:89-91 TYPE_BLOB_ENSURE`. -/
def blobEnsure (f : Flags) (t : Ty) : Bool := !((f.strictBlobs && t != .blob) || !isBlob t)

/-- `type_conversion.c:93-95 TYPE_STR_ENSURE`. -/
def strEnsure (f : Flags) (t : Ty) : Bool := !((f.strictStrings && t != .str) || !isStr t)

/-- The bytes at `data`. -/
def dataOf (h : Host) (v : Value) : Bytes := if v.ty = .msg then h.mem v.msgs else v.data

/-- `type_conversion.c:51-75 __rrr_type_convert_clone_set_new_definition_with_data`. -/
def retype (h : Host) (v : Value) (t : Ty) : Value := { v with ty := t, data := dataOf h v, msgs := [] }

/-! ## Numbers -/

/-- The number at a position, in memory of a value. -/
def number (h : Host) (v : Value) (i : Nat) : Option UInt64 :=
  if 8 * i + 8 ≤ v.data.length then some (hostInt h.le ((v.data.drop (8 * i)).take 8)) else none

/-- `%"PRIi64"` and `%"PRIu64"`. -/
def printNumber (signed : Bool) (x : UInt64) : Bytes :=
  if signed ∧ x.toInt64 < 0 then 45 :: Http.decimal x.toInt64.toInt.natAbs else Http.decimal x.toNat

/-- `type.c:1221-1233`, the loop of `__rrr_type_h_to_str`: the numbers with `,` between them. -/
def joinNumbers (h : Host) (v : Value) : Nat → Bytes
  | 0 => []
  | n + 1 => joinNumbers h v n ++ (if n > 0 then [44] else []) ++ printNumber (isSigned v.flags) ((number h v n).getD 0)

/-- `type.c:1212-1240 __rrr_type_h_to_str`. The size of the buffer is 32 bits. -/
def hToStr (h : Host) (v : Value) : Out Bytes :=
  if v.data.length = 0 ∨ v.data.length * 4 ≥ 2 ^ 32 then .oob else .ok (joinNumbers h v ((v.data.length + 7) / 8))

/-- `type_conversion.c:152-176`: a number right justified in a slot of 20 characters. -/
def slot (signed : Bool) (x : UInt64) : Bytes := List.replicate (20 - (printNumber signed x).length) 32 ++ printNumber signed x

/-- `type_conversion.c:152-178`, the loop, from number `i`. -/
def slots (h : Host) (v : Value) : Nat → Nat → Out Bytes
  | _, 0 => .ok []
  | i, n + 1 =>
    match number h v i with
    | none => .oob
    | some x =>
      match slots h v (i + 1) n with
      | .ok t => .ok (slot (isSigned v.flags) x ++ t)
      | e => e

/-- `type_conversion.c:105-201 __rrr_type_convert_h2str`. -/
def convH2str (h : Host) (v : Value) : Out Value :=
  if !is64 v.ty then .no
  else if v.elements = 0 then .bug
  else if v.data.length % 8 ≠ 0 then .bug
  else
    let text := if v.elements = 1 then hToStr h v
      else if 20 * v.elements.toNat > 0xffffffff then .soft
      else slots h v 0 v.elements.toNat
    match text with
    | .ok t => .ok ⟨.str, 0, v.tag, v.elements, t, []⟩
    | .no => .no
    | .done => .done
    | .soft => .soft
    | .hard => .hard
    | .bug => .bug
    | .oob => .oob

/-- `type.c:1612-1629 rrr_type_new_vain`. -/
def newVain (tag : Bytes) : Value := ⟨.vain, 0, tag, 1, [], []⟩

/-- `type_conversion.c:203-224 __rrr_type_convert_h2vain`. -/
def convH2vain (h : Host) (v : Value) : Out Value :=
  if !is64 v.ty then .no
  else if v.elements > 1 then .no
  else match number h v 0 with
  | none => .oob
  | some x => if x ≠ 0 then .no else .ok (newVain v.tag)

/-- A hexadecimal digit. -/
def hexDigit (n : Nat) : UInt8 := [48, 49, 50, 51, 52, 53, 54, 55, 56, 57, 97, 98, 99, 100, 101, 102].getD n 0

/-- `hex.c:30-63 rrr_hex_bin_to_hex`. The size of the buffer is 32 bits. -/
def binToHex (b : Bytes) : Out Bytes :=
  if b.length * 2 + 1 ≥ 2 ^ 32 then .oob else .ok (b.flatMap fun c => [hexDigit (c.toNat / 16), hexDigit (c.toNat % 16)])

/-- `type_conversion.c:236-266 __rrr_type_convert_blob2hex` with `type.c:1464-1476 rrr_type_value_set_data`. -/
def convBlob2hex (h : Host) (f : Flags) (v : Value) : Out Value :=
  if !blobEnsure f v.ty then .no
  else match binToHex (dataOf h v) with
  | .ok t => if v.elements = 0 ∨ t.length % v.elements.toNat ≠ 0 then .bug else .ok { v with ty := .str, data := t, msgs := [] }
  | .no => .no
  | .done => .done
  | .soft => .soft
  | .hard => .hard
  | .bug => .bug
  | .oob => .oob

/-- The value of a string of digits. -/
def digitsValue (l : Bytes) : Nat := l.foldl (fun n c => n * 10 + (c.toNat - 48)) 0

/-- A sign, if there is one, and what comes after it. -/
def takeSign : Bytes → Bool × Bytes
  | 45 :: d => (true, d)
  | 43 :: d => (false, d)
  | d => (false, d)

/-- `strtoull` and `strtoll` with base 10 on a string of digits, spaces and signs, when all of it must be read: white space, a sign and digits. -/
def parseNumber (s : Bytes) : Option Int :=
  let r := takeSign (s.dropWhile (· = 32))
  if r.2 = [] ∨ !r.2.all (fun c => 48 ≤ c && c ≤ 57) then none
  else some (if r.1 then -(digitsValue r.2 : Int) else digitsValue r.2)

/-- The bits of the number which `strtoll` and `strtoull` give when it is out of range or not. -/
def clamp (signed : Bool) (n : Int) : UInt64 :=
  if signed then (if n < -2 ^ 63 then (-2 ^ 63 : Int).toInt64.toUInt64 else if n > 2 ^ 63 - 1 then (2 ^ 63 - 1 : Int).toInt64.toUInt64 else n.toInt64.toUInt64)
  else UInt64.ofNat (min n.toNat (2 ^ 64 - 1))

/-- `type_conversion.c:346-379`, the loop over the elements of the given size. -/
def strLoop (h : Host) (signed : Bool) (size : Nat) : Nat → Bytes → Option Bytes
  | 0, _ => some []
  | n + 1, b =>
    match parseNumber (b.take size) with
    | none => none
    | some x => (strLoop h signed size n (b.drop size)).map fun t => hostBytes h.le (clamp signed x) ++ t

/-- `type_conversion.c:282-402 __rrr_type_convert_str2h`. -/
def convStr2h (h : Host) (f : Flags) (v : Value) : Out Value :=
  if !strEnsure f v.ty then .no
  else if v.elements = 0 then .bug
  else if v.data.length % v.elements.toNat ≠ 0 then .bug
  else if v.data.length = 0 then .no
  else if !v.data.all (fun c => (48 ≤ c && c ≤ 57) || c = 32 || c = 43 || c = 45) then .no
  else
    let signed := v.data.any (· = 45)
    if v.elements.toNat * 8 > 0xffffffff then .hard
    else if v.data.length / v.elements.toNat > 64 then .no
    else match strLoop h signed (v.data.length / v.elements.toNat) v.elements.toNat v.data with
    | none => .no
    | some d => .ok ⟨.h, if signed then 1 else 0, v.tag, v.elements, d, []⟩

/-- `type_conversion.c:404-425 __rrr_type_convert_str2vain`. -/
def convStr2vain (f : Flags) (v : Value) : Out Value :=
  if !strEnsure f v.ty then .no
  else if v.elements > 1 then .no
  else if v.data.length ≠ 0 then .no
  else .ok (newVain v.tag)

/-- `type_conversion.c:474-490`, the loop, from number `i`. -/
def chars (h : Host) (v : Value) : Nat → Nat → Out Bytes
  | _, 0 => .ok []
  | i, n + 1 =>
    match number h v i with
    | none => .oob
    | some x => if x > 0xff then .no else
      match chars h v (i + 1) n with
      | .ok t => .ok (x.toUInt8 :: t)
      | e => e

/-- `type_conversion.c:454-516 __rrr_type_convert_hchar2str`. -/
def convHchar2str (h : Host) (v : Value) : Out Value :=
  if !is64 v.ty then .no
  else if v.elements = 0 then .bug
  else if v.data.length % 8 ≠ 0 then .bug
  else match chars h v 0 v.elements.toNat with
  | .ok t => .ok ⟨.str, 0, v.tag, 1, t, []⟩
  | .no => .no
  | .done => .done
  | .soft => .soft
  | .hard => .hard
  | .bug => .bug
  | .oob => .oob

/-- `type_conversion.c:105-516`, the functions of the methods. -/
def Method.apply (h : Host) (f : Flags) (m : Method) (v : Value) : Out Value :=
  match m with
  | .h2str => convH2str h v
  | .h2vain => convH2vain h v
  | .blob2str => if !blobEnsure f v.ty then .no else .ok (retype h v .str)
  | .blob2blob => if !blobEnsure f v.ty then .no else .ok (retype h v .blob)
  | .blob2hex => convBlob2hex h f v
  | .str2str => if !strEnsure f v.ty then .no else .ok (retype h v .str)
  | .str2blob => if !strEnsure f v.ty then .no else if v.data.length = 0 then .no else .ok (retype h v .blob)
  | .str2h => convStr2h h f v
  | .str2vain => convStr2vain f v
  | .msg2blob => if v.ty ≠ .msg then .no else .ok (retype h v .blob)
  | .vain2h => if v.ty ≠ .vain then .no else .ok ⟨.h, 0, v.tag, 1, List.replicate 8 0, []⟩
  | .vain2str => if v.ty ≠ .vain then .no else .ok ⟨.str, 0, v.tag, 1, [], []⟩
  | .hchar2str => convHchar2str h v

/-- `type_conversion.c:590-608 __rrr_type_convert`. -/
def convert (h : Host) (f : Flags) (m : Method) (v : Value) : Out Value :=
  if v.ty = m.to then .ok v else m.apply h f v

/-- `type_conversion.c:610-678 __rrr_type_convert_using_list`, from a position in the list. -/
def convertList (h : Host) (f : Flags) : List Method → Value → Out Value
  | [], _ => .done
  | m :: ms, v =>
    match convert h f m v with
    | .ok w =>
      match convertList h f ms w with
      | .done => .ok w
      | r => r
    | .no =>
      if f.tryNext then
        match convertList h f ms v with
        | .done => .no
        | r => r
      else .no
    | r => r

/-- `type_conversion.c:579-588 __rrr_type_convert_definition_get_from_str`. -/
def Method.ofName (s : String) : Option Method :=
  [("h2str", Method.h2str), ("h2vain", .h2vain), ("blob2str", .blob2str), ("blob2blob", .blob2blob), ("blob2hex", .blob2hex), ("str2str", .str2str), ("str2blob", .str2blob),
   ("str2h", .str2h), ("str2vain", .str2vain), ("msg2blob", .msg2blob), ("vain2h", .vain2h), ("vain2str", .vain2str), ("hchar2str", .hchar2str)].lookup s

/-! ## The module -/

/-- `p_mangler.c:46-60 struct mangler_data`. -/
structure Config where
  topic : Option Bytes
  clearTags : List Bytes
  conversions : List Method
  passthrough : Bool
  tolerantBlobs : Bool
  tolerantStrings : Bool

/-- `p_mangler.c:77-112 mangler_process_value`: the value which is appended. -/
def processValue (h : Host) (f : Flags) (ms : List Method) (v : Value) : Out Value :=
  match convertList h f ms v with
  | .no => .ok v
  | r => r

/-- `p_mangler.c:171-190`, the loop. -/
def processAll (h : Host) (f : Flags) (ms : List Method) : List Value → Out (List Value)
  | [] => .ok []
  | v :: vs =>
    match processValue h f ms v with
    | .ok w =>
      match processAll h f ms vs with
      | .ok ws => .ok (w :: ws)
      | e => e
    | .no => .no
    | .done => .done
    | .soft => .soft
    | .hard => .hard
    | .bug => .bug
    | .oob => .oob

/-- `p_mangler.c:157-164` with `array.c:629-639 rrr_array_clear_by_tag_checked`. -/
def clearTags (tags : List Bytes) (vs : List Value) : List Value := tags.foldl (fun vs t => vs.filter fun v => !isTag v t) vs

/-- `p_mangler.c:157-190`: the new array. -/
def mangleValues (h : Host) (c : Config) (vs : List Value) : Out (List Value) :=
  let f : Flags := ⟨true, !c.tolerantBlobs, !c.tolerantStrings⟩
  if c.conversions ≠ [] then processAll h f c.conversions (clearTags c.clearTags vs) else .ok []

/-- What becomes of a message. -/
inductive Sent where
  | written (m : Msg.MsgMsg) | dropped | bug | oob
deriving DecidableEq, Repr

/-- `p_mangler.c:114-232 mangler_poll_callback`. `time` is the time now. The message is dropped also when an error is returned. -/
def poll (h : Host) (c : Config) (time : UInt64) (m : Msg.MsgMsg) : Sent :=
  if m.class_ ≠ 11 then (if c.passthrough then .written m else .dropped)
  else if c.conversions = [] ∧ c.clearTags = [] then
    match c.topic with
    | none => .written m
    | some t =>
      match Msg.topicSet m t with
      | .ok m' => .written m'
      | .bug => .bug
      | .oob => .oob
      | _ => .dropped
  else
    match toArray h.le m with
    | .ok vs =>
      match mangleValues h c vs with
      | .ok ws =>
        match newMessage h.le ws time (c.topic.getD m.topic) with
        | .ok m' => .written m'
        | .bug => .bug
        | .oob => .oob
        | _ => .dropped
      | .bug => .bug
      | .oob => .oob
      | _ => .dropped
    | .bug => .bug
    | .oob => .oob
    | _ => .dropped

end Verif.Convert
