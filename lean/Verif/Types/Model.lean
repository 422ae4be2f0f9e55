import Verif.Msg.Model
/-!
# Model of `src/lib/type.c` and `src/lib/array.c`: typed values and array messages

A value holds its data as the bytes in memory. Integers are stored in host byte order, which is a
parameter (`le`, true when the least significant byte comes first). The data of a value of type `msg` are messages in
host byte order, which are given as structures as in `Verif.Msg.Model`.

Not modelled: allocation failure, log messages, conversion to text, the import of `ustr`, `istr`, `sep`,
`stx`, `nsep`, `fixp`, `msg` and `hdlc` fields.
-/
namespace Verif.Types
open Verif Endian Msg

/-- `type.h:48-67`: the types. -/
inductive Ty where
  | le | be | h | blob | ustr | istr | sep | msg | fixp | str | nsep | stx | err | vain | hdlc
deriving DecidableEq, Repr

/-- `type.h:48-67 RRR_TYPE_*`. -/
def Ty.id : Ty → UInt8
  | .le => 2 | .be => 3 | .h => 4 | .blob => 5 | .ustr => 6 | .istr => 7 | .sep => 8 | .msg => 9 | .fixp => 10
  | .str => 11 | .nsep => 12 | .stx => 13 | .err => 14 | .vain => 15 | .hdlc => 16

/-- `type.c:1376-1393` (in this order) and `type.c:1422-1432 rrr_type_get_from_id`. -/
def Ty.ofId (i : UInt8) : Option Ty :=
  [Ty.be, .hdlc, .h, .le, .blob, .ustr, .istr, .sep, .msg, .fixp, .str, .nsep, .stx, .err, .vain].find? fun t => t.id == i

/-- `type.h:234-246 struct rrr_type_value`: `definition`, `flags`, `tag` (with `tag_length`), `element_count`, `data` (with
`total_stored_length`). When the type is `msg`, the messages `msgs` are stored instead of `data`.
The import lengths and references are not part of it. -/
structure Value where
  ty : Ty
  flags : UInt8
  tag : Bytes
  elements : UInt32
  data : Bytes
  msgs : List MsgMsg := []
deriving DecidableEq, Repr

/-- `total_stored_length`. -/
def Value.stored (v : Value) : Nat :=
  if v.ty = .msg then (v.msgs.map fun m => m.head.size.toNat).sum else v.data.length

/-- `type.h:132-137 RRR_TYPE_FLAG_IS_SIGNED`. -/
def isSigned (flags : UInt8) : Bool := flags &&& 1 == 1

/-! ## 64 bit integers in memory -/

/-- The eight bytes of an integer in memory. -/
def hostBytes (le : Bool) (x : UInt64) : Bytes := if le then (be64 x).reverse else be64 x

/-- The integer which eight bytes in memory are. -/
def hostInt (le : Bool) (b : Bytes) : UInt64 := UInt64.ofNat (ofBytes (if le then b.reverse else b))

/-- `rrr_be64toh` and `rrr_htobe64` on eight bytes in memory. -/
def swapBe (le : Bool) (b : Bytes) : Bytes := if le then b.reverse else b

/-! ## Import of fixed width integers -/

/-- The loop of `type.c:105-117`: byte `r` goes to position `w` of the eight, then both move down. -/
def copyDown (src : Bytes) : Nat → Nat → Bytes → Bytes
  | 0, w, temp => temp.set w (src.getD 0 0)
  | r + 1, w, temp => copyDown src r (w - 1) (temp.set w (src.getD (r + 1) 0))

/-- `type.c:78-124 __rrr_type_expand_be`. Reading after the end of `src` is `oob`. -/
def expandBe (n : Nat) (src : Bytes) (flags : UInt8) : Res UInt64 :=
  if n = 0 then .bug
  else if src.length < n then .oob
  else if n > 8 then .oob                                                      -- the position before `temp_b[0]`
  else
    let fill : UInt8 := if isSigned flags && src.getD 0 0 &&& 0x80 != 0 then 0xff else 0
    .ok (UInt64.ofNat (ofBytes (copyDown src (n - 1) 7 (List.replicate 8 fill))))

/-- The loop of `type.c:150-154`. -/
def copyUp (src : Bytes) : Nat → Nat → Bytes → Bytes
  | 0, _, temp => temp
  | k + 1, pos, temp => copyUp src k (pos + 1) (temp.set pos (src.getD pos 0))

/-- `type.c:126-160 __rrr_type_expand_le`. -/
def expandLe (n : Nat) (src : Bytes) (flags : UInt8) : Res UInt64 :=
  if n = 0 ∧ isSigned flags then .oob                                          -- reads the byte before
  else if src.length < n then .oob
  else if n > 8 then .oob
  else
    let fill : UInt8 := if isSigned flags && src.getD (n - 1) 0 &&& 0x80 != 0 then 0xff else 0
    .ok (UInt64.ofNat (ofBytes (copyUp src n 0 (List.replicate 8 fill)).reverse))

/-- The loop of `type.c:186-196`; `room` is what is left of the allocated memory. -/
def intLoop (le big : Bool) (n : Nat) (flags : UInt8) : Nat → Bytes → Nat → Res Bytes
  | 0, _, _ => .ok []
  | k + 1, src, room =>
    ((if big then expandBe else expandLe) n src flags).bind fun x =>
    if room < 8 then .oob
    else (intLoop le big n flags k (src.drop n) (room - 8)).bind fun r => .ok (hostBytes le x ++ r)

/-- `type.c:162-214 __rrr_type_import_int`, `_le` and `_be`: what the data of the value become (its type becomes
`h`) and the number of bytes parsed. `b` are the bytes from `start` to `end`. Both products are
computed with 32 bits. -/
def importInt (le big : Bool) (n elements : UInt32) (flags : UInt8) (b : Bytes) : Res (Bytes × UInt32) :=
  if n.toNat > 8 then .soft
  else
    let total := elements * n
    if total.toNat > b.length then .incomplete
    else (intLoop le big n.toNat flags elements.toNat b (elements * 8).toNat).bind fun d => .ok (d, total)

/-- `type.c:216-221 __rrr_type_import_host`. -/
def importHost (le : Bool) (n elements : UInt32) (flags : UInt8) (b : Bytes) : Res (Bytes × UInt32) :=
  importInt le (!le) n elements flags b

/-! ## Strings -/

/-- `type.c:876-899 __rrr_type_str_get_export_length`; `none` when too long. The count of escapes is 32 bits (it
is at most the stored length). -/
def strExportLength (d : Bytes) : Option Nat :=
  let n := d.length + 2 + d.countP fun c => c == 0x5c || c == 0x22
  if n > 0xffffffff then none else some n

/-- The loop of `type.c:909-916`. -/
def strExportLoop : Bytes → Bytes
  | [] => []
  | c :: t => if c == 0x5c || c == 0x22 then 0x5c :: c :: strExportLoop t else c :: strExportLoop t

/-- `type.c:901-924 __rrr_type_str_export`. -/
def strExport (d : Bytes) : Bytes := 0x22 :: (strExportLoop d ++ [0x22])

/-- The loop of `type.c:1017-1029`: number of bytes before the ending quote. -/
def strScan : Bool → Bytes → Option Nat
  | _, [] => none
  | prev, c :: t =>
    if !prev && c == 0x22 then some 0
    else (strScan (!prev && c == 0x5c) t).map (· + 1)

/-- `type.c:1000-1041 __get_import_length_str`. -/
def strImportLength (b : Bytes) : Res Nat :=
  match b with
  | [] => .incomplete
  | c :: t => if c ≠ 0x22 then .soft
    else match strScan false t with
    | none => .incomplete
    | some k => .ok (k + 2)

/-- The loop of `type.c:1145-1159`. The bytes are written over the ones already read. -/
def strUnescape : Bool → Bytes → Bytes
  | prev, [] => if prev then [0x5c] else []
  | prev, c :: t => if !prev && c == 0x5c then strUnescape true t else c :: strUnescape false t

/-- `type.c:1113-1168 __rrr_type_import_str` with `type.c:223-245 __rrr_type_import_blob`: the stored string and the number
of bytes parsed. The size of the input is reduced to 32 bits (L1132). -/
def strImport (b : Bytes) : Res (Bytes × Nat) :=
  (strImportLength (b.take (b.length % 2 ^ 32))).bind fun n =>
  if 1 + (n - 2) > b.length then .incomplete
  else .ok (strUnescape false ((b.drop 1).take (n - 2)), n)

/-! ## Packing -/

/-- The loop of `type.c:722-727` and `type.c:751-756`. -/
def swap64 (le : Bool) : Bytes → Bytes
  | a :: b :: c :: d :: e :: f :: g :: h :: t => swapBe le [a, b, c, d, e, f, g, h] ++ swap64 le t
  | rest => rest

/-- `type.c:745-761 __rrr_type_64_export_or_pack` and `type.c:712-732 __rrr_type_64_unpack`. -/
def conv64 (le : Bool) (d : Bytes) : Res Bytes := if d.length % 8 ≠ 0 then .soft else .ok (swap64 le d)

/-- `type.c:831-869 __rrr_type_msg_pack_or_export`. -/
def msgsPack : List MsgMsg → Res Bytes
  | [] => .ok []
  | m :: ms => if m.head.size.toNat < msgMinSize then .soft
    else (msgToNetwork m).bind fun w => (msgsPack ms).bind fun r => .ok (w ++ r)

/-- The `pack` functions (`type.c:763-829, 926-937, 1186-1194`) of the table `type.c:1356-1371`: the type
number which is stored and the bytes. Types with no such function abort (`array.c:851-853`). -/
def pack (le : Bool) (v : Value) : Res (UInt8 × Bytes) :=
  match v.ty with
  | .h => (conv64 le v.data).bind fun b => .ok (Ty.be.id, b)
  | .fixp => (conv64 le v.data).bind fun b => .ok (Ty.fixp.id, b)
  | .blob | .sep | .nsep | .stx | .hdlc => if v.stored = 0 then .soft else .ok (v.ty.id, v.data)
  | .str => .ok (v.ty.id, v.data)
  | .msg => (msgsPack v.msgs).bind fun b => .ok (Ty.msg.id, b)
  | .vain => .ok (Ty.vain.id, [])
  | .le | .be | .ustr | .istr | .err => .bug

/-- `array.h:47-54 struct rrr_array_value_packed` without the data. -/
def packedHead (id flags : UInt8) (tagLength totalLength elements : UInt32) : Bytes :=
  [id, flags] ++ (be32 tagLength ++ (be32 totalLength ++ be32 elements))

/-- `array.c:745-763 __rrr_array_get_packed_length`. The sum of tag and data is computed with 32 bits, the rest
with 64. -/
def packedLength (vs : List Value) : Option Nat :=
  let n := (vs.map fun v => (v.tag.length + v.stored) % 2 ^ 32 + 14).sum
  if n ≥ 2 ^ 64 then none else some n

/-- `array.c:844-888 __rrr_array_array_pack_callback` for all values (`array.c:793-833`); `room` is what is left
of the message. -/
def packAll (le : Bool) : List Value → Nat → Res Bytes
  | [], _ => .ok []
  | v :: vs, room =>
    (pack le v).bind fun (id, w) =>
    if 14 + v.tag.length + w.length > room then .oob
    else if w.length < v.stored then .bug                                      -- L882
    else (packAll le vs (room - (14 + v.tag.length + w.length))).bind fun r =>
      .ok (packedHead id v.flags (UInt32.ofNat v.tag.length) (UInt32.ofNat w.length) v.elements ++ (v.tag ++ (w ++ r)))

/-- `array.h:35 RRR_ARRAY_VERSION`. -/
def arrayVersion : UInt8 := 7

/-- `array.c:1082-1151 rrr_array_new_message_from_array` with `msg_msg.c:140-153 rrr_msg_msg_new_array`; `topic` is not
longer than 65535 bytes. -/
def newMessage (le : Bool) (vs : List Value) (time : UInt64) (topic : Bytes) : Res MsgMsg :=
  match packedLength vs with
  | none => .soft
  | some n =>
    if n > 0xffffffff then .soft
    else match newEmpty 1 11 time (UInt16.ofNat topic.length) (UInt32.ofNat n) with
    | none => .soft
    | some m => (packAll le vs n).bind fun d =>
      if d.length ≠ n then .bug                                                -- L1137
      else .ok { m with version := arrayVersion, body := topic ++ d }

/-! ## Unpacking -/

/-- `type.c:494-540 __rrr_type_msg_to_host_single`: all errors become soft errors. A message with a stated size less
than its head makes `msg.c:153` abort. -/
def msgSingle (b : Bytes) : Res (MsgMsg × Nat) :=
  match getTargetSize b with
  | .ok n =>
    if b.length < n.toNat then .soft
    else
      let h : Head := ⟨at32 b 4, at16 b 8, at32 b 10⟩
      if !headValidate h n.toNat then .soft
      else (checkData h (at32 b 14) (b.take n.toNat)).bind fun rest => (msgToHost h rest).bind fun m => .ok (m, n.toNat)
  | .bug => .bug
  | .oob => .oob
  | _ => .soft

/-- `type.c:546-571 __rrr_type_msg_unpack`. The first argument bounds the number of messages (each is at least 18 bytes). -/
def msgsUnpack : Nat → Bytes → Res (List MsgMsg)
  | 0, b => if b = [] then .ok [] else .bug
  | k + 1, b => if b = [] then .ok []
    else (msgSingle b).bind fun (m, n) => (msgsUnpack k (b.drop n)).bind fun r => .ok (m :: r)

/-- `type.c:1549-1600 rrr_type_value_new_and_unpack` with the `unpack` functions of the table (`type.c:712-740, 783-789,
822-825, 1170-1173`). -/
def unpack (le : Bool) (ty : Ty) (flags : UInt8) (tag data : Bytes) (elements : UInt32) : Res Value :=
  match ty with
  | .be => (conv64 le data).bind fun d => .ok ⟨.h, flags, tag, elements, d, []⟩
  | .fixp => (conv64 le data).bind fun d => .ok ⟨.fixp, flags, tag, elements, d, []⟩
  | .blob | .sep | .nsep | .stx | .hdlc => if data.length = 0 then .soft else .ok ⟨ty, flags, tag, elements, data, []⟩
  | .str | .vain => .ok ⟨ty, flags, tag, elements, data, []⟩
  | .msg => (msgsUnpack data.length data).bind fun ms => .ok ⟨.msg, flags, tag, UInt32.ofNat ms.length, [], ms⟩
  | .h | .le | .ustr | .istr | .err => .soft

/-- Whether `unpack` is in the table for this type. -/
def Ty.hasUnpack : Ty → Bool
  | .h | .le | .ustr | .istr | .err => false
  | _ => true

/-- A value as it is found in a message. -/
structure Raw where
  ty : Ty
  flags : UInt8
  tag : Bytes
  data : Bytes
  elements : UInt32
deriving DecidableEq, Repr

/-- `array.c:1174-1230`, one round of the loop: the value and the number of bytes it uses. -/
def rawNext (b : Bytes) : Res (Raw × Nat) :=
  if b.length < 14 then .soft
  else
    let tagLength := (at32 b 2).toNat
    let totalLength := (at32 b 6).toNat
    if 14 + tagLength + totalLength > b.length then .soft
    else match Ty.ofId (b.getD 0 0) with
    | none => .soft
    | some ty => if !ty.hasUnpack then .soft
      else .ok (⟨ty, b.getD 1 0, (b.drop 14).take tagLength, (b.drop (14 + tagLength)).take totalLength, at32 b 10⟩,
        14 + tagLength + totalLength)

/-- `type.h:296-321 rrr_type_value_is_tag` when `tag` is a C string: the tag of the value is compared as a C string too. -/
def isTag (v : Value) (tag : Bytes) : Bool := v.tag.takeWhile (· ≠ 0) == tag

/-- What the callback of the iteration asks for: go on, stop (`RRR_ARRAY_ITERATE_STOP`) or fail. -/
inductive Ctl where
  | next | stop | fail
deriving DecidableEq, Repr

/-- `array.c:1173-1234`, the loop of `rrr_array_message_iterate`: the state of the callback afterwards and whether the iteration
succeeded. The first argument bounds the number of values (each uses at least 14 bytes). -/
def iterate {σ : Type} (cb : σ → Raw → Res (σ × Ctl)) : Nat → Bytes → σ → Res (σ × Bool)
  | 0, b, s => if b = [] then .ok (s, true) else .bug
  | k + 1, b, s => if b = [] then .ok (s, true)
    else match rawNext b with
    | .ok (raw, n) => (cb s raw).bind fun (s', c) =>
      match c with
      | .next => iterate cb k (b.drop n) s'
      | .stop => .ok (s', true)
      | .fail => .ok (s', false)
    | .bug => .bug
    | .oob => .oob
    | _ => .ok (s, false)

/-- `array.c:1153-1235 rrr_array_message_iterate`. -/
def messageIterate {σ : Type} (cb : σ → Raw → Res (σ × Ctl)) (m : MsgMsg) (s : σ) : Res (σ × Bool) :=
  if m.class_ ≠ 11 then .bug
  else if m.version ≠ arrayVersion then .ok (s, false)
  else if m.topicLength.toNat + m.dataLength.toNat > m.body.length then .oob
  else iterate cb m.dataLength.toNat m.data s

/-- `array.c:1349-1383 __rrr_array_message_append_to_array_callback`. -/
def appendCallback (le : Bool) (acc : List Value) (r : Raw) : Res (List Value × Ctl) :=
  match unpack le r.ty r.flags r.tag r.data r.elements with
  | .ok v => .ok (acc ++ [v], .next)
  | .bug => .bug
  | .oob => .oob
  | _ => .ok (acc, .fail)

/-- `array.c:1385-1420 rrr_array_message_append_to_array` with an empty target. -/
def toArray (le : Bool) (m : MsgMsg) : Res (List Value) :=
  (messageIterate (appendCallback le) m []).bind fun (vs, ok) => if ok then .ok vs else .soft

/-- `array.c:1278-1308 rrr_array_message_has_tag`: non-zero. Finding the tag and failing are the same. -/
def messageHasTag (m : MsgMsg) (tag : Bytes) : Res Bool :=
  if m.class_ ≠ 11 then .ok false
  else (messageIterate (fun (_ : Unit) r => .ok ((), if r.tag == tag then .fail else .next)) m ()).bind fun (_, ok) => .ok (!ok)

/-- `array.c:1315-1330 __rrr_array_message_clone_value_by_tag_callback`. -/
def tagCallback (le : Bool) (tag : Bytes) (_ : Option Value) (r : Raw) : Res (Option Value × Ctl) :=
  match unpack le r.ty r.flags r.tag r.data r.elements with
  | .ok v => .ok (if isTag v tag then (some v, .stop) else (none, .next))
  | .bug => .bug
  | .oob => .oob
  | _ => .ok (none, .fail)

/-- `array.c:1332-1360 rrr_array_message_clone_value_by_tag`: each value is unpacked until the tag is found. -/
def valueByTag (le : Bool) (m : MsgMsg) (tag : Bytes) : Res (Option Value) :=
  if m.class_ ≠ 11 then .ok none
  else (messageIterate (tagCallback le tag) m none).bind fun (v, ok) => if ok then .ok v else .soft

/-! ## Access to values of an array -/

/-- `array.c:704-716 rrr_array_value_get_by_tag`; `tag` is a C string. -/
def getByTag (vs : List Value) (tag : Bytes) : Option Value := vs.find? fun v => isTag v tag

/-- `array.c:456-505 __rrr_array_get_value_64_by_tag`. The index is multiplied by eight before it is added to a pointer to
64 bit integers. Reading after the data of the value is `oob`. The result is the bits of the integer. -/
def get64ByTag (le : Bool) (vs : List Value) (tag : Bytes) (index : UInt32) (signed : Bool) : Res UInt64 :=
  match getByTag vs tag with
  | none => .soft
  | some v =>
    if index ≥ v.elements then .soft
    else
      let pos := 8 * (8 * index.toNat)
      if pos + 8 > v.data.length then .oob
      else
        let x := hostInt le ((v.data.drop pos).take 8)
        if signed then (if !isSigned v.flags && x > 0x7fffffffffffffff then .soft else .ok x)
        else if isSigned v.flags && x > 0x7fffffffffffffff then .soft
        else .ok x

end Verif.Types
