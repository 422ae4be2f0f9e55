import Verif.Types.Model
import Verif.Hdlc.Model
import Verif.Condition.Model
/-!
# Model of `src/lib/array_tree.c` and of the import functions of `src/lib/type.c`: reading data with an array definition

The buffer is given as its bytes, of which there are less than `2 ^ 32` (its length is an `rrr_length`). The position is the number of bytes before it.

Not modelled: allocation failure and log messages. Two things are parameters (`World`): the conversion of the text of a fixed point number, which uses `long double`, and the last eight bytes of messages in memory.
-/
namespace Verif.ArrayTree
open Verif Endian Msg Types

/-- What is not modelled: the byte order of the machine; the fixed point number of a text (`fixed_point.c:329-424`); the last bytes of the memory of messages as a number (`type.c:1297-1306`). -/
structure World where
  le : Bool
  fixp : Bytes → UInt64
  msgs : List MsgMsg → UInt64

/-! ## Import of fields -/

/-- `type.h:147-148 RRR_TYPE_CHAR_IS_STX`. -/
def isStx (c : UInt8) : Bool := 1 ≤ c && c ≤ 2

/-- `type.h:150-151 RRR_TYPE_CHAR_IS_SEP_A` and `type.h:160-161 RRR_TYPE_CHAR_IS_SEP_F`. -/
def isEnd (c : UInt8) : Bool := (c == 10 || c == 13 || c == 9) || (c == 0 || (3 ≤ c && c ≤ 4))

/-- `type.h:163-169 RRR_TYPE_CHAR_IS_SEP`. -/
def isSep (c : UInt8) : Bool := isEnd c || (33 ≤ c && c ≤ 47) || (58 ≤ c && c ≤ 64) || (91 ≤ c && c ≤ 96) || (123 ≤ c && c ≤ 126)

/-- `type.c:223-245 __rrr_type_import_blob`: data and bytes parsed. The product is computed with 32 bits. -/
def importBlob (n elements : UInt32) (b : Bytes) : Res (Bytes × Nat) :=
  let total := (n * elements).toNat
  if total > b.length then .incomplete else .ok (b.take total, total)

/-- `type.c:425-464 __rrr_type_import_sep_stx`. -/
def importChars (valid : UInt8 → Bool) (n elements : UInt32) (b : Bytes) : Res (Bytes × Nat) :=
  let total := (n * elements).toNat
  if total > b.length then .incomplete
  else if (b.take total).all valid then .ok (b.take total, total)
  else .soft

/-- The characters of a number, `type.c:285-286`. -/
def isNumChar (signed : Bool) (c : UInt8) : Bool := (48 ≤ c && c ≤ 57) || c == 43 || (signed && c == 45)

/-- `type.c:284-300`: the characters which are collected; when they are 64 or more the number is too long. `none`: no other character follows. -/
def collect (signed : Bool) : Nat → Bytes → Res Bytes
  | _, [] => .incomplete
  | k, c :: t =>
    if isNumChar signed c then (if k + 1 > 63 then .soft else (collect signed (k + 1) t).bind fun r => .ok (c :: r))
    else .ok []

/-- Decimal digits. -/
def isDec (c : UInt8) : Bool := 48 ≤ c && c ≤ 57

/-- The number of decimal digits. -/
def decimal (b : Bytes) : Nat := b.foldl (fun a c => a * 10 + (c.toNat - 48)) 0

/-- The sign at the start of the text, as `strtoll` and `strtoull` read it, and what follows. -/
def signOf (b : Bytes) : Bool × Bytes :=
  match b with
  | c :: t => if c == 45 then (true, t) else if c == 43 then (false, t) else (false, b)
  | [] => (false, [])

/-- `type.c:43-71` with the test of L326: the C library function (with base 10) must read all of the text. `strtoll` and `strtoull` give the largest or least number when the number is outside of the range. The result is the 64 bits. -/
def convert (signed : Bool) (b : Bytes) : Option UInt64 :=
  let s := signOf b
  if s.2 = [] ∨ !s.2.all isDec then none
  else if signed then
    if s.1 then some (0 - UInt64.ofNat (min (decimal s.2) (2 ^ 63))) else some (UInt64.ofNat (min (decimal s.2) (2 ^ 63 - 1)))
  else some (UInt64.ofNat (min (decimal s.2) (2 ^ 64 - 1)))

/-- `type.c:247-341 __rrr_type_import_numeric_str_raw`. -/
def importNum (signed : Bool) (b : Bytes) : Res (UInt64 × Nat) :=
  if b = [] then .incomplete
  else
    let spaces := (b.takeWhile fun c => c == 32 || c == 9).length
    (collect signed 0 (b.drop spaces)).bind fun t =>
    if t = [] then .soft
    else match convert signed t with
    | none => .soft
    | some x => .ok (x, t.length + spaces)

/-- `fixed_point.c:293-318`: length of the digits with at most one dot, which is not first. `none`: error. -/
def fixpDigits (hex : Bool) : Nat → Bool → Bytes → Option Nat
  | k, _, [] => some k
  | k, dot, c :: t =>
    if isDec c || (hex && ((97 ≤ c && c ≤ 102) || (65 ≤ c && c ≤ 70))) then fixpDigits hex (k + 1) dot t
    else if c == 46 then (if k = 0 ∨ dot then none else fixpDigits hex (k + 1) true t)
    else some k

/-- `fixed_point.c:277-322`: length of the sign and the digits. Being incomplete is an error as well. -/
def fixpNumber (hex : Bool) (b : Bytes) : Option Nat :=
  let sign := b.head? == some 45 || b.head? == some 43
  let r := if sign then b.drop 1 else b
  if r = [] then none
  else match fixpDigits hex 0 false r with
  | none => none
  | some 0 => none
  | some (k + 1) => some ((if sign then 1 else 0) + (k + 1))

/-- `fixed_point.c:237-327 __rrr_fixp_str_preliminary_parse`: the length of the number. -/
def fixpLength (b : Bytes) : Option Nat :=
  if b.length > 3 && b.take 3 == [49, 54, 35] then (fixpNumber true (b.drop 3)).map (3 + ·)
  else if b.length > 3 && b.take 3 == [49, 48, 35] then (fixpNumber false (b.drop 3)).map (3 + ·)
  else fixpNumber false b

/-- `type.c:948-998 __rrr_type_import_fixp`: all errors of the parser become soft errors. -/
def importFixp (w : World) (b : Bytes) : Res (UInt64 × Nat) :=
  match fixpLength b with
  | none => .soft
  | some n => if n = b.length then .incomplete else .ok (w.fixp (b.take n), n)

/-- `type.c:1043-1073 __get_import_length_nsep` and `type.c:1075-1111 __rrr_type_import_nsep`. -/
def importNsep (b : Bytes) : Res (Bytes × Nat) :=
  let t := b.takeWhile fun c => !isEnd c
  if t.length = b.length then .incomplete
  else if t = [] then .soft
  else .ok (t, t.length)

/-- `type.c:573-657 __rrr_type_import_msg` for one message (L628: with no data left, none is found), and `type.c:546-571 __rrr_type_msg_unpack`. The product of L604 is a sum of one number. -/
def importMsg (b : Bytes) : Res (List MsgMsg × Nat) :=
  if b = [] then .soft
  else if b.length < msgMinSize then .incomplete
  else match getTargetSize b with
  | .ok n =>
    if n.toNat > b.length then .incomplete
    else (msgsUnpack n.toNat (b.take n.toNat)).bind fun ms => .ok (ms, n.toNat)
  | .bug => .bug
  | .oob => .oob
  | _ => .soft

/-- `type.c:669-710 __rrr_type_import_hdlc`. The assertion of L696 holds (`Hdlc.verifySize`). -/
def importHdlc (b : Bytes) : Res (Bytes × Nat) :=
  match Hdlc.parseFrame Hdlc.init b with
  | (.ok, s, rest) => .ok (s.result, b.length - rest.length)
  | (.incomplete, _, _) => .incomplete
  | (.softError, _, _) => .soft

/-- `type.h:88-102 RRR_TYPE_MAX_*`, in the table `type.c:1356-1371`. -/
def maxLength : Ty → Nat
  | .le | .be | .h => 8
  | .blob => 1024
  | .sep | .stx => 64
  | _ => 0

/-- A value of the array while it is read: the value, and `import_length` of it. -/
structure Item where
  v : Value
  ilen : UInt32
deriving DecidableEq, Repr

/-- `type.h:132-145 RRR_TYPE_FLAG_SIGNED`. -/
def flagsOf (signed : Bool) : UInt8 := if signed then 1 else 0

/-- `do_import` of the table `type.c:1356-1371`: the value with `import_length` and the number of bytes parsed. -/
def importField (w : World) (ty : Ty) (signed : Bool) (tag : Bytes) (n elements : UInt32) (b : Bytes) : Res (Item × Nat) :=
  match ty with
  | .be => (importInt w.le true n elements (flagsOf signed) b).bind fun x => .ok (⟨⟨.h, flagsOf signed, tag, elements, x.1, []⟩, n⟩, x.2.toNat)
  | .le => (importInt w.le false n elements (flagsOf signed) b).bind fun x => .ok (⟨⟨.h, flagsOf signed, tag, elements, x.1, []⟩, n⟩, x.2.toNat)
  | .h => (importHost w.le n elements (flagsOf signed) b).bind fun x => .ok (⟨⟨.h, flagsOf signed, tag, elements, x.1, []⟩, n⟩, x.2.toNat)
  | .blob => (importBlob n elements b).bind fun x => .ok (⟨⟨.blob, flagsOf signed, tag, elements, x.1, []⟩, n⟩, x.2)
  | .sep => (importChars isSep n elements b).bind fun x => .ok (⟨⟨.sep, flagsOf signed, tag, elements, x.1, []⟩, n⟩, x.2)
  | .stx => (importChars isStx n elements b).bind fun x => .ok (⟨⟨.stx, flagsOf signed, tag, elements, x.1, []⟩, n⟩, x.2)
  | .ustr => if elements ≠ 1 ∨ n ≠ 0 then .bug
    else (importNum false b).bind fun x => .ok (⟨⟨.h, 0, tag, 1, hostBytes w.le x.1, []⟩, 0⟩, x.2)
  | .istr => if elements ≠ 1 ∨ n ≠ 0 then .bug
    else (importNum true b).bind fun x => .ok (⟨⟨.h, 1, tag, 1, hostBytes w.le x.1, []⟩, 0⟩, x.2)
  | .fixp => if elements ≠ 1 ∨ n ≠ 0 then .bug
    else (importFixp w b).bind fun x => .ok (⟨⟨.fixp, flagsOf signed, tag, 1, hostBytes w.le x.1, []⟩, 0⟩, x.2)
  | .nsep => if elements ≠ 1 ∨ n ≠ 0 then .bug
    else (importNsep b).bind fun x => .ok (⟨⟨.nsep, flagsOf signed, tag, 1, x.1, []⟩, UInt32.ofNat x.2⟩, x.2)
  | .str => if elements ≠ 1 ∨ n ≠ 0 then .bug
    else (strImport b).bind fun x => .ok (⟨⟨.str, flagsOf signed, tag, 1, x.1, []⟩, UInt32.ofNat x.2⟩, x.2)
  | .msg => if elements ≠ 1 then .bug                                         -- other counts do not exist in definitions
    else (importMsg b).bind fun x => .ok (⟨⟨.msg, flagsOf signed, tag, UInt32.ofNat x.1.length, [], x.1⟩, n⟩, x.2)
  | .hdlc => (importHdlc b).bind fun x => .ok (⟨⟨.hdlc, flagsOf signed, tag, 1, x.1, []⟩, n⟩, x.2)
  | .vain => .ok (⟨⟨.vain, flagsOf signed, tag, elements, [], []⟩, n⟩, 0)
  | .err => .soft

/-- The last at most eight bytes as a big endian number, `type.c:1297-1306 __rrr_type_blob_to_64`. -/
def blobTo64 (d : Bytes) : UInt64 := UInt64.ofNat (ofBytes (d.drop (d.length - min 8 d.length)))

/-- `to_64` of the table. Reading eight bytes of less is `none`, and so is the type without such a function. -/
def to64 (w : World) (v : Value) : Option UInt64 :=
  match v.ty with
  | .be | .le | .h => if v.data.length < 8 then none else some (hostInt w.le (v.data.take 8))
  | .vain => some 0
  | .hdlc => some 1
  | .msg => some (w.msgs v.msgs)
  | .err => none
  | _ => some (blobTo64 v.data)

/-! ## Trees -/

/-- A field of a definition: `struct rrr_type_value` (`type.h:234-246`) without data, as `array_tree.c:227-482` makes it. -/
structure Field where
  ty : Ty
  signed : Bool
  tag : Bytes
  len : UInt32
  lenRef : Option Bytes
  count : UInt32
  countRef : Option Bytes
deriving DecidableEq, Repr

mutual
/-- `array_tree.h:42-79`: the nodes of a tree. A node holds a rewind count, fields or a branch; a node with many fields is given as many nodes with one (`array_tree.c:1182-1192`). -/
inductive Tree where
  | nil
  | field (f : Field) (rest : Tree)
  | rewind (n : Nat) (rest : Tree)
  | cond (b : Branches) (rest : Tree)
/-- The branches of a condition: `IF` and `ELSIF` with their conditions and trees, then `ELSE` if there is one. -/
inductive Branches where
  | none
  | els (t : Tree)
  | arm (c : List Condition.Carrier) (t : Tree) (more : Branches)
end

/-- `struct rrr_array_tree_import_callback_data`, array_tree.c:1250-1255: the values, last one first, and the position. -/
structure St where
  items : List Item
  pos : Nat
deriving DecidableEq, Repr

/-- The comparison of L1304 and L1426, `strncmp` with the length of the tag (values without tag are skipped). The tag has no NUL. -/
def tagMatches (tag name : Bytes) : Bool := !tag.isEmpty && tag.isPrefixOf name

/-- `array_tree.c:1296-1319 __rrr_array_tree_import_value_resolve_ref`. -/
def resolve (w : World) (items : List Item) (name : Bytes) : Res UInt32 :=
  match items.find? (fun i => tagMatches i.v.tag name) with
  | none => .soft
  | some i => match to64 w i.v with
    | none => .oob
    | some x => if x.toNat > 0xffffffff then .soft else .ok (UInt32.ofNat x.toNat)

/-- `array_tree.c:1321-1336 RESOLVE_REF`. -/
def resolveRef (w : World) (items : List Item) (r : Option Bytes) (x : UInt32) : Res UInt32 :=
  match r with
  | none => .ok x
  | some name => (resolve w items name).bind fun y => if y = 0 then .soft else .ok y

/-- `array_tree.c:1338-1415 __rrr_array_tree_import_value_callback`. -/
def readField (w : World) (b : Bytes) (f : Field) (s : St) : Res St :=
  (resolveRef w s.items f.lenRef f.len).bind fun n =>
  (resolveRef w s.items f.countRef f.count).bind fun k =>
  if n = 0 ∧ maxLength f.ty ≠ 0 then .soft
  else if k = 0 then .soft
  else if n.toNat > maxLength f.ty then .soft
  else (importField w f.ty f.signed f.tag n k (b.drop s.pos)).bind fun x =>
    if x.2 = 0 ∧ f.ty ≠ .vain then .bug
    else .ok ⟨x.1 :: s.items, s.pos + x.2⟩

/-- The loop of `array_tree.c:1272-1289`: multiplication and addition abort when they overflow, and so does a position before the buffer. -/
def rewindLoop : Nat → Nat → St → Res St
  | 0, _, s => .ok s
  | k + 1, total, s =>
    match s.items with
    | [] => .bug
    | i :: r =>
      let l := i.ilen.toNat * i.v.elements.toNat
      if l ≥ 2 ^ 32 ∨ total + l ≥ 2 ^ 32 then .bug
      else if l > s.pos then .bug
      else rewindLoop k (total + l) ⟨r, s.pos - l⟩

/-- `array_tree.c:1257-1294 __rrr_array_tree_import_rewind_callback`; not called for 0 (L1183). -/
def rewind (n : Nat) (s : St) : Res St := if n > s.items.length then .soft else rewindLoop n 0 s

/-- `array_tree.c:1417-1437 __rrr_array_tree_import_condition_name_evaluate_callback`. Reading outside of the data is left out (`to64`). -/
def nameValue (w : World) (items : List Item) (name : Bytes) : Option Condition.Num :=
  match items.find? (fun i => tagMatches i.v.tag name) with
  | none => none
  | some i => some ⟨((to64 w i.v).getD 0).toBitVec, isSigned i.v.flags⟩

/-- `array_tree.c:1439-1463 __rrr_array_tree_import_condition_callback`. -/
def holds (w : World) (items : List Item) (c : List Condition.Carrier) : Res Bool :=
  match Condition.evaluate (nameValue w items) c with
  | .ok x => .ok (x ≠ 0#64)
  | .soft => .soft
  | .undef => .oob
  | .fault => .oob
  | .bug => .bug

mutual
/-- `array_tree.c:1169-1248 __rrr_array_tree_iterate` with the callbacks of the import. -/
def readTree (w : World) (b : Bytes) : Tree → St → Res St
  | .nil, s => .ok s
  | .field f rest, s => (readField w b f s).bind (readTree w b rest)
  | .rewind n rest, s => (rewind n s).bind (readTree w b rest)
  | .cond bs rest, s => (readBranches w b bs s).bind (readTree w b rest)
/-- `array_tree.c:1194-1224` with the macro of L1142-1167: the first branch whose condition is true is taken. -/
def readBranches (w : World) (b : Bytes) : Branches → St → Res St
  | .none, s => .ok s
  | .els t, s => readTree w b t s
  | .arm c t more, s => (holds w s.items c).bind fun x => if x then readTree w b t s else readBranches w b more s
end

/-- `array_tree.c:1513-1551 rrr_array_tree_import_from_buffer`: the array which the callback gets, and the number of bytes parsed. -/
def importBuffer (w : World) (t : Tree) (b : Bytes) : Res (List Value × Nat) :=
  (readTree w b t ⟨[], 0⟩).bind fun s => .ok (s.items.reverse.map (·.v), s.pos)

end Verif.ArrayTree
