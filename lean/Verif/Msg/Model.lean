import Verif.Endian
import Verif.Crc32.Model
import Verif.Utf8.Model
/-!
# Model of `src/lib/messages/*` : RRR messages

`msg_head.h`, `msg.c`, `msg_checksum.c`, `msg_msg.c`, `msg_addr.c`, `msg_log.c` and
`src/lib/stats/stats_message.c`.

A message in memory is given by the values of its fields and the bytes which follow them; the
fields are in host byte order there, so the byte order of the host does not matter. A
message on the network is a byte string. Not modelled: allocation failure, log and debug messages.
-/
namespace Verif.Msg
open Verif Endian

/-- Results: OK, `RRR_MSG_READ_INCOMPLETE`, `RRR_MSG_READ_SOFT_ERROR`, `RRR_BUG` (the process aborts), or
an access outside of the message or of the object written to. -/
inductive Res (α : Type) where
  | ok (a : α) | incomplete | soft | bug | oob
deriving DecidableEq, Repr

/-- Statement sequencing, any failure is returned at once. -/
def Res.bind {α β : Type} : Res α → (α → Res β) → Res β
  | .ok a, f => f a
  | .incomplete, _ => .incomplete
  | .soft, _ => .soft
  | .bug, _ => .bug
  | .oob, _ => .oob

/-! ## The common head -/

/-- `msg_head.h:96-105 struct rrr_msg` (packed, 18 bytes), without the checksums, which are only used on the network. -/
structure Head where
  size : UInt32
  type : UInt16
  value : UInt32
deriving DecidableEq, Repr

/-- `sizeof(struct rrr_msg)`. -/
def headSize : Nat := 18

/-- `msg_head.h:36-62`: control flags which may be set, `RRR_MSG_CTRL_F_ALL`. -/
def ctrlAll : UInt16 := 1 ||| 4 ||| 8 ||| 16 ||| 32 ||| 0xF000

/-- `msg_head.h:68-69 RRR_MSG_IS_CTRL`. -/
def isCtrl (t : UInt16) : Bool := t &&& 1 == 1

/-- `msg_head.h:83-91 RRR_MSG_TYPE_OK` with the type numbers L28-33. -/
def typeOk (t : UInt16) : Bool := isCtrl t || t == 2 || t == 8 || t == 4 || t == 16 || t == 6

/-- `msg.c:39-52 rrr_msg_populate_head`. -/
def populateHead (type : UInt16) (size value : UInt32) : Res Head :=
  if size.toNat < headSize then .bug else .ok ⟨size, type, value⟩

/-- `msg.c:54-69 rrr_msg_populate_control_msg`. -/
def populateControl (flags : UInt16) (value : UInt32) : Res Head :=
  if flags &&& 1 != 0 then .bug else populateHead (1 ||| flags) (UInt32.ofNat headSize) value

/-- The 14 bytes of the head which `header_crc32` covers (`msg_checksum.c:56-64`). -/
def headTail (h : Head) (dataCrc : BitVec 32) : Bytes :=
  be32 h.size ++ (be16 h.type ++ (be32 h.value ++ be32 ⟨dataCrc⟩))

/-- `msg_checksum.c:33-65 rrr_msg_checksum_and_to_network_endian`: the bytes of the message
afterwards. `rest` are the bytes in memory after the head; `msg_size` determines how many belong to it. -/
def toNetwork (h : Head) (rest : Bytes) : Res Bytes :=
  let dataSize := (h.size - UInt32.ofNat headSize).toNat                       -- L47, wraps
  if dataSize > rest.length then .oob
  else
    let data := rest.take dataSize
    let dataCrc := if dataSize > 0 then Crc32.crc32buf data else 0             -- L49-51
    let tail := headTail h dataCrc
    .ok (be32 ⟨Crc32.crc32buf tail⟩ ++ (tail ++ data))                         -- L64

/-- `msg.c:125-147 rrr_msg_get_target_size_and_check_checksum`. -/
def getTargetSize (b : Bytes) : Res UInt32 :=
  if b.length < headSize then .incomplete
  else if Crc32.crc32cmp ((b.drop 4).take 14) (at32 b 0).toBitVec ≠ 0 then .soft
  else .ok (at32 b 4)

/-- `msg.c:71-105 __rrr_msg_head_validate`. -/
def headValidate (h : Head) (expected : Nat) : Bool :=
  if h.size.toNat ≠ expected then false
  else if isCtrl h.type then h.type &&& ~~~ ctrlAll == 0
  else typeOk h.type

/-- `msg.c:107-123 rrr_msg_head_to_host_and_verify`; also gives `data_crc32`. The head is read and
written before any check. -/
def headToHost (b : Bytes) : Res (Head × UInt32) :=
  if b.length < headSize then .oob
  else
    let h : Head := ⟨at32 b 4, at16 b 8, at32 b 10⟩
    if headValidate h b.length then .ok (h, at32 b 14) else .soft

/-- `msg.c:149-180 rrr_msg_check_data_checksum_and_length`, returning the bytes after the head. -/
def checkData (h : Head) (dataCrc : UInt32) (b : Bytes) : Res Bytes :=
  if b.length < headSize then .bug
  else if h.size.toNat ≠ b.length then .soft
  else if Crc32.crc32cmp (b.drop headSize) dataCrc.toBitVec ≠ 0 then .soft
  else .ok (b.drop headSize)

/-! ## Messages: `rrr_msg_msg` -/

/-- `msg_msg_struct.h:92-107 struct rrr_msg_msg`: the fields after the head and the bytes at `data`. -/
structure MsgMsg where
  head : Head
  timestamp : UInt64
  typeAndClass : UInt8
  version : UInt8
  topicLength : UInt16
  body : Bytes
deriving DecidableEq, Repr

/-- `sizeof(struct rrr_msg_msg) - 1`. -/
def msgMinSize : Nat := 30

/-- `msg_msg_struct.h:53 MSG_TYPE`. -/
def MsgMsg.type (m : MsgMsg) : UInt8 := m.typeAndClass &&& 0x0f
/-- `msg_msg_struct.h:54 MSG_CLASS`. -/
def MsgMsg.class_ (m : MsgMsg) : UInt8 := (m.typeAndClass &&& (0xf0 : UInt8)) >>> (4 : UInt8)
/-- `msg_msg_struct.h:86 MSG_DATA_LENGTH`, wraps at 32 bits. -/
def MsgMsg.dataLength (m : MsgMsg) : UInt32 := m.head.size - UInt32.ofNat msgMinSize - m.topicLength.toUInt32
/-- `MSG_TOPIC_LENGTH` bytes at `MSG_TOPIC_PTR`. -/
def MsgMsg.topic (m : MsgMsg) : Bytes := m.body.take m.topicLength.toNat
/-- `MSG_DATA_LENGTH` bytes at `MSG_DATA_PTR`. -/
def MsgMsg.data (m : MsgMsg) : Bytes := (m.body.drop m.topicLength.toNat).take m.dataLength.toNat

/-- `msg_msg_struct.h:56-57 MSG_SET_TYPE`. -/
def setType (tc n : UInt8) : UInt8 := (tc &&& 0xf0) ||| (n &&& 0x0f)
/-- `msg_msg_struct.h:58 MSG_SET_CLASS`. -/
def setClass (tc n : UInt8) : UInt8 := (tc &&& (0x0f : UInt8)) ||| (n <<< (4 : UInt8))

/-- `msg_msg.c:65-106 rrr_msg_msg_new_empty`: zeroed body. -/
def newEmpty (type class_ : UInt8) (timestamp : UInt64) (topicLength : UInt16) (dataLength : UInt32) : Option MsgMsg :=
  let total := msgMinSize + topicLength.toNat + dataLength.toNat               -- 64 bits
  if total > 0xffffffff then none
  else match populateHead 2 (UInt32.ofNat total) 0 with
  | .ok h => some ⟨h, timestamp, setClass (setType 0 type) class_, 0, topicLength,
      List.replicate (topicLength.toNat + dataLength.toNat) 0⟩
  | _ => none

/-- `msg_msg.c:108-138 rrr_msg_msg_new_with_data` where `topic` and `data` are not NULL; the length arguments are the
lengths of the strings. -/
def newWithData (type class_ : UInt8) (timestamp : UInt64) (topic data : Bytes) : Option MsgMsg :=
  match newEmpty type class_ timestamp (UInt16.ofNat topic.length) (UInt32.ofNat data.length) with
  | none => none
  | some m => some { m with body := topic ++ data }

/-- The bytes after the head when the message has been through `msg_msg.c:308-326
rrr_msg_msg_prepare_for_network` (`MSG_TO_BE`). -/
def msgRest (m : MsgMsg) : Bytes :=
  be64 m.timestamp ++ ([m.typeAndClass, m.version] ++ (be16 m.topicLength ++ m.body))

/-- Sending: `rrr_msg_msg_prepare_for_network` then `rrr_msg_checksum_and_to_network_endian`
(e.g. `socket/rrr_socket_common.c`, `modules/p_ip.c`). -/
def msgToNetwork (m : MsgMsg) : Res Bytes := toNetwork m.head (msgRest m)

/-- `msg_msg.c:252-278 __message_validate`. The topic is scanned without a check that it lies inside of the
message; if it does not the outcome is `oob` (an invalid character in the part inside would
end the scan before it leaves the message). -/
def msgValidate (m : MsgMsg) : Res MsgMsg :=
  if m.head.size.toNat < msgMinSize then .soft
  else if m.topicLength.toNat > m.body.length then .oob
  else
    let classOk := m.class_ == 1 || m.class_ == 11
    let typeOk := m.type ≥ 1 && m.type ≤ 5
    if classOk && typeOk && Utf8.validate m.topic then .ok m else .soft

/-- `msg_msg.c:280-306 rrr_msg_msg_to_host_and_verify`; `rest` are the bytes after the head. -/
def msgToHost (h : Head) (rest : Bytes) : Res MsgMsg :=
  if rest.length + headSize < msgMinSize then .soft
  else if h.size.toNat ≠ rest.length + headSize then .soft
  else msgValidate ⟨h, at64 rest 0, rest.getD 8 0, rest.getD 9 0, at16 rest 10, rest.drop 12⟩

/-! ## Address messages -/

/-- `msg_addr.h:33-37 struct rrr_msg_addr`. `addr` are the bytes covered by `RRR_MSG_ADDR_GET_ADDR_LEN` (L43-44). -/
structure MsgAddr where
  value : UInt32
  protocol : UInt8
  addr : Bytes
deriving DecidableEq, Repr

/-- `msg_addr.c:39-47 rrr_msg_addr_init_head`: the head has the size of the whole struct, then
`RRR_MSG_ADDR_SET_ADDR_LEN` (`msg_addr.h:46-47`). -/
def addrHead (addrLen : UInt32) : Head := ⟨19 + addrLen, 8, 0⟩

/-- Sending an address message with an address of at most 128 bytes (`rest` are the protocol and all 128 bytes of `addr`). -/
def addrToNetwork (a : MsgAddr) : Res Bytes :=
  if a.addr.length > 128 then .oob
  else toNetwork { addrHead (UInt32.ofNat a.addr.length) with value := a.value }
    (a.protocol :: (a.addr ++ List.replicate (128 - a.addr.length) 0))

/-- `msg_addr.c:31-37 rrr_msg_addr_to_host`: `RRR_MSG_ADDR_SIZE_OK` (`msg_addr.h:39-40`). -/
def addrToHost (h : Head) (rest : Bytes) : Res MsgAddr :=
  if h.size.toNat < 19 then .soft else .ok ⟨h.value, rest.getD 0 0, rest.drop 1⟩

/-! ## Log messages -/

/-- `msg_log.h:46-56 struct rrr_msg_log` (packed): `file[128]`, `line`, `is_stdout`, `loglevel_translated`,
`loglevel_orig`, `prefix_size`, `prefix_and_message`. -/
structure MsgLog where
  head : Head
  file : Bytes
  line : UInt32
  isStdout : UInt8
  levelTranslated : UInt8
  levelOrig : UInt8
  prefixSize : UInt16
  body : Bytes
deriving DecidableEq, Repr

/-- `sizeof(struct rrr_msg_log) - 1`. -/
def logMinSize : Nat := 155

/-- `msg_log.c:38-58 rrr_msg_msg_log_to_host`; `rest` are the bytes after the head. `RRR_MSG_LOG_SIZE_OK`
(`msg_log.h:38-39`) is computed with 64 bits and wraps for messages shorter than 157 bytes. -/
def logToHost (h : Head) (rest : Bytes) : Res MsgLog :=
  if rest.length < 137 then .oob                                               -- the fields are not all in the message
  else
    let p := at16 rest 135
    let body := rest.drop 137
    let m : MsgLog := ⟨h, rest.take 128, at32 rest 128, rest.getD 132 0, rest.getD 133 0, rest.getD 134 0, p, body⟩
    if p.toNat > (h.size.toUInt64 - 157).toNat then .soft                      -- L42
    else if p.toNat > body.length then .oob
    else if p.toNat > 0 ∧ body.getD (p.toNat - 1) 0 ≠ 0 then .soft             -- L47
    else if rest.getLastD 0 ≠ 0 then .soft                                     -- L52
    else .ok m

/-- `strncpy(result->file, file, 128)` and the termination (`msg_log.c:128-129`). -/
def logFile (file : Bytes) : Bytes :=
  (file ++ List.replicate (128 - file.length) 0).take 127 ++ [0]

/-- `msg_log.c:78-152 rrr_msg_msg_log_new`; the strings are without their terminating NUL. -/
def logNew (file : Bytes) (line : Int) (levelTranslated levelOrig : UInt8) (flags : UInt32)
    (pfx message : Bytes) : Res MsgLog :=
  let prefixSize := if pfx.length + 1 > 0xffff then 0xffff else pfx.length + 1
  let messageSize := if message.length + 1 > 65536 then 65536 else message.length + 1
  match populateHead 16 (UInt32.ofNat (logMinSize + prefixSize + messageSize)) flags with
  | .ok h => .ok ⟨h, logFile file, UInt32.ofNat line.toNat, 0, levelTranslated, levelOrig, UInt16.ofNat prefixSize,
      (pfx ++ [0]).take prefixSize ++ (message ++ [0]).take messageSize⟩
  | _ => .bug

/-- The bytes after the head after `msg_log.c:33-36 rrr_msg_msg_log_prepare_for_network`. -/
def logRest (m : MsgLog) : Bytes :=
  m.file ++ (be32 m.line ++ ([m.isStdout, m.levelTranslated, m.levelOrig] ++ (be16 m.prefixSize ++ m.body)))

/-- Sending a log message. -/
def logToNetwork (m : MsgLog) : Res Bytes := toNetwork m.head (logRest m)

/-- `msg_log.h:29-36`, `msg_log.c:154-203 rrr_msg_msg_log_to_str`: prefix and message strings (without the NUL
which is added). -/
def logToStr (m : MsgLog) : Bytes × Bytes := (m.body.take m.prefixSize.toNat, m.body.drop m.prefixSize.toNat)

/-! ## Statistics messages -/

/-- `stats_message.h:62-70 struct rrr_msg_stats`: `path` without the terminating NUL, `data` the first `data_size` bytes. -/
structure MsgStats where
  type : UInt8
  flags : UInt32
  timestamp : UInt32
  path : Bytes
  data : Bytes
deriving DecidableEq, Repr

/-- `RRR_STATS_MESSAGE_PATH_MAX_LENGTH`, `RRR_STATS_MESSAGE_DATA_MAX_SIZE`. -/
def pathMax : Nat := 512
def dataMax : Nat := 512

/-- `stats_message.c:180-212 rrr_msg_stats_init` (timestamp 0); the path is a C string. -/
def statsInit (type : UInt8) (flags : UInt32) (path data : Bytes) : Option MsgStats :=
  if path.length > pathMax then none
  else if data.length > dataMax then none
  else some ⟨type, flags, 0, path, data⟩

/-- `stats_message.c:147-178 rrr_msg_stats_pack_and_flip`: the bytes after the head. -/
def statsRest (m : MsgStats) : Bytes :=
  [m.type] ++ (be32 m.flags ++ (be16 (UInt16.ofNat (m.path.length + 1)) ++ (m.path ++ ([0] ++ m.data))))

/-- `stats/stats_engine.c:91-106` packs, fills in the head with the total size and computes the checksums. -/
def statsToNetwork (m : MsgStats) : Res Bytes :=
  (populateHead 6 (UInt32.ofNat (headSize + (statsRest m).length)) m.timestamp).bind fun h => toNetwork h (statsRest m)

/-- `stats_message.c:37-119 __rrr_msg_stats_unpack` with `do_flip`. The target has room for 513 bytes of path
followed by 512 bytes of data; writing more is `oob`. (A path longer than 513 bytes would be written
over the data, which is outside of the member `path`.) -/
def statsUnpack (h : Head) (rest : Bytes) : Res MsgStats :=
  if rest.length < 7 then .soft                                                -- L49
  else if rest.length > 7 + 1025 then .soft                                    -- L55
  else
    let flags := at32 rest 1
    let pathSize := (at16 rest 5).toNat
    let pathAndData := rest.drop 7
    if flags &&& ~~~ (15 : UInt32) ≠ 0 then .soft                              -- L72
    else if rest.getD 0 0 > 3 then .soft                                       -- L78-88
    else if pathSize > pathAndData.length then .soft                           -- L91
    else if pathAndData.length - pathSize > dataMax then .oob                  -- L103-107
    else if pathSize > 0 ∧ pathAndData.getD (pathSize - 1) 0 ≠ 0 then .soft    -- L109-114
    else if pathSize > pathMax + 1 then .oob                                   -- L115
    else .ok ⟨rest.getD 0 0, flags, h.value, (pathAndData.take pathSize).takeWhile (· ≠ 0), pathAndData.drop pathSize⟩

/-! ## Receiving -/

/-- What a callback gets. -/
inductive Received where
  | msg (m : MsgMsg)
  | ctrl (h : Head) (rest : Bytes)
  | addr (a : MsgAddr)
  | log (m : MsgLog)
  | stats (m : MsgStats)
deriving DecidableEq, Repr

/-- Apply a constructor to the result. -/
def Res.map {α β : Type} (f : α → β) (r : Res α) : Res β := r.bind fun a => .ok (f a)

/-- `msg.c:182-289 rrr_msg_to_host_and_verify_with_callback` when all callbacks are given, up to the call. -/
def toHost (b : Bytes) : Res Received :=
  (headToHost b).bind fun (h, dataCrc) =>
  (checkData h dataCrc b).bind fun rest =>
  if h.type == 2 then (msgToHost h rest).map .msg
  else if isCtrl h.type then .ok (.ctrl h rest)
  else if h.type == 8 then (addrToHost h rest).map .addr
  else if h.type == 16 then (logToHost h rest).map .log
  else if h.type == 6 then (statsUnpack h rest).map .stats
  else .soft

/-- A whole message arrives: the size and head checksum are checked (`read.c:701-745`, a target of zero aborts, L486), then
the rest when it is there. Returns what is received and the number of bytes used. -/
def receive (b : Bytes) : Res (Received × Nat) :=
  (getTargetSize b).bind fun n =>
  if n = 0 then .bug
  else if b.length < n.toNat then .incomplete
  else if n.toNat < headSize then .bug                                         -- msg.c:153 by way of msg.c:202
  else (toHost (b.take n.toNat)).map fun r => (r, n.toNat)

/-! ## Operations on messages -/

/-- `msg_msg.c:328-352 rrr_msg_msg_duplicate_no_data_with_size`: the first 29 bytes are copied (one byte of
`topic_length` is left), then topic length and size are set; zeroed body. -/
def duplicateNoDataWithSize (m : MsgMsg) (topicLength : UInt16) (dataLength : UInt32) : Res MsgMsg :=
  let total := msgMinSize + topicLength.toNat + dataLength.toNat
  if total > 0xffffffff then .bug
  else .ok { m with head := { m.head with size := UInt32.ofNat total }, topicLength := topicLength,
                    body := List.replicate (topicLength.toNat + dataLength.toNat) 0 }

/-- `msg_msg.c:354-364 rrr_msg_msg_duplicate`. -/
def duplicate (m : MsgMsg) : MsgMsg := m

/-- `msg_msg.c:366-378 rrr_msg_msg_duplicate_no_data`. -/
def duplicateNoData (m : MsgMsg) : Res MsgMsg :=
  if m.topicLength.toNat > m.body.length then .oob
  else .ok { m with head := { m.head with size := UInt32.ofNat (msgMinSize + m.topicLength.toNat) },
                    body := m.body.take m.topicLength.toNat }

/-- `msg_msg.c:380-403 rrr_msg_msg_topic_set`. -/
def topicSet (m : MsgMsg) (topic : Bytes) : Res MsgMsg :=
  (duplicateNoDataWithSize m (UInt16.ofNat topic.length) m.dataLength).bind fun r =>
  if m.topicLength.toNat + m.dataLength.toNat > m.body.length then .oob
  else .ok { r with body := topic ++ m.data }

/-- `msg_msg.c:435-453 rrr_msg_msg_topic_equals`; `topic` is a C string. -/
def topicEquals (m : MsgMsg) (topic : Bytes) : Bool :=
  if m.topicLength.toNat ≠ topic.length then false
  else if topic.length = 0 then true
  else m.topic == topic

/-- `msg_msg.c:496-510 rrr_msg_msg_ttl_ok` at a given time. -/
def ttlOk (m : MsgMsg) (time ttl : UInt64) : Bool :=
  if ttl > time then true
  else if m.timestamp < time - ttl then false
  else true

end Verif.Msg
