import Verif.Endian
import Verif.Read.Model
/-!
# Model of `src/lib/websocket/websocket.c`

Sending of frames, the header parser and the receiver with its state, as a user of the reading framework (`Verif.Read`).

Not modelled: timers (ping interval, timeout), the key of the handshake, allocation failure, failure of the transport to take
data to send. The callback of the user which gets the messages is taken to succeed; what it gets is recorded.
-/
namespace Verif.Websocket
open Verif Endian

/-! ## Sending -/

/-- `websocket.c:189-203 __rrr_websocket_payload_mask_unmask`. -/
def maskUnmask (key : UInt32) (payload : Bytes) : Bytes :=
  payload.mapIdx fun i c => c ^^^ (be32 key).getD (i % 4) 0

/-- `websocket.c:222-246`: the first bytes of the header. `n` is the length of the payload. -/
def sendLength (mask : Bool) (n : UInt64) : Bytes :=
  let m : UInt8 := if mask then 0x80 else 0
  if n < 126 then [m ||| n.toUInt8]
  else if n ≤ 65535 then (m ||| 126) :: be16 n.toUInt16
  else (m ||| 127) :: be64 n

/-- `websocket.c:208-276 __rrr_websocket_transport_ctx_frame_send`: what is pushed to the transport. `key` is the random number,
`mask` is set by `rrr_websocket_frame_enqueue` (L105-136) for clients. -/
def sendFrame (opcode : UInt8) (mask : Bool) (key : UInt32) (payload : Bytes) : Bytes :=
  (opcode ||| 0x80) :: (sendLength mask (UInt64.ofNat payload.length) ++
    ((if mask then be32 key else []) ++ (if mask then maskUnmask key payload else payload)))

/-! ## The header -/

/-- `websocket.h:42-54 struct rrr_websocket_header`. -/
structure Header where
  fin : Bool
  rsv1 : Bool
  rsv2 : Bool
  rsv3 : Bool
  opcode : UInt8
  mask : Bool
  headerLen : Nat
  payloadLen : UInt64
  key : UInt32
deriving DecidableEq, Repr

/-- Result of the header parser: more data needed, refused, or the header and the size of the frame. -/
inductive Hdr where
  | incomplete
  | soft
  | ok (h : Header) (target : UInt64)
deriving DecidableEq, Repr

/-- `websocket.c:338-352`: header length so far and payload length. -/
def extLength (b : Bytes) (len7 : UInt16) : Option (Nat × UInt64) :=
  if len7 = 126 then if b.length < 4 then none else some (4, (at16 b 2).toUInt64)
  else if len7 = 127 then if b.length < 10 then none else some (10, at64 b 2)
  else some (2, len7.toUInt64)

/-- `websocket.c:354-359`: header length and masking key. -/
def maskKey (b : Bytes) (mask : Bool) (headerLen : Nat) : Option (Nat × UInt32) :=
  if mask then if b.length < headerLen + 4 then none else some (headerLen + 4, at32 b headerLen)
  else some (headerLen, 0)

/-- `SSIZE_MAX` on 64 bit systems. -/
def ssizeMax : UInt64 := 0x7fffffffffffffff

/-- `websocket.c:338-377`: the rest of `__rrr_websocket_get_target_size` after the flags. The size of the frame (L361) is computed with 64 bits. -/
def parseRest (b : Bytes) (fin rsv1 rsv2 rsv3 : Bool) (opcode : UInt8) (mask : Bool) (len7 : UInt16) : Hdr :=
  match extLength b len7 with
  | none => .incomplete
  | some (hl, n) =>
    match maskKey b mask hl with
    | none => .incomplete
    | some (hl, key) =>
      let target := UInt64.ofNat hl + n
      if target > ssizeMax then .soft
      else .ok ⟨fin, rsv1, rsv2, rsv3, opcode, mask, hl, n, key⟩ target

/-- `websocket.c:310-377 __rrr_websocket_get_target_size`. -/
def parseHeader (b : Bytes) : Hdr :=
  if b.length < 2 then .incomplete
  else
    let flags := at16 b 0
    let len7 := flags &&& 0x7f
    let mask := (flags >>> 7) &&& 1 == 1
    let opcode := ((flags >>> 8) &&& 0xf).toUInt8
    let rsv3 := (flags >>> 12) &&& 1 == 1
    let rsv2 := (flags >>> 13) &&& 1 == 1
    let rsv1 := (flags >>> 14) &&& 1 == 1
    let fin := (flags >>> 15) &&& 1 == 1
    parseRest b fin rsv1 rsv2 rsv3 opcode mask len7

/-! ## The receiver -/

/-- A frame in the queue of frames to be sent. -/
structure Queued where
  opcode : UInt8
  payload : Bytes
deriving DecidableEq, Repr

/-- `websocket.h:66-83 struct rrr_websocket_state`, without the header, which is taken from the frame again. `delivered` records the calls
of the user's callback, `broken` that memory outside of the frame was written. -/
structure State where
  fragment : Option Bytes
  lastOpcode : UInt8
  waitingForPong : Bool
  queue : List Queued
  delivered : List (UInt8 × Bytes)
  broken : Bool
deriving DecidableEq, Repr

/-- A new state is zeroed memory. -/
def State.init : State := ⟨none, 0, false, [], [], false⟩

/-- Return values of the receive functions. -/
inductive Ret where
  | ok | soft | eof
deriving DecidableEq, Repr

/-- `websocket.c:379-418 __rrr_websocket_receive_callback_final_step`. -/
def finalStep (st : State) (payload : Bytes) : Ret × State :=
  if st.lastOpcode = 8 then (.eof, st)
  else if st.lastOpcode = 9 then (.ok, { st with queue := st.queue ++ [⟨10, []⟩] })
  else if st.lastOpcode = 10 then (.ok, { st with waitingForPong := false })
  else (.ok, { st with delivered := st.delivered ++ [(st.lastOpcode, payload)] })

/-- `websocket.c:433-486 __rrr_websocket_receive_callback_fragmentation_step`. -/
def fragmentationStep (st : State) (fin : Bool) (payload : Bytes) : Ret × State :=
  if st.lastOpcode = 0 then (.soft, { st with fragment := none })
  else if st.fragment = none ∧ fin then
    let (r, st) := finalStep st payload
    (r, { st with fragment := none })
  else
    let old := st.fragment.getD []
    if old.length + payload.length ≥ 2 ^ 64 then (.soft, { st with fragment := none })
    else if fin then
      let (r, st) := finalStep { st with fragment := some (old ++ payload) } (old ++ payload)
      (r, { st with fragment := none })
    else (.ok, { st with fragment := some (old ++ payload) })

/-- `websocket.c:517-543`, the checks of a frame which is not a continuation; `n` is the length of the payload. -/
def opcodeFine (opcode : UInt8) (fin : Bool) (n : Nat) : Bool :=
  if opcode = 8 ∨ opcode = 9 ∨ opcode = 10 then n ≤ 125 && fin
  else opcode = 1 ∨ opcode = 2

/-- `websocket.c:488-562 __rrr_websocket_receive_callback_interpret_step`; `msg` is the frame. The length of the payload is the difference of the length of the frame and
the header (64 bits); unmasking a payload of which this has wrapped writes far outside of the
frame. -/
def interpretStep (st : State) (h : Header) (msg : Bytes) : Ret × State :=
  if msg.length < h.headerLen then
    if h.mask then (.ok, { st with broken := true })
    else (.soft, st)                                     -- refused by L519 or L546 for its length
  else
    let payload := if h.mask then maskUnmask h.key (msg.drop h.headerLen) else msg.drop h.headerLen
    if h.opcode ≠ 0 then
      let st := { st with fragment := none }
      if !opcodeFine h.opcode h.fin payload.length then (.soft, st)
      else
        let st := { st with lastOpcode := h.opcode }
        if payload.length > 0xffffffff then (.soft, st) else fragmentationStep st h.fin payload
    else if payload.length > 0xffffffff then (.soft, st) else fragmentationStep st h.fin payload

/-- `websocket.c:571-602 rrr_websocket_transport_ctx_read_frames`: the callbacks given to the reading framework. The
header which the parser left in the state is that of the bytes it saw. -/
def user (step max : Nat) : Read.User State where
  tgt := fun _ b =>
    match parseHeader b with
    | .incomplete => .incomplete
    | .soft => .error
    | .ok _ n => .size n.toNat
  complete := fun st seen msg =>
    match parseHeader seen with
    | .ok h _ =>
      match interpretStep st h msg with
      | (.ok, st') => some st'
      | _ => none
    | _ => none
  step := step
  max := max

end Verif.Websocket
