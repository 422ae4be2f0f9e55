import Verif.Common
/-!
# Model of one direction of a stream of `src/lib/udpstream/udpstream.c`

The sender cuts messages into frames with consecutive numbers, keeps them until they are acknowledged and sends them again. The receiver puts the frames into order and joins them. Between them is UDP: frames
and acknowledgements may be lost, duplicated and put out of order. Here the stream is established; connecting and resetting is in `Verif/Udpstream/Streams.lean`, the format on the wire in `Verif/Udpstream/Wire.lean`.

Frame numbers are 32 bit in the program. The sender uses those up to 50000000 only; the differences are taken of a larger and a smaller number, so that none wraps around. Lack of memory is not modelled.
-/
namespace Verif.Udpstream
open Verif

/-- A data frame (udpstream.h:80-93, :133-146): number, whether it ends a message, data and the number given by the application. -/
structure Frame where
  id : Nat
  boundary : Bool
  data : Bytes
  app : UInt64
deriving DecidableEq, Repr

/-! ## Sender -/

/-- A frame in the send buffer. `last` is the time at which it was sent, 0 if it was not. -/
structure Entry where
  frame : Frame
  last : Nat
  unack : Nat
deriving DecidableEq, Repr

/-- The sending half of a stream, udpstream.h:155-169; `event` says if `event_send` is waiting. -/
structure Tx where
  buf : List Entry
  counter : Nat
  window : Nat
  lastAck : Nat
  event : Bool
deriving DecidableEq, Repr

/-- A new stream, udpstream.c:303-323; the window is `RRR_UDPSTREAM_WINDOW_SIZE_INITIAL`, udpstream.h:76-78. -/
def Tx.new : Tx := ⟨[], 0, 750 * 2 / 4, 0, false⟩

/-- The loop of `rrr_udpstream_queue_outbound_data`, udpstream.c:2035-2052. Each turn takes at least one byte, so that `fuel` may be the length. -/
def cutLoop (app : UInt64) : Nat → Nat → Bytes → List Frame
  | 0, _, _ => []
  | fuel + 1, counter, data =>
    if data.length > 0 then
      let size := if data.length > 1024 then 1024 else data.length
      ⟨counter + 1, false, data.take size, app⟩ :: cutLoop app fuel (counter + 1) (data.drop size)
    else []

/-- udpstream.c:2055-2057: the last frame gets the boundary flag. -/
def markLast : List Frame → List Frame
  | [] => []
  | [f] => [{ f with boundary := true }]
  | f :: g :: r => f :: markLast (g :: r)

/-- `rrr_udpstream_queue_outbound_data`, udpstream.c:2002-2065, for an established stream. `false` is `RRR_UDPSTREAM_NOT_READY`. -/
def Tx.queue (tx : Tx) (data : Bytes) (app : UInt64) : Tx × Bool :=
  if tx.buf.length ≥ 750 then (tx, false)
  else if tx.counter + (data.length / 1024 + 1) > 50000000 then (tx, false)
  else
    let frames := markLast (cutLoop app data.length tx.counter data)
    ({ tx with buf := tx.buf ++ frames.map (fun f => ⟨f, 0, 0⟩), counter := tx.counter + frames.length, event := true }, true)

/-- udpstream.c:1815: the time is 64 bit, a clock which has been set back gives a large difference. -/
def tooLong (now last : Nat) : Bool := now < last || now - last > 1000 * 1000

/-- The loop of `__rrr_udpstream_send_loop`, udpstream.c:1801-1837: the buffer after it, the frames sent and whether all was looked at. A frame is stamped with the time at which the loop began. -/
def sendLoop (now window : Nat) : Nat → Nat → List Entry → List Entry × List Frame × Bool
  | _, _, [] => ([], [], true)
  | missing, sent, e :: r =>
    let missing' := if e.last = 0 then missing + 1 else if tooLong now e.last || e.unack ≥ 5 then missing else missing + 1
    let doSend : Bool := if e.last = 0 then missing + 1 < window else tooLong now e.last || e.unack ≥ 5
    if doSend then
      if sent + 1 ≥ 100 then ({ e with last := now, unack := 0 } :: r, [e.frame], false)
      else
        let x := sendLoop now window missing' (sent + 1) r
        ({ e with last := now, unack := 0 } :: x.1, e.frame :: x.2.1, x.2.2)
    else
      let x := sendLoop now window missing' sent r
      (e :: x.1, x.2.1, x.2.2)

/-- `__rrr_udpstream_event_send`, udpstream.c:2097-2121: it runs only while it is waiting, and is removed when all was looked at. -/
def Tx.send (tx : Tx) (now : Nat) : Tx × List Frame :=
  if tx.event then
    let x := sendLoop now tx.window 0 0 tx.buf
    ({ tx with buf := x.1, event := !x.2.2 }, x.2.1)
  else (tx, [])

/-- An acknowledgement: the first and last number, and the window size if it is not 0 (udpstream.c:525-551). -/
structure Ack where
  first : Nat
  last : Nat
  window : Nat
deriving DecidableEq, Repr

/-- The loop of `__rrr_udpstream_handle_received_frame_ack`, udpstream.c:1060-1073; `nag` is `nag_id`, -1 is `none`. -/
def ackFrames (a : Ack) (nag : Option Nat) (now : Nat) : List Entry → List Entry × List Frame
  | [] => ([], [])
  | e :: r =>
    if e.frame.id ≥ a.first ∧ e.frame.id ≤ a.last then ackFrames a nag now r
    else if nag.map (· + 1) = some e.frame.id then ({ e with last := now, unack := 0 } :: (ackFrames a nag now r).1, e.frame :: (ackFrames a nag now r).2)
    else ({ e with unack := e.unack + 1 } :: (ackFrames a nag now r).1, (ackFrames a nag now r).2)

/-- An acknowledgement arrives: udpstream.c:1212-1226 and `__rrr_udpstream_handle_received_frame_ack`, :1035-1077. -/
def Tx.ack (tx : Tx) (a : Ack) (now : Nat) : Tx × List Frame :=
  let window := if a.window ≠ 0 then a.window else tx.window
  let nag := if a.first = a.last ∧ a.last = tx.lastAck then some tx.lastAck else none
  let lastAck := if a.first = a.last then a.last else tx.lastAck
  let x := ackFrames a nag now tx.buf
  ({ tx with buf := x.1, window := window, lastAck := lastAck }, x.2)

/-! ## Receiver -/

/-- A frame in the receive buffer. -/
structure RFrame where
  frame : Frame
  grace : Int
deriving DecidableEq, Repr

/-- The receiving half of a stream, udpstream.h:148-169. `regulation` is `window_size_regulation_from_application`. -/
structure Rx where
  buf : List RFrame
  counter : Nat
  prev : Nat
  window : Nat
  regulation : Int
deriving DecidableEq, Repr

/-- A new stream, udpstream.c:303-323. -/
def Rx.new : Rx := ⟨[], 0, 0, 750 * 2 / 4, 0⟩

/-- The loop of udpstream.c:1271-1289 with the append which follows. `none`: `RRR_BUG` is called. -/
def insertLoop (f : RFrame) : Nat → List RFrame → Option (List RFrame)
  | _, [] => some [f]
  | max, n :: r =>
    if n.frame.id = f.frame.id then some (n :: r)
    else if f.frame.id < n.frame.id then some (f :: n :: r)
    else if n.frame.id < max then none
    else (insertLoop f n.frame.id r).map (n :: ·)

/-- udpstream.c:1266-1293. -/
def insert (f : RFrame) (buf : List RFrame) : Option (List RFrame) :=
  match buf.getLast? with
  | some l => if f.frame.id > l.frame.id then some (buf ++ [f]) else insertLoop f 0 buf
  | none => insertLoop f 0 buf

/-- What happens to the receiving stream. -/
inductive Res (α : Type) where
  | ok (a : α)
  /-- the stream is destroyed -/
  | destroyed
  /-- `RRR_BUG` is called -/
  | bug
  /-- memory outside of the object is written -/
  | overrun
deriving DecidableEq, Repr

/-- A data frame arrives: the end of `__rrr_udpstream_handle_received_frame`, udpstream.c:1237-1293. -/
def Rx.receive (rx : Rx) (f : Frame) : Res Rx :=
  if f.id = 0 then .ok rx
  else if rx.counter = 0 ∧ f.id ≠ 1 then .destroyed
  else match insert ⟨f, 0⟩ rx.buf with
    | some buf => .ok { rx with buf := buf, counter := if f.id = rx.counter + 1 then rx.counter + 1 else rx.counter }
    | none => .bug

/-- udpstream.c:1530-1531: `first_ack_id`. -/
def firstOf (first id : Nat) : Nat := if first = 0 then id else first

/-- The first loop of `__rrr_udpstream_process_receive_buffer`, udpstream.c:1523-1595: the ranges to acknowledge, the buffer with new grace counters, and the change of the window. -/
def ackLoop (prev : Nat) : Nat → Nat → List RFrame → List (Nat × Nat) × List RFrame × Int
  | _, _, [] => ([], [], 0)
  | first, last, n :: r =>
    if first = 0 ∧ prev ≠ 0 ∧ n.frame.id > prev ∧ n.frame.id - prev > 1 then
      ((prev, prev) :: (ackLoop prev n.frame.id n.frame.id r).1, n :: (ackLoop prev n.frame.id n.frame.id r).2.1, (ackLoop prev n.frame.id n.frame.id r).2.2 - 2)
    else if last ≠ 0 ∧ n.frame.id > last ∧ n.frame.id - last > 1 then
      ((firstOf first n.frame.id, last) :: (ackLoop prev n.frame.id n.frame.id r).1, n :: (ackLoop prev n.frame.id n.frame.id r).2.1, (ackLoop prev n.frame.id n.frame.id r).2.2 - 2)
    else if r.isEmpty then
      if n.grace - 1 ≤ 0 then ([(firstOf first n.frame.id, n.frame.id)], [{ n with grace := 50 }], 1)
      else ([], [{ n with grace := n.grace - 1 }], 1)
    else
      ((ackLoop prev (firstOf first n.frame.id) n.frame.id r).1, n :: (ackLoop prev (firstOf first n.frame.id) n.frame.id r).2.1, (ackLoop prev (firstOf first n.frame.id) n.frame.id r).2.2)

/-- `__rrr_udpstream_regulate_window_size`, udpstream.c:1102-1118. -/
def regulate (window : Nat) (adjust : Int) : Nat :=
  let t := (window : Int) + adjust
  let t := if t < 10 then 10 else t
  let t := if t > 1500 then 1500 else t
  t.toNat

/-- The second loop, udpstream.c:1600-1627: the window is regulated for each acknowledgement. -/
def sendAcks (adjust : Int) : Nat → List (Nat × Nat) → Nat × List Ack
  | window, [] => (window, [])
  | window, (a, b) :: r =>
    let w := regulate window adjust
    let x := sendAcks adjust w r
    (x.1, ⟨a, b, if adjust ≠ 0 then w else 0⟩ :: x.2)

/-- The loop which looks for a complete message, udpstream.c:1644-1675: the buffer after frames which have been delivered were removed, and the number of frames of the message. `none` instead of a pair:
`RRR_BUG` is called. -/
def scan (prev : Nat) : Nat → Nat → List RFrame → Option (List RFrame × Option Nat)
  | _, _, [] => some ([], none)
  | count, size, n :: r =>
    if n.frame.id > prev then
      if n.frame.id - prev > 1 + count then some (n :: r, none)
      else if n.frame.boundary then some (n :: r, some (count + 1))
      else (scan prev (count + 1) (size + n.frame.data.length) r).map (fun x => (n :: x.1, x.2))
    else if size ≠ 0 then none
    else scan prev count size r

/-- What the application does with a message which is complete: it takes it, or the validator refuses it and it is dropped (udpstream.c:1416-1436), or there is an error (udpstream.c:1449-1453, :1699-1709). -/
inductive Verdict where
  | take | refuse | error
deriving DecidableEq, Repr

/-- A message: data and the number given by the application. -/
structure Msg where
  data : Bytes
  app : UInt64
deriving DecidableEq, Repr

/-- The frames which are joined: the data of all of them, and the number of the last (udpstream.c:1399-1446). -/
def join (l : List RFrame) : Msg := ⟨(l.map (fun n => n.frame.data)).flatten, ((l.getLast?.map (fun n => n.frame.app)).getD 0)⟩

/-- The loop from `deliver_again`, udpstream.c:1633-1711. `ready` are the answers of `upstream_final_receive_possible_callback`, one for each turn; there are no more than frames. The messages handed over, with
what was done with them, and the state. The size of the message is calculated in 32 bits and that much memory is allocated; then all frames are copied. -/
def deliverLoop (verdict : Msg → Verdict) : List Bool → Rx → List (Msg × Verdict) × Res Rx
  | [], rx => ([], .ok rx)
  | false :: _, rx => ([], .ok rx)
  | true :: ready, rx =>
    match scan rx.prev 0 0 rx.buf with
    | none => ([], .bug)
    | some (buf, none) => ([], .ok { rx with buf := buf })
    | some (buf, some n) =>
      let m := join (buf.take n)
      if m.data.length ≥ 2 ^ 32 then ([], .overrun)
      else match verdict m with
        | .error => ([(m, .error)], .destroyed)
        | v =>
          let x := deliverLoop verdict ready { rx with buf := buf.drop n, prev := ((buf.take n).getLast?.map (fun n => n.frame.id)).getD 0 }
          ((m, v) :: x.1, x.2)

/-- `__rrr_udpstream_process_receive_buffer`, udpstream.c:1495-1717: acknowledgements, what was handed over, and the state. -/
def Rx.process (rx : Rx) (verdict : Msg → Verdict) (ready : List Bool) : List Ack × List (Msg × Verdict) × Res Rx :=
  let x := ackLoop rx.prev 0 0 rx.buf
  let adjust := rx.regulation + x.2.2
  let acks := sendAcks adjust rx.window x.1
  let y := deliverLoop verdict ready { rx with buf := x.2.1, window := acks.1, regulation := 0 }
  (acks.2, y.1, y.2)

/-! ## Both, and the network between them -/

/-- The sender, the receiver, all which was ever sent, the messages accepted for sending and those handed over. -/
structure Sys where
  tx : Tx
  rx : Res Rx
  frames : List Frame
  acks : List Ack
  queued : List Msg
  handed : List (Msg × Verdict)

def Sys.new : Sys := ⟨.new, .ok .new, [], [], [], []⟩

/-- What can happen. The network may deliver anything which was ever sent, any number of times and in any order, or never. -/
inductive Ev where
  /-- the application of the sender queues a message -/
  | queue (data : Bytes) (app : UInt64)
  /-- the send event of the sender is due -/
  | send (now : Nat)
  /-- a frame arrives at the receiver -/
  | frame (i : Nat)
  /-- an acknowledgement arrives at the sender -/
  | ack (i : Nat) (now : Nat)
  /-- the deliver event of the receiver is due -/
  | process (verdict : Msg → Verdict) (ready : List Bool)
  /-- the application of the receiver regulates the window, udpstream.c:1941-1964 -/
  | regulate (change : Int)

/-- A frame arrives. A receiving stream which is destroyed does nothing any more. -/
def Sys.frame (s : Sys) (i : Nat) : Sys :=
  match s.rx, s.frames[i]? with
  | .ok rx, some f => { s with rx := rx.receive f }
  | _, _ => s

/-- An acknowledgement arrives. -/
def Sys.ack (s : Sys) (i now : Nat) : Sys :=
  match s.acks[i]? with
  | some a => { s with tx := (s.tx.ack a now).1, frames := s.frames ++ (s.tx.ack a now).2 }
  | none => s

/-- The receive buffer is processed. -/
def Sys.process (s : Sys) (verdict : Msg → Verdict) (ready : List Bool) : Sys :=
  match s.rx with
  | .ok rx => { s with rx := (rx.process verdict ready).2.2, acks := s.acks ++ (rx.process verdict ready).1, handed := s.handed ++ (rx.process verdict ready).2.1 }
  | _ => s

/-- The window is regulated. -/
def Sys.regulate (s : Sys) (change : Int) : Sys :=
  match s.rx with
  | .ok rx => { s with rx := .ok { rx with regulation := rx.regulation + change } }
  | _ => s

/-- One step. -/
def step (s : Sys) : Ev → Sys
  | .queue data app => { s with tx := (s.tx.queue data app).1, queued := if (s.tx.queue data app).2 then s.queued ++ [⟨data, app⟩] else s.queued }
  | .send now => { s with tx := (s.tx.send now).1, frames := s.frames ++ (s.tx.send now).2 }
  | .frame i => s.frame i
  | .ack i now => s.ack i now
  | .process verdict ready => s.process verdict ready
  | .regulate change => s.regulate change

/-- Many steps. -/
def run (s : Sys) (h : List Ev) : Sys := h.foldl step s

end Verif.Udpstream
