import Verif.Udpstream.Model
/-!
# Model of the streams of one endpoint: connecting, resetting and finding them (`src/lib/udpstream/udpstream.c`)

A packet has passed the checks of `Verif/Udpstream/Wire.lean`. Memory is modelled as far as it is needed here: a stream which was destroyed while it is still used, and the memory for its remote address.
The times at which streams were last seen are not modelled, streams may be removed at any time instead. Sending answers succeeds.
-/
namespace Verif.Udpstream
open Verif

/-- A stream, udpstream.h:155-169. `key` stands for the address of the object. `addr` is the remote address; `addrLen` is `remote_addr_len` and `cap` the size of the memory allocated for the address. -/
structure Stream where
  key : Nat
  id : UInt16
  handle : UInt32
  addr : Bytes
  addrLen : Nat
  cap : Nat
  tx : Tx
  rx : Rx
deriving DecidableEq, Repr

/-- A packet, udpstream.h:80-93. `word` is the union of frame number, connect handle and window size. -/
structure Packet where
  type : UInt8
  boundary : Bool
  hasWindow : Bool
  version : UInt8
  id : UInt16
  word : UInt32
  ackFirst : UInt32
  ackLast : UInt32
  app : UInt64
  data : Bytes
deriving DecidableEq, Repr

/-- An answer. -/
inductive Reply where
  | reset (id : UInt16) (handle : UInt32)
  | connect (id : UInt16) (handle : UInt32)
  | frame (id : UInt16) (f : Frame)
  /-- the callback for control frames is called -/
  | control (handle : UInt32) (app : UInt64)
deriving DecidableEq, Repr

/-- The streams of an endpoint and its flags; `next` is the address of the next object. -/
structure Coll where
  streams : List Stream
  accept : Bool
  noSwap : Bool
  next : Nat
deriving DecidableEq, Repr

/-- What handling a packet leads to. -/
inductive Outcome where
  /-- done, maybe with answers -/
  | ok (c : Coll) (replies : List Reply)
  /-- `RRR_SOCKET_SOFT_ERROR` -/
  | soft (c : Coll)
  /-- a stream is read after it was freed -/
  | useAfterFree
  /-- memory outside of the address is read or written -/
  | overflow
  /-- `RRR_BUG` is called -/
  | bug
deriving DecidableEq, Repr

/-- `__rrr_udpstream_find_stream_by_stream_id`, udpstream.c:850-860. -/
def findId (l : List Stream) (id : UInt16) : Option Stream := l.find? (fun s => s.id == id)

/-- `__rrr_udpstream_find_stream_by_connect_handle`, udpstream.c:820-830. -/
def findHandle (l : List Stream) (h : UInt32) : Option Stream := l.find? (fun s => s.handle == h)

/-- `__rrr_udpstream_find_stream_by_connect_handle_stream_id_and_addr`, udpstream.c:832-848. `none`: memory outside of an address is compared. -/
def findConn (h : UInt32) (id : UInt16) (a : Bytes) : List Stream → Option (Option Stream)
  | [] => some none
  | s :: r =>
    if s.handle = h ∧ s.addrLen = a.length then
      if s.cap < a.length then none
      else if s.addr = a ∧ s.id = id then some (some s)
      else findConn h id a r
    else findConn h id a r

/-- The three functions which destroy streams, udpstream.c:862-895. -/
def destroyIf (p : Stream → Bool) (c : Coll) : Coll := { c with streams := c.streams.filter (fun s => !p s) }

/-- Change the stream at an address. -/
def modify (k : Nat) (f : Stream → Stream) (c : Coll) : Coll := { c with streams := c.streams.map (fun s => if s.key = k then f s else s) }

/-- `__rrr_udpstream_update_stream_remote`, udpstream.c:897-918. Memory for a `struct sockaddr`, 16 bytes, is allocated, and the length of the stream is not changed. `none`: memory outside is used. -/
def updateRemote (s : Stream) (a : Bytes) : Option Stream :=
  if s.addrLen ≠ a.length then (if a.length > 16 then none else some { s with addr := a, cap := 16 })
  else if s.cap < a.length then none
  else some { s with addr := a }

/-- The loop of `__rrr_udpstream_allocate_stream_id`, udpstream.c:506-520. -/
def allocLoop (l : List Stream) : Nat → UInt16 → UInt16
  | 0, _ => 0
  | n + 1, id => if l.any (fun s => s.id == id) then allocLoop l n (id + 1) else id

/-- `__rrr_udpstream_create_and_add_stream`, udpstream.c:473-498. -/
def create (c : Coll) (id : UInt16) (handle : UInt32) (a : Bytes) : Coll :=
  { c with streams := ⟨c.next, id, handle, a, a.length, a.length, .new, .new⟩ :: c.streams, next := c.next + 1 }

/-- The second half of `__rrr_udpstream_handle_received_connect`, udpstream.c:953-1029; `rand` is the random number for a new stream. -/
def handleConnect2 (c : Coll) (p : Packet) (a : Bytes) (rand : UInt16) : Outcome :=
  match findConn p.word 0 a c.streams with
  | none => .overflow
  | some (some s) =>
    if p.id ≠ 0 then
      if (findId c.streams p.id).isSome then .ok (destroyIf (fun s => s.handle == p.word) c) []
      else .ok (modify s.key (fun s => { s with id := p.id }) c) []
    else .ok c [.reset p.id p.word]
  | some none =>
    if p.id = 0 then
      if !c.accept then .soft c
      else if allocLoop c.streams 0xffff rand > 0 then .ok (create c (allocLoop c.streams 0xffff rand) p.word a) [.connect (allocLoop c.streams 0xffff rand) p.word]
      else .ok c [.connect 0 p.word]
    else .ok c [.reset p.id p.word]

/-- `__rrr_udpstream_handle_received_connect`, udpstream.c:920-1033. If the stream is already connected nothing is done. -/
def handleConnect (c : Coll) (p : Packet) (a : Bytes) (rand : UInt16) : Outcome :=
  if p.data.length ≠ 0 then .ok c []
  else match findConn p.word p.id a c.streams with
    | none => .overflow
    | some s => if s.isSome ∧ p.id ≠ 0 then .ok c [] else handleConnect2 c p a rand

/-- The stream which a packet belongs to, udpstream.c:1148-1157. -/
def target (c : Coll) (p : Packet) : Option Stream :=
  if p.id ≠ 0 then findId c.streams p.id else if p.word ≠ 0 then findHandle c.streams p.word else none

/-- Streams which a RESET destroys, udpstream.c:1188-1209. -/
def resets (p : Packet) (s : Stream) : Bool :=
  if p.id = 0 ∧ p.word ≠ 0 then s.handle == p.word
  else if p.id ≠ 0 ∧ p.word = 0 then s.id == p.id
  else s.handle == p.word && s.id == p.id

/-- The end of the function, udpstream.c:1295-1299: the stream is read. -/
def finish (k : Nat) (c : Coll) (replies : List Reply) : Outcome := if c.streams.any (fun s => s.key = k) then .ok c replies else .useAfterFree

/-- The frame of a data packet. -/
def Packet.frame (p : Packet) : Frame := ⟨p.word.toNat, p.boundary, p.data, p.app⟩

/-- A packet for a stream, udpstream.c:1188-1293. -/
def handleStream (c : Coll) (p : Packet) (s : Stream) (now : Nat) : Outcome :=
  if p.type = 0 then finish s.key (destroyIf (resets p) c) []
  else if p.id = 0 then finish s.key c []
  else
    let s' := if p.hasWindow then { s with tx := { s.tx with window := p.word.toNat } } else s
    if p.type = 4 then
      finish s.key (modify s.key (fun _ => { s' with tx := (s'.tx.ack ⟨p.ackFirst.toNat, p.ackLast.toNat, 0⟩ now).1 }) c)
        ((s'.tx.ack ⟨p.ackFirst.toNat, p.ackLast.toNat, 0⟩ now).2.map (fun f => Reply.frame s.id f))
    else if p.type = 5 then finish s.key (modify s.key (fun _ => s') c) [.control s.handle p.app]
    else match s'.rx.receive p.frame with
      | .ok rx => finish s.key (modify s.key (fun _ => { s' with rx := rx }) c) []
      | .destroyed => finish s.key (destroyIf (fun s => s.id == p.id) c) [.reset p.id p.word]
      | _ => .bug

/-- `__rrr_udpstream_handle_received_frame`, udpstream.c:1120-1304. -/
def handle (c : Coll) (p : Packet) (a : Bytes) (rand : UInt16) (now : Nat) : Outcome :=
  if p.version < 2 then .ok c []
  else if p.type = 1 then handleConnect c p a rand
  else match target c p with
    | none => if p.type ≠ 0 ∧ (p.id ≠ 0 ∨ p.word ≠ 0) then .ok c [.reset p.id 0] else .ok c []
    | some s =>
      if c.noSwap then
        if s.addrLen ≠ a.length then .ok c []
        else if s.cap < a.length then .overflow
        else if s.addr ≠ a then .ok c []
        else handleStream c p s now
      else match updateRemote s a with
        | none => .overflow
        | some s' => handleStream (modify s.key (fun _ => s') c) p s' now

/-- `__rrr_udpstream_send_connect`, udpstream.c:661-713. The handle is fixed by the application or not in use. -/
def connect (c : Coll) (handle : UInt32) (a : Bytes) : Coll := create c 0 handle a

/-- What happens to an endpoint. -/
inductive SEv where
  /-- a packet arrives from an address -/
  | packet (p : Packet) (a : Bytes) (rand : UInt16) (now : Nat)
  /-- the application connects -/
  | connect (handle : UInt32) (a : Bytes)
  /-- streams are removed: because of a timeout, by the application or after an error (udpstream.c:1719-1784) -/
  | remove (p : Stream → Bool)
  /-- the application queues a message for a stream -/
  | queue (k : Nat) (data : Bytes) (app : UInt64)
  /-- the send event is due for a stream -/
  | send (k : Nat) (now : Nat)
  /-- the deliver event is due for a stream -/
  | process (k : Nat) (verdict : Msg → Verdict) (ready : List Bool)

/-- The receive buffer of a stream is processed, udpstream.c:1719-1755. A stream is destroyed after an error. -/
def processStream (c : Coll) (k : Nat) (verdict : Msg → Verdict) (ready : List Bool) : Option Coll :=
  match c.streams.find? (fun s => s.key == k) with
  | none => some c
  | some s => match (s.rx.process verdict ready).2.2 with
    | .ok rx => some (modify k (fun _ => { s with rx := rx }) c)
    | .destroyed => some (destroyIf (fun s => s.key == k) c)
    | _ => none

/-- One step; `none` after an error of the program. -/
def sstep (c : Coll) : SEv → Option Coll
  | .packet p a rand now => match handle c p a rand now with
    | .ok c' _ => some c'
    | .soft c' => some c'
    | _ => none
  | .connect h a => some (connect c h a)
  | .remove p => some (destroyIf p c)
  | .queue k d app => some (modify k (fun s => { s with tx := (s.tx.queue d app).1 }) c)
  | .process k verdict ready => processStream c k verdict ready
  | .send k now => some (modify k (fun s => { s with tx := (s.tx.send now).1 }) c)

/-- Many steps. -/
def srun (c : Coll) : List SEv → Option Coll
  | [] => some c
  | e :: r => (sstep c e).bind (fun c' => srun c' r)

end Verif.Udpstream
