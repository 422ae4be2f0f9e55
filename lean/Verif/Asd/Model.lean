import Verif.Common
/-!
# Model of "assured single delivery", `src/lib/udpstream/udpstream_asd.c`

A sender keeps each message in a send queue until the receiver has said that it has been delivered (`CACK`). A receiver keeps each message in a release queue until the sender has said that it knows
of this (`RACK`), delivers it then, and remembers its id for a while.

The frames of the messages are sent with the UDP stream, which keeps them in order and does not repeat them, but may lose them; control frames may be lost, repeated and reordered in any way.
Time is not modelled: an entry of the send queue may be due for sending at any moment.

Not modelled: allocation failure, connecting, window sizes, the counters for statistics, `send_count`, `application_data` beyond 32 bits, messages with wrong checksums (as if lost).
-/
namespace Verif.Asd
open Verif

variable {α : Type}

/-- `RRR_UDPSTREAM_ASD_BUFFER_MAX`, udpstream_asd.c:44. -/
def BUFFER_MAX : Nat := 500
/-- `RRR_UDPSTREAM_ASD_DELIVERY_GRACE_COUNTER`, udpstream_asd.c:53 with udpstream.h:76-77. -/
def GRACE : Nat := 1500
/-- `RRR_UDPSTREAM_ASD_RELEASE_QUEUE_MAX`, udpstream_asd.c:49. -/
def RELEASE_MAX : Nat := 4500

/-- The flags of control frames, udpstream_asd.c:58-63. -/
inductive Flag where
  | rst | dack | rack | cack
deriving DecidableEq, Repr

/-- `struct rrr_udpstream_asd_queue_entry` in the send queue, udpstream_asd.c:74-82: `ack_status_flags` as separate flags. -/
structure SEnt (α : Type) where
  id : Nat
  msg : α
  fMsg : Bool := false
  fDack : Bool := false
  fRack : Bool := false
deriving DecidableEq, Repr

/-- The same in a release queue. The message is dropped once it has been delivered. -/
structure REnt (α : Type) where
  id : Nat
  msg : Option α
  grace : Int := 0
deriving DecidableEq, Repr

/-- An outcome: `bug` is `RRR_BUG`, which ends the program, or the use of a message which is no longer there. -/
inductive Res (β : Type) where
  | ok (x : β)
  | bug
deriving DecidableEq, Repr

def Res.bind {β γ : Type} : Res β → (β → Res γ) → Res γ
  | .ok x, f => f x
  | .bug, _ => .bug

/-- The loop of `__rrr_udpstream_asd_queue_find_entry`, udpstream_asd.c:170-177. -/
def findLoop {β : Type} (key : β → Nat) (id : Nat) : List β → Option β
  | [] => none
  | e :: t => if key e > id then none else if key e = id then some e else findLoop key id t

/-- The id is less than that of the first entry, udpstream_asd.c:163-165 and :186-188. -/
def beforeFirst {β : Type} (key : β → Nat) (q : List β) (id : Nat) : Bool :=
  match q.head? with
  | some f => decide (id < key f)
  | none => false

/-- The id is greater than that of the last entry, udpstream_asd.c:166-168 and :189-191. -/
def afterLast {β : Type} (key : β → Nat) (q : List β) (id : Nat) : Bool :=
  match q.getLast? with
  | some l => decide (id > key l)
  | none => false

/-- `__rrr_udpstream_asd_queue_find_entry`, udpstream_asd.c:159-180. -/
def findEntry {β : Type} (key : β → Nat) (q : List β) (id : Nat) : Option β :=
  if beforeFirst key q id then none
  else if afterLast key q id then none
  else findLoop key id q

/-- The loop of `__rrr_udpstream_asd_queue_remove_entry`, udpstream_asd.c:193-201. A node with a greater id is the last one which is looked at. -/
def removeLoop {β : Type} (key : β → Nat) (id : Nat) : List β → List β
  | [] => []
  | e :: t => if key e > id then e :: t else if key e = id then t else e :: removeLoop key id t

/-- `__rrr_udpstream_asd_queue_remove_entry`, udpstream_asd.c:182-202. -/
def removeEntry {β : Type} (key : β → Nat) (q : List β) (id : Nat) : List β :=
  if beforeFirst key q id then q
  else if afterLast key q id then q
  else removeLoop key id q

/-- The loop of `__rrr_udpstream_asd_queue_insert_ordered`, udpstream_asd.c:303-309; `none` if the entry was not inserted. -/
def insertLoop {β : Type} (key : β → Nat) (x : β) : List β → Option (List β)
  | [] => none
  | e :: t => if key x < key e then some (x :: e :: t) else (insertLoop key x t).map (e :: ·)

/-- `__rrr_udpstream_asd_queue_insert_ordered`, udpstream_asd.c:294-317. -/
def insertOrdered {β : Type} (key : β → Nat) (q : List β) (x : β) : Res (List β) :=
  if (match q.getLast? with | some l => decide (key l < key x) | none => true) then .ok (q ++ [x])
  else match insertLoop key x q with
    | some q' => .ok q'
    | none => .bug

/-- `__rrr_udpstream_asd_queue_incref_and_insert_entry`, udpstream_asd.c:319-351: nothing happens if the id is there. -/
def insertEntry {β : Type} (key : β → Nat) (q : List β) (x : β) : Res (List β) :=
  match findEntry key q (key x) with
  | some _ => .ok q
  | none => insertOrdered key q x

/-- The entry which was found, changed in place. -/
def modify {β : Type} (key : β → Nat) (id : Nat) (f : β → β) : List β → List β
  | [] => []
  | e :: t => if key e = id then f e :: t else e :: modify key id f t

/-! ### The sender -/

/-- The sending side of `struct rrr_udpstream_asd`. -/
structure Tx (α : Type) where
  pos : Nat := 0
  queue : List (SEnt α) := []
deriving DecidableEq, Repr

/-- udpstream_asd.c:664-667: `message_id_pos` has 32 bits, and 0 is left out. -/
def nextId (pos : Nat) : Nat := if (pos + 1) % 2 ^ 32 = 0 then 1 else (pos + 1) % 2 ^ 32

/-- `rrr_udpstream_asd_queue_and_incref_message`, udpstream_asd.c:648-691. `none`: `RRR_UDPSTREAM_ASD_NOT_READY`, as the queue is full. -/
def Tx.enqueue (t : Tx α) (m : α) : Res (Option (Tx α)) :=
  if t.queue.length ≥ BUFFER_MAX then .ok none
  else
    match findEntry SEnt.id t.queue (nextId t.pos) with
    | some _ => .bug
    | none => (insertEntry SEnt.id t.queue { id := nextId t.pos, msg := m }).bind fun q => .ok (some { pos := nextId t.pos, queue := q })

/-- What is sent for an entry of the send queue. -/
inductive Out (α : Type) where
  | nothing
  | data (id : Nat) (m : α)
  | ctl (f : Flag) (id : Nat)

/-- One round of the loop of `__rrr_udpstream_asd_do_send_tasks`, udpstream_asd.c:748-804, for an entry which is due. `ready`: the UDP stream takes the message. -/
def sendEntry (e : SEnt α) (ready : Bool) : Res (SEnt α × Out α) :=
  -- :767: the flags are zero or `MSG`
  if !e.fDack && !e.fRack then
    if ready then .ok ({ e with fMsg := true }, .data e.id e.msg) else .ok (e, .nothing)
  else if e.fDack then .ok ({ e with fRack := true }, .ctl .rack e.id)
  else .bug

/-- The entry `id` of the send queue is due. -/
def Tx.send (t : Tx α) (id : Nat) (ready : Bool) : Res (Tx α × Out α) :=
  match t.queue.find? (fun e => e.id == id) with
  | none => .ok (t, .nothing)
  | some e => (sendEntry e ready).bind fun x => .ok ({ t with queue := modify SEnt.id id (fun _ => x.1) t.queue }, x.2)

/-- `__rrr_udpstream_asd_control_frame_callback`, udpstream_asd.c:549-646, for the frames a sender receives: the new state and the reply. -/
def Tx.control (t : Tx α) (f : Flag) (id : Nat) : Tx α × Option (Flag × Nat) :=
  match f with
  -- :564-579
  | .dack =>
    match findEntry SEnt.id t.queue id with
    | some _ => ({ t with queue := modify SEnt.id id (fun e => { e with fDack := true }) t.queue }, some (.rack, id))
    | none => (t, some (.rack, id))
  -- :608-620
  | .cack => ({ t with queue := removeEntry SEnt.id t.queue id }, none)
  | _ => (t, none)

/-! ### The receiver -/

/-- The receiving side: the release queues by connect handle, `delivery_grace_started_count`, and what has been delivered to the application (handle, id and message). -/
structure Rx (α : Type) where
  queues : List (Nat × List (REnt α)) := []
  started : Nat := 0
  log : List (Nat × Nat × α) := []
deriving DecidableEq, Repr

/-- `__rrr_udpstream_asd_queue_collection_count_entries`, udpstream_asd.c:282-292. -/
def Rx.count (r : Rx α) : Nat := (r.queues.map (fun q => q.2.length)).sum

/-- `__rrr_udpstream_asd_queue_collection_incref_and_insert_entry`, udpstream_asd.c:372-402. -/
def insertQueue (h : Nat) (x : REnt α) : List (Nat × List (REnt α)) → Res (List (Nat × List (REnt α)))
  | [] => (insertEntry REnt.id [] x).bind fun q => .ok [(h, q)]
  | (h', q) :: t =>
    if h = h' then (insertEntry REnt.id q x).bind fun q => .ok ((h', q) :: t)
    else (insertQueue h x t).bind fun t => .ok ((h', q) :: t)

/-- A message from the UDP stream: `__rrr_udpstream_asd_receive_messages_possible_callback` (udpstream_asd.c:932-939; if it says no the message stays in the UDP stream, here `none`) and
`__rrr_udpstream_asd_receive_messages_callback_final` (:874-930). The reply is `DACK`. -/
def Rx.data (r : Rx α) (h id : Nat) (m : α) : Res (Option (Rx α × (Flag × Nat))) :=
  if r.count < RELEASE_MAX then
    (insertQueue h { id := id, msg := some m } r.queues).bind fun q => .ok (some ({ r with queues := q }, (.dack, id)))
  else .ok none

/-- `__rrr_udpstream_asd_queue_collection_find_entry`, udpstream_asd.c:250-262. -/
def findQueue (h id : Nat) : List (Nat × List (REnt α)) → Option (REnt α)
  | [] => none
  | (h', q) :: t => if h' = h then findEntry REnt.id q id else findQueue h id t

/-- The entry which was found, changed in place. -/
def modifyQueue (h id : Nat) (f : REnt α → REnt α) : List (Nat × List (REnt α)) → List (Nat × List (REnt α))
  | [] => []
  | (h', q) :: t => if h' = h then (h', modify REnt.id id f q) :: t else (h', q) :: modifyQueue h id f t

/-- `__rrr_udpstream_asd_queue_entry_deliver`, udpstream_asd.c:217-248, when the callback of the application does not fail. -/
def Rx.deliver (r : Rx α) (h : Nat) (e : REnt α) : Res (Rx α) :=
  if e.grace ≠ 0 then .ok r
  else match e.msg with
    | none => .bug
    | some m => .ok { queues := modifyQueue h e.id (fun e => { e with msg := none, grace := GRACE }) r.queues, started := r.started + 1, log := r.log ++ [(h, e.id, m)] }

/-- `__rrr_udpstream_asd_control_frame_callback`, udpstream_asd.c:549-646, for the frames a receiver receives. -/
def Rx.control (r : Rx α) (h : Nat) (f : Flag) (id : Nat) : Res (Rx α × Option (Flag × Nat)) :=
  match f with
  -- :580-607
  | .rack =>
    match findQueue h id r.queues with
    | some e => (r.deliver h e).bind fun r => .ok (r, some (.cack, id))
    | none => .ok (r, some (.cack, id))
  -- :621-625, :529-538
  | .rst => .ok ({ r with queues := r.queues.map (fun q => if q.1 = h then (q.1, []) else q) }, none)
  | _ => .ok (r, none)

/-- `__rrr_udpstream_asd_queue_update_delivery_grace`, udpstream_asd.c:987-1010. -/
def updateGrace (n : Nat) : List (REnt α) → List (REnt α)
  | [] => []
  | e :: t =>
    if e.grace > 0 then
      if e.grace - n ≤ 0 then updateGrace n t else { e with grace := e.grace - n } :: updateGrace n t
    else e :: updateGrace n t

/-- `__rrr_udpstream_asd_deliver_and_maintain_queues`, udpstream_asd.c:1073-1102, with :1034-1070: the count is set to zero for each queue. -/
def maintainLoop : Nat → List (Nat × List (REnt α)) → List (Nat × List (REnt α))
  | _, [] => []
  | n, (h, q) :: t => (h, updateGrace n q) :: maintainLoop 0 t

def Rx.maintain (r : Rx α) : Rx α :=
  { r with queues := maintainLoop r.started r.queues, started := if r.queues.isEmpty then r.started else 0 }

/-! ### One sender, one receiver and the network -/

structure World (α : Type) where
  tx : Tx α := {}
  rx : Rx α := {}
  /-- the messages on their way, in order -/
  stream : List (Nat × α) := []
  /-- the control frames which have been sent to the sender, newest first -/
  toS : List (Flag × Nat) := []
  /-- the same to the receiver -/
  toR : List (Flag × Nat) := []
  /-- the messages which the sender has accepted -/
  accepted : List α := []
deriving DecidableEq, Repr

inductive Act (α : Type) where
  /-- the application gives a message to the sender -/
  | queue (m : α)
  /-- an entry of the send queue is due -/
  | send (id : Nat) (ready : Bool)
  /-- the next message of the stream arrives -/
  | data
  /-- a message is lost -/
  | lose (i : Nat)
  /-- control frame `i` arrives at the sender; it may arrive again later, or never -/
  | toS (i : Nat)
  /-- the same at the receiver -/
  | toR (i : Nat)
  /-- the periodic tasks of the receiver -/
  | maintain
  /-- the sender sends a reset frame, `__rrr_udpstream_asd_buffer_after_connect_tasks` (udpstream_asd.c:440-458) -/
  | reset
  /-- the sender begins anew, with an empty send queue (`rrr_udpstream_asd_new`, udpstream_asd.c:1167) -/
  | restart
deriving DecidableEq, Repr

def World.out (w : World α) : Out α → World α
  | .nothing => w
  | .data id m => { w with stream := w.stream ++ [(id, m)] }
  | .ctl f id => { w with toR := (f, id) :: w.toR }

def reply (l : List (Flag × Nat)) : Option (Flag × Nat) → List (Flag × Nat)
  | none => l
  | some x => x :: l

/-- One step. The handle of the sender is 1. A step which has nothing to act on does nothing. -/
def World.step (w : World α) : Act α → Res (World α)
  | .queue m => (w.tx.enqueue m).bind fun
    | none => .ok w
    | some t => .ok { w with tx := t, accepted := w.accepted ++ [m] }
  | .send id ready => (w.tx.send id ready).bind fun x => .ok ({ w with tx := x.1 }.out x.2)
  | .data =>
    match w.stream with
    | [] => .ok w
    | (id, m) :: t => (w.rx.data 1 id m).bind fun
      | none => .ok w
      | some x => .ok { w with rx := x.1, stream := t, toS := x.2 :: w.toS }
  | .lose i => .ok { w with stream := w.stream.eraseIdx i }
  | .toS i =>
    match w.toS[i]? with
    | none => .ok w
    | some (f, id) => let x := w.tx.control f id; .ok { w with tx := x.1, toR := reply w.toR x.2 }
  | .toR i =>
    match w.toR[i]? with
    | none => .ok w
    | some (f, id) => (w.rx.control 1 f id).bind fun x => .ok { w with rx := x.1, toS := reply w.toS x.2 }
  | .maintain => .ok { w with rx := w.rx.maintain }
  | .reset => .ok { w with toR := (.rst, 0) :: w.toR }
  | .restart => .ok { w with tx := {} }

def World.run (w : World α) : List (Act α) → Res (World α)
  | [] => .ok w
  | a :: as => (w.step a).bind fun w => w.run as

end Verif.Asd
