import Verif.IdPool.Props
import Verif.Mqtt.Packet
import Verif.Fifo.Spec
/-!
# Model of the packet queues of an MQTT session

`src/lib/mqtt/mqtt_session_ram.c` and the packet handlers in `src/lib/mqtt/mqtt_common.c`.

A session has four queues: packets to the remote (`toRemote`), retained messages to be sent after a SUBACK (`delayed`),
messages from the remote whose handshake is in progress (`fromRemote`) and packets whose handshake is complete but whose
packet identifiers must not be used again yet (`grace`).

Simplifications: memory allocation succeeds; reference counts are not modelled (a packet leaves the model when the queue which
owns its identifier drops it); the acknowledgements which a packet holds are flags, as they carry nothing but the identifier
and the reason; the clock is a natural number of microseconds and does not change during one call; the queues are lists
(the pointer structure of `fifo.c` is the subject of `Verif.Fifo`). `none` as result is an abort (`RRR_BUG`).
-/
namespace Verif.Session
open Verif

/-- A PUBLISH packet in a queue, `mqtt_packet.h:155-190, 330-370 struct rrr_mqtt_p_publish`. `key` stands for the
message which the packet carries, `size` is `received_size`. -/
structure Pub where
  key : Nat
  topic : Bytes
  payload : Option Bytes
  qos : Nat
  dup : Bool := false
  retain : Bool := false
  id : BitVec 16 := 0
  outbound : Bool := false
  lastAttempt : Nat := 0
  plannedExpiry : Nat := 0
  createTime : Nat := 0
  expiry : Nat := 0
  size : Nat := 0
  puback : Bool := false
  pubrec : Bool := false
  pubrel : Bool := false
  pubcomp : Bool := false
deriving DecidableEq, Repr

/-- A SUBSCRIBE or UNSUBSCRIBE packet in a queue, `struct rrr_mqtt_p_sub_usub`. Its `is_outbound` is never set. -/
structure SubPkt where
  key : Nat
  unsub : Bool
  id : BitVec 16 := 0
  lastAttempt : Nat := 0
  plannedExpiry : Nat := 0
  acked : Bool := false
deriving DecidableEq, Repr

/-- An entry of the queue to the remote. -/
inductive Item where
  | pub (p : Pub)
  | sub (s : SubPkt)
deriving DecidableEq, Repr

/-- The packets with `is_ack` which reach a session. -/
inductive AckKind where
  | puback | pubrec | pubrel | pubcomp | suback | unsuback
deriving DecidableEq, Repr

/-- An acknowledgement. -/
structure Ack where
  kind : AckKind
  id : BitVec 16
  reason : UInt8 := 0
deriving DecidableEq, Repr

/-- What is handed to the connection for transmission. -/
inductive Wire where
  | publish (p : Pub)
  | ack (a : Ack)
  | sub (s : SubPkt)
deriving DecidableEq, Repr

/-- `mqtt_session_ram.c:49-77 struct rrr_mqtt_session_ram`: queues and the parameters which are used on them. `broker` chooses
the pretransmit method (`:96-97, 542-573, 611-623`). -/
structure Session where
  toRemote : List Item := []
  delayed : List Pub := []
  fromRemote : List Pub := []
  grace : List Item := []
  pool : IdPool.Pool := IdPool.init
  maxInFlight : Nat := 125
  receiveMax : Nat := 0
  retry : Nat := 3000000
  graceTime : Nat := 2000000
  broker : Bool := true

/-! ## Acknowledgements -/

/-- Return values of the callbacks for `rrr_fifo_read`: `RRR_FIFO_OK`, `RRR_FIFO_SEARCH_STOP`, `RRR_FIFO_CALLBACK_ERR`. -/
inductive Ret where
  | ok | stop | err
deriving DecidableEq, Repr

/-- Result of a callback: return value, the entry (changed in place), messages delivered, and the number of matches. -/
structure CbRes (α : Type) where
  ret : Ret
  item : α
  delivered : List Pub
  found : Nat

/-- `mqtt_session_ram.c:1631-1674, 1773`: a PUBACK for `p`. When the PUBACK is for a message from the remote and is the first one, the
message is delivered and the return value of the delivery (0) replaces STOP (L1649), so that the walk goes on. -/
def ackPuback (found : Nat) (p : Pub) : CbRes Pub :=
  if p.qos ≠ 1 then ⟨.err, p, [], found⟩                                                 -- L1634-1639
  else
    let first := !p.puback && !p.outbound
    let p' := { p with puback := false }                                                  -- L1640-1647
    let ret := if first then Ret.ok else Ret.stop                                         -- L1631, L1648-1654
    let del := if first then [p] else []
    if found = 1 then                                                                     -- L1655-1668
      ⟨if p.dup then ret else .err, p', del, found⟩
    else ⟨ret, { p' with puback := true }, del, found + 1⟩                                -- L1670-1673

/-- `mqtt_session_ram.c:1675-1692`: a PUBCOMP. -/
def ackPubcomp (found : Nat) (p : Pub) : CbRes Pub :=
  let p' := { p with pubcomp := false }
  if !p.pubrel || !p.pubrec then ⟨.err, p', [], found⟩
  else ⟨.stop, { p' with pubcomp := true }, [], found + 1⟩

/-- `mqtt_session_ram.c:1693-1702`: a PUBREC. -/
def ackPubrec (found : Nat) (p : Pub) : CbRes Pub :=
  ⟨.stop, { p with pubrec := true }, [], found + 1⟩

/-- `mqtt_session_ram.c:1703-1726`: a PUBREL; the first one delivers a message from the remote. -/
def ackPubrel (found : Nat) (p : Pub) : CbRes Pub :=
  if !p.pubrec then ⟨.err, p, [], found⟩
  else
    let first := !p.pubrel && !p.outbound
    ⟨.stop, { p with pubrel := true }, if first then [p] else [], found + 1⟩

/-- `mqtt_session_ram.c:1602-1733`: an acknowledgement for a PUBLISH with the same identifier. -/
def ackPubSame (a : Ack) (found : Nat) (p : Pub) : CbRes Pub :=
  if (a.kind = .puback ∨ a.kind = .pubrec) ∧ a.reason ≠ 0 ∧ (Mqtt.reasonGetV5 a.reason).isNone then
    ⟨.err, p, [], found⟩                                                                  -- L1605-1617
  else if (a.kind = .pubcomp ∨ a.kind = .pubrec ∨ a.kind = .pubrel) ∧ p.qos ≠ 2 then
    ⟨.err, p, [], found⟩                                                                  -- L1619-1629
  else match a.kind with
    | .puback => ackPuback found p
    | .pubcomp => ackPubcomp found p
    | .pubrec => ackPubrec found p
    | .pubrel => ackPubrel found p
    | _ => ⟨.err, p, [], found⟩                                                           -- L1727-1732

/-- `mqtt_session_ram.c:1530-1778 __rrr_mqtt_session_ram_process_ack_callback` for a PUBLISH. `outbound` says which queue is
walked. -/
def ackPub (a : Ack) (outbound : Bool) (found : Nat) (p : Pub) : Option (CbRes Pub) :=
  if p.id ≠ a.id then some ⟨.ok, p, [], found⟩                                            -- L1560
  else if outbound = p.outbound ∧ (a.kind = .suback ∨ a.kind = .unsuback) then none       -- L1564-1600
  else some (ackPubSame a found p)

/-- The same for a SUBSCRIBE or UNSUBSCRIBE, L1734-1768. Their `is_outbound` is 0 and the queue is the one to the remote, so the checks
at L1564-1600 do not apply. The walk goes on after a match. -/
def ackSub (a : Ack) (found : Nat) (s : SubPkt) : CbRes SubPkt :=
  if s.id ≠ a.id then ⟨.ok, s, [], found⟩
  else if a.kind = (if s.unsub then .unsuback else .suback) then ⟨.ok, { s with acked := true }, [], found + 1⟩
  else ⟨.err, s, [], found⟩

/-- Both. -/
def ackItem (a : Ack) (found : Nat) : Item → Option (CbRes Item)
  | .pub p => (ackPub a true found p).map fun r => ⟨r.ret, .pub r.item, r.delivered, r.found⟩
  | .sub s => let r := ackSub a found s; some ⟨r.ret, .sub r.item, r.delivered, r.found⟩

/-- Result of a walk. -/
structure WalkRes (α : Type) where
  items : List α
  delivered : List Pub
  found : Nat
  err : Bool

/-- `fifo.c:743-790 rrr_fifo_read`: each entry is shown to the callback until it returns STOP. A soft error is remembered and
the walk goes on. -/
def walk {α : Type} (f : Nat → α → Option (CbRes α)) : Nat → List α → Option (WalkRes α)
  | found, [] => some ⟨[], [], found, false⟩
  | found, x :: l =>
    match f found x with
    | none => none
    | some r =>
      match r.ret with
      | .stop => some ⟨r.item :: l, r.delivered, r.found, false⟩
      | .ok => (walk f r.found l).map fun w => ⟨r.item :: w.items, r.delivered ++ w.delivered, w.found, w.err⟩
      | .err => (walk f r.found l).map fun w => ⟨r.item :: w.items, r.delivered ++ w.delivered, w.found, true⟩

/-- Result of a call on a session: session, messages delivered, whether it succeeded (`RRR_MQTT_SESSION_OK`) or failed
(`RRR_MQTT_SESSION_ERROR`), and the match count. -/
structure Call where
  s : Session
  delivered : List Pub
  ok : Bool
  found : Nat

/-- `mqtt_session_ram.c:2031-2096 __rrr_mqtt_session_ram_process_ack` with `:1780-1816 process_iterate_ack`. The handling of the
subscriptions upon SUBACK and UNSUBACK is not modelled. -/
def processAck (a : Ack) (outbound : Bool) (s : Session) : Option Call :=
  if outbound then
    match walk (ackItem a) 0 s.toRemote with
    | none => none
    | some w => if !w.err && 1 < w.found then none else some ⟨{ s with toRemote := w.items }, w.delivered, !w.err, w.found⟩
  else
    match walk (fun f p => ackPub a false f p) 0 s.fromRemote with
    | none => none
    | some w => if !w.err && 1 < w.found then none else some ⟨{ s with fromRemote := w.items }, w.delivered, !w.err, w.found⟩

/-! ## Messages from the remote -/

/-- `mqtt_session_ram.c:2104-2142 __rrr_mqtt_session_ram_find_qos2_publish_callback` called by `rrr_fifo_read_minimum`
(`fifo.c:700-741`): the first entry with an identifier not below the one of the message is looked at; the callback then always stops.
`none` is an abort (identifier 0 in the queue). The identifier of the message is not 0 (checked by the parser). -/
def findQos2 (id : BitVec 16) : List Pub → Option (Option Pub)
  | [] => some none
  | q :: l =>
    if id.toNat - 1 < q.id.toNat then
      if q.id = 0 then none else if q.id = id then some (some q) else some none
    else findQos2 id l

/-- `fifo.c:364-420 __rrr_fifo_write_update_pointers` with the packet identifier as order: before the first entry which is not
smaller. The check against the last entry at L388 is the case that all are smaller. -/
def insertOrdered (p : Pub) : List Pub → List Pub
  | [] => [p]
  | q :: l => if q.id.toNat < p.id.toNat then q :: insertOrdered p l else p :: q :: l

/-- Sizes at `mqtt_session_ram.c:2233-2235`. -/
def sameSize (a b : Option Bytes) : Bool := a.map List.length == b.map List.length

/-- `mqtt_session_ram.c:2144-2253 __rrr_mqtt_session_ram_receive_publish`; a QoS above 2 aborts. -/
def receivePublish (now : Nat) (p : Pub) (s : Session) : Option Call :=
  let p := { p with lastAttempt := now }                                                  -- L2155
  match p.qos with
  | 0 => some ⟨s, [p], true, 0⟩                                                           -- L2157-2166
  | 1 => some ⟨{ s with fromRemote := insertOrdered p s.fromRemote }, [], true, 0⟩        -- L2167-2182
  | 2 =>
    match findQos2 p.id s.fromRemote with                                                 -- L2183-2228
    | none => none
    | some none => some ⟨{ s with fromRemote := insertOrdered p s.fromRemote }, [], true, 0⟩
    | some (some q) => some ⟨s, [], sameSize q.payload p.payload && p.dup, 0⟩             -- L2229-2245
  | _ => none

/-- `mqtt_session_ram.c:2835-2871 __rrr_mqtt_session_ram_send_packet_now_process_ack`: the acknowledgement is noted with the packet which it
is for. -/
def noteAck (a : Ack) (s : Session) : Option Call :=
  match a.kind with
  | .suback | .unsuback => some ⟨s, [], true, 0⟩
  | .pubrel => processAck a true s
  | _ => processAck a false s

/-- `mqtt_session_ram.c:2926-2953 __rrr_mqtt_session_ram_send_packet_now`: noted, then sent. `tx` says if the transmission succeeds. -/
def sendNow (a : Ack) (tx : Bool) (s : Session) : Option (Call × List Wire) :=
  match noteAck a s with
  | none => none
  | some c => if c.ok then some ({ c with ok := tx }, if tx then [.ack a] else []) else some (c, [])

/-- What a packet handler does: session, messages delivered, packets sent, and whether the connection goes on. -/
structure Handled where
  s : Session
  delivered : List Pub
  sent : List Wire
  alive : Bool

/-- What the checks before the session is called say about a PUBLISH (`mqtt_common.c:833-882`): accepted, refused with a reason, or
the connection is closed. -/
inductive Verdict where
  | accept
  | refuse (reason : UInt8)
  | close
deriving DecidableEq, Repr

/-- The acknowledgement for a PUBLISH, `mqtt_common.c:900-931`. -/
def ackFor (p : Pub) (reason : UInt8) : Option Ack :=
  match p.qos with
  | 1 => some { kind := .puback, id := p.id, reason := reason }
  | 2 => some { kind := .pubrec, id := p.id, reason := reason }
  | _ => none

/-- `mqtt_common.c:900-952`: the acknowledgement is sent. -/
def sendAckFor (p : Pub) (reason : UInt8) (tx : Bool) (s : Session) : Option Handled :=
  match ackFor p reason with
  | none => some ⟨s, [], [], true⟩
  | some a => (sendNow a tx s).map fun (c, w) => ⟨c.s, c.delivered, w, c.ok⟩

/-- `mqtt_common.c:817-953 rrr_mqtt_common_handle_publish`. -/
def handlePublish (now : Nat) (p : Pub) (v : Verdict) (tx : Bool) (s : Session) : Option Handled :=
  if p.dup ∧ p.qos = 0 then some ⟨s, [], [], false⟩                                      -- L827-831
  else match v with
    | .close => some ⟨s, [], [], false⟩
    | .refuse r => sendAckFor p r tx s
    | .accept =>
      match receivePublish now p s with
      | none => none
      | some c =>
        if !c.ok then some ⟨c.s, c.delivered, [], false⟩
        else (sendAckFor p 0 tx c.s).map fun h => { h with delivered := c.delivered ++ h.delivered }

/-- `mqtt_session_ram.c:3105-3118`: which queue holds the packet which an acknowledgement from the remote is for. -/
def AckKind.wasOutbound : AckKind → Bool
  | .pubrel => false
  | _ => true

/-- `mqtt_common.c:991-1027 rrr_mqtt_common_handle_puback_pubcomp`, also the handling of SUBACK and UNSUBACK in
`mqtt_client.c:760-800` as far as the queues are concerned. -/
def handleAck (a : Ack) (s : Session) : Option Handled :=
  (processAck a a.kind.wasOutbound s).map fun c => ⟨c.s, c.delivered, [], c.ok⟩

/-- The answer to PUBREC and PUBREL. -/
def AckKind.next : AckKind → AckKind
  | .pubrec => .pubrel
  | _ => .pubcomp

/-- `mqtt_common.c:1030-1098 __rrr_mqtt_common_handle_pubrec_pubrel` with `:955-989`. An identifier which is not known is answered
with reason 0x92, also after an error if the protocol version is 5. -/
def handleRecRel (a : Ack) (v5 : Bool) (tx : Bool) (s : Session) : Option Handled :=
  match processAck a a.kind.wasOutbound s with
  | none => none
  | some c =>
    if !c.ok && !v5 then some ⟨c.s, c.delivered, [], false⟩
    else
      let reason : UInt8 := if c.found ≠ 1 then 0x92 else if c.ok then 0 else 0x80
      (sendNow { kind := a.kind.next, id := a.id, reason := reason } tx c.s).map fun (d, w) =>
        ⟨d.s, c.delivered ++ d.delivered, w, d.ok⟩

/-- Any acknowledgement from the remote. -/
def handleAnyAck (a : Ack) (v5 : Bool) (tx : Bool) (s : Session) : Option Handled :=
  match a.kind with
  | .pubrec | .pubrel => handleRecRel a v5 tx s
  | _ => handleAck a s

/-! ## The send queue -/

/-- Result of a transmission: it goes on, the connection wants no more, or it failed. -/
inductive Tx where
  | ok | stop | err
deriving DecidableEq, Repr

/-- What the callback for `rrr_fifo_search` returns: whether the entry is taken out, whether the search stops, whether it fails. -/
structure Act where
  give : Bool := false
  stop : Bool := false
  err : Bool := false
deriving DecidableEq, Repr

/-- What changes during a pass over a queue. -/
structure Ctx where
  pool : IdPool.Pool
  grace : List Item
  incomplete : Nat
  sent : List Wire

/-- `mqtt_session_ram.c:2303-2318`: the handshake of a PUBLISH is complete. -/
def Pub.complete (p : Pub) : Bool :=
  (p.qos == 0 && p.lastAttempt != 0) || (p.qos == 1 && p.puback) || (p.qos == 2 && p.pubcomp)

/-- `mqtt_session_ram.c:476-486 __rrr_mqtt_session_ram_check_publish_expired`. -/
def Pub.expired (now : Nat) (p : Pub) : Bool := p.expiry != 0 && decide (p.createTime + p.expiry * 1000000 < now)

/-- The time since `t`, as the difference of two `uint64_t` (`mqtt_session_ram.c:2588`): it is huge when the clock has been set back. -/
def elapsed (now t : Nat) : Nat := (now + 2 ^ 64 - t) % 2 ^ 64

/-- `mqtt_session_ram.c:2582-2597 check_transmit_or_retransmit`: a packet is sent again when the retry interval is over; a PUBLISH then
has the DUP flag. -/
def Pub.retryReset (retry now : Nat) (p : Pub) : Pub :=
  if p.lastAttempt ≠ 0 ∧ retry < elapsed now p.lastAttempt then { p with lastAttempt := 0, dup := true } else p

/-- What to transmit for a PUBLISH, and whether to delete it afterwards: `mqtt_session_ram.c:2486-2508`. -/
def Pub.toSend (p : Pub) : Option Wire × Bool :=
  if (p.qos = 0 ∨ p.qos = 1) ∧ p.outbound then (some (.publish p), p.qos == 0)
  else if p.qos = 2 then
    if p.outbound then
      if !p.pubcomp && p.pubrel then (some (.ack { kind := .pubrel, id := p.id }), false)
      else if !p.pubrec then (some (.publish p), false)
      else (none, false)
    else if !p.pubrel && p.pubrec then (some (.ack { kind := .pubrec, id := p.id }), false)
    else (none, false)
  else (none, false)

/-- Outbound messages which count as being in flight, `mqtt_session_ram.c:2442-2449`. -/
def Pub.counts (p : Pub) : Bool := p.outbound && decide (0 < p.qos) && !p.pubcomp && !p.pubrec && p.plannedExpiry == 0

/-- `mqtt_session_ram.c:2453-2457`: a limit is reached. -/
def Session.full (s : Session) (n : Nat) : Bool := decide (s.maxInFlight ≤ n) || (s.receiveMax != 0 && decide (s.receiveMax ≤ n))

/-- `mqtt_session_ram.c:2413-2512 process_publish`: what to transmit, whether to delete, the new count of messages in flight. -/
def processPub (s : Session) (now n : Nat) (p : Pub) : Option Wire × Bool × Nat :=
  if s.broker && p.expired now then (none, false, n)                                      -- L2425-2434, L543-573
  else if p.puback || p.pubcomp then (none, false, n)                                     -- L2436-2440
  else
    let n := if p.counts then n + 1 else n
    if p.lastAttempt = 0 ∧ p.outbound ∧ s.full n then (none, false, n)
    else ((p.toSend).1, (p.toSend).2, n)

/-- A packet is released for good: its identifier can be used again (`mqtt_session_ram.c:940-958`,
`RRR_MQTT_P_SET_PACKET_ID_WITH_RELEASER`). Messages from the remote have identifiers which are not from the pool. -/
def release (pool : IdPool.Pool) (id : BitVec 16) : Option IdPool.Pool :=
  match IdPool.releaseId pool id with
  | (.released, pool) => some pool
  | _ => none

/-- `mqtt_session_ram.c:2363-2411 packet_identifier_ensure`: identifier (`none` if there is none left) and pool. -/
def ensureId (pool : IdPool.Pool) (id : BitVec 16) : Option (Option (BitVec 16) × IdPool.Pool) :=
  if id ≠ 0 then some (some id, pool)
  else match IdPool.getId true pool with
    | (.id n, pool) => some (some n, pool)
    | (.exhausted, pool) => some (none, pool)
    | _ => none

/-- The transmission of a PUBLISH or of one of its acknowledgements, `mqtt_session_ram.c:2656-2679` with `:2546-2580`. -/
def transmitPub (now : Nat) (tx : Nat → Tx) (w : Option Wire) (del : Bool) (p : Pub) (c : Ctx) : Option (Act × Pub × Ctx) :=
  let finish (r : Tx) (p : Pub) (c : Ctx) : Option (Act × Pub × Ctx) :=
    if r = .err then some ({ stop := true, err := true }, p, c)
    else if del then (release c.pool p.id).map fun pool => ({ give := true, stop := r == .stop }, p, { c with pool := pool })
    else some ({ stop := r == .stop }, p, c)
  match w with
  | some w =>
    if p.lastAttempt = 0 then
      finish (tx c.sent.length) { p with lastAttempt := now } { c with sent := c.sent ++ (if tx c.sent.length = .err then [] else [w]) }
    else finish .ok p c
  | none => finish .ok p c

/-- `mqtt_session_ram.c:2599-2679 __rrr_mqtt_session_ram_iterate_send_queue_callback` for a PUBLISH. -/
def sendPub (s : Session) (now : Nat) (tx : Nat → Tx) (p : Pub) (c : Ctx) : Option (Act × Pub × Ctx) :=
  if p.complete then                                                                      -- L2293-2361, L2265-2291
    let p := { p with plannedExpiry := now + s.graceTime }
    some ({ give := true }, p, { c with grace := c.grace ++ [.pub p] })
  else
    match ensureId c.pool p.id with
    | none => none
    | some (none, pool) => some ({ stop := true }, { p with lastAttempt := 0 }, { c with pool := pool })
    | some (some id, pool) =>
      let p := ({ p with id := id }).retryReset s.retry now
      let (w, del, n) := processPub s now c.incomplete p
      transmitPub now tx w del p { c with pool := pool, incomplete := n }

/-- The same for SUBSCRIBE and UNSUBSCRIBE. -/
def sendSub (s : Session) (now : Nat) (tx : Nat → Tx) (q : SubPkt) (c : Ctx) : Option (Act × SubPkt × Ctx) :=
  if q.acked then
    let q := { q with plannedExpiry := now + s.graceTime }
    some ({ give := true }, q, { c with grace := c.grace ++ [.sub q] })
  else
    match ensureId c.pool q.id with
    | none => none
    | some (none, pool) => some ({ stop := true }, { q with lastAttempt := 0 }, { c with pool := pool })
    | some (some id, pool) =>
      let q := { q with id := id }
      let q := if q.lastAttempt ≠ 0 ∧ s.retry < elapsed now q.lastAttempt then { q with lastAttempt := 0 } else q
      let c := { c with pool := pool }
      if q.lastAttempt = 0 then
        let r := tx c.sent.length
        some ({ stop := r != .ok, err := r == .err }, { q with lastAttempt := now },
          { c with sent := c.sent ++ if r = .err then [] else [.sub q] })
      else some ({}, q, c)

/-- Both. -/
def sendItem (s : Session) (now : Nat) (tx : Nat → Tx) (x : Item) (c : Ctx) : Option (Act × Item × Ctx) :=
  match x with
  | .pub p => (sendPub s now tx p c).map fun (a, p, c) => (a, .pub p, c)
  | .sub q => (sendSub s now tx q c).map fun (a, q, c) => (a, .sub q, c)

/-- `fifo.c:622-700 rrr_fifo_search`: result entries, context, and whether there was an error. -/
def pass {α : Type} (f : α → Ctx → Option (Act × α × Ctx)) : List α → Ctx → Option (List α × Ctx × Bool)
  | [], c => some ([], c, false)
  | x :: l, c =>
    match f x c with
    | none => none
    | some (a, x, c) =>
      if a.err then some (x :: l, c, true)
      else if a.stop then some (if a.give then l else x :: l, c, false)
      else (pass f l c).map fun (l, c, e) => (if a.give then l else x :: l, c, e)

/-- `mqtt_session_ram.c:2681-2774 __rrr_mqtt_session_ram_iterate_send_queue`: session, what was sent, success. -/
def sendPass (now : Nat) (tx : Nat → Tx) (s : Session) : Option (Session × List Wire × Bool) :=
  let q := s.toRemote ++ s.delayed.map .pub
  match pass (sendItem s now tx) q { pool := s.pool, grace := s.grace, incomplete := 0, sent := [] } with
  | none => none
  | some (q, c, true) => some ({ s with toRemote := q, delayed := [], pool := c.pool, grace := c.grace }, c.sent, false)
  | some (q, c, false) =>
    match pass (sendPub s now tx) s.fromRemote { c with incomplete := 0 } with
    | none => none
    | some (r, c, e) =>
      some ({ s with toRemote := q, delayed := [], fromRemote := r, pool := c.pool, grace := c.grace }, c.sent, !e)

/-! ## Identifiers become free again -/

/-- The identifier of a packet if it is from the pool of the session. Messages from the remote have identifiers chosen by the remote. -/
def Item.poolId : Item → Option (BitVec 16)
  | .pub p => if p.outbound then some p.id else none
  | .sub q => some q.id

/-- `packet->planned_expiry_time`. -/
def Item.plannedExpiry : Item → Nat
  | .pub p => p.plannedExpiry
  | .sub q => q.plannedExpiry

/-- The identifier of a packet which is freed. -/
def releaseItem (pool : IdPool.Pool) (x : Item) : Option IdPool.Pool :=
  match x.poolId with
  | some id => release pool id
  | none => some pool

/-- `mqtt_session_ram.c:1097-1125, 1144-1148`: packets whose grace time is over are dropped, from the front. -/
def graceTick (now : Nat) (pool : IdPool.Pool) : List Item → Option (IdPool.Pool × List Item)
  | [] => some (pool, [])
  | x :: l =>
    if x.plannedExpiry = 0 then none
    else if x.plannedExpiry < now then (releaseItem pool x).bind fun pool => graceTick now pool l
    else some (pool, x :: l)

/-! ## Queueing and initialisation -/

/-- A new PUBLISH for the queue to the remote: `mqtt_session_ram.c:2884-2891`, and `mqtt_packet.c:406-446 rrr_mqtt_p_clone_publish` with
`mqtt_session_ram.c:931-938, 297-362, 2981-3031`. -/
def fresh (p : Pub) : Pub :=
  { key := p.key, topic := p.topic, payload := p.payload, qos := p.qos, retain := p.retain, outbound := true,
    createTime := p.createTime, expiry := p.expiry }

/-- A PUBLISH as it comes from the parser, `mqtt_parse.c:973-1038`. -/
def received (p : Pub) : Pub :=
  { key := p.key, topic := p.topic, payload := p.payload, qos := p.qos, dup := p.dup, retain := p.retain, id := p.id,
    createTime := p.createTime, expiry := p.expiry, size := p.size }

/-- `mqtt_session_ram.c:1225-1231`: the packet survives cleaning. -/
def Pub.preserve (p : Pub) : Bool :=
  p.plannedExpiry == 0 && ((p.qos == 1 && !p.puback) || (p.qos == 2 && !p.pubcomp))

/-- `mqtt_session_ram.c:1212-1277`: what is left of an entry of the queue to the remote. -/
def preserved : Item → Option Item
  | .pub p => if p.preserve then some (.pub { fresh p with outbound := p.outbound }) else none
  | .sub _ => none

/-- `mqtt_session_ram.c:1279-1337 __rrr_mqtt_session_ram_clean_final`. The pool is emptied (L1334); the releases of single
identifiers before that are left out, they do not fail as the identifiers are in use. -/
def clean (s : Session) : Session :=
  { s with toRemote := s.toRemote.filterMap preserved, fromRemote := [], grace := [], pool := IdPool.init }

/-- What happens to a session. -/
inductive Op where
  /-- `send_packet_queue` with a PUBLISH, or a PUBLISH from another client is forwarded -/
  | queue (p : Pub)
  /-- `send_packet_queue` with SUBSCRIBE or UNSUBSCRIBE -/
  | queueSub (key : Nat) (unsub : Bool)
  /-- a retained message matches a new subscription -/
  | retained (p : Pub)
  /-- a PUBLISH from the remote -/
  | publish (now : Nat) (p : Pub) (v : Verdict) (tx : Bool)
  /-- an acknowledgement from the remote -/
  | ack (a : Ack) (v5 : Bool) (tx : Bool)
  /-- the send queue is worked on -/
  | pass (now : Nat) (tx : Nat → Tx)
  /-- maintenance -/
  | tick (now : Nat)
  /-- a new connection takes the session over -/
  | init (maxInFlight receiveMax retry graceTime : Nat) (cleanSession : Bool)

/-- What can be seen from outside: messages delivered, packets sent, and whether the connection goes on. -/
structure Out where
  delivered : List Pub := []
  sent : List Wire := []
  alive : Bool := true

/-- One operation; `none` is an abort. `init` is `mqtt_session_ram.c:1339-1380`, `queue` is `:2873-2924`, `retained` is `:2981-3031`. -/
def step (s : Session) : Op → Option (Session × Out)
  | .queue p => some ({ s with toRemote := s.toRemote ++ [.pub (fresh p)] }, {})
  | .queueSub key unsub => some ({ s with toRemote := s.toRemote ++ [.sub { key := key, unsub := unsub }] }, {})
  | .retained p => some ({ s with delayed := s.delayed ++ [fresh p] }, {})
  | .publish now p v tx => (handlePublish now (received p) v tx s).map fun h => (h.s, ⟨h.delivered, h.sent, h.alive⟩)
  | .ack a v5 tx => (handleAnyAck a v5 tx s).map fun h => (h.s, ⟨h.delivered, h.sent, h.alive⟩)
  | .pass now tx => (sendPass now tx s).map fun (s, w, ok) => (s, ⟨[], w, ok⟩)
  | .tick now => (graceTick now s.pool s.grace).map fun (pool, g) => ({ s with pool := pool, grace := g }, {})
  | .init m r t g c =>
    let s := { s with maxInFlight := m, receiveMax := r, retry := t, graceTime := g }
    some (if c then clean s else s, {})

/-- A history: the outcomes in order. -/
def run : Session → List Op → Option (Session × List Out)
  | s, [] => some (s, [])
  | s, o :: os =>
    match step s o with
    | none => none
    | some (s, r) => (run s os).map fun (s, rs) => (s, r :: rs)

end Verif.Session
