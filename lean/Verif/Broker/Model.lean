import Verif.Session.Model
import Verif.Subscription.Model
/-!
# Model of the MQTT broker: sessions, connections, retained messages and wills

`src/lib/mqtt/mqtt_session_ram.c` (session collection) and `src/lib/mqtt/mqtt_broker.c` (CONNECT, SUBSCRIBE, UNSUBSCRIBE, DISCONNECT), with
the event handling in `mqtt_common.c` and `mqtt_connection.c` as far as it decides what happens to sessions. The queues of a session are those
of `Verif.Session`, the subscriptions those of `Verif.Subscription`.

Simplifications: memory allocation succeeds; a connection appears when its CONNECT is accepted and disappears when the session is told about its
end (`mqtt_connection.c:347-369` does this once; the wait before sockets are closed is left out); all connections are on one transport, in the order
of their CONNECT; the clock does not change during one operation; statistics are left out; passwords and access rules are functions (`Config`, the
access rules are the subject of `Verif.Acl`); properties other than those in the structures, and errors in them, are left out. `none` as result is an
abort (`RRR_BUG`).
-/
namespace Verif.Broker
open Verif Session

/-- `mqtt_packet.h:176, 355`: a will is a PUBLISH with `will_delay_interval` (seconds) and `planned_expiry_time`. -/
structure Will where
  pub : Pub
  delay : Nat
  planned : Nat := 0
deriving DecidableEq, Repr

/-- `mqtt_session_ram.c:49-77 struct rrr_mqtt_session_ram`. `ref` is the address of the session. -/
structure Sess where
  ref : Nat
  client : Bytes
  subs : Subscription.Coll := []
  q : Session := {}
  will : Option Will := none
  heartbeat : Nat := 0
  expireTime : Nat := 0
  expiry : Nat := 0
  maxPacket : Nat := 0
  prevGrace : Nat := 0

/-- `mqtt_connection.h:73-110 struct rrr_mqtt_conn` after CONNECT. `ref` is the pointer to the session. `takenOver`: another connection has
come with the same client identifier, the state is CLOSE_WAIT and `disconnect_reason_v5_` is SESSION_TAKEN_OVER (`mqtt_broker.c:141-155`). For any
other reason for closing, the session is told in the same event (`net_transport.c:374-402, 574-582` calls `pre_destroy` at L146). -/
structure Conn where
  handle : Nat
  client : Bytes
  user : Bytes
  v5 : Bool
  ref : Option Nat
  takenOver : Bool := false

/-- `mqtt_session_ram.c:88-109 struct rrr_mqtt_session_collection_ram_data`, the connections, and `client_serial` of the broker. -/
structure Broker where
  sessions : List Sess := []
  conns : List Conn := []
  retain : List Pub := []
  serial : BitVec 32 := 0

/-- Settings of the broker. `passwords` is the password file, `canWrite` and `canRead` are the access rules for a user (empty: anonymous). -/
structure Config where
  passwords : Option (Bytes → Bytes → Bool) := none
  denyAnonymous : Bool := false
  canWrite : Bytes → Bytes → Bool := fun _ _ => true
  canRead : Bytes → Bytes → Bool := fun _ _ => true
  denyCloses : Bool := false
  retry : Nat := 3000000

/-- Who published a message. -/
inductive Source where
  | client (client user : Bytes)
  | will (client : Bytes)
deriving DecidableEq, Repr

/-- What happens, as seen from outside. -/
inductive Ev where
  /-- a CONNECT is answered -/
  | connack (handle : Nat) (client : Bytes) (reason : UInt8) (present : Bool)
  /-- a session is made for a client -/
  | created (client : Bytes) (now : Nat)
  /-- the session of a client is removed -/
  | removed (client : Bytes) (now : Nat)
  /-- the client has connected: its session has these properties now -/
  | connected (client user : Bytes) (expiry maxPacket : Nat) (will : Option Will)
  /-- something happens to the queues of the session of a client; `via` is the connection if it is about packets from and to the client -/
  | op (client : Bytes) (o : Session.Op) (r : Out) (via : Option Nat := none)
  /-- a SUBSCRIBE of a client is handled; the QoS is the granted one or a reason of failure. `new` are the new ones. -/
  | subscribed (client : Bytes) (now : Nat) (subs new : List Subscription.Sub)
  /-- a SUBSCRIBE is answered with these QoS or reasons -/
  | suback (handle : Nat) (codes : List Nat)
  /-- an UNSUBSCRIBE of a client is handled -/
  | unsubscribed (client : Bytes) (filters : List (Bytes × Nat))
  /-- a message is distributed -/
  | published (now : Nat) (p : Pub) (src : Source)
  /-- the session learns that the connection of the client has ended -/
  | disconnected (client : Bytes) (now : Nat) (reason : UInt8)
  /-- a read event on the connection of a client -/
  | heartbeat (client : Bytes) (now : Nat)

/-- Broker and events. -/
abbrev Res := Option (Broker × List Ev)

/-- Go on after a result. -/
def thenDo (r : Res) (f : Broker → Res) : Res :=
  r.bind fun (b, e) => (f b).map fun (b, e') => (b, e ++ e')

/-! ## Sessions -/

/-- `mqtt_session_ram.c:910-929 session_find_and_incref`. -/
def Broker.find (b : Broker) (r : Nat) : Option Sess := b.sessions.find? (fun s => s.ref == r)

/-- `mqtt_session_ram.c:831-852 find_session` for a client identifier; two sessions with the same one would abort (see `findClient` in the
proofs: there are none). -/
def Broker.findClient (b : Broker) (c : Bytes) : Option Sess := b.sessions.find? (fun s => s.client == c)

/-- The session at this address is changed in place. -/
def Broker.put (b : Broker) (s : Sess) : Broker := { b with sessions := b.sessions.map fun x => if x.ref == s.ref then s else x }

/-- `mqtt_session_ram.c:815-829 collection_remove`, and `RRR_LL_ITERATE_SET_DESTROY`. -/
def Broker.remove (b : Broker) (r : Nat) : Broker := { b with sessions := b.sessions.filter fun x => x.ref != r }

/-- Something happens to the queues of a session. -/
def opSess (o : Session.Op) (s : Sess) : Option (Sess × List Ev) :=
  (Session.step s.q o).map fun (q, r) => ({ s with q := q }, [.op s.client o r])

/-- One after the other. -/
def opsSess : List Session.Op → Sess → Option (Sess × List Ev)
  | [], s => some (s, [])
  | o :: os, s => (opSess o s).bind fun (s, e) => (opsSess os s).map fun (s, e') => (s, e ++ e')

/-! ## Distribution of messages -/

/-- The payload is missing or empty, `mqtt_session_ram.c:436-443`. -/
def empty (p : Pub) : Bool := p.payload.getD [] == []

/-- `mqtt_session_ram.c:224-291 retain_buffer_write_callback` called by `rrr_fifo_search_and_replace` (`fifo.c:492-588`): the first entry with the
topic is replaced or, if the payload is empty, removed, and the search stops; without such an entry the message is added at the end, unless
it is empty. -/
def retainWrite (p : Pub) : List Pub → List Pub
  | [] => if empty p then [] else [p]
  | q :: l => if q.topic = p.topic then (if empty p then l else p :: l) else q :: retainWrite p l

/-- The copy for a subscription: `mqtt_session_ram.c:317-342`. DUP flag, identifier and state are reset by `Session.fresh`. -/
def forwardCopy (p : Pub) (s : Subscription.Sub) : Pub := { p with qos := min p.qos s.qos, retain := false }

/-- `mqtt_session_ram.c:297-392 receive_forwarded_publish`: one copy for each subscription which matches, unless the message is too large. -/
def forwardOne (p : Pub) (s : Sess) : Option (Sess × List Ev) :=
  match Subscription.matchPublish s.subs p.topic with
  | none => none
  | some ms => if s.maxPacket ≠ 0 ∧ s.maxPacket < p.size then some (s, []) else opsSess (ms.map fun m => .queue (forwardCopy p m)) s

/-- `mqtt_session_ram.c:394-422 forward_publish_to_clients`: all sessions, in order. -/
def forwardAll (p : Pub) : List Sess → Option (List Sess × List Ev)
  | [] => some ([], [])
  | s :: l => (forwardOne p s).bind fun (s, e) => (forwardAll p l).map fun (l, e') => (s :: l, e ++ e')

/-- `mqtt_session_ram.c:424-474 delivery_forward_final`. -/
def publish (now : Nat) (src : Source) (p : Pub) (b : Broker) : Res :=
  let b := if p.retain then { b with retain := retainWrite p b.retain } else b
  (forwardAll p b.sessions).map fun (l, e) => ({ b with sessions := l }, .published now p src :: e)

/-- Several messages. -/
def publishAll (now : Nat) (src : Source) : List Pub → Broker → Res
  | [], b => some (b, [])
  | p :: l, b => thenDo (publish now src p b) (publishAll now src l)

/-! ## Wills -/

/-- `mqtt_session_ram.c:969-1003 will_publish_maintain`: whether the will is published now. A will which is not waiting
(`planned_expiry_time == 0`) is not published. -/
def willDue (now : Nat) (force : Bool) (s : Sess) : Option Will :=
  match s.will with
  | some w => if w.planned ≠ 0 ∧ (force ∨ w.planned ≤ now) then some w else none
  | none => none

/-- The same with the effect. `s` may have been removed from the list. -/
def willMaintain (now : Nat) (force : Bool) (s : Sess) (b : Broker) : Res :=
  match willDue now force s with
  | some w => (publish now (.will s.client) w.pub b).map fun (b, e) =>
      (match b.find s.ref with
       | some s => b.put { s with will := none }
       | none => b, e)
  | none => some (b, [])

/-- `mqtt_session_ram.c:1018`: the delay in microseconds, computed with 32 bits. -/
def willDelayUs (d : Nat) : Nat := d * 1000000 % 2 ^ 32

/-- `mqtt_session_ram.c:1005-1031`: what becomes of the will when the connection ends. -/
def willUpon (now : Nat) (reason : UInt8) : Option Will → Option Will
  | some w => if reason = 0 then none else some { w with planned := now + willDelayUs w.delay }
  | none => none

/-! ## Ends of connections and sessions -/

/-- `mqtt_session_ram.c:2797-2807`. -/
def expireTimeOf (now expiry : Nat) : Nat :=
  if expiry = 0xffffffff then 0 else if expiry = 0 then now else now + 1000 * 1000 * expiry

/-- `mqtt_session_ram.c:2776-2833 notify_disconnect`. Reason 0x8E is SESSION_TAKEN_OVER. -/
def notifyDisconnect (r now : Nat) (reason : UInt8) (b : Broker) : Res :=
  match b.find r with
  | none => some (b, [])
  | some s =>
    if reason = 0x8E then some (b.put { s with expireTime := 0 }, [.disconnected s.client now reason])
    else
      let s := { s with expireTime := expireTimeOf now s.expiry, will := willUpon now reason s.will }
      if s.expiry = 0 then
        thenDo (some (b.remove r, [.disconnected s.client now reason, .removed s.client now])) (willMaintain now true s)
      else thenDo (some (b.put s, [.disconnected s.client now reason])) (willMaintain now false s)

/-- `mqtt_session_ram.c:1155, 1163`: the session is to be removed. 20 s is `RRR_MQTT_SESSION_RAM_HARD_TIMEOUT_MS` (L45, `mqtt_common.h:45`). -/
def isExpired (now : Nat) (s : Sess) : Bool :=
  (s.expireTime == 0 && decide (s.heartbeat + 20000000 < now)) || (s.expireTime != 0 && decide (s.expireTime ≤ now))

/-- `mqtt_session_ram.c:1140-1153`: the grace queue. -/
def graceOne (now : Nat) (b : Broker) (s : Sess) : Res :=
  if s.prevGrace + 250000 < now then
    (opSess (.tick now) { s with prevGrace := now }).map fun (s, e) => (b.put s, e)
  else some (b, [])

/-- `mqtt_session_ram.c:1136-1182`: maintenance of one session. The session is destroyed after its will has been published. -/
def maintainOne (now : Nat) (b : Broker) (s : Sess) : Res :=
  thenDo (graceOne now b s) fun b =>
  thenDo (willMaintain now (isExpired now s) s b) fun b =>
  if isExpired now s then some (b.remove s.ref, [.removed s.client now]) else some (b, [])

/-- `mqtt_session_ram.c:1127-1187 maintain_expire`: the sessions which are in the list at the time of the call, in order. -/
def maintainAll (now : Nat) : List Nat → Broker → Res
  | [], b => some (b, [])
  | r :: l, b =>
    match b.find r with
    | none => maintainAll now l b
    | some s => thenDo (maintainOne now b s) (maintainAll now l)

/-! ## Connections -/

/-- A CONNECT packet which passed the parser. -/
structure Connect where
  client : Bytes
  user : Bytes := []
  password : Bytes := []
  v5 : Bool := true
  clean : Bool := false
  expiry : Nat := 0
  maxPacket : Nat := 0
  receiveMax : Nat := 0
  will : Option Will := none

/-- `mqtt_broker.c:409-448 handle_connect_auth`: the reason (0: may log in). -/
def loginReason (cfg : Config) (c : Connect) : UInt8 :=
  if c.user ≠ [] then
    if c.password = [] then 0x83                                                          -- L417-421
    else match cfg.passwords with
      | none => 0x87                                                                      -- L423-427
      | some f => if f c.user c.password then 0 else 0x87                                 -- L429-438
  else if cfg.denyAnonymous then 0x87                                                     -- L440-444
  else 0

/-- The identifiers which the broker makes, `mqtt_broker.c:46, 235`. -/
def generated (n : BitVec 32) : Bytes :=
  "mqtt-client-".toList.map (fun c => c.toNat.toUInt8) ++ (Nat.toDigits 10 n.toNat).map (fun c => c.toNat.toUInt8)

/-- A connection uses the identifier, `mqtt_broker.c:118-135`. -/
def taken (b : Broker) (c : Bytes) : Bool := b.conns.any fun x => !x.takenOver && x.client == c

/-- `mqtt_broker.c:217-279 generate_unique_client_id`: at most `n` tries; identifier and serial number. Only connections are looked at, not
sessions. Success in the last try counts as failure (L267). -/
def generate (b : Broker) : Nat → BitVec 32 → Option Bytes × BitVec 32
  | 0, serial => (none, serial)
  | n + 1, serial =>
    if taken b (generated (serial + 1)) then generate b n (serial + 1)
    else if n = 0 then (none, serial + 1) else (some (generated (serial + 1)), serial + 1)

/-- `mqtt_broker.c:118-166`: connections with the identifier are told to end. The state becomes CLOSE_WAIT also if this fails
(`mqtt_connection.c:218-223`). -/
def Broker.takeOver (b : Broker) (c : Bytes) : Broker :=
  { b with conns := b.conns.map fun x => if x.client == c then { x with takenOver := true } else x }

/-- The connection with this handle. -/
def Broker.conn (b : Broker) (h : Nat) : Option Conn := b.conns.find? fun x => x.handle == h

/-- `mqtt_connection.c:371-471` with `mqtt_common.c:143-213`: the connection ends, the session is told, unless the connection has none. `r` is the
reason: the one of a DISCONNECT packet, or the one which errors when reading record (`mqtt_connection.c:511, 663, 714, 774, 818`). Errors when
writing record none (`net_transport.c:891-925`), then `r` is 0. -/
def closeConn (h now : Nat) (r : UInt8) (b : Broker) : Res :=
  match b.conn h with
  | none => some (b, [])
  | some c =>
    let b := { b with conns := b.conns.filter fun x => x.handle != h }
    match c.ref with
    | none => some (b, [])
    | some ref => notifyDisconnect ref now (if c.takenOver then 0x8E else r) b

/-- Several connections. -/
def closeAll (now : Nat) : List Nat → Broker → Res
  | [], b => some (b, [])
  | h :: l, b => thenDo (closeConn h now 0 b) (closeAll now l)

/-- `mqtt_common.c:90-132 clear_session_from_connections`, for the connections which are not closing. -/
def Broker.clearRef (b : Broker) (r : Nat) : Broker :=
  { b with conns := b.conns.map fun x => if !x.takenOver && x.ref == some r then { x with ref := none } else x }

/-- The same for all: the check at L96 makes the callback fail for connections which are closing, so that they end here (`mqtt_connection.h:59-63`,
`net_transport.c:138-165`). The two are independent of each other. -/
def clearSession (now r : Nat) (b : Broker) : Res :=
  closeAll now ((b.conns.filter (·.takenOver)).map (·.handle)) (b.clearRef r)

/-- `mqtt_session_ram.c:625-689` (new sessions come first in the list) and `:854-897 get_session`. The address of a new session is any
which is not in use: `alloc`, or if it is in use another one. -/
def getSession (now alloc : Nat) (id : Bytes) (b : Broker) : Sess × Bool × Broker × List Ev :=
  match b.findClient id with
  | some s => (s, true, b, [])
  | none =>
    let ref := if (b.find alloc).isSome then (b.sessions.map (·.ref)).sum + 1 else alloc
    let s : Sess := { ref := ref, client := id, heartbeat := now }
    (s, false, { b with sessions := s :: b.sessions }, [.created id now])

/-- The expiry interval of the session, `mqtt_broker.c:576-582`: version 3.1.1 has no such property. -/
def Connect.sessionExpiry (c : Connect) : Nat := if c.v5 then c.expiry else 0xffffffff

/-- The will, `mqtt_broker.c:281-362`: its message expiry interval is not set (only the property is copied), nor its size; it is created now. -/
def Connect.newWill (c : Connect) (now : Nat) : Option Will :=
  c.will.map fun w => { pub := { w.pub with createTime := now, expiry := 0, size := 0 }, delay := w.delay }

/-- `mqtt_broker.c:565-623` and `mqtt_session_ram.c:1339-1380 init`. -/
def initSess (cfg : Config) (c : Connect) (s : Sess) : Option (Sess × List Ev) :=
  opSess (.init 125 c.receiveMax cfg.retry 2000000 c.clean)
    { s with expiry := c.sessionExpiry, maxPacket := c.maxPacket, expireTime := 0, subs := if c.clean then [] else s.subs }

/-- `mqtt_broker.c:720-793`: session, will (`mqtt_session_ram.c:3137-3156`) and connection after the identifier is known. If the session is gone
after the others have been told, there is no CONNACK and the connection fails. -/
def accept (cfg : Config) (h alloc now : Nat) (c : Connect) (id : Bytes) (b : Broker) : Res :=
  let (s, present, b, e) := getSession now alloc id b
  thenDo ((initSess cfg c s).map fun (s, e') => (b.put s, e ++ e')) fun b =>
  thenDo (clearSession now s.ref b) fun b =>
  match b.find s.ref with
  | none => some (b, [])
  | some s =>
    let b := b.put { s with will := c.newWill now }
    some ({ b with conns := b.conns ++ [{ handle := h, client := id, user := c.user, v5 := c.v5, ref := some s.ref }] },
      [.connected id c.user c.sessionExpiry c.maxPacket (c.newWill now), .connack h id 0 (present && !c.clean)])

/-- `mqtt_broker.c:795-822`: a CONNACK with a reason, after which the connection ends. Version 3.1.1 has no code for reason 0x83, there is no CONNACK
(`mqtt_packet.c:252-300`). -/
def refuse (h : Nat) (c : Connect) (id : Bytes) (r : UInt8) (b : Broker) : Res :=
  some (b, if c.v5 || r != 0x83 then [.connack h id r false] else [])

/-- `mqtt_broker.c:625-828 handle_connect`. `discOk` says if the other connection with the same identifier, if there is one, can be sent a DISCONNECT;
if not, the new connection ends without CONNACK (L202-211, 490-506, 678-688). `busy` says that the maximum number of clients is reached (L702-706): this counts
connections which are not modelled. The check for the prefix of generated identifiers (L463-487) has no effect, as it looks at the wrong pointer (L481).
A second CONNECT is an error (`mqtt_common.c:1140-1146`). -/
def connect (cfg : Config) (h alloc now : Nat) (c : Connect) (discOk busy : Bool) (b : Broker) : Res :=
  if (b.conn h).isSome then closeConn h now 0x82 b
  else if loginReason cfg c ≠ 0 then refuse h c c.client (loginReason cfg c) b
  else if c.client = [] then
    if !c.clean then refuse h c [] 0x85 b
    else match generate b 65535 b.serial with
      | (none, serial) => some ({ b with serial := serial }, [])
      | (some id, serial) =>
        if busy then refuse h c id 0x89 { b with serial := serial }
        else accept cfg h alloc now c id { b with serial := serial }
  else if taken b c.client then
    if discOk then accept cfg h alloc now c c.client (b.takeOver c.client) else some (b.takeOver c.client, [])
  else if busy then refuse h c c.client 0x89 b
  else accept cfg h alloc now c c.client b

/-- A handler works on the session of a connection. The connection ends if it has been taken over (`mqtt_connection.h:59-63`) or if its session does not
exist any more (`mqtt_session_ram.c:111-118`; `connection->session` is then NULL). -/
def withSess (h now : Nat) (b : Broker) (f : Conn → Sess → Res) : Res :=
  match b.conn h with
  | none => some (b, [])
  | some c =>
    if c.takenOver then closeConn h now 0 b
    else match c.ref.bind b.find with
      | none => some ({ b with conns := b.conns.filter fun x => x.handle != h }, [])
      | some s => f c s

/-- What only concerns queues. What is delivered is distributed (`mqtt_session_ram.c:525-540`). If it fails, the connection ends with reason `r`. -/
def clientOp (o : Session.Op) (now : Nat) (r : UInt8) (b : Broker) (c : Conn) (s : Sess) : Res :=
  match Session.step s.q o with
  | none => none
  | some (q, out) =>
    thenDo (thenDo (some (b.put { s with q := q }, [.op s.client o out (some c.handle)])) (publishAll now (.client c.client c.user) out.delivered)) fun b =>
      if out.alive then some (b, []) else closeConn c.handle now r b

/-- `mqtt_common.c:833-882` and `mqtt_broker.c:1082-1100`: what the checks before the session is called say about a PUBLISH. `bad` is the reason from
the parser, `badProp` the one from the properties. -/
def verdict (cfg : Config) (c : Conn) (p : Pub) (bad badProp : Option UInt8) : Verdict :=
  match bad with
  | some r => if p.qos = 0 then .close else .refuse r
  | none =>
    if cfg.canWrite c.user p.topic then
      match badProp with
      | some r => .refuse r
      | none => .accept
    else if !c.v5 && cfg.denyCloses then .close
    else .refuse 0x87

/-- The copy of a retained message for a new subscription, `mqtt_session_ram.c:2992-3010`. -/
def retainCopy (p : Pub) (s : Subscription.Sub) : Pub := { p with qos := min p.qos s.qos, retain := true }

/-- Retained messages for new subscriptions, `mqtt_session_ram.c:701-742` with `:2981-3031`: the messages which are kept and the copies. -/
def retainWalk (now : Nat) (news : List Subscription.Sub) : List Pub → Option (List Pub × List Pub)
  | [] => some ([], [])
  | p :: l =>
    if p.payload.isNone then none
    else if p.expired now then retainWalk now news l
    else match Subscription.matchPublish news p.topic with
      | none => none
      | some ms => (retainWalk now news l).map fun (k, cs) => (p :: k, ms.map (retainCopy p) ++ cs)

/-- `mqtt_broker.c:1054-1080`: subscriptions which are not allowed get the reason NOT_AUTHORIZED. -/
def allowSubs (cfg : Config) (user : Bytes) (subs : List Subscription.Sub) : List Subscription.Sub :=
  subs.map fun x => if cfg.canRead user x.filter then x else { x with qos := 0x87 }

/-- `mqtt_broker.c:845-900 handle_subscribe` and `mqtt_session_ram.c:3048-3100`. If there are no new subscriptions, retained messages are not looked
at. `tx`: the SUBACK can be sent. -/
def subscribe (cfg : Config) (now : Nat) (subs : List Subscription.Sub) (tx : Bool) (b : Broker) (c : Conn) (s : Sess) : Res :=
  if subs = [] then none
  else
    let subs := allowSubs cfg c.user subs
    let (_, coll, news) := Subscription.appendCopy (σ := List Subscription.Sub) false (some fun st x => (true, st ++ [x])) s.subs subs []
    let s := { s with subs := coll }
    thenDo
      (if news = [] then some (b.put s, [.subscribed s.client now subs []])
       else match retainWalk now news b.retain with
         | none => none
         | some (kept, cs) =>
           (opsSess (cs.map .retained) s).map fun (s, e) => (({ b with retain := kept } : Broker).put s, .subscribed s.client now subs news :: e))
      fun b => if tx then some (b, [.suback c.handle (subs.map (·.qos))]) else closeConn c.handle now 0x82 b

/-- `mqtt_broker.c:902-949 handle_unsubscribe` and `mqtt_session_ram.c:1844-1876`. -/
def unsubscribe (now : Nat) (fs : List (Bytes × Nat)) (tx : Bool) (b : Broker) (c : Conn) (s : Sess) : Res :=
  match Subscription.removeMatching s.subs fs with
  | none => none
  | some (_, coll, fs) =>
    thenDo (some (b.put { s with subs := coll }, [.unsubscribed s.client fs])) fun b =>
      if tx then some (b, []) else closeConn c.handle now 0x82 b

/-- What happens to the broker. `h` is a connection. -/
inductive Op where
  | connect (h alloc now : Nat) (c : Connect) (discOk busy : Bool)
  | publish (h now : Nat) (p : Pub) (bad badProp : Option UInt8) (tx : Bool)
  | ack (h now : Nat) (a : Ack) (tx : Bool)
  /-- the send queue of the session is worked on; a failure records no reason -/
  | pass (h now : Nat) (tx : Nat → Tx)
  | subscribe (h now : Nat) (subs : List Subscription.Sub) (tx : Bool)
  | unsubscribe (h now : Nat) (filters : List (Bytes × Nat)) (tx : Bool)
  /-- a read event, `mqtt_common.c:1273` -/
  | heartbeat (h now : Nat)
  /-- a DISCONNECT packet (`mqtt_broker.c:973-990`) or any other end of a connection -/
  | close (h now : Nat) (r : UInt8)
  | maintain (now : Nat)

/-- One operation; `none` is an abort. -/
def step (cfg : Config) (b : Broker) : Op → Res
  | .connect h alloc now c discOk busy => connect cfg h alloc now c discOk busy b
  | .publish h now p bad badProp tx =>
    withSess h now b fun c s => clientOp (.publish now p (verdict cfg c p bad badProp) tx) now 0x82 b c s
  | .ack h now a tx => withSess h now b fun c s => clientOp (.ack a c.v5 tx) now 0x82 b c s
  | .pass h now tx => withSess h now b (clientOp (.pass now tx) now 0 b)
  | .subscribe h now subs tx => withSess h now b (subscribe cfg now subs tx b)
  | .unsubscribe h now fs tx => withSess h now b (unsubscribe now fs tx b)
  | .heartbeat h now => withSess h now b fun _ s => some (b.put { s with heartbeat := now }, [.heartbeat s.client now])
  | .close h now r => closeConn h now r b
  | .maintain now => maintainAll now (b.sessions.map (·.ref)) b

/-- A history: what happened. -/
def run (cfg : Config) : Broker → List Op → Res
  | b, [] => some (b, [])
  | b, o :: os => thenDo (step cfg b o) fun b => run cfg b os

end Verif.Broker
