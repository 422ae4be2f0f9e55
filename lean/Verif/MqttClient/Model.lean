import Verif.Common

/-!
# Model of how the MQTT client module handles messages from other modules, `src/modules/p_mqttclient.c`

Not modelled: connections, sessions (Session), encoding of payloads (Types, Msg), failure of allocation. The match of topics with the filter of commands and the validation of filters (Topic) are
given as functions.
-/
namespace Verif.MqttClient
open Verif

/-- `struct rrr_type_value`: tag, text if the type can be made text, and number (0 for types which cannot be made numbers). -/
structure Val where
  tag : Bytes
  str : Option Bytes
  num : Nat
deriving DecidableEq, Repr

/-- `struct rrr_msg_msg`: topic, values if the message is an array, and data. -/
structure Msg where
  topic : Bytes
  array : Option (List Val)
  data : Bytes
deriving DecidableEq, Repr

/-- `rrr_instance_config.h` methods of writing: `mqtt_publish_rrr_message`, `mqtt_publish_array_values` with tags, or neither. -/
inductive Method | message | values (tags : List Bytes) | plain
deriving DecidableEq, Repr

/-- Configuration (`p_mqttclient.c:1042-1069`). -/
structure Conf where
  topic : Option Bytes
  force : Bool
  prepend : Bool
  retainTag : Option Bytes
  method : Method
  qos : Nat
  v5 : Bool
  isCommand : Msg → Bool
  validFilter : Bytes → Bool

/-- Payload of a published message: the whole message, chosen values of the array, data, or a description as text. -/
inductive Payload | message (m : Msg) | values (tags : List Bytes) (l : List Val) | data (d : Bytes) | text (m : Msg)
deriving DecidableEq, Repr

/-- A packet to be published. -/
structure Pub where
  topic : Bytes
  qos : Nat
  retain : Bool
  expiry : Option Nat
  payload : Option Payload
deriving DecidableEq, Repr

/-- Outcome of making something from a message: it, no packet and a warning, or abort of the program. -/
inductive Out (α : Type) | ok (a : α) | drop | bug
deriving DecidableEq, Repr

/-- A C string which begins at the bytes: up to the first zero byte. -/
def cstr (b : Bytes) : Bytes := b.takeWhile (· ≠ 0)

/-- `p_mqttclient.c:265-329 mqttclient_publish_set_topic`. -/
def topicOf (c : Conf) (m : Msg) : Out Bytes :=
  if m.topic.head? = some 0 then .bug
  else if c.prepend then
    if m.topic.length = 0 then .drop else .ok (c.topic.getD [] ++ cstr m.topic)
  else if m.topic.length > 0 ∧ c.force = false then .ok (cstr m.topic)
  else match c.topic with
    | some t => .ok t
    | none => if c.force then .bug else .drop

/-- `clear`. -/
def clear : Bytes := [99, 108, 101, 97, 114]

/-- `p_mqttclient.c:475-554 mqttclient_publish_handle_retain`: retain flag, expiry interval, whether there is no payload. -/
def retainOf (c : Conf) (m : Msg) : Out (Bool × Option Nat × Bool) :=
  match c.retainTag, m.array with
  | some tag, some l =>
    match l.find? (fun v => v.tag = tag) with
    | none => .ok (false, none, false)
    | some v =>
      if v.str = some clear then .ok (true, none, true)
      else if v.num > 4294967295 then .drop
      else .ok (true, some v.num, false)
  | _, _ => .ok (false, none, false)

/-- `p_mqttclient.c:331-473 mqttclient_publish_add_payload`. -/
def payloadOf (c : Conf) (m : Msg) : Out Payload :=
  match c.method with
  | .message => .ok (.message m)
  | .values tags => match m.array with
    | none => .drop
    | some l => .ok (.values tags l)
  | .plain => if m.data.length > 0 ∧ m.array = none then .ok (.data m.data) else .ok (.text m)

/-- `p_mqttclient.c:556-617 mqttclient_publish` up to sending. -/
def publish (c : Conf) (m : Msg) : Out Pub :=
  match topicOf c m with
  | .bug => .bug
  | .drop => .drop
  | .ok t => match retainOf c m with
    | .bug => .bug
    | .drop => .drop
    | .ok (r, e, true) => .ok { topic := t, qos := c.qos, retain := r, expiry := e, payload := none }
    | .ok (r, e, false) => match payloadOf c m with
      | .bug => .bug
      | .drop => .drop
      | .ok p => .ok { topic := t, qos := c.qos, retain := r, expiry := e, payload := some p }

/-- Tag of the command, `p_mqttclient.c:819`. -/
def tagCommand : Bytes := [109, 113, 116, 116, 95, 99, 111, 109, 109, 97, 110, 100]
/-- Tag of topic filters, `p_mqttclient.c:658`. -/
def tagFilter : Bytes := [109, 113, 116, 116, 95, 116, 111, 112, 105, 99, 95, 102, 105, 108, 116, 101, 114]
/-- Tag which asks for the will, `p_mqttclient.c:783`. -/
def tagWill : Bytes := [109, 113, 116, 116, 95, 100, 105, 115, 99, 111, 110, 110, 101, 99, 116, 95, 119, 105, 116, 104, 95, 119, 105, 108, 108]
/-- `subscribe`, `p_mqttclient.c:831`. -/
def cmdSubscribe : Bytes := [115, 117, 98, 115, 99, 114, 105, 98, 101]
/-- `unsubscribe`, `p_mqttclient.c:834`. -/
def cmdUnsubscribe : Bytes := [117, 110, 115, 117, 98, 115, 99, 114, 105, 98, 101]
/-- `disconnect`, `p_mqttclient.c:837`. -/
def cmdDisconnect : Bytes := [100, 105, 115, 99, 111, 110, 110, 101, 99, 116]

/-- Adding without duplicates (`mqtt_subscription.c:594-636`, `p_mqttclient.c:194-223`; a subscription which is there is replaced by an equal one). -/
def addUnique (l : List Bytes) (t : Bytes) : List Bytes := if l.contains t then l else l ++ [t]

/-- Outcome of a command. -/
inductive COut (α : Type) | ok (a : α) | stop | fault
deriving DecidableEq, Repr

/-- `p_mqttclient.c:638-682 mqttclient_process_command_get_topic_filters`. The collection is missing but success is returned for a value which is unknown or cannot be text (L655, 669), and
callers read from it (L694-700 and `mqtt_subscription.c:603`, L729-733 and `mqtt_client.c:279`). -/
def filters (valid : Bytes → Bool) : List Val → List Bytes → COut (List Bytes)
  | [], acc => .ok acc
  | v :: r, acc =>
    match v.str with
    | none => .fault
    | some t =>
      if v.tag = tagFilter then
        if valid t then filters valid r (addUnique acc t) else .stop
      else .fault

/-- What the server is asked for. -/
inductive Req | subscribe (l : List Bytes) | unsubscribe (l : List Bytes) | disconnect (will : Bool)
deriving DecidableEq, Repr

/-- `p_mqttclient.c:800-854 mqttclient_process_command`, `p_mqttclient.c:684-798`: new subscriptions, and what is requested if anything (`mqtt_client.c:220, 279`). For version 5, subscriptions are removed only
when the server has answered. -/
def command (c : Conf) (subs : List Bytes) (m : Msg) : COut (List Bytes × Option Req) :=
  match m.array with
  | none => .ok (subs, none)
  | some l => match l.find? (fun v => v.tag = tagCommand) with
    | none => .ok (subs, none)
    | some v => match v.str with
      | none => .ok (subs, none)
      | some cmd =>
        let rest := l.filter (fun v => v.tag ≠ tagCommand)
        if cmd = cmdSubscribe then
          match filters c.validFilter rest [] with
          | .fault => .fault
          | .stop => .stop
          | .ok f =>
            let subs := f.foldl addUnique subs
            .ok (subs, if subs = [] then none else some (.subscribe subs))
        else if cmd = cmdUnsubscribe then
          match filters c.validFilter rest [] with
          | .fault => .fault
          | .stop => .stop
          | .ok f => .ok (if c.v5 then subs else subs.filter (fun t => !f.contains t), if f = [] then none else some (.unsubscribe f))
        else if cmd = cmdDisconnect then .ok (subs, some (.disconnect (rest.any (fun v => v.tag = tagWill))))
        else .ok (subs, none)

/-- The module: waiting messages, whether sending is disabled, whether messages are discarded and how many were noted, subscriptions, packets and requests given to the session, messages which were handled. -/
structure State where
  queue : List Msg := []
  disabled : Bool := true
  discard : Bool := false
  discarded : Nat := 0
  subs : List Bytes := []
  sent : List Pub := []
  reqs : List Req := []
  handled : List Msg := []
deriving DecidableEq, Repr

/-- What the session says to a packet: failure, and whether sending is discouraged (`mqtt_client.c:183-211`). -/
structure Ans where
  fail : Bool
  full : Bool
deriving DecidableEq, Repr

/-- Outcome of handling a message. -/
inductive SOut | ok (s : State) | fail (s : State) | crash
deriving DecidableEq, Repr

/-- `p_mqttclient.c:856-890 mqttclient_process` and `p_mqttclient.c:2074-2086`, without removal from the queue. A dropped message does not discourage. -/
def handle (c : Conf) (a : Ans) (s : State) (m : Msg) : SOut :=
  if c.isCommand m then
    match command c s.subs m with
    | .fault => .crash
    | .stop => .fail s
    | .ok (subs, r) => match a.fail, r with
      | true, some (.subscribe _) => .fail { s with subs := subs }
      | true, some (.unsubscribe _) => .fail s
      | _, _ => .ok { s with subs := subs, reqs := s.reqs ++ r.toList, disabled := false }
  else match publish c m with
    | .bug => .crash
    | .drop => .ok { s with disabled := false }
    | .ok p => if a.fail then .fail s else .ok { s with sent := s.sent ++ [p], disabled := a.full }

/-- `p_mqttclient.c:2069-2090 mqttclient_input_queue_process`: messages in the queue are handled until a failure, which leaves the message first in the queue. -/
def processQueue (c : Conf) (env : Nat → Ans) : Nat → State → List Msg → SOut
  | _, s, [] => .ok { s with queue := [] }
  | k, s, m :: r => match handle c (env k) s m with
    | .crash => .crash
    | .fail s => .fail { s with queue := m :: r }
    | .ok s => processQueue c env (k + 1) { s with handled := s.handled ++ [m] } r

/-- What happens: a message arrives, the periodic event with a living connection, the connection is made (again), beginning and end of discarding. -/
inductive Op
  | arrive (m : Msg) (env : Nat → Ans)
  | periodic
  | connecting
  | connected (env : Nat → Ans)
  | discard (on : Bool)

/-- `p_mqttclient.c:2092-2128 mqttclient_poll_callback`, `p_mqttclient.c:2179-2181` in `mqttclient_event_periodic`, `p_mqttclient.c:2202, 2273` before connecting, `p_mqttclient.c:2315-2329` after it,
`p_mqttclient.c:1936-1947` in `mqttclient_connect_loop`. A failure ends event handling. -/
def step (c : Conf) (s : State) : Op → SOut
  | .arrive m env =>
    let s := { s with queue := s.queue ++ [m] }
    if s.discard then .ok { s with discarded := s.discarded + 1 + s.queue.length, queue := [] }
    else if s.disabled then .ok s
    else processQueue c env 0 s s.queue
  | .periodic => .ok { s with disabled := false }
  | .connecting => .ok { s with disabled := true }
  | .connected env => processQueue c env 0 { s with disabled := false } s.queue
  | .discard on => .ok { s with discard := on, disabled := if on then false else s.disabled }

/-- Many steps. After a failure, the module goes on with what it has when it connects again. -/
def run (c : Conf) (s : State) : List Op → Option State
  | [] => some s
  | o :: r => match step c s o with
    | .crash => none
    | .fail s => run c s r
    | .ok s => run c s r

end Verif.MqttClient
