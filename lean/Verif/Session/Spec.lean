import Verif.Session.Model
/-!
# What can be observed of an MQTT session

A history is a list of events. The properties of `Verif.Session.Props` speak about histories.
-/
namespace Verif.Session.Spec
open Verif Session

/-- What happens, as seen from outside. -/
inductive Ev where
  /-- a message is handed to the session for sending -/
  | queued (p : Pub)
  /-- a PUBLISH arrives from the remote; `v` is what the checks before the session say -/
  | got (p : Pub) (v : Verdict)
  /-- an acknowledgement arrives from the remote -/
  | acked (a : Ack)
  /-- a message from the remote is handed to the application (client) or to the subscribers (broker) -/
  | delivered (p : Pub)
  /-- a packet is sent as answer to a packet from the remote -/
  | answer (w : Wire)
  /-- a packet is sent, or sent again, from the queue at the time `now` -/
  | sent (now : Nat) (w : Wire)
  /-- the session is cleaned -/
  | cleaned

/-- The events of one operation. -/
def events : Op → Out → List Ev
  | .queue p, _ => [.queued p]
  | .queueSub _ _, _ => []
  | .retained p, _ => [.queued p]
  | .publish _ p v _, o => .got p v :: (o.delivered.map .delivered ++ o.sent.map .answer)
  | .ack a _ _, o => .acked a :: (o.delivered.map .delivered ++ o.sent.map .answer)
  | .pass now _, o => o.sent.map (.sent now)
  | .tick _, _ => []
  | .init _ _ _ _ c, _ => if c then [.cleaned] else []

/-- The events of a history. -/
def trace : List Op → List Out → List Ev
  | o :: os, r :: rs => events o r ++ trace os rs
  | _, _ => []

/-- A packet from the remote which passed the parser: the quality of service is at most 2, packets with QoS 1 and 2 and
acknowledgements have an identifier which is not 0. A refusal has a reason. The clock is not at 0. SUBACK and UNSUBACK are sent by
brokers only: `broker` says that the session is one of a broker, which has no handler for them. -/
def Valid (broker : Bool) : Op → Prop
  | .publish now p v _ => 0 < now ∧ (p.qos ≤ 2 ∧ (p.qos ≠ 0 → p.id ≠ 0)) ∧ v ≠ .refuse 0
  | .ack a _ _ => a.id ≠ 0 ∧ (broker = true → a.kind ≠ .suback ∧ a.kind ≠ .unsuback)
  | .pass now _ => 0 < now
  | .queue p => p.qos ≤ 2
  | .retained p => p.qos ≤ 2
  | _ => True

/-- How many times a message of quality of service 2 is delivered. -/
def deliveries (k : Nat) : List Ev → Nat
  | [] => 0
  | .delivered p :: l => (if p.qos = 2 ∧ p.key = k then 1 else 0) + deliveries k l
  | _ :: l => deliveries k l

/-- Every PUBLISH from the remote counts as a message of its own, also if it is a repetition. -/
def gotKeys : List Ev → List Nat
  | [] => []
  | .got p _ :: l => p.key :: gotKeys l
  | _ :: l => gotKeys l

/-- Two packets carry the same message with the same identifier; the DUP flag and the state of the exchange may differ. -/
structure SameMessage (r p : Pub) : Prop where
  key : p.key = r.key
  topic : p.topic = r.topic
  payload : p.payload = r.payload
  qos : p.qos = r.qos
  retain : p.retain = r.retain
  id : p.id = r.id
  createTime : p.createTime = r.createTime
  expiry : p.expiry = r.expiry
  size : p.size = r.size

/-- `Q` holds at every event of the history: of the events before it and of the event itself. -/
def AtEach (Q : List Ev → Ev → Prop) (h : List Ev) : Prop := ∀ before e after, h = before ++ e :: after → Q before e

/-- No message of QoS 2 with this identifier is delivered, and the session is not cleaned. -/
def NoDelivery (id : BitVec 16) (h : List Ev) : Prop := (∀ p, .delivered p ∈ h → p.qos = 2 → p.id ≠ id) ∧ .cleaned ∉ h

/-- When a message of QoS 2 is delivered, the event just before is a PUBREL with its identifier, and it was received and accepted
before; since then no other message with this identifier was delivered. -/
def Qos2Once (before : List Ev) : Ev → Prop
  | .delivered p => p.qos = 2 → ∃ a r b rel, before = a ++ .got r .accept :: (b ++ [.acked rel]) ∧ SameMessage r p ∧ NoDelivery p.id b ∧
      rel.kind = .pubrel ∧ rel.id = p.id
  | _ => True

/-- When a PUBCOMP with reason 0 is sent in answer to a PUBREL, a message of QoS 2 with the identifier was received and accepted
before, it was delivered since then, and nothing else with the identifier was. -/
def Qos2Complete (before : List Ev) : Ev → Prop
  | .answer (.ack c) => c.kind = .pubcomp → c.reason = 0 → ∃ a r b p d, before = a ++ .got r .accept :: (b ++ .delivered p :: d) ∧
      SameMessage r p ∧ r.qos = 2 ∧ r.id = c.id ∧ NoDelivery c.id b ∧ NoDelivery c.id d
  | _ => True

/-- When a PUBACK with reason 0 is sent in answer to a PUBLISH, the message has just been delivered: nothing else has happened since it
was received, except for other deliveries and answers. -/
def Qos1Delivered (before : List Ev) : Ev → Prop
  | .answer (.ack c) => c.kind = .puback → c.reason = 0 → ∃ a r p d, before = a ++ .got r .accept :: .delivered p :: d ∧
      SameMessage r p ∧ r.qos = 1 ∧ r.id = c.id ∧ ∀ e ∈ d, (∃ q, e = .delivered q) ∨ ∃ w, e = .answer w
  | _ => True

/-! ## The sending side -/

/-- Two packets carry the same message; identifier, DUP flag and state of the exchange may differ. -/
structure SameContent (p q : Pub) : Prop where
  key : q.key = p.key
  topic : q.topic = p.topic
  payload : q.payload = p.payload
  qos : q.qos = p.qos
  retain : q.retain = p.retain
  createTime : q.createTime = p.createTime
  expiry : q.expiry = p.expiry

/-- The messages which were handed to the session, by key. -/
def queuedKeys : List Ev → List Nat
  | [] => []
  | .queued p :: l => p.key :: queuedKeys l
  | _ :: l => queuedKeys l

/-- The acknowledgement which ends the exchange for a message of this quality of service. -/
def finalKind (qos : Nat) : AckKind := if qos = 1 then .puback else .pubcomp

/-- The session is not cleaned, and nothing which ends an exchange arrives with this identifier. -/
def Unfinished (id : BitVec 16) (h : List Ev) : Prop :=
  .cleaned ∉ h ∧ ∀ a, .acked a ∈ h → a.id = id → a.kind ≠ .puback ∧ a.kind ≠ .pubcomp

/-- A PUBLISH which is sent carries a message which was handed to the session, and has an identifier. -/
def SentWasQueued (before : List Ev) : Ev → Prop
  | .sent _ (.publish r) => r.id ≠ 0 ∧ ∃ p, .queued p ∈ before ∧ SameContent p r
  | _ => True

/-- A PUBLISH which is sent has another identifier than every other message whose exchange is not finished. -/
def IdsDiffer (before : List Ev) : Ev → Prop
  | .sent _ (.publish r) => ∀ a t q b, before = a ++ .sent t (.publish q) :: b → q.qos ≠ 0 → q.key ≠ r.key → Unfinished q.id b → q.id ≠ r.id
  | _ => True

/-- A message which is sent again has the same content and identifier as before, and the DUP flag. -/
def RepeatMarked (before : List Ev) : Ev → Prop
  | .sent _ (.publish r) => ∀ a t q b, before = a ++ .sent t (.publish q) :: b → q.key = r.key → .cleaned ∉ b →
      SameContent q r ∧ r.id = q.id ∧ r.dup = true
  | _ => True

/-- A message of QoS 2 is not sent again after the PUBREC for it has arrived. -/
def NotAfterPubrec (before : List Ev) : Ev → Prop
  | .sent _ (.publish r) => ∀ a t q b c, before = a ++ .sent t (.publish q) :: b → q.key = r.key → q.qos = 2 → .cleaned ∉ b →
      .acked c ∈ b → c.kind = .pubrec → c.reason = 0 → c.id ≠ q.id
  | _ => True

/-- The number of packets which are handed to the session for sending. -/
def queueings : List Op → Nat
  | [] => 0
  | .queue _ :: l | .queueSub _ _ :: l | .retained _ :: l => queueings l + 1
  | _ :: l => queueings l

/-- A packet with which the sender goes on with a message: the message itself, or, for QoS 2 after a PUBREC has arrived, the PUBREL. The identifier is
the one with which the message was sent, if it was sent since the session was cleaned. -/
def Continues (h : List Ev) (p : Pub) (w : Wire) : Prop :=
  (∃ r, w = .publish r ∧ SameContent p r) ∨
  ∃ c id, p.qos = 2 ∧ w = .ack { kind := .pubrel, id := id } ∧ .acked c ∈ h ∧ c.kind = .pubrec ∧ c.id = id ∧
    ∀ a t r b, h = a ++ .sent t (.publish r) :: b → .cleaned ∉ b → r.key = p.key → r.id = id

/-- An acknowledgement arrived which ends the exchange for the message `p`, handed over before `after`: it is of the right kind and has the
identifier with which the message was sent, if it was sent since the session was cleaned. -/
def Finished (before : List Ev) (p : Pub) (after : List Ev) : Prop :=
  ∃ b1 c b2, after = b1 ++ .acked c :: b2 ∧ c.kind = finalKind p.qos ∧
    ∀ a t r b, before ++ .queued p :: b1 = a ++ .sent t (.publish r) :: b → .cleaned ∉ b → r.key = p.key → r.id = c.id

/-- The identifiers of the messages with QoS 1 and 2 which were sent and for which no acknowledgement has arrived. -/
def flightStep (l : List (BitVec 16)) : Ev → List (BitVec 16)
  | .sent _ (.publish r) => if r.qos = 0 ∨ r.id ∈ l then l else l ++ [r.id]
  | .acked a => if a.kind = .puback ∨ a.kind = .pubrec ∨ a.kind = .pubcomp then l.filter (· ≠ a.id) else l
  | .cleaned => []
  | _ => l

def inFlight (h : List Ev) : List (BitVec 16) := h.foldl flightStep []

/-- The same, where an exchange with QoS 2 lasts until the PUBCOMP, as MQTT 5 says in section 4.9. -/
def quotaStep (l : List (BitVec 16)) : Ev → List (BitVec 16)
  | .sent _ (.publish r) => if r.qos = 0 ∨ r.id ∈ l then l else l ++ [r.id]
  | .acked a => if a.kind = .puback ∨ a.kind = .pubcomp ∨ (a.kind = .pubrec ∧ 0x80 ≤ a.reason) then l.filter (· ≠ a.id) else l
  | .cleaned => []
  | _ => l

def quotaUsed (h : List Ev) : List (BitVec 16) := h.foldl quotaStep []

/-- The message with this key was sent. -/
def WasSent (k : Nat) (h : List Ev) : Prop := ∃ t r, .sent t (.publish r) ∈ h ∧ r.key = k

/-- When a message is sent for the first time, no message which was handed to the session after it has been sent. -/
def FirstInOrder (before : List Ev) : Ev → Prop
  | .sent _ (.publish r) => ¬ WasSent r.key before → ∀ a p b q, before = a ++ .queued p :: b → p.key = r.key → .queued q ∈ b → ¬ WasSent q.key before
  | _ => True

/-- A message is sent again only when more than the retry interval has passed. -/
def RetryAfter (retry : Nat) (before : List Ev) : Ev → Prop
  | .sent now (.publish r) => ∀ a t q b, before = a ++ .sent t (.publish q) :: b → q.key = r.key → .cleaned ∉ b → t + retry < now
  | _ => True

/-- A message is not sent after it has expired. -/
def NotExpired : Ev → Prop
  | .sent now (.publish r) => r.expiry = 0 ∨ now ≤ r.createTime + r.expiry * 1000000
  | _ => True

end Verif.Session.Spec
