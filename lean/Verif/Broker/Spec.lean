import Verif.Broker.Model
import Verif.Session.Spec
import Verif.Subscription.Props
/-!
# What can be observed of an MQTT broker

A history is a list of events (`Broker.Ev`). The definitions below say, from the history alone, which sessions exist, which subscriptions a
client has, which messages are retained and so on, and what must hold at each event.
-/
namespace Verif.Broker.Spec
open Verif Broker Session

/-! ## What the history says -/

/-- The clients with a session, the newest session first. -/
def liveStep (l : List Bytes) : Ev → List Bytes
  | .created c _ => c :: l
  | .removed c _ => l.filter (· ≠ c)
  | _ => l

def live (h : List Ev) : List Bytes := h.foldl liveStep []

/-- A subscription takes the place of the one with the same filter; otherwise it is added at the end if there are less than 65536. -/
def addSub (l : List Subscription.Sub) (x : Subscription.Sub) : List Subscription.Sub :=
  if l.any (fun y => y.filter == x.filter) then l.map fun y => if y.filter = x.filter then x else y
  else if l.length < 65536 then l ++ [x] else l

/-- The subscriptions of a SUBSCRIBE packet whose filters are not there yet. Failed ones have a QoS above 2. -/
def newSubs (l : List Subscription.Sub) : List Subscription.Sub → List Subscription.Sub
  | [] => []
  | x :: xs =>
    if x.qos ≤ 2 then (if l.any (fun y => y.filter == x.filter) then [] else [x]) ++ newSubs (addSub l x) xs else newSubs l xs

/-- The subscriptions of the client `c`. -/
def subsStep (c : Bytes) (l : List Subscription.Sub) : Ev → List Subscription.Sub
  | .created d _ => if d = c then [] else l
  | .op d (.init _ _ _ _ true) _ _ => if d = c then [] else l
  | .subscribed d _ xs _ => if d = c then (xs.filter (fun x => x.qos ≤ 2)).foldl addSub l else l
  | .unsubscribed d fs => if d = c then l.filter (fun x => (x.filter, 0) ∉ fs) else l
  | _ => l

def subscriptions (c : Bytes) (h : List Ev) : List Subscription.Sub := h.foldl (subsStep c) []

/-- The retained messages: for each topic the last one which was published to be retained. An empty payload removes the message of its
topic. Messages which have expired are removed when somebody makes a new subscription. -/
def retainStep (l : List Pub) : Ev → List Pub
  | .published _ p _ =>
    if !p.retain then l
    else if p.payload.getD [] = [] then l.filter (fun q => q.topic ≠ p.topic)
    else if l.any (fun q => q.topic == p.topic) then l.map fun q => if q.topic = p.topic then p else q
    else l ++ [p]
  | .subscribed _ now _ new => if new = [] then l else l.filter fun q => !q.expired now
  | _ => l

def retained (h : List Ev) : List Pub := h.foldl retainStep []

/-- Session expiry interval and maximum packet size (0: no limit) which the client gave. -/
def settingsStep (c : Bytes) (x : Nat × Nat) : Ev → Nat × Nat
  | .created d _ => if d = c then (0, 0) else x
  | .connected d _ e m _ => if d = c then (e, m) else x
  | _ => x

def settings (c : Bytes) (h : List Ev) : Nat × Nat := h.foldl (settingsStep c) (0, 0)

/-- The user name with which the client has connected last. -/
def userStep (c : Bytes) (u : Bytes) : Ev → Bytes
  | .connected d u' _ _ _ => if d = c then u' else u
  | _ => u

def user (c : Bytes) (h : List Ev) : Bytes := h.foldl (userStep c) []

/-- When the client was heard of last. -/
def heardStep (c : Bytes) (t : Nat) : Ev → Nat
  | .created d now => if d = c then now else t
  | .heartbeat d now => if d = c then now else t
  | _ => t

def heard (c : Bytes) (h : List Ev) : Nat := h.foldl (heardStep c) 0

/-- When the connection of the client has ended; `none` if it has a connection, or has lost it to another one (reason 0x8E). -/
def endedStep (c : Bytes) (t : Option Nat) : Ev → Option Nat
  | .created d _ => if d = c then none else t
  | .connected d _ _ _ _ => if d = c then none else t
  | .disconnected d now r => if d = c then (if r = 0x8E then none else some now) else t
  | _ => t

def ended (c : Bytes) (h : List Ev) : Option Nat := h.foldl (endedStep c) none

/-- The will of the client which has not been published yet, and when it is due (0 as long as the connection has not ended). -/
def willStep (c : Bytes) (w : Option Will) : Ev → Option Will
  | .created d _ => if d = c then none else w
  | .connected d _ _ _ w' => if d = c then w' else w
  | .disconnected d now r =>
    if d = c ∧ r ≠ 0x8E then (if r = 0 then none else w.map fun x => { x with planned := now + x.delay * 1000000 % 2 ^ 32 }) else w
  | .published _ _ (.will d) => if d = c then none else w
  | _ => w

def will (c : Bytes) (h : List Ev) : Option Will := h.foldl (willStep c) none

/-- What has happened to the queues of the session of the client since it was made. -/
def opsStep (c : Bytes) (l : List (Session.Op × Out)) : Ev → List (Session.Op × Out)
  | .created d _ => if d = c then [] else l
  | .op d o r _ => if d = c then l ++ [(o, r)] else l
  | _ => l

def ops (c : Bytes) (h : List Ev) : List (Session.Op × Out) := h.foldl (opsStep c) []

/-! ## What must hold at each event

`before` and `after` are the events before and after it. -/

def AtEach (Q : List Ev → Ev → List Ev → Prop) (h : List Ev) : Prop := ∀ before e after, h = before ++ e :: after → Q before e after

/-- The filter of a subscription matches a topic (the matching is the subject of C01). -/
def matching (t : Bytes) (x : Subscription.Sub) : Bool := Topic.matchStr x.filter t == .match

/-- What the clients get of a message: a copy for each subscription which matches, with the lower one of the two qualities of service and
without the retain flag, unless the packet is larger than the client accepts. -/
def forwarded (h : List Ev) (p : Pub) : List Ev :=
  (live h).flatMap fun c =>
    if (settings c h).2 ≠ 0 ∧ (settings c h).2 < p.size then []
    else ((subscriptions c h).filter (matching p.topic)).map fun x => .op c (.queue { p with qos := min p.qos x.qos, retain := false }) {}

/-- A message which is published is queued for exactly the clients with matching subscriptions. -/
def Forwards (before : List Ev) (e : Ev) (after : List Ev) : Prop :=
  ∀ now p src, e = .published now p src → ∃ rest, after = forwarded before p ++ rest

/-- Nothing else is queued. -/
def OnlyForwarded (before : List Ev) (e : Ev) (_ : List Ev) : Prop :=
  ∀ c x r v, e = .op c (.queue x) r v → ∃ pre now p src mid rest, before = pre ++ .published now p src :: mid ∧ forwarded pre p = mid ++ e :: rest

/-- What a client gets for new subscriptions: a copy of each retained message which has not expired, for each new subscription which matches, with
the lower one of the two qualities of service and the retain flag. -/
def retainedFor (c : Bytes) (now : Nat) (h : List Ev) (new : List Subscription.Sub) : List Ev :=
  ((retained h).filter fun p => !p.expired now).flatMap fun p =>
    (new.filter (matching p.topic)).map fun x => .op c (.retained { p with qos := min p.qos x.qos, retain := true }) {}

/-- A SUBSCRIBE makes the client get the retained messages for the subscriptions which are new. -/
def Retains (before : List Ev) (e : Ev) (after : List Ev) : Prop :=
  ∀ c now xs new, e = .subscribed c now xs new →
    new = newSubs (subscriptions c before) xs ∧ ∃ rest, after = retainedFor c now before new ++ rest

/-- Retained messages are sent for no other reason. -/
def OnlyRetained (before : List Ev) (e : Ev) (_ : List Ev) : Prop :=
  ∀ c x r v, e = .op c (.retained x) r v → ∃ pre now xs new mid rest, before = pre ++ .subscribed c now xs new :: mid ∧
    retainedFor c now pre new = mid ++ e :: rest

/-- A client connects only if it may log in. -/
def LoggedIn (cfg : Config) (_ : List Ev) (e : Ev) (_ : List Ev) : Prop :=
  ∀ c u x m w, e = .connected c u x m w →
    (u = [] → cfg.denyAnonymous = false) ∧ (u ≠ [] → ∃ f pw, cfg.passwords = some f ∧ f u pw = true)

/-- A PUBLISH is accepted only if the user may write to its topic. -/
def MayWrite (cfg : Config) (before : List Ev) (e : Ev) (_ : List Ev) : Prop :=
  ∀ c now p tx r v, e = .op c (.publish now p .accept tx) r v → cfg.canWrite (user c before) p.topic = true

/-- A subscription is granted only if the user may read from its topics. -/
def MayRead (cfg : Config) (before : List Ev) (e : Ev) (_ : List Ev) : Prop :=
  ∀ c now xs new, e = .subscribed c now xs new → ∀ x ∈ xs, x.qos ≤ 2 → cfg.canRead (user c before) x.filter = true

/-- A message which is published for a client was received from it before, and was accepted. -/
def WasReceived (before : List Ev) (e : Ev) (_ : List Ev) : Prop :=
  ∀ now p c u, e = .published now p (.client c u) → ∃ t q tx r v, .op c (.publish t q .accept tx) r v ∈ before ∧ Session.Spec.SameMessage q p

/-- The events when messages are published one after the other. -/
def distribution (now : Nat) (src : Source) : List Ev → List Pub → List Ev
  | _, [] => []
  | h, p :: l =>
    (.published now p src :: forwarded h p) ++ distribution now src (h ++ (.published now p src :: forwarded h p)) l

/-- What the session of a client delivers when a packet of the client is handled is published at once. -/
def Distributes (before : List Ev) (e : Ev) (after : List Ev) : Prop :=
  ∀ c o r k, e = .op c o r (some k) → ∃ now rest, after = distribution now (.client c (user c before)) (before ++ [e]) r.delivered ++ rest

/-- A message is published for a client only because the session of the client delivers it. -/
def OnlyDistributed (before : List Ev) (e : Ev) (_ : List Ev) : Prop :=
  ∀ now p c u, e = .published now p (.client c u) → ∃ pre o r k mid rest, before = pre ++ .op c o r (some k) :: mid ∧ u = user c pre ∧
    distribution now (.client c u) (pre ++ [.op c o r (some k)]) r.delivered = mid ++ e :: rest

/-- A connection of a client is up: it has not been taken over and its session exists. -/
def Up (b : Broker) (k : Nat) (c u : Bytes) : Prop :=
  ∃ x s, b.conn k = some x ∧ x.takenOver = false ∧ x.client = c ∧ x.user = u ∧ x.ref.bind b.find = some s

/-- The operations lead from the start to this state and make this history. -/
def Ran (cfg : Config) (os : List Op) (b : Broker) (h : List Ev) : Prop := run cfg {} os = some (b, h)

/-- A SUBACK tells the client what has been granted. -/
def SubAcked (before : List Ev) (e : Ev) (_ : List Ev) : Prop :=
  ∀ k codes, e = .suback k codes → ∃ a c now xs new, before = a ++ .subscribed c now xs new :: retainedFor c now a new ∧ codes = xs.map (·.qos) ∧
    ∃ a' x b, a = a' ++ .connack k c 0 x :: b ∧ ∀ k' c' x', .connack k' c' 0 x' ∈ b → c' ≠ c ∧ k' ≠ k

/-- A will is published only after the connection of the client has ended with another reason than 0 (normal) and 0x8E (taken over). It is the will of
the last connection, and it has not been published before. The delay (computed with 32 bits) is over, or the session has ended, or it ends now. -/
def WillOnce (before : List Ev) (e : Ev) (after : List Ev) : Prop :=
  ∀ now p c, e = .published now p (.will c) → ∃ a u x m w b t r d,
    before = a ++ .connected c u x m (some w) :: (b ++ .disconnected c t r :: d) ∧ p = w.pub ∧ r ≠ 0 ∧ r ≠ 0x8E ∧
    (∀ e ∈ b ++ d, ∀ u x m w, e ≠ .connected c u x m w) ∧ (∀ e ∈ b ++ d, ∀ t p, e ≠ .published t p (.will c)) ∧
    (∀ e ∈ b ++ d, ∀ t, e ≠ .disconnected c t 0) ∧
    (t + w.delay * 1000000 % 2 ^ 32 ≤ now ∨ c ∉ live before ∨ ∃ rest, after = forwarded before p ++ .removed c now :: rest)

/-- A session is removed only when its connection has ended and the session expiry interval is over, or when nothing was heard of the client for
20 s and the session is not waiting for this. -/
def RemovedWhen (before : List Ev) (e : Ev) (_ : List Ev) : Prop :=
  ∀ c now, e = .removed c now →
    (∃ t, ended c before = some t ∧ (settings c before).1 ≠ 0xffffffff ∧ t + (settings c before).1 * 1000000 ≤ now) ∨
    (heard c before + 20000000 < now ∧ (ended c before = none ∨ (settings c before).1 = 0xffffffff))

/-- Only the connection with the last successful CONNACK for a client handles packets of the session of the client. -/
def OwnConnection (before : List Ev) (e : Ev) (_ : List Ev) : Prop :=
  ∀ c o r k, e = .op c o r (some k) → ∃ a x b, before = a ++ .connack k c 0 x :: b ∧
    ∀ k' c' x', .connack k' c' 0 x' ∈ b → c' ≠ c ∧ k' ≠ k

/-- The events of a successful CONNECT of the client `c` before the CONNACK. -/
def OfConnect (c : Bytes) : Ev → Prop
  | .created d _ => d = c
  | .op d (.init _ _ _ _ _) _ _ => d = c
  | .disconnected _ _ r => r = 0x8E
  | .connected d _ _ _ _ => d = c
  | _ => False

/-- A successful CONNACK says whether there was a session before which was not cleaned. -/
def Present (before : List Ev) (e : Ev) (_ : List Ev) : Prop :=
  ∀ k c x, e = .connack k c 0 x → ∃ a b, before = a ++ b ∧ (∀ e ∈ b, OfConnect c e) ∧
    (x = true ↔ c ∈ live a ∧ ∀ m r t g o v, .op c (.init m r t g true) o v ∉ b)

/-! ## Connections -/

/-- The user may log in with this password. -/
def MayLogIn (cfg : Config) (user password : Bytes) : Prop :=
  (user = [] ∧ cfg.denyAnonymous = false) ∨ (user ≠ [] ∧ password ≠ [] ∧ ∃ f, cfg.passwords = some f ∧ f user password = true)

/-! ## Packets which passed the parser -/

def ValidPub (p : Pub) : Prop := Topic.validateName p.topic = true ∧ p.qos ≤ 2

/-- Identifiers are not 0 where they are used, topics and filters are valid, reasons for failure are not 0, a SUBSCRIBE has at least one filter, the
clock is not at 0. -/
def Valid : Op → Prop
  | .connect _ _ _ c _ _ => ∀ w, c.will = some w → ValidPub w.pub
  | .publish _ now p bad badProp _ => 0 < now ∧ p.qos ≤ 2 ∧ (p.qos ≠ 0 → p.id ≠ 0) ∧ bad ≠ some 0 ∧ badProp ≠ some 0 ∧
      (bad = none → Topic.validateName p.topic = true)
  | .ack _ _ a _ => a.id ≠ 0 ∧ a.kind ≠ .suback ∧ a.kind ≠ .unsuback
  | .pass _ now _ => 0 < now
  | .subscribe _ _ subs _ => subs ≠ [] ∧ ∀ x ∈ subs, x.qos ≤ 2 → Subscription.SubOk x
  | _ => True

end Verif.Broker.Spec
