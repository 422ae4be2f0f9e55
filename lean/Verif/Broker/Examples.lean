import Verif.Broker.Props
/-!
# Concrete histories of the MQTT broker

They satisfy the hypotheses of the theorems in `Verif.Broker.Props`, and show where the program does not do what one would expect.
-/
namespace Verif.Broker.Examples
open Verif Session Spec Broker

/-- Second. -/
def sec : Nat := 1000000

/-- A number for each kind of event. -/
def code : Ev → Nat
  | .connack _ _ r p => 1000 + r.toNat * 10 + (if p then 1 else 0)
  | .created _ _ => 2
  | .removed _ _ => 3
  | .connected _ _ _ _ _ => 4
  | .op _ (.queue _) _ _ => 5
  | .op _ (.retained _) _ _ => 6
  | .op _ (.publish _ _ _ _) _ _ => 7
  | .op _ (.ack _ _ _) _ _ => 8
  | .op _ (.pass _ _) o _ => 90 + o.sent.length
  | .op _ (.tick _) _ _ => 10
  | .op _ (.init _ _ _ _ _) _ _ => 11
  | .op _ (.queueSub _ _) _ _ => 12
  | .subscribed _ _ _ new => 130 + new.length
  | .suback _ l => 200 + l.sum
  | .unsubscribed _ _ => 14
  | .published _ _ (.client _ _) => 15
  | .published _ _ (.will _) => 16
  | .disconnected _ _ _ => 17
  | .heartbeat _ _ => 18

/-- The kinds of events of a history. -/
def codes (cfg : Config) (os : List Op) : Option (List Nat) := (run cfg {} os).map fun x => x.2.map code

def alice : Bytes := [65]
def bob : Bytes := [66]
def topic : Bytes := [97]
def any : Subscription.Sub := ⟨[43], 0, 0, 0, 1⟩

theorem any_ok : Subscription.SubOk any := ⟨0, 0, 0, 1, by decide +kernel, by decide⟩

def will5 : Will := { pub := { key := 7, topic := topic, payload := some [1], qos := 0 }, delay := 5 }

/-- Two clients: one subscribes, the other one publishes a retained message and is lost; its will is published and its session expires. -/
def demo : List Op :=
  [.connect 1 10 (1 * sec) { client := alice, expiry := 100 } true false,
   .subscribe 1 (1 * sec) [any] true,
   .connect 2 11 (1 * sec) { client := bob, expiry := 50, will := some will5 } true false,
   .publish 2 (1 * sec) { key := 1, topic := topic, payload := some [1, 2], qos := 1, retain := true, id := 3 } none none true,
   .pass 1 (1 * sec) fun _ => .ok,
   .close 2 (2 * sec) 0x82,
   .maintain (3 * sec),
   .maintain (7 * sec),
   .heartbeat 1 (50 * sec),
   .maintain (60 * sec),
   .connect 3 12 (61 * sec) { client := bob, expiry := 50 } true false,
   .subscribe 3 (61 * sec) [any] true]

theorem demo_valid : ∀ o ∈ demo, Spec.Valid o := by
  intro o ho
  simp only [demo, List.mem_cons, List.not_mem_nil, or_false] at ho
  have hw : ValidPub will5.pub := ⟨by decide +kernel, by decide⟩
  have ht : Topic.validateName topic = true := by decide +kernel
  have hs : ∀ x ∈ [any], x.qos ≤ 2 → Subscription.SubOk x := by
    intro x hx _; simp at hx; subst hx; exact any_ok
  rcases ho with rfl | rfl | rfl | rfl | rfl | rfl | rfl | rfl | rfl | rfl | rfl | rfl
  · intro w h; cases h
  · exact ⟨by simp, hs⟩
  · intro w h; cases h; exact hw
  · exact ⟨by decide, by decide, by decide, by decide, by decide, fun _ => ht⟩
  · show 0 < 1 * sec; decide
  · trivial
  · trivial
  · trivial
  · trivial
  · trivial
  · intro w h; cases h
  · exact ⟨by simp, hs⟩

/-- CONNECT of both, SUBSCRIBE, PUBLISH which is published and queued, sending, loss of the connection; grace queues; the will is published and queued for the first client;
the session is removed; the second client comes back and gets the retained message for its subscription. -/
example : codes {} demo = some [2, 11, 4, 1000, 131, 201, 2, 11, 4, 1000, 7, 15, 5, 91, 17, 10, 10, 10, 16, 5, 10, 18, 10, 3, 10, 2, 11, 4, 1000, 131, 6, 201] := by
  decide +kernel

/-! ## The hypotheses of the theorems are met -/

/-- `Up`, computed. -/
def isUp (b : Broker) (k : Nat) (c u : Bytes) : Bool :=
  match b.conn k with
  | some x => !x.takenOver && x.client == c && x.user == u && (x.ref.bind b.find).isSome
  | none => false

theorem isUp_up {b : Broker} {k : Nat} {c u : Bytes} (h : isUp b k c u = true) : Up b k c u := by
  unfold isUp at h
  cases hc : b.conn k with
  | none => rw [hc] at h; cases h
  | some x =>
    rw [hc] at h
    simp only [Bool.and_eq_true, Bool.not_eq_true', beq_iff_eq, Option.isSome_iff_exists] at h
    obtain ⟨⟨⟨h1, h2⟩, h3⟩, s, h4⟩ := h
    exact ⟨x, s, hc, h1, h2, h3, h4⟩

theorem ran_of {cfg : Config} {os : List Op} (f : Broker → List Ev → Bool) (hv : ∀ o ∈ os, Spec.Valid o)
    (h : (run cfg {} os).map (fun x => f x.1 x.2) = some true) : ∃ b h, Ran cfg os b h ∧ f b h = true := by
  obtain ⟨b, l, hr⟩ := broker_total cfg os hv
  refine ⟨b, l, hr, ?_⟩
  have hr' : run cfg {} os = some (b, l) := hr
  rw [hr'] at h
  exact Option.some.inj h

theorem take_valid (n : Nat) : ∀ o ∈ demo.take n, Spec.Valid o := fun o ho => demo_valid o (List.mem_of_mem_take ho)

/-- `publish_forwarded` and `subscribe_granted`: the second client is up. -/
example : ∃ b h, Ran {} (demo.take 3) b h ∧ Up b 2 bob [] ∧
    Spec.Valid (.publish 2 sec { key := 1, topic := topic, payload := some [1, 2], qos := 1, retain := true, id := 3 } none none true) ∧
    Spec.Valid (.subscribe 2 sec [any] true) := by
  obtain ⟨b, h, hr, hu⟩ := ran_of (cfg := {}) (os := demo.take 3) (fun b _ => isUp b 2 bob []) (take_valid 3) (by decide +kernel)
  refine ⟨b, h, hr, isUp_up hu, ⟨by decide, by decide, by decide, by decide, by decide, fun _ => by decide +kernel⟩, by decide, ?_⟩
  intro x hx _
  simp at hx
  subst hx
  exact any_ok

theorem split_at {l : List Ev} {i j : Nat} {x y : Ev} (hx : l[i]? = some x) (hy : l[i + 1 + j]? = some y) :
    l = l.take i ++ x :: ((l.drop (i + 1)).take j ++ y :: l.drop (i + 1 + j + 1)) := by
  obtain ⟨hi, rfl⟩ := List.getElem?_eq_some_iff.mp hx
  obtain ⟨hj, rfl⟩ := List.getElem?_eq_some_iff.mp hy
  have h1 : l = l.take i ++ l.drop i := (List.take_append_drop ..).symm
  have h2 : l.drop i = l[i] :: l.drop (i + 1) := List.drop_eq_getElem_cons hi
  have h3 : l.drop (i + 1) = (l.drop (i + 1)).take j ++ (l.drop (i + 1)).drop j := (List.take_append_drop ..).symm
  have h4 : (l.drop (i + 1)).drop j = l[i + 1 + j] :: l.drop (i + 1 + j + 1) := by rw [List.drop_drop, List.drop_eq_getElem_cons hj]
  conv => lhs; rw [h1, h2, h3, h4]

/-- The will as it is stored. -/
def stored5 : Will := { will5 with pub := { will5.pub with createTime := sec } }

def isWill : Option Ev → Bool
  | some (.connected c u x m (some w)) => c == bob && u == [] && x == 50 && m == 0 && w == stored5
  | _ => false

def isLost : Option Ev → Bool
  | some (.disconnected c t r) => c == bob && t == 2 * sec && r == 0x82
  | _ => false

/-- Not an event which changes what happens with the will of the second client. -/
def quiet : Ev → Bool
  | .connected c _ _ _ _ => c != bob
  | .disconnected c _ _ => c != bob
  | .published _ _ (.will c) => c != bob
  | .created c _ => c != bob
  | _ => true

/-- `will_published_partial`: the connection of the second client has been lost, its session is there, and its will is due 5 s later. -/
example : ∃ b h h1 h2 h3, Ran {} (demo.take 7) b h ∧ h = h1 ++ .connected bob [] 50 0 (some stored5) :: (h2 ++ .disconnected bob (2 * sec) 0x82 :: h3) ∧
    (∀ e ∈ h2 ++ h3, ∀ u x m w, e ≠ .connected bob u x m w) ∧ (∀ e ∈ h2 ++ h3, ∀ t r, e = .disconnected bob t r → r = 0x8E) ∧
    (∀ e ∈ h2 ++ h3, ∀ t p, e ≠ .published t p (.will bob)) ∧ (∀ e ∈ h2 ++ h3, ∀ t, e ≠ .created bob t) ∧
    bob ∈ live h ∧ 2 * sec + stored5.delay * 1000000 ≤ 7 * sec := by
  obtain ⟨b, h, hr, hu⟩ := ran_of (cfg := {}) (os := demo.take 7) (fun _ h => decide (bob ∈ live h) && isWill h[8]? && isLost h[8 + 1 + 5]? &&
    ((h.drop 9).take 5 ++ h.drop 15).all quiet) (take_valid 7) (by decide +kernel)
  simp only [Bool.and_eq_true, decide_eq_true_eq, List.all_eq_true] at hu
  obtain ⟨⟨⟨hl, h1⟩, h2⟩, h3⟩ := hu
  have e1 : h[8]? = some (.connected bob [] 50 0 (some stored5)) := by
    revert h1
    generalize h[8]? = x
    intro h1
    unfold isWill at h1
    split at h1
    · simp only [Bool.and_eq_true, beq_iff_eq] at h1
      obtain ⟨⟨⟨⟨rfl, rfl⟩, rfl⟩, rfl⟩, rfl⟩ := h1
      rfl
    · cases h1
  have e2 : h[8 + 1 + 5]? = some (.disconnected bob (2 * sec) 0x82) := by
    revert h2
    generalize h[8 + 1 + 5]? = x
    intro h2
    unfold isLost at h2
    split at h2
    · simp only [Bool.and_eq_true, beq_iff_eq] at h2
      obtain ⟨⟨rfl, rfl⟩, rfl⟩ := h2
      rfl
    · cases h2
  refine ⟨b, h, _, _, _, hr, split_at e1 e2, ?_, ?_, ?_, ?_, hl, by decide⟩
  · rintro e he u x m w rfl; simpa [quiet] using h3 _ he
  · rintro e he t r rfl; simpa [quiet] using h3 _ he
  · rintro e he t p rfl; simpa [quiet] using h3 _ he
  · rintro e he t rfl; simpa [quiet] using h3 _ he

/-- `session_expires`: the session of the second client ends 50 s after its connection. -/
example : ∃ b h, Ran {} (demo.take 9) b h ∧ bob ∈ live h ∧ ended bob h = some (2 * sec) ∧ (settings bob h).1 = 50 := by
  obtain ⟨b, h, hr, hu⟩ := ran_of (cfg := {}) (os := demo.take 9) (fun _ h => decide (bob ∈ live h) && ended bob h == some (2 * sec) && (settings bob h).1 == 50)
    (take_valid 9) (by decide +kernel)
  simp only [Bool.and_eq_true, beq_iff_eq, decide_eq_true_eq] at hu
  exact ⟨b, h, hr, hu.1.1, hu.1.2, hu.2⟩

/-- `session_ends_at_once`: a session with expiry interval 0. -/
example : ∃ b h, Ran {} [.connect 1 10 sec { client := bob } true false] b h ∧ bob ∈ live h ∧ (settings bob h).1 = 0 := by
  obtain ⟨b, h, hr, hu⟩ := ran_of (cfg := {}) (os := [.connect 1 10 sec { client := bob } true false]) (fun _ h => decide (bob ∈ live h) && (settings bob h).1 == 0)
    (by intro o ho; simp at ho; subst ho; intro w h; cases h) (by decide +kernel)
  simp only [Bool.and_eq_true, beq_iff_eq, decide_eq_true_eq] at hu
  exact ⟨b, h, hr, hu.1, hu.2⟩

/-- `connect_accepted`: a client which has a session comes again. -/
example : ∃ b h, Ran {} (demo.take 7) b h ∧ b.conn 3 = none ∧ bob ∈ live h ∧ MayLogIn {} [] [] := by
  obtain ⟨b, h, hr, hu⟩ := ran_of (cfg := {}) (os := demo.take 7) (fun b h => (b.conn 3).isNone && decide (bob ∈ live h)) (take_valid 7) (by decide +kernel)
  simp only [Bool.and_eq_true, Option.isNone_iff_eq_none, decide_eq_true_eq] at hu
  exact ⟨b, h, hr, hu.1, hu.2, .inl ⟨rfl, rfl⟩⟩

/-- `wrong_password_refused`: a user without password, and a wrong password. -/
example : ¬ MayLogIn { passwords := some fun u p => u == alice && p == [1] } alice [] ∧
    ¬ MayLogIn { passwords := some fun u p => u == alice && p == [1] } alice [2] ∧
    MayLogIn { passwords := some fun u p => u == alice && p == [1] } alice [1] := by
  refine ⟨?_, ?_, .inr ⟨by decide, by decide, _, rfl, by decide⟩⟩
  · rintro (⟨h, _⟩ | ⟨_, h, _⟩)
    · cases h
    · exact h rfl
  · rintro (⟨h, _⟩ | ⟨_, _, f, h, h'⟩)
    · cases h
    · cases h; revert h'; decide

/-! ## Where the program disagrees with what a user would expect -/

/-- A will with a delay of 4295 s: 32 bits overflow and it is published within a second (`mqtt_session_ram.c:1018`). -/
def early : List Op :=
  [.connect 1 10 (1 * sec) { client := bob, expiry := 5000, will := some { will5 with delay := 4295 } } true false,
   .close 1 (2 * sec) 0x82, .maintain (3 * sec)]

theorem will_too_early : codes {} early = some [2, 11, 4, 1000, 17, 10, 16] := by decide +kernel

/-- The connection is lost while a packet is written: no reason is recorded, the will is dropped. -/
def dropped : List Op :=
  [.connect 1 10 (1 * sec) { client := bob, expiry := 50, will := some will5 } true false,
   .subscribe 1 (1 * sec) [any] true,
   .publish 1 (1 * sec) { key := 1, topic := topic, payload := some [1], qos := 0 } none none true,
   .pass 1 (1 * sec) fun _ => .err,
   .maintain (7 * sec), .maintain (60 * sec)]

theorem will_dropped_on_write_error : codes {} dropped = some [2, 11, 4, 1000, 131, 201, 7, 15, 5, 90, 17, 10, 10, 3] := by decide +kernel

/-- Nothing is heard of a client for 20 s while its connection is up: session and will are gone. -/
def silent : List Op :=
  [.connect 1 10 (1 * sec) { client := bob, expiry := 5000, will := some will5 } true false, .maintain (22 * sec), .close 1 (23 * sec) 0x82, .maintain (60 * sec)]

theorem will_dropped_on_timeout : codes {} silent = some [2, 11, 4, 1000, 10, 3] := by decide +kernel

/-- A client comes back within its session expiry interval; if maintenance runs before the next read event, the session is removed, as the last
heartbeat is the one of the old connection. -/
def resumed : List Op :=
  [.connect 1 10 (1 * sec) { client := bob, expiry := 5000 } true false, .close 1 (2 * sec) 0x82,
   .connect 2 11 (60 * sec) { client := bob, expiry := 5000 } true false, .maintain (60 * sec)]

theorem resumed_session_lost : codes {} resumed = some [2, 11, 4, 1000, 17, 11, 4, 1001, 10, 3] := by decide +kernel

/-- A client with version 3.1.1 and no clean session: the session should stay for ever, it is removed after 20 s. -/
def forever : List Op :=
  [.connect 1 10 (1 * sec) { client := bob, v5 := false } true false, .close 1 (2 * sec) 0, .maintain (22 * sec)]

theorem lasting_session_lost : codes {} forever = some [2, 11, 4, 1000, 17, 10, 3] := by decide +kernel

/-- Users `A` and `B` have passwords, only `A` may read. -/
def onlyAlice : Config := { passwords := some fun _ _ => true, canRead := fun u _ => u == alice }

/-- `B` comes with the client identifier of `A`: it keeps the subscription, and gets a message which it may not read. -/
def stolen : List Op :=
  [.connect 1 10 (1 * sec) { client := topic, user := alice, password := [1], expiry := 100 } true false,
   .subscribe 1 (1 * sec) [any] true,
   .close 1 (2 * sec) 0,
   .connect 2 11 (3 * sec) { client := topic, user := bob, password := [1], expiry := 100 } true false,
   .subscribe 2 (3 * sec) [any] true,
   .publish 2 (3 * sec) { key := 1, topic := topic, payload := some [1], qos := 0 } none none true,
   .pass 2 (3 * sec) fun _ => .ok]

/-- The SUBSCRIBE of `B` is refused (0x87), the message is sent to it (91) nevertheless. -/
theorem subscription_of_other_user : codes onlyAlice stolen = some [2, 11, 4, 1000, 131, 201, 17, 11, 4, 1001, 130, 335, 7, 15, 5, 91] := by decide +kernel

/-- A client with the identifier `mqtt-client-1` leaves; a client without identifier gets the same one, and a message which was for the first one, although
its session is clean. -/
def collision : List Op :=
  [.connect 1 10 (1 * sec) { client := generated 1, expiry := 100 } true false,
   .subscribe 1 (1 * sec) [any] true,
   .close 1 (2 * sec) 0,
   .connect 2 11 (2 * sec) { client := bob } true false,
   .publish 2 (2 * sec) { key := 1, topic := topic, payload := some [1], qos := 1, id := 1 } none none true,
   .connect 3 12 (3 * sec) { client := [], clean := true } true false,
   .pass 3 (3 * sec) fun _ => .ok]

theorem message_of_other_client : codes {} collision = some [2, 11, 4, 1000, 131, 201, 17, 2, 11, 4, 1000, 7, 15, 5, 11, 4, 1000, 91] := by decide +kernel

end Verif.Broker.Examples
