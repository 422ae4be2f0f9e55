import Verif.Broker.LiveLemmas
import Verif.Session.FlightProps
/-!
# Properties of the MQTT broker

`Ran cfg os b h`: the operations `os` lead from the start to the state `b`, and `h` is what can be observed. All statements are for all
settings, all operations which satisfy `Spec.Valid`, and all histories.
-/
namespace Verif.Broker
open Verif Session Spec

/-! ## Histories -/

/-- **C77** No sequence of packets, errors and times makes the broker abort. -/
theorem broker_total (cfg : Config) (os : List Op) (hv : ∀ o ∈ os, Spec.Valid o) : ∃ b h, Ran cfg os b h := by
  obtain ⟨b, h, he, _⟩ := run_good cfg os hv
  exact ⟨b, h, he⟩

/-- **C78** A published message is queued for exactly the sessions with matching subscriptions, once for each subscription. -/
theorem broker_forwards (cfg : Config) (os : List Op) (hv : ∀ o ∈ os, Spec.Valid o) (b : Broker) (h : List Ev) (hr : Ran cfg os b h) :
    Spec.AtEach Forwards h ∧ Spec.AtEach OnlyForwarded h :=
  ⟨fun a e c he => ((ran_good hv hr).hist a e c he).forwards, fun a e c he => ((ran_good hv hr).hist a e c he).onlyForwarded⟩

/-- **C79** What the session of a client delivers is published at once, in order, and nothing else is published for a client. What is published was
received from the client, and was accepted. -/
theorem broker_distributes (cfg : Config) (os : List Op) (hv : ∀ o ∈ os, Spec.Valid o) (b : Broker) (h : List Ev) (hr : Ran cfg os b h) :
    Spec.AtEach Distributes h ∧ Spec.AtEach OnlyDistributed h ∧ Spec.AtEach WasReceived h :=
  ⟨fun a e c he => ((ran_good hv hr).hist a e c he).distributes, fun a e c he => ((ran_good hv hr).hist a e c he).onlyDistributed,
    fun a e c he => ((ran_good hv hr).hist a e c he).wasReceived⟩

/-- **C79** A PUBLISH with QoS 0 or 1 to a topic to which the user may write is published and forwarded when it arrives. -/
theorem publish_forwarded (cfg : Config) (os : List Op) (hv : ∀ o ∈ os, Spec.Valid o) (b : Broker) (h : List Ev) (hr : Ran cfg os b h)
    (k : Nat) (c u : Bytes) (hu : Up b k c u) (now : Nat) (p : Pub) (tx : Bool) (hp : Spec.Valid (.publish k now p none none tx))
    (hw : cfg.canWrite u p.topic = true) (hq : p.qos ≤ 1) (hd : p.qos = 0 → p.dup = false) :
    ∃ b' out q rest, step cfg b (.publish k now p none none tx) = some (b', .op c (.publish now p .accept tx) out (some k) ::
      .published now q (.client c u) :: (forwarded h q ++ rest)) ∧ Session.Spec.SameMessage p q := by
  have G := ran_good hv hr
  obtain ⟨x, s, hc, ht, hk, hxc, hxu, hs, hsc, hco, _, hws⟩ := up_conn G hu
  obtain ⟨b', es, he, _⟩ := step_fine G _ hp
  have hve : verdict cfg x p none none = .accept := by simp [verdict, hxu, hw]
  have he' := he
  simp only [step, hws, hve] at he'
  obtain ⟨h1, h2, h3, _, _, h6⟩ := hp
  obtain ⟨q, out, rest, hst, hes⟩ := clientOp_exact G hs (by rw [hsc, hxc]) (.publish now p .accept tx) now _ ⟨h1, ⟨h2, h3⟩, by intro h; cases h⟩
    (by intro _ _ _ h; cases h; exact ⟨h6 rfl, h2⟩) (by intro _ _ _ _ h; cases h) he'
  obtain ⟨hi, hb⟩ := (G.core hs).inv
  obtain ⟨r1, hd⟩ := delivers hi hb ⟨h1, ⟨h2, h3⟩, by intro h; cases h⟩ hq hd hst
  rw [hd, distribution, hxc, hxu, hk] at hes
  have hf : ∀ e y, forwarded (h ++ [Ev.op c e out (some k)]) y = forwarded h y ∨ ∃ m r t g, e = .init m r t g true := by
    intro e y
    by_cases hx : ∃ m r t g, e = .init m r t g true
    · exact .inr hx
    · refine .inl ?_
      unfold forwarded
      rw [live_app]
      show List.flatMap _ (live h) = _
      congr 1
      funext d
      rw [settings_app, subscriptions_app]
      have : List.foldl (subsStep d) (subscriptions d h) [Ev.op c e out (some k)] = subscriptions d h := by
        cases e with
        | init m r t g cl =>
          cases cl with
          | false => rfl
          | true => exact absurd ⟨m, r, t, g, rfl⟩ hx
        | _ => rfl
      rw [this]; rfl
  rcases hf (.publish now p .accept tx) { received p with lastAttempt := now } with hf | ⟨_, _, _, _, h⟩
  · rw [hf] at hes
    refine ⟨b', out, { received p with lastAttempt := now }, distribution now (.client c u) ((h ++ [.op c (.publish now p .accept tx) out (some k)]) ++
      (.published now { received p with lastAttempt := now } (.client c u) :: forwarded h { received p with lastAttempt := now })) r1 ++ rest, ?_,
      ⟨rfl, rfl, rfl, rfl, rfl, rfl, rfl, rfl, rfl⟩⟩
    rw [he, hes]; simp
  · cases h

/-- **C80** A SUBSCRIBE makes the client get the retained messages for its new subscriptions, and there is no other reason to send them. -/
theorem broker_retains (cfg : Config) (os : List Op) (hv : ∀ o ∈ os, Spec.Valid o) (b : Broker) (h : List Ev) (hr : Ran cfg os b h) :
    Spec.AtEach Retains h ∧ Spec.AtEach OnlyRetained h :=
  ⟨fun a e c he => ((ran_good hv hr).hist a e c he).retains, fun a e c he => ((ran_good hv hr).hist a e c he).onlyRetained⟩

/-- **C81** A will is published at most once for each connection, only after the connection has ended without a normal DISCONNECT, and not before its delay is over
or the session ends. -/
theorem broker_will_once (cfg : Config) (os : List Op) (hv : ∀ o ∈ os, Spec.Valid o) (b : Broker) (h : List Ev) (hr : Ran cfg os b h) :
    Spec.AtEach WillOnce h :=
  fun a e c he => ((ran_good hv hr).hist a e c he).willOnce

theorem will_waits (c : Bytes) (w : Option Will) : ∀ (l : List Ev), (∀ e ∈ l, ∀ u x m w, e ≠ .connected c u x m w) → (∀ e ∈ l, ∀ t p, e ≠ .published t p (.will c)) →
    (∀ e ∈ l, ∀ t r, e = .disconnected c t r → r = 0x8E) → (∀ e ∈ l, ∀ t, e ≠ .created c t) → l.foldl (willStep c) w = w := by
  intro l h1 h2 h3 h4
  induction l with
  | nil => rfl
  | cons e l ih =>
    have he : willStep c w e = w := by
      cases e with
      | created d t => simp only [willStep]; rw [if_neg]; rintro rfl; exact h4 _ List.mem_cons_self t rfl
      | connected d u x m w' => simp only [willStep]; rw [if_neg]; rintro rfl; exact h1 _ List.mem_cons_self u x m w' rfl
      | disconnected d t r =>
        simp only [willStep]
        rw [if_neg]
        rintro ⟨rfl, hr⟩
        exact hr (h3 _ List.mem_cons_self t r rfl)
      | published t p src =>
        cases src with
        | client => rfl
        | will d => simp only [willStep]; rw [if_neg]; rintro rfl; exact h2 _ List.mem_cons_self t p rfl
      | _ => rfl
    rw [List.foldl_cons, he]
    exact ih (fun e he => h1 e (List.mem_cons_of_mem _ he)) (fun e he => h2 e (List.mem_cons_of_mem _ he)) (fun e he => h3 e (List.mem_cons_of_mem _ he))
      (fun e he => h4 e (List.mem_cons_of_mem _ he))

/-- **C81** The next maintenance after the delay publishes the will, if the client has not connected again and the session has not
been removed. The end of the connection must have been recorded with a reason other than 0, which is not so for errors when writing. -/
theorem will_published_partial (cfg : Config) (os : List Op) (hv : ∀ o ∈ os, Spec.Valid o) (b : Broker) (h : List Ev) (hr : Ran cfg os b h)
    (c u : Bytes) (x m : Nat) (w : Will) (t : Nat) (r : UInt8) (h1 h2 h3 : List Ev) (hh : h = h1 ++ .connected c u x m (some w) :: (h2 ++ .disconnected c t r :: h3))
    (hn : ∀ e ∈ h2 ++ h3, ∀ u x m w, e ≠ .connected c u x m w) (hd : ∀ e ∈ h2 ++ h3, ∀ t r, e = .disconnected c t r → r = 0x8E)
    (hp : ∀ e ∈ h2 ++ h3, ∀ t p, e ≠ .published t p (.will c)) (hc : ∀ e ∈ h2 ++ h3, ∀ t, e ≠ .created c t)
    (hreason : r ≠ 0 ∧ r ≠ 0x8E) (hlive : c ∈ live h) (ht : 0 < t) (now : Nat) (hnow : t + w.delay * 1000000 ≤ now) :
    ∃ b' es, step cfg b (.maintain now) = some (b', es) ∧ .published now w.pub (.will c) ∈ es := by
  have G := ran_good hv hr
  obtain ⟨b', es, he, _⟩ := step_fine G (.maintain now) trivial
  have hfold : ∀ (l : List Ev) (w : Option Will), (∀ e ∈ l, e ∈ h2 ++ h3) → l.foldl (willStep c) w = w := by
    intro l w hl
    exact will_waits c w l (fun e he => hn e (hl e he)) (fun e he => hp e (hl e he)) (fun e he => hd e (hl e he)) (fun e he => hc e (hl e he))
  have hw : will c h = some { w with planned := t + w.delay * 1000000 % 2 ^ 32 } := by
    rw [hh, will_app, List.foldl_cons, List.foldl_append, List.foldl_cons, hfold h2 _ (fun e he => List.mem_append_left _ he),
      hfold h3 _ (fun e he => List.mem_append_right _ he)]
    simp [willStep, hreason.1, hreason.2]
  rw [← G.base.clients] at hlive
  obtain ⟨s, hs, rfl⟩ := List.mem_map.mp hlive
  refine ⟨b', es, he, ?_⟩
  have := (maintainAll_live now _ G he s hs (List.mem_map.mpr ⟨s, hs, rfl⟩)).1 { w with planned := t + w.delay * 1000000 % 2 ^ 32 } (by
    unfold willDue
    rw [G.wills s hs, hw]
    simp only
    have h0 : t + w.delay * 1000000 % 2 ^ 32 ≠ 0 := by omega
    have h1 : t + w.delay * 1000000 % 2 ^ 32 ≤ now := by
      have := Nat.mod_le (w.delay * 1000000) (2 ^ 32)
      omega
    rw [if_pos ⟨h0, .inr h1⟩])
  exact this

/-- **C82** A session is removed only when its expiry interval has passed since the connection ended, or when nothing was heard of the client for 20 s. -/
theorem broker_session_kept (cfg : Config) (os : List Op) (hv : ∀ o ∈ os, Spec.Valid o) (b : Broker) (h : List Ev) (hr : Ran cfg os b h) :
    Spec.AtEach RemovedWhen h :=
  fun a e c he => ((ran_good hv hr).hist a e c he).removedWhen

/-- **C82** The next maintenance after the expiry interval removes the session. -/
theorem session_expires (cfg : Config) (os : List Op) (hv : ∀ o ∈ os, Spec.Valid o) (b : Broker) (h : List Ev) (hr : Ran cfg os b h)
    (c : Bytes) (t : Nat) (hlive : c ∈ live h) (hend : ended c h = some t) (hx : (settings c h).1 ≠ 0xffffffff) (ht : 0 < t) (now : Nat)
    (hnow : t + (settings c h).1 * 1000000 ≤ now) : ∃ b' es, step cfg b (.maintain now) = some (b', es) ∧ .removed c now ∈ es := by
  have G := ran_good hv hr
  obtain ⟨b', es, he, _⟩ := step_fine G (.maintain now) trivial
  rw [← G.base.clients] at hlive
  obtain ⟨s, hs, rfl⟩ := List.mem_map.mp hlive
  refine ⟨b', es, he, (maintainAll_live now _ G he s hs (List.mem_map.mpr ⟨s, hs, rfl⟩)).2 ?_⟩
  have h1 := (G.tail hs).expireTime
  rw [hend] at h1
  have h0 := (G.tail hs).notZero (by rw [hend]; simp)
  rw [(G.tail hs).expiry] at h0
  simp only [expireTimeOf, (G.tail hs).expiry, if_neg hx, if_neg h0] at h1
  unfold isExpired
  rw [h1]
  simp only [Bool.or_eq_true, Bool.and_eq_true, beq_iff_eq, decide_eq_true_eq, bne_iff_ne]
  exact .inr ⟨by omega, by omega⟩

/-- **C82** A session whose expiry interval is 0 ends with its connection. -/
theorem session_ends_at_once (cfg : Config) (os : List Op) (hv : ∀ o ∈ os, Spec.Valid o) (b : Broker) (h : List Ev) (hr : Ran cfg os b h)
    (c : Bytes) (hlive : c ∈ live h) (hx : (settings c h).1 = 0) : ended c h = none := by
  have G := ran_good hv hr
  rw [← G.base.clients] at hlive
  obtain ⟨s, hs, rfl⟩ := List.mem_map.mp hlive
  cases he : ended s.client h with
  | none => rfl
  | some t =>
    have := (G.tail hs).notZero (by rw [he]; simp)
    rw [(G.tail hs).expiry] at this
    exact absurd hx this

/-- **C83** A client connects only if anonymous clients may log in or its user has a password. -/
theorem broker_logged_in (cfg : Config) (os : List Op) (hv : ∀ o ∈ os, Spec.Valid o) (b : Broker) (h : List Ev) (hr : Ran cfg os b h) :
    Spec.AtEach (LoggedIn cfg) h :=
  fun a e c he => ((ran_good hv hr).hist a e c he).loggedIn

theorem mayLogIn_iff (cfg : Config) (c : Connect) : loginReason cfg c = 0 ↔ MayLogIn cfg c.user c.password := by
  unfold loginReason MayLogIn
  by_cases hu : c.user = []
  · rw [if_neg (by simp [hu])]
    cases cfg.denyAnonymous <;> simp [hu]
  · rw [if_pos hu]
    by_cases hp : c.password = []
    · rw [if_pos hp]; simp [hu, hp]
    · rw [if_neg hp]
      cases hf : cfg.passwords with
      | none => simp [hu, hp]
      | some f =>
        simp only [hu, hp, ne_eq, not_false_eq_true, Option.some.injEq, exists_eq_left', true_and, false_and, false_or]
        split <;> simp [*]

/-- **C83** The password which a new connection gives decides: without it there is no successful CONNACK, and nothing changes. -/
theorem wrong_password_refused (cfg : Config) (b : Broker) (k alloc now : Nat) (c : Connect) (discOk busy : Bool) (hk : b.conn k = none)
    (hl : ¬ MayLogIn cfg c.user c.password) :
    ∃ es, step cfg b (.connect k alloc now c discOk busy) = some (b, es) ∧ ∀ e ∈ es, ∃ r, r ≠ 0 ∧ e = .connack k c.client r false := by
  have hl' : loginReason cfg c ≠ 0 := fun h => hl ((mayLogIn_iff cfg c).mp h)
  simp only [step, connect, hk, Option.isSome_none, Bool.false_eq_true, if_false, if_pos hl', refuse]
  refine ⟨_, rfl, fun e he => ?_⟩
  split at he
  · simp at he; exact ⟨_, hl', he⟩
  · cases he

/-- **C84** What is accepted for publication is to topics to which the user may write. What is granted as subscription is to topics from which the
user may read. -/
theorem broker_access (cfg : Config) (os : List Op) (hv : ∀ o ∈ os, Spec.Valid o) (b : Broker) (h : List Ev) (hr : Ran cfg os b h) :
    Spec.AtEach (MayWrite cfg) h ∧ Spec.AtEach (MayRead cfg) h :=
  ⟨fun a e c he => ((ran_good hv hr).hist a e c he).mayWrite, fun a e c he => ((ran_good hv hr).hist a e c he).mayRead⟩

/-- **C84** Subscriptions are granted as requested if the user may read from the topics, and refused otherwise. -/
theorem subscribe_granted (cfg : Config) (os : List Op) (hv : ∀ o ∈ os, Spec.Valid o) (b : Broker) (h : List Ev) (hr : Ran cfg os b h)
    (k : Nat) (c u : Bytes) (hu : Up b k c u) (now : Nat) (xs : List Subscription.Sub) (hx : Spec.Valid (.subscribe k now xs true)) :
    ∃ b' new, step cfg b (.subscribe k now xs true) = some (b',
      .subscribed c now (xs.map fun x => if cfg.canRead u x.filter then x else { x with qos := 0x87 }) new ::
        (retainedFor c now h new ++ [.suback k (xs.map fun x => if cfg.canRead u x.filter then x.qos else 0x87)])) := by
  have G := ran_good hv hr
  obtain ⟨x, s, hc, ht, hk, hxc, hxu, hs, hsc, hco, _, hws⟩ := up_conn G hu
  obtain ⟨b1, new, he, _⟩ := subscribe_exact (cfg := cfg) (c := x) G hs now xs hx.1 hx.2
  refine ⟨b1, new, ?_⟩
  simp only [step, hws, he, hsc, hxu, hk]
  simp only [allowSubs, List.map_map]
  have : xs.map ((fun x => x.qos) ∘ fun x => if cfg.canRead u x.filter then x else { x with qos := 0x87 }) =
      xs.map fun x => if cfg.canRead u x.filter then x.qos else 0x87 := by
    refine List.map_congr_left fun y _ => ?_
    simp only [Function.comp]
    split <;> rfl
  rw [this]

/-- **C84** A SUBACK says what has been granted, on the connection of the client. -/
theorem broker_suback (cfg : Config) (os : List Op) (hv : ∀ o ∈ os, Spec.Valid o) (b : Broker) (h : List Ev) (hr : Ran cfg os b h) :
    Spec.AtEach SubAcked h :=
  fun a e c he => ((ran_good hv hr).hist a e c he).suback

/-- **C85** Only the connection with the last successful CONNACK of a client works on the session of the client, and a successful CONNACK says if there was a session. -/
theorem broker_own_session (cfg : Config) (os : List Op) (hv : ∀ o ∈ os, Spec.Valid o) (b : Broker) (h : List Ev) (hr : Ran cfg os b h) :
    Spec.AtEach OwnConnection h ∧ Spec.AtEach Present h :=
  ⟨fun a e c he => ((ran_good hv hr).hist a e c he).own, fun a e c he => ((ran_good hv hr).hist a e c he).present⟩

/-- **C85** A new connection of a client which may log in is accepted: afterwards it is up, it has the subscriptions and the queues of the session which was there
unless it asks for a clean one, and the CONNACK says so. -/
theorem connect_accepted (cfg : Config) (os : List Op) (hv : ∀ o ∈ os, Spec.Valid o) (b : Broker) (h : List Ev) (hr : Ran cfg os b h)
    (k alloc now : Nat) (c : Connect) (hk : b.conn k = none) (hid : c.client ≠ []) (hl : MayLogIn cfg c.user c.password)
    (hw : ∀ w, c.will = some w → ValidPub w.pub) :
    ∃ b' es present, step cfg b (.connect k alloc now c true false) = some (b', es) ∧ Up b' k c.client c.user ∧ .connack k c.client 0 present ∈ es ∧
      (present = true ↔ c.client ∈ live h ∧ c.clean = false) ∧
      subscriptions c.client (h ++ es) = (if present then subscriptions c.client h else []) ∧
      ∃ out, ops c.client (h ++ es) = (if c.client ∈ live h then ops c.client h else []) ++ [(.init 125 c.receiveMax cfg.retry 2000000 c.clean, out)] := by
  have G := ran_good hv hr
  obtain ⟨b', es, he, hup, e0, out, es2, present, hes, hp, hp1, hp2, hd⟩ := connect_exact G k alloc now c hk hid ((mayLogIn_iff cfg c).mpr hl) hw
  have hfold : ∀ {β : Type} (f : β → Ev → β) (x : β), (∀ y d, f y (.disconnected d now 0x8E) = y) → es2.foldl f x = x := by
    intro β f x hf
    refine foldl_same f x es2 fun e he y => ?_
    obtain ⟨d, rfl⟩ := hd e he
    exact hf y d
  refine ⟨b', es, present && !c.clean, he, hup, by rw [hes]; simp, by simp [hp], ?_, out, ?_⟩
  · rw [hes, subscriptions_app]
    simp only [List.foldl_append, List.foldl_cons, List.foldl_nil]
    rw [hfold (subsStep c.client) _ (by intros; rfl)]
    cases hpp : present with
    | true =>
      rw [hp1 hpp]
      cases c.clean <;> simp [subsStep]
    | false =>
      rw [hp2 hpp]
      cases c.clean <;> simp [subsStep]
  · rw [hes, ops_app]
    simp only [List.foldl_append, List.foldl_cons, List.foldl_nil]
    rw [hfold (opsStep c.client) _ (by intros; rfl)]
    cases hpp : present with
    | true =>
      rw [hp1 hpp, if_pos (hp.mp hpp)]
      simp [opsStep]
    | false =>
      rw [hp2 hpp, if_neg (fun h => by rw [hp.mpr h] at hpp; cases hpp)]
      simp [opsStep]

/-- **C86** What happens to the queues of a session since it was made is a history of `Verif.Session`, so that all theorems about sessions apply to the sessions of the broker. -/
theorem broker_sessions (cfg : Config) (os : List Op) (hv : ∀ o ∈ os, Spec.Valid o) (b : Broker) (h : List Ev) (hr : Ran cfg os b h) (c : Bytes) (hc : c ∈ live h) :
    ∃ q, Session.run {} ((ops c h).map (·.1)) = some (q, (ops c h).map (·.2)) ∧ ∀ o ∈ (ops c h).map (·.1), Session.Spec.Valid true o := by
  have G := ran_good hv hr
  rw [← G.base.clients] at hc
  obtain ⟨s, hs, rfl⟩ := List.mem_map.mp hc
  exact ⟨s.q, (G.core hs).q, (G.core hs).valid⟩

end Verif.Broker
