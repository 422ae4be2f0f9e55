import Verif.Session.SendTiming
/-!
# Order, repetition and expiry of what a session sends
-/
namespace Verif.Session
open Verif Spec

/-- **C73** Messages are sent for the first time in the order in which they were handed to the session, if no transmission fails, the session is not
cleaned, there are no retained messages, and, in a broker, messages do not expire.

Missing for the full property: failing transmissions, see `failed_transmission_reorders`; retained messages which wait in a queue of their own, see
`retained_later`; cleaning and expiry. -/
theorem first_in_order_partial (b : Bool) (ops : List Op) (hv : ∀ op ∈ ops, Valid b op) (htx : ∀ now tx, .pass now tx ∈ ops → ∀ n, tx n ≠ .err)
    (hclean : ∀ m rm r g, .init m rm r g true ∉ ops) (hret : ∀ p, .retained p ∉ ops) (hexp : b = true → ∀ p, .queue p ∈ ops → p.expiry = 0)
    (s' : Session) (outs : List Out) (hr : run { broker := b } ops = some (s', outs)) (hn : (queuedKeys (trace ops outs)).Nodup) :
    AtEach FirstInOrder (trace ops outs) := by
  have := run_inv2 (Calm b) (fun h s => Paired h s ∧ s.broker = b ∧ ((queuedKeys h).Nodup → Line h s))
    (fun h s op s' o hi hv hR he hp => by
      refine ⟨hp.1.step hi hv he, ?_, fun hn => ?_⟩
      · rcases step_inv s op hi hv with ⟨_, hb⟩ | ⟨s1', o', e, _, hb, _⟩
        · rw [he] at hb; cases hb
        · rw [he] at e; cases e; exact hb.trans hp.2.1
      · refine Line.step hi hv (by rw [hp.2.1]; exact hR) he hp.1 hn (hp.2.2 ?_)
        rw [queuedKeys_append] at hn
        exact (List.nodup_append.mp hn).1) ops _ [] (inv_init b) hv (by
      intro op hop
      cases op with
      | queue p => exact fun hb => hexp hb p hop
      | retained p => exact absurd hop (hret p)
      | pass now tx => exact htx now tx hop
      | init m r t g c =>
        cases c with
        | false => exact rfl
        | true => exact absurd hop (hclean m r t g)
      | _ => trivial) ⟨paired_init b, rfl, fun _ => ⟨⟨by simp [pubsOf, queuedKeys], by simp [pubsOf], by simp [pubsOf], fun k h => (by
        obtain ⟨_, _, hm, _⟩ := h; cases hm), atEach_nil _⟩, rfl, by simp [pubsOf]⟩⟩ s' outs hr
  rw [List.nil_append] at this
  exact (this.2.2 hn).ordered.first

/-- **C74** With a clock which does not go back and the same retry interval all the time, a message is sent again only when more than the retry interval
has passed since any earlier transmission.

Missing for the full property: a clock which is set back, see `clock_set_back`; changes of the interval. -/
theorem retry_after_partial (b : Bool) (R : Nat) (ops : List Op) (hv : ∀ op ∈ ops, Valid b op) (hclock : (clock ops).Pairwise (· ≤ ·))
    (h64 : ∀ now tx, .pass now tx ∈ ops → now < 2 ^ 64) (hR : ∀ m rm r g c, .init m rm r g c ∈ ops → r = R)
    (s' : Session) (outs : List Out) (hr : run { broker := b, retry := R } ops = some (s', outs)) (hn : (queuedKeys (trace ops outs)).Nodup) :
    AtEach (RetryAfter R) (trace ops outs) := by
  have hi : Inv { broker := b, retry := R } := ⟨(inv_init b).recv, (inv_init b).send, (inv_init b).delayed⟩
  have hh : SendHist [] { broker := b, retry := R } := track_init b
  obtain ⟨T, this⟩ := run_clock (Even R) (fun T h s => SendHist h s ∧ ((queuedKeys h).Nodup → Times R T h s))
    (fun T h s op s' o hi hv hR hT he hp => by
      refine ⟨hp.1.step hi hv he, fun hn => ?_⟩
      have hn0 : (queuedKeys h).Nodup := by
        rw [queuedKeys_append] at hn
        exact (List.nodup_append.mp hn).1
      exact (hp.2 hn0).step hi hv hR hT he (hp.1 hn0).1 hn) ops _ [] 0 hi hv (by
      intro op hop
      cases op with
      | pass now tx => exact h64 now tx hop
      | init m r t g c => exact hR m r t g c hop
      | _ => trivial) (List.pairwise_cons.mpr ⟨fun _ _ => Nat.zero_le _, hclock⟩) ⟨hh, fun _ => times_init b R⟩ s' outs hr
  rw [List.nil_append] at this
  exact (this.2 hn).timed.each

theorem pass_notExpired (s : Session) (hb : s.broker = true) (now : Nat) (hnow : 0 < now) (tx : Nat → Tx) (todo : List Item) (c : Ctx) (l' : List Item)
    (c' : Ctx) (e : Bool) (hg : Good [] todo c.pool c.grace) (hJ : ∀ w ∈ c.sent, NotExpired (.sent now w))
    (hp : pass (sendItem s now tx) todo c = some (l', c', e)) : ∀ w ∈ c'.sent, NotExpired (.sent now w) := by
  obtain ⟨_, _, _, h⟩ := pass_steps2 s now hnow tx (fun _ _ c => ∀ w ∈ c.sent, NotExpired (.sent now w)) (fun _ _ c => ∀ w ∈ c.sent, NotExpired (.sent now w))
    (fun _ _ _ h => h) (fun done x todo c a y c' hg _ hJ he _ => by
      have key : ∀ w ∈ c'.sent, NotExpired (.sent now w) := by
        cases x with
        | sub q =>
          obtain ⟨a', q', c'', he', hstep⟩ := sendSub_cases s now tx q c hg.inv
          simp only [sendItem, he', Option.map_some, Option.some.injEq, Prod.mk.injEq] at he
          obtain ⟨rfl, rfl, rfl⟩ := he
          cases hstep with
          | sent =>
            intro w hw
            rcases List.mem_append.mp hw with hw | hw
            · exact hJ w hw
            · simp only [List.mem_singleton] at hw; rw [hw]; trivial
          | _ => exact hJ
        | pub p =>
          obtain ⟨a', q, c'', he', hstep⟩ := sendPub_cases s now tx p c hg.inv fun h0 => hg.live_head (x := .pub p) h0
          simp only [sendItem, he', Option.map_some, Option.some.injEq, Prod.mk.injEq] at he
          obtain ⟨rfl, rfl, rfl⟩ := he
          have ne : ∀ id n, ¬ (p.ready s now id).held s now n → NotExpired (.sent now (.publish (p.ready s now id))) := by
            intro id n hh
            have hx : ¬ (p.ready s now id).expired now = true := fun h => hh (.inr (.inl ⟨hb, h⟩))
            unfold Pub.expired at hx
            simp only [Bool.and_eq_true, bne_iff_ne, ne_eq, decide_eq_true_eq, not_and, Nat.not_lt] at hx
            by_cases h0 : (p.ready s now id).expiry = 0
            · exact .inl h0
            · exact .inr (hx h0)
          cases hstep with
          | @sent id pool w hc hgot hh hw ht =>
            intro w' hw'
            rcases List.mem_append.mp hw' with hw' | hw'
            · exact hJ w' hw'
            · simp only [List.mem_singleton] at hw'
              rw [hw']
              rcases toSend_wire (q := p.ready s now id) (w := w) (by rw [hw]) with rfl | ⟨k, rfl⟩
              · exact ne id _ hh
              · trivial
          | @gone id pool w pool' hc hgot hh hw ht hr =>
            intro w' hw'
            rcases List.mem_append.mp hw' with hw' | hw'
            · exact hJ w' hw'
            · simp only [List.mem_singleton] at hw'
              rw [hw']
              rcases toSend_wire (q := p.ready s now id) (w := w) (by rw [hw]) with rfl | ⟨k, rfl⟩
              · exact ne id _ hh
              · trivial
          | _ => exact hJ
      exact ⟨key, fun _ => key⟩) todo [] c l' c' e (by simpa [idsOf] using hg) (by simp) hJ hp
  exact h

/-- **C75** A broker does not send a message after it has expired.

Missing for the full property: clients send messages which have expired, see `client_sends_expired`; messages which have expired are not removed and keep
their identifiers, see `expired_kept`. -/
theorem not_sent_when_expired_partial (ops : List Op) (hv : ∀ op ∈ ops, Valid true op) (s' : Session) (outs : List Out)
    (hr : run { broker := true } ops = some (s', outs)) : ∀ e ∈ trace ops outs, NotExpired e := by
  have := run_inv2 (fun _ => True) (fun h s => s.broker = true ∧ ∀ e ∈ h, NotExpired e)
    (fun h s op s' o hi hv _ he hp => by
      refine ⟨?_, fun e hm => ?_⟩
      · rcases step_inv s op hi hv with ⟨_, hb⟩ | ⟨s1', o', e, _, hb, _⟩
        · rw [he] at hb; cases hb
        · rw [he] at e; cases e; exact hb.trans hp.1
      · rcases List.mem_append.mp hm with hm | hm
        · exact hp.2 e hm
        · have hstep := step_send s op hi hv s' o he
          cases hstep with
          | @pass now tx _ l c e' _ w2 hnow hpp h1 h2 h3 h4 h5 h6 h7 h8 h9 h10 =>
            simp only [events, h9, List.mem_map] at hm
            obtain ⟨w, hw, rfl⟩ := hm
            rcases List.mem_append.mp hw with hw | hw
            · exact pass_notExpired s hp.1 now hnow tx _ _ _ _ _ (delayed_good hi) (by simp) hpp w hw
            · obtain ⟨id, rfl⟩ := h10 w hw
              trivial
          | queue => simp only [events, List.mem_singleton] at hm; rw [hm]; trivial
          | queueSub => cases hm
          | retained => simp only [events, List.mem_singleton] at hm; rw [hm]; trivial
          | publish =>
            simp only [events, List.mem_cons, List.mem_append, List.mem_map] at hm
            rcases hm with rfl | ⟨_, _, rfl⟩ | ⟨_, _, rfl⟩ <;> trivial
          | rel =>
            simp only [events, List.mem_cons, List.mem_append, List.mem_map] at hm
            rcases hm with rfl | ⟨_, _, rfl⟩ | ⟨_, _, rfl⟩ <;> trivial
          | ack =>
            simp only [events, List.mem_cons, List.mem_append, List.mem_map] at hm
            rcases hm with rfl | ⟨_, _, rfl⟩ | ⟨_, _, rfl⟩ <;> trivial
          | tick => cases hm
          | keep => simp [events] at hm
          | clean =>
            simp only [events, if_true, List.mem_singleton] at hm
            rw [hm]; trivial) ops _ [] (inv_init true) hv (fun _ _ => trivial) ⟨rfl, by simp⟩ s' outs hr
  rw [List.nil_append] at this
  exact this.2

/-! ## Cases -/

private def m1 : Pub := { key := 1, topic := [97], payload := some [1], qos := 1 }
private def m2 : Pub := { key := 2, topic := [98], payload := some [2], qos := 2 }
private def m3 : Pub := { key := 3, topic := [98], payload := some [2], qos := 0 }
private def ack (k : AckKind) (id : BitVec 16) : Op := .ack { kind := k, id := id } false true
private def all (now : Nat) : Op := .pass now fun _ => .ok
private def keys : Wire → List Nat
  | .publish p => [p.key]
  | _ => []
private def sents (s : Session) (ops : List Op) : Option (List (List Nat)) :=
  (run s ops).map fun r => r.2.map fun o => o.sent.flatMap keys

/-- Messages of all kinds, the connection is slow (`stop` after the first transmission) and there is room for two messages in flight. -/
private def orderly : List Op :=
  [.queue m1, .queue m2, .queue m3, .queue { m1 with key := 4 }, .init 125 3 3000000 2000000 false, .pass 10 fun _ => .stop, all 20, ack .puback 1, all 30,
   ack .pubrec 2, all 4000000]

example : (∀ op ∈ orderly, Valid true op) ∧ (∀ m rm r g, .init m rm r g true ∉ orderly) ∧ (∀ p, .retained p ∉ orderly) ∧
    (clock orderly).Pairwise (· ≤ ·) := by
  refine ⟨by simp [orderly, Valid, m1, m2, m3, ack, all], by simp [orderly, ack, all], by simp [orderly, ack, all], by decide⟩

/-- The first message is sent in a pass of its own, then the others as there is room. -/
example : sents { broker := true } orderly = some [[], [], [], [], [], [1], [2, 3], [], [4], [], [4]] := by decide +kernel
example : sents { broker := false } orderly = some [[], [], [], [], [], [1], [2, 3], [], [4], [], [4]] := by decide +kernel
example : (run { broker := true } orderly).map (fun r => queuedKeys (trace orderly r.2)) = some [1, 2, 3, 4] := by decide +kernel

/-- The first transmission of the first message fails. -/
private def failing : List Op := [.queue m1, .queue { m1 with key := 2 }, .pass 10 fun _ => .err, all 20, all 4000000]

/-- **C73** is violated: when a transmission fails (and the connection is closed), the message counts as sent until the retry interval is over. The next
message is sent before it. -/
theorem failed_transmission_reorders :
    (∀ op ∈ failing, Valid false op) ∧ sents { broker := false } failing = some [[], [], [], [2], [1, 2]] :=
  ⟨by simp [failing, Valid, m1, all], by decide +kernel⟩

/-- **C73** is violated in a broker: retained messages wait in a queue of their own, which is joined to the other queue when the queue is worked on. A
message which was handed over later is sent before them. -/
theorem retained_later :
    sents { broker := true } [.retained m1, .queue { m1 with key := 2 }, all 10] = some [[], [], [2, 1]] := by decide +kernel

/-- Two repetitions: a full retry interval of 3000000 µs has not passed at 3000010. -/
private def again : List Op := [.queue m1, .queue m2, all 10, all 3000010, all 3000011, ack .puback 1, all 6000012]

example : (∀ op ∈ again, Valid true op) ∧ (clock again).Pairwise (· ≤ ·) := ⟨by simp [again, Valid, m1, m2, ack, all], by decide⟩
example : sents { broker := true } again = some [[], [], [1, 2], [], [1, 2], [], [2]] := by decide +kernel

/-- **C74** is violated when the clock is set back, as it is the time of day: everything which waits for an acknowledgement is sent again at once. -/
theorem clock_set_back :
    sents { broker := true } [.queue m1, .queue m2, all 10, all 9] = some [[], [], [1, 2], [1, 2]] := by decide +kernel

/-- A message which expires after a second. -/
private def short : Pub := { m1 with expiry := 1, createTime := 1 }

example : sents { broker := true, retry := 10 } [.queue short, all 1000000, all 1000011] = some [[], [1], []] := by decide +kernel
example : sents { broker := true, retry := 10 } [.queue short, all 1000002] = some [[], []] := by decide +kernel

/-- **C75** is violated in clients: the expiry interval is not looked at. -/
theorem client_sends_expired :
    (∀ op ∈ [.queue short, all 2000000], Valid false op) ∧ sents { broker := false } [.queue short, all 2000000] = some [[], [1]] :=
  ⟨by simp [Valid, short, m1, all], by decide +kernel⟩

/-- **C75** is violated: a message which has expired is never removed from the queue and keeps its identifier, no matter how much time passes. -/
theorem expired_kept :
    (run { broker := true } [.queue short, all 2000000, all 3000000, .tick 4000000, all 86400000000]).map (fun r => (pubsOf r.1.toRemote).map fun q => (q.key, q.id)) =
      some [(1, 1)] := by decide +kernel

end Verif.Session
