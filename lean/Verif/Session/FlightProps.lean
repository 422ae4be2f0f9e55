import Verif.Session.SendFlight
/-!
# Limits for messages in flight
-/
namespace Verif.Session
open Verif Spec

/-- **C72** As long as the limits stay the same, and with messages which do not expire if the session is one of a broker, the messages with QoS 1 and 2
which are sent and not acknowledged in any way are fewer than the maximum for messages in flight and fewer than the Receive Maximum of the remote.

Missing for the full property: MQTT 5 says that an exchange with QoS 2 lasts until the PUBCOMP, see `quota_exceeded`; messages which expire, see
`expired_not_counted`. -/
theorem in_flight_partial (b : Bool) (m rm : Nat) (ops : List Op) (hv : ∀ op ∈ ops, Valid b op) (hlim : ∀ m' rm' t g c, .init m' rm' t g c ∈ ops → m' = m ∧ rm' = rm)
    (hexp : b = true → ∀ p, .queue p ∈ ops ∨ .retained p ∈ ops → p.expiry = 0) (s' : Session) (outs : List Out)
    (hr : run { broker := b, maxInFlight := m, receiveMax := rm } ops = some (s', outs)) :
    (inFlight (trace ops outs)).length ≤ m - 1 ∧ (rm ≠ 0 → (inFlight (trace ops outs)).length ≤ rm - 1) := by
  have hi : Inv { broker := b, maxInFlight := m, receiveMax := rm } := ⟨(inv_init b).recv, (inv_init b).send, (inv_init b).delayed⟩
  have := run_inv2 (Steady b m rm) (fun h s => Flight m rm h s ∧ s.broker = b)
    (fun h s op s' o hi hv hR he hp => ⟨hp.1.step hi hv (by rw [hp.2]; exact hR) he, by
      rcases step_inv s op hi hv with ⟨_, hb⟩ | ⟨s1', o', e, _, hb, _⟩
      · rw [he] at hb; cases hb
      · rw [he] at e; cases e; exact hb.trans hp.2⟩) ops _ [] hi hv (by
      intro op hop
      cases op with
      | queue p => exact fun hb => hexp hb p (.inl hop)
      | retained p => exact fun hb => hexp hb p (.inr hop)
      | init m' rm' t g c => exact hlim m' rm' t g c hop
      | _ => trivial) ⟨flight_init b m rm, rfl⟩ s' outs hr
  rw [List.nil_append] at this
  rcases this.1.fly.bound this.1.pos with h | ⟨h1, h2⟩
  · rw [h]; simp
  · exact ⟨by omega, fun h0 => by rcases h2 with h2 | h2 <;> omega⟩

theorem sent_inFlight (h : List Ev) (t : Nat) (r : Pub) (hq : r.qos ≠ 0) : inFlight (h ++ [.sent t (.publish r)]) ≠ [] := by
  rw [inFlight_snoc, flightStep]
  split
  · next hc =>
    intro e
    rw [e] at hc
    rcases hc with hc | hc
    · exact hq hc
    · cases hc
  · simp

/-- Later transmissions only add to what is in flight. -/
theorem grow : ∀ (es h : List Ev), (∀ e ∈ es, ∃ t w, e = .sent t w) → inFlight h ≠ [] → inFlight (h ++ es) ≠ [] := by
  intro es
  induction es with
  | nil => intro h _ hn; simpa using hn
  | cons e es ih =>
    intro h he hn
    have : inFlight (h ++ [e]) ≠ [] := by
      obtain ⟨t, w, rfl⟩ := he e (by simp)
      rw [inFlight_snoc]
      cases w with
      | publish r =>
        rw [flightStep]
        split
        · exact hn
        · simp
      | ack a => exact hn
      | sub q => exact hn
    have := ih (h ++ [e]) (fun x hx => he x (by simp [hx])) this
    simpa using this

/-- **C72** A session whose remote has Receive Maximum 1 (or which has room for one message in flight) never sends a message with QoS 1 or 2: the message
which is to be sent is itself counted. -/
theorem receive_maximum_one (m rm : Nat) (hone : m ≤ 1 ∨ rm = 1) (ops : List Op) (hv : ∀ op ∈ ops, Valid false op)
    (hlim : ∀ m' rm' t g c, .init m' rm' t g c ∈ ops → m' = m ∧ rm' = rm) (s' : Session) (outs : List Out)
    (hr : run { broker := false, maxInFlight := m, receiveMax := rm } ops = some (s', outs)) (t : Nat) (r : Pub) (hw : .sent t (.publish r) ∈ trace ops outs) :
    r.qos = 0 := by
  have hi : Inv { broker := false, maxInFlight := m, receiveMax := rm } := ⟨(inv_init false).recv, (inv_init false).send, (inv_init false).delayed⟩
  have := run_inv2 (Steady false m rm) (fun h s => Flight m rm h s ∧ s.broker = false ∧ ∀ t r, .sent t (.publish r) ∈ h → r.qos = 0)
    (fun h s op s' o hi hv hR he hp => by
      have hf := hp.1.step hi hv (by rw [hp.2.1]; exact hR) he
      refine ⟨hf, ?_, ?_⟩
      · rcases step_inv s op hi hv with ⟨_, hb⟩ | ⟨s1', o', e, _, hb, _⟩
        · rw [he] at hb; cases hb
        · rw [he] at e; cases e; exact hb.trans hp.2.1
      · intro t r hm
        rcases List.mem_append.mp hm with hm | hm
        · exact hp.2.2 t r hm
        · apply Classical.byContradiction
          intro hq
          have hz : inFlight (h ++ events op o) = [] := by
            rcases hf.fly.bound hf.pos with h | ⟨h1, h2⟩
            · exact h
            · apply List.eq_nil_of_length_eq_zero; omega
          have hall : ∀ e ∈ events op o, ∃ t w, e = .sent t w := by
            cases op with
            | pass now tx =>
              intro e he
              obtain ⟨x, _, rfl⟩ := List.mem_map.mp he
              exact ⟨_, _, rfl⟩
            | init m r t g c => cases c <;> simp [events] at hm
            | _ => simp [events] at hm
          obtain ⟨w1, w2, hw'⟩ := List.append_of_mem hm
          rw [hw', ← List.singleton_append, ← List.append_assoc, ← List.append_assoc] at hz
          exact grow _ _ (fun e he => hall e (by rw [hw']; simp [he])) (sent_inFlight _ t r hq) hz) ops _ [] hi hv (by
      intro op hop
      cases op with
      | queue p => exact fun hb => by cases hb
      | retained p => exact fun hb => by cases hb
      | init m' rm' t g c => exact hlim m' rm' t g c hop
      | _ => trivial) ⟨flight_init false m rm, rfl, by simp⟩ s' outs hr
  rw [List.nil_append] at this
  exact this.2.2 t r hw

/-! ## Cases -/

private def m1 : Pub := { key := 1, topic := [97], payload := some [1], qos := 1 }
private def m2 : Pub := { key := 2, topic := [98], payload := some [2], qos := 2 }
private def ack (k : AckKind) (id : BitVec 16) : Op := .ack { kind := k, id := id } false true
private def all (now : Nat) : Op := .pass now fun _ => .ok
private def keys : Wire → List Nat
  | .publish p => [p.key]
  | _ => []
private def sents (b : Bool) (m rm : Nat) (ops : List Op) : Option (List (List Nat)) :=
  (run { broker := b, maxInFlight := m, receiveMax := rm } ops).map fun r => r.2.map fun o => o.sent.flatMap keys
private def flying (b : Bool) (m rm : Nat) (ops : List Op) : Option (List (BitVec 16)) :=
  (run { broker := b, maxInFlight := m, receiveMax := rm } ops).map fun r => inFlight (trace ops r.2)

/-- Four messages with Receive Maximum 3: two at a time. -/
private def four : List Op :=
  [.queue m1, .queue m2, .queue { m1 with key := 3 }, .queue { m1 with key := 4 }, all 10, ack .puback 1, all 20, ack .pubrec 2, all 30]

example : ∀ op ∈ four, Valid false op := by simp [four, Valid, m1, m2, ack, all]
example : sents false 125 3 four = some [[], [], [], [], [1, 2], [], [3], [], [4]] := by decide +kernel
example : flying false 125 3 four = some [3, 4] := by decide +kernel

/-- **C72** With Receive Maximum 1 nothing is sent. -/
example : sents false 125 1 four = some [[], [], [], [], [], [], [], [], []] := by decide +kernel

/-- Three messages of QoS 2, the remote has Receive Maximum 2 and answers with PUBREC. -/
private def recs : List Op :=
  [.queue m2, .queue { m2 with key := 3 }, .queue { m2 with key := 4 }, all 10, ack .pubrec 1, all 20, ack .pubrec 2, all 30]

/-- **C72** is violated: exchanges of QoS 2 are not counted after the PUBREC, although MQTT 5 section 4.9 counts them until the PUBCOMP. The remote has
Receive Maximum 2, and three exchanges are not finished. -/
theorem quota_exceeded :
    (∀ op ∈ recs, Valid false op) ∧
    (run { broker := false, receiveMax := 2 } recs).map (fun r => quotaUsed (trace recs r.2)) = some [1, 2, 3] :=
  ⟨by simp [recs, Valid, m2, ack, all], by decide +kernel⟩

/-- Three messages which expire after one second. -/
private def expiring : List Op :=
  [.queue { m1 with expiry := 1, createTime := 1 }, all 10, .queue { m1 with key := 2, expiry := 1, createTime := 2000000 }, all 2000010,
   .queue { m1 with key := 3, expiry := 1, createTime := 4000000 }, all 4000010]

/-- **C72** is violated: messages which were sent and have expired are not counted although the remote has not acknowledged them. The remote has
Receive Maximum 2, and three messages are in flight. -/
theorem expired_not_counted :
    (∀ op ∈ expiring, Valid true op) ∧ flying true 125 2 expiring = some [1, 2, 3] :=
  ⟨by simp [expiring, Valid, m1, all], by decide +kernel⟩

end Verif.Session
