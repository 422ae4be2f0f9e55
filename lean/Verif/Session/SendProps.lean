import Verif.Session.SendLive
/-!
# Properties of the sending side of an MQTT session
-/
namespace Verif.Session
open Verif Spec

theorem run_app {m : List Op} : ∀ (l : List Op) (s s1 : Session) (o1 : List Out), run s l = some (s1, o1) →
    run s (l ++ m) = (run s1 m).map fun r => (r.1, o1 ++ r.2) := by
  intro l
  induction l with
  | nil => intro s s1 o1 h; simp only [run, Option.some.injEq, Prod.mk.injEq] at h; obtain ⟨rfl, rfl⟩ := h; simp
  | cons op l ih =>
    intro s s1 o1 h
    rw [run] at h
    rw [List.cons_append, run]
    cases he : step s op with
    | none => rw [he] at h; cases h
    | some r =>
      obtain ⟨s2, o⟩ := r
      rw [he] at h
      dsimp only at h ⊢
      cases hr : run s2 l with
      | none => rw [hr] at h; cases h
      | some r =>
        obtain ⟨s3, o3⟩ := r
        rw [hr] at h
        simp only [Option.map_some, Option.some.injEq, Prod.mk.injEq] at h
        obtain ⟨rfl, rfl⟩ := h
        rw [ih s2 s3 o3 hr, Option.map_map]
        rfl

theorem sendHist_run (b : Bool) (ops : List Op) (hv : ∀ op ∈ ops, Valid b op) (s' : Session) (outs : List Out)
    (hr : run { broker := b } ops = some (s', outs)) : (SendHist (trace ops outs) s' ∧ Paired (trace ops outs) s') ∧ Inv s' ∧ s'.broker = b := by
  have := run_inv (fun h s => SendHist h s ∧ Paired h s) (fun h s op s' o hi hv he hp => ⟨hp.1.step hi hv he, hp.2.step hi hv he⟩) ops
    { broker := b } [] (inv_init b) hv ⟨track_init b, paired_init b⟩ s' outs hr
  simpa using this

/-- **C68** Whatever is sent was handed to the session, with the same topic, payload, QoS and RETAIN flag, and has an identifier. -/
theorem sent_was_queued (b : Bool) (ops : List Op) (hv : ∀ op ∈ ops, Valid b op) (s' : Session) (outs : List Out)
    (hr : run { broker := b } ops = some (s', outs)) (hn : (queuedKeys (trace ops outs)).Nodup) : AtEach SentWasQueued (trace ops outs) :=
  fun x e y h => (((sendHist_run b ops hv s' outs hr).1.1 hn).2 x e y h).queued

/-- **C68** A message never has the identifier of another message whose exchange is not finished. -/
theorem identifiers_differ (b : Bool) (ops : List Op) (hv : ∀ op ∈ ops, Valid b op) (s' : Session) (outs : List Out)
    (hr : run { broker := b } ops = some (s', outs)) (hn : (queuedKeys (trace ops outs)).Nodup) : AtEach IdsDiffer (trace ops outs) :=
  fun x e y h => (((sendHist_run b ops hv s' outs hr).1.1 hn).2 x e y h).differ

/-- **C70** A message which is sent again has the same content, the same identifier and the DUP flag. -/
theorem repeat_marked (b : Bool) (ops : List Op) (hv : ∀ op ∈ ops, Valid b op) (s' : Session) (outs : List Out)
    (hr : run { broker := b } ops = some (s', outs)) (hn : (queuedKeys (trace ops outs)).Nodup) : AtEach RepeatMarked (trace ops outs) :=
  fun x e y h => (((sendHist_run b ops hv s' outs hr).1.1 hn).2 x e y h).again

/-- **C70** A message of QoS 2 is not sent again after its PUBREC. -/
theorem not_after_pubrec (b : Bool) (ops : List Op) (hv : ∀ op ∈ ops, Valid b op) (s' : Session) (outs : List Out)
    (hr : run { broker := b } ops = some (s', outs)) (hn : (queuedKeys (trace ops outs)).Nodup) : AtEach NotAfterPubrec (trace ops outs) :=
  fun x e y h => (((sendHist_run b ops hv s' outs hr).1.1 hn).2 x e y h).recd

/-- **C69** A message with QoS 1 or 2 is kept until the acknowledgement which ends its exchange arrives: until then, whatever has happened, when the
queue is worked on after the retry interval and all transmissions succeed, the message (or, after a PUBREC, its PUBREL) is sent. -/
theorem kept_until_acknowledged (b : Bool) (ops : List Op) (hv : ∀ op ∈ ops, Valid b op) (s' : Session) (outs : List Out)
    (hr : run { broker := b } ops = some (s', outs)) (hn : (queuedKeys (trace ops outs)).Nodup)
    (before : List Ev) (p : Pub) (after : List Ev) (heq : trace ops outs = before ++ .queued p :: after) (hq : p.qos ≠ 0)
    (hend : ¬ Finished before p after)
    (m rm retry g now : Nat) (hids : queueings ops < 65535) (hm : queueings ops < m) (hrm : rm = 0 ∨ queueings ops < rm)
    (hnow : retry < now) (h64 : now < 2 ^ 64) (htimes : ∀ t tx, .pass t tx ∈ ops → t + retry < now) (hexp : b = true → p.expired now = false) :
    ∃ s₂ o, run { broker := b } (ops ++ [.init m rm retry g false, .pass now fun _ => .ok]) = some (s₂, outs ++ [({} : Out), o]) ∧
      ∃ w ∈ o.sent, Continues (trace ops outs) p w := by
  obtain ⟨⟨hh, hpair⟩, hi, hb⟩ := sendHist_run b ops hv s' outs hr
  obtain ⟨ht, _⟩ := hh hn
  have htame := run_tame (T := now - retry - 1) ops { broker := b } 0 (inv_init b) hv (fun t tx hm => by have := htimes t tx hm; omega)
    ⟨by intro q hq; simp [Session.view, pubsOf] at hq, by simp [graceIds]⟩ s' outs hr
  rcases ht.kept before p after heq hq with ⟨q, hqm, hs, hc⟩ | ⟨b1, c, b2, h1, h2, h3⟩
  · have hi1 : Inv { s' with maxInFlight := m, receiveMax := rm, retry := retry, graceTime := g } := ⟨hi.recv, hi.send, hi.delayed⟩
    obtain ⟨l, c, e, k1, _, s₂, w, ok, k3, _, _, _, _, _, _, _, _, _, _, w2, k13, _⟩ :=
      sendPass_spec now (by omega) (fun _ => .ok) { s' with maxInFlight := m, receiveMax := rm, retry := retry, graceTime := g } hi1
    have hcount := htame.count
    simp only [Nat.zero_add] at hcount
    obtain ⟨_, hsends⟩ := pass_sends { s' with maxInFlight := m, receiveMax := rm, retry := retry, graceTime := g } now (by omega) h64
      (s'.toRemote ++ s'.delayed.map .pub) [] { pool := s'.pool, grace := s'.grace, incomplete := 0, sent := [] } l c e
      (delayed_good hi) (by simp; omega) (by simp; omega) (by simp; omega) k1
    have hqi : .pub q ∈ s'.toRemote ++ s'.delayed.map .pub := by
      rcases List.mem_append.mp hqm with h | h
      · simp [mem_pubsOf.mp h]
      · simp [h]
    have hlast := htame.time q hqm
    obtain ⟨f1, f2, f3⟩ := hpair q hqm
    obtain ⟨x, hx, hxw⟩ := hsends q hqi (by rw [hs.qos]; exact hq) hc f1 f2 (by show q.lastAttempt + retry < now; omega) (by
      intro hbr
      unfold Pub.expired
      rw [hs.createTime, hs.expiry]
      exact hexp (hb ▸ hbr))
    refine ⟨s₂, ⟨[], w, ok⟩, ?_, x, by rw [k13]; simp [hx], ?_⟩
    · rw [run_app ops _ _ _ hr]
      simp [run, step, k3]
    · rcases hxw with ⟨r, h1, h2⟩ | ⟨h1, h2, h3⟩
      · exact .inl ⟨r, h1, SameContent.trans hs h2⟩
      · obtain ⟨ca, hca, hck, hcid⟩ := f3 h2
        refine .inr ⟨ca, q.id, by rw [← hs.qos]; exact h1, h3, hca, hck, hcid, ?_⟩
        intro a t r b' he hcl hkey
        exact ((ht.same t r ⟨a, b', he, hcl⟩ q hqm (hs.key.trans hkey.symm)).2.1).symm
  · exact absurd ⟨b1, c, b2, h1, h2, fun a t r b he hcl hk => h3 t r ⟨a, b, he, hcl⟩ hk⟩ hend

/-- **C71** A broker never aborts: whatever valid packets arrive and whatever is queued. -/
theorem broker_no_abort : ∀ (ops : List Op), (∀ op ∈ ops, Valid true op) → ∃ s' outs, run { broker := true } ops = some (s', outs) := by
  have : ∀ (ops : List Op) (s : Session), Inv s → s.broker = true → (∀ op ∈ ops, Valid true op) → ∃ s' outs, run s ops = some (s', outs) := by
    intro ops
    induction ops with
    | nil => intro s _ _ _; exact ⟨_, _, rfl⟩
    | cons op ops ih =>
      intro s hi hb hv
      rcases step_inv s op hi (by rw [hb]; exact hv op (by simp)) with ⟨⟨a, v5, tx, e, hk, _⟩, _⟩ | ⟨s1, o, he, hi1, hb1, _⟩
      · subst e
        have := (hv (.ack a v5 tx) (by simp)).2 rfl
        rcases hk with h | h
        · exact absurd h this.1
        · exact absurd h this.2
      · obtain ⟨s', outs, hr⟩ := ih s1 hi1 (hb1.trans hb) fun x hx => hv x (by simp [hx])
        exact ⟨s', o :: outs, by rw [run, he]; simp [hr]⟩
  exact fun ops hv => this ops _ (inv_init true) rfl hv

/-- **C71** A client does not abort either as long as no SUBACK or UNSUBACK arrives. -/
theorem client_no_abort_partial : ∀ (ops : List Op), (∀ op ∈ ops, Valid true op) → ∃ s' outs, run { broker := false } ops = some (s', outs) := by
  have : ∀ (ops : List Op) (s : Session), Inv s → (∀ op ∈ ops, Valid true op) → ∃ s' outs, run s ops = some (s', outs) := by
    intro ops
    induction ops with
    | nil => intro s _ _; exact ⟨_, _, rfl⟩
    | cons op ops ih =>
      intro s hi hv
      have hv1 : Valid s.broker op := by
        have := hv op (by simp)
        cases op <;> first | exact this | exact ⟨this.1, fun _ => this.2 rfl⟩
      rcases step_inv s op hi hv1 with ⟨⟨a, v5, tx, e, hk, _⟩, _⟩ | ⟨s1, o, he, hi1, hb1, _⟩
      · subst e
        have := (hv (.ack a v5 tx) (by simp)).2 rfl
        rcases hk with h | h
        · exact absurd h this.1
        · exact absurd h this.2
      · obtain ⟨s', outs, hr⟩ := ih s1 hi1 fun x hx => hv x (by simp [hx])
        exact ⟨s', o :: outs, by rw [run, he]; simp [hr]⟩
  exact fun ops hv => this ops _ (inv_init false) hv

/-! ## Cases -/

private def m1 : Pub := { key := 1, topic := [97], payload := some [1], qos := 1 }
private def m2 : Pub := { key := 2, topic := [98], payload := some [2], qos := 2 }
private def m3 : Pub := { key := 3, topic := [99], payload := some [3], qos := 0 }
private def ack (k : AckKind) (id : BitVec 16) : Op := .ack { kind := k, id := id } false true
private def all (now : Nat) : Op := .pass now fun _ => .ok
/-- What is seen of the packets which are sent. -/
private def seen : Wire → List Nat
  | .publish p => [3, p.key, p.id.toNat, if p.dup then 1 else 0]
  | .ack a => [match a.kind with | .pubrel => 6 | .pubrec => 5 | .pubcomp => 7 | _ => 4, a.id.toNat]
  | .sub q => [8, q.key, q.id.toNat]
private def sents (b : Bool) (ops : List Op) : Option (List (List (List Nat))) := (run { broker := b } ops).map fun r => r.2.map fun o => o.sent.map seen

/-- Three messages, a pass, a failing retransmission, the rest of the exchanges. -/
private def three : List Op :=
  [.queue m1, .queue m2, .queue m3, all 10, .pass 4000000 (fun n => if n = 0 then .ok else .err), ack .pubrec 2, ack .puback 1, all 9000000, ack .pubcomp 2,
   all 13000000]

example : ∀ op ∈ three, Valid true op := by simp [three, Valid, m1, m2, m3, ack, all]
example : sents true three = some [[], [], [], [[3, 1, 1, 0], [3, 2, 2, 0], [3, 3, 3, 0]], [[3, 1, 1, 1]], [[6, 2]], [], [[6, 2]], [], []] := by
  decide +kernel
example : (run {} three).map (fun r => queuedKeys (trace three r.2)) = some [1, 2, 3] := by decide +kernel
example : (queuedKeys [.queued m1, .queued m2, .queued m3]).Nodup := by decide
example : queueings three = 3 := rfl

/-- The hypotheses of `kept_until_acknowledged` are met: the message `m2` after the PUBREC, which is followed by a PUBREL. -/
example : (run {} (three.take 6)).map (fun r => ((trace (three.take 6) r.2).any fun e => match e with | .acked a => a.kind == .pubcomp | _ => false)) = some false := by
  decide +kernel
example : sents true (three.take 6 ++ [.init 125 0 3000000 2000000 false, all 8000000]) =
    some [[], [], [], [[3, 1, 1, 0], [3, 2, 2, 0], [3, 3, 3, 0]], [[3, 1, 1, 1]], [[6, 2]], [], [[3, 1, 1, 1], [6, 2]]] := by
  decide +kernel

/-- **C69** does not hold if only acknowledgements which come after the transmission end an exchange: a message which has got an identifier but which was
held back (here by the limit for messages in flight) is taken for delivered when a PUBACK with that identifier comes, and is never sent. -/
theorem unsent_acknowledged :
    (∀ op ∈ [.init 2 0 3000000 2000000 false, .queue m1, .queue { m1 with key := 5 }, all 10, ack .puback 2, all 20, ack .puback 1, all 30, all 9000000], Valid true op) ∧
    sents true [.init 2 0 3000000 2000000 false, .queue m1, .queue { m1 with key := 5 }, all 10, ack .puback 2, all 20, ack .puback 1, all 30, all 9000000] =
      some [[], [], [], [[3, 1, 1, 0]], [], [], [], [], []] :=
  ⟨by simp [Valid, m1, ack, all], by decide +kernel⟩

/-- Without that PUBACK it is sent. -/
example : sents true [.init 2 0 3000000 2000000 false, .queue m1, .queue { m1 with key := 5 }, all 10, all 20, ack .puback 1, all 30] =
      some [[], [], [], [[3, 1, 1, 0]], [], [], [[3, 5, 2, 0]]] := by decide +kernel

/-- **C71** is violated for a client: a SUBACK which has the identifier of a PUBLISH ends the program. -/
theorem client_aborts :
    (∀ op ∈ [.queue m1, all 10, ack .suback 1], Valid false op) ∧ run { broker := false } [.queue m1, all 10, ack .suback 1] = none := by
  refine ⟨by simp [Valid, m1, ack, all], ?_⟩
  have : (run { broker := false } [.queue m1, all 10, ack .suback 1]).isNone = true := by decide +kernel
  simpa using this

/-- A SUBACK for a SUBSCRIBE is accepted. -/
example : (run { broker := false } [.queueSub 1 false, all 10, ack .suback 1]).isSome = true := by decide +kernel

end Verif.Session
