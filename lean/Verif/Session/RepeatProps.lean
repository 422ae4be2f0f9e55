import Verif.Session.RecvProps
/-!
# Repeated PUBLISH packets from the remote
-/
namespace Verif.Session
open Verif Spec

/-! ## QoS 2: an identifier which is in use -/

/-- A message of QoS 2 without the DUP flag has an identifier which is in use. -/
theorem publish_in_use (s : Session) (hi : Inv s) (now : Nat) (p q : Pub) (tx : Bool) (hv : Valid s.broker (.publish now p .accept tx)) (hq : p.qos = 2)
    (hd : p.dup = false) (hm : q ∈ s.fromRemote) (he : q.id = p.id) :
    step s (.publish now p .accept tx) = some (s, ⟨[], [], false⟩) := by
  obtain ⟨_, ⟨_, h0⟩, _⟩ := hv
  have hid : p.id ≠ 0 := h0 (by omega)
  rcases findQos2_spec p.id hid s.fromRemote hi.recv.sorted (fun r hr => (hi.recv.inbound r hr).2.1) with ⟨_, hn⟩ | ⟨r, _, _, hf⟩
  · exact absurd he (hn q hm)
  · have : receivePublish now (received p) s = some ⟨s, [], false, 0⟩ := by
      simp only [receivePublish, received, hq, hf, hd, Bool.and_false]
    simp only [step, handlePublish]
    rw [if_neg (by simp [received, hq])]
    simp [this]

/-- **C66** While the exchange for a message of QoS 2 is open, another message with its identifier and without the DUP flag is neither acknowledged nor
delivered: the connection ends. -/
theorem qos2_identifier_in_use (b : Bool) (pre mid : List Op) (now now' : Nat) (p p' : Pub) (tx tx' : Bool)
    (hv : ∀ op ∈ pre ++ .publish now p .accept tx :: (mid ++ [.publish now' p' .accept tx']), Valid b op)
    (s : Session) (outs₀ : List Out) (hpre : run { broker := b } pre = some (s, outs₀)) (hfree : ∀ q ∈ s.fromRemote, q.id ≠ p.id)
    (hq : p.qos = 2) (hq' : p'.qos = 2) (hid : p'.id = p.id) (hd : p'.dup = false)
    (hclean : ∀ m r t g, .init m r t g true ∉ mid) (hrel : ∀ b v5 tx, .ack b v5 tx ∈ mid → b.kind = .pubrel → b.id ≠ p.id)
    (s' : Session) (outs : List Out)
    (hr : run { broker := b } (pre ++ .publish now p .accept tx :: (mid ++ [.publish now' p' .accept tx'])) = some (s', outs)) :
    ∃ outs' last, outs = outs' ++ [last] ∧ last.sent = [] ∧ last.delivered = [] ∧ last.alive = false := by
  obtain ⟨s1, o1, o2, h1, h2, h3⟩ := run_append _ _ _ _ _ hr
  rw [hpre] at h1
  simp only [Option.some.injEq, Prod.mk.injEq] at h1
  obtain ⟨rfl, rfl⟩ := h1
  obtain ⟨_, hi, hb⟩ := run_hist b pre (fun op h => hv op (by simp [h])) s outs₀ hpre
  have hb : s.broker = b := hb
  have hvp : Valid s.broker (.publish now p .accept tx) := by rw [hb]; exact hv _ (by simp)
  rw [run] at h2
  rcases step_inv s (.publish now p .accept tx) hi hvp with ⟨⟨_, _, _, e, _⟩, _⟩ | ⟨s1, o, he, hi1, hb1, hrs⟩
  · cases e
  rw [he] at h2
  dsimp only at h2
  cases hr2 : run s1 (mid ++ [.publish now' p' .accept tx']) with
  | none => rw [hr2] at h2; cases h2
  | some y =>
    obtain ⟨s2, outs2⟩ := y
    rw [hr2] at h2
    simp only [Option.map_some, Option.some.injEq, Prod.mk.injEq] at h2
    obtain ⟨rfl, rfl⟩ := h2
    obtain ⟨s3, o1, o2, h4, h5, h6⟩ := run_append _ _ _ _ _ hr2
    have hstored : ∃ q ∈ s1.fromRemote, SameMessage p q ∧ q.pubrel = false := by
      generalize hl : s1.fromRemote = l' at hrs
      cases hrs with
      | thin _ _ _ h4 _ _ =>
        rcases h4 now p tx rfl with ⟨h0, _⟩ | ⟨_, _, q, hq', e⟩
        · omega
        · exact absurd e (hfree q hq')
      | one h0 => omega
      | store _ _ _ _ => exact ⟨_, (mem_insertOrdered _ _ _).mpr (.inl rfl), fresh_same now p true, rfl⟩
    obtain ⟨q, hqm, hqs, hqn⟩ := hstored
    have hvm : ∀ op ∈ mid, Valid s1.broker op := fun op hop => by rw [hb1, hb]; exact hv op (by simp [hop])
    obtain ⟨q2, hq2m, hq2s, _⟩ := hold_run mid s1 s3 o1 hi1 hvm h4 q hqm (hqs.qos.trans hq) hqn hclean
      (fun b v5 tx hb' hk => by rw [hqs.id]; exact hrel b v5 tx hb' hk)
    obtain ⟨_, hi3, hb3⟩ := run_inv (fun _ _ => True) (fun _ _ _ _ _ _ _ _ _ => trivial) mid s1 [] hi1 hvm trivial s3 o1 h4
    have hst := publish_in_use s3 hi3 now' p' q2 tx' (by rw [hb3, hb1, hb]; exact hv _ (by simp)) hq' hd hq2m (by rw [hq2s.id, hqs.id, hid])
    rw [run, hst] at h5
    simp only [run, Option.map_some, Option.some.injEq, Prod.mk.injEq] at h5
    obtain ⟨_, rfl⟩ := h5
    exact ⟨outs₀ ++ o :: o1, ⟨[], [], false⟩, by rw [h3, h6]; simp, rfl, rfl, rfl⟩

private def m1 : Pub := { key := 1, topic := [97], payload := some [1], qos := 2, id := 7 }

/-- The connection is lost after the first PUBLISH, the client does not repeat it correctly. -/
private def collision : List Op :=
  [.publish 1 m1 .accept true, .init 125 0 3000000 2000000 false, .publish 2 { m1 with key := 2 } .accept true]

example : (∀ op ∈ collision, Valid true op) ∧ (run {} collision).map (fun r => r.2.map fun o => (o.delivered.map (·.key), o.sent, o.alive)) =
    some [([], [.ack { kind := .pubrec, id := 7 }], true), ([], [], true), ([], [], false)] :=
  ⟨by simp [collision, Valid, m1], by decide +kernel⟩

/-! ## QoS 1 -/

/-- Messages which have been acknowledged are not delivered by another PUBACK. -/
theorem walk_acked (a : Ack) (ha : a.kind = .puback) : ∀ (l : List Pub) (n : Nat), (∀ q ∈ l, q.id = a.id → q.qos = 1 → q.puback = true) →
    ∀ w, walk (fun f p => ackPub a false f p) n l = some w → w.delivered = [] := by
  intro l
  induction l with
  | nil => intro n _ w hw; cases hw; rfl
  | cons p l ih =>
    intro n hl w hw
    have key : ∀ r, ackPub a false n p = some r → r.delivered = [] := by
      intro r hr
      unfold ackPub at hr
      split at hr
      · cases hr; rfl
      · next hid =>
        have hid : p.id = a.id := by simpa using hid
        rw [if_neg (by simp [ha])] at hr
        cases hr
        unfold ackPubSame
        split
        · rfl
        · split
          · rfl
          · rw [ha]
            simp only [ackPuback]
            by_cases hq : p.qos = 1
            · have := hl p List.mem_cons_self hid hq
              rw [if_neg (by simp [hq])]
              split <;> simp [this]
            · rw [if_pos hq]
    rw [walk] at hw
    cases hr : ackPub a false n p with
    | none => rw [hr] at hw; cases hw
    | some r =>
      rw [hr] at hw
      dsimp only at hw
      have hd := key r hr
      have hl' : ∀ q ∈ l, q.id = a.id → q.qos = 1 → q.puback = true := fun q hq => hl q (List.mem_cons_of_mem _ hq)
      cases hret : r.ret with
      | stop => rw [hret] at hw; cases hw; exact hd
      | ok =>
        rw [hret] at hw
        cases hw2 : walk (fun f p => ackPub a false f p) r.found l with
        | none => rw [hw2] at hw; cases hw
        | some w2 => rw [hw2] at hw; cases hw; simp [hd, ih r.found hl' w2 hw2]
      | err =>
        rw [hret] at hw
        cases hw2 : walk (fun f p => ackPub a false f p) r.found l with
        | none => rw [hw2] at hw; cases hw
        | some w2 => rw [hw2] at hw; cases hw; simp [hd, ih r.found hl' w2 hw2]

/-- The PUBACK for a new message delivers the new message. -/
theorem walk_insert (a : Ack) (ha : a.kind = .puback) (ha0 : a.reason = 0) (p : Pub) (hp : p.id = a.id) (hq : p.qos = 1) (hn : p.puback = false) (ho : p.outbound = false) :
    ∀ (l : List Pub), (∀ q ∈ l, q.id = a.id → q.qos = 1 → q.puback = true) →
    ∀ w, walk (fun f p => ackPub a false f p) 0 (insertOrdered p l) = some w → w.delivered = [p] := by
  have hnew : ackPub a false 0 p = some ⟨.ok, { p with puback := true }, [p], 1⟩ := by
    simp [ackPub, hp, ha, ha0, ackPubSame, ackPuback, hq, hn, ho]
  intro l
  induction l with
  | nil =>
    intro _ w hw
    simp only [insertOrdered, walk, hnew, Option.map_some, Option.some.injEq] at hw
    rw [← hw]; rfl
  | cons r l ih =>
    intro hl w hw
    rw [insertOrdered] at hw
    split at hw
    · next hlt =>
      have hid : r.id ≠ a.id := by intro h; rw [h, hp] at hlt; omega
      have : ackPub a false 0 r = some ⟨.ok, r, [], 0⟩ := by simp [ackPub, hid]
      rw [walk] at hw
      simp only [this] at hw
      cases hw2 : walk (fun f p => ackPub a false f p) 0 (insertOrdered p l) with
      | none => rw [hw2] at hw; cases hw
      | some w2 =>
        rw [hw2] at hw
        cases hw
        simp [ih (fun q hq => hl q (List.mem_cons_of_mem _ hq)) w2 hw2]
    · rw [walk] at hw
      simp only [hnew] at hw
      cases hw2 : walk (fun f p => ackPub a false f p) 1 (r :: l) with
      | none => rw [hw2] at hw; cases hw
      | some w2 =>
        rw [hw2] at hw
        cases hw
        simp [walk_acked a ha (r :: l) 1 hl w2 hw2]

/-- **C76** A PUBLISH of QoS 1 which arrives is delivered, and nothing else is delivered again, if the messages with the same identifier
which the session still holds have been acknowledged.

Missing for the full property: a message which was repeated quickly is held without its acknowledgement and is delivered again later, see
`qos1_delivered_again`. -/
theorem qos1_repeat_partial (b : Bool) (pre : List Op) (now : Nat) (p : Pub) (tx : Bool)
    (s : Session) (outs₀ : List Out) (_hpre : run { broker := b } pre = some (s, outs₀)) (hq : p.qos = 1)
    (hack : ∀ q ∈ s.fromRemote, q.id = p.id → q.qos = 1 → q.puback = true)
    (s' : Session) (o : Out) (hr : step s (.publish now p .accept tx) = some (s', o)) :
    ∃ x, o.delivered = [x] ∧ SameMessage p x := by
  simp only [step, handlePublish] at hr
  rw [if_neg (by simp [received, hq])] at hr
  have hrec : receivePublish now (received p) s =
      some ⟨{ s with fromRemote := insertOrdered { received p with lastAttempt := now } s.fromRemote }, [], true, 0⟩ := by
    simp only [receivePublish, received, hq]
  have hack : ackFor (received p) 0 = some { kind := .puback, id := p.id, reason := 0 } := by simp [ackFor, received, hq]
  simp only [hrec, Bool.not_true, Bool.false_eq_true, if_false, List.nil_append, sendAckFor, hack, sendNow, noteAck, processAck] at hr
  cases hw : walk (fun f q => ackPub { kind := .puback, id := p.id, reason := 0 } false f q) 0
      (insertOrdered { received p with lastAttempt := now } s.fromRemote) with
  | none => rw [hw] at hr; cases hr
  | some w =>
    have hdel : w.delivered = [{ received p with lastAttempt := now }] :=
      walk_insert _ rfl rfl _ (by simp [received]) (by simp [received, hq]) (by simp [received]) (by simp [received]) s.fromRemote (by assumption) w hw
    rw [hw] at hr
    dsimp only at hr
    refine ⟨_, ?_, fresh_same now p false⟩
    have hpr : ({ received p with lastAttempt := now, pubrec := false } : Pub) = { received p with lastAttempt := now } := by simp [received]
    rw [hpr]
    generalize hg : (if (!w.err && decide (1 < w.found)) = true then none
      else some (⟨{ s with fromRemote := w.items }, w.delivered, !w.err, w.found⟩ : Call)) = c at hr
    split at hg
    · subst hg; simp at hr
    · subst hg
      dsimp only at hr
      split at hr
      · simp only [Option.map_some, Option.some.injEq, Prod.mk.injEq] at hr
        rw [← hr.2]; exact hdel
      · simp only [Option.map_some, Option.some.injEq, Prod.mk.injEq] at hr
        rw [← hr.2]; exact hdel

private def n1 : Pub := { key := 1, topic := [97], payload := some [1], qos := 1, id := 7, dup := true }

/-- The hypotheses are met when a message is repeated: the session holds the first one, which has been acknowledged. -/
example : (run {} [.publish 1 n1 .accept true]).map (fun r => r.1.fromRemote.map fun q => (q.key, q.id, q.qos, q.puback)) = some [(1, 7, 1, true)] := by
  decide +kernel
example : (run {} [.publish 1 n1 .accept true, .publish 2 { n1 with key := 2 } .accept true]).map (fun r => r.2.map fun o => (o.delivered.map (·.key), o.sent)) =
    some [([1], [.ack { kind := .puback, id := 7 }]), ([2], [.ack { kind := .puback, id := 7 }])] := by decide +kernel

/-- A message is repeated before the queue is worked on, and later its identifier is used for another message. -/
private def stale : List Op :=
  [.publish 1 n1 .accept true, .publish 2 { n1 with key := 2 } .accept true, .pass 3 fun _ => .ok,
   .publish 4 { key := 3, topic := [98], payload := some [2], qos := 1, id := 7 } .accept true]

/-- **C76** is violated: the first message is delivered again when another message arrives with the same identifier. -/
theorem qos1_delivered_again :
    (∀ op ∈ stale, Valid true op) ∧
    (run {} stale).map (fun r => r.2.map fun o => (o.delivered.map (·.key), o.sent, o.alive)) =
      some [([1], [.ack { kind := .puback, id := 7 }], true), ([2], [.ack { kind := .puback, id := 7 }], true), ([], [], true),
        ([3, 1], [.ack { kind := .puback, id := 7 }], true)] :=
  ⟨by simp [stale, Valid, n1], by decide +kernel⟩

end Verif.Session
