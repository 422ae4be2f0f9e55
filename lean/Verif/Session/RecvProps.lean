import Verif.Session.StepLemmas
/-!
# Properties of the receiving side of an MQTT session
-/
namespace Verif.Session
open Verif Spec

/-! ## Histories -/

/-- A property of histories which every operation keeps holds of all histories. -/
theorem run_inv (P : List Ev → Session → Prop)
    (hstep : ∀ h s op s' o, Inv s → Valid s.broker op → step s op = some (s', o) → P h s → P (h ++ events op o) s') :
    ∀ (ops : List Op) (s : Session) (h : List Ev), Inv s → (∀ op ∈ ops, Valid s.broker op) → P h s →
      ∀ s' outs, run s ops = some (s', outs) → P (h ++ trace ops outs) s' ∧ Inv s' ∧ s'.broker = s.broker := by
  intro ops
  induction ops with
  | nil =>
    intro s h hi _ hP s' outs hr
    simp only [run, Option.some.injEq, Prod.mk.injEq] at hr
    obtain ⟨rfl, rfl⟩ := hr
    exact ⟨by simpa [trace] using hP, hi, rfl⟩
  | cons op ops ih =>
    intro s h hi hv hP s' outs hr
    rw [run] at hr
    rcases step_inv s op hi (hv op List.mem_cons_self) with ⟨_, he⟩ | ⟨s1, o, he, hi1, hb, _⟩
    · rw [he] at hr; cases hr
    · rw [he] at hr
      dsimp only at hr
      cases hr2 : run s1 ops with
      | none => rw [hr2] at hr; cases hr
      | some x =>
        obtain ⟨s2, outs2⟩ := x
        rw [hr2] at hr
        simp only [Option.map_some, Option.some.injEq, Prod.mk.injEq] at hr
        obtain ⟨rfl, rfl⟩ := hr
        have := ih s1 (h ++ events op o) hi1 (by rw [hb]; exact fun q hq => hv q (List.mem_cons_of_mem _ hq))
          (hstep h s op s1 o hi (hv op List.mem_cons_self) he hP) s2 outs2 hr2
        rw [hb] at this
        rw [trace, ← List.append_assoc]
        exact this

theorem split_append {α : Type} {h e before after : List α} {x : α} (heq : h ++ e = before ++ x :: after) :
    (∃ k, h = before ++ x :: k) ∨ ∃ e1, e = e1 ++ x :: after ∧ before = h ++ e1 := by
  rcases List.append_eq_append_iff.mp heq with ⟨a, h1, h2⟩ | ⟨a, h1, h2⟩
  · exact .inr ⟨a, h2, h1⟩
  · cases a with
    | nil => exact .inr ⟨[], by simpa using h2.symm, by simpa using h1.symm⟩
    | cons y a =>
      simp only [List.cons_append, List.cons.injEq] at h2
      obtain ⟨rfl, _⟩ := h2
      exact .inl ⟨a, h1⟩

theorem atEach_append {Q : List Ev → Ev → Prop} {h e : List Ev} (h1 : AtEach Q h)
    (h2 : ∀ e1 x e2, e = e1 ++ x :: e2 → Q (h ++ e1) x) : AtEach Q (h ++ e) := by
  intro before x after heq
  rcases split_append heq with ⟨k, hk⟩ | ⟨e1, hk, hb⟩
  · exact h1 before x k hk
  · rw [hb]; exact h2 e1 x after hk

theorem atEach_nil (Q : List Ev → Ev → Prop) : AtEach Q [] := by
  intro before x after h; simp at h

/-! ## Answers -/

theorem sendNow_sent (a : Ack) (tx : Bool) (s : Session) (c : Call) (w : List Wire) (h : sendNow a tx s = some (c, w)) :
    w = [.ack a] ∨ w = [] := by
  unfold sendNow at h
  cases hn : noteAck a s with
  | none => rw [hn] at h; cases h
  | some d =>
    rw [hn] at h
    dsimp only at h
    split at h
    · simp only [Option.some.injEq, Prod.mk.injEq] at h
      rw [← h.2]; split <;> simp
    · simp only [Option.some.injEq, Prod.mk.injEq] at h
      exact .inr h.2.symm

theorem sendAckFor_sent (p : Pub) (reason : UInt8) (tx : Bool) (s : Session) (h : Handled) (he : sendAckFor p reason tx s = some h) :
    ∀ x ∈ h.sent, ∃ a, x = .ack a ∧ a.id = p.id ∧ a.reason = reason ∧ ((p.qos = 1 ∧ a.kind = .puback) ∨ (p.qos = 2 ∧ a.kind = .pubrec)) := by
  unfold sendAckFor at he
  cases hf : ackFor p reason with
  | none => rw [hf] at he; simp at he; subst he; simp
  | some a =>
    rw [hf] at he
    dsimp only at he
    cases hs : sendNow a tx s with
    | none => rw [hs] at he; cases he
    | some x =>
      obtain ⟨c, w⟩ := x
      rw [hs] at he
      simp only [Option.map_some, Option.some.injEq] at he
      subst he
      have ha : a.id = p.id ∧ a.reason = reason ∧ ((p.qos = 1 ∧ a.kind = .puback) ∨ (p.qos = 2 ∧ a.kind = .pubrec)) := by
        unfold ackFor at hf
        split at hf
        · next hq => cases hf; exact ⟨rfl, rfl, .inl ⟨hq, rfl⟩⟩
        · next hq => cases hf; exact ⟨rfl, rfl, .inr ⟨hq, rfl⟩⟩
        · cases hf
      intro x hx
      rcases sendNow_sent a tx s c w hs with rfl | rfl
      · simp only [List.mem_singleton] at hx; exact ⟨a, hx, ha⟩
      · simp at hx

/-- What is sent in answer to a PUBLISH. -/
theorem publish_answers (s s' : Session) (now : Nat) (p : Pub) (v : Verdict) (tx : Bool) (o : Out) (h : step s (.publish now p v tx) = some (s', o)) :
    ∀ x ∈ o.sent, ∃ a, x = .ack a ∧ a.id = p.id ∧ ((v = .accept ∧ a.reason = 0) ∨ v = .refuse a.reason) ∧
      ((p.qos = 1 ∧ a.kind = .puback) ∨ (p.qos = 2 ∧ a.kind = .pubrec)) := by
  simp only [step] at h
  cases hp : handlePublish now (received p) v tx s with
  | none => rw [hp] at h; cases h
  | some r =>
    rw [hp] at h
    simp only [Option.map_some, Option.some.injEq, Prod.mk.injEq] at h
    obtain ⟨_, rfl⟩ := h
    dsimp only
    unfold handlePublish at hp
    split at hp
    · cases hp; simp
    · split at hp
      · cases hp; simp
      · next reason =>
        intro x hx
        obtain ⟨a, h1, h2, h3, h4⟩ := sendAckFor_sent _ _ _ _ _ hp x hx
        exact ⟨a, h1, h2, .inr (by rw [h3]), h4⟩
      · split at hp
        · cases hp
        · next c hc =>
          split at hp
          · cases hp; simp
          · cases hs : sendAckFor (received p) 0 tx c.s with
            | none => rw [hs] at hp; cases hp
            | some d =>
              rw [hs] at hp
              simp only [Option.map_some, Option.some.injEq] at hp
              subst hp
              intro x hx
              obtain ⟨a, h1, h2, h3, h4⟩ := sendAckFor_sent _ _ _ _ _ hs x hx
              exact ⟨a, h1, h2, .inl ⟨rfl, h3⟩, h4⟩

/-- What is sent in answer to an acknowledgement. -/
theorem ack_answers (s s' : Session) (a : Ack) (v5 tx : Bool) (o : Out) (h : step s (.ack a v5 tx) = some (s', o)) :
    ∀ x ∈ o.sent, ∃ b, x = .ack b ∧ b.id = a.id ∧ ((a.kind = .pubrec ∧ b.kind = .pubrel) ∨ (a.kind = .pubrel ∧ b.kind = .pubcomp)) := by
  simp only [step] at h
  cases hp : handleAnyAck a v5 tx s with
  | none => rw [hp] at h; cases h
  | some r =>
    rw [hp] at h
    simp only [Option.map_some, Option.some.injEq, Prod.mk.injEq] at h
    obtain ⟨_, rfl⟩ := h
    dsimp only
    unfold handleAnyAck at hp
    have key : handleRecRel a v5 tx s = some r → (a.kind = .pubrec ∨ a.kind = .pubrel) →
        ∀ x ∈ r.sent, ∃ b, x = .ack b ∧ b.id = a.id ∧ ((a.kind = .pubrec ∧ b.kind = .pubrel) ∨ (a.kind = .pubrel ∧ b.kind = .pubcomp)) := by
      intro hp hk
      unfold handleRecRel at hp
      split at hp
      · cases hp
      · next c hc =>
        split at hp
        · cases hp; simp
        · dsimp only at hp
          generalize hb : ({ kind := a.kind.next, id := a.id, reason := _ } : Ack) = b at hp
          cases hs : sendNow b tx c.s with
          | none => rw [hs] at hp; cases hp
          | some y =>
            obtain ⟨d, w⟩ := y
            rw [hs] at hp
            simp only [Option.map_some, Option.some.injEq] at hp
            subst hp
            intro x hx
            dsimp only at hx
            rcases sendNow_sent _ _ _ _ _ hs with rfl | rfl
            · simp only [List.mem_singleton] at hx
              refine ⟨b, hx, by rw [← hb], ?_⟩
              rcases hk with hk | hk
              · exact .inl ⟨hk, by rw [← hb, hk]; rfl⟩
              · exact .inr ⟨hk, by rw [← hb, hk]; rfl⟩
            · simp at hx
    split at hp
    · next e => exact key hp (.inl e)
    · next e => exact key hp (.inr e)
    · unfold handleAck at hp
      cases hc : processAck a a.kind.wasOutbound s with
      | none => rw [hc] at hp; cases hp
      | some c => rw [hc] at hp; cases hp; simp

/-! ## The invariant of histories -/

/-- A message was received and accepted, and is not delivered yet. -/
def Open (h : List Ev) (p : Pub) : Prop :=
  ∃ a r b, h = a ++ .got r .accept :: b ∧ SameMessage r p ∧ NoDelivery p.id b

/-- A message was received and accepted, and is delivered. -/
def Done (h : List Ev) (p : Pub) : Prop :=
  ∃ a r b q d, h = a ++ .got r .accept :: (b ++ .delivered q :: d) ∧ SameMessage r p ∧ SameMessage r q ∧ NoDelivery p.id b ∧ NoDelivery p.id d

structure Hist (h : List Ev) (s : Session) : Prop where
  opened : ∀ p ∈ s.fromRemote, p.qos = 2 → p.pubrel = false → Open h p
  done : ∀ p ∈ s.fromRemote, p.qos = 2 → p.pubrel = true → Done h p
  once : AtEach Qos2Once h
  complete : AtEach Qos2Complete h
  qos1 : AtEach Qos1Delivered h

theorem noDelivery_append {id : BitVec 16} {a b : List Ev} (h1 : NoDelivery id a) (h2 : NoDelivery id b) : NoDelivery id (a ++ b) := by
  refine ⟨fun p hp => ?_, fun hc => ?_⟩
  · rcases List.mem_append.mp hp with hp | hp
    · exact h1.1 p hp
    · exact h2.1 p hp
  · rcases List.mem_append.mp hc with hc | hc
    · exact h1.2 hc
    · exact h2.2 hc

theorem Open.append {h e : List Ev} {p : Pub} (ho : Open h p) (he : NoDelivery p.id e) : Open (h ++ e) p := by
  obtain ⟨a, r, b, rfl, h1, h2⟩ := ho
  exact ⟨a, r, b ++ e, by simp, h1, noDelivery_append h2 he⟩

theorem Done.append {h e : List Ev} {p : Pub} (ho : Done h p) (he : NoDelivery p.id e) : Done (h ++ e) p := by
  obtain ⟨a, r, b, q, d, rfl, h1, h2, h3, h4⟩ := ho
  exact ⟨a, r, b, q, d ++ e, by simp, h1, h2, h3, noDelivery_append h4 he⟩

theorem core_same {p q r : Pub} (h : p.core = q.core) (hs : SameMessage r p) : SameMessage r q := by
  obtain ⟨h1, h2, h3, h4, h5, h6, h7, h8, h9, h10, h11, h12, h13, h14⟩ := core_fields h
  exact ⟨h1 ▸ hs.key, h9 ▸ hs.topic, h10 ▸ hs.payload, h2 ▸ hs.qos, h11 ▸ hs.retain, h3 ▸ hs.id, h12 ▸ hs.createTime, h13 ▸ hs.expiry, h14 ▸ hs.size⟩

theorem Open.core {h : List Ev} {p q : Pub} (e : p.core = q.core) (ho : Open h p) : Open h q := by
  obtain ⟨a, r, b, rfl, h1, h2⟩ := ho
  exact ⟨a, r, b, rfl, core_same e h1, (core_fields e).2.2.1 ▸ h2⟩

theorem Done.core {h : List Ev} {p q : Pub} (e : p.core = q.core) (ho : Done h p) : Done h q := by
  obtain ⟨a, r, b, x, d, rfl, h1, h2, h3, h4⟩ := ho
  have := (core_fields e).2.2.1
  exact ⟨a, r, b, x, d, rfl, core_same e h1, h2, this ▸ h3, this ▸ h4⟩

/-- Events without deliveries of QoS 2 and without cleaning. -/
theorem events_quiet (op : Op) (o : Out) (h1 : ∀ p ∈ o.delivered, p.qos ≠ 2) (h2 : ∀ m r t g, op ≠ .init m r t g true) (id : BitVec 16) :
    NoDelivery id (events op o) := by
  constructor
  · intro p hp h3
    exfalso
    cases op with
    | publish now r v tx =>
      simp only [events, List.mem_cons, List.mem_append, List.mem_map] at hp
      rcases hp with hp | ⟨q, hq, e⟩ | ⟨q, hq, e⟩
      · cases hp
      · cases e; exact h1 _ hq h3
      · cases e
    | ack a v5 tx =>
      simp only [events, List.mem_cons, List.mem_append, List.mem_map] at hp
      rcases hp with hp | ⟨q, hq, e⟩ | ⟨q, hq, e⟩
      · cases hp
      · cases e; exact h1 _ hq h3
      · cases e
    | pass now tx => simp [events] at hp
    | init m r t g c => cases c <;> simp [events] at hp
    | _ => simp [events] at hp
  · intro hc
    cases op with
    | init m r t g c => cases c
                        · simp [events] at hc
                        · exact h2 m r t g rfl
    | _ => simp [events] at hc

theorem fresh_same (now : Nat) (p : Pub) (b : Bool) : SameMessage p { received p with lastAttempt := now, pubrec := b } :=
  ⟨rfl, rfl, rfl, rfl, rfl, rfl, rfl, rfl, rfl⟩

theorem same_trans {p q r : Pub} (h1 : SameMessage r p) (h2 : SameMessage p q) : SameMessage r q :=
  ⟨h2.key.trans h1.key, h2.topic.trans h1.topic, h2.payload.trans h1.payload, h2.qos.trans h1.qos, h2.retain.trans h1.retain,
    h2.id.trans h1.id, h2.createTime.trans h1.createTime, h2.expiry.trans h1.expiry, h2.size.trans h1.size⟩

theorem relOn_same (id : BitVec 16) (p : Pub) : SameMessage p (relOn id p) := by
  unfold relOn; split <;> exact ⟨rfl, rfl, rfl, rfl, rfl, rfl, rfl, rfl, rfl⟩

theorem compOn_same (id : BitVec 16) (p : Pub) : SameMessage p (compOn id p) := by
  unfold compOn; split <;> exact ⟨rfl, rfl, rfl, rfl, rfl, rfl, rfl, rfl, rfl⟩

theorem Done.same {h : List Ev} {p q : Pub} (e : SameMessage p q) (ho : Done h p) : Done h q := by
  obtain ⟨a, r, b, x, d, rfl, h1, h2, h3, h4⟩ := ho
  exact ⟨a, r, b, x, d, rfl, same_trans h1 e, h2, e.id ▸ h3, e.id ▸ h4⟩

theorem Open.same {h : List Ev} {p q : Pub} (e : SameMessage p q) (ho : Open h p) : Open h q := by
  obtain ⟨a, r, b, rfl, h1, h2⟩ := ho
  exact ⟨a, r, b, rfl, same_trans h1 e, e.id ▸ h2⟩

/-- At most one message is released. -/
theorem released_cases (l : List Pub) (ok : RecvOk l) (id : BitVec 16) :
    l.filter (fun p => is2 id p && !p.pubrel) = [] ∨
    ∃ p ∈ l, is2 id p = true ∧ p.pubrel = false ∧ l.filter (fun p => is2 id p && !p.pubrel) = [p] ∧ ∀ q ∈ l, is2 id q = true → q = p := by
  have hu := ok.uniq
  clear ok
  induction l with
  | nil => exact .inl rfl
  | cons p l ih =>
    obtain ⟨h1, h2⟩ := List.pairwise_cons.mp hu
    by_cases hp : is2 id p = true
    · have hno : ∀ q ∈ l, is2 id q = false := by
        intro q hq
        by_cases hq2 : is2 id q = true
        · rw [is2_iff] at hp hq2
          exact absurd (hp.1.trans hq2.1.symm) (h1 q hq hp.2 hq2.2)
        · simpa using hq2
      have hf : l.filter (fun p => is2 id p && !p.pubrel) = [] :=
        List.filter_eq_nil_iff.mpr fun q hq => by simp [hno q hq]
      by_cases hr : p.pubrel = true
      · left; rw [List.filter_cons_of_neg (by simp [hr])]; exact hf
      · right
        refine ⟨p, List.mem_cons_self, hp, by simpa using hr, by rw [List.filter_cons_of_pos (by simp [hp, hr]), hf], ?_⟩
        intro q hq hq2
        rcases List.mem_cons.mp hq with rfl | hq
        · rfl
        · rw [hno q hq] at hq2; contradiction
    · rcases ih h2 with h | ⟨q, hq, h3, h4, h5, h6⟩
      · left; rw [List.filter_cons_of_neg (by simp [hp])]; exact h
      · refine .inr ⟨q, List.mem_cons_of_mem _ hq, h3, h4, by rw [List.filter_cons_of_neg (by simp [hp])]; exact h5, ?_⟩
        intro r hr hr2
        rcases List.mem_cons.mp hr with rfl | hr
        · exact absurd hr2 hp
        · exact h6 r hr hr2

theorem answer_split {pre : Ev} {d : List Pub} {w : List Wire} {e1 e2 : List Ev} {x : Wire} (hp : ∀ y, pre ≠ .answer y)
    (h : pre :: (d.map Ev.delivered ++ w.map Ev.answer) = e1 ++ .answer x :: e2) :
    ∃ w1 w2, w = w1 ++ x :: w2 ∧ e1 = pre :: (d.map Ev.delivered ++ w1.map Ev.answer) := by
  cases e1 with
  | nil => simp at h; exact absurd h.1 (hp x)
  | cons y e1 =>
    simp only [List.cons_append, List.cons.injEq] at h
    obtain ⟨rfl, h⟩ := h
    rcases split_append h with ⟨k, hk⟩ | ⟨e3, hk, rfl⟩
    · have : Ev.answer x ∈ d.map Ev.delivered := by rw [hk]; simp
      simp at this
    · obtain ⟨w1, w2, rfl, h1, h2⟩ := List.map_eq_append_iff.mp hk
      obtain ⟨x', w3, rfl, h3, h4⟩ := List.map_eq_cons_iff.mp h2
      cases h3
      exact ⟨w1, w3, rfl, by rw [h1]⟩

theorem delivered_split {pre : Ev} {d : List Pub} {w : List Wire} {e1 e2 : List Ev} {p : Pub} (hp : ∀ y, pre ≠ .delivered y)
    (h : pre :: (d.map Ev.delivered ++ w.map Ev.answer) = e1 ++ .delivered p :: e2) :
    ∃ d1 d2, d = d1 ++ p :: d2 ∧ e1 = pre :: d1.map Ev.delivered := by
  cases e1 with
  | nil => simp at h; exact absurd h.1 (hp p)
  | cons y e1 =>
    simp only [List.cons_append, List.cons.injEq] at h
    obtain ⟨rfl, h⟩ := h
    rcases split_append h with ⟨k, hk⟩ | ⟨e3, hk, rfl⟩
    · obtain ⟨d1, d2, rfl, h1, h2⟩ := List.map_eq_append_iff.mp hk
      obtain ⟨x', d3, rfl, h3, h4⟩ := List.map_eq_cons_iff.mp h2
      cases h3
      exact ⟨d1, d3, rfl, by rw [h1]⟩
    · have : Ev.delivered p ∈ w.map Ev.answer := by rw [hk]; simp
      simp at this

/-- Deliveries and answers in the events of an operation. -/
theorem events_cases (op : Op) (o : Out) :
    (∃ pre, events op o = pre :: (o.delivered.map Ev.delivered ++ o.sent.map Ev.answer) ∧
      ((∃ now p v tx, op = .publish now p v tx ∧ pre = .got p v) ∨ ∃ a v5 tx, op = .ack a v5 tx ∧ pre = .acked a)) ∨
    ((∀ p, .delivered p ∉ events op o) ∧ (∀ w, .answer w ∉ events op o) ∧ (∀ now p v tx, op ≠ .publish now p v tx) ∧ ∀ a v5 tx, op ≠ .ack a v5 tx) := by
  cases op with
  | publish now p v tx => exact .inl ⟨_, rfl, .inl ⟨now, p, v, tx, rfl, rfl⟩⟩
  | ack a v5 tx => exact .inl ⟨_, rfl, .inr ⟨a, v5, tx, rfl, rfl⟩⟩
  | init m r t g c => right; cases c <;> simp [events]
  | _ => right; simp [events]

theorem Hist.step {h : List Ev} {s s' : Session} {op : Op} {o : Out} (hi : Inv s) (hv : Valid s.broker op) (he : step s op = some (s', o))
    (H : Hist h s) : Hist (h ++ events op o) s' := by
  obtain ⟨s1, o1, he1, hi1, _, hr⟩ : ∃ s1 o1, Session.step s op = some (s1, o1) ∧ Inv s1 ∧ s1.broker = s.broker ∧
      RecvStep s.fromRemote op o1 s1.fromRemote := by
    rcases step_inv s op hi hv with ⟨_, hn⟩ | hx
    · rw [he] at hn; cases hn
    · exact hx
  rw [he] at he1
  simp only [Option.some.injEq, Prod.mk.injEq] at he1
  obtain ⟨rfl, rfl⟩ := he1
  generalize hl' : s'.fromRemote = l' at hr
  -- QoS 1
  have hq1 : AtEach Qos1Delivered (h ++ events op o) := by
    refine atEach_append H.qos1 fun e1 x e2 hs => ?_
    cases x with
    | answer w =>
      cases w with
      | ack c =>
        intro hk hr0
        rcases events_cases op o with ⟨pre, hev, hc⟩ | ⟨_, ha, _⟩
        · rw [hev] at hs
          rcases hc with ⟨now, p, v, tx, rfl, rfl⟩ | ⟨a, v5, tx, rfl, rfl⟩
          · obtain ⟨w1, w2, hw, rfl⟩ := answer_split (by simp) hs
            obtain ⟨b, hb, hid, hres, hqk⟩ := publish_answers s s' now p v tx o he (.ack c) (by rw [hw]; simp)
            cases hb
            have hq : p.qos = 1 := by
              rcases hqk with h | h
              · exact h.1
              · rw [hk] at h; cases h.2
            have hva : v = .accept := by
              rcases hres with h | h
              · exact h.1
              · rw [hr0] at h; exact absurd h hv.2.2
            subst hva
            cases hr with
            | thin _ _ _ h4 _ _ =>
              rcases h4 now p tx rfl with ⟨h0, _⟩ | ⟨h0, _⟩ <;> omega
            | one _ hd _ _ =>
              refine ⟨h, p, _, _, by rw [hd]; rfl, fresh_same now p false, hq, hid.symm, ?_⟩
              intro e he
              rcases List.mem_append.mp he with he | he
              · obtain ⟨q, _, rfl⟩ := List.mem_map.mp he; exact .inl ⟨q, rfl⟩
              · obtain ⟨q, _, rfl⟩ := List.mem_map.mp he; exact .inr ⟨q, rfl⟩
            | store h0 => omega
          · obtain ⟨w1, w2, hw, rfl⟩ := answer_split (by simp) hs
            obtain ⟨b, hb, hid, hkk⟩ := ack_answers s s' a v5 tx o he (.ack c) (by rw [hw]; simp)
            cases hb
            rw [hk] at hkk
            rcases hkk with ⟨_, h⟩ | ⟨_, h⟩ <;> cases h
        · exact absurd (by rw [hs]; simp) (ha (.ack c))
      | _ => trivial
    | _ => trivial
  have hthinned : ∀ l', Thinned s.fromRemote l' → s'.fromRemote = l' → (∀ id, NoDelivery id (events op o)) →
      (∀ p ∈ s'.fromRemote, p.qos = 2 → p.pubrel = false → Open (h ++ events op o) p) ∧
      (∀ p ∈ s'.fromRemote, p.qos = 2 → p.pubrel = true → Done (h ++ events op o) p) := by
    intro l' ht e hq
    subst e
    refine ⟨fun p hp h2 h3 => ?_, fun p hp h2 h3 => ?_⟩
    · obtain ⟨q, hq', e⟩ := ht.mem p hp
      obtain ⟨_, e2, _, _, _, _, e7, _⟩ := core_fields e
      exact ((H.opened q hq' (e2 ▸ h2) (e7 ▸ h3)).core e).append (hq _)
    · obtain ⟨q, hq', e⟩ := ht.mem p hp
      obtain ⟨_, e2, _, _, _, _, e7, _⟩ := core_fields e
      exact ((H.done q hq' (e2 ▸ h2) (e7 ▸ h3)).core e).append (hq _)
  -- nothing of QoS 2 is delivered
  have honce : (∀ p ∈ o.delivered, p.qos ≠ 2) → AtEach Qos2Once (h ++ events op o) := by
    intro hd
    refine atEach_append H.once fun e1 x e2 hs => ?_
    cases x with
    | delivered p =>
      intro hq
      rcases events_cases op o with ⟨pre, hev, hc⟩ | ⟨ha, _⟩
      · rw [hev] at hs
        obtain ⟨d1, d2, hdd, _⟩ := delivered_split (by rcases hc with ⟨_, _, _, _, _, rfl⟩ | ⟨_, _, _, _, rfl⟩ <;> simp) hs
        exact absurd hq (hd p (by rw [hdd]; simp))
      · exact absurd (by rw [hs]; simp) (ha p)
    | _ => trivial
  -- no PUBCOMP
  have hcomp : (∀ a v5 tx, op = .ack a v5 tx → a.kind ≠ .pubrel) → AtEach Qos2Complete (h ++ events op o) := by
    intro hop
    refine atEach_append H.complete fun e1 x e2 hs => ?_
    cases x with
    | answer w =>
      cases w with
      | ack c =>
        intro hk hr0
        rcases events_cases op o with ⟨pre, hev, hc⟩ | ⟨_, ha, _⟩
        · rw [hev] at hs
          rcases hc with ⟨now, p, v, tx, rfl, rfl⟩ | ⟨a, v5, tx, rfl, rfl⟩
          · obtain ⟨w1, w2, hw, rfl⟩ := answer_split (by simp) hs
            obtain ⟨b, hb, hid, hres, hqk⟩ := publish_answers s s' now p v tx o he (.ack c) (by rw [hw]; simp)
            cases hb
            rw [hk] at hqk
            rcases hqk with ⟨_, h⟩ | ⟨_, h⟩ <;> cases h
          · obtain ⟨w1, w2, hw, rfl⟩ := answer_split (by simp) hs
            obtain ⟨b, hb, hid, hkk⟩ := ack_answers s s' a v5 tx o he (.ack c) (by rw [hw]; simp)
            cases hb
            rcases hkk with ⟨_, h⟩ | ⟨h, _⟩
            · rw [hk] at h; cases h
            · exact absurd h (hop a v5 tx rfl)
        · exact absurd (by rw [hs]; simp) (ha (.ack c))
      | _ => trivial
    | _ => trivial
  cases hr with
  | thin h1 h2 h3 h4 h5 h6 =>
    have hd : ∀ p ∈ o.delivered, p.qos ≠ 2 := fun p hp => by
      rcases h1 p hp with h | h <;> omega
    obtain ⟨a, b⟩ := hthinned _ h2 hl' (fun id => events_quiet op o hd h6 id)
    exact ⟨a, b, honce hd, hcomp h3, hq1⟩
  | @one now p tx _ _ rest hq hdl hrest ht =>
    have hd : ∀ q ∈ o.delivered, q.qos ≠ 2 := fun q hq' => by
      rw [hdl] at hq'
      rcases List.mem_cons.mp hq' with rfl | hq'
      · show p.qos ≠ 2; omega
      · have := (hrest q hq').1; omega
    have hquiet := fun id => events_quiet (.publish now p .accept tx) o hd (by intros; intro h; cases h) id
    subst hl'
    have hmem : ∀ q ∈ s'.fromRemote, q.qos = 2 → ∃ r ∈ s.fromRemote, r.core = q.core := by
      intro q hq' h2
      obtain ⟨r, hr, e⟩ := ht.mem q hq'
      rcases (mem_insertOrdered _ _ _).mp hr with rfl | hr
      · have := (core_fields e).2.1
        have h3 : p.qos = q.qos := this
        omega
      · exact ⟨r, hr, e⟩
    refine ⟨fun q hq' h2 h3 => ?_, fun q hq' h2 h3 => ?_, honce hd, hcomp (by intros; contradiction), hq1⟩
    · obtain ⟨r, hr, e⟩ := hmem q hq' h2
      obtain ⟨_, e2, _, _, _, _, e7, _⟩ := core_fields e
      exact ((H.opened r hr (e2 ▸ h2) (e7 ▸ h3)).core e).append (hquiet _)
    · obtain ⟨r, hr, e⟩ := hmem q hq' h2
      obtain ⟨_, e2, _, _, _, _, e7, _⟩ := core_fields e
      exact ((H.done r hr (e2 ▸ h2) (e7 ▸ h3)).core e).append (hquiet _)
  | @store now p tx _ hq hno hdl hsent =>
    have hd : ∀ q ∈ o.delivered, q.qos ≠ 2 := by rw [hdl]; simp
    have hquiet := fun id => events_quiet (.publish now p .accept tx) o hd (by intros; intro h; cases h) id
    have htail : ∀ id, NoDelivery id (o.delivered.map Ev.delivered ++ o.sent.map Ev.answer) := fun id =>
      ⟨fun q hq' => (hquiet id).1 q (List.mem_cons_of_mem _ hq'), fun hc => (hquiet id).2 (List.mem_cons_of_mem _ hc)⟩
    refine ⟨fun q hq' h2 h3 => ?_, fun q hq' h2 h3 => ?_, honce hd, hcomp (by intros; contradiction), hq1⟩
    · rw [hl'] at hq'
      rcases (mem_insertOrdered _ _ _).mp hq' with rfl | hq'
      · exact ⟨h, p, _, rfl, fresh_same now p true, htail _⟩
      · exact (H.opened q hq' h2 h3).append (hquiet _)
    · rw [hl'] at hq'
      rcases (mem_insertOrdered _ _ _).mp hq' with rfl | hq'
      · cases h3
      · exact (H.done q hq' h2 h3).append (hquiet _)
  | @rel a v5 tx _ _ hk hdl hl hans =>
    have hent : ∀ q ∈ s'.fromRemote, ∃ p ∈ s.fromRemote, SameMessage p q ∧ q.pubrel = (p.pubrel || is2 a.id p) := by
      intro q hq
      rw [hl'] at hq
      rcases hl with rfl | rfl
      · obtain ⟨p, hp, rfl⟩ := List.mem_map.mp hq
        exact ⟨p, hp, relOn_same _ _, (relOn_fields _ _).2.2.2.2.2.2.2⟩
      · obtain ⟨p1, hp1, rfl⟩ := List.mem_map.mp hq
        obtain ⟨p, hp, rfl⟩ := List.mem_map.mp hp1
        exact ⟨p, hp, same_trans (relOn_same _ _) (compOn_same _ _),
          (compOn_fields _ _).2.2.2.2.2.1.trans (relOn_fields _ _).2.2.2.2.2.2.2⟩
    have hnodel : ∀ (pre : Ev) (w : List Wire) (id : BitVec 16), (∀ y, pre ≠ .delivered y) → pre ≠ .cleaned →
        (∀ p ∈ o.delivered, p.id ≠ id) → NoDelivery id (pre :: (o.delivered.map Ev.delivered ++ w.map Ev.answer)) := by
      intro pre w id h1 h2 h3
      constructor
      · intro p hp _
        simp only [List.mem_cons, List.mem_append, List.mem_map] at hp
        rcases hp with hp | ⟨q, hq, e⟩ | ⟨q, hq, e⟩
        · exact absurd hp.symm (h1 p)
        · cases e; exact h3 _ hq
        · cases e
      · intro hp
        simp only [List.mem_cons, List.mem_append, List.mem_map] at hp
        rcases hp with hp | ⟨q, hq, e⟩ | ⟨q, hq, e⟩
        · exact h2 hp.symm
        · cases e
        · cases e
    have hanswers : ∀ w id, NoDelivery id (List.map Ev.answer w) := by
      intro w id
      exact ⟨by intro p hp; simp at hp, by simp⟩
    have hsplit : ∀ p ∈ s.fromRemote, is2 a.id p = true → Open h p → o.delivered = [p] → ∀ w,
        Done (h ++ .acked a :: (o.delivered.map Ev.delivered ++ List.map Ev.answer w)) p := by
      intro p hp h2 ho hd w
      obtain ⟨x, r, b, rfl, h3, h4⟩ := ho
      refine ⟨x, r, b ++ [.acked a], p, w.map Ev.answer, by rw [hd]; simp, h3, h3, noDelivery_append h4 ⟨?_, ?_⟩, hanswers _ _⟩
      · intro q hq; simp at hq
      · simp
    have hev : events (.ack a v5 tx) o = .acked a :: (o.delivered.map Ev.delivered ++ o.sent.map Ev.answer) := rfl
    have hall : ∀ w, (∀ p ∈ s.fromRemote, p.qos = 2 → p.pubrel = true ∨ is2 a.id p = true →
        Done (h ++ .acked a :: (o.delivered.map Ev.delivered ++ List.map Ev.answer w)) p) := by
      intro w p hp h2 h3
      by_cases hr : p.pubrel = true
      · refine (H.done p hp h2 hr).append (hnodel _ _ _ (by simp) (by simp) ?_)
        intro q hq e
        rw [hdl] at hq
        obtain ⟨hq1, hq2⟩ := List.mem_filter.mp hq
        simp only [Bool.and_eq_true, Bool.not_eq_true'] at hq2
        rcases released_cases s.fromRemote hi.recv a.id with hz | ⟨p0, hp0, hz1, hz2, hz3, hz4⟩
        · rw [hz] at hq; simp at hq
        · have e1 := hz4 q hq1 hq2.1
          have : is2 a.id p = true := (is2_iff _ _).mpr ⟨by rw [← e, ((is2_iff _ _).mp hq2.1).1], h2⟩
          have e2 := hz4 p hp this
          rw [e2, ← e1] at hr
          rw [hr] at hq2; exact absurd hq2.2 (by simp)
      · have hr : p.pubrel = false := by simpa using hr
        have h2' : is2 a.id p = true := by
          rcases h3 with h3 | h3
          · rw [hr] at h3; contradiction
          · exact h3
        have hd : o.delivered = [p] := by
          rw [hdl]
          rcases released_cases s.fromRemote hi.recv a.id with hz | ⟨p0, hp0, hz1, hz2, hz3, hz4⟩
          · have : p ∈ s.fromRemote.filter (fun p => is2 a.id p && !p.pubrel) := List.mem_filter.mpr ⟨hp, by simp [h2', hr]⟩
            rw [hz] at this; simp at this
          · rw [hz3, hz4 p hp h2']
        exact hsplit p hp h2' (H.opened p hp h2 hr) hd w
    refine ⟨fun q hq h2 h3 => ?_, fun q hq h2 h3 => ?_, ?_, ?_, hq1⟩
    · obtain ⟨p, hp, hs, hpr⟩ := hent q hq
      rw [h3] at hpr
      have hpr := Bool.or_eq_false_iff.mp hpr.symm
      have hp2 : p.qos = 2 := hs.qos ▸ h2
      refine Open.same hs ((H.opened p hp hp2 hpr.1).append ?_)
      refine hnodel _ _ _ (by simp) (by simp) ?_
      intro r hr e
      rw [hdl] at hr
      obtain ⟨_, hr2⟩ := List.mem_filter.mp hr
      simp only [Bool.and_eq_true] at hr2
      have : is2 a.id p = true := (is2_iff _ _).mpr ⟨by rw [← e, ((is2_iff _ _).mp hr2.1).1], hp2⟩
      rw [hpr.2] at this; contradiction
    · obtain ⟨p, hp, hs, hpr⟩ := hent q hq
      rw [h3] at hpr
      have hpr := Bool.or_eq_true_iff.mp hpr.symm
      exact Done.same hs (hall o.sent p hp (hs.qos ▸ h2) hpr)
    · refine atEach_append H.once fun e1 x e2 hs => ?_
      cases x with
      | delivered p =>
        intro hq
        rw [hev] at hs
        obtain ⟨d1, d2, hdd, rfl⟩ := delivered_split (by simp) hs
        rcases released_cases s.fromRemote hi.recv a.id with hz | ⟨p0, hp0, hz1, hz2, hz3, hz4⟩
        · rw [hdl, hz] at hdd; simp at hdd
        · rw [hdl, hz3] at hdd
          have : d1 = [] ∧ p = p0 := by
            cases d1 with
            | nil => simp at hdd; exact ⟨rfl, hdd.1.symm⟩
            | cons y d1 => simp at hdd
          obtain ⟨rfl, rfl⟩ := this
          obtain ⟨x, r, b, rfl, h3, h4⟩ := H.opened p hp0 hq hz2
          exact ⟨x, r, b, a, by simp, h3, h4, hk, ((is2_iff _ _).mp hz1).1.symm⟩
      | _ => trivial
    · refine atEach_append H.complete fun e1 x e2 hs => ?_
      cases x with
      | answer w =>
        cases w with
        | ack c =>
          intro hkc hr0
          rw [hev] at hs
          obtain ⟨w1, w2, hw, rfl⟩ := answer_split (by simp) hs
          obtain ⟨_, hcid, hex⟩ := hans c (by rw [hw]; simp)
          obtain ⟨p, hp, h2⟩ := hex hr0
          obtain ⟨hpid, hpq⟩ := (is2_iff _ _).mp h2
          obtain ⟨x, r, b, q, d, h3, h4, h5, h6, h7⟩ := hall w1 p hp hpq (.inr h2)
          have e : p.id = c.id := hpid.trans hcid.symm
          exact ⟨x, r, b, q, d, h3, h5, h4.qos ▸ hpq, by rw [← h4.id, e], e ▸ h6, e ▸ h7⟩
        | _ => trivial
      | _ => trivial
  | clean hdl =>
    have hd : ∀ q ∈ o.delivered, q.qos ≠ 2 := by rw [hdl]; simp
    refine ⟨?_, ?_, honce hd, hcomp (by intros; contradiction), hq1⟩
    · rw [hl']; simp
    · rw [hl']; simp

theorem hist_nil (b : Bool) : Hist [] { broker := b } :=
  ⟨by simp, by simp, atEach_nil _, atEach_nil _, atEach_nil _⟩

theorem run_hist (b : Bool) (ops : List Op) (hv : ∀ op ∈ ops, Valid b op) (s' : Session) (outs : List Out)
    (hr : run { broker := b } ops = some (s', outs)) : Hist (trace ops outs) s' ∧ Inv s' ∧ s'.broker = b := by
  have := run_inv Hist (fun h s op s' o hi hv he H => H.step hi hv he) ops { broker := b } [] (inv_init b) hv (hist_nil b) s' outs hr
  simpa using this

/-! ## Properties -/

/-- **C66** In every history of a session, each delivery of a message of QoS 2 is the answer to a PUBREL, for a PUBLISH with the same
content which was received and accepted before; since that PUBLISH nothing with the same identifier was delivered. A PUBLISH
which is sent again, before or after the PUBREL, is not delivered again. -/
theorem qos2_once_per_receipt (b : Bool) (ops : List Op) (hv : ∀ op ∈ ops, Valid b op) (s' : Session) (outs : List Out)
    (hr : run { broker := b } ops = some (s', outs)) : AtEach Qos2Once (trace ops outs) :=
  (run_hist b ops hv s' outs hr).1.once

/-- **C66** When the PUBCOMP with reason 0 is sent, the message is delivered, and delivered once. -/
theorem qos2_complete_delivered (b : Bool) (ops : List Op) (hv : ∀ op ∈ ops, Valid b op) (s' : Session) (outs : List Out)
    (hr : run { broker := b } ops = some (s', outs)) : AtEach Qos2Complete (trace ops outs) :=
  (run_hist b ops hv s' outs hr).1.complete

/-- **C67** When the PUBACK with reason 0 is sent, the message has been delivered. -/
theorem qos1_delivered_before_puback (b : Bool) (ops : List Op) (hv : ∀ op ∈ ops, Valid b op) (s' : Session) (outs : List Out)
    (hr : run { broker := b } ops = some (s', outs)) : AtEach Qos1Delivered (trace ops outs) :=
  (run_hist b ops hv s' outs hr).1.qos1

theorem deliveries_append (k : Nat) (a b : List Ev) : deliveries k (a ++ b) = deliveries k a + deliveries k b := by
  induction a with
  | nil => simp [deliveries]
  | cons e a ih => cases e <;> simp [deliveries, ih] <;> omega

theorem gotKeys_append (a b : List Ev) : gotKeys (a ++ b) = gotKeys a ++ gotKeys b := by
  induction a with
  | nil => rfl
  | cons e a ih => cases e <;> simp [gotKeys, ih]

theorem deliveries_pos (k : Nat) (h : List Ev) (hp : 0 < deliveries k h) :
    ∃ a p b, h = a ++ .delivered p :: b ∧ p.qos = 2 ∧ p.key = k ∧ deliveries k a = 0 := by
  induction h with
  | nil => simp [deliveries] at hp
  | cons e h ih =>
    by_cases he : ∃ p, e = .delivered p ∧ p.qos = 2 ∧ p.key = k
    · obtain ⟨p, rfl, h1, h2⟩ := he
      exact ⟨[], p, h, rfl, h1, h2, rfl⟩
    · have hz : deliveries k (e :: h) = deliveries k h := by
        cases e with
        | delivered p => simp only [deliveries]; rw [if_neg (fun hc => he ⟨p, rfl, hc⟩), Nat.zero_add]
        | _ => rfl
      rw [hz] at hp
      obtain ⟨a, p, b, rfl, h1, h2, h3⟩ := ih hp
      refine ⟨e :: a, p, b, rfl, h1, h2, ?_⟩
      cases e with
      | delivered q => simp only [deliveries]; rw [if_neg (fun hc => he ⟨q, rfl, hc⟩), h3]
      | _ => exact h3

/-- The same key is received once only. -/
theorem got_unique {a b x y : List Ev} {r q : Pub} {v w : Verdict} (hk : r.key = q.key) (h : a ++ .got r v :: x = b ++ .got q w :: y)
    (hn : (gotKeys (a ++ .got r v :: x)).Nodup) : a = b ∧ x = y ∧ r = q := by
  induction a generalizing b with
  | nil =>
    cases b with
    | nil => simp at h; exact ⟨rfl, h.2, h.1.1⟩
    | cons e b =>
      simp only [List.nil_append, List.cons_append, List.cons.injEq] at h
      obtain ⟨rfl, rfl⟩ := h
      simp [gotKeys, gotKeys_append, hk] at hn
  | cons e a ih =>
    cases b with
    | nil =>
      simp only [List.nil_append, List.cons_append, List.cons.injEq] at h
      obtain ⟨rfl, rfl⟩ := h
      simp [gotKeys, gotKeys_append, hk] at hn
    | cons f b =>
      simp only [List.cons_append, List.cons.injEq] at h
      obtain ⟨rfl, h⟩ := h
      have hn' : (gotKeys (a ++ .got r v :: x)).Nodup := by
        cases e <;> simp only [List.cons_append, gotKeys, List.nodup_cons] at hn <;> first | exact hn.2 | exact hn
      obtain ⟨h1, h2, h3⟩ := ih h hn'
      exact ⟨by rw [h1], h2, h3⟩

/-- **C66** No PUBLISH of QoS 2 which is received is delivered more than once. -/
theorem qos2_at_most_once (b : Bool) (ops : List Op) (hv : ∀ op ∈ ops, Valid b op) (s' : Session) (outs : List Out)
    (hr : run { broker := b } ops = some (s', outs)) (hk : (gotKeys (trace ops outs)).Nodup) (k : Nat) :
    deliveries k (trace ops outs) ≤ 1 := by
  have hq := qos2_once_per_receipt b ops hv s' outs hr
  generalize trace ops outs = h at hq hk
  by_cases hle : deliveries k h ≤ 1
  · exact hle
  exfalso
  obtain ⟨a, p, c, rfl, hp1, hp2, hp3⟩ := deliveries_pos k h (by omega)
  have hc : 0 < deliveries k c := by
    rw [deliveries_append, hp3] at hle
    simp only [deliveries, hp1, hp2] at hle
    simp at hle
    exact hle
  obtain ⟨d, q, e, rfl, hq1, hq2, hq3⟩ := deliveries_pos k c hc
  obtain ⟨a1, r1, b1, l1, h1, hs1, hn1, _⟩ := hq a (.delivered p) _ rfl hp1
  obtain ⟨a2, r2, b2, l2, h2, hs2, hn2, _⟩ := hq (a ++ .delivered p :: d) (.delivered q) e (by simp) hq1
  rw [h1] at h2
  have hn : (gotKeys (a1 ++ .got r1 .accept :: ((b1 ++ [.acked l1]) ++ .delivered p :: d))).Nodup := by
    have := hk
    rw [h1] at this
    rw [show a1 ++ Ev.got r1 .accept :: (b1 ++ [.acked l1]) ++ Ev.delivered p :: (d ++ Ev.delivered q :: e) =
      (a1 ++ .got r1 .accept :: ((b1 ++ [.acked l1]) ++ .delivered p :: d)) ++ Ev.delivered q :: e from by simp, gotKeys_append] at this
    exact (List.nodup_append.mp this).1
  have h2' : a1 ++ .got r1 .accept :: ((b1 ++ [.acked l1]) ++ .delivered p :: d) = a2 ++ .got r2 .accept :: (b2 ++ [.acked l2]) := by
    rw [← h2]; simp
  have hkey : r1.key = r2.key := by rw [← hs1.key, ← hs2.key, hp2, hq2]
  obtain ⟨_, e2, e3⟩ := got_unique hkey h2' hn
  have hm : Ev.delivered p ∈ b2 := by
    have : Ev.delivered p ∈ b2 ++ [Ev.acked l2] := by rw [← e2]; simp
    rcases List.mem_append.mp this with h | h
    · exact h
    · simp at h
  exact hn2.1 p hm hp1 (by rw [hs1.id, hs2.id, e3])

/-- A message of QoS 2 which is stored and not released stays until it is released or the session is cleaned. -/
theorem hold_step {l l' : List Pub} {op : Op} {o : Out} (hr : RecvStep l op o l') (ok : RecvOk l) (p : Pub) (hp : p ∈ l) (hq : p.qos = 2) (hn : p.pubrel = false)
    (h1 : ∀ m r t g, op ≠ .init m r t g true) (h2 : ∀ a v5 tx, op = .ack a v5 tx → a.kind = .pubrel → a.id ≠ p.id) :
    ∃ q ∈ l', SameMessage p q ∧ q.pubrel = false := by
  have hnc : ∀ r : Pub, r.core = p.core → r ∈ l → r.complete = false := by
    intro r hr hm
    obtain ⟨_, e2, _, _, _, _, e7, _⟩ := core_fields hr
    have : r.pubcomp = false := by
      by_cases hc : r.pubcomp = true
      · have := (ok.pubcomp r hm hc).1; rw [e7, hn] at this; contradiction
      · simpa using hc
    simp [Pub.complete, e2, hq, this]
  have hsame : SameMessage p p := ⟨rfl, rfl, rfl, rfl, rfl, rfl, rfl, rfl, rfl⟩
  cases hr with
  | thin _ ht _ _ _ _ =>
    rcases ht.mem_old p hp with hc | ⟨q, hq', e⟩
    · rw [hnc p rfl hp] at hc; contradiction
    · exact ⟨q, hq', core_same e hsame, by rw [← (core_fields e).2.2.2.2.2.2.1]; exact hn⟩
  | one _ _ _ ht =>
    rcases ht.mem_old p ((mem_insertOrdered _ _ _).mpr (.inr hp)) with hc | ⟨q, hq', e⟩
    · rw [hnc p rfl hp] at hc; contradiction
    · exact ⟨q, hq', core_same e hsame, by rw [← (core_fields e).2.2.2.2.2.2.1]; exact hn⟩
  | store => exact ⟨p, (mem_insertOrdered _ _ _).mpr (.inr hp), hsame, hn⟩
  | @rel a v5 tx _ _ hk _ hl _ =>
    have hne := h2 a v5 tx rfl hk
    have hr : relOn a.id p = p := by unfold relOn; rw [if_neg]; rw [is2_iff]; exact fun h => hne h.1.symm
    have hc : compOn a.id p = p := by unfold compOn; rw [if_neg]; rw [Bool.and_eq_true, is2_iff]; exact fun h => hne h.1.1.symm
    rcases hl with rfl | rfl
    · exact ⟨p, List.mem_map.mpr ⟨p, hp, hr⟩, hsame, hn⟩
    · exact ⟨p, List.mem_map.mpr ⟨p, List.mem_map.mpr ⟨p, hp, hr⟩, hc⟩, hsame, hn⟩
  | clean => exact absurd rfl (h1 _ _ _ _)

theorem hold_run : ∀ (ops : List Op) (s s' : Session) (outs : List Out), Inv s → (∀ op ∈ ops, Valid s.broker op) → run s ops = some (s', outs) →
    ∀ p ∈ s.fromRemote, p.qos = 2 → p.pubrel = false → (∀ m r t g, .init m r t g true ∉ ops) →
    (∀ a v5 tx, .ack a v5 tx ∈ ops → a.kind = .pubrel → a.id ≠ p.id) → ∃ q ∈ s'.fromRemote, SameMessage p q ∧ q.pubrel = false := by
  intro ops
  induction ops with
  | nil =>
    intro s s' outs _ _ hr p hp hq hn _ _
    simp only [run, Option.some.injEq, Prod.mk.injEq] at hr
    obtain ⟨rfl, rfl⟩ := hr
    exact ⟨p, hp, ⟨rfl, rfl, rfl, rfl, rfl, rfl, rfl, rfl, rfl⟩, hn⟩
  | cons op ops ih =>
    intro s s' outs hi hv hr p hp hq hn h1 h2
    rw [run] at hr
    rcases step_inv s op hi (hv op List.mem_cons_self) with ⟨_, he⟩ | ⟨s1, o, he, hi1, hb, hrs⟩
    · rw [he] at hr; cases hr
    · rw [he] at hr
      dsimp only at hr
      cases hr2 : run s1 ops with
      | none => rw [hr2] at hr; cases hr
      | some x =>
        obtain ⟨s2, outs2⟩ := x
        rw [hr2] at hr
        simp only [Option.map_some, Option.some.injEq, Prod.mk.injEq] at hr
        obtain ⟨rfl, rfl⟩ := hr
        obtain ⟨q, hq', hs, hqn⟩ := hold_step hrs hi.recv p hp hq hn (fun m r t g e => h1 m r t g (by simp [e]))
          (fun a v5 tx e => h2 a v5 tx (by simp [e]))
        obtain ⟨q2, hq2, hs2, hn2⟩ := ih s1 s2 outs2 hi1 (by rw [hb]; exact fun q hq => hv q (List.mem_cons_of_mem _ hq)) hr2 q hq'
          (hs.qos.trans hq) hqn (fun m r t g e => h1 m r t g (List.mem_cons_of_mem _ e))
          (fun a v5 tx e => by rw [hs.id]; exact h2 a v5 tx (List.mem_cons_of_mem _ e))
        exact ⟨q2, hq2, same_trans hs hs2, hn2⟩

theorem run_append : ∀ (l m : List Op) (s s' : Session) (outs : List Out), run s (l ++ m) = some (s', outs) →
    ∃ s1 o1 o2, run s l = some (s1, o1) ∧ run s1 m = some (s', o2) ∧ outs = o1 ++ o2 := by
  intro l
  induction l with
  | nil => intro m s s' outs h; exact ⟨s, [], outs, rfl, h, rfl⟩
  | cons op l ih =>
    intro m s s' outs h
    rw [List.cons_append, run] at h
    cases hs : step s op with
    | none => rw [hs] at h; cases h
    | some x =>
      obtain ⟨s1, o⟩ := x
      rw [hs] at h
      dsimp only at h
      cases hr2 : run s1 (l ++ m) with
      | none => rw [hr2] at h; cases h
      | some y =>
        obtain ⟨s2, outs2⟩ := y
        rw [hr2] at h
        simp only [Option.map_some, Option.some.injEq, Prod.mk.injEq] at h
        obtain ⟨rfl, rfl⟩ := h
        obtain ⟨s3, o1, o2, h1, h2, h3⟩ := ih m s1 s2 outs2 hr2
        exact ⟨s3, o :: o1, o2, by rw [run, hs]; dsimp only; rw [h1]; rfl, h2, by rw [h3]; rfl⟩

/-- **C66** A message of QoS 2 which is accepted when no exchange with its identifier is open is delivered by the first PUBREL with its
identifier, whatever happens in between, also reconnections which do not clean the session. -/
theorem qos2_delivered_on_release (s : Session) (hi : Inv s) (now : Nat) (p : Pub) (tx : Bool) (mid : List Op) (a : Ack) (v5 tx' : Bool)
    (hv : ∀ op ∈ .publish now p .accept tx :: (mid ++ [.ack a v5 tx']), Valid s.broker op)
    (hq : p.qos = 2) (hfree : ∀ q ∈ s.fromRemote, q.id ≠ p.id) (ha : a.kind = .pubrel) (hid : a.id = p.id)
    (hclean : ∀ m r t g, .init m r t g true ∉ mid) (hrel : ∀ b v5 tx, .ack b v5 tx ∈ mid → b.kind = .pubrel → b.id ≠ p.id)
    (s' : Session) (outs : List Out) (hr : run s (.publish now p .accept tx :: (mid ++ [.ack a v5 tx'])) = some (s', outs)) :
    ∃ outs' last x, outs = outs' ++ [last] ∧ last.delivered = [x] ∧ SameMessage p x := by
  rw [run] at hr
  rcases step_inv s (.publish now p .accept tx) hi (hv _ List.mem_cons_self) with ⟨⟨_, _, _, e, _⟩, _⟩ | ⟨s1, o, he, hi1, hb, hrs⟩
  · cases e
  rw [he] at hr
  dsimp only at hr
  cases hr2 : run s1 (mid ++ [.ack a v5 tx']) with
  | none => rw [hr2] at hr; cases hr
  | some y =>
    obtain ⟨s2, outs2⟩ := y
    rw [hr2] at hr
    simp only [Option.map_some, Option.some.injEq, Prod.mk.injEq] at hr
    obtain ⟨rfl, rfl⟩ := hr
    obtain ⟨s3, o1, o2, h1, h2, h3⟩ := run_append _ _ _ _ _ hr2
    have hstored : ∃ q ∈ s1.fromRemote, SameMessage p q ∧ q.pubrel = false := by
      generalize hl : s1.fromRemote = l' at hrs
      cases hrs with
      | thin _ _ _ h4 _ _ =>
        rcases h4 now p tx rfl with ⟨h0, _⟩ | ⟨_, _, q, hq', e⟩
        · omega
        · exact absurd e (hfree q hq')
      | one h0 => omega
      | store _ _ _ _ => exact ⟨_, (mem_insertOrdered _ _ _).mpr (.inl rfl), fresh_same now p true, rfl⟩
    obtain ⟨q, hqm, hqs, hqn⟩ := hstored
    have hvm : ∀ op ∈ mid, Valid s1.broker op := fun op hop => by rw [hb]; exact hv op (by simp [hop])
    obtain ⟨q2, hq2m, hq2s, hq2n⟩ := hold_run mid s1 s3 o1 hi1 hvm h1 q hqm (hqs.qos.trans hq) hqn hclean
      (fun b v5 tx hb' hk => by rw [hqs.id]; exact hrel b v5 tx hb' hk)
    obtain ⟨_, hi3, hb3⟩ := run_inv (fun _ _ => True) (fun _ _ _ _ _ _ _ _ _ => trivial) mid s1 [] hi1 hvm trivial s3 o1 h1
    have hva : Valid s3.broker (.ack a v5 tx') := by rw [hb3, hb]; exact hv _ (by simp)
    rw [run] at h2
    rcases step_inv s3 (.ack a v5 tx') hi3 hva with ⟨_, hn⟩ | ⟨s4, o4, he4, _, _, hrs4⟩
    · rw [hn] at h2; cases h2
    rw [he4] at h2
    simp only [run, Option.map_some, Option.some.injEq, Prod.mk.injEq] at h2
    obtain ⟨_, rfl⟩ := h2
    refine ⟨o :: o1, o4, q2, by rw [h3]; rfl, ?_, same_trans hqs hq2s⟩
    have h2q : is2 a.id q2 = true := (is2_iff _ _).mpr ⟨by rw [hq2s.id, hqs.id, hid], by rw [hq2s.qos, hqs.qos, hq]⟩
    cases hrs4 with
    | thin _ _ hk _ _ _ => exact absurd ha (hk a v5 tx' rfl)
    | rel _ hdl _ _ =>
      rw [hdl]
      rcases released_cases s3.fromRemote hi3.recv a.id with hz | ⟨p0, hp0, hz1, hz2, hz3, hz4⟩
      · have : q2 ∈ s3.fromRemote.filter (fun p => is2 a.id p && !p.pubrel) := List.mem_filter.mpr ⟨hq2m, by simp [h2q, hq2n]⟩
        rw [hz] at this; simp at this
      · rw [hz3, hz4 q2 hq2m h2q]

theorem run_length : ∀ (ops : List Op) (s s' : Session) (outs : List Out), run s ops = some (s', outs) → outs.length = ops.length := by
  intro ops
  induction ops with
  | nil => intro s s' outs h; simp [run] at h; simp [← h.2]
  | cons op ops ih =>
    intro s s' outs h
    rw [run] at h
    split at h
    · cases h
    · next s1 o he =>
      cases hr2 : run s1 ops with
      | none => rw [hr2] at h; cases h
      | some y =>
        obtain ⟨s2, outs2⟩ := y
        rw [hr2] at h
        simp only [Option.map_some, Option.some.injEq, Prod.mk.injEq] at h
        rw [← h.2, List.length_cons, ih s1 s2 outs2 hr2, List.length_cons]

theorem trace_append : ∀ (l : List Op) (o : List Out) (m : List Op) (o' : List Out), o.length = l.length →
    trace (l ++ m) (o ++ o') = trace l o ++ trace m o' := by
  intro l
  induction l with
  | nil => intro o m o' h; have : o = [] := by simpa using h
           subst this; rfl
  | cons op l ih =>
    intro o m o' h
    cases o with
    | nil => simp at h
    | cons r o => simp only [List.cons_append, trace]; rw [ih o m o' (by simpa using h), List.append_assoc]

/-- **C66** In a history in which every PUBLISH counts as a message of its own, a message of QoS 2 which is accepted while the session
holds nothing with its identifier is delivered exactly once when the PUBREL comes.

Missing for the full property: the session may still hold the exchange before, although it is complete, see
`qos2_reused_id_lost`. -/
theorem qos2_exactly_once_partial (b : Bool) (pre mid : List Op) (now : Nat) (p : Pub) (tx : Bool) (a : Ack) (v5 tx' : Bool)
    (hv : ∀ op ∈ pre ++ .publish now p .accept tx :: (mid ++ [.ack a v5 tx']), Valid b op)
    (s : Session) (outs₀ : List Out) (hpre : run { broker := b } pre = some (s, outs₀)) (hfree : ∀ q ∈ s.fromRemote, q.id ≠ p.id)
    (hq : p.qos = 2) (ha : a.kind = .pubrel) (hid : a.id = p.id)
    (hclean : ∀ m r t g, .init m r t g true ∉ mid) (hrel : ∀ b v5 tx, .ack b v5 tx ∈ mid → b.kind = .pubrel → b.id ≠ p.id)
    (s' : Session) (outs : List Out) (hr : run { broker := b } (pre ++ .publish now p .accept tx :: (mid ++ [.ack a v5 tx'])) = some (s', outs))
    (hk : (gotKeys (trace (pre ++ .publish now p .accept tx :: (mid ++ [.ack a v5 tx'])) outs)).Nodup) :
    deliveries p.key (trace (pre ++ .publish now p .accept tx :: (mid ++ [.ack a v5 tx'])) outs) = 1 := by
  have hle := qos2_at_most_once b _ hv s' outs hr hk p.key
  obtain ⟨s1, o1, o2, h1, h2, h3⟩ := run_append _ _ _ _ _ hr
  rw [hpre] at h1
  simp only [Option.some.injEq, Prod.mk.injEq] at h1
  obtain ⟨rfl, rfl⟩ := h1
  obtain ⟨_, hi, hb⟩ := run_hist b pre (fun op h => hv op (by simp [h])) s outs₀ hpre
  obtain ⟨o3, last, x, h4, h5, h6⟩ := qos2_delivered_on_release s hi now p tx mid a v5 tx'
    (by rw [hb]; exact fun op h => hv op (List.mem_append.mpr (.inr h))) hq hfree ha hid hclean hrel s' o2 h2
  have hlen := run_length _ _ _ _ h2
  have htr : trace (pre ++ .publish now p .accept tx :: (mid ++ [.ack a v5 tx'])) outs =
      trace pre outs₀ ++ (trace (.publish now p .accept tx :: mid) o3 ++ trace [.ack a v5 tx'] [last]) := by
    rw [h3, trace_append _ _ _ _ (run_length _ _ _ _ hpre), h4, ← List.cons_append, trace_append]
    rw [h4] at hlen; simpa using hlen
  have hge : 1 ≤ deliveries p.key (trace [.ack a v5 tx'] [last]) := by
    simp only [trace, events, h5, List.map_cons, List.map_nil, List.append_nil, List.cons_append, List.nil_append, deliveries]
    rw [if_pos ⟨h6.qos.trans hq, h6.key⟩]; omega
  rw [htr, deliveries_append, deliveries_append] at hle ⊢
  omega

/-! ## Cases -/

private def m1 : Pub := { key := 1, topic := [97], payload := some [1], qos := 2, id := 7 }
private def m1dup : Pub := { key := 2, topic := [97], payload := some [1], qos := 2, id := 7, dup := true }
private def rel7 : Op := .ack { kind := .pubrel, id := 7 } false true

/-- A message, sent again twice, released twice: it is delivered once. -/
private def once : List Op :=
  [.publish 1 m1 .accept true, .publish 2 m1dup .accept true, .init 125 0 3000000 2000000 false,
   .publish 3 { m1dup with key := 3 } .accept true, rel7, rel7]

example : ∀ op ∈ once, Valid true op := by simp [once, Valid, m1, m1dup, rel7]
example : (run {} once).map (fun r => r.2.map fun o => (o.delivered.map (·.key), o.sent, o.alive)) =
    some [([], [.ack { kind := .pubrec, id := 7 }], true), ([], [.ack { kind := .pubrec, id := 7 }], true), ([], [], true),
      ([], [.ack { kind := .pubrec, id := 7 }], true), ([1], [.ack { kind := .pubcomp, id := 7 }], true),
      ([], [.ack { kind := .pubcomp, id := 7 }], true)] := by decide +kernel
example : (run {} once).map (fun r => deliveries 1 (trace once r.2)) = some 1 := by decide +kernel
example : (run {} once).map (fun r => gotKeys (trace once r.2)) = some [1, 2, 3] := by decide +kernel

/-- QoS 1: delivered, then acknowledged. -/
example : (run {} [.publish 1 { m1 with qos := 1 } .accept true]).map (fun r => r.2.map fun o => (o.delivered.map (·.key), o.sent)) =
    some [([1], [.ack { kind := .puback, id := 7 }])] := by decide +kernel

/-- The identifier is used again for another message right after the exchange, before the queue is worked on. -/
private def reuse : List Op :=
  [.publish 1 m1 .accept true, rel7, .publish 2 { key := 5, topic := [98], payload := some [9], qos := 2, id := 7, dup := true } .accept true, rel7]

/-- **C66** is violated: the exchange for a message is complete (PUBCOMP was sent), the remote uses the identifier for another message of
the same size with the DUP flag, and everything is acknowledged, but the second message is not delivered. Without the DUP flag, or with
another size, the connection is closed instead. -/
theorem qos2_reused_id_lost :
    (∀ op ∈ reuse, Valid true op) ∧
    (run {} reuse).map (fun r => r.2.map fun o => (o.delivered.map (·.key), o.sent, o.alive)) =
      some [([], [.ack { kind := .pubrec, id := 7 }], true), ([1], [.ack { kind := .pubcomp, id := 7 }], true),
        ([], [.ack { kind := .pubrec, id := 7 }], true), ([], [.ack { kind := .pubcomp, id := 7 }], true)] ∧
    (run {} reuse).map (fun r => deliveries 5 (trace reuse r.2)) = some 0 :=
  ⟨by simp [reuse, Valid, m1, rel7], by decide +kernel, by decide +kernel⟩

/-- With the queue worked on in between it is delivered. -/
example : (run {} (reuse.take 2 ++ [.pass 3 fun _ => .ok] ++ reuse.drop 2)).map (fun r => r.2.map fun o => o.delivered.map (·.key)) =
    some [[], [1], [], [], [5]] := by decide +kernel

/-- The hypotheses of `qos2_exactly_once_partial` are met. -/
example : ∃ s outs₀, run {} ([] : List Op) = some (s, outs₀) ∧ ∀ q ∈ s.fromRemote, q.id ≠ m1.id := ⟨_, _, rfl, by simp⟩

end Verif.Session
