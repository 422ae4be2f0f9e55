import Verif.Broker.MainLemmas
/-!
# What operations of the broker do

Lemmas for the theorems which say that something happens.
-/
namespace Verif.Broker
open Verif Session Spec

theorem ran_good {cfg : Config} {os : List Op} {b : Broker} {h : List Ev} (hv : ∀ o ∈ os, Spec.Valid o) (hr : Ran cfg os b h) : Good cfg b h := by
  obtain ⟨b', h', he, G⟩ := run_good cfg os hv
  rw [Ran, he] at hr
  cases hr
  exact G

/-! ## Packets -/

/-- What `Up` says about the state. -/
theorem up_conn {cfg : Config} {b : Broker} {h : List Ev} (G : Good cfg b h) {k : Nat} {c u : Bytes} (hu : Up b k c u) :
    ∃ x s, b.conn k = some x ∧ x.takenOver = false ∧ x.handle = k ∧ x.client = c ∧ x.user = u ∧ s ∈ b.sessions ∧ s.client = c ∧ ConnOk h x ∧
      u = user c h ∧ ∀ now (f : Conn → Sess → Res), withSess k now b f = f x s := by
  obtain ⟨x, s, hc, ht, rfl, rfl, hs⟩ := hu
  obtain ⟨hm, hk⟩ := conn_mem hc
  obtain ⟨r, hr, hf⟩ := Option.bind_eq_some_iff.mp hs
  obtain ⟨hs', hsr⟩ := find_mem hf
  have hco := G.base.conns x hm
  refine ⟨x, s, hc, ht, hk, rfl, rfl, hs', G.base.link x hm r hr s hs' hsr, hco, hco.user ht, fun now f => ?_⟩
  unfold withSess
  rw [hc]
  simp only [ht, hs]
  rfl

theorem clientOp_exact {cfg : Config} {b : Broker} {h : List Ev} (G : Good cfg b h) {c : Conn} {s : Sess} (hs : s ∈ b.sessions) (hsc : s.client = c.client)
    (o : Session.Op) (now : Nat) (r : UInt8) (hv : Session.Spec.Valid true o) (hp : ∀ now r tx, o = .publish now r .accept tx → ValidPub r)
    (hi : ∀ m r t g, o ≠ .init m r t g true) {b' : Broker} {es : List Ev} (he : clientOp o now r b c s = some (b', es)) :
    ∃ q out rest, Session.step s.q o = some (q, out) ∧ es = .op c.client o out (some c.handle) ::
      (distribution now (.client c.client c.user) (h ++ [.op c.client o out (some c.handle)]) out.delivered ++ rest) := by
  unfold clientOp at he
  obtain ⟨q, out, hst⟩ := (G.core hs).step o hv
  rw [hst] at he
  simp only at he
  obtain ⟨B1, W1, F1, hd⟩ := G.opBase hs (some c.handle) hst hv hp hi s.prevGrace
  obtain ⟨b2, he2, B2, W2, hq2⟩ := publishAll_base now c.client c.user out.delivered B1 W1 fun p hp => (hd p hp).1
  have hres : thenDo (some (b.put { s with q := q }, [.op s.client o out (some c.handle)])) (publishAll now (.client c.client c.user) out.delivered) =
      some (b2, [.op s.client o out (some c.handle)] ++ distribution now (.client c.client c.user) (h ++ [.op s.client o out (some c.handle)]) out.delivered) := by
    simp only [thenDo, Option.bind_some, he2, Option.map_some]
  rw [hres] at he
  unfold thenDo at he
  simp only [Option.bind_some] at he
  obtain ⟨⟨b3, e3⟩, h3, h4⟩ := Option.map_eq_some_iff.mp he
  simp only [Prod.mk.injEq] at h4
  refine ⟨q, out, e3, hst, ?_⟩
  rw [← h4.2, hsc]
  simp

/-- A message which is accepted is delivered at once if its QoS is 0 or 1. -/
theorem delivers {s s' : Session} {out : Out} {now : Nat} {p : Pub} {tx : Bool} (hi : Inv s) (hb : s.broker = true)
    (hv : Session.Spec.Valid true (.publish now p .accept tx)) (hq : p.qos ≤ 1) (hd : p.qos = 0 → p.dup = false)
    (he : Session.step s (.publish now p .accept tx) = some (s', out)) : ∃ rest, out.delivered = { received p with lastAttempt := now } :: rest := by
  obtain ⟨s1, o1, he1, hi1, _, hr⟩ : ∃ s1 o1, Session.step s (.publish now p .accept tx) = some (s1, o1) ∧ Inv s1 ∧ s1.broker = s.broker ∧
      RecvStep s.fromRemote (.publish now p .accept tx) o1 s1.fromRemote := by
    rcases step_inv s _ hi (by rw [hb]; exact hv) with ⟨_, hn⟩ | hx
    · rw [he] at hn; cases hn
    · exact hx
  rw [he] at he1
  simp only [Option.some.injEq, Prod.mk.injEq] at he1
  obtain ⟨rfl, rfl⟩ := he1
  generalize s'.fromRemote = l' at hr
  cases hr with
  | thin _ _ _ h _ _ =>
    rcases h _ _ _ rfl with ⟨h0, _, h⟩ | ⟨h2, _⟩
    · exact ⟨[], h (hd h0)⟩
    · omega
  | one _ h _ _ => exact ⟨_, h⟩
  | store h2 _ _ _ => omega

/-- A SUBSCRIBE whose answer is sent. -/
theorem subscribe_exact {cfg : Config} {b : Broker} {h : List Ev} (G : Good cfg b h) {c : Conn} {s : Sess} (hs : s ∈ b.sessions) (now : Nat)
    (subs : List Subscription.Sub) (hne : subs ≠ []) (hv : ∀ x ∈ subs, x.qos ≤ 2 → Subscription.SubOk x) :
    ∃ b' new, subscribe cfg now subs true b c s = some (b', .subscribed s.client now (allowSubs cfg c.user subs) new ::
      (retainedFor s.client now h new ++ [.suback c.handle ((allowSubs cfg c.user subs).map (·.qos))])) ∧
      new = newSubs (subscriptions s.client h) (allowSubs cfg c.user subs) := by
  have co := G.core hs
  unfold subscribe
  rw [if_neg hne, ← co.subs]
  simp only [appendCopy_eq _ _ _ co.filters, List.nil_append]
  generalize hxs : allowSubs cfg c.user subs = xs
  have hx : ∀ x ∈ xs, x.qos ≤ 2 → Subscription.SubOk x := by
    subst hxs; intro x hx hq; exact hv x (allowSubs_mem hx hq).1 hq
  by_cases hn : newSubs s.subs xs = []
  · have hfm : ∀ l : List Pub, l.flatMap (fun p => (([] : List Subscription.Sub).filter (matching p.topic)).map (retainCopy p)) = [] := fun l => by simp
    refine ⟨b.put { s with subs := (xs.filter fun x => x.qos ≤ 2).foldl addSub s.subs }, [], ?_, hn.symm⟩
    rw [if_pos hn, retainedFor_eq, hfm]
    rfl
  · rw [if_neg hn, G.base.retain, retainWalk_eq now _ (fun x hx' => hx x (newSubs_mem _ _ x hx').1 (newSubs_mem _ _ x hx').2) _ (by rw [← G.base.retain]; exact G.base.retainOk)]
    simp only [opsSess_retained, Option.map_some, thenDo, Option.bind_some, if_true]
    exact ⟨_, newSubs s.subs xs, by rw [retainedFor_eq]; rfl, rfl⟩

/-- A CONNECT which is accepted. -/
theorem connect_exact {cfg : Config} {b : Broker} {h : List Ev} (G : Good cfg b h) (k alloc now : Nat) (c : Connect) (hk : b.conn k = none) (hid : c.client ≠ [])
    (hlog : loginReason cfg c = 0) (hw : ∀ w, c.will = some w → ValidPub w.pub) :
    ∃ b' es, connect cfg k alloc now c true false b = some (b', es) ∧ Up b' k c.client c.user ∧ ∃ e0 out es2 present,
      es = e0 ++ [.op c.client (.init 125 c.receiveMax cfg.retry 2000000 c.clean) out] ++ es2 ++
        [.connected c.client c.user c.sessionExpiry c.maxPacket (c.newWill now), .connack k c.client 0 (present && !c.clean)] ∧
      (present = true ↔ c.client ∈ live h) ∧ (present = true → e0 = []) ∧ (present = false → e0 = [.created c.client now]) ∧
      (∀ e ∈ es2, ∃ d, e = .disconnected d now 0x8E) := by
  simp only [connect, hk, Option.isSome_none, Bool.false_eq_true, if_false, hlog, ne_eq, not_true_eq_false, hid, if_true]
  split
  · have hk' : (b.takeOver c.client).conn k = none := by
      cases hf : (b.takeOver c.client).conn k with
      | none => rfl
      | some x =>
        obtain ⟨hx, hxk⟩ := conn_mem hf
        obtain ⟨y, hy, rfl⟩ := List.mem_map.mp hx
        refine absurd ?_ (conn_none hk y hy)
        rw [← hxk]; split <;> rfl
    obtain ⟨b', es, h1, h2⟩ := accept_exact (G.takeOver c.client) k alloc now c c.client hk' (by
      intro x hx hc
      obtain ⟨y, hy, rfl⟩ := List.mem_map.mp hx
      split at hc
      · next h => rw [if_pos h]
      · next h => exact absurd (by simpa using hc) h) hlog hw
    exact ⟨b', es, h1.1, h2⟩
  · next ht =>
    obtain ⟨b', es, h1, h2⟩ := accept_exact G k alloc now c c.client hk (not_taken (by simpa using ht)) hlog hw
    exact ⟨b', es, h1.1, h2⟩

/-! ## Maintenance -/

/-- Sessions other than `r`: what does not change, and the will. -/
def Others (r : Nat) (b b' : Broker) : Prop := ∀ s ∈ b.sessions, s.ref ≠ r → ∃ s' ∈ b'.sessions, Like s s' ∧ s'.will = s.will

theorem Others.trans {r : Nat} {a b c : Broker} (h1 : Others r a b) (h2 : Others r b c) : Others r a c := by
  intro s hs hr
  obtain ⟨s1, hs1, l1, w1⟩ := h1 s hs hr
  obtain ⟨s2, hs2, l2, w2⟩ := h2 s1 hs1 (by rw [l1.ref]; exact hr)
  exact ⟨s2, hs2, ⟨l2.ref.trans l1.ref, l2.client.trans l1.client, l2.expireTime.trans l1.expireTime, l2.expiry.trans l1.expiry, l2.heartbeat.trans l1.heartbeat⟩,
    w2.trans w1⟩

theorem Others.put (b : Broker) (s : Sess) : Others s.ref b (b.put s) :=
  fun t ht hr => ⟨t, put_mem ht hr, .rfl' t, rfl⟩

theorem Others.publish {b b' : Broker} {h : List Ev} (G : Base b h) {p : Pub} (hp : ValidPub p) {now : Nat} {src : Source} {es : List Ev}
    (he : publish now src p b = some (b', es)) (r : Nat) : Others r b b' := by
  obtain ⟨b1, h1, _, _, _, hs⟩ := publish_base G hp now src
  rw [he] at h1
  simp only [Option.some.injEq, Prod.mk.injEq] at h1
  obtain ⟨rfl, _⟩ := h1
  intro s hs' _
  exact ⟨{ s with q := queueAll (copies h p s.client) s.q }, by rw [hs]; exact List.mem_map.mpr ⟨s, hs', rfl⟩, ⟨rfl, rfl, rfl, rfl, rfl⟩, rfl⟩

/-- What maintenance of one session does. -/
theorem maintainOne_live {cfg : Config} {b b' : Broker} {h es : List Ev} (G : Good cfg b h) {s : Sess} (hs : s ∈ b.sessions) {now : Nat}
    (he : maintainOne now b s = some (b', es)) :
    Others s.ref b b' ∧ (∀ w, willDue now (isExpired now s) s = some w → .published now w.pub (.will s.client) ∈ es) ∧
      (isExpired now s = true → .removed s.client now ∈ es) := by
  unfold maintainOne at he
  obtain ⟨b1, es1, he1, G1, s1, hs1, l1, w1⟩ := graceOne_fine G hs now
  have hO1 : Others s.ref b b1 := by
    unfold graceOne at he1
    split at he1
    · obtain ⟨⟨s2, e2⟩, h2, h3⟩ := Option.map_eq_some_iff.mp he1
      simp only [Prod.mk.injEq] at h3
      obtain ⟨⟨q, o⟩, h4, h5⟩ := Option.map_eq_some_iff.mp h2
      simp only [Prod.mk.injEq] at h5
      have hr2 : s2.ref = s.ref := by rw [← h5.1]
      rw [← h3.1, ← hr2]; exact .put b s2
    · simp only [Option.some.injEq, Prod.mk.injEq] at he1
      rw [← he1.1]; exact fun t ht _ => ⟨t, ht, .rfl' t, rfl⟩
  rw [he1] at he
  simp only [thenDo, Option.bind_some] at he
  obtain ⟨⟨b2, e2⟩, he2, heq⟩ := Option.map_eq_some_iff.mp he
  simp only [Prod.mk.injEq] at heq
  obtain ⟨rfl, rfl⟩ := heq
  obtain ⟨⟨b3, e3⟩, hw, he3⟩ := Option.bind_eq_some_iff.mp he2
  obtain ⟨⟨b4, e4⟩, h4, heq⟩ := Option.map_eq_some_iff.mp he3
  simp only [Prod.mk.injEq] at heq
  obtain ⟨rfl, rfl⟩ := heq
  have hO2 : Others s.ref b1 b3 ∧ ∀ w, willDue now (isExpired now s) s = some w → .published now w.pub (.will s.client) ∈ e3 := by
    unfold willMaintain at hw
    cases hd : willDue now (isExpired now s) s with
    | none =>
      rw [hd] at hw
      simp only [Option.some.injEq, Prod.mk.injEq] at hw
      exact ⟨by rw [← hw.1]; exact fun t ht _ => ⟨t, ht, .rfl' t, rfl⟩, fun w h => by cases h⟩
    | some w =>
      rw [hd] at hw
      simp only at hw
      obtain ⟨⟨b5, e5⟩, h5, heq⟩ := Option.map_eq_some_iff.mp hw
      simp only [Prod.mk.injEq] at heq
      obtain ⟨hb, rfl⟩ := heq
      have hv : ValidPub w.pub := G.base.willOk s hs w (willDue_spec hd).1
      refine ⟨?_, fun w' hw' => ?_⟩
      · have h1 := Others.publish G1.base hv h5 s.ref
        split at hb
        · next t hf =>
          have : t.ref = s.ref := (find_mem hf).2
          rw [← hb]
          refine h1.trans ?_
          rw [← this]; exact .put b5 { t with will := none }
        · rw [← hb]; exact h1
      · simp only [Option.some.injEq] at hw'
        subst hw'
        obtain ⟨b6, h6, _⟩ := publish_base G1.base hv now (.will s.client)
        rw [h5] at h6
        simp only [Option.some.injEq, Prod.mk.injEq] at h6
        rw [h6.2]; exact List.mem_cons_self
  refine ⟨?_, fun w hw' => List.mem_append_right _ (List.mem_append_left _ (hO2.2 w hw')), fun hx => ?_⟩
  · refine hO1.trans (hO2.1.trans ?_)
    split at h4
    · simp only [Option.some.injEq, Prod.mk.injEq] at h4
      rw [← h4.1]; exact fun t ht hr => ⟨t, mem_remove.mpr ⟨ht, hr⟩, .rfl' t, rfl⟩
    · simp only [Option.some.injEq, Prod.mk.injEq] at h4
      rw [← h4.1]; exact fun t ht hr => ⟨t, ht, .rfl' t, rfl⟩
  · rw [if_pos hx] at h4
    simp only [Option.some.injEq, Prod.mk.injEq] at h4
    rw [← h4.2]; simp

theorem willDue_like {s s' : Sess} (l : Like s s') (hw : s'.will = s.will) (now : Nat) : willDue now (isExpired now s') s' = willDue now (isExpired now s) s := by
  unfold willDue; rw [hw, l.expired]

/-- What maintenance does. -/
theorem maintainAll_live {cfg : Config} (now : Nat) : ∀ (l : List Nat) {b b' : Broker} {h es : List Ev}, Good cfg b h → maintainAll now l b = some (b', es) →
    ∀ s ∈ b.sessions, s.ref ∈ l → (∀ w, willDue now (isExpired now s) s = some w → .published now w.pub (.will s.client) ∈ es) ∧
      (isExpired now s = true → .removed s.client now ∈ es) := by
  intro l
  induction l with
  | nil => intro b b' h es _ _ s _ hr; cases hr
  | cons r l ih =>
    intro b b' h es G he s hs hr
    rw [maintainAll] at he
    cases hf : b.find r with
    | none =>
      rw [hf] at he
      refine ih G he s hs ?_
      rcases List.mem_cons.mp hr with hr | hr
      · exact absurd hr (find_none hf s hs)
      · exact hr
    | some t =>
      rw [hf] at he
      obtain ⟨ht, htr⟩ := find_mem hf
      obtain ⟨b1, es1, he1, G1⟩ := maintainOne_fine G ht now
      simp only [he1, thenDo, Option.bind_some] at he
      obtain ⟨⟨b2, es2⟩, he2, heq⟩ := Option.map_eq_some_iff.mp he
      simp only [Prod.mk.injEq] at heq
      obtain ⟨rfl, rfl⟩ := heq
      obtain ⟨hO, h1, h2⟩ := maintainOne_live G ht he1
      by_cases hst : s.ref = t.ref
      · have : s = t := map_nodup_inj (·.ref) G.base.refs hs ht hst
        subst this
        exact ⟨fun w hw => List.mem_append_left _ (h1 w hw), fun hx => List.mem_append_left _ (h2 hx)⟩
      · obtain ⟨s', hs', l', w'⟩ := hO s hs hst
        obtain ⟨h3, h4⟩ := ih G1 he2 s' hs' (by
          rw [l'.ref]
          rcases List.mem_cons.mp hr with hr | hr
          · exact absurd (hr.trans htr.symm) hst
          · exact hr)
        rw [willDue_like l' w', l'.client] at h3
        rw [l'.expired, l'.client] at h4
        exact ⟨fun w hw => List.mem_append_right _ (h3 w hw), fun hx => List.mem_append_right _ (h4 hx)⟩

end Verif.Broker
