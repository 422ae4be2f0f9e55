import Verif.Broker.Inv
/-!
# Distribution of messages keeps the invariant
-/
namespace Verif.Broker
open Verif Session Spec

theorem same_trans {a b c : Pub} (h1 : Session.Spec.SameMessage a b) (h2 : Session.Spec.SameMessage b c) : Session.Spec.SameMessage a c :=
  ⟨h2.key.trans h1.key, h2.topic.trans h1.topic, h2.payload.trans h1.payload, h2.qos.trans h1.qos, h2.retain.trans h1.retain, h2.id.trans h1.id,
    h2.createTime.trans h1.createTime, h2.expiry.trans h1.expiry, h2.size.trans h1.size⟩

theorem same_refl (a : Pub) : Session.Spec.SameMessage a a := ⟨rfl, rfl, rfl, rfl, rfl, rfl, rfl, rfl, rfl⟩

theorem Got.same {c : Bytes} {r p : Pub} {h : List Ev} (g : Got c r h) (hs : Session.Spec.SameMessage r p) : Got c p h := by
  obtain ⟨t, q, tx, o, v, h1, h2⟩ := g
  exact ⟨t, q, tx, o, v, h1, same_trans h2 hs⟩

theorem ValidPub.same {r p : Pub} (g : ValidPub r) (hs : Session.Spec.SameMessage r p) : ValidPub p :=
  ⟨by rw [hs.topic]; exact g.1, by rw [hs.qos]; exact g.2⟩

/-- A session does not abort. -/
theorem SessCore.step {h : List Ev} {s : Sess} (c : SessCore h s) (o : Session.Op) (hv : Session.Spec.Valid true o) :
    ∃ q out, Session.step s.q o = some (q, out) := by
  rcases step_inv s.q o c.inv.1 (by rw [c.inv.2]; exact hv) with ⟨⟨a, v5, tx, rfl, hk, _⟩, _⟩ | ⟨q, out, he, _⟩
  · rcases hk with hk | hk
    · exact absurd hk (hv.2 rfl).1
    · exact absurd hk (hv.2 rfl).2
  · exact ⟨q, out, he⟩

/-- Something happens to the queues; `subs` are the subscriptions afterwards. -/
theorem SessCore.op {h : List Ev} {s : Sess} (c : SessCore h s) {o : Session.Op} {out : Out} {q : Session} (v : Option Nat)
    (he : Session.step s.q o = some (q, out)) (hv : Session.Spec.Valid true o)
    (hp : ∀ now r tx, o = .publish now r .accept tx → ValidPub r) (subs : Subscription.Coll) (hsub : subs = subsStep s.client s.subs (.op s.client o out v))
    (hsl : subs.Sublist s.subs) :
    SessCore (h ++ [.op s.client o out v]) { s with q := q, subs := subs } ∧ ∀ p ∈ out.delivered, ValidPub p ∧ Got s.client p (h ++ [.op s.client o out v]) := by
  have hr := received_step (fun p => ValidPub p ∧ Got s.client p (h ++ [.op s.client o out v]))
    (fun r p hs hP => ⟨ValidPub.same hP.1 hs, Got.same hP.2 hs⟩) s.q q o out c.inv.1 (by rw [c.inv.2]; exact hv) he
    (fun p hp => ⟨(c.recv p hp).1, (c.recv p hp).2.more _⟩)
    (fun now r tx ho => ⟨hp now r tx ho, now, r, tx, out, v, by rw [← ho]; simp, same_refl r⟩)
  refine ⟨?_, hr.2⟩
  have hops : ops s.client (h ++ [.op s.client o out v]) = ops s.client h ++ [(o, out)] := by
    rw [ops_app]; simp [opsStep]
  constructor
  · show subs = _
    rw [subscriptions_app, hsub, c.subs]; rfl
  · exact fun x hx => c.subsOk x (hsl.subset hx)
  · exact c.filters.sublist (hsl.map _)
  · show s.heartbeat = _
    rw [heard_app, c.heartbeat]; rfl
  · show Session.run {} ((ops s.client _).map _) = some (q, (ops s.client _).map _)
    rw [hops, List.map_append, List.map_append, run_app _ _ _ _ c.q]
    simp [Session.run, he]
  · show ∀ o' ∈ (ops s.client _).map _, _
    rw [hops, List.map_append]
    intro o' ho
    rcases List.mem_append.mp ho with ho | ho
    · exact c.valid o' ho
    · simp at ho; rw [ho]; exact hv
  · exact hr.1

/-- Nothing in `SessTail` depends on the queues. -/
theorem SessTail.op {h : List Ev} {s : Sess} (c : SessTail h s) (o : Session.Op) (out : Out) (v : Option Nat) (d : Bytes) (q : Session) (subs : Subscription.Coll) :
    SessTail (h ++ [.op d o out v]) { s with q := q, subs := subs } where
  maxPacket := by show s.maxPacket = _; rw [settings_app, c.maxPacket]; rfl
  expiry := by show s.expiry = _; rw [settings_app, c.expiry]; rfl
  expireTime := by show s.expireTime = _; rw [ended_app, c.expireTime]; rfl
  notZero := by rw [ended_app]; exact c.notZero

/-! ## Distribution -/

/-- The copies which a client gets. -/
def copies (h : List Ev) (p : Pub) (c : Bytes) : List Pub :=
  if (settings c h).2 ≠ 0 ∧ (settings c h).2 < p.size then [] else ((subscriptions c h).filter (matching p.topic)).map (forwardCopy p)

theorem forwarded_eq (h : List Ev) (p : Pub) : forwarded h p = (live h).flatMap fun c => (copies h p c).map fun x => .op c (.queue x) {} := by
  unfold forwarded copies
  refine congrArg (fun f => (live h).flatMap f) (funext fun c => ?_)
  split
  · rfl
  · rw [List.map_map]; rfl

theorem forwardOne_eq {h : List Ev} {s : Sess} (c : SessCore h s) (t : SessTail h s) {p : Pub} (hp : ValidPub p) :
    forwardOne p s = some ({ s with q := queueAll (copies h p s.client) s.q }, (copies h p s.client).map fun x => .op s.client (.queue x) {}) := by
  unfold forwardOne copies
  rw [matchPublish_eq _ (fun x hx => (c.subsOk x hx).1) _ hp.1, ← t.maxPacket, ← c.subs]
  simp only
  split
  · simp [queueAll]
  · rw [show (List.map (fun m => Session.Op.queue (forwardCopy p m)) (s.subs.filter (matching p.topic)))
        = ((s.subs.filter (matching p.topic)).map (forwardCopy p)).map .queue by rw [List.map_map]; rfl]
    exact opsSess_queue _ _

theorem forwardAll_eq {h : List Ev} {p : Pub} (hp : ValidPub p) : ∀ (l : List Sess), (∀ s ∈ l, SessCore h s ∧ SessTail h s) →
    forwardAll p l = some (l.map fun s => { s with q := queueAll (copies h p s.client) s.q },
      (l.map (·.client)).flatMap fun c => (copies h p c).map fun x => .op c (.queue x) {}) := by
  intro l
  induction l with
  | nil => intro _; rfl
  | cons s l ih =>
    intro hl
    obtain ⟨h1, h2⟩ := hl s List.mem_cons_self
    rw [forwardAll, forwardOne_eq h1 h2 hp]
    simp [ih fun s hs => hl s (List.mem_cons_of_mem _ hs)]

/-- The queue events of one client among those of all. -/
theorem ops_forwarded (g : Bytes → List Pub) (c : Bytes) : ∀ (cs : List Bytes) (l : List (Session.Op × Out)), cs.Nodup →
    (cs.flatMap fun d => (g d).map fun x => Ev.op d (.queue x) {}).foldl (opsStep c) l =
      if c ∈ cs then l ++ (g c).map (fun x => (.queue x, ({} : Out))) else l := by
  have one : ∀ (xs : List Pub) (l : List (Session.Op × Out)), (xs.map fun x => Ev.op c (.queue x) {}).foldl (opsStep c) l = l ++ xs.map fun x => (.queue x, ({} : Out)) := by
    intro xs
    induction xs with
    | nil => intro l; simp
    | cons x xs ih => intro l; rw [List.map_cons, List.foldl_cons, ih]; simp [opsStep]
  intro cs
  induction cs with
  | nil => intro l _; rfl
  | cons d cs ih =>
    intro l hn
    rw [List.nodup_cons] at hn
    rw [List.flatMap_cons, List.foldl_append]
    by_cases hd : d = c
    · subst hd
      rw [one, ih _ hn.2, if_neg hn.1, if_pos List.mem_cons_self]
    · rw [ih _ hn.2, foldl_same]
      · have : c ∈ d :: cs ↔ c ∈ cs := by simp [Ne.symm hd]
        simp only [this]
      · intro e he
        obtain ⟨x, _, rfl⟩ := List.mem_map.mp he
        exact (foreign_op hd _ _ _).ops

/-- What is said by the queue events. -/
theorem forwarded_mem {h : List Ev} {p : Pub} {e : Ev} (he : e ∈ forwarded h p) : ∃ c x, c ∈ live h ∧ x ∈ copies h p c ∧ e = .op c (.queue x) {} := by
  rw [forwarded_eq] at he
  obtain ⟨c, hc, hx⟩ := List.mem_flatMap.mp he
  obtain ⟨x, hx', rfl⟩ := List.mem_map.mp hx
  exact ⟨c, x, hc, hx', rfl⟩

theorem still_queue (c : Bytes) (o : Session.Op) (r : Out) (v : Option Nat) : Still (.op c o r v) := ⟨fun _ => rfl, fun _ => rfl⟩

/-- A message is distributed. -/
theorem publish_base {b : Broker} {h : List Ev} (G : Base b h) {p : Pub} (hp : ValidPub p) (now : Nat) (src : Source) :
    ∃ b', publish now src p b = some (b', .published now p src :: forwarded h p) ∧ Base b' (h ++ .published now p src :: forwarded h p) ∧
      b'.conns = b.conns ∧ b'.serial = b.serial ∧
      b'.sessions = b.sessions.map fun s => { s with q := queueAll (copies h p s.client) s.q } := by
  refine ⟨{ b with retain := if p.retain then retainWrite p b.retain else b.retain,
                   sessions := b.sessions.map fun s => { s with q := queueAll (copies h p s.client) s.q } }, ?_, ?_, rfl, rfl, rfl⟩
  · unfold publish
    simp only
    rw [show (if p.retain = true then ({ b with retain := retainWrite p b.retain } : Broker) else b).sessions = b.sessions by split <;> rfl,
      forwardAll_eq hp b.sessions fun s hs => ⟨G.core s hs, G.tail s hs⟩, G.clients, ← forwarded_eq]
    simp only [Option.map_some, Option.some.injEq, Prod.mk.injEq, and_true]
    split <;> rfl
  · have hfst : ∀ e ∈ forwarded h p, Still e := by
      intro e he
      obtain ⟨c, x, _, _, rfl⟩ := forwarded_mem he
      exact still_queue _ _ _ _
    have hlive : live (h ++ .published now p src :: forwarded h p) = live h := by
      rw [List.append_cons, live_still _ _ hfst, live_app]; rfl
    have hret : retained (h ++ .published now p src :: forwarded h p) = if p.retain then retainWrite p b.retain else b.retain := by
      rw [List.append_cons, retained_still _ _ hfst, retained_app, ← G.retain]
      rw [List.foldl_cons, List.foldl_nil]
      by_cases hr : p.retain = true
      · rw [if_pos hr, retainWrite_eq p hr _ now src G.retainOk.topics]
      · rw [if_neg hr]; simp [retainStep, hr]
    have hcl : (b.sessions.map fun s => { s with q := queueAll (copies h p s.client) s.q }).map (·.client) = b.sessions.map (·.client) := by
      rw [List.map_map]; rfl
    constructor
    · rw [hlive, ← G.clients]; exact hcl
    · rw [hlive]; exact G.nodup
    · show (List.map _ (List.map _ _)).Nodup
      rw [List.map_map]; exact G.refs
    · intro s' hs'
      obtain ⟨s, hs, rfl⟩ := List.mem_map.mp hs'
      have c := G.core s hs
      have hmem : s.client ∈ live h := by rw [← G.clients]; exact List.mem_map.mpr ⟨s, hs, rfl⟩
      have hops : ops s.client (h ++ .published now p src :: forwarded h p) = ops s.client h ++ (copies h p s.client).map (fun x => (.queue x, ({} : Out))) := by
        rw [ops_app, List.foldl_cons, forwarded_eq, ops_forwarded _ _ _ _ G.nodup, if_pos hmem]; rfl
      have hq : ∀ x ∈ copies h p s.client, x.qos ≤ 2 := by
        intro x hx
        unfold copies at hx
        split at hx
        · cases hx
        · obtain ⟨y, _, rfl⟩ := List.mem_map.mp hx
          exact Nat.le_trans (Nat.min_le_left _ _) hp.2
      constructor
      · show s.subs = subscriptions s.client _
        rw [subscriptions_app, foldl_same _ _ _ ?_, ← c.subs]
        intro e he l
        rcases List.mem_cons.mp he with rfl | he
        · rfl
        · obtain ⟨d, x, _, _, rfl⟩ := forwarded_mem he; rfl
      · exact c.subsOk
      · exact c.filters
      · show s.heartbeat = heard s.client _
        rw [heard_app, foldl_same _ _ _ ?_, ← c.heartbeat]
        intro e he l
        rcases List.mem_cons.mp he with rfl | he
        · rfl
        · obtain ⟨d, x, _, _, rfl⟩ := forwarded_mem he; rfl
      · show Session.run {} ((ops s.client _).map _) = some (queueAll _ _, (ops s.client _).map _)
        rw [hops, List.map_append, List.map_append, run_app _ _ _ _ c.q, List.map_map, List.map_map]
        have := run_queue (copies h p s.client) s.q
        rw [show ((fun x : Session.Op × Out => x.1) ∘ fun x => (Session.Op.queue x, ({} : Out))) = Session.Op.queue from rfl, this]
        rfl
      · show ∀ o ∈ (ops s.client _).map _, _
        rw [hops, List.map_append, List.map_map]
        intro o ho
        rcases List.mem_append.mp ho with ho | ho
        · exact c.valid o ho
        · obtain ⟨x, hx, rfl⟩ := List.mem_map.mp ho
          exact hq x hx
      · intro r hr
        exact ⟨(c.recv r hr).1, (c.recv r hr).2.more _⟩
    · intro s' hs'
      obtain ⟨s, hs, rfl⟩ := List.mem_map.mp hs'
      have t := G.tail s hs
      have hset : settings s.client (h ++ .published now p src :: forwarded h p) = settings s.client h := by
        rw [settings_app]
        refine foldl_same _ _ _ fun e he l => ?_
        rcases List.mem_cons.mp he with rfl | he
        · rfl
        · obtain ⟨d, x, _, _, rfl⟩ := forwarded_mem he; rfl
      have hend : ended s.client (h ++ .published now p src :: forwarded h p) = ended s.client h := by
        rw [ended_app]
        refine foldl_same _ _ _ fun e he l => ?_
        rcases List.mem_cons.mp he with rfl | he
        · rfl
        · obtain ⟨d, x, _, _, rfl⟩ := forwarded_mem he; rfl
      exact ⟨by show s.maxPacket = _; rw [hset]; exact t.maxPacket, by show s.expiry = _; rw [hset]; exact t.expiry,
        by show s.expireTime = _; rw [hend]; exact t.expireTime, by rw [hend]; exact t.notZero⟩
    · intro s' hs'
      obtain ⟨s, hs, rfl⟩ := List.mem_map.mp hs'
      exact G.willOk s hs
    · exact hret.symm
    · show RetainOk (if p.retain then retainWrite p b.retain else b.retain)
      by_cases hr : p.retain = true
      · rw [if_pos hr, retainWrite_eq p hr _ now src G.retainOk.topics]
        exact G.retainOk.step _ fun _ _ _ he => by cases he; exact hp
      · rw [if_neg hr]; exact G.retainOk
    · exact G.handles
    · intro x hx
      refine (G.conns x hx).quiet _ fun e he => ?_
      rcases List.mem_cons.mp he with rfl | he
      · trivial
      · obtain ⟨d, x, _, _, rfl⟩ := forwarded_mem he; trivial
    · intro x hx r hxr s' hs' hsr
      obtain ⟨s, hs, rfl⟩ := List.mem_map.mp hs'
      exact G.link x hx r hxr s hs hsr

/-- Wills are not touched, apart from the one which is published. -/
theorem will_published (c : Bytes) (h : List Ev) (p : Pub) (now : Nat) (src : Source) :
    will c (h ++ .published now p src :: forwarded h p) = if src = .will c then none else will c h := by
  rw [will_app, List.foldl_cons, foldl_same]
  · cases src with
    | client => simp [willStep]
    | will d => simp only [willStep, Source.will.injEq]
  · intro e he w
    obtain ⟨d, x, _, _, rfl⟩ := forwarded_mem he; rfl

/-- Everything is fine at the queue events. -/
theorem ok_forwarded (cfg : Config) {h : List Ev} {now : Nat} {p : Pub} {src : Source} {e1 e2 : List Ev} {x : Ev} (rest : List Ev)
    (he : forwarded h p = e1 ++ x :: e2) : Ok cfg (h ++ .published now p src :: e1) x rest := by
  obtain ⟨c, y, _, _, hx⟩ := forwarded_mem (h := h) (p := p) (e := x) (by rw [he]; simp)
  constructor
  · intro now p src h'; rw [hx] at h'; cases h'
  · intro c' x' r v h'
    exact ⟨h, now, p, src, e1, e2, rfl, he⟩
  · intro _ _ _ _ h'; rw [hx] at h'; cases h'
  · intro _ _ _ _ h'; rw [hx] at h'; cases h'
  · intro _ _ _ _ _ h'; rw [hx] at h'; cases h'
  · intro _ _ _ _ _ _ h'; rw [hx] at h'; cases h'
  · intro _ _ _ _ h'; rw [hx] at h'; cases h'
  · intro _ _ _ _ h'; rw [hx] at h'; cases h'
  · intro _ _ _ h'; rw [hx] at h'; cases h'
  · intro _ _ h'; rw [hx] at h'; cases h'
  · intro _ _ _ _ h'; rw [hx] at h'; cases h'
  · intro _ _ _ h'; rw [hx] at h'; cases h'
  · intro _ _ _ _ h'; rw [hx] at h'; cases h'
  · intro _ _ h'; rw [hx] at h'; cases h'
  · intro _ _ _ _ h'; rw [hx] at h'; cases h'

/-- The events of a published message. -/
theorem ok_published' {cfg : Config} {h : List Ev} {now : Nat} {p : Pub} {src : Source} (rest : List Ev)
    (hrec : ∀ c u, src = .client c u → Got c p h)
    (honly : OnlyDistributed h (.published now p src) (forwarded h p ++ rest))
    (hwill : ∀ c, src = .will c → WillOnce h (.published now p src) (forwarded h p ++ rest))
    (hrest : ∀ e1 x e2, rest = e1 ++ x :: e2 → Ok cfg (h ++ .published now p src :: (forwarded h p ++ e1)) x e2) :
    ∀ e1 x e2, .published now p src :: (forwarded h p ++ rest) = e1 ++ x :: e2 → Ok cfg (h ++ e1) x e2 := by
  intro e1 x e2 he
  cases e1 with
  | nil =>
    simp only [List.nil_append, List.cons.injEq] at he
    obtain ⟨rfl, rfl⟩ := he
    rw [List.append_nil]
    constructor
    case forwards => intro _ _ _ h'; cases h'; exact ⟨rest, rfl⟩
    case wasReceived =>
      intro _ _ c u h'
      simp only [Ev.published.injEq] at h'
      obtain ⟨rfl, rfl, h'⟩ := h'
      exact hrec c u h'
    case onlyDistributed => exact honly
    case willOnce =>
      intro now p c h'
      simp only [Ev.published.injEq] at h'
      obtain ⟨rfl, rfl, h'⟩ := h'
      exact hwill c h' _ _ _ (by rw [h'])
    all_goals ok_rest
  | cons y e1 =>
    simp only [List.cons_append, List.cons.injEq] at he
    obtain ⟨rfl, he⟩ := he
    rcases split_append he with ⟨k, hk⟩ | ⟨e3, hk, hb⟩
    · exact ok_forwarded cfg e2 hk
    · rw [hb]; exact hrest e3 x e2 hk

theorem ok_published {cfg : Config} {h : List Ev} {now : Nat} {p : Pub} {src : Source} (rest : List Ev)
    (hrec : ∀ c u, src = .client c u → Got c p h)
    (honly : OnlyDistributed h (.published now p src) (forwarded h p ++ rest))
    (hwill : ∀ c, src = .will c → WillOnce h (.published now p src) (forwarded h p ++ rest))
    (hrest : ∀ e1 x e2, rest = e1 ++ x :: e2 → Ok cfg (h ++ .published now p src :: (forwarded h p ++ e1)) x e2)
    (hh : Spec.AtEach (Ok cfg) h) : Spec.AtEach (Ok cfg) (h ++ .published now p src :: (forwarded h p ++ rest)) :=
  atEach_app hh (ok_published' rest hrec honly hwill hrest)

/-- Messages are distributed for a client. -/
theorem publishAll_base (now : Nat) (c u : Bytes) : ∀ (l : List Pub) {b : Broker} {h : List Ev}, Base b h → Wills b h → (∀ p ∈ l, ValidPub p) →
    ∃ b', publishAll now (.client c u) l b = some (b', distribution now (.client c u) h l) ∧ Base b' (h ++ distribution now (.client c u) h l) ∧
      Wills b' (h ++ distribution now (.client c u) h l) ∧ ∀ e ∈ distribution now (.client c u) h l, Quiet e := by
  intro l
  induction l with
  | nil => intro b h B W _; exact ⟨b, rfl, by rwa [distribution, List.append_nil], by rwa [distribution, List.append_nil], by simp [distribution]⟩
  | cons p l ih =>
    intro b h B W hl
    obtain ⟨b1, he1, B1, _, _, hse⟩ := publish_base B (hl p List.mem_cons_self) now (.client c u)
    have W1 : Wills b1 (h ++ .published now p (.client c u) :: forwarded h p) := by
      intro t' ht'
      rw [hse] at ht'
      obtain ⟨t, ht, rfl⟩ := List.mem_map.mp ht'
      rw [will_published, if_neg (by intro h; cases h)]
      exact W t ht
    obtain ⟨b2, he2, B2, W2, hq⟩ := ih B1 W1 fun q hq => hl q (List.mem_cons_of_mem _ hq)
    refine ⟨b2, ?_, by rw [distribution, ← List.append_assoc]; exact B2, by rw [distribution, ← List.append_assoc]; exact W2, ?_⟩
    · rw [publishAll, he1]; simp [thenDo, he2, distribution]
    · intro e he
      rw [distribution] at he
      rcases List.mem_append.mp he with he | he
      · rcases List.mem_cons.mp he with rfl | he
        · trivial
        · obtain ⟨_, _, _, _, rfl⟩ := forwarded_mem he; trivial
      · exact hq e he

theorem ok_distribution {cfg : Config} (now : Nat) (c : Bytes) (pre : List Ev) (o : Session.Op) (r : Out) (k : Nat) :
    ∀ (l : List Pub) (mid : List Ev) {h : List Ev}, (∀ p ∈ l, Got c p h) → h = pre ++ .op c o r (some k) :: mid →
    distribution now (.client c (user c pre)) (pre ++ [.op c o r (some k)]) r.delivered = mid ++ distribution now (.client c (user c pre)) h l →
    ∀ e1 x e2, distribution now (.client c (user c pre)) h l = e1 ++ x :: e2 → Ok cfg (h ++ e1) x e2 := by
  intro l
  induction l with
  | nil => intro mid h _ _ _ e1 x e2 he; simp [distribution] at he
  | cons p l ih =>
    intro mid h hl hh hd
    rw [distribution, List.cons_append] at hd ⊢
    refine ok_published' _ (by intro c u h'; cases h'; exact hl p List.mem_cons_self) ?_ (by intro c h'; cases h') ?_
    · intro n q d u he
      cases he
      exact ⟨pre, o, r, k, mid, _, hh, rfl, hd⟩
    · intro e1 x e2 he
      have := ih (mid ++ .published now p (.client c (user c pre)) :: forwarded h p) (h := h ++ .published now p (.client c (user c pre)) :: forwarded h p)
        (fun q hq => (hl q (List.mem_cons_of_mem _ hq)).more _) (by rw [hh]; simp) (by rw [hd]; simp) e1 x e2 he
      simpa using this

end Verif.Broker
