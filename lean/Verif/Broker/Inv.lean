import Verif.Broker.ListLemmas
/-!
# The invariant of the broker
-/
namespace Verif.Broker
open Verif Session Spec

/-- A message was received from the client and accepted. -/
def Got (c : Bytes) (p : Pub) (h : List Ev) : Prop :=
  ∃ t q tx r v, .op c (.publish t q .accept tx) r v ∈ h ∧ Session.Spec.SameMessage q p

/-- The session is what the history says: subscriptions and queues. -/
structure SessCore (h : List Ev) (s : Sess) : Prop where
  subs : s.subs = subscriptions s.client h
  subsOk : ∀ x ∈ s.subs, Subscription.SubOk x ∧ x.qos ≤ 2
  filters : (s.subs.map (·.filter)).Nodup
  heartbeat : s.heartbeat = heard s.client h
  q : Session.run {} ((ops s.client h).map (·.1)) = some (s.q, (ops s.client h).map (·.2))
  valid : ∀ o ∈ (ops s.client h).map (·.1), Session.Spec.Valid true o
  recv : ∀ p ∈ s.q.fromRemote, ValidPub p ∧ Got s.client p h

/-- The same for what comes from CONNECT and the end of the connection. -/
structure SessTail (h : List Ev) (s : Sess) : Prop where
  maxPacket : s.maxPacket = (settings s.client h).2
  expiry : s.expiry = (settings s.client h).1
  expireTime : s.expireTime = match ended s.client h with
    | none => 0
    | some t => expireTimeOf t s.expiry
  notZero : ended s.client h ≠ none → s.expiry ≠ 0

/-- The connection had the last CONNACK of its client, unless it has been taken over. -/
structure ConnOk (h : List Ev) (x : Conn) : Prop where
  ack : ∃ a y b, h = a ++ .connack x.handle x.client 0 y :: b ∧
    ∀ k' c' y', .connack k' c' 0 y' ∈ b → k' ≠ x.handle ∧ (x.takenOver = false → c' ≠ x.client)
  user : x.takenOver = false → x.user = user x.client h

structure Base (b : Broker) (h : List Ev) : Prop where
  clients : b.sessions.map (·.client) = live h
  nodup : (live h).Nodup
  refs : (b.sessions.map (·.ref)).Nodup
  core : ∀ s ∈ b.sessions, SessCore h s
  tail : ∀ s ∈ b.sessions, SessTail h s
  willOk : ∀ s ∈ b.sessions, ∀ w, s.will = some w → ValidPub w.pub
  retain : b.retain = retained h
  retainOk : RetainOk b.retain
  handles : (b.conns.map (·.handle)).Nodup
  conns : ∀ x ∈ b.conns, ConnOk h x
  link : ∀ x ∈ b.conns, ∀ r, x.ref = some r → ∀ s ∈ b.sessions, s.ref = r → s.client = x.client

def Wills (b : Broker) (h : List Ev) : Prop := ∀ s ∈ b.sessions, s.will = will s.client h

/-- Wills are new when the client connects. -/
def FreshWills (h : List Ev) : Prop := ∀ c u x m w, .connected c u x m (some w) ∈ h → w.planned = 0

/-- The invariant. -/
structure Good (cfg : Config) (b : Broker) (h : List Ev) : Prop where
  base : Base b h
  wills : Wills b h
  hist : Spec.AtEach (Ok cfg) h
  fresh : FreshWills h

/-! ## More events -/

theorem Got.more {c : Bytes} {p : Pub} {h : List Ev} (g : Got c p h) (e : List Ev) : Got c p (h ++ e) := by
  obtain ⟨t, q, tx, r, v, h1, h2⟩ := g
  exact ⟨t, q, tx, r, v, List.mem_append.mpr (.inl h1), h2⟩

theorem SessCore.foreign {h : List Ev} {s : Sess} (c : SessCore h s) (e : List Ev) (he : ∀ x ∈ e, Foreign s.client x) : SessCore (h ++ e) s where
  subs := by rw [subscriptions_app, foldl_same _ _ _ fun x hx => (he x hx).subs]; exact c.subs
  subsOk := c.subsOk
  filters := c.filters
  heartbeat := by rw [heard_app, foldl_same _ _ _ fun x hx => (he x hx).heard]; exact c.heartbeat
  q := by rw [ops_app, foldl_same _ _ _ fun x hx => (he x hx).ops]; exact c.q
  valid := by rw [ops_app, foldl_same _ _ _ fun x hx => (he x hx).ops]; exact c.valid
  recv := fun p hp => ⟨(c.recv p hp).1, (c.recv p hp).2.more e⟩

theorem SessTail.foreign {h : List Ev} {s : Sess} (c : SessTail h s) (e : List Ev) (he : ∀ x ∈ e, Foreign s.client x) : SessTail (h ++ e) s where
  maxPacket := by rw [settings_app, foldl_same _ _ _ fun x hx => (he x hx).settings]; exact c.maxPacket
  expiry := by rw [settings_app, foldl_same _ _ _ fun x hx => (he x hx).settings]; exact c.expiry
  expireTime := by rw [ended_app, foldl_same _ _ _ fun x hx => (he x hx).ended]; exact c.expireTime
  notZero := by rw [ended_app, foldl_same _ _ _ fun x hx => (he x hx).ended]; exact c.notZero

theorem ConnOk.quiet {h : List Ev} {x : Conn} (c : ConnOk h x) (e : List Ev) (he : ∀ y ∈ e, Quiet y) : ConnOk (h ++ e) x where
  ack := by
    obtain ⟨a, y, b, rfl, h1⟩ := c.ack
    refine ⟨a, y, b ++ e, by simp, fun k' c' y' hm => ?_⟩
    rcases List.mem_append.mp hm with hm | hm
    · exact h1 k' c' y' hm
    · exact absurd rfl (he _ hm)
  user := fun ht => by rw [user_quiet _ _ _ he]; exact c.user ht

theorem live_still (h e : List Ev) (he : ∀ x ∈ e, Still x) : live (h ++ e) = live h := by
  rw [live_app, foldl_same _ _ _ fun x hx => (he x hx).live]

theorem retained_still (h e : List Ev) (he : ∀ x ∈ e, Still x) : retained (h ++ e) = retained h := by
  rw [retained_app, foldl_same _ _ _ fun x hx => (he x hx).retained]

theorem will_foreign (c : Bytes) (h e : List Ev) (he : ∀ x ∈ e, Foreign c x) : will c (h ++ e) = will c h := by
  rw [will_app, foldl_same _ _ _ fun x hx => (he x hx).will]

/-- The queues are those of a session with a history of its own. -/
theorem SessCore.inv {h : List Ev} {s : Sess} (c : SessCore h s) : Inv s.q ∧ s.q.broker = true :=
  (run_hist true _ c.valid _ _ c.q).2

/-! ## Lists of sessions -/

theorem map_nodup_inj {α β : Type} (f : α → β) : ∀ {l : List α}, (l.map f).Nodup → ∀ {x y : α}, x ∈ l → y ∈ l → f x = f y → x = y := by
  intro l
  induction l with
  | nil => intro _ x y hx; cases hx
  | cons a l ih =>
    intro hn x y hx hy he
    rw [List.map_cons, List.nodup_cons] at hn
    rcases List.mem_cons.mp hx with hx' | hx' <;> rcases List.mem_cons.mp hy with hy' | hy'
    · rw [hx', hy']
    · exact absurd (List.mem_map.mpr ⟨y, hy', by rw [← he, hx']⟩) hn.1
    · exact absurd (List.mem_map.mpr ⟨x, hx', by rw [he, hy']⟩) hn.1
    · exact ih hn.2 hx' hy' he

theorem find_mem {b : Broker} {r : Nat} {s : Sess} (h : b.find r = some s) : s ∈ b.sessions ∧ s.ref = r := by
  unfold Broker.find at h
  exact ⟨List.mem_of_find?_eq_some h, by simpa using List.find?_some h⟩

theorem find_none {b : Broker} {r : Nat} (h : b.find r = none) : ∀ s ∈ b.sessions, s.ref ≠ r := by
  unfold Broker.find at h
  intro s hs
  simpa using List.find?_eq_none.mp h s hs

theorem find_of_mem {b : Broker} (hn : (b.sessions.map (·.ref)).Nodup) {s : Sess} (hs : s ∈ b.sessions) : b.find s.ref = some s := by
  cases hf : b.find s.ref with
  | none => exact absurd rfl (find_none hf s hs)
  | some t =>
    obtain ⟨h1, h2⟩ := find_mem hf
    rw [map_nodup_inj (·.ref) hn h1 hs h2]

theorem findClient_mem {b : Broker} {c : Bytes} {s : Sess} (h : b.findClient c = some s) : s ∈ b.sessions ∧ s.client = c := by
  unfold Broker.findClient at h
  exact ⟨List.mem_of_find?_eq_some h, by simpa using List.find?_some h⟩

theorem findClient_none {b : Broker} {c : Bytes} (h : b.findClient c = none) : ∀ s ∈ b.sessions, s.client ≠ c := by
  unfold Broker.findClient at h
  intro s hs
  simpa using List.find?_eq_none.mp h s hs

theorem mem_put {b : Broker} {s t : Sess} (h : t ∈ (b.put s).sessions) : t = s ∨ (t ∈ b.sessions ∧ t.ref ≠ s.ref) := by
  obtain ⟨x, hx, rfl⟩ := List.mem_map.mp h
  by_cases he : x.ref = s.ref
  · left; simp [he]
  · right; simp [he, hx]

theorem put_mem {b : Broker} {s t : Sess} (ht : t ∈ b.sessions) (hne : t.ref ≠ s.ref) : t ∈ (b.put s).sessions :=
  List.mem_map.mpr ⟨t, ht, by simp [hne]⟩

theorem put_self {b : Broker} {s t : Sess} (ht : t ∈ b.sessions) (he : t.ref = s.ref) : s ∈ (b.put s).sessions :=
  List.mem_map.mpr ⟨t, ht, by simp [he]⟩

theorem put_map {β : Type} (f : Sess → β) {b : Broker} {s s' : Sess} (hn : (b.sessions.map (·.ref)).Nodup) (hs : s ∈ b.sessions) (hr : s'.ref = s.ref)
    (hf : f s' = f s) : (b.put s').sessions.map f = b.sessions.map f := by
  unfold Broker.put
  rw [List.map_map]
  refine List.map_congr_left fun x hx => ?_
  simp only [Function.comp]
  split
  · next h =>
    have : x = s := map_nodup_inj (·.ref) hn hx hs (by simpa [hr] using h)
    rw [this, hf]
  · rfl

/-- A session and the retained messages are changed. -/
theorem Base.putRetain {b : Broker} {h : List Ev} (G : Base b h) {s s' : Sess} (hs : s ∈ b.sessions) (hr : s'.ref = s.ref) (hc : s'.client = s.client)
    (es : List Ev) (hf : ∀ e ∈ es, (∀ d, d ≠ s.client → Foreign d e) ∧ (∀ l, liveStep l e = l) ∧ Quiet e) (hcore : SessCore (h ++ es) s')
    (htail : SessTail (h ++ es) s') (hw : ∀ w, s'.will = some w → ValidPub w.pub) (R : List Pub) (hret : retained (h ++ es) = R) (hR : RetainOk R) :
    Base (({ b with retain := R } : Broker).put s') (h ++ es) := by
  have hother : ∀ t ∈ b.sessions, t.ref ≠ s'.ref → ∀ e ∈ es, Foreign t.client e := by
    intro t ht hne e he
    refine (hf e he).1 _ fun h => hne ?_
    rw [hr, map_nodup_inj (·.client) (by rw [G.clients]; exact G.nodup) ht hs h]
  have hlive : live (h ++ es) = live h := by rw [live_app, foldl_same _ _ _ fun e he => (hf e he).2.1]
  constructor
  · rw [hlive, ← G.clients]; exact put_map (b := b) (·.client) G.refs hs hr hc
  · rw [hlive]; exact G.nodup
  · have := put_map (b := b) (·.ref) G.refs hs hr hr
    show ((b.put s').sessions.map (·.ref)).Nodup
    rw [this]; exact G.refs
  · intro t ht
    rcases mem_put ht with rfl | ⟨ht, hne⟩
    · exact hcore
    · exact (G.core t ht).foreign es (hother t ht hne)
  · intro t ht
    rcases mem_put ht with rfl | ⟨ht, hne⟩
    · exact htail
    · exact (G.tail t ht).foreign es (hother t ht hne)
  · intro t ht
    rcases mem_put ht with rfl | ⟨ht, _⟩
    · exact hw
    · exact G.willOk t ht
  · exact hret.symm
  · exact hR
  · exact G.handles
  · intro x hx; exact (G.conns x hx).quiet es fun e he => (hf e he).2.2
  · intro x hx r hxr t ht htr
    rcases mem_put ht with rfl | ⟨ht, _⟩
    · rw [hc]; exact G.link x hx r hxr s hs (by rw [← hr]; exact htr)
    · exact G.link x hx r hxr t ht htr

/-- A session is changed. -/
theorem Base.put {b : Broker} {h : List Ev} (G : Base b h) {s s' : Sess} (hs : s ∈ b.sessions) (hr : s'.ref = s.ref) (hc : s'.client = s.client)
    (es : List Ev) (hf : ∀ e ∈ es, (∀ d, d ≠ s.client → Foreign d e) ∧ Still e ∧ Quiet e) (hcore : SessCore (h ++ es) s') (htail : SessTail (h ++ es) s')
    (hw : ∀ w, s'.will = some w → ValidPub w.pub) : Base (b.put s') (h ++ es) :=
  G.putRetain hs hr hc es (fun e he => ⟨(hf e he).1, (hf e he).2.1.live, (hf e he).2.2⟩) hcore htail hw b.retain
    (by rw [retained_still h es fun e he => (hf e he).2.1]; exact G.retain.symm) G.retainOk

theorem Wills.put {b : Broker} {h : List Ev} (G : Base b h) (W : Wills b h) {s s' : Sess} (hs : s ∈ b.sessions) (hr : s'.ref = s.ref) (hc : s'.client = s.client)
    (es : List Ev) (hf : ∀ e ∈ es, ∀ d, d ≠ s.client → Foreign d e) (hw : s'.will = will s.client (h ++ es)) : Wills (b.put s') (h ++ es) := by
  intro t ht
  rcases mem_put ht with rfl | ⟨ht, hne⟩
  · rw [hw, hc]
  · rw [W t ht, will_foreign]
    intro e he
    refine hf e he _ fun h => hne ?_
    rw [hr, map_nodup_inj (·.client) (by rw [G.clients]; exact G.nodup) ht hs h]

/-- Events which say nothing about any session. -/
theorem Base.events {b : Broker} {h : List Ev} (G : Base b h) (es : List Ev) (hf : ∀ e ∈ es, (∀ d, Foreign d e) ∧ Still e ∧ Quiet e) : Base b (h ++ es) := by
  have hlive := live_still h es fun e he => (hf e he).2.1
  have hret := retained_still h es fun e he => (hf e he).2.1
  exact ⟨by rw [hlive]; exact G.clients, by rw [hlive]; exact G.nodup, G.refs, fun s hs => (G.core s hs).foreign es fun e he => (hf e he).1 _,
    fun s hs => (G.tail s hs).foreign es fun e he => (hf e he).1 _, G.willOk, by rw [hret]; exact G.retain, G.retainOk, G.handles,
    fun x hx => (G.conns x hx).quiet es fun e he => (hf e he).2.2, G.link⟩

theorem Wills.events {b : Broker} {h : List Ev} (W : Wills b h) (es : List Ev) (hf : ∀ e ∈ es, ∀ d, Foreign d e) : Wills b (h ++ es) := by
  intro s hs
  rw [W s hs, will_foreign _ _ _ fun e he => hf e he _]

/-- Fewer connections. -/
theorem Base.conns_sub {b : Broker} {h : List Ev} (G : Base b h) (l : List Conn) (hl : l.Sublist b.conns) : Base { b with conns := l } h :=
  ⟨G.clients, G.nodup, G.refs, G.core, G.tail, G.willOk, G.retain, G.retainOk, G.handles.sublist (hl.map _), fun x hx => G.conns x (hl.subset hx),
    fun x hx => G.link x (hl.subset hx)⟩

end Verif.Broker
