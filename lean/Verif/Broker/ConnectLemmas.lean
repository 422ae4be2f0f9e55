import Verif.Broker.StepLemmas
/-!
# CONNECT keeps the invariant
-/
namespace Verif.Broker
open Verif Session Spec

/-- While a CONNECT is handled: the session at `r` has properties `P`, but the client has not connected yet. -/
structure Mid (r : Nat) (id : Bytes) (P : Sess → Prop) (b : Broker) (h : List Ev) : Prop where
  clients : b.sessions.map (·.client) = live h
  nodup : (live h).Nodup
  refs : (b.sessions.map (·.ref)).Nodup
  core : ∀ s ∈ b.sessions, SessCore h s
  tail : ∀ s ∈ b.sessions, s.ref ≠ r → SessTail h s
  own : ∃ s ∈ b.sessions, s.ref = r ∧ s.client = id ∧ P s
  willOk : ∀ s ∈ b.sessions, ∀ w, s.will = some w → ValidPub w.pub
  wills : Wills b h
  retain : b.retain = retained h
  retainOk : RetainOk b.retain
  handles : (b.conns.map (·.handle)).Nodup
  conns : ∀ x ∈ b.conns, ConnOk h x
  link : ∀ x ∈ b.conns, ∀ r', x.ref = some r' → ∀ s ∈ b.sessions, s.ref = r' → r' ≠ r → s.client = x.client

theorem Mid.conns_sub {r : Nat} {id : Bytes} {P : Sess → Prop} {b : Broker} {h : List Ev} (G : Mid r id P b h) (l : List Conn) (hl : l.Sublist b.conns) :
    Mid r id P { b with conns := l } h :=
  ⟨G.clients, G.nodup, G.refs, G.core, G.tail, G.own, G.willOk, G.wills, G.retain, G.retainOk, G.handles.sublist (hl.map _), fun x hx => G.conns x (hl.subset hx),
    fun x hx => G.link x (hl.subset hx)⟩

theorem Mid.clearRef {r : Nat} {id : Bytes} {P : Sess → Prop} {b : Broker} {h : List Ev} (G : Mid r id P b h) (r' : Nat) : Mid r id P (b.clearRef r') h := by
  have hm : ∀ x ∈ (b.clearRef r').conns, ∃ y ∈ b.conns, x.handle = y.handle ∧ x.client = y.client ∧ x.user = y.user ∧ x.takenOver = y.takenOver ∧
      (x.ref = y.ref ∨ x.ref = none) := by
    intro x hx
    obtain ⟨y, hy, rfl⟩ := List.mem_map.mp hx
    refine ⟨y, hy, ?_⟩
    split
    · exact ⟨rfl, rfl, rfl, rfl, .inr rfl⟩
    · exact ⟨rfl, rfl, rfl, rfl, .inl rfl⟩
  refine ⟨G.clients, G.nodup, G.refs, G.core, G.tail, G.own, G.willOk, G.wills, G.retain, G.retainOk, ?_, ?_, ?_⟩
  · have : (b.clearRef r').conns.map (·.handle) = b.conns.map (·.handle) := by
      unfold Broker.clearRef
      rw [List.map_map]
      refine List.map_congr_left fun x _ => ?_
      simp only [Function.comp]
      split <;> rfl
    rw [this]; exact G.handles
  · intro x hx
    obtain ⟨y, hy, h1, h2, h3, h4, _⟩ := hm x hx
    have := G.conns y hy
    exact ⟨by rw [h1, h2, h4]; exact this.ack, by rw [h2, h3, h4]; exact this.user⟩
  · intro x hx r1 hr1 s hs hsr hne
    obtain ⟨y, hy, h1, h2, h3, h4, h5⟩ := hm x hx
    rcases h5 with h5 | h5
    · rw [h2]; exact G.link y hy r1 (by rw [← h5]; exact hr1) s hs hsr hne
    · rw [h5] at hr1; cases hr1

theorem conn_mem {b : Broker} {k : Nat} {x : Conn} (h : b.conn k = some x) : x ∈ b.conns ∧ x.handle = k := by
  unfold Broker.conn at h
  exact ⟨List.mem_of_find?_eq_some h, by simpa using List.find?_some h⟩

theorem conn_none {b : Broker} {k : Nat} (h : b.conn k = none) : ∀ x ∈ b.conns, x.handle ≠ k := by
  unfold Broker.conn at h
  intro x hx
  simpa using List.find?_eq_none.mp h x hx

/-- A connection which has been taken over ends. -/
theorem Mid.close {r : Nat} {id : Bytes} {P : Sess → Prop} {b : Broker} {h : List Ev} (G : Mid r id P b h) (k now : Nat)
    (hP : ∀ s, P s → P { s with expireTime := 0 }) (ht : ∀ x, b.conn k = some x → x.takenOver = true) :
    ∃ b' es, closeConn k now 0 b = some (b', es) ∧ Mid r id P b' (h ++ es) ∧ b'.conns = b.conns.filter (fun x => x.handle != k) ∧
      (∀ e ∈ es, ∃ c, e = .disconnected c now 0x8E) := by
  unfold closeConn
  cases hx : b.conn k with
  | none =>
    refine ⟨b, [], rfl, by rwa [List.append_nil], ?_, by simp⟩
    rw [List.filter_eq_self.mpr]
    intro x hx'; simpa using conn_none hx x hx'
  | some c =>
    simp only [ht c hx, if_true]
    have G' := G.conns_sub (b.conns.filter fun x => x.handle != k) List.filter_sublist
    cases c.ref with
    | none => exact ⟨_, _, rfl, by rwa [List.append_nil], rfl, by simp⟩
    | some ref =>
      simp only [notifyDisconnect]
      cases hf : Broker.find { b with conns := b.conns.filter fun x => x.handle != k } ref with
      | none => exact ⟨_, _, rfl, by rwa [List.append_nil], rfl, by simp⟩
      | some s =>
        obtain ⟨hs, hr⟩ := find_mem hf
        refine ⟨_, _, rfl, ?_, rfl, by simp⟩
        have hforeign : ∀ d, d ≠ s.client → ∀ e ∈ [Ev.disconnected s.client now 0x8E], Foreign d e := by
          intro d hd e he; simp at he; subst he; exact foreign_disconnected (Ne.symm hd) _ _
        have hstill : ∀ e ∈ [Ev.disconnected s.client now 0x8E], Still e := by
          intro e he; simp at he; subst he; exact still_disconnected _ _ _
        have hquiet : ∀ e ∈ [Ev.disconnected s.client now 0x8E], Quiet e := by
          intro e he; simp at he; subst he; trivial
        have hother : ∀ t ∈ b.sessions, t.ref ≠ s.ref → t.client ≠ s.client := by
          intro t ht hne heq
          exact hne (by rw [map_nodup_inj (·.client) (by rw [G.clients]; exact G.nodup) ht hs heq])
        have hlive := live_still h _ hstill
        have hwill : ∀ c, will c (h ++ [.disconnected s.client now 0x8E]) = will c h := by
          intro c; rw [will_app]; simp [willStep]
        constructor
        · rw [hlive]; exact (put_map (s := s) (·.client) G'.refs hs (by rfl) (by rfl)).trans G.clients
        · rw [hlive]; exact G.nodup
        · exact Eq.mpr (congrArg List.Nodup (put_map (s := s) (·.ref) G'.refs hs (by rfl) (by rfl))) G.refs
        · intro t ht
          rcases mem_put ht with rfl | ⟨ht, hne⟩
          · exact ((G.core s hs).aside _ (by intro e he l; simp at he; subst he; rfl) (by intro e he l; simp at he; subst he; rfl)
              (by intro e he l; simp at he; subst he; rfl)).fields s.will 0 s.expiry s.maxPacket s.prevGrace s.ref
          · exact (G.core t ht).foreign _ (hforeign _ (hother t ht hne))
        · intro t ht hrt
          rcases mem_put ht with rfl | ⟨ht, hne⟩
          · have t := G.tail s hs hrt
            have hset : settings s.client (h ++ [.disconnected s.client now 0x8E]) = settings s.client h := by rw [settings_app]; rfl
            have hend : ended s.client (h ++ [.disconnected s.client now 0x8E]) = none := by
              rw [ended_app]; simp [endedStep]
            exact ⟨by show s.maxPacket = _; rw [hset]; exact t.maxPacket, by show s.expiry = _; rw [hset]; exact t.expiry,
              by show 0 = _; rw [hend], by show _ → s.expiry ≠ 0; rw [hend]; exact fun h => absurd rfl h⟩
          · exact (G.tail t ht hrt).foreign _ (hforeign _ (hother t ht hne))
        · obtain ⟨t, ht, h1, h2, h3⟩ := G.own
          by_cases he : t.ref = s.ref
          · have := map_nodup_inj (·.ref) G.refs ht hs he
            subst this
            exact ⟨_, put_self hs rfl, h1, h2, hP _ h3⟩
          · exact ⟨t, put_mem ht he, h1, h2, h3⟩
        · intro t ht
          rcases mem_put ht with rfl | ⟨ht, _⟩
          · exact G.willOk s hs
          · exact G.willOk t ht
        · intro t ht
          rw [hwill]
          rcases mem_put ht with rfl | ⟨ht, _⟩
          · exact G.wills s hs
          · exact G.wills t ht
        · rw [retained_still h _ hstill]; exact G.retain
        · exact G.retainOk
        · exact G'.handles
        · intro x hx; exact (G'.conns x hx).quiet _ hquiet
        · intro x hx r1 hr1 t ht htr hne
          rcases mem_put ht with rfl | ⟨ht, _⟩
          · exact G'.link x hx r1 hr1 s hs htr hne
          · exact G'.link x hx r1 hr1 t ht htr hne

theorem Mid.closeAll {r : Nat} {id : Bytes} {P : Sess → Prop} (hP : ∀ s, P s → P { s with expireTime := 0 }) (now : Nat) : ∀ (l : List Nat) {b : Broker} {h : List Ev}, Mid r id P b h →
    (∀ k ∈ l, ∀ x, b.conn k = some x → x.takenOver = true) →
    ∃ b' es, closeAll now l b = some (b', es) ∧ Mid r id P b' (h ++ es) ∧ b'.conns = b.conns.filter (fun x => x.handle ∉ l) ∧
      (∀ e ∈ es, ∃ c, e = .disconnected c now 0x8E) := by
  intro l
  induction l with
  | nil =>
    intro b h G _
    refine ⟨b, [], rfl, by rwa [List.append_nil], ?_, by simp⟩
    rw [List.filter_eq_self.mpr]; simp
  | cons k l ih =>
    intro b h G ht
    obtain ⟨b1, e1, he1, G1, hc1, hd1⟩ := G.close k now hP (ht k List.mem_cons_self)
    have ht1 : ∀ k' ∈ l, ∀ x, b1.conn k' = some x → x.takenOver = true := by
      intro k' hk' x hx
      obtain ⟨hm, hk⟩ := conn_mem hx
      rw [hc1] at hm
      have hm := (List.mem_filter.mp hm).1
      refine ht k' (List.mem_cons_of_mem _ hk') x ?_
      cases hf : b.conn k' with
      | none => exact absurd hk (conn_none hf x hm)
      | some y =>
        obtain ⟨hy, hky⟩ := conn_mem hf
        rw [map_nodup_inj (·.handle) G.handles hy hm (by rw [hky, hk])]
    obtain ⟨b2, e2, he2, G2, hc2, hd2⟩ := ih G1 ht1
    refine ⟨b2, e1 ++ e2, ?_, by rw [← List.append_assoc]; exact G2, ?_, ?_⟩
    · rw [Broker.closeAll, he1]; simp [thenDo, he2]
    · rw [hc2, hc1, List.filter_filter]
      refine List.filter_congr fun x _ => ?_
      by_cases hx : x.handle = k <;> simp [hx]
    · intro e he
      rcases List.mem_append.mp he with he | he
      · exact hd1 e he
      · exact hd2 e he

theorem Base.mid {b : Broker} {h : List Ev} (G : Base b h) (W : Wills b h) {s : Sess} (hs : s ∈ b.sessions) : Mid s.ref s.client (fun _ => True) b h :=
  ⟨G.clients, G.nodup, G.refs, G.core, fun t ht _ => G.tail t ht, ⟨s, hs, rfl, rfl, trivial⟩, G.willOk, W, G.retain, G.retainOk, G.handles, G.conns,
    fun x hx r' hr t ht htr _ => G.link x hx r' hr t ht htr⟩

theorem le_sum : ∀ (l : List Nat) (x : Nat), x ∈ l → x ≤ l.sum := by
  intro l
  induction l with
  | nil => intro x hx; cases hx
  | cons y l ih =>
    intro x hx
    rw [List.sum_cons]
    rcases List.mem_cons.mp hx with rfl | hx
    · omega
    · have := ih x hx; omega

theorem still_created_retained (c : Bytes) (t : Nat) (l : List Pub) : retainStep l (.created c t) = l := rfl

/-- A new session. -/
theorem Base.create {b : Broker} {h : List Ev} (G : Base b h) (W : Wills b h) (id : Bytes) (r now : Nat) (hid : ∀ s ∈ b.sessions, s.client ≠ id)
    (hr : ∀ s ∈ b.sessions, s.ref ≠ r) :
    Mid r id (fun _ => True) { b with sessions := { ref := r, client := id, heartbeat := now } :: b.sessions } (h ++ [.created id now]) := by
  have hlive : live (h ++ [.created id now]) = id :: live h := by rw [live_app]; rfl
  have hnot : id ∉ live h := by
    rw [← G.clients]; intro hm; obtain ⟨s, hs, he⟩ := List.mem_map.mp hm; exact hid s hs he
  have hfor : ∀ s ∈ b.sessions, ∀ e ∈ [Ev.created id now], Foreign s.client e := by
    intro s hs e he; simp at he; subst he; exact foreign_created (Ne.symm (hid s hs)) _
  constructor
  · rw [hlive, ← G.clients]; rfl
  · rw [hlive]; exact List.nodup_cons.mpr ⟨hnot, G.nodup⟩
  · refine List.nodup_cons.mpr ⟨fun hm => ?_, G.refs⟩
    obtain ⟨s, hs, he⟩ := List.mem_map.mp hm
    exact hr s hs he
  · intro s hs
    rcases List.mem_cons.mp hs with rfl | hs
    · have hops : ops id (h ++ [.created id now]) = [] := by rw [ops_app]; simp [opsStep]
      constructor
      · show [] = subscriptions id _
        rw [subscriptions_app]; simp [subsStep]
      · intro x hx; cases hx
      · exact List.nodup_nil
      · show now = heard id _
        rw [heard_app]; simp [heardStep]
      · show Session.run {} ((ops id _).map _) = some (({} : Session), (ops id _).map _)
        rw [hops]; rfl
      · show ∀ o ∈ (ops id _).map _, _
        rw [hops]; intro o ho; cases ho
      · intro p hp; cases hp
    · exact (G.core s hs).foreign _ (hfor s hs)
  · intro s hs hne
    rcases List.mem_cons.mp hs with rfl | hs
    · exact absurd rfl hne
    · exact (G.tail s hs).foreign _ (hfor s hs)
  · exact ⟨_, List.mem_cons_self, rfl, rfl, trivial⟩
  · intro s hs
    rcases List.mem_cons.mp hs with rfl | hs
    · intro w hw; cases hw
    · exact G.willOk s hs
  · intro s hs
    rcases List.mem_cons.mp hs with rfl | hs
    · show none = will id _
      rw [will_app]; simp [willStep]
    · rw [will_foreign _ _ _ (hfor s hs)]; exact W s hs
  · rw [retained_app]; exact G.retain
  · exact G.retainOk
  · exact G.handles
  · intro x hx; exact (G.conns x hx).quiet _ (by intro e he; simp at he; subst he; trivial)
  · intro x hx r' hr' s hs hsr hne
    rcases List.mem_cons.mp hs with rfl | hs
    · exact absurd hsr.symm hne
    · exact G.link x hx r' hr' s hs hsr

/-- The session is initialised. -/
theorem Mid.init {r : Nat} {id : Bytes} {b : Broker} {h : List Ev} (G : Mid r id (fun _ => True) b h) {s : Sess} (hs : s ∈ b.sessions) (hr : s.ref = r)
    (hc : s.client = id) (cfg : Config) (c : Connect) :
    ∃ s' out, initSess cfg c s = some (s', [.op id (.init 125 c.receiveMax cfg.retry 2000000 c.clean) out]) ∧
      Mid r id (fun s => s.expiry = c.sessionExpiry ∧ s.maxPacket = c.maxPacket ∧ s.expireTime = 0) (b.put s')
        (h ++ [.op id (.init 125 c.receiveMax cfg.retry 2000000 c.clean) out]) := by
  obtain ⟨q, out, he⟩ := (G.core s hs).step (.init 125 c.receiveMax cfg.retry 2000000 c.clean) trivial
  have hsub : (if c.clean then [] else s.subs) = subsStep s.client s.subs (.op s.client (.init 125 c.receiveMax cfg.retry 2000000 c.clean) out none) := by
    cases c.clean
    · rfl
    · simp [subsStep]
  obtain ⟨core, _⟩ := (G.core s hs).op none he trivial (by intro _ _ _ h; cases h) (if c.clean then [] else s.subs) hsub (by
    cases c.clean
    · exact List.Sublist.refl _
    · exact List.nil_sublist _)
  subst hc
  refine ⟨{ s with q := q, expiry := c.sessionExpiry, maxPacket := c.maxPacket, expireTime := 0, subs := if c.clean then [] else s.subs }, out,
    by simp only [initSess, opSess, he, Option.map_some], ?_⟩
  generalize hes : [Ev.op s.client (.init 125 c.receiveMax cfg.retry 2000000 c.clean) out] = es at core
  have hforeign : ∀ d, d ≠ s.client → ∀ e ∈ es, Foreign d e := by
    subst hes; intro d hd e he; simp at he; subst he; exact foreign_op (Ne.symm hd) _ _ _
  have hstill : ∀ e ∈ es, Still e := by subst hes; intro e he; simp at he; subst he; exact still_queue _ _ _ _
  have hquiet : ∀ e ∈ es, Quiet e := by subst hes; intro e he; simp at he; subst he; trivial
  have hwill : ∀ c, will c (h ++ es) = will c h := by subst hes; intro c; rw [will_app]; rfl
  have hother : ∀ t ∈ b.sessions, t.ref ≠ s.ref → t.client ≠ s.client := by
    intro t ht hne heq
    exact hne (by rw [map_nodup_inj (·.client) (by rw [G.clients]; exact G.nodup) ht hs heq])
  have hlive := live_still h _ hstill
  constructor
  · rw [hlive]; exact (put_map (s := s) (·.client) G.refs hs (by rfl) (by rfl)).trans G.clients
  · rw [hlive]; exact G.nodup
  · exact Eq.mpr (congrArg List.Nodup (put_map (s := s) (·.ref) G.refs hs (by rfl) (by rfl))) G.refs
  · intro t ht
    rcases mem_put ht with rfl | ⟨ht, hne⟩
    · exact core.fields s.will 0 c.sessionExpiry c.maxPacket s.prevGrace s.ref
    · exact (G.core t ht).foreign _ (hforeign _ (hother t ht hne))
  · intro t ht hrt
    rcases mem_put ht with rfl | ⟨ht, hne⟩
    · exact absurd hr hrt
    · exact (G.tail t ht hrt).foreign _ (hforeign _ (hother t ht hne))
  · exact ⟨_, put_self hs rfl, hr, rfl, rfl, rfl, rfl⟩
  · intro t ht
    rcases mem_put ht with rfl | ⟨ht, _⟩
    · exact G.willOk s hs
    · exact G.willOk t ht
  · intro t ht
    rw [hwill]
    rcases mem_put ht with rfl | ⟨ht, _⟩
    · exact G.wills s hs
    · exact G.wills t ht
  · rw [retained_still h _ hstill]; exact G.retain
  · exact G.retainOk
  · exact G.handles
  · intro x hx; exact (G.conns x hx).quiet _ hquiet
  · intro x hx r1 hr1 t ht htr hne
    rcases mem_put ht with rfl | ⟨ht, _⟩
    · exact G.link x hx r1 hr1 s hs htr hne
    · exact G.link x hx r1 hr1 t ht htr hne

/-- Session and initialisation. -/
theorem getSession_fine {cfg : Config} {b : Broker} {h : List Ev} (G : Good cfg b h) (now alloc : Nat) (id : Bytes) (c : Connect) :
    ∃ s present b0 e0 s' out, getSession now alloc id b = (s, present, b0, e0) ∧
      initSess cfg c s = some (s', [.op id (.init 125 c.receiveMax cfg.retry 2000000 c.clean) out]) ∧
      Mid s.ref id (fun s => s.expiry = c.sessionExpiry ∧ s.maxPacket = c.maxPacket ∧ s.expireTime = 0) (b0.put s')
        (h ++ (e0 ++ [.op id (.init 125 c.receiveMax cfg.retry 2000000 c.clean) out])) ∧ b0.conns = b.conns ∧
      (present = true ↔ id ∈ live h) ∧ (present = true → e0 = []) ∧ (present = false → e0 = [.created id now]) ∧ (e0 = [] ∨ e0 = [.created id now]) := by
  unfold getSession
  cases hf : b.findClient id with
  | some s =>
    obtain ⟨hs, rfl⟩ := findClient_mem hf
    obtain ⟨s', out, h1, h2⟩ := (G.base.mid G.wills hs).init hs rfl rfl cfg c
    refine ⟨s, true, b, [], s', out, rfl, h1, h2, rfl, ?_, fun _ => rfl, by simp, .inl rfl⟩
    simp only [true_iff]
    rw [← G.base.clients]; exact List.mem_map.mpr ⟨s, hs, rfl⟩
  | none =>
    have hn := findClient_none hf
    simp only
    generalize hr : (if (b.find alloc).isSome then (b.sessions.map (·.ref)).sum + 1 else alloc) = r
    have hr' : ∀ s ∈ b.sessions, s.ref ≠ r := by
      intro s hs
      cases hfa : b.find alloc with
      | none =>
        rw [hfa] at hr
        simp at hr; subst hr
        exact find_none hfa s hs
      | some t =>
        rw [hfa] at hr
        simp at hr
        have := le_sum _ _ (List.mem_map.mpr ⟨s, hs, rfl⟩ : s.ref ∈ b.sessions.map (·.ref))
        omega
    obtain ⟨s', out, h1, h2⟩ := (G.base.create G.wills id r now hn hr').init List.mem_cons_self rfl rfl cfg c
    refine ⟨_, false, _, _, s', out, rfl, h1, by rw [List.append_assoc] at h2; exact h2, rfl, ?_, by simp, fun _ => rfl, .inr rfl⟩
    simp only [Bool.false_eq_true, false_iff]
    rw [← G.base.clients]; intro hm; obtain ⟨s, hs, he⟩ := List.mem_map.mp hm; exact hn s hs he

end Verif.Broker
