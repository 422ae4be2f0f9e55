import Verif.Broker.ConnectLemmas
/-!
# Every operation of the broker keeps the invariant
-/
namespace Verif.Broker
open Verif Session Spec

theorem login_ok {cfg : Config} {c : Connect} (h : loginReason cfg c = 0) :
    (c.user = [] → cfg.denyAnonymous = false) ∧ (c.user ≠ [] → ∃ f pw, cfg.passwords = some f ∧ f c.user pw = true) := by
  unfold loginReason at h
  constructor
  · intro hu
    rw [if_neg (by simp [hu])] at h
    cases hd : cfg.denyAnonymous with
    | false => rfl
    | true => rw [hd] at h; simp at h
  · intro hu
    rw [if_pos hu] at h
    split at h
    · cases h
    · split at h
      · cases h
      · next f hf =>
        split at h
        · next hp => exact ⟨f, c.password, hf, hp⟩
        · cases h

theorem ofConnect_notQuiet {id : Bytes} {e : Ev} (h : OfConnect id e) : (∃ u x m w, e = .connected id u x m w) ∨ Boring e ∨ ∃ o r v, e = .op id o r v := by
  unfold OfConnect at h
  split at h
  · exact .inr (.inl trivial)
  · subst h; exact .inr (.inr ⟨_, _, _, rfl⟩)
  · exact .inr (.inl trivial)
  · subst h; exact .inl ⟨_, _, _, _, rfl⟩
  · exact h.elim

/-- A CONNECT is accepted. -/
theorem accept_exact {cfg : Config} {b : Broker} {h : List Ev} (G : Good cfg b h) (k alloc now : Nat) (c : Connect) (id : Bytes) (hk : b.conn k = none)
    (hid : ∀ x ∈ b.conns, x.client = id → x.takenOver = true) (hlog : loginReason cfg c = 0) (hw : ∀ w, c.will = some w → ValidPub w.pub) :
    ∃ b' es, (accept cfg k alloc now c id b = some (b', es) ∧ Good cfg b' (h ++ es)) ∧ Up b' k id c.user ∧ ∃ e0 out es2 present,
      es = e0 ++ [.op id (.init 125 c.receiveMax cfg.retry 2000000 c.clean) out] ++ es2 ++
        [.connected id c.user c.sessionExpiry c.maxPacket (c.newWill now), .connack k id 0 (present && !c.clean)] ∧
      (present = true ↔ id ∈ live h) ∧ (present = true → e0 = []) ∧ (present = false → e0 = [.created id now]) ∧
      (∀ e ∈ es2, ∃ d, e = .disconnected d now 0x8E) := by
  unfold accept
  obtain ⟨s, present, b0, e0, s', out, hg, hi, M, hc0, hpres, hpe, hpe', he0⟩ := getSession_fine G now alloc id c
  simp only [hg, hi, Option.map_some]
  generalize hes1 : e0 ++ [Ev.op id (.init 125 c.receiveMax cfg.retry 2000000 c.clean) out] = es1 at M ⊢
  have hcl : (b0.put s').conns = b.conns := hc0
  -- the connections which have been taken over end
  have M1 := M.clearRef s.ref
  have hh1 : (((b0.put s').clearRef s.ref).conns.map (·.handle)) = b.conns.map (·.handle) := by
    unfold Broker.clearRef
    rw [hcl, List.map_map]
    refine List.map_congr_left fun x _ => ?_
    simp only [Function.comp]
    split <;> rfl
  have hm1 : ∀ x ∈ ((b0.put s').clearRef s.ref).conns, ∃ y ∈ b.conns, x.handle = y.handle ∧ x.client = y.client ∧ x.takenOver = y.takenOver ∧
      (x.takenOver = false → x.ref ≠ some s.ref) := by
    intro x hx
    obtain ⟨y, hy, rfl⟩ := List.mem_map.mp hx
    rw [hcl] at hy
    refine ⟨y, hy, ?_⟩
    split
    · exact ⟨rfl, rfl, rfl, fun _ h => by cases h⟩
    · next hn => exact ⟨rfl, rfl, rfl, fun ht hr => hn (by simp [ht, hr])⟩
  have htk : ∀ k' ∈ ((b0.put s').conns.filter (·.takenOver)).map (·.handle), ∀ x, ((b0.put s').clearRef s.ref).conn k' = some x → x.takenOver = true := by
    intro k' hk' x hx
    obtain ⟨z, hz, rfl⟩ := List.mem_map.mp hk'
    obtain ⟨hz, hzt⟩ := List.mem_filter.mp hz
    rw [hcl] at hz
    obtain ⟨hx, hxk⟩ := conn_mem hx
    obtain ⟨y, hy, h1, _, h3, _⟩ := hm1 x hx
    rw [h3, map_nodup_inj (·.handle) G.base.handles hy hz (by rw [← h1, hxk])]
    exact hzt
  obtain ⟨b2, es2, he2, M2, hc2, hd2⟩ := M1.closeAll (by intro s hs; exact ⟨hs.1, hs.2.1, rfl⟩) now _ htk
  have hcs : clearSession now s.ref (b0.put s') = some (b2, es2) := he2
  -- the connections which remain
  have hrem : ∀ x ∈ b2.conns, x.takenOver = false ∧ x.client ≠ id ∧ x.handle ≠ k ∧ x.ref ≠ some s.ref := by
    intro x hx
    rw [hc2] at hx
    obtain ⟨hx, hn⟩ := List.mem_filter.mp hx
    obtain ⟨y, hy, h1, h2, h3, h4⟩ := hm1 x hx
    have ht : x.takenOver = false := by
      cases hxt : x.takenOver with
      | false => rfl
      | true =>
        simp only [decide_not, Bool.not_eq_true', decide_eq_false_iff_not] at hn
        refine absurd (List.mem_map.mpr ⟨y, List.mem_filter.mpr ⟨by rw [hcl]; exact hy, by rw [← h3]; exact hxt⟩, h1.symm⟩) hn
    refine ⟨ht, fun hc => ?_, fun hk' => conn_none hk y hy (by rw [← h1, hk']), h4 ht⟩
    have := hid y hy (by rw [← h2, hc])
    rw [← h3, ht] at this
    cases this
  obtain ⟨s2, hs2, hr2, hc2', hx2, hm2, ht2⟩ := M2.own
  have hfind : b2.find s.ref = some s2 := by rw [← hr2]; exact find_of_mem M2.refs hs2
  -- all events
  have hes1b : ∀ e ∈ es1 ++ es2, Boring e ∧ OfConnect id e ∧ Quiet e := by
    intro e he
    rcases List.mem_append.mp he with he | he
    · rw [← hes1] at he
      rcases List.mem_append.mp he with he | he
      · rcases he0 with rfl | rfl
        · cases he
        · simp at he; subst he; exact ⟨trivial, rfl, trivial⟩
      · simp at he; subst he; exact ⟨trivial, rfl, trivial⟩
    · obtain ⟨d, rfl⟩ := hd2 e he; exact ⟨trivial, rfl, trivial⟩
  refine ⟨{ (b2.put { s2 with will := c.newWill now }) with conns := b2.conns ++ [{ handle := k, client := id, user := c.user, v5 := c.v5, ref := some s2.ref }] }, es1 ++ (es2 ++ [.connected id c.user c.sessionExpiry c.maxPacket (c.newWill now), .connack k id 0 (present && !c.clean)]),
    ⟨by simp only [thenDo, Option.bind_some, hcs, hfind, Option.map_some]; rfl, ?_⟩, ?_, e0, out, es2, present, by rw [hes1]; simp, hpres, hpe, hpe', hd2⟩
  rotate_left
  · refine ⟨{ handle := k, client := id, user := c.user, v5 := c.v5, ref := some s2.ref }, { s2 with will := c.newWill now }, ?_, rfl, rfl, rfl, ?_⟩
    · have : b2.conns.find? (fun x => x.handle == k) = none := List.find?_eq_none.mpr fun x hx => by simpa using (hrem x hx).2.2.1
      show List.find? _ (b2.conns ++ [_]) = _
      rw [List.find?_append, this]; simp
    · show Broker.find _ s2.ref = _
      exact find_of_mem (b := { (b2.put { s2 with will := c.newWill now }) with conns := _ }) (s := { s2 with will := c.newWill now })
        (Eq.mpr (congrArg List.Nodup (put_map (s := s2) (·.ref) M2.refs hs2 (by rfl) (by rfl))) M2.refs) (put_self hs2 rfl)
  rw [List.append_assoc] at M2
  have hhist : Spec.AtEach (Ok cfg) (h ++ (es1 ++ es2)) := atEach_boring G.hist fun e he => (hes1b e he).1
  generalize hL : es1 ++ es2 = L at *
  have hL2 : es1 ++ (es2 ++ [Ev.connected id c.user c.sessionExpiry c.maxPacket (c.newWill now), .connack k id 0 (present && !c.clean)]) =
      L ++ [Ev.connected id c.user c.sessionExpiry c.maxPacket (c.newWill now), .connack k id 0 (present && !c.clean)] := by
    rw [← hL, List.append_assoc]
  rw [hL2, ← List.append_assoc]
  generalize hH : h ++ L = H at M2 hhist
  generalize hT : [Ev.connected id c.user c.sessionExpiry c.maxPacket (c.newWill now), .connack k id 0 (present && !c.clean)] = T
  have hforeign : ∀ d, d ≠ id → ∀ e ∈ T, Foreign d e := by
    subst hT; intro d hd e he
    simp at he
    rcases he with rfl | rfl
    · exact foreign_connected (Ne.symm hd) _ _ _ _
    · exact foreign_connack _ _ _ _ _
  have hstill : ∀ e ∈ T, Still e := by
    subst hT; intro e he
    simp at he
    rcases he with rfl | rfl <;> exact ⟨fun _ => rfl, fun _ => rfl⟩
  have hother : ∀ t ∈ b2.sessions, t.ref ≠ s2.ref → t.client ≠ id := by
    intro t ht hne heq
    exact hne (by rw [map_nodup_inj (·.client) (by rw [M2.clients]; exact M2.nodup) ht hs2 (by rw [heq, hc2'])])
  have hlive := live_still H _ hstill
  have hnw : ∀ w, c.newWill now = some w → ValidPub w.pub ∧ w.planned = 0 := by
    intro w hw'
    obtain ⟨w0, h0, rfl⟩ := Option.map_eq_some_iff.mp hw'
    exact ⟨hw w0 h0, rfl⟩
  refine ⟨?_, ?_, ?_, ?_⟩
  · constructor
    · rw [hlive]; exact (put_map (s := s2) (·.client) M2.refs hs2 (by rfl) (by rfl)).trans M2.clients
    · rw [hlive]; exact M2.nodup
    · exact Eq.mpr (congrArg List.Nodup (put_map (s := s2) (·.ref) M2.refs hs2 (by rfl) (by rfl))) M2.refs
    · intro t ht
      rcases mem_put ht with rfl | ⟨ht, hne⟩
      · refine ((M2.core s2 hs2).aside T ?_ ?_ ?_).fields (c.newWill now) s2.expireTime s2.expiry s2.maxPacket s2.prevGrace s2.ref <;>
        · subst hT; intro e he l; simp at he; rcases he with rfl | rfl <;> rfl
      · exact (M2.core t ht).foreign _ (hforeign _ (hother t ht hne))
    · intro t ht
      rcases mem_put ht with rfl | ⟨ht, hne⟩
      · have hset : settings id (H ++ T) = (c.sessionExpiry, c.maxPacket) := by
          rw [settings_app]; subst hT; simp [settingsStep]
        have hend : ended id (H ++ T) = none := by
          rw [ended_app]; subst hT; simp [endedStep]
        exact ⟨by show s2.maxPacket = (settings s2.client _).2; rw [hc2', hset]; exact hm2, by show s2.expiry = (settings s2.client _).1; rw [hc2', hset]; exact hx2,
          by show s2.expireTime = match ended s2.client _ with | none => 0 | some t => expireTimeOf t s2.expiry
             rw [hc2', hend]; exact ht2,
          by show ended s2.client _ ≠ none → _; rw [hc2', hend]; exact fun h => absurd rfl h⟩
      · exact (M2.tail t ht (by rw [← hr2]; exact hne)).foreign _ (hforeign _ (hother t ht hne))
    · intro t ht
      rcases mem_put ht with rfl | ⟨ht, _⟩
      · exact fun w hw' => (hnw w hw').1
      · exact M2.willOk t ht
    · rw [retained_still H _ hstill]; exact M2.retain
    · exact M2.retainOk
    · show (List.map (fun x : Conn => x.handle) (b2.conns ++ [_])).Nodup
      rw [List.map_append]
      refine List.nodup_append.mpr ⟨M2.handles, by simp, ?_⟩
      intro a ha a' ha'
      simp at ha'
      subst ha'
      obtain ⟨x, hx, rfl⟩ := List.mem_map.mp ha
      exact (hrem x hx).2.2.1
    · intro x hx
      rcases List.mem_append.mp hx with hx | hx
      · obtain ⟨h1, h2, h3, _⟩ := hrem x hx
        have := M2.conns x hx
        constructor
        · obtain ⟨a, y, bb, he, hno⟩ := this.ack
          refine ⟨a, y, bb ++ T, by rw [he]; simp, fun k' c' y' hm => ?_⟩
          rcases List.mem_append.mp hm with hm | hm
          · exact hno k' c' y' hm
          · subst hT
            simp at hm
            obtain ⟨rfl, rfl, _⟩ := hm
            exact ⟨Ne.symm h3, fun _ => Ne.symm h2⟩
        · intro ht
          rw [this.user ht, user_app]
          subst hT
          simp [userStep, Ne.symm h2]
      · simp at hx
        subst hx
        constructor
        · refine ⟨H ++ [.connected id c.user c.sessionExpiry c.maxPacket (c.newWill now)], present && !c.clean, [], ?_, by simp⟩
          subst hT; simp
        · intro _
          show c.user = user id _
          rw [user_app]; subst hT; simp [userStep]
    · intro x hx r hxr t ht htr
      have hcl : t.client = t.client := rfl
      rcases List.mem_append.mp hx with hx | hx
      · have hne : r ≠ s.ref := by rintro rfl; exact (hrem x hx).2.2.2 hxr
        rcases mem_put ht with rfl | ⟨ht, _⟩
        · exact absurd (htr.symm.trans hr2) hne
        · exact M2.link x hx r hxr t ht htr hne
      · simp at hx
        subst hx
        simp at hxr
        subst hxr
        rcases mem_put ht with rfl | ⟨ht, hne⟩
        · exact hc2'
        · exact absurd htr hne
  · intro t ht
    rcases mem_put ht with rfl | ⟨ht, hne⟩
    · show c.newWill now = will s2.client _
      rw [will_app, hc2']; subst hT; simp [willStep]
    · rw [will_foreign _ _ _ (hforeign _ (hother t ht hne))]; exact M2.wills t ht
  · subst hT
    rw [show H ++ [Ev.connected id c.user c.sessionExpiry c.maxPacket (c.newWill now), .connack k id 0 (present && !c.clean)] =
      (H ++ [.connected id c.user c.sessionExpiry c.maxPacket (c.newWill now)]) ++ [.connack k id 0 (present && !c.clean)] by simp]
    refine atEach_snoc (atEach_snoc hhist ?_) ?_
    · constructor
      case loggedIn => intro d u x m w he; cases he; exact login_ok hlog
      all_goals ok_rest
    · constructor
      case present =>
        intro k' d x he
        cases he
        refine ⟨h, L ++ [.connected id c.user c.sessionExpiry c.maxPacket (c.newWill now)], by rw [← hH]; simp, ?_, ?_⟩
        · intro e he
          rcases List.mem_append.mp he with he | he
          · exact (hes1b e he).2.1
          · simp at he; subst he; rfl
        · rw [Bool.and_eq_true, hpres]
          refine and_congr Iff.rfl ?_
          constructor
          · intro hc m r t g o v hm
            simp at hc
            rcases List.mem_append.mp hm with hm | hm
            · rw [← hL] at hm
              rcases List.mem_append.mp hm with hm | hm
              · rw [← hes1] at hm
                rcases List.mem_append.mp hm with hm | hm
                · rcases he0 with rfl | rfl <;> simp at hm
                · rw [hc] at hm; simp at hm
              · obtain ⟨d, hd⟩ := hd2 _ hm; cases hd
            · simp at hm
          · intro hno
            cases hcc : c.clean with
            | false => rfl
            | true =>
              refine absurd ?_ (hno 125 c.receiveMax cfg.retry 2000000 out none)
              rw [← hL, ← hes1, hcc]
              simp
      all_goals ok_rest
  · intro d u x m w hm
    rcases List.mem_append.mp hm with hm | hm
    · rw [← hH] at hm
      rcases List.mem_append.mp hm with hm | hm
      · exact G.fresh d u x m w hm
      · exact ((hes1b _ hm).2.2).elim
    · subst hT
      simp at hm
      exact (hnw w hm.2.2.2.2.symm).2

theorem accept_fine {cfg : Config} {b : Broker} {h : List Ev} (G : Good cfg b h) (k alloc now : Nat) (c : Connect) (id : Bytes) (hk : b.conn k = none)
    (hid : ∀ x ∈ b.conns, x.client = id → x.takenOver = true) (hlog : loginReason cfg c = 0) (hw : ∀ w, c.will = some w → ValidPub w.pub) :
    Fine cfg h (accept cfg k alloc now c id b) := by
  obtain ⟨b', es, h1, _⟩ := accept_exact G k alloc now c id hk hid hlog hw
  exact ⟨b', es, h1⟩

theorem Good.serial {cfg : Config} {b : Broker} {h : List Ev} (G : Good cfg b h) (n : BitVec 32) : Good cfg { b with serial := n } h :=
  ⟨⟨G.base.clients, G.base.nodup, G.base.refs, G.base.core, G.base.tail, G.base.willOk, G.base.retain, G.base.retainOk, G.base.handles, G.base.conns,
    G.base.link⟩, G.wills, G.hist, G.fresh⟩

theorem Good.takeOver {cfg : Config} {b : Broker} {h : List Ev} (G : Good cfg b h) (id : Bytes) : Good cfg (b.takeOver id) h := by
  have hm : ∀ x ∈ (b.takeOver id).conns, ∃ y ∈ b.conns, x.handle = y.handle ∧ x.client = y.client ∧ x.user = y.user ∧ x.ref = y.ref ∧
      (x.takenOver = false → y.takenOver = false) := by
    intro x hx
    obtain ⟨y, hy, rfl⟩ := List.mem_map.mp hx
    refine ⟨y, hy, ?_⟩
    split
    · exact ⟨rfl, rfl, rfl, rfl, fun h => by cases h⟩
    · exact ⟨rfl, rfl, rfl, rfl, fun h => h⟩
  refine ⟨⟨G.base.clients, G.base.nodup, G.base.refs, G.base.core, G.base.tail, G.base.willOk, G.base.retain, G.base.retainOk, ?_, ?_, ?_⟩, G.wills, G.hist, G.fresh⟩
  · have : (b.takeOver id).conns.map (·.handle) = b.conns.map (·.handle) := by
      unfold Broker.takeOver
      rw [List.map_map]
      refine List.map_congr_left fun x _ => ?_
      simp only [Function.comp]
      split <;> rfl
    rw [this]; exact G.base.handles
  · intro x hx
    obtain ⟨y, hy, h1, h2, h3, _, h5⟩ := hm x hx
    have := G.base.conns y hy
    constructor
    · obtain ⟨a, z, bb, he, hno⟩ := this.ack
      exact ⟨a, z, bb, by rw [h1, h2]; exact he, fun k' c' y' hm => ⟨by rw [h1]; exact (hno k' c' y' hm).1, fun ht => by rw [h2]; exact (hno k' c' y' hm).2 (h5 ht)⟩⟩
    · intro ht; rw [h3, h2]; exact this.user (h5 ht)
  · intro x hx r hr s hs hsr
    obtain ⟨y, hy, _, h2, _, h4, _⟩ := hm x hx
    rw [h2]; exact G.base.link y hy r (by rw [← h4]; exact hr) s hs hsr

theorem refuse_fine {cfg : Config} {b : Broker} {h : List Ev} (G : Good cfg b h) (k : Nat) (c : Connect) (id : Bytes) (r : UInt8) (hr : r ≠ 0) :
    Fine cfg h (refuse k c id r b) := by
  unfold refuse
  refine .mk ?_
  have hb : ∀ e ∈ (if c.v5 || r != 0x83 then [Ev.connack k id r false] else []), Boring e ∧ (∀ d, Foreign d e) ∧ Still e ∧ Quiet e := by
    intro e he
    split at he
    · simp at he; subst he; exact ⟨hr, fun d => foreign_connack _ _ _ _ _, ⟨fun _ => rfl, fun _ => rfl⟩, hr⟩
    · cases he
  exact ⟨G.base.events _ fun e he => (hb e he).2, G.wills.events _ fun e he => (hb e he).2.1, atEach_boring G.hist fun e he => (hb e he).1,
    G.fresh.more _ fun e he => (hb e he).2.2.2⟩

theorem generate_free {b : Broker} : ∀ (n : Nat) (serial : BitVec 32) (id : Bytes) (s' : BitVec 32), generate b n serial = (some id, s') → taken b id = false := by
  intro n
  induction n with
  | zero => intro serial id s' h; simp [generate] at h
  | succ n ih =>
    intro serial id s' h
    rw [generate] at h
    split at h
    · exact ih _ _ _ h
    · next ht =>
      split at h
      · simp at h
      · simp at h; rw [← h.1]; simpa using ht

theorem not_taken {b : Broker} {id : Bytes} (h : taken b id = false) : ∀ x ∈ b.conns, x.client = id → x.takenOver = true := by
  intro x hx hc
  unfold taken at h
  have := List.any_eq_false.mp h x hx
  simp [hc] at this
  exact this

/-- CONNECT. -/
theorem connect_fine {cfg : Config} {b : Broker} {h : List Ev} (G : Good cfg b h) (k alloc now : Nat) (c : Connect) (discOk busy : Bool)
    (hw : ∀ w, c.will = some w → ValidPub w.pub) : Fine cfg h (connect cfg k alloc now c discOk busy b) := by
  unfold connect
  split
  · exact closeConn_fine G _ _ _
  · next hk =>
    have hk : b.conn k = none := by simpa using hk
    split
    · next hl => exact refuse_fine G _ _ _ _ hl
    · next hl =>
      have hl : loginReason cfg c = 0 := by simpa using hl
      split
      · split
        · exact refuse_fine G _ _ _ _ (by decide)
        · split
          · exact (G.serial _).fine
          · next id serial hg =>
            split
            · exact refuse_fine (G.serial _) _ _ _ _ (by decide)
            · exact accept_fine (G.serial serial) k alloc now c id hk (not_taken (b := b) (generate_free (b := b) _ _ _ _ hg)) hl hw
      · split
        · have hk' : (b.takeOver c.client).conn k = none := by
            cases hf : (b.takeOver c.client).conn k with
            | none => rfl
            | some x =>
              obtain ⟨hx, hxk⟩ := conn_mem hf
              obtain ⟨y, hy, rfl⟩ := List.mem_map.mp hx
              refine absurd ?_ (conn_none hk y hy)
              rw [← hxk]; split <;> rfl
          split
          · refine accept_fine (G.takeOver _) k alloc now c c.client hk' ?_ hl hw
            intro x hx hc
            obtain ⟨y, hy, rfl⟩ := List.mem_map.mp hx
            split at hc
            · next h => rw [if_pos h]
            · next h => exact absurd (by simpa using hc) h
          · exact (G.takeOver _).fine
        · next ht =>
          split
          · exact refuse_fine G _ _ _ _ (by decide)
          · exact accept_fine G k alloc now c c.client hk (not_taken (by simpa using ht)) hl hw

/-! ## Packets -/

/-- A handler works on the session of a connection. -/
theorem withSess_fine {cfg : Config} {b : Broker} {h : List Ev} (G : Good cfg b h) (k now : Nat) (f : Conn → Sess → Res)
    (hf : ∀ c s, c.handle = k → c.takenOver = false → s ∈ b.sessions → s.client = c.client → ConnOk h c → Fine cfg h (f c s)) :
    Fine cfg h (withSess k now b f) := by
  unfold withSess
  cases hc : b.conn k with
  | none => exact G.fine
  | some c =>
    obtain ⟨hm, hk⟩ := conn_mem hc
    simp only
    split
    · exact closeConn_fine G _ _ _
    · next ht =>
      split
      · exact (G.conns_sub _ List.filter_sublist).fine
      · next s hs =>
        obtain ⟨r, hr, hs⟩ := Option.bind_eq_some_iff.mp hs
        obtain ⟨hs, hsr⟩ := find_mem hs
        exact hf c s hk (by simpa using ht) hs (G.base.link c hm r hr s hs hsr) (G.base.conns c hm)

theorem ConnOk.own {h : List Ev} {c : Conn} (o : ConnOk h c) (ht : c.takenOver = false) (op : Session.Op) (out : Out) (x : List Ev) :
    OwnConnection h (.op c.client op out (some c.handle)) x := by
  intro d o' r k he
  cases he
  obtain ⟨a, x, b, h1, h2⟩ := o.ack
  exact ⟨a, x, b, h1, fun k' c' x' hm => ⟨(h2 k' c' x' hm).2 ht, (h2 k' c' x' hm).1⟩⟩

theorem ConnOk.distributes {h : List Ev} {c : Conn} (o : ConnOk h c) (ht : c.takenOver = false) (op : Session.Op) (out : Out) (now : Nat) :
    Distributes h (.op c.client op out (some c.handle)) (distribution now (.client c.client c.user) (h ++ [.op c.client op out (some c.handle)]) out.delivered) := by
  intro d o' r k he
  cases he
  exact ⟨now, [], by rw [List.append_nil, o.user ht]⟩

theorem publish_fine {cfg : Config} {b : Broker} {h : List Ev} (G : Good cfg b h) (k now : Nat) (p : Pub) (bad badProp : Option UInt8) (tx : Bool)
    (hv : Spec.Valid (.publish k now p bad badProp tx)) :
    Fine cfg h (withSess k now b fun c s => clientOp (.publish now p (verdict cfg c p bad badProp) tx) now 0x82 b c s) := by
  obtain ⟨h1, h2, h3, h4, h5, h6⟩ := hv
  refine withSess_fine G _ _ _ fun c s hk ht hs hsc hco => ?_
  have hacc : verdict cfg c p bad badProp = .accept → bad = none ∧ cfg.canWrite c.user p.topic = true := by
    unfold verdict
    intro hv
    split at hv
    · split at hv <;> cases hv
    · split at hv
      · next hw => exact ⟨rfl, hw⟩
      · split at hv <;> cases hv
  refine clientOp_fine G hs hsc _ _ _ ⟨h1, ⟨h2, h3⟩, ?_⟩ ?_ (by intro _ _ _ _ h; cases h) (hco.user ht) ?_
  · unfold verdict
    split
    · split
      · intro h; cases h
      · intro h; cases h; exact h4 rfl
    · split
      · split
        · intro h; cases h; exact h5 rfl
        · intro h; cases h
      · split <;> (intro h; cases h)
  · intro n r t he
    simp only [Session.Op.publish.injEq] at he
    obtain ⟨_, rfl, hv, _⟩ := he
    exact ⟨h6 (hacc hv).1, h2⟩
  · intro out
    rw [hsc]
    constructor
    case own => exact hco.own ht _ _ _
    case distributes => exact hco.distributes ht _ _ _
    case mayWrite =>
      intro d n r t o v he
      simp only [Ev.op.injEq, Session.Op.publish.injEq] at he
      obtain ⟨rfl, ⟨_, rfl, hv, _⟩, _⟩ := he
      rw [← hco.user ht]
      exact (hacc hv).2
    all_goals ok_rest

theorem ack_fine {cfg : Config} {b : Broker} {h : List Ev} (G : Good cfg b h) (k now : Nat) (a : Ack) (tx : Bool)
    (hv : Spec.Valid (.ack k now a tx)) : Fine cfg h (withSess k now b fun c s => clientOp (.ack a c.v5 tx) now 0x82 b c s) := by
  refine withSess_fine G _ _ _ fun c s hk ht hs hsc hco => ?_
  refine clientOp_fine G hs hsc _ _ _ ⟨hv.1, fun _ => hv.2⟩ (by intro _ _ _ h; cases h) (by intro _ _ _ _ h; cases h) (hco.user ht) fun out => ?_
  rw [hsc]
  constructor
  case own => exact hco.own ht _ _ _
  case distributes => exact hco.distributes ht _ _ _
  all_goals ok_rest

theorem pass_fine {cfg : Config} {b : Broker} {h : List Ev} (G : Good cfg b h) (k now : Nat) (tx : Nat → Tx) (hv : 0 < now) :
    Fine cfg h (withSess k now b (clientOp (.pass now tx) now 0 b)) := by
  refine withSess_fine G _ _ _ fun c s hk ht hs hsc hco => ?_
  refine clientOp_fine G hs hsc _ _ _ hv (by intro _ _ _ h; cases h) (by intro _ _ _ _ h; cases h) (hco.user ht) fun out => ?_
  rw [hsc]
  constructor
  case own => exact hco.own ht _ _ _
  case distributes => exact hco.distributes ht _ _ _
  all_goals ok_rest

theorem heartbeat_fine {cfg : Config} {b : Broker} {h : List Ev} (G : Good cfg b h) (k now : Nat) :
    Fine cfg h (withSess k now b fun _ s => some (b.put { s with heartbeat := now }, [.heartbeat s.client now])) := by
  refine withSess_fine G _ _ _ fun c s hk ht hs hsc hco => ?_
  refine .mk ?_
  have hforeign : ∀ e ∈ [Ev.heartbeat s.client now], (∀ d, d ≠ s.client → Foreign d e) ∧ Still e ∧ Quiet e := by
    intro e he
    simp at he; subst he
    exact ⟨fun d hd => foreign_heartbeat (Ne.symm hd) _, ⟨fun _ => rfl, fun _ => rfl⟩, trivial⟩
  have co := G.core hs
  have t := G.tail hs
  refine ⟨G.base.put (s' := { s with heartbeat := now }) hs rfl rfl _ hforeign ?_ ?_ (G.base.willOk s hs), ?_,
    atEach_boring G.hist (by intro e he; simp at he; subst he; trivial), G.fresh.more _ fun e he => (hforeign e he).2.2⟩
  · have hops : ops s.client (h ++ [.heartbeat s.client now]) = ops s.client h := by rw [ops_app]; rfl
    exact ⟨by show s.subs = subscriptions s.client _; rw [subscriptions_app]; exact co.subs, co.subsOk, co.filters,
      by show now = heard s.client _; rw [heard_app]; simp [heardStep],
      by show Session.run {} ((ops s.client _).map _) = some (s.q, (ops s.client _).map _); rw [hops]; exact co.q,
      by show ∀ o ∈ (ops s.client _).map _, _; rw [hops]; exact co.valid, fun p hp => ⟨(co.recv p hp).1, (co.recv p hp).2.more _⟩⟩
  · have hset : settings s.client (h ++ [.heartbeat s.client now]) = settings s.client h := by rw [settings_app]; rfl
    have hend : ended s.client (h ++ [.heartbeat s.client now]) = ended s.client h := by rw [ended_app]; rfl
    exact ⟨by show s.maxPacket = _; rw [hset]; exact t.maxPacket, by show s.expiry = _; rw [hset]; exact t.expiry,
      by show s.expireTime = _; rw [hend]; exact t.expireTime, by rw [hend]; exact t.notZero⟩
  · refine Wills.put (s' := { s with heartbeat := now }) G.base G.wills hs rfl rfl _ (fun e he => (hforeign e he).1) ?_
    show s.will = _
    rw [G.wills s hs, will_app]; rfl

/-- UNSUBSCRIBE. -/
theorem unsubscribe_fine {cfg : Config} {b : Broker} {h : List Ev} (G : Good cfg b h) (k now : Nat) (fs : List (Bytes × Nat)) (tx : Bool) :
    Fine cfg h (withSess k now b (unsubscribe now fs tx b)) := by
  refine withSess_fine G _ _ _ fun c s hk ht hs hsc hco => ?_
  unfold unsubscribe
  have co := G.core hs
  have t := G.tail hs
  obtain ⟨n, r, he⟩ := removeMatching_eq fs s.subs co.filters
  rw [he]
  simp only
  generalize hes : [Ev.unsubscribed s.client r] = es
  have hforeign : ∀ e ∈ es, (∀ d, d ≠ s.client → Foreign d e) ∧ Still e ∧ Quiet e := by
    subst hes
    intro e he
    simp at he; subst he
    exact ⟨fun d hd => foreign_unsubscribed (Ne.symm hd) _, ⟨fun _ => rfl, fun _ => rfl⟩, trivial⟩
  refine thenDo_fine (.mk ?_) fun b' _ _ G' => ?_
  · have hops : ops s.client (h ++ es) = ops s.client h := by subst hes; rw [ops_app]; rfl
    have hset : settings s.client (h ++ es) = settings s.client h := by subst hes; rw [settings_app]; rfl
    have hend : ended s.client (h ++ es) = ended s.client h := by subst hes; rw [ended_app]; rfl
    refine ⟨G.base.put (s' := { s with subs := s.subs.filter fun x => (x.filter, 0) ∉ r }) hs rfl rfl _ hforeign ?_ ?_ (G.base.willOk s hs), ?_,
      atEach_boring G.hist (by subst hes; intro e he; simp at he; subst he; trivial), G.fresh.more _ fun e he => (hforeign e he).2.2⟩
    · exact ⟨by show s.subs.filter _ = subscriptions s.client _; rw [subscriptions_app, ← co.subs]; subst hes; simp [subsStep],
        fun x hx => co.subsOk x (List.mem_filter.mp hx).1, co.filters.sublist (List.filter_sublist.map _),
        by show s.heartbeat = heard s.client _; rw [heard_app, ← co.heartbeat]; subst hes; rfl,
        by show Session.run {} ((ops s.client _).map _) = some (s.q, (ops s.client _).map _); rw [hops]; exact co.q,
        by show ∀ o ∈ (ops s.client _).map _, _; rw [hops]; exact co.valid, fun p hp => ⟨(co.recv p hp).1, (co.recv p hp).2.more _⟩⟩
    · exact ⟨by show s.maxPacket = _; rw [hset]; exact t.maxPacket, by show s.expiry = _; rw [hset]; exact t.expiry,
        by show s.expireTime = _; rw [hend]; exact t.expireTime, by rw [hend]; exact t.notZero⟩
    · refine Wills.put (s' := { s with subs := s.subs.filter fun x => (x.filter, 0) ∉ r }) G.base G.wills hs rfl rfl _ (fun e he => (hforeign e he).1) ?_
      show s.will = _
      rw [G.wills s hs, will_app]; subst hes; rfl
  · split
    · exact G'.fine
    · exact closeConn_fine G' _ _ _

/-! ## SUBSCRIBE -/

theorem allowSubs_mem {cfg : Config} {u : Bytes} {subs : List Subscription.Sub} {x : Subscription.Sub} (h : x ∈ allowSubs cfg u subs) (hq : x.qos ≤ 2) :
    x ∈ subs ∧ cfg.canRead u x.filter = true := by
  obtain ⟨y, hy, rfl⟩ := List.mem_map.mp h
  split at hq
  · next hr => rw [if_pos hr]; exact ⟨hy, hr⟩
  · simp at hq

theorem retainedFor_eq (c : Bytes) (now : Nat) (h : List Ev) (new : List Subscription.Sub) :
    retainedFor c now h new = (((retained h).filter fun p => !p.expired now).flatMap fun p => (new.filter (matching p.topic)).map (retainCopy p)).map
      fun x => .op c (.retained x) {} := by
  unfold retainedFor
  rw [List.map_flatMap]
  refine congrArg (fun f => List.flatMap f _) (funext fun p => ?_)
  rw [List.map_map]; rfl

/-- A session gets subscriptions and retained messages. -/
theorem Good.subscribed {cfg : Config} {b : Broker} {h : List Ev} (G : Good cfg b h) {s : Sess} (hs : s ∈ b.sessions) (now : Nat) (xs : List Subscription.Sub)
    (hx : ∀ x ∈ xs, x.qos ≤ 2 → Subscription.SubOk x) (hread : ∀ x ∈ xs, x.qos ≤ 2 → cfg.canRead (user s.client h) x.filter = true)
    (R : List Pub) (cs : List Pub) (new : List Subscription.Sub) (hnew : new = newSubs s.subs xs)
    (hR : R = if new = [] then b.retain else b.retain.filter fun p => !p.expired now)
    (hcs : cs = (b.retain.filter fun p => !p.expired now).flatMap fun p => (new.filter (matching p.topic)).map (retainCopy p)) :
    Good cfg (({ b with retain := R } : Broker).put { s with subs := (xs.filter fun x => x.qos ≤ 2).foldl addSub s.subs, q := delayAll cs s.q })
      (h ++ (.subscribed s.client now xs new :: cs.map fun x => .op s.client (.retained x) {})) := by
  have co := G.core hs
  have t := G.tail hs
  have hev : (cs.map fun x => Ev.op s.client (.retained x) {}) = retainedFor s.client now h new := by
    rw [retainedFor_eq, ← G.base.retain, hcs]
  have hq : ∀ x ∈ cs, x.qos ≤ 2 := by
    intro x hx
    rw [hcs] at hx
    obtain ⟨p, hp, hx⟩ := List.mem_flatMap.mp hx
    obtain ⟨y, _, rfl⟩ := List.mem_map.mp hx
    exact Nat.le_trans (Nat.min_le_left _ _) (G.base.retainOk.valid p (List.mem_filter.mp hp).1).1.2
  generalize hes : (Ev.subscribed s.client now xs new :: cs.map fun x => Ev.op s.client (.retained x) {}) = es
  have hmem : ∀ e ∈ es, e = .subscribed s.client now xs new ∨ ∃ x, e = .op s.client (.retained x) {} := by
    subst hes
    intro e he
    rcases List.mem_cons.mp he with rfl | he
    · exact .inl rfl
    · obtain ⟨x, _, rfl⟩ := List.mem_map.mp he; exact .inr ⟨x, rfl⟩
  have hforeign : ∀ e ∈ es, (∀ d, d ≠ s.client → Foreign d e) ∧ (∀ l, liveStep l e = l) ∧ Quiet e := by
    intro e he
    rcases hmem e he with rfl | ⟨x, rfl⟩
    · exact ⟨fun d hd => foreign_subscribed (Ne.symm hd) _ _ _, fun _ => rfl, trivial⟩
    · exact ⟨fun d hd => foreign_op (Ne.symm hd) _ _ _, fun _ => rfl, trivial⟩
  have hops : ops s.client (h ++ es) = ops s.client h ++ cs.map fun x => (.retained x, ({} : Out)) := by
    rw [ops_app, ← hes, List.foldl_cons]
    show List.foldl _ (ops s.client h) _ = _
    have : ∀ (cs : List Pub) (l : List (Session.Op × Out)),
        List.foldl (opsStep s.client) l (cs.map fun x => Ev.op s.client (.retained x) {}) = l ++ cs.map fun x => (.retained x, ({} : Out)) := by
      intro cs
      induction cs with
      | nil => intro l; simp
      | cons x cs ih => intro l; rw [List.map_cons, List.foldl_cons, ih]; simp [opsStep]
    exact this cs _
  have hset : settings s.client (h ++ es) = settings s.client h := by
    rw [settings_app]; exact foldl_same _ _ _ fun e he x => by rcases hmem e he with rfl | ⟨x, rfl⟩ <;> rfl
  have hend : ended s.client (h ++ es) = ended s.client h := by
    rw [ended_app]; exact foldl_same _ _ _ fun e he x => by rcases hmem e he with rfl | ⟨x, rfl⟩ <;> rfl
  have hheard : heard s.client (h ++ es) = heard s.client h := by
    rw [heard_app]; exact foldl_same _ _ _ fun e he x => by rcases hmem e he with rfl | ⟨x, rfl⟩ <;> rfl
  have hwill : will s.client (h ++ es) = will s.client h := by
    rw [will_app]; exact foldl_same _ _ _ fun e he x => by rcases hmem e he with rfl | ⟨x, rfl⟩ <;> rfl
  have hsubs : subscriptions s.client (h ++ es) = (xs.filter fun x => x.qos ≤ 2).foldl addSub s.subs := by
    rw [subscriptions_app, ← hes, List.foldl_cons, ← co.subs, foldl_same]
    · simp [subsStep]
    · intro e he l
      obtain ⟨x, _, rfl⟩ := List.mem_map.mp he; rfl
  have hret : retained (h ++ es) = R := by
    rw [retained_app, ← hes, List.foldl_cons, ← G.base.retain, foldl_same]
    · rw [hR]; rfl
    · intro e he l
      obtain ⟨x, _, rfl⟩ := List.mem_map.mp he; rfl
  have hfold := foldl_addSub (fun x => Subscription.SubOk x ∧ x.qos ≤ 2) (xs.filter fun x => x.qos ≤ 2) s.subs co.filters co.subsOk (by
    intro x hx'
    obtain ⟨h1, h2⟩ := List.mem_filter.mp hx'
    have h2 : x.qos ≤ 2 := by simpa using h2
    exact ⟨hx x h1 h2, h2⟩)
  refine ⟨G.base.putRetain (s' := { s with subs := (xs.filter fun x => x.qos ≤ 2).foldl addSub s.subs, q := delayAll cs s.q }) hs rfl rfl _ hforeign
    ?_ ?_ (G.base.willOk s hs) R hret ?_, ?_, ?_, G.fresh.more _ fun e he => (hforeign e he).2.2⟩
  · refine ⟨hsubs.symm, hfold.2, hfold.1, by show s.heartbeat = heard s.client _; rw [hheard]; exact co.heartbeat, ?_, ?_,
      fun p hp => ⟨(co.recv p hp).1, (co.recv p hp).2.more _⟩⟩
    · show Session.run {} ((ops s.client _).map _) = some (delayAll _ _, (ops s.client _).map _)
      rw [hops, List.map_append, List.map_append, run_app _ _ _ _ co.q, List.map_map, List.map_map]
      rw [show ((fun x : Session.Op × Out => x.1) ∘ fun x => (Session.Op.retained x, ({} : Out))) = Session.Op.retained from rfl, run_retained cs s.q]
      rfl
    · show ∀ o ∈ (ops s.client _).map _, _
      rw [hops, List.map_append, List.map_map]
      intro o ho
      rcases List.mem_append.mp ho with ho | ho
      · exact co.valid o ho
      · obtain ⟨x, hx, rfl⟩ := List.mem_map.mp ho
        exact hq x hx
  · exact ⟨by show s.maxPacket = _; rw [hset]; exact t.maxPacket, by show s.expiry = _; rw [hset]; exact t.expiry,
      by show s.expireTime = _; rw [hend]; exact t.expireTime, by rw [hend]; exact t.notZero⟩
  · rw [hR]
    split
    · exact G.base.retainOk
    · exact ⟨G.base.retainOk.topics.sublist (List.filter_sublist.map _), fun p hp => G.base.retainOk.valid p (List.mem_filter.mp hp).1⟩
  · intro t' ht'
    rcases mem_put ht' with rfl | ⟨ht', hne⟩
    · show s.will = will s.client _
      rw [hwill]; exact G.wills s hs
    · rw [will_foreign]
      · exact G.wills t' ht'
      · intro e he
        refine (hforeign e he).1 _ fun h => hne ?_
        rw [map_nodup_inj (·.client) (by rw [G.base.clients]; exact G.base.nodup) ht' hs h]
  · refine atEach_app G.hist fun e1 x e2 he => ?_
    rw [← hes] at he
    cases e1 with
    | nil =>
      simp only [List.nil_append, List.cons.injEq] at he
      obtain ⟨rfl, rfl⟩ := he
      rw [List.append_nil]
      constructor
      case retains =>
        intro d n ys nw he
        cases he
        exact ⟨by rw [← co.subs]; exact hnew, [], by rw [hev, List.append_nil]⟩
      case mayRead =>
        intro d n ys nw he
        cases he
        exact hread
      all_goals ok_rest
    | cons y e1 =>
      simp only [List.cons_append, List.cons.injEq] at he
      obtain ⟨rfl, he⟩ := he
      have hx' : ∃ y, x = .op s.client (.retained y) {} := by
        have : x ∈ cs.map fun x => Ev.op s.client (.retained x) {} := by rw [he]; simp
        obtain ⟨y, _, rfl⟩ := List.mem_map.mp this
        exact ⟨y, rfl⟩
      obtain ⟨y, rfl⟩ := hx'
      constructor
      case onlyRetained =>
        intro d z r v hz
        cases hz
        exact ⟨h, now, xs, new, e1, e2, rfl, by rw [← hev]; exact he⟩
      all_goals ok_rest

/-- SUBSCRIBE. -/
theorem subscribe_fine {cfg : Config} {b : Broker} {h : List Ev} (G : Good cfg b h) (k now : Nat) (subs : List Subscription.Sub) (tx : Bool)
    (hv : Spec.Valid (.subscribe k now subs tx)) : Fine cfg h (withSess k now b (subscribe cfg now subs tx b)) := by
  obtain ⟨hne, hv⟩ := hv
  refine withSess_fine G _ _ _ fun c s hk ht hs hsc hco => ?_
  have co := G.core hs
  unfold subscribe
  rw [if_neg hne]
  simp only [appendCopy_eq _ _ _ co.filters, List.nil_append]
  generalize hxs : allowSubs cfg c.user subs = xs
  have hx : ∀ x ∈ xs, x.qos ≤ 2 → Subscription.SubOk x := by
    subst hxs; intro x hx hq; exact hv x (allowSubs_mem hx hq).1 hq
  have hread : ∀ x ∈ xs, x.qos ≤ 2 → cfg.canRead (user s.client h) x.filter = true := by
    subst hxs; intro x hx hq; rw [hsc, ← hco.user ht]; exact (allowSubs_mem hx hq).2
  have hret : retainedFor s.client now h (newSubs s.subs xs) = (((b.retain.filter fun p => !p.expired now).flatMap fun p =>
      ((newSubs s.subs xs).filter (matching p.topic)).map (retainCopy p)).map fun x => .op s.client (.retained x) {}) := by
    rw [retainedFor_eq, G.base.retain]
  suffices hmain : ∃ b1, (if newSubs s.subs xs = [] then some (b.put { s with subs := (xs.filter fun x => x.qos ≤ 2).foldl addSub s.subs }, [Ev.subscribed s.client now xs []])
      else match retainWalk now (newSubs s.subs xs) b.retain with
        | none => none
        | some (kept, cs) => (opsSess (cs.map .retained) { s with subs := (xs.filter fun x => x.qos ≤ 2).foldl addSub s.subs }).map fun x =>
            (({ b with retain := kept } : Broker).put x.1, Ev.subscribed x.1.client now xs (newSubs s.subs xs) :: x.2)) =
        some (b1, .subscribed s.client now xs (newSubs s.subs xs) :: retainedFor s.client now h (newSubs s.subs xs)) ∧
      Good cfg b1 (h ++ (.subscribed s.client now xs (newSubs s.subs xs) :: retainedFor s.client now h (newSubs s.subs xs))) by
    obtain ⟨b1, he1, G1⟩ := hmain
    refine thenDo_fine ⟨b1, _, he1, G1⟩ ?_
    intro b' es hes G'
    have hes := Option.some.inj (he1.symm.trans hes)
    simp only [Prod.mk.injEq] at hes
    obtain ⟨rfl, rfl⟩ := hes
    split
    · refine .mk ?_
      have hb : ∀ e ∈ [Ev.suback c.handle (xs.map (·.qos))], (∀ d, Foreign d e) ∧ Still e ∧ Quiet e := by
        intro e he
        simp at he; subst he; exact ⟨fun d => foreign_suback _ _ _, ⟨fun _ => rfl, fun _ => rfl⟩, trivial⟩
      refine ⟨G'.base.events _ hb, G'.wills.events _ fun e he => (hb e he).1, atEach_snoc G'.hist ?_, G'.fresh.more _ fun e he => (hb e he).2.2⟩
      constructor
      case suback =>
        intro k' codes he
        cases he
        obtain ⟨a, y, bb, h1, h2⟩ := hco.ack
        exact ⟨h, s.client, now, xs, _, rfl, rfl, a, y, bb, by rw [hsc]; exact h1, fun k' c' x' hm => ⟨by rw [hsc]; exact (h2 k' c' x' hm).2 ht, (h2 k' c' x' hm).1⟩⟩
      all_goals ok_rest
    · exact closeConn_fine G' _ _ _
  rw [hret]
  split
  · next hn =>
    rw [hn]
    have := G.subscribed hs now xs hx hread b.retain [] [] hn.symm (by simp) (by simp)
    have hfm : ∀ l : List Pub, l.flatMap (fun p => (([] : List Subscription.Sub).filter (matching p.topic)).map (retainCopy p)) = [] := fun l => by simp
    refine ⟨b.put { s with subs := (xs.filter fun x => x.qos ≤ 2).foldl addSub s.subs }, by simp, ?_⟩
    have : Good cfg (b.put { s with subs := (xs.filter fun x => x.qos ≤ 2).foldl addSub s.subs }) (h ++ [.subscribed s.client now xs []]) := by
      simpa [delayAll] using this
    rw [hfm]
    exact this
  · next hn =>
    rw [G.base.retain, retainWalk_eq now _ (fun x hx' => hx x (newSubs_mem _ _ x hx').1 (newSubs_mem _ _ x hx').2) _ (by rw [← G.base.retain]; exact G.base.retainOk)]
    simp only [opsSess_retained, Option.map_some]
    exact ⟨_, rfl, G.subscribed hs now xs hx hread _ _ _ rfl (by rw [if_neg hn, G.base.retain]) (by rw [G.base.retain])⟩

/-! ## All operations -/

theorem step_fine {cfg : Config} {b : Broker} {h : List Ev} (G : Good cfg b h) (o : Op) (hv : Spec.Valid o) : Fine cfg h (step cfg b o) := by
  cases o with
  | connect k alloc now c discOk busy => exact connect_fine G k alloc now c discOk busy hv
  | publish k now p bad badProp tx => exact publish_fine G k now p bad badProp tx hv
  | ack k now a tx => exact ack_fine G k now a tx hv
  | pass k now tx => exact pass_fine G k now tx hv
  | subscribe k now subs tx => exact subscribe_fine G k now subs tx hv
  | unsubscribe k now fs tx => exact unsubscribe_fine G k now fs tx
  | heartbeat k now => exact heartbeat_fine G k now
  | close k now r => exact closeConn_fine G k now r
  | maintain now => exact maintainAll_fine now _ G

theorem run_fine {cfg : Config} : ∀ (os : List Op) {b : Broker} {h : List Ev}, Good cfg b h → (∀ o ∈ os, Spec.Valid o) → Fine cfg h (run cfg b os) := by
  intro os
  induction os with
  | nil => intro b h G _; exact G.fine
  | cons o os ih =>
    intro b h G hv
    exact thenDo_fine (step_fine G o (hv o List.mem_cons_self)) fun b' es _ G' => ih G' fun o' ho => hv o' (List.mem_cons_of_mem _ ho)

theorem good_init (cfg : Config) : Good cfg {} [] where
  base := ⟨rfl, List.nodup_nil, List.nodup_nil, by intro s hs; (cases hs), by intro s hs; (cases hs), by intro s hs; (cases hs), rfl,
    ⟨List.nodup_nil, by intro s hs; (cases hs)⟩, List.nodup_nil, by intro s hs; (cases hs), by intro s hs; (cases hs)⟩
  wills := by intro s hs; cases hs
  hist := by intro a e b h; simp at h
  fresh := by intro c u x m w h; cases h

/-- From the beginning. -/
theorem run_good (cfg : Config) (os : List Op) (hv : ∀ o ∈ os, Spec.Valid o) : ∃ b h, run cfg {} os = some (b, h) ∧ Good cfg b h := by
  obtain ⟨b, es, h1, h2⟩ := run_fine os (good_init cfg) hv
  exact ⟨b, es, h1, by simpa using h2⟩

end Verif.Broker
