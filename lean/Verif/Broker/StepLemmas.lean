import Verif.Broker.EndLemmas
/-!
# The operations of the broker keep the invariant
-/
namespace Verif.Broker
open Verif Session Spec

/-- There is no abort, and the invariant holds afterwards. -/
def Fine (cfg : Config) (h : List Ev) (r : Res) : Prop := ∃ b es, r = some (b, es) ∧ Good cfg b (h ++ es)

theorem Fine.mk {cfg : Config} {h : List Ev} {b : Broker} {es : List Ev} (g : Good cfg b (h ++ es)) : Fine cfg h (some (b, es)) := ⟨b, es, rfl, g⟩

theorem Good.fine {cfg : Config} {h : List Ev} {b : Broker} (g : Good cfg b h) : Fine cfg h (some (b, [])) := .mk (by rwa [List.append_nil])

theorem thenDo_fine {cfg : Config} {h : List Ev} {r : Res} {f : Broker → Res} (hr : Fine cfg h r)
    (hf : ∀ b es, r = some (b, es) → Good cfg b (h ++ es) → Fine cfg (h ++ es) (f b)) : Fine cfg h (thenDo r f) := by
  obtain ⟨b, es, rfl, g⟩ := hr
  obtain ⟨b', es', h1, g'⟩ := hf b es rfl g
  exact ⟨b', es ++ es', by simp [thenDo, h1], by rwa [List.append_assoc] at g'⟩

theorem Good.conns_sub {cfg : Config} {b : Broker} {h : List Ev} (G : Good cfg b h) (l : List Conn) (hl : l.Sublist b.conns) : Good cfg { b with conns := l } h :=
  ⟨G.base.conns_sub l hl, G.wills, G.hist, G.fresh⟩

theorem Good.core {cfg : Config} {b : Broker} {h : List Ev} (G : Good cfg b h) {s : Sess} (hs : s ∈ b.sessions) : SessCore h s := G.base.core s hs
theorem Good.tail {cfg : Config} {b : Broker} {h : List Ev} (G : Good cfg b h) {s : Sess} (hs : s ∈ b.sessions) : SessTail h s := G.base.tail s hs

/-- Events which do not concern subscriptions and queues. -/
theorem SessCore.aside {h : List Ev} {s : Sess} (c : SessCore h s) (es : List Ev)
    (h1 : ∀ e ∈ es, ∀ l, subsStep s.client l e = l) (h2 : ∀ e ∈ es, ∀ l, heardStep s.client l e = l) (h3 : ∀ e ∈ es, ∀ l, opsStep s.client l e = l) :
    SessCore (h ++ es) s where
  subs := by rw [subscriptions_app, foldl_same _ _ _ h1]; exact c.subs
  subsOk := c.subsOk
  filters := c.filters
  heartbeat := by rw [heard_app, foldl_same _ _ _ h2]; exact c.heartbeat
  q := by rw [ops_app, foldl_same _ _ _ h3]; exact c.q
  valid := by rw [ops_app, foldl_same _ _ _ h3]; exact c.valid
  recv := fun p hp => ⟨(c.recv p hp).1, (c.recv p hp).2.more es⟩

/-- The fields which are not mentioned do not matter. -/
theorem SessCore.fields {h : List Ev} {s : Sess} (c : SessCore h s) (w : Option Will) (t e m g r : Nat) :
    SessCore h { s with ref := r, will := w, expireTime := t, expiry := e, maxPacket := m, prevGrace := g } :=
  ⟨c.subs, c.subsOk, c.filters, c.heartbeat, c.q, c.valid, c.recv⟩

theorem still_disconnected (c : Bytes) (t : Nat) (r : UInt8) : Still (.disconnected c t r) := ⟨fun _ => rfl, fun _ => rfl⟩

theorem will_disconnected (c : Bytes) (h : List Ev) (now : Nat) (r : UInt8) (hr : r ≠ 0x8E) :
    will c (h ++ [.disconnected c now r]) = willUpon now r (will c h) := by
  rw [will_app, List.foldl_cons, List.foldl_nil]
  simp only [willStep, willUpon, willDelayUs]
  simp only [true_and, ne_eq, hr, not_false_eq_true, if_true]
  cases will c h <;> simp

/-- The connection of a client ends: `mqtt_session_ram.c:2776-2833`. -/
theorem notifyDisconnect_fine {cfg : Config} {b : Broker} {h : List Ev} (G : Good cfg b h) (r now : Nat) (reason : UInt8) :
    ∃ b' es, notifyDisconnect r now reason b = some (b', es) ∧ Good cfg b' (h ++ es) ∧ b'.conns = b.conns := by
  unfold notifyDisconnect
  cases hf : b.find r with
  | none => exact ⟨b, [], rfl, by rwa [List.append_nil], rfl⟩
  | some s =>
    obtain ⟨hs, hr⟩ := find_mem hf
    have core : SessCore (h ++ [.disconnected s.client now reason]) s :=
      (G.core hs).aside _ (by intro e he l; simp at he; subst he; rfl) (by intro e he l; simp at he; subst he; rfl) (by intro e he l; simp at he; subst he; rfl)
    have t := G.tail hs
    have hforeign : ∀ e ∈ [Ev.disconnected s.client now reason], (∀ d, d ≠ s.client → Foreign d e) ∧ Still e ∧ Quiet e := by
      intro e he
      simp at he; subst he
      exact ⟨fun d hd => foreign_disconnected (Ne.symm hd) _ _, still_disconnected _ _ _, trivial⟩
    have hset : settings s.client (h ++ [.disconnected s.client now reason]) = settings s.client h := by rw [settings_app]; rfl
    simp only
    by_cases hre : reason = 0x8E
    · rw [if_pos hre]
      refine ⟨_, _, rfl, ⟨?_, ?_, ?_, G.fresh.more _ fun e he => (hforeign e he).2.2⟩, rfl⟩
      · refine G.base.put (s' := { s with expireTime := 0 }) hs rfl rfl _ hforeign (core.fields s.will 0 s.expiry s.maxPacket s.prevGrace s.ref) ?_ (G.base.willOk s hs)
        have hend : ended s.client (h ++ [.disconnected s.client now reason]) = none := by
          rw [ended_app]; simp [endedStep, hre]
        exact ⟨by show s.maxPacket = _; rw [hset]; exact t.maxPacket, by show s.expiry = _; rw [hset]; exact t.expiry,
          by show 0 = _; rw [hend], by show _ → s.expiry ≠ 0; rw [hend]; exact fun h => absurd rfl h⟩
      · refine Wills.put (s' := { s with expireTime := 0 }) G.base G.wills hs rfl rfl _ (fun e he => (hforeign e he).1) ?_
        show s.will = _
        rw [G.wills s hs, will_app]
        simp [willStep, hre]
      · exact atEach_boring G.hist (by intro e he; simp at he; subst he; trivial)
    · rw [if_neg hre]
      have hwill := will_disconnected s.client h now reason hre
      have hwv : ∀ w, willUpon now reason s.will = some w → ValidPub w.pub := by
        intro w hw
        unfold willUpon at hw
        split at hw
        · next w0 hw0 =>
          split at hw
          · cases hw
          · simp only [Option.some.injEq] at hw; subst hw; exact G.base.willOk s hs w0 hw0
        · cases hw
      have hend : ended s.client (h ++ [.disconnected s.client now reason]) = some now := by
        rw [ended_app]; simp [endedStep, hre]
      have hf1 := G.fresh.more _ fun e he => (hforeign e he).2.2
      by_cases hx : s.expiry = 0
      · rw [if_pos hx, ← hr]
        have B := G.base.remove hs [.disconnected s.client now reason] now hforeign
        have W := G.wills.remove G.base hs [.disconnected s.client now reason] now fun e he => (hforeign e he).1
        have hnl : s.client ∉ live (h ++ ([.disconnected s.client now reason] ++ [.removed s.client now])) := by
          rw [← B.clients, remove_clients G.base hs]
          simp
        obtain ⟨b', es, he, B', W', hc, _, _, _, hes⟩ := willMaintain_base B W
          { s with expireTime := expireTimeOf now s.expiry, will := willUpon now reason s.will } now true hwv
          (fun t ht => ⟨fun h => absurd (List.mem_map.mpr ⟨t, ht, h⟩) (by rw [B.clients]; exact hnl), fun h => absurd h (mem_remove.mp ht).2⟩)
        refine ⟨b', [.disconnected s.client now reason, .removed s.client now] ++ es, by simp [thenDo, he], ?_, hc⟩
        have hh : Spec.AtEach (Ok cfg) (h ++ ([.disconnected s.client now reason] ++ [.removed s.client now])) := by
          rw [← List.append_assoc]
          refine atEach_snoc (atEach_boring G.hist (by intro e he; simp at he; subst he; trivial)) ?_
          constructor
          · ok_rest
          · ok_rest
          · ok_rest
          · ok_rest
          · ok_rest
          · ok_rest
          · ok_rest
          · ok_rest
          · ok_rest
          · intro c n h'
            cases h'
            rw [hset, hend, ← t.expiry, hx]
            exact .inl ⟨now, rfl, by decide, by omega⟩
          · ok_rest
          · ok_rest
          · ok_rest
          · ok_rest
          · ok_rest
        have hf2 : FreshWills (h ++ ([.disconnected s.client now reason] ++ [.removed s.client now])) := by
          rw [← List.append_assoc]
          exact hf1.more _ (by intro e he; simp at he; subst he; trivial)
        rw [← List.append_assoc]
        refine ⟨B', W', ?_, ?_⟩
        · rcases hes with rfl | ⟨w, hw, rfl⟩
          · rw [List.append_nil]; exact hh
          · obtain ⟨hw1, hw2, _⟩ := willDue_spec hw
            have := ok_published (cfg := cfg) (now := now) (p := w.pub) (src := .will s.client) (h := h ++ ([.disconnected s.client now reason] ++ [.removed s.client now])) []
              (by intro c u h'; cases h') (by intro _ _ _ _ h'; cases h') (by
                intro c h'
                cases h'
                refine willOnce_of hf2 ?_ hw2 _ (.inr (.inl hnl))
                rw [← List.append_assoc, will_app, hwill, ← G.wills s hs]
                exact hw1) (by intro e1 x e2 h'; simp at h') hh
            simpa using this
        · refine hf2.more _ ?_
          intro e he
          rcases hes with rfl | ⟨w, hw, rfl⟩
          · cases he
          · rcases List.mem_cons.mp he with rfl | he
            · trivial
            · obtain ⟨_, _, _, _, rfl⟩ := forwarded_mem he; trivial
      · rw [if_neg hx]
        have B := G.base.put (s' := { s with expireTime := expireTimeOf now s.expiry, will := willUpon now reason s.will }) hs rfl rfl _ hforeign
          (core.fields _ _ s.expiry s.maxPacket s.prevGrace s.ref)
          ⟨by show s.maxPacket = _; rw [hset]; exact t.maxPacket, by show s.expiry = _; rw [hset]; exact t.expiry,
            by show expireTimeOf _ _ = _; rw [hend], fun _ => hx⟩ hwv
        have W := Wills.put (s' := { s with expireTime := expireTimeOf now s.expiry, will := willUpon now reason s.will }) G.base G.wills hs rfl rfl _
          (fun e he => (hforeign e he).1) (by show willUpon now reason s.will = _; rw [hwill, G.wills s hs])
        obtain ⟨b', es, he, B', W', hc, _, _, _, hes⟩ := willMaintain_base B W
          { s with expireTime := expireTimeOf now s.expiry, will := willUpon now reason s.will } now false hwv
          (fun t ht => by
            rcases mem_put ht with rfl | ⟨ht, hne⟩
            · exact ⟨fun _ => rfl, fun _ => rfl⟩
            · exact ⟨fun h => by rw [map_nodup_inj (·.client) (by rw [G.base.clients]; exact G.base.nodup) ht hs h], fun h => absurd h hne⟩)
        refine ⟨b', [.disconnected s.client now reason] ++ es, by simp [thenDo, he], ?_, hc⟩
        have hh : Spec.AtEach (Ok cfg) (h ++ [.disconnected s.client now reason]) :=
          atEach_boring G.hist (by intro e he; simp at he; subst he; trivial)
        rw [← List.append_assoc]
        refine ⟨B', W', ?_, ?_⟩
        · rcases hes with rfl | ⟨w, hw, rfl⟩
          · rw [List.append_nil]; exact hh
          · obtain ⟨hw1, hw2, hw3⟩ := willDue_spec hw
            have := ok_published (cfg := cfg) (now := now) (p := w.pub) (src := .will s.client) (h := h ++ [.disconnected s.client now reason]) []
              (by intro c u h'; cases h') (by intro _ _ _ _ h'; cases h') (by
                intro c h'
                cases h'
                refine willOnce_of hf1 ?_ hw2 _ (.inl (by simpa using hw3))
                rw [hwill, ← G.wills s hs]
                exact hw1) (by intro e1 x e2 h'; simp at h') hh
            simpa using this
        · refine hf1.more _ ?_
          intro e he
          rcases hes with rfl | ⟨w, hw, rfl⟩
          · cases he
          · rcases List.mem_cons.mp he with rfl | he
            · trivial
            · obtain ⟨_, _, _, _, rfl⟩ := forwarded_mem he; trivial

/-- A connection ends. -/
theorem closeConn_fine {cfg : Config} {b : Broker} {h : List Ev} (G : Good cfg b h) (k now : Nat) (r : UInt8) : Fine cfg h (closeConn k now r b) := by
  unfold closeConn
  cases b.conn k with
  | none => exact G.fine
  | some c =>
    simp only
    have G' := G.conns_sub (b.conns.filter fun x => x.handle != k) List.filter_sublist
    cases c.ref with
    | none => exact G'.fine
    | some ref =>
      obtain ⟨b', es, he, g, _⟩ := notifyDisconnect_fine G' ref now (if c.takenOver then 0x8E else r)
      exact ⟨b', es, he, g⟩

/-- Something happens to the queues of a session. -/
theorem Good.opBase {cfg : Config} {b : Broker} {h : List Ev} (G : Good cfg b h) {s : Sess} (hs : s ∈ b.sessions) {o : Session.Op} {out : Out} {q : Session}
    (v : Option Nat) (he : Session.step s.q o = some (q, out)) (hv : Session.Spec.Valid true o)
    (hp : ∀ now r tx, o = .publish now r .accept tx → ValidPub r) (hi : ∀ m r t g, o ≠ .init m r t g true) (grace : Nat) :
    Base (b.put { s with q := q, prevGrace := grace }) (h ++ [.op s.client o out v]) ∧ Wills (b.put { s with q := q, prevGrace := grace }) (h ++ [.op s.client o out v]) ∧
      FreshWills (h ++ [.op s.client o out v]) ∧ ∀ p ∈ out.delivered, ValidPub p ∧ Got s.client p (h ++ [.op s.client o out v]) := by
  have hsub : subsStep s.client s.subs (.op s.client o out v) = s.subs := by
    cases o with
    | init m r t g cl =>
      cases cl with
      | false => rfl
      | true => exact absurd rfl (hi m r t g)
    | _ => rfl
  obtain ⟨c, hd⟩ := (G.core hs).op v he hv hp s.subs hsub.symm (List.Sublist.refl _)
  have hforeign : ∀ e ∈ [Ev.op s.client o out v], (∀ d, d ≠ s.client → Foreign d e) ∧ Still e ∧ Quiet e := by
    intro e he
    simp at he; subst he
    exact ⟨fun d hd => foreign_op (Ne.symm hd) _ _ _, still_queue _ _ _ _, trivial⟩
  have t := (G.tail hs).op o out v s.client q s.subs
  refine ⟨G.base.put (s' := { s with q := q, prevGrace := grace }) hs rfl rfl _ hforeign (c.fields s.will s.expireTime s.expiry s.maxPacket grace s.ref)
    ⟨t.maxPacket, t.expiry, t.expireTime, t.notZero⟩ (G.base.willOk s hs), ?_, G.fresh.more _ fun e he => (hforeign e he).2.2, hd⟩
  refine Wills.put (s' := { s with q := q, prevGrace := grace }) G.base G.wills hs rfl rfl _ (fun e he => (hforeign e he).1) ?_
  show s.will = _
  rw [G.wills s hs, will_app]; rfl

/-! ## Maintenance -/

theorem graceOne_fine {cfg : Config} {b : Broker} {h : List Ev} (G : Good cfg b h) {s : Sess} (hs : s ∈ b.sessions) (now : Nat) :
    ∃ b' es, graceOne now b s = some (b', es) ∧ Good cfg b' (h ++ es) ∧ ∃ s' ∈ b'.sessions, Like s s' ∧ s'.will = s.will := by
  unfold graceOne
  split
  · obtain ⟨q, out, he⟩ := (G.core hs).step (.tick now) trivial
    obtain ⟨h1, h2, h3, _⟩ := G.opBase hs none he trivial (by intro _ _ _ h; cases h) (by intro _ _ _ _ h; cases h) now
    refine ⟨_, _, by simp only [opSess, he, Option.map_some], ⟨h1, h2, atEach_snoc G.hist (ok_boring cfg _ _ trivial), h3⟩, { s with q := q, prevGrace := now }, put_self hs rfl, ⟨rfl, rfl, rfl, rfl, rfl⟩, rfl⟩
  · exact ⟨b, [], rfl, by rw [List.append_nil]; exact G, s, hs, .rfl' s, rfl⟩

/-- A session which has expired may be removed. -/
theorem removed_ok {h : List Ev} {s : Sess} (c : SessCore h s) (t : SessTail h s) {now : Nat} (he : isExpired now s = true) : RemovedWhen h (.removed s.client now) [] := by
  intro c' n h'
  cases h'
  unfold isExpired at he
  rw [← t.expiry, ← c.heartbeat]
  have h1 := t.expireTime
  have h2 := t.notZero
  simp only [Bool.or_eq_true, Bool.and_eq_true, beq_iff_eq, decide_eq_true_eq, bne_iff_ne] at he
  cases hend : ended s.client h with
  | none =>
    rw [hend] at h1
    rcases he with ⟨_, he⟩ | ⟨he, _⟩
    · exact .inr ⟨he, .inl rfl⟩
    · exact absurd h1 he
  | some t =>
    rw [hend] at h1 h2
    have h2 := h2 (by simp)
    simp only [expireTimeOf] at h1
    split at h1
    · next hx =>
      rcases he with ⟨_, he⟩ | ⟨he, _⟩
      · exact .inr ⟨he, .inr hx⟩
      · exact absurd h1 he
    · next hx =>
      rcases he with ⟨he, _⟩ | ⟨_, he⟩
      · omega
      · exact .inl ⟨t, rfl, hx, by omega⟩

theorem ok_removed {cfg : Config} {h : List Ev} {c : Bytes} {now : Nat} (hr : RemovedWhen h (.removed c now) []) : Ok cfg h (.removed c now) [] := by
  constructor <;> first | exact hr | ok_rest

theorem Like.expired {s s' : Sess} (l : Like s s') (now : Nat) : isExpired now s' = isExpired now s := by
  unfold isExpired; rw [l.expireTime, l.heartbeat]

theorem maintainOne_fine {cfg : Config} {b : Broker} {h : List Ev} (G : Good cfg b h) {s : Sess} (hs : s ∈ b.sessions) (now : Nat) :
    Fine cfg h (maintainOne now b s) := by
  unfold maintainOne
  obtain ⟨b1, es1, he1, G1, s1, hs1, l1, w1⟩ := graceOne_fine G hs now
  rw [he1]
  refine thenDo_fine (.mk G1) ?_
  intro b1' es1' heq _
  simp only [Option.some.injEq, Prod.mk.injEq] at heq
  obtain ⟨rfl, rfl⟩ := heq
  obtain ⟨b2, es2, he2, B2, W2, hc2, _, l2, l2', hes2⟩ := willMaintain_base G1.base G1.wills s now (isExpired now s) (G.base.willOk s hs)
    (fun t ht => by
      constructor
      · intro hc; rw [map_nodup_inj (·.client) (by rw [G1.base.clients]; exact G1.base.nodup) ht hs1 (by rw [hc, l1.client]), l1.ref]
      · intro hr; rw [map_nodup_inj (·.ref) G1.base.refs ht hs1 (by rw [hr, l1.ref]), l1.client])
  rw [he2]
  have hq : ∀ e ∈ es2, Quiet e := by
    intro e he
    rcases hes2 with rfl | ⟨w, hw, rfl⟩
    · cases he
    · rcases List.mem_cons.mp he with rfl | he
      · trivial
      · obtain ⟨_, _, _, _, rfl⟩ := forwarded_mem he; trivial
  have hwh : ∀ w, s.will = some w → will s.client (h ++ es1) = some w := by
    intro w hw
    rw [← hw, ← w1, G1.wills s1 hs1, l1.client]
  cases hx : isExpired now s with
  | false =>
    refine ⟨b2, es2, by simp [thenDo], B2, W2, ?_, G1.fresh.more _ hq⟩
    rcases hes2 with rfl | ⟨w, hw, rfl⟩
    · rw [List.append_nil]; exact G1.hist
    · obtain ⟨hw1, hw2, hw3⟩ := willDue_spec hw
      have := ok_published (cfg := cfg) (now := now) (p := w.pub) (src := .will s.client) (h := h ++ es1) []
        (by intro c u h'; cases h') (by intro _ _ _ _ h'; cases h') (by
          intro c h'
          cases h'
          exact willOnce_of G1.fresh (hwh w hw1) hw2 _ (.inl (by simpa [hx] using hw3))) (by intro e1 x e2 h'; simp at h') G1.hist
      simpa using this
  | true =>
    obtain ⟨s2, hs2, l2⟩ := l2' s1 hs1
    have hr2 : s2.ref = s.ref := by rw [l2.ref, l1.ref]
    have hc2 : s2.client = s.client := by rw [l2.client, l1.client]
    have hR : RemovedWhen (h ++ es1 ++ es2) (.removed s.client now) [] := by
      rw [← hc2]
      exact removed_ok (B2.core s2 hs2) (B2.tail s2 hs2) (by rw [l2.expired, l1.expired, hx])
    have B3 := B2.remove hs2 [] now (by simp)
    have W3 := W2.remove B2 hs2 [] now (by simp)
    rw [hr2, hc2] at B3 W3
    refine ⟨b2.remove s.ref, es2 ++ [.removed s.client now], by simp [thenDo], ?_⟩
    rw [List.append_assoc (h ++ es1)] at B3 W3
    refine ⟨B3, W3, ?_, ?_⟩
    · rcases hes2 with rfl | ⟨w, hw, rfl⟩
      · rw [List.append_nil] at hR
        exact atEach_snoc G1.hist (ok_removed hR)
      · obtain ⟨hw1, hw2, hw3⟩ := willDue_spec hw
        have := ok_published (cfg := cfg) (now := now) (p := w.pub) (src := .will s.client) (h := h ++ es1) [.removed s.client now]
          (by intro c u h'; cases h') (by intro _ _ _ _ h'; cases h') (by
            intro c h'
            cases h'
            exact willOnce_of G1.fresh (hwh w hw1) hw2 _ (.inr (.inr ⟨[], rfl⟩))) (by
            intro e1 x e2 h'
            cases e1 with
            | nil =>
              simp only [List.nil_append, List.cons.injEq] at h'
              obtain ⟨rfl, rfl⟩ := h'
              rw [List.append_nil]
              exact ok_removed hR
            | cons y e1 => simp at h') G1.hist
        simpa using this
    · refine G1.fresh.more _ fun e he => ?_
      rcases List.mem_append.mp he with he | he
      · exact hq e he
      · simp at he; subst he; trivial

theorem maintainAll_fine {cfg : Config} (now : Nat) : ∀ (l : List Nat) {b : Broker} {h : List Ev}, Good cfg b h → Fine cfg h (maintainAll now l b) := by
  intro l
  induction l with
  | nil => intro b h G; exact G.fine
  | cons r l ih =>
    intro b h G
    rw [maintainAll]
    cases hf : b.find r with
    | none => exact ih G
    | some s => exact thenDo_fine (maintainOne_fine G (find_mem hf).1 now) fun b' es _ G' => ih G'

/-! ## Packets from clients -/

/-- A packet about the queues. -/
theorem clientOp_fine {cfg : Config} {b : Broker} {h : List Ev} (G : Good cfg b h) {c : Conn} {s : Sess} (hs : s ∈ b.sessions) (hsc : s.client = c.client)
    (o : Session.Op) (now : Nat) (r : UInt8) (hv : Session.Spec.Valid true o) (hp : ∀ now r tx, o = .publish now r .accept tx → ValidPub r)
    (hi : ∀ m r t g, o ≠ .init m r t g true) (hu : c.user = user c.client h)
    (hok : ∀ out, Ok cfg h (.op s.client o out (some c.handle)) (distribution now (.client c.client c.user) (h ++ [.op s.client o out (some c.handle)]) out.delivered)) :
    Fine cfg h (clientOp o now r b c s) := by
  unfold clientOp
  obtain ⟨q, out, he⟩ := (G.core hs).step o hv
  rw [he]
  simp only
  obtain ⟨B1, W1, F1, hd⟩ := G.opBase hs (some c.handle) he hv hp hi s.prevGrace
  obtain ⟨b2, he2, B2, W2, hq2⟩ := publishAll_base now c.client c.user out.delivered B1 W1 fun p hp => (hd p hp).1
  have hres : thenDo (some (b.put { s with q := q }, [.op s.client o out (some c.handle)])) (publishAll now (.client c.client c.user) out.delivered) =
      some (b2, [.op s.client o out (some c.handle)] ++ distribution now (.client c.client c.user) (h ++ [.op s.client o out (some c.handle)]) out.delivered) := by
    simp only [thenDo, Option.bind_some, he2, Option.map_some]
  rw [hres]
  refine thenDo_fine (.mk ⟨by rw [← List.append_assoc]; exact B2, by rw [← List.append_assoc]; exact W2, ?_, ?_⟩) fun b1 es _ G1 => ?_
  · refine atEach_app G.hist fun e1 x e2 hx => ?_
    cases e1 with
    | nil =>
      simp only [List.nil_append, List.cons_append, List.cons.injEq] at hx
      obtain ⟨rfl, rfl⟩ := hx
      rw [List.append_nil]; exact hok out
    | cons y e1 =>
      simp only [List.nil_append, List.cons_append, List.cons.injEq] at hx
      obtain ⟨rfl, hx⟩ := hx
      rw [hu] at hx
      have := ok_distribution (cfg := cfg) now c.client h o out c.handle out.delivered [] (h := h ++ [.op s.client o out (some c.handle)])
        (fun p hp => by rw [← hsc]; exact (hd p hp).2) (by rw [hsc]) (by rw [hsc]; rfl) e1 x e2 hx
      simpa using this
  · rw [← List.append_assoc]; exact F1.more _ hq2
  · split
    · exact G1.fine
    · exact closeConn_fine G1 _ _ _

end Verif.Broker
