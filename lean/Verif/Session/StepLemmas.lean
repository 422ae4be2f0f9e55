import Verif.Session.SendLemmas
/-!
# One operation on a session

The invariant of a session, and what an operation does with the queue of messages from the remote.
-/
namespace Verif.Session
open Verif Spec

/-! ## Acknowledgements for packets to the remote -/

/-- The entry after the acknowledgement. -/
def ackOn (a : Ack) (x : Item) : Item :=
  if x.id = a.id then ((ackItem a 0 x).map (·.item)).getD x else x

theorem ackItem_other (a : Ack) (n : Nat) (x : Item) (h : x.id ≠ a.id) : ackItem a n x = some ⟨.ok, x, [], n⟩ := by
  cases x with
  | pub p => simp only [Item.id] at h; simp [ackItem, ackPub, h]
  | sub q => simp only [Item.id] at h; simp [ackItem, ackSub, h]

/-- No entry has the identifier. -/
theorem walk_none (a : Ack) (n : Nat) (l : List Item) (h : ∀ x ∈ l, x.id ≠ a.id) : walk (ackItem a) n l = some ⟨l, [], n, false⟩ := by
  induction l with
  | nil => rfl
  | cons x l ih =>
    rw [walk, ackItem_other a n x (h x List.mem_cons_self)]
    dsimp only
    rw [ih fun y hy => h y (List.mem_cons_of_mem _ hy)]
    rfl

/-- One entry has the identifier. -/
theorem walk_single (a : Ack) (n : Nat) (l1 l2 : List Item) (x : Item) (h1 : ∀ y ∈ l1, y.id ≠ a.id) (h2 : ∀ y ∈ l2, y.id ≠ a.id) :
    walk (ackItem a) n (l1 ++ x :: l2) =
      (ackItem a n x).map fun r => ⟨l1 ++ r.item :: l2, r.delivered, r.found, r.ret == .err⟩ := by
  induction l1 with
  | nil =>
    rw [List.nil_append, walk]
    cases hx : ackItem a n x with
    | none => rfl
    | some r =>
      dsimp only
      rw [walk_none a r.found l2 h2]
      obtain ⟨ret, item, del, found⟩ := r
      cases ret <;> simp <;> decide
  | cons y l1 ih =>
    rw [List.cons_append, walk, ackItem_other a n y (h1 y List.mem_cons_self)]
    dsimp only
    rw [ih fun z hz => h1 z (List.mem_cons_of_mem _ hz)]
    cases hx : ackItem a n x with
    | none => rfl
    | some r => rfl

theorem mem_idsOf {l : List Item} {n : BitVec 16} (hn : n ≠ 0) : n ∈ idsOf l ↔ ∃ x ∈ l, x.id = n := by
  unfold idsOf
  simp only [List.mem_filter, List.mem_map, decide_eq_true_eq]
  constructor
  · rintro ⟨⟨x, hx, e⟩, _⟩; exact ⟨x, hx, e⟩
  · rintro ⟨x, hx, e⟩; exact ⟨⟨x, hx, e⟩, hn⟩

/-- Identifiers differ, so that there is one entry or none. -/
theorem split_id (l : List Item) (h : (idsOf l).Nodup) (n : BitVec 16) (hn : n ≠ 0) :
    (∀ x ∈ l, x.id ≠ n) ∨ ∃ l1 x l2, l = l1 ++ x :: l2 ∧ x.id = n ∧ (∀ y ∈ l1, y.id ≠ n) ∧ ∀ y ∈ l2, y.id ≠ n := by
  induction l with
  | nil => exact .inl (by simp)
  | cons x l ih =>
    rw [idsOf_cons] at h
    have h' := (List.nodup_append.mp h)
    by_cases hx : x.id = n
    · refine .inr ⟨[], x, l, rfl, hx, by simp, fun y hy e => ?_⟩
      have hm : n ∈ idsOf l := (mem_idsOf hn).mpr ⟨y, hy, e⟩
      exact h'.2.2 n (by rw [idsOf_single, hx, if_neg hn]; simp) n hm rfl
    · rcases ih h'.2.1 with h1 | ⟨l1, y, l2, rfl, h2, h3, h4⟩
      · exact .inl fun y hy => by
          rcases List.mem_cons.mp hy with rfl | hy
          · exact hx
          · exact h1 y hy
      · refine .inr ⟨x :: l1, y, l2, rfl, h2, fun z hz => ?_, h4⟩
        rcases List.mem_cons.mp hz with rfl | hz
        · exact hx
        · exact h3 z hz

/-- What an acknowledgement may change in a PUBLISH. -/
def SameMsg (p q : Pub) : Prop :=
  q = { p with puback := q.puback, pubrec := q.pubrec, pubrel := q.pubrel, pubcomp := q.pubcomp }

/-- The callback on the entry with the identifier. -/
theorem ackItem_same (a : Ack) (x : Item) (hx : x.id = a.id) (hok : ItemOk x) :
    ((∃ p, x = .pub p) ∧ (a.kind = .suback ∨ a.kind = .unsuback) ∧ ackItem a 0 x = none) ∨
    ∃ r, ackItem a 0 x = some r ∧ r.delivered = [] ∧ r.found ≤ 1 ∧
      ((∃ p q, x = .pub p ∧ r.item = .pub q ∧ SameMsg p q) ∨ ∃ p q : SubPkt, x = .sub p ∧ r.item = .sub q ∧ q = { p with acked := q.acked }) := by
  cases x with
  | pub p =>
    simp only [Item.id] at hx
    simp only [ItemOk] at hok
    unfold ackItem ackPub
    dsimp only
    rw [if_neg (by simp [hx])]
    by_cases hk : a.kind = .suback ∨ a.kind = .unsuback
    · rw [if_pos ⟨hok.1.symm, hk⟩]; exact .inl ⟨⟨p, rfl⟩, hk, rfl⟩
    rw [if_neg (fun h => hk h.2)]
    refine .inr ⟨_, rfl, ?_⟩
    dsimp only
    unfold ackPubSame
    split
    · exact ⟨rfl, by simp, .inl ⟨p, p, rfl, rfl, rfl⟩⟩
    · split
      · exact ⟨rfl, by simp, .inl ⟨p, p, rfl, rfl, rfl⟩⟩
      · split
        · unfold ackPuback
          split
          · exact ⟨rfl, by simp, .inl ⟨p, p, rfl, rfl, rfl⟩⟩
          · rw [if_neg (by simp)]
            exact ⟨by simp [hok.1], by simp, .inl ⟨p, _, rfl, rfl, rfl⟩⟩
        · unfold ackPubcomp
          dsimp only
          split
          · exact ⟨rfl, by simp, .inl ⟨p, _, rfl, rfl, rfl⟩⟩
          · exact ⟨rfl, by simp, .inl ⟨p, _, rfl, rfl, rfl⟩⟩
        · exact ⟨rfl, by simp [ackPubrec], .inl ⟨p, _, rfl, rfl, rfl⟩⟩
        · unfold ackPubrel
          split
          · exact ⟨rfl, by simp, .inl ⟨p, p, rfl, rfl, rfl⟩⟩
          · exact ⟨by simp [hok.1], by simp, .inl ⟨p, _, rfl, rfl, rfl⟩⟩
        · exact ⟨rfl, by simp, .inl ⟨p, p, rfl, rfl, rfl⟩⟩
  | sub q =>
    simp only [Item.id] at hx
    refine .inr ⟨_, rfl, ?_⟩
    unfold ackSub
    rw [if_neg (by simp [hx])]
    by_cases hk : a.kind = (if q.unsub then .unsuback else .suback)
    · rw [if_pos hk]; exact ⟨rfl, by simp, .inr ⟨q, _, rfl, rfl, rfl⟩⟩
    · rw [if_neg hk]; exact ⟨rfl, by simp, .inr ⟨q, q, rfl, rfl, rfl⟩⟩

theorem ackOn_ok (a : Ack) (ha : a.id ≠ 0) (x : Item) (hok : ItemOk x) : (ackOn a x).id = x.id ∧ ItemOk (ackOn a x) := by
  unfold ackOn
  by_cases hx : x.id = a.id
  · rw [if_pos hx]
    rcases ackItem_same a x hx hok with ⟨_, _, e⟩ | ⟨r, e, _, _, h⟩
    · rw [e]; exact ⟨rfl, hok⟩
    · rw [e]
      simp only [Option.map_some, Option.getD_some]
      rcases h with ⟨p, q, rfl, e2, hs⟩ | ⟨p, q, rfl, e2, hs⟩
      · rw [e2]
        simp only [Item.id] at hx ⊢
        have hid : q.id = p.id := by rw [hs]
        refine ⟨hid, ?_⟩
        simp only [ItemOk] at hok ⊢
        refine ⟨by rw [hs]; exact hok.1, by rw [hs]; exact hok.2.1, by rw [hs]; exact hok.2.2.1, fun h0 => ?_⟩
        rw [hid, hx] at h0; exact absurd h0 ha
      · rw [e2]
        simp only [Item.id] at hx ⊢
        have hid : q.id = p.id := by rw [hs]
        refine ⟨hid, fun h0 => ?_⟩
        rw [hid, hx] at h0; exact absurd h0 ha
  · rw [if_neg hx]; exact ⟨rfl, hok⟩

theorem Good.nodup_ids {o l pool g} (h : Good o l pool g) : (idsOf l).Nodup :=
  (List.nodup_append.mp (List.nodup_append.mp h.nodup).2.1).1

theorem Good.map {o l pool g} (h : Good o l pool g) (f : Item → Item) (hf : ∀ x ∈ l, (f x).id = x.id ∧ ItemOk (f x)) :
    Good o (l.map f) pool g := by
  have : idsOf (l.map f) = idsOf l := by
    unfold idsOf
    rw [List.map_map]
    congr 1
    exact List.map_congr_left fun x hx => (hf x hx).1
  refine ⟨h.inv, ?_, h.grace, by rw [this]; exact h.nodup, by rw [this]; exact h.live⟩
  intro x hx
  obtain ⟨y, hy, rfl⟩ := List.mem_map.mp hx
  exact (hf y hy).2

/-- A PUBREC which is not accepted changes nothing. -/
theorem ackItem_refused (a : Ack) (hk : a.kind = .pubrec) (x : Item) (r : CbRes Item) (h : ackItem a 0 x = some r) (he : r.ret = .err) : r.item = x := by
  cases x with
  | pub p =>
    simp only [ackItem, ackPub] at h
    split at h
    · simp only [Option.map_some, Option.some.injEq] at h; subst h; rfl
    · rw [if_neg (by simp [hk])] at h
      simp only [Option.map_some, Option.some.injEq] at h
      subst h
      simp only [ackPubSame, ackPubrec, hk] at he ⊢
      split at he
      · next hc => rw [if_pos hc]
      · next hc =>
        rw [if_neg hc]
        split at he
        · next hc => rw [if_pos hc]
        · cases he
  | sub q =>
    simp only [ackItem, ackSub, Option.some.injEq] at h
    subst h
    dsimp only at he ⊢
    split at he
    · cases he
    · next hc =>
      rw [if_neg hc, hk]
      cases q.unsub <;> rfl

/-- An acknowledgement for a packet to the remote. -/
theorem processAck_out (a : Ack) (ha : a.id ≠ 0) (s : Session) (hg : Good [] s.toRemote s.pool s.grace) :
    ((∃ p, .pub p ∈ s.toRemote ∧ p.id = a.id) ∧ (a.kind = .suback ∨ a.kind = .unsuback) ∧ processAck a true s = none) ∨
    ∃ c, processAck a true s = some c ∧ c.s = { s with toRemote := s.toRemote.map (ackOn a) } ∧ c.delivered = [] ∧ c.found ≤ 1 ∧
      ((∀ x ∈ s.toRemote, x.id ≠ a.id) → c.found = 0 ∧ c.ok = true) ∧ (c.ok = false → a.kind = .pubrec → s.toRemote.map (ackOn a) = s.toRemote) := by
  unfold processAck
  rw [if_pos rfl]
  rcases split_id s.toRemote hg.nodup_ids a.id ha with h | ⟨l1, x, l2, hl, hx, h1, h2⟩
  · rw [walk_none a 0 _ h]
    dsimp only
    rw [if_neg (by simp)]
    refine .inr ⟨_, rfl, ?_, rfl, by simp, fun _ => ⟨rfl, rfl⟩, by simp⟩
    rw [map_id_of (ackOn a) s.toRemote fun x hx => by unfold ackOn; rw [if_neg (h x hx)]]
  · have hok : ItemOk x := hg.items x (by rw [hl]; simp)
    have hmap : s.toRemote.map (ackOn a) = l1 ++ ackOn a x :: l2 := by
      rw [hl, List.map_append, List.map_cons, map_id_of (ackOn a) l1 fun y hy => by unfold ackOn; rw [if_neg (h1 y hy)],
        map_id_of (ackOn a) l2 fun y hy => by unfold ackOn; rw [if_neg (h2 y hy)]]
    have hw : walk (ackItem a) 0 s.toRemote = (ackItem a 0 x).map fun r => ⟨l1 ++ r.item :: l2, r.delivered, r.found, r.ret == .err⟩ := by
      rw [hl]; exact walk_single a 0 l1 l2 x h1 h2
    rw [hw]
    rcases ackItem_same a x hx hok with ⟨⟨p, rfl⟩, hk, e⟩ | ⟨r, e, hd, hf, _⟩
    · rw [e]; exact .inl ⟨⟨p, by rw [hl]; simp, hx⟩, hk, rfl⟩
    · rw [e]
      dsimp only [Option.map_some]
      rw [if_neg (by simp; omega)]
      refine .inr ⟨_, rfl, ?_, hd, hf, fun hno => absurd hx (hno x (by rw [hl]; simp)), ?_⟩
      · rw [hmap]
        unfold ackOn
        rw [if_pos hx, e]
        rfl
      · intro hfail hk
        rw [hmap]
        unfold ackOn
        rw [if_pos hx, e, Option.map_some, Option.getD_some, ackItem_refused a hk x r e (by simpa using hfail)]
        exact hl.symm

/-! ## The invariant -/

/-- What holds of a session between operations. -/
structure Inv (s : Session) : Prop where
  recv : RecvOk s.fromRemote
  send : Good [] s.toRemote s.pool s.grace
  delayed : ∀ p ∈ s.delayed, fresh p = p ∧ p.qos ≤ 2

/-- What an operation does with the messages from the remote: `l` and `l'` are the queue before and after. -/
inductive RecvStep (l : List Pub) : Op → Out → List Pub → Prop
  /-- nothing of QoS 2 is delivered or stored; complete entries may go -/
  | thin {op o l'} : (∀ p ∈ o.delivered, (p.qos = 1 ∧ p ∈ l) ∨
        (p.qos = 0 ∧ ∃ now r tx, op = .publish now r .accept tx ∧ p = { received r with lastAttempt := now })) → Thinned l l' →
      (∀ a v5 tx, op = .ack a v5 tx → a.kind ≠ .pubrel) →
      (∀ now r tx, op = .publish now r .accept tx → (r.qos = 0 ∧ o.sent = [] ∧ (r.dup = false → o.delivered = [{ received r with lastAttempt := now }]))
        ∨ (r.qos = 2 ∧ l' = l ∧ ∃ q ∈ l, q.id = r.id)) →
      (∀ a v5 tx, op = .ack a v5 tx → o.delivered = []) →
      (∀ m r t g, op ≠ .init m r t g true) →
      RecvStep l op o l'
  /-- a message of QoS 1 is delivered and stored -/
  | one {now p tx o l' rest} : p.qos = 1 → o.delivered = { received p with lastAttempt := now } :: rest →
      (∀ q ∈ rest, q.qos = 1 ∧ q ∈ l) → Thinned (insertOrdered { received p with lastAttempt := now } l) l' →
      RecvStep l (.publish now p .accept tx) o l'
  /-- a message of QoS 2 is stored -/
  | store {now p tx o} : p.qos = 2 → (∀ q ∈ l, q.id ≠ p.id) → o.delivered = [] →
      o.sent = (if tx then [.ack { kind := .pubrec, id := p.id }] else []) →
      RecvStep l (.publish now p .accept tx) o (insertOrdered { received p with lastAttempt := now, pubrec := true } l)
  /-- a PUBREL releases the message of QoS 2 with the identifier -/
  | rel {a v5 tx o l'} : a.kind = .pubrel → o.delivered = l.filter (fun p => is2 a.id p && !p.pubrel) →
      (l' = l.map (relOn a.id) ∨ l' = (l.map (relOn a.id)).map (compOn a.id)) →
      (∀ b, .ack b ∈ o.sent → b.kind = .pubcomp ∧ b.id = a.id ∧ (b.reason = 0 → ∃ p ∈ l, is2 a.id p = true)) →
      RecvStep l (.ack a v5 tx) o l'
  | clean {m r t g o} : o.delivered = [] → RecvStep l (.init m r t g true) o []

theorem relOn_fields (id : BitVec 16) (p : Pub) : (relOn id p).id = p.id ∧ (relOn id p).qos = p.qos ∧ (relOn id p).outbound = p.outbound ∧
    (relOn id p).plannedExpiry = p.plannedExpiry ∧ (relOn id p).pubrec = p.pubrec ∧ (relOn id p).pubcomp = p.pubcomp ∧ (relOn id p).key = p.key ∧
    (relOn id p).pubrel = (p.pubrel || is2 id p) := by
  unfold relOn; split <;> simp [*]

theorem compOn_fields (id : BitVec 16) (p : Pub) : (compOn id p).id = p.id ∧ (compOn id p).qos = p.qos ∧ (compOn id p).outbound = p.outbound ∧
    (compOn id p).plannedExpiry = p.plannedExpiry ∧ (compOn id p).pubrec = p.pubrec ∧ (compOn id p).pubrel = p.pubrel ∧ (compOn id p).key = p.key ∧
    (compOn id p).pubcomp = (p.pubcomp || (is2 id p && p.pubrel)) := by
  unfold compOn
  split
  · next h => simp [h]
  · next h => simp only [Bool.not_eq_true] at h; simp [h]

theorem RecvOk.map {l : List Pub} (ok : RecvOk l) (f : Pub → Pub)
    (hf : ∀ p, (f p).id = p.id ∧ (f p).qos = p.qos ∧ (f p).outbound = p.outbound ∧ (f p).plannedExpiry = p.plannedExpiry ∧ (f p).pubrec = p.pubrec)
    (hc : ∀ p ∈ l, (f p).pubcomp = true → (f p).pubrel = true ∧ p.qos = 2) : RecvOk (l.map f) := by
  refine ⟨?_, ?_, ?_, ?_, ?_⟩
  · intro q hq; obtain ⟨p, hp, rfl⟩ := List.mem_map.mp hq
    obtain ⟨h1, h2, h3, h4, _⟩ := hf p
    rw [h1, h2, h3, h4]; exact ok.inbound p hp
  · intro q hq; obtain ⟨p, hp, rfl⟩ := List.mem_map.mp hq
    obtain ⟨h1, h2, h3, h4, h5⟩ := hf p
    rw [h2, h5]; exact ok.pubrec p hp
  · intro q hq; obtain ⟨p, hp, rfl⟩ := List.mem_map.mp hq
    rw [(hf p).2.1]; exact hc p hp
  · rw [List.pairwise_map]
    exact ok.sorted.imp fun {a b} h => by rw [(hf a).1, (hf b).1]; exact h
  · rw [List.pairwise_map]
    exact ok.uniq.imp fun {a b} h => by rw [(hf a).1, (hf b).1, (hf a).2.1, (hf b).2.1]; exact h

theorem RecvOk.rel {l : List Pub} (ok : RecvOk l) (id : BitVec 16) : RecvOk (l.map (relOn id)) :=
  ok.map _ (fun p => by obtain ⟨h1, h2, h3, h4, h5, _⟩ := relOn_fields id p; exact ⟨h1, h2, h3, h4, h5⟩) fun p hp h => by
    obtain ⟨h1, h2, h3, h4, h5, h6, h7, h8⟩ := relOn_fields id p
    rw [h6] at h
    have := ok.pubcomp p hp h
    rw [h8, this.1]; exact ⟨rfl, this.2⟩

theorem RecvOk.comp {l : List Pub} (ok : RecvOk l) (id : BitVec 16) : RecvOk (l.map (compOn id)) :=
  ok.map _ (fun p => by obtain ⟨h1, h2, h3, h4, h5, _⟩ := compOn_fields id p; exact ⟨h1, h2, h3, h4, h5⟩) fun p hp h => by
    obtain ⟨h1, h2, h3, h4, h5, h6, h7, h8⟩ := compOn_fields id p
    rw [h8] at h
    rcases Bool.or_eq_true_iff.mp h with h | h
    · have := ok.pubcomp p hp h
      rw [h6, this.1]; exact ⟨rfl, this.2⟩
    · simp only [Bool.and_eq_true, is2_iff] at h
      rw [h6]; exact ⟨h.2, h.1.2⟩

theorem RecvOk.insert {l : List Pub} (ok : RecvOk l) (p : Pub) (h1 : p.outbound = false ∧ p.id ≠ 0 ∧ (p.qos = 1 ∨ p.qos = 2) ∧ p.plannedExpiry = 0)
    (h2 : p.qos = 2 → p.pubrec = true) (h3 : p.pubcomp = true → p.pubrel = true ∧ p.qos = 2)
    (h4 : p.qos = 2 → ∀ q ∈ l, q.qos = 2 → q.id ≠ p.id) : RecvOk (insertOrdered p l) := by
  refine ⟨?_, ?_, ?_, insertOrdered_sorted p l ok.sorted, ?_⟩
  · intro q hq; rcases (mem_insertOrdered _ _ _).mp hq with rfl | hq
    · exact h1
    · exact ok.inbound q hq
  · intro q hq; rcases (mem_insertOrdered _ _ _).mp hq with rfl | hq
    · exact h2
    · exact ok.pubrec q hq
  · intro q hq; rcases (mem_insertOrdered _ _ _).mp hq with rfl | hq
    · exact h3
    · exact ok.pubcomp q hq
  · exact insertOrdered_pairwise _ (fun a b h ha hb e => h hb ha e.symm) p l ok.uniq fun q hq ha hb e => h4 ha q hq hb e.symm

/-! ## Messages from the remote -/

theorem map_insertOrdered (f : Pub → Pub) (hf : ∀ p, (f p).id = p.id) (p : Pub) (l : List Pub) :
    (insertOrdered p l).map f = insertOrdered (f p) (l.map f) := by
  induction l with
  | nil => rfl
  | cons q l ih =>
    rw [insertOrdered, List.map_cons, insertOrdered, hf, hf]
    split
    · rw [List.map_cons, ih]
    · rfl

/-- A PUBACK for a new message delivers it. -/
theorem walk_puback_new (a : Ack) (ha : a.kind = .puback) (hr : a.reason = 0) (p : Pub) (hp : p.id = a.id ∧ p.qos = 1 ∧ p.outbound = false ∧ p.puback = false) :
    ∀ (l : List Pub), l.Pairwise (fun p q => p.id.toNat ≤ q.id.toNat) →
    ∃ w rest, walk (fun f p => ackPub a false f p) 0 (insertOrdered p l) = some w ∧ w.delivered = p :: rest ∧
      (∀ q ∈ rest, q.qos = 1 ∧ q ∈ l) ∧ w.items.map Pub.core = (insertOrdered p l).map Pub.core ∧ w.found ≤ 1 := by
  have hhead : ∀ l, ∃ w rest, walk (fun f p => ackPub a false f p) 0 (p :: l) = some w ∧ w.delivered = p :: rest ∧
      (∀ q ∈ rest, q.qos = 1 ∧ q ∈ l) ∧ w.items.map Pub.core = (p :: l).map Pub.core ∧ w.found ≤ 1 := by
    intro l
    obtain ⟨w, hw, hi, hf, hd⟩ := walk_puback a ha l 1 (by omega)
    have e : ackPub a false 0 p = some ⟨.ok, { p with puback := true }, [p], 1⟩ := by
      unfold ackPub ackPubSame ackPuback
      rw [if_neg (by simp [hp.1]), if_neg (by simp [ha]), if_neg (by simp [hr]), if_neg (by simp [ha]), ha]
      simp [hp.2.1, hp.2.2.1, hp.2.2.2]
    rw [walk, e]
    dsimp only
    rw [hw]
    exact ⟨_, w.delivered, rfl, rfl, fun q hq => ⟨(hd q hq).1, (hd q hq).2.1⟩, by simp [hi, Pub.core], hf⟩
  intro l
  induction l with
  | nil => intro _; exact hhead []
  | cons q l ih =>
    intro hs
    rw [insertOrdered]
    split
    · next hlt =>
      obtain ⟨w, rest, h1, h2, h3, h4, h5⟩ := ih (List.pairwise_cons.mp hs).2
      have hne : q.id ≠ a.id := by intro e; rw [e, hp.1] at hlt; omega
      have e : ackPub a false 0 q = some ⟨.ok, q, [], 0⟩ := by unfold ackPub; rw [if_pos hne]
      rw [walk, e]
      dsimp only
      rw [h1]
      exact ⟨_, rest, rfl, by simp [h2], fun r hr => ⟨(h3 r hr).1, List.mem_cons_of_mem _ (h3 r hr).2⟩, by simp [h4], h5⟩
    · exact hhead _

theorem pubrec_noop (l : List Pub) (ok : RecvOk l) (id : BitVec 16) :
    l.map (fun p => if is2 id p then { p with pubrec := true } else p) = l := by
  apply map_id_of
  intro p hp
  by_cases h : is2 id p = true
  · rw [if_pos h]
    have := ok.pubrec p hp ((is2_iff _ _).mp h).2
    rw [← this]
  · rw [if_neg h]

/-- A PUBREC or PUBACK for a message which is not stored. -/
theorem sendAckFor_recv (p : Pub) (reason : UInt8) (tx : Bool) (s : Session) (ok : RecvOk s.fromRemote) :
    ∃ h l, sendAckFor p reason tx s = some h ∧ h.s = { s with fromRemote := l } ∧ l.map Pub.core = s.fromRemote.map Pub.core ∧
      (∀ q ∈ h.delivered, q.qos = 1 ∧ q ∈ s.fromRemote) ∧ (p.qos = 2 → l = s.fromRemote ∧ h.delivered = []) ∧
      (p.qos = 0 → h.delivered = [] ∧ h.sent = []) := by
  unfold sendAckFor
  cases hf : ackFor p reason with
  | none => exact ⟨_, s.fromRemote, rfl, rfl, rfl, by simp, fun _ => ⟨rfl, rfl⟩, fun _ => ⟨rfl, rfl⟩⟩
  | some a =>
    dsimp only
    unfold ackFor at hf
    split at hf
    · next hq =>
      cases hf
      obtain ⟨c, l, h1, h2, h3, h4⟩ := processAck_puback { kind := .puback, id := p.id, reason := reason } rfl s
      unfold sendNow noteAck
      dsimp only
      rw [h1]
      dsimp only
      split
      · exact ⟨_, l, rfl, h2, h3, fun q hq => ⟨(h4 q hq).1, (h4 q hq).2.1⟩, fun h => by omega, fun h => by omega⟩
      · exact ⟨_, l, rfl, h2, h3, fun q hq => ⟨(h4 q hq).1, (h4 q hq).2.1⟩, fun h => by omega, fun h => by omega⟩
    · next hq =>
      cases hf
      obtain ⟨c, h1, h2, h3, h4⟩ := processAck_pubrec { kind := .pubrec, id := p.id, reason := reason } rfl s ok.uniq
      have hcs : c.s = s := by
        rcases h3 with h3 | h3
        · rw [h3, pubrec_noop s.fromRemote ok]
        · exact h3.1
      unfold sendNow noteAck
      dsimp only
      rw [h1]
      dsimp only
      split
      · exact ⟨_, s.fromRemote, rfl, hcs, rfl, by simp [h2], fun _ => ⟨rfl, h2⟩, fun h => by omega⟩
      · exact ⟨_, s.fromRemote, rfl, hcs, rfl, by simp [h2], fun _ => ⟨rfl, h2⟩, fun h => by omega⟩
    · cases hf

theorem receive0 (now : Nat) (p : Pub) (s : Session) (hq : p.qos = 0) :
    receivePublish now p s = some ⟨s, [{ p with lastAttempt := now }], true, 0⟩ := by
  cases p; simp only at hq; subst hq; rfl

theorem receive1 (now : Nat) (p : Pub) (s : Session) (hq : p.qos = 1) :
    receivePublish now p s = some ⟨{ s with fromRemote := insertOrdered { p with lastAttempt := now } s.fromRemote }, [], true, 0⟩ := by
  cases p; simp only at hq; subst hq; rfl

theorem receive2 (now : Nat) (p : Pub) (s : Session) (hq : p.qos = 2) (r : Option Pub) (hf : findQos2 p.id s.fromRemote = some r) :
    receivePublish now p s = match r with
      | none => some ⟨{ s with fromRemote := insertOrdered { p with lastAttempt := now } s.fromRemote }, [], true, 0⟩
      | some q => some ⟨s, [], sameSize q.payload p.payload && p.dup, 0⟩ := by
  cases p; simp only at hq hf; subst hq
  unfold receivePublish
  simp only [hf]
  cases r <;> rfl

theorem sendAckFor1 (p : Pub) (reason : UInt8) (tx : Bool) (s : Session) (hq : p.qos = 1) :
    sendAckFor p reason tx s = (sendNow { kind := .puback, id := p.id, reason := reason } tx s).map fun (c, w) => ⟨c.s, c.delivered, w, c.ok⟩ := by
  cases p; simp only at hq; subst hq; rfl

theorem sendAckFor2 (p : Pub) (reason : UInt8) (tx : Bool) (s : Session) (hq : p.qos = 2) :
    sendAckFor p reason tx s = (sendNow { kind := .pubrec, id := p.id, reason := reason } tx s).map fun (c, w) => ⟨c.s, c.delivered, w, c.ok⟩ := by
  cases p; simp only at hq; subst hq; rfl

theorem handlePublish_recv (now : Nat) (r : Pub) (v : Verdict) (tx : Bool) (s : Session) (ok : RecvOk s.fromRemote)
    (hv : r.qos ≤ 2 ∧ (r.qos ≠ 0 → r.id ≠ 0)) :
    ∃ h l, handlePublish now (received r) v tx s = some h ∧ h.s = { s with fromRemote := l } ∧ RecvOk l ∧
      RecvStep s.fromRemote (.publish now r v tx) ⟨h.delivered, h.sent, h.alive⟩ l := by
  unfold handlePublish
  by_cases h0 : (received r).dup ∧ (received r).qos = 0
  · rw [if_pos h0]
    have hd : r.dup = true := h0.1
    have hq : r.qos = 0 := h0.2
    refine ⟨_, s.fromRemote, rfl, rfl, ok, .thin (by simp) (.refl _) (by intros; contradiction) ?_ (by intros; rfl) (by intros; intro h; cases h)⟩
    intro now' r' tx' e
    cases e
    exact .inl ⟨hq, rfl, fun h => by rw [hd] at h; contradiction⟩
  rw [if_neg h0]
  have hthin : ∀ (h : Handled) (l : List Pub), h.s = { s with fromRemote := l } → l.map Pub.core = s.fromRemote.map Pub.core →
      (∀ q ∈ h.delivered, q.qos = 1 ∧ q ∈ s.fromRemote) → v ≠ .accept →
      RecvOk l ∧ RecvStep s.fromRemote (.publish now r v tx) ⟨h.delivered, h.sent, h.alive⟩ l := by
    intro h l h1 h2 h3 hv'
    have ht := Thinned.of_core h2
    refine ⟨ht.recvOk ok, .thin (fun p hp => .inl (h3 p hp)) ht (by intros; contradiction) ?_ (by intros; contradiction) (by intros; intro h; cases h)⟩
    intro now' r' tx' e
    cases e
    exact absurd rfl hv'
  cases v with
  | close => exact ⟨_, s.fromRemote, rfl, rfl, hthin ⟨s, [], [], false⟩ s.fromRemote rfl rfl (by simp) (by simp)⟩
  | refuse reason =>
    obtain ⟨h, l, h1, h2, h3, h4, _⟩ := sendAckFor_recv (received r) reason tx s ok
    exact ⟨h, l, h1, h2, hthin h l h2 h3 h4 (by simp)⟩
  | accept =>
    dsimp only
    have hq : r.qos = 0 ∨ r.qos = 1 ∨ r.qos = 2 := by omega
    rcases hq with hq | hq | hq
    · have hq' : (received r).qos = 0 := hq
      rw [receive0 now (received r) s hq']
      dsimp only
      rw [if_neg (by simp)]
      obtain ⟨h, l, h1, h2, h3, h4, h5, h6⟩ := sendAckFor_recv (received r) 0 tx s ok
      rw [h1]
      have hd : h.delivered = [] := (h6 hq').1
      refine ⟨_, l, rfl, h2, (Thinned.of_core h3).recvOk ok, .thin ?_ (Thinned.of_core h3) (by intros; contradiction) ?_ (by intros; contradiction) (by intros; intro h; cases h)⟩
      · intro p hp
        simp only [hd, List.append_nil, List.mem_singleton] at hp
        exact .inr ⟨by rw [hp]; exact hq, now, r, tx, rfl, hp⟩
      · intro now' r' tx' e
        cases e
        exact .inl ⟨hq, (h6 hq').2, fun _ => by simp [hd]⟩
    · have hq' : (received r).qos = 1 := hq
      rw [receive1 now (received r) s hq']
      dsimp only
      rw [if_neg (by simp)]
      rw [sendAckFor1 _ _ _ _ hq']
      unfold sendNow noteAck
      dsimp only
      unfold processAck
      rw [if_neg (by simp)]
      dsimp only
      obtain ⟨w, rest, h1, h2, h3, h4, h5⟩ := walk_puback_new { kind := .puback, id := (received r).id, reason := 0 } rfl rfl
        { received r with lastAttempt := now } ⟨rfl, hq, rfl, rfl⟩ s.fromRemote ok.sorted
      rw [h1]
      dsimp only
      rw [if_neg (by simp; omega)]
      have hins : RecvOk (insertOrdered { received r with lastAttempt := now } s.fromRemote) :=
        ok.insert _ ⟨rfl, hv.2 (by omega), .inl hq, rfl⟩ (fun h => by have : r.qos = 2 := h; omega) (fun h => by cases h)
          (fun h => by have : r.qos = 2 := h; omega)
      have ht := Thinned.of_core h4
      dsimp only
      split
      · exact ⟨_, w.items, rfl, rfl, ht.recvOk hins, .one hq (by simp [h2]) h3 ht⟩
      · exact ⟨_, w.items, rfl, rfl, ht.recvOk hins, .one hq (by simp [h2]) h3 ht⟩
    · have hq' : (received r).qos = 2 := hq
      have hid : (received r).id ≠ 0 := hv.2 (by omega)
      rcases findQos2_spec (received r).id hid s.fromRemote ok.sorted (fun p hp => (ok.inbound p hp).2.1) with ⟨hf, hno⟩ | ⟨q, hm, he, hf⟩
      · rw [receive2 now (received r) s hq' _ hf]
        dsimp only
        rw [if_neg (by simp)]
        rw [sendAckFor2 _ _ _ _ hq']
        unfold sendNow noteAck
        dsimp only
        obtain ⟨c, h1, h2, h3, h4⟩ := processAck_pubrec { kind := .pubrec, id := (received r).id, reason := 0 } rfl
          { s with fromRemote := insertOrdered { received r with lastAttempt := now } s.fromRemote }
          (insertOrdered_pairwise _ (fun a b h ha hb e => h hb ha e.symm) _ _ ok.uniq fun q hq' _ _ e => hno q hq' e.symm)
        rw [h1]
        dsimp only
        have hnew : is2 (received r).id { received r with lastAttempt := now } = true := (is2_iff _ _).mpr ⟨rfl, hq⟩
        have hok : c.ok = true := by
          by_cases hc : c.ok = true
          · exact hc
          · obtain ⟨p, hp, h5, h6⟩ := h4 (by simpa using hc) rfl
            rcases (mem_insertOrdered _ _ _).mp hp with rfl | hp
            · exact absurd (hnew.symm.trans h6) (by simp)
            · exact absurd h5 (hno p hp)
        rw [if_pos hok]
        have hl : (insertOrdered { received r with lastAttempt := now } s.fromRemote).map
            (fun p => if is2 (received r).id p then { p with pubrec := true } else p) =
            insertOrdered { received r with lastAttempt := now, pubrec := true } s.fromRemote := by
          rw [map_insertOrdered _ (by intro p; split <;> rfl)]
          rw [if_pos hnew]
          rw [map_id_of _ s.fromRemote]
          intro p hp
          rw [if_neg]
          rw [is2_iff]
          exact fun h => hno p hp h.1
        have hcs : c.s = { s with fromRemote := insertOrdered { received r with lastAttempt := now, pubrec := true } s.fromRemote } := by
          rcases h3 with h3 | h3
          · rw [h3, hl]
          · exact absurd rfl h3.2
        refine ⟨_, _, rfl, hcs, ?_, ?_⟩
        · exact ok.insert _ ⟨rfl, hid, .inr hq, rfl⟩ (fun _ => rfl) (fun h => by cases h) (fun _ q hq' _ => hno q hq')
        · exact .store hq hno (by simp [h2]) rfl
      · rw [receive2 now (received r) s hq' _ hf]
        dsimp only
        have hsame : ∀ (h : Handled), h.s = s → h.delivered = [] → RecvStep s.fromRemote (.publish now r .accept tx) ⟨h.delivered, h.sent, h.alive⟩ s.fromRemote := by
          intro h e1 e2
          refine .thin (by simp [e2]) (.refl _) (by intros; contradiction) ?_ (by intros; contradiction) (by intros; intro h; cases h)
          intro now' r' tx' e
          cases e
          exact .inr ⟨hq, rfl, q, hm, he⟩
        split
        · exact ⟨_, s.fromRemote, rfl, rfl, ok, hsame ⟨s, [], [], false⟩ rfl rfl⟩
        · obtain ⟨h, l, h1, h2, h3, h4, h5, h6⟩ := sendAckFor_recv (received r) 0 tx s ok
          rw [h1]
          obtain ⟨e1, e2⟩ := h5 hq
          subst e1
          refine ⟨_, s.fromRemote, rfl, h2, ok, ?_⟩
          exact hsame ⟨h.s, [] ++ h.delivered, h.sent, h.alive⟩ h2 (by simp [e2])

/-! ## Acknowledgements from the remote -/

/-- The queue to the remote after an acknowledgement from the remote. -/
def AckedTo (a : Ack) (l l' : List Item) : Prop :=
  (l' = l.map (ackOn a) ∧ (a.kind = .pubrec → l' = l)) ∨ (a.kind = .pubrec ∧ ∃ r, l' = (l.map (ackOn a)).map (ackOn { kind := .pubrel, id := a.id, reason := r }))

theorem handleAck_out (a : Ack) (ha : a.id ≠ 0) (hk : a.kind ≠ .pubrel) (v5 tx : Bool) (s : Session) (hg : Good [] s.toRemote s.pool s.grace) :
    ((∃ p, .pub p ∈ s.toRemote ∧ p.id = a.id) ∧ (a.kind = .suback ∨ a.kind = .unsuback) ∧ handleAnyAck a v5 tx s = none) ∨
    ∃ h l, handleAnyAck a v5 tx s = some h ∧ h.s = { s with toRemote := l } ∧ AckedTo a s.toRemote l ∧ h.delivered = [] ∧
      ∀ b, .ack b ∈ h.sent → b.kind = .pubrel ∧ b.id = a.id ∧ a.kind = .pubrec := by
  have hout : a.kind.wasOutbound = true := by
    cases h : a.kind <;> simp_all [AckKind.wasOutbound]
  have simple : a.kind ≠ .pubrec → handleAnyAck a v5 tx s = handleAck a s := by
    intro h
    unfold handleAnyAck
    split
    · next e => exact absurd e h
    · next e => exact absurd e hk
    · rfl
  by_cases hrec : a.kind = .pubrec
  · right
    rcases processAck_out a ha s hg with ⟨_, h, _⟩ | ⟨c, h1, h2, h3, _, _, h4⟩
    · rw [hrec] at h; rcases h with h | h <;> cases h
    have e : handleAnyAck a v5 tx s = handleRecRel a v5 tx s := by unfold handleAnyAck; rw [hrec]
    rw [e]
    unfold handleRecRel
    rw [hout, h1]
    dsimp only
    split
    · next hc => exact ⟨_, _, rfl, h2, .inl ⟨rfl, h4 (by simp only [Bool.and_eq_true, Bool.not_eq_true'] at hc; exact hc.1)⟩, h3, by simp⟩
    · generalize (if c.found ≠ 1 then (146 : UInt8) else if c.ok = true then 0 else 128) = reason
      unfold sendNow noteAck
      have hn : a.kind.next = .pubrel := by rw [hrec]; rfl
      rw [hn]
      dsimp only
      have hg' : Good [] c.s.toRemote c.s.pool c.s.grace := by
        rw [h2]; exact hg.map _ fun x hx => ackOn_ok a ha x (hg.items x hx)
      rcases processAck_out { kind := .pubrel, id := a.id, reason := reason } ha c.s hg' with ⟨_, h, _⟩ | ⟨d, k1, k2, k3, _⟩
      · rcases h with h | h <;> cases h
      rw [k1]
      dsimp only
      have hds : d.s = { s with toRemote := (s.toRemote.map (ackOn a)).map (ackOn { kind := .pubrel, id := a.id, reason := reason }) } := by
        rw [k2, h2]
      split
      · refine ⟨_, _, rfl, hds, .inr ⟨hrec, _, rfl⟩, by simp [h3, k3], ?_⟩
        intro b hb
        dsimp only at hb
        split at hb
        · simp only [List.mem_singleton, Wire.ack.injEq] at hb; subst hb; exact ⟨rfl, rfl, hrec⟩
        · simp at hb
      · exact ⟨_, _, rfl, hds, .inr ⟨hrec, _, rfl⟩, by simp [h3, k3], by simp⟩
  · rw [simple hrec]
    unfold handleAck
    rw [hout]
    rcases processAck_out a ha s hg with ⟨hp, h, e⟩ | ⟨c, h1, h2, h3, _⟩
    · rw [e]; exact .inl ⟨hp, h, rfl⟩
    · rw [h1]; exact .inr ⟨_, _, rfl, h2, .inl ⟨rfl, fun h => absurd h hrec⟩, h3, by simp⟩

theorem AckedTo.good {a : Ack} (ha : a.id ≠ 0) {l l' : List Item} (h : AckedTo a l l') {o pool g} (hg : Good o l pool g) : Good o l' pool g := by
  have h1 := hg.map (ackOn a) fun x hx => ackOn_ok a ha x (hg.items x hx)
  rcases h with ⟨rfl, _⟩ | ⟨_, r, rfl⟩
  · exact h1
  · exact h1.map _ fun x hx => ackOn_ok { kind := .pubrel, id := a.id, reason := r } ha x (h1.items x hx)

theorem relOn_is2 (id : BitVec 16) (p : Pub) (h : is2 id p = true) : is2 id (relOn id p) = true := by
  obtain ⟨h1, h2⟩ := (is2_iff _ _).mp h
  obtain ⟨h3, h4, _⟩ := relOn_fields id p
  exact (is2_iff _ _).mpr ⟨h3.trans h1, h4.trans h2⟩

theorem handleAck_rel (a : Ack) (hk : a.kind = .pubrel) (v5 tx : Bool) (s : Session) (ok : RecvOk s.fromRemote) :
    ∃ h l, handleAnyAck a v5 tx s = some h ∧ h.s = { s with fromRemote := l } ∧ RecvOk l ∧
      RecvStep s.fromRemote (.ack a v5 tx) ⟨h.delivered, h.sent, h.alive⟩ l := by
  obtain ⟨c, h1, h2, h3, h4, h5⟩ := processAck_pubrel a hk s ok
  have e : handleAnyAck a v5 tx s = handleRecRel a v5 tx s := by unfold handleAnyAck; rw [hk]
  have hout : a.kind.wasOutbound = false := by rw [hk]; rfl
  rw [e]
  unfold handleRecRel
  rw [hout, h1]
  dsimp only
  split
  · exact ⟨_, _, rfl, h2, ok.rel a.id, .rel hk h3 (.inl rfl) (by simp)⟩
  · have hreason : (if c.found ≠ 1 then (146 : UInt8) else if c.ok = true then 0 else 128) = 0 → ∃ p ∈ s.fromRemote, is2 a.id p = true := by
      intro h
      split at h
      · exact absurd h (by decide)
      · next hf =>
        rw [h4] at hf
        split at hf
        · next hex => exact hex
        · simp at hf
    generalize (if c.found ≠ 1 then (146 : UInt8) else if c.ok = true then 0 else 128) = reason at hreason
    unfold sendNow noteAck
    have hn : a.kind.next = .pubcomp := by rw [hk]; rfl
    rw [hn]
    dsimp only
    have ok' : RecvOk c.s.fromRemote := by rw [h2]; exact ok.rel a.id
    obtain ⟨d, k1, k2, k3, k4⟩ := processAck_pubcomp { kind := .pubcomp, id := a.id, reason := reason } rfl c.s ok'
    rw [k1]
    dsimp only
    have hds : d.s = { s with fromRemote := (s.fromRemote.map (relOn a.id)).map (compOn a.id) } := by rw [k2, h2]
    split
    · refine ⟨_, _, rfl, hds, (ok.rel a.id).comp a.id, .rel hk (by simp [h3, k3]) (.inr rfl) ?_⟩
      intro b hb
      dsimp only at hb
      split at hb
      · simp only [List.mem_singleton, Wire.ack.injEq] at hb; subst hb; exact ⟨rfl, rfl, hreason⟩
      · simp at hb
    · exact ⟨_, _, rfl, hds, (ok.rel a.id).comp a.id, .rel hk (by simp [h3, k3]) (.inr rfl) (by simp)⟩

/-! ## All operations -/

theorem fresh_ok (p : Pub) (h : p.qos ≤ 2) : ItemOk (.pub (fresh p)) := ⟨rfl, h, rfl, fun _ => ⟨rfl, rfl, rfl, rfl, rfl, rfl⟩⟩

theorem Good.append {o l pool g} (h : Good o l pool g) (m : List Item) (hm : ∀ x ∈ m, ItemOk x ∧ x.id = 0) : Good o (l ++ m) pool g := by
  have e : idsOf (l ++ m) = idsOf l := by
    rw [idsOf_append]
    have : idsOf m = [] := by
      unfold idsOf
      rw [List.filter_eq_nil_iff]
      intro n hn
      obtain ⟨x, hx, rfl⟩ := List.mem_map.mp hn
      simp [(hm x hx).2]
    rw [this, List.append_nil]
  refine ⟨h.inv, ?_, h.grace, by rw [e]; exact h.nodup, by rw [e]; exact h.live⟩
  intro x hx
  rcases List.mem_append.mp hx with hx | hx
  · exact h.items x hx
  · exact (hm x hx).1

theorem graceTick_good (now : Nat) : ∀ (g : List Item) (o : List (BitVec 16)) (l : List Item) (pool : IdPool.Pool), Good o l pool g →
    ∃ pool' g', graceTick now pool g = some (pool', g') ∧ Good o l pool' g' ∧ (∃ d, g = d ++ g') := by
  intro g
  induction g with
  | nil => intro o l pool h; exact ⟨_, _, rfl, h, [], rfl⟩
  | cons x g ih =>
    intro o l pool h
    rw [graceTick]
    obtain ⟨hx1, hx2⟩ := h.grace x List.mem_cons_self
    rw [if_neg hx1]
    by_cases hlt : x.plannedExpiry < now
    · rw [if_pos hlt]
      have hnext : ∃ pool', releaseItem pool x = some pool' ∧ Good o l pool' g := by
        unfold releaseItem
        cases hp : x.poolId with
        | none =>
          refine ⟨pool, rfl, h.inv, h.items, fun y hy => h.grace y (List.mem_cons_of_mem _ hy), ?_, ?_⟩
          · have := h.nodup; simpa [graceIds, hp] using this
          · have := h.live; simpa [graceIds, hp] using this
        | some id =>
          have hid := hx2 id hp
          have e : graceIds (x :: g) = id :: graceIds g := by simp [graceIds, hp]
          have hperm : (o ++ (idsOf l ++ graceIds (x :: g))).Perm (id :: (o ++ (idsOf l ++ graceIds g))) := by
            rw [e, ← List.append_assoc, ← List.append_assoc]; exact List.perm_middle
          have hlive : IdPool.live pool id.toNat := (h.live id hid).mpr (hperm.mem_iff.mpr List.mem_cons_self)
          obtain ⟨pool', hr, h1, h2⟩ := release_live pool h.inv id hid hlive
          have hn := List.nodup_cons.mp (hperm.nodup_iff.mp h.nodup)
          refine ⟨pool', hr, h2, h.items, fun y hy => h.grace y (List.mem_cons_of_mem _ hy), hn.2, ?_⟩
          intro k hk
          rw [h1, h.live k hk, hperm.mem_iff, List.mem_cons]
          constructor
          · rintro ⟨h | h, hne⟩
            · exact absurd (by rw [h]) hne
            · exact h
          · intro hm
            refine ⟨.inr hm, fun e => hn.1 ?_⟩
            have : k = id := BitVec.eq_of_toNat_eq e
            rw [← this]; exact hm
      obtain ⟨pool', hr, hg⟩ := hnext
      obtain ⟨pool'', g', h1, h2, d, h3⟩ := ih o l pool' hg
      rw [hr]
      exact ⟨pool'', g', h1, h2, x :: d, by rw [h3]; rfl⟩
    · rw [if_neg hlt]; exact ⟨_, _, rfl, h, [], rfl⟩

theorem poolInv_init : IdPool.Inv IdPool.init := ⟨0, by omega, rfl⟩

theorem live_init (k : Nat) : ¬ IdPool.live IdPool.init k := by simp [IdPool.live, IdPool.init, IdPool.bit]

theorem good_fresh (l : List Item) (h : ∀ x ∈ l, ItemOk x ∧ x.id = 0) : Good [] l IdPool.init [] := by
  have h0 : Good [] [] IdPool.init [] := ⟨poolInv_init, by simp, by simp, by simp [idsOf, graceIds],
    fun n _ => by simp [idsOf, graceIds, live_init]⟩
  have := h0.append l h
  rwa [List.nil_append] at this

theorem preserved_ok (x y : Item) (h : ItemOk x) (he : preserved x = some y) : ItemOk y ∧ y.id = 0 := by
  cases x with
  | sub q => simp [preserved] at he
  | pub p =>
    simp only [preserved] at he
    split at he
    · cases he
      exact ⟨⟨h.1, h.2.1, rfl, fun _ => ⟨rfl, rfl, rfl, rfl, rfl, rfl⟩⟩, rfl⟩
    · cases he

/-- The pass over both queues. -/
theorem sendPass_spec (now : Nat) (hnow : 0 < now) (tx : Nat → Tx) (s : Session) (hi : Inv s) :
    ∃ l c e, pass (sendItem s now tx) (s.toRemote ++ s.delayed.map .pub) { pool := s.pool, grace := s.grace, incomplete := 0, sent := [] } = some (l, c, e) ∧
      Good [] l c.pool c.grace ∧
      ∃ s' w ok, sendPass now tx s = some (s', w, ok) ∧ Inv s' ∧ s'.toRemote = l ∧ s'.delayed = [] ∧ Thinned s.fromRemote s'.fromRemote ∧
        s'.broker = s.broker ∧ s'.retry = s.retry ∧ s'.maxInFlight = s.maxInFlight ∧ s'.receiveMax = s.receiveMax ∧ s'.graceTime = s.graceTime ∧
        graceIds s'.grace = graceIds c.grace ∧ ∃ w2, w = c.sent ++ w2 ∧ ∀ x ∈ w2, ∃ id, x = .ack { kind := .pubrec, id := id } := by
  obtain ⟨l, c, e, h1, h2⟩ := pass_good s now hnow tx (s.toRemote ++ s.delayed.map .pub) []
    { pool := s.pool, grace := s.grace, incomplete := 0, sent := [] }
    (hi.send.append _ fun x hx => by
      obtain ⟨p, hp, rfl⟩ := List.mem_map.mp hx
      obtain ⟨hf, hq⟩ := hi.delayed p hp
      have := fresh_ok p hq
      rw [hf] at this
      exact ⟨this, by show p.id = 0; rw [← hf]; rfl⟩)
  refine ⟨l, c, e, h1, h2, ?_⟩
  unfold sendPass
  dsimp only
  rw [h1]
  cases e with
  | true =>
    exact ⟨_, _, _, rfl, ⟨hi.recv, h2, by simp⟩, rfl, rfl, .refl _, rfl, rfl, rfl, rfl, rfl, rfl, [], by simp, by simp⟩
  | false =>
    dsimp only
    obtain ⟨r, c', e', g, k1, k2, k3, k4, k5, w2, k6, k7⟩ := pass_recv s now tx s.fromRemote { c with incomplete := 0 } hi.recv.inbound
    rw [k1]
    have hz : graceIds g = [] := by
      unfold graceIds
      rw [List.filterMap_eq_nil_iff]
      intro x hx
      obtain ⟨p, rfl, hp, _⟩ := k5 x hx
      simp [Item.poolId, hp]
    refine ⟨_, _, _, rfl, ⟨k2.recvOk hi.recv, ?_, by simp⟩, rfl, rfl, k2, rfl, rfl, rfl, rfl, rfl, ?_, w2, k6, k7⟩
    rotate_left
    · show graceIds c'.grace = _
      rw [k4, graceIds_append, hz, List.append_nil]
    show Good [] l c'.pool c'.grace
    rw [k3, k4]
    refine h2.perm ?_ h2.items ?_
    · show (_ ++ (_ ++ graceIds c.grace)).Perm _
      rw [graceIds_append, hz, List.append_nil]
    · intro x hx
      rcases List.mem_append.mp hx with hx | hx
      · exact h2.grace x hx
      · obtain ⟨p, rfl, hp, he⟩ := k5 x hx
        refine ⟨by simp only [Item.plannedExpiry, he]; omega, ?_⟩
        intro id hid
        simp [Item.poolId, hp] at hid

/-- The only abort: SUBACK or UNSUBACK with the identifier of a PUBLISH. -/
def Bad (s : Session) (op : Op) : Prop :=
  ∃ a v5 tx, op = .ack a v5 tx ∧ (a.kind = .suback ∨ a.kind = .unsuback) ∧ ∃ p, .pub p ∈ s.toRemote ∧ p.id = a.id

/-- Every operation keeps the invariant. -/
theorem step_inv (s : Session) (op : Op) (hi : Inv s) (hv : Valid s.broker op) :
    (Bad s op ∧ step s op = none) ∨
    ∃ s' o, step s op = some (s', o) ∧ Inv s' ∧ s'.broker = s.broker ∧ RecvStep s.fromRemote op o s'.fromRemote := by
  have quiet : ∀ (s' : Session) (o : Out), s'.fromRemote = s.fromRemote → o.delivered = [] → (∀ now r v tx, op ≠ .publish now r v tx) →
      (∀ a v5 tx, op = .ack a v5 tx → a.kind ≠ .pubrel) → (∀ m r t g, op ≠ .init m r t g true) → RecvStep s.fromRemote op o s'.fromRemote := by
    intro s' o h1 h2 h3 h4 h5
    rw [h1]
    exact .thin (by simp [h2]) (.refl _) h4 (fun now r tx e => absurd e (h3 _ _ _ _)) (fun _ _ _ _ => h2) h5
  cases op with
  | queue p =>
    refine .inr ⟨_, _, rfl, ⟨hi.recv, ?_, hi.delayed⟩, rfl, quiet { s with toRemote := s.toRemote ++ [.pub (fresh p)] } {} rfl rfl (by intros; intro h; cases h) (by intros; contradiction) (by intros; intro h; cases h)⟩
    exact hi.send.append _ fun x hx => by
      simp only [List.mem_singleton] at hx; subst hx; exact ⟨fresh_ok p hv, rfl⟩
  | queueSub key unsub =>
    refine .inr ⟨_, _, rfl, ⟨hi.recv, ?_, hi.delayed⟩, rfl, quiet { s with toRemote := s.toRemote ++ [.sub { key := key, unsub := unsub }] } {} rfl rfl (by intros; intro h; cases h) (by intros; contradiction) (by intros; intro h; cases h)⟩
    exact hi.send.append _ fun x hx => by
      simp only [List.mem_singleton] at hx; subst hx; exact ⟨fun _ => ⟨rfl, rfl⟩, rfl⟩
  | retained p =>
    refine .inr ⟨_, _, rfl, ⟨hi.recv, hi.send, ?_⟩, rfl, quiet { s with delayed := s.delayed ++ [fresh p] } {} rfl rfl (by intros; intro h; cases h) (by intros; contradiction) (by intros; intro h; cases h)⟩
    intro q hq
    rcases List.mem_append.mp hq with hq | hq
    · exact hi.delayed q hq
    · simp only [List.mem_singleton] at hq; subst hq; exact ⟨rfl, hv⟩
  | publish now p v tx =>
    obtain ⟨h, l, h1, h2, h3, h4⟩ := handlePublish_recv now p v tx s hi.recv hv.2.1
    refine .inr ⟨h.s, ⟨h.delivered, h.sent, h.alive⟩, by simp [step, h1], ?_, by rw [h2], by rw [h2]; exact h4⟩
    rw [h2]; exact ⟨h3, hi.send, hi.delayed⟩
  | ack a v5 tx =>
    by_cases hk : a.kind = .pubrel
    · obtain ⟨h, l, h1, h2, h3, h4⟩ := handleAck_rel a hk v5 tx s hi.recv
      refine .inr ⟨h.s, ⟨h.delivered, h.sent, h.alive⟩, by simp [step, h1], ?_, by rw [h2], by rw [h2]; exact h4⟩
      rw [h2]; exact ⟨h3, hi.send, hi.delayed⟩
    · rcases handleAck_out a hv.1 hk v5 tx s hi.send with ⟨h1, h2, h3⟩ | ⟨h, l, h1, h2, h3, h4, h5⟩
      · exact .inl ⟨⟨a, v5, tx, rfl, h2, h1⟩, by simp [step, h3]⟩
      · refine .inr ⟨h.s, ⟨h.delivered, h.sent, h.alive⟩, by simp [step, h1], ?_, by rw [h2], ?_⟩
        · rw [h2]; exact ⟨hi.recv, h3.good hv.1 hi.send, hi.delayed⟩
        · exact quiet h.s ⟨h.delivered, h.sent, h.alive⟩ (by rw [h2]) h4 (by intros; intro h; cases h)
            (by intro a' v5' tx' e; cases e; exact hk) (by intros; intro h; cases h)
  | pass now tx =>
    obtain ⟨l, c, e, h1, h2, s', w, ok, h3, h4, h5, h6, h7, h8, _⟩ := sendPass_spec now hv tx s hi
    refine .inr ⟨s', ⟨[], w, ok⟩, by simp [step, h3], h4, h8, ?_⟩
    exact .thin (by simp) h7 (by intros; contradiction) (by intros; contradiction) (by intros; rfl) (by intros; intro h; cases h)
  | tick now =>
    obtain ⟨pool', g', h1, h2, _⟩ := graceTick_good now s.grace [] s.toRemote s.pool hi.send
    refine .inr ⟨{ s with pool := pool', grace := g' }, {}, by simp [step, h1], ⟨hi.recv, h2, hi.delayed⟩, rfl, ?_⟩
    exact quiet { s with pool := pool', grace := g' } {} rfl rfl (by intros; intro h; cases h) (by intros; contradiction) (by intros; intro h; cases h)
  | init m r t g c =>
    cases c with
    | false =>
      exact .inr ⟨{ s with maxInFlight := m, receiveMax := r, retry := t, graceTime := g }, {}, rfl, ⟨hi.recv, hi.send, hi.delayed⟩, rfl,
        quiet { s with maxInFlight := m, receiveMax := r, retry := t, graceTime := g } {} rfl rfl (by intros; intro h; cases h)
          (by intros; contradiction) (by intros; intro h; cases h)⟩
    | true =>
      refine .inr ⟨clean { s with maxInFlight := m, receiveMax := r, retry := t, graceTime := g }, {}, rfl, ⟨?_, ?_, hi.delayed⟩, rfl, .clean rfl⟩
      · exact ⟨by simp [clean], by simp [clean], by simp [clean], .nil, .nil⟩
      · refine good_fresh _ fun y hy => ?_
        obtain ⟨x, hx, he⟩ := List.mem_filterMap.mp hy
        exact preserved_ok x y (hi.send.items x hx) he

/-- A new session. -/
theorem inv_init (b : Bool) : Inv { broker := b } :=
  ⟨⟨by simp, by simp, by simp, .nil, .nil⟩, good_fresh [] (by simp), by simp⟩

end Verif.Session
