import Verif.Session.Spec
/-!
# The queue of messages from the remote

Helper lemmas; the properties are in `Verif.Session.RecvProps`.
-/
namespace Verif.Session
open Verif Spec

/-- A packet without the fields which say when it was sent, and without the PUBACK. -/
def Pub.core (p : Pub) : Pub := { p with puback := false, lastAttempt := 0, dup := false }

/-- The queue is in order. -/
structure RecvOk (l : List Pub) : Prop where
  inbound : ∀ p ∈ l, p.outbound = false ∧ p.id ≠ 0 ∧ (p.qos = 1 ∨ p.qos = 2) ∧ p.plannedExpiry = 0
  pubrec : ∀ p ∈ l, p.qos = 2 → p.pubrec = true
  pubcomp : ∀ p ∈ l, p.pubcomp = true → p.pubrel = true ∧ p.qos = 2
  sorted : l.Pairwise (fun p q => p.id.toNat ≤ q.id.toNat)
  uniq : l.Pairwise (fun p q => p.qos = 2 → q.qos = 2 → p.id ≠ q.id)

/-! ## Lists with the same cores, and thinned lists -/

/-- The second list is the first one with some complete packets taken out; the others have the same core. -/
inductive Thinned : List Pub → List Pub → Prop
  | nil : Thinned [] []
  | keep {p q l m} : p.core = q.core → Thinned l m → Thinned (p :: l) (q :: m)
  | drop {p l m} : p.complete = true → Thinned l m → Thinned (p :: l) m

theorem Thinned.refl (l : List Pub) : Thinned l l := by
  induction l with
  | nil => exact .nil
  | cons p l ih => exact .keep rfl ih

theorem core_fields {p q : Pub} (h : p.core = q.core) :
    p.key = q.key ∧ p.qos = q.qos ∧ p.id = q.id ∧ p.outbound = q.outbound ∧ p.plannedExpiry = q.plannedExpiry ∧ p.pubrec = q.pubrec ∧
    p.pubrel = q.pubrel ∧ p.pubcomp = q.pubcomp ∧ p.topic = q.topic ∧ p.payload = q.payload ∧ p.retain = q.retain ∧
    p.createTime = q.createTime ∧ p.expiry = q.expiry ∧ p.size = q.size := by
  simp only [Pub.core, Pub.mk.injEq] at h
  simp [h]

/-- Whatever is in the new list is in the old list. -/
theorem Thinned.mem {l m : List Pub} (h : Thinned l m) : ∀ q ∈ m, ∃ p ∈ l, p.core = q.core := by
  induction h with
  | nil => intro q hq; simp at hq
  | keep e _ ih =>
    intro q hq
    rcases List.mem_cons.mp hq with rfl | hq
    · exact ⟨_, List.mem_cons_self, e⟩
    · obtain ⟨p, hp, he⟩ := ih q hq; exact ⟨p, List.mem_cons_of_mem _ hp, he⟩
  | drop _ _ ih => intro q hq; obtain ⟨p, hp, he⟩ := ih q hq; exact ⟨p, List.mem_cons_of_mem _ hp, he⟩

/-- Whatever is in the old list is in the new one, or complete. -/
theorem Thinned.mem_old {l m : List Pub} (h : Thinned l m) :
    ∀ p ∈ l, p.complete = true ∨ ∃ q ∈ m, p.core = q.core := by
  induction h with
  | nil => intro q hq; simp at hq
  | keep e _ ih =>
    intro q hq
    rcases List.mem_cons.mp hq with rfl | hq
    · exact .inr ⟨_, List.mem_cons_self, e⟩
    · rcases ih q hq with hc | ⟨p, hp, he⟩
      · exact .inl hc
      · exact .inr ⟨p, List.mem_cons_of_mem _ hp, he⟩
  | drop hc _ ih =>
    intro q hq
    rcases List.mem_cons.mp hq with rfl | hq
    · exact .inl hc
    · exact ih q hq

theorem RecvOk.cons {p : Pub} {l : List Pub} (h : RecvOk (p :: l)) : RecvOk l where
  inbound := fun q hq => h.inbound q (List.mem_cons_of_mem _ hq)
  pubrec := fun q hq => h.pubrec q (List.mem_cons_of_mem _ hq)
  pubcomp := fun q hq => h.pubcomp q (List.mem_cons_of_mem _ hq)
  sorted := (List.pairwise_cons.mp h.sorted).2
  uniq := (List.pairwise_cons.mp h.uniq).2

theorem Thinned.recvOk {l m : List Pub} (h : Thinned l m) (ok : RecvOk l) : RecvOk m := by
  refine ⟨?_, ?_, ?_, ?_, ?_⟩
  · intro q hq; obtain ⟨p, hp, e⟩ := h.mem q hq
    obtain ⟨_, h2, h3, h4, h5, _⟩ := core_fields e
    rw [← h2, ← h3, ← h4, ← h5]; exact ok.inbound p hp
  · intro q hq; obtain ⟨p, hp, e⟩ := h.mem q hq
    obtain ⟨_, h2, _, _, _, h6, _⟩ := core_fields e
    rw [← h2, ← h6]; exact ok.pubrec p hp
  · intro q hq; obtain ⟨p, hp, e⟩ := h.mem q hq
    obtain ⟨_, h2, _, _, _, _, h7, h8, _⟩ := core_fields e
    rw [← h2, ← h7, ← h8]; exact ok.pubcomp p hp
  · induction h with
    | nil => exact .nil
    | keep e ht ih =>
      refine List.pairwise_cons.mpr ⟨fun q hq => ?_, ih ok.cons⟩
      obtain ⟨p, hp, e'⟩ := ht.mem q hq
      have := (List.pairwise_cons.mp ok.sorted).1 p hp
      rw [← (core_fields e).2.2.1, ← (core_fields e').2.2.1]; exact this
    | drop _ _ ih => exact ih ok.cons
  · induction h with
    | nil => exact .nil
    | keep e ht ih =>
      refine List.pairwise_cons.mpr ⟨fun q hq => ?_, ih ok.cons⟩
      obtain ⟨p, hp, e'⟩ := ht.mem q hq
      have := (List.pairwise_cons.mp ok.uniq).1 p hp
      rw [← (core_fields e).2.2.1, ← (core_fields e').2.2.1, ← (core_fields e).2.1, ← (core_fields e').2.1]; exact this
    | drop _ _ ih => exact ih ok.cons

/-! ## Walks -/

/-- A PUBACK changes messages of QoS 1 only. -/
theorem walk_puback (a : Ack) (ha : a.kind = .puback) : ∀ (l : List Pub) (n : Nat), n ≤ 1 →
    ∃ w, walk (fun f p => ackPub a false f p) n l = some w ∧ w.items.map Pub.core = l.map Pub.core ∧ w.found ≤ 1 ∧
      ∀ p ∈ w.delivered, p.qos = 1 ∧ p ∈ l ∧ p.id = a.id := by
  intro l
  induction l with
  | nil => intro n hn; exact ⟨_, rfl, rfl, hn, by simp⟩
  | cons p l ih =>
    intro n hn
    have key : ∃ r, ackPub a false n p = some r ∧ r.item.core = p.core ∧ r.found ≤ 1 ∧ ∀ q ∈ r.delivered, q.qos = 1 ∧ q = p ∧ q.id = a.id := by
      unfold ackPub
      by_cases hid : p.id = a.id
      · rw [if_neg (by simp [hid]), if_neg (by simp [ha])]
        refine ⟨_, rfl, ?_⟩
        unfold ackPubSame
        split
        · exact ⟨rfl, hn, by simp⟩
        · split
          · exact ⟨rfl, hn, by simp⟩
          · rw [ha]
            simp only [ackPuback]
            by_cases hq : p.qos = 1
            · rw [if_neg (by simp [hq])]
              by_cases hn1 : n = 1
              · rw [if_pos hn1]
                refine ⟨rfl, by simp [hn1], ?_⟩
                intro q hq'
                simp only at hq'
                split at hq'
                · simp at hq'; subst hq'; exact ⟨hq, rfl, hid⟩
                · simp at hq'
              · rw [if_neg hn1]
                refine ⟨rfl, by simp only; omega, ?_⟩
                intro q hq'
                simp only at hq'
                split at hq'
                · simp at hq'; subst hq'; exact ⟨hq, rfl, hid⟩
                · simp at hq'
            · rw [if_pos hq]; exact ⟨rfl, hn, by simp⟩
      · rw [if_pos hid]; exact ⟨_, rfl, rfl, hn, by simp⟩
    obtain ⟨r, hr, hc, hf, hd⟩ := key
    rw [walk, hr]
    dsimp only
    obtain ⟨w, hw, hwc, hwf, hwd⟩ := ih r.found hf
    have hd' : ∀ q ∈ r.delivered, q.qos = 1 ∧ q ∈ p :: l ∧ q.id = a.id := fun q hq => by
      obtain ⟨h1, h2, h3⟩ := hd q hq; subst h2; exact ⟨h1, List.mem_cons_self, h3⟩
    cases r.ret with
    | stop => exact ⟨_, rfl, by simp [hc], hf, hd'⟩
    | ok =>
      refine ⟨⟨r.item :: w.items, r.delivered ++ w.delivered, w.found, w.err⟩, by rw [hw]; rfl, by simp [hc, hwc], hwf, ?_⟩
      intro q hq
      rcases List.mem_append.mp hq with hq | hq
      · exact hd' q hq
      · obtain ⟨h1, h2, h3⟩ := hwd q hq; exact ⟨h1, List.mem_cons_of_mem _ h2, h3⟩
    | err =>
      refine ⟨⟨r.item :: w.items, r.delivered ++ w.delivered, w.found, true⟩, by rw [hw]; rfl, by simp [hc, hwc], hwf, ?_⟩
      intro q hq
      rcases List.mem_append.mp hq with hq | hq
      · exact hd' q hq
      · obtain ⟨h1, h2, h3⟩ := hwd q hq; exact ⟨h1, List.mem_cons_of_mem _ h2, h3⟩

theorem map_id_of {α : Type} (f : α → α) (l : List α) (h : ∀ x ∈ l, f x = x) : l.map f = l := by
  induction l with
  | nil => rfl
  | cons x l ih => rw [List.map_cons, h x List.mem_cons_self, ih fun y hy => h y (List.mem_cons_of_mem _ hy)]

/-- The message of QoS 2 with a given identifier. -/
def is2 (id : BitVec 16) (p : Pub) : Bool := p.id == id && p.qos == 2

theorem is2_iff (id : BitVec 16) (p : Pub) : is2 id p = true ↔ p.id = id ∧ p.qos = 2 := by simp [is2]

/-- A walk which stops at the message of QoS 2 with a given identifier. -/
theorem walk_qos2 (f : Nat → Pub → Option (CbRes Pub)) (id : BitVec 16) (g : Pub → Pub) (d : Pub → List Pub) (good : Pub → Bool) :
    ∀ (l : List Pub) (n : Nat),
    (∀ n, ∀ p ∈ l, is2 id p = false → ∃ r, (r = .ok ∨ (r = .err ∧ p.id = id)) ∧ f n p = some ⟨r, p, [], n⟩) →
    (∀ n, ∀ p ∈ l, is2 id p = true → good p = true → f n p = some ⟨.stop, g p, d p, n + 1⟩) →
    (∀ n, ∀ p ∈ l, is2 id p = true → good p = false → f n p = some ⟨.err, p, [], n⟩) →
    l.Pairwise (fun p q => p.qos = 2 → q.qos = 2 → p.id ≠ q.id) →
    ∃ w, walk f n l = some w ∧ w.items = l.map (fun p => if is2 id p && good p then g p else p) ∧
      w.delivered = (l.filter fun p => is2 id p && good p).flatMap d ∧
      w.found = n + (if ∃ p ∈ l, (is2 id p && good p) = true then 1 else 0) ∧
      (w.err = true → ∃ p ∈ l, p.id = id ∧ ¬ (is2 id p && good p) = true) := by
  intro l
  induction l with
  | nil => intro n _ _ _ _; exact ⟨_, rfl, rfl, rfl, by simp, by simp⟩
  | cons p l ih =>
    intro n h1 h2 h3 hu
    obtain ⟨hu1, hu2⟩ := List.pairwise_cons.mp hu
    have ih := fun n => ih n (fun n q hq => h1 n q (List.mem_cons_of_mem _ hq)) (fun n q hq => h2 n q (List.mem_cons_of_mem _ hq))
      (fun n q hq => h3 n q (List.mem_cons_of_mem _ hq)) hu2
    rw [walk]
    by_cases hp : is2 id p = true
    · by_cases hg : good p = true
      · rw [h2 n p List.mem_cons_self hp hg]
        have hno : ∀ q ∈ l, is2 id q = false := by
          intro q hq
          by_cases hq2 : is2 id q = true
          · rw [is2_iff] at hp hq2
            exact absurd (hp.1.trans hq2.1.symm) (hu1 q hq hp.2 hq2.2)
          · simpa using hq2
        refine ⟨_, rfl, ?_, ?_, ?_, by simp⟩
        · simp only [List.map_cons, hp, hg, Bool.and_self, if_true]
          rw [map_id_of _ l fun q hq => by simp [hno q hq]]
        · rw [List.filter_cons_of_pos (by simp [hp, hg]), List.filter_eq_nil_iff.mpr fun q hq => by simp [hno q hq]]
          simp
        · rw [if_pos ⟨p, List.mem_cons_self, by simp [hp, hg]⟩]
      · have hg : good p = false := by simpa using hg
        rw [h3 n p List.mem_cons_self hp hg]
        obtain ⟨w, hw, hi, hd, hf, he⟩ := ih n
        refine ⟨⟨p :: w.items, [] ++ w.delivered, w.found, true⟩, by dsimp only; rw [hw]; rfl, ?_, ?_, ?_, ?_⟩
        · simp [hi, hg]
        · simp [hd, hg]
        · rw [hf]
          by_cases hex : ∃ q ∈ l, (is2 id q && good q) = true
          · rw [if_pos hex, if_pos (by obtain ⟨q, hq, e⟩ := hex; exact ⟨q, List.mem_cons_of_mem _ hq, e⟩)]
          · rw [if_neg hex, if_neg (by
              rintro ⟨q, hq, e⟩
              rcases List.mem_cons.mp hq with rfl | hq
              · rw [hg] at e; simp at e
              · exact hex ⟨q, hq, e⟩)]
        · intro _; exact ⟨p, List.mem_cons_self, ((is2_iff _ _).mp hp).1, by simp [hg]⟩
    · have hp : is2 id p = false := by simpa using hp
      obtain ⟨r, hr, e⟩ := h1 n p List.mem_cons_self hp
      rw [e]
      obtain ⟨w, hw, hi, hd, hf, he⟩ := ih n
      have hf' : w.found = n + (if ∃ q ∈ p :: l, (is2 id q && good q) = true then 1 else 0) := by
        rw [hf]
        by_cases hex : ∃ q ∈ l, (is2 id q && good q) = true
        · rw [if_pos hex, if_pos (by obtain ⟨q, hq, e⟩ := hex; exact ⟨q, List.mem_cons_of_mem _ hq, e⟩)]
        · rw [if_neg hex, if_neg (by
            rintro ⟨q, hq, e'⟩
            rcases List.mem_cons.mp hq with rfl | hq
            · rw [hp] at e'; simp at e'
            · exact hex ⟨q, hq, e'⟩)]
      rcases hr with rfl | ⟨rfl, hid⟩
      · refine ⟨⟨p :: w.items, [] ++ w.delivered, w.found, w.err⟩, by dsimp only; rw [hw]; rfl, ?_, ?_, hf', ?_⟩
        · simp [hi, hp]
        · simp [hd, hp]
        · intro h; obtain ⟨q, hq, e⟩ := he h; exact ⟨q, List.mem_cons_of_mem _ hq, e⟩
      · refine ⟨⟨p :: w.items, [] ++ w.delivered, w.found, true⟩, by dsimp only; rw [hw]; rfl, ?_, ?_, hf', ?_⟩
        · simp [hi, hp]
        · simp [hd, hp]
        · intro _; exact ⟨p, List.mem_cons_self, hid, by simp [hp]⟩

/-- The callback on an entry which is not the message of QoS 2. -/
theorem ackPub_other (a : Ack) (ha : a.kind = .pubrec ∨ a.kind = .pubrel ∨ a.kind = .pubcomp) (n : Nat) (p : Pub) (hp : is2 a.id p = false) :
    ∃ r, (r = .ok ∨ (r = .err ∧ p.id = a.id)) ∧ ackPub a false n p = some ⟨r, p, [], n⟩ := by
  unfold ackPub
  by_cases hid : p.id = a.id
  · have hq : p.qos ≠ 2 := by intro h; rw [(is2_iff a.id p).mpr ⟨hid, h⟩] at hp; contradiction
    rw [if_neg (by simp [hid]), if_neg (by rcases ha with h | h | h <;> simp [h])]
    refine ⟨.err, .inr ⟨rfl, hid⟩, ?_⟩
    unfold ackPubSame
    split
    · rfl
    · rw [if_pos ⟨by rcases ha with h | h | h <;> simp [h], hq⟩]
  · rw [if_pos hid]; exact ⟨.ok, .inl rfl, rfl⟩

theorem ackPub_pubrel (a : Ack) (ha : a.kind = .pubrel) (n : Nat) (p : Pub) (hp : is2 a.id p = true) :
    ackPub a false n p = some (ackPubrel n p) := by
  obtain ⟨h1, h2⟩ := (is2_iff _ _).mp hp
  unfold ackPub ackPubSame
  rw [if_neg (by simp [h1]), if_neg (by simp [ha]), if_neg (by simp [ha]), if_neg (by simp [h2]), ha]

theorem ackPub_pubcomp (a : Ack) (ha : a.kind = .pubcomp) (n : Nat) (p : Pub) (hp : is2 a.id p = true) :
    ackPub a false n p = some (ackPubcomp n p) := by
  obtain ⟨h1, h2⟩ := (is2_iff _ _).mp hp
  unfold ackPub ackPubSame
  rw [if_neg (by simp [h1]), if_neg (by simp [ha]), if_neg (by simp [ha]), if_neg (by simp [h2]), ha]

/-- The reasons which the packet handlers use are known. -/
theorem ackPub_pubrec (a : Ack) (ha : a.kind = .pubrec) (n : Nat) (p : Pub) (hp : is2 a.id p = true)
    (hr : a.reason ≠ 0 → (Mqtt.reasonGetV5 a.reason).isNone = false) :
    ackPub a false n p = some (ackPubrec n p) := by
  obtain ⟨h1, h2⟩ := (is2_iff _ _).mp hp
  unfold ackPub ackPubSame
  rw [if_neg (by simp [h1]), if_neg (by simp [ha]), if_neg (by rintro ⟨_, h3, h4⟩; rw [hr h3] at h4; contradiction),
    if_neg (by simp [h2]), ha]

theorem Thinned.of_core {l m : List Pub} (h : m.map Pub.core = l.map Pub.core) : Thinned l m := by
  induction l generalizing m with
  | nil => simp at h; subst h; exact .nil
  | cons p l ih =>
    cases m with
    | nil => simp at h
    | cons q m =>
      simp only [List.map_cons, List.cons.injEq] at h
      exact .keep h.1.symm (ih h.2)

/-! ## Acknowledgements for messages from the remote -/

/-- The message with this identifier is released. -/
def relOn (id : BitVec 16) (p : Pub) : Pub := if is2 id p then { p with pubrel := true } else p

/-- The exchange for the message with this identifier is complete. -/
def compOn (id : BitVec 16) (p : Pub) : Pub := if is2 id p && p.pubrel then { p with pubcomp := true } else p

theorem processAck_pubrel (a : Ack) (ha : a.kind = .pubrel) (s : Session) (ok : RecvOk s.fromRemote) :
    ∃ c, processAck a false s = some c ∧ c.s = { s with fromRemote := s.fromRemote.map (relOn a.id) } ∧
      c.delivered = s.fromRemote.filter (fun p => is2 a.id p && !p.pubrel) ∧
      c.found = (if ∃ p ∈ s.fromRemote, is2 a.id p = true then 1 else 0) ∧
      (c.ok = false → ∃ p ∈ s.fromRemote, p.id = a.id ∧ is2 a.id p = false) := by
  obtain ⟨w, hw, hi, hd, hf, he⟩ := walk_qos2 (fun f p => ackPub a false f p) a.id (fun p => { p with pubrel := true })
    (fun p => if !p.pubrel then [p] else []) (fun _ => true) s.fromRemote 0
    (fun n p _ hp => ackPub_other a (by simp [ha]) n p hp)
    (fun n p hm hp _ => by
      rw [ackPub_pubrel a ha n p hp]
      simp only [ackPubrel, ok.pubrec p hm ((is2_iff _ _).mp hp).2, (ok.inbound p hm).1]
      simp)
    (fun n p _ _ h => by simp at h) ok.uniq
  unfold processAck
  rw [if_neg (by simp), hw]
  dsimp only
  rw [if_neg (by rw [hf]; split <;> simp)]
  refine ⟨_, rfl, ?_, ?_, ?_, ?_⟩
  · simp only [hi, Bool.and_true]; rfl
  · simp only [hd, Bool.and_true]
    generalize s.fromRemote = l
    induction l with
    | nil => rfl
    | cons p l ih =>
      by_cases h1 : is2 a.id p = true
      · by_cases h2 : p.pubrel = true
        · rw [List.filter_cons_of_pos h1, List.filter_cons_of_neg (by simp [h2]), List.flatMap_cons, ih]; simp [h2]
        · rw [List.filter_cons_of_pos h1, List.filter_cons_of_pos (by simp [h1, h2]), List.flatMap_cons, ih]; simp [h2]
      · rw [List.filter_cons_of_neg h1, List.filter_cons_of_neg (by simp [h1]), ih]
  · simp only [hf, Bool.and_true, Nat.zero_add]
  · intro h
    obtain ⟨p, hp, h1, h2⟩ := he (by simpa using h)
    exact ⟨p, hp, h1, by simpa using h2⟩

theorem processAck_pubcomp (a : Ack) (ha : a.kind = .pubcomp) (s : Session) (ok : RecvOk s.fromRemote) :
    ∃ c, processAck a false s = some c ∧ c.s = { s with fromRemote := s.fromRemote.map (compOn a.id) } ∧ c.delivered = [] ∧
      (c.ok = false → ∃ p ∈ s.fromRemote, p.id = a.id ∧ (is2 a.id p && p.pubrel) = false) := by
  obtain ⟨w, hw, hi, hd, hf, he⟩ := walk_qos2 (fun f p => ackPub a false f p) a.id (fun p => { p with pubcomp := true })
    (fun _ => []) (fun p => p.pubrel) s.fromRemote 0
    (fun n p _ hp => ackPub_other a (by simp [ha]) n p hp)
    (fun n p hm hp hg => by
      rw [ackPub_pubcomp a ha n p hp]
      simp [ackPubcomp, ok.pubrec p hm ((is2_iff _ _).mp hp).2, hg])
    (fun n p hm hp hg => by
      rw [ackPub_pubcomp a ha n p hp]
      have hc : p.pubcomp = false := by
        by_cases hc : p.pubcomp = true
        · have := (ok.pubcomp p hm hc).1; rw [hg] at this; contradiction
        · simpa using hc
      have : ({ p with pubcomp := false } : Pub) = p := by rw [← hc]
      unfold ackPubcomp
      rw [if_pos (by simp [hg]), this]) ok.uniq
  unfold processAck
  rw [if_neg (by simp), hw]
  dsimp only
  rw [if_neg (by rw [hf]; split <;> simp)]
  refine ⟨_, rfl, ?_, ?_, ?_⟩
  · simp only [hi]; rfl
  · simp [hd]
  · intro h
    obtain ⟨p, hp, h1, h2⟩ := he (by simpa using h)
    exact ⟨p, hp, h1, by simpa using h2⟩

/-- A PUBREC which is sent changes nothing but the message of QoS 2 with its identifier. -/
theorem processAck_pubrec (a : Ack) (ha : a.kind = .pubrec) (s : Session)
    (hu : s.fromRemote.Pairwise (fun p q => p.qos = 2 → q.qos = 2 → p.id ≠ q.id))  :
    ∃ c, processAck a false s = some c ∧ c.delivered = [] ∧
      (c.s = { s with fromRemote := s.fromRemote.map (fun p => if is2 a.id p then { p with pubrec := true } else p) } ∨
        (c.s = s ∧ a.reason ≠ 0)) ∧
      (c.ok = false → a.reason = 0 → ∃ p ∈ s.fromRemote, p.id = a.id ∧ is2 a.id p = false) := by
  by_cases hr : a.reason ≠ 0 → (Mqtt.reasonGetV5 a.reason).isNone = false
  · obtain ⟨w, hw, hi, hd, hf, he⟩ := walk_qos2 (fun f p => ackPub a false f p) a.id (fun p => { p with pubrec := true })
      (fun _ => []) (fun _ => true) s.fromRemote 0
      (fun n p _ hp => ackPub_other a (by simp [ha]) n p hp)
      (fun n p hm hp hg => by rw [ackPub_pubrec a ha n p hp hr]; rfl)
      (fun n p hm hp hg => by simp at hg) hu
    unfold processAck
    rw [if_neg (by simp), hw]
    dsimp only
    rw [if_neg (by rw [hf]; split <;> simp)]
    refine ⟨_, rfl, ?_, ?_, ?_⟩
    · simp [hd]
    · simp only [hi, Bool.and_true]; exact .inl trivial
    · intro h _
      obtain ⟨p, hp, h1, h2⟩ := he (by simpa using h)
      exact ⟨p, hp, h1, by simpa using h2⟩
  · have hr0 : a.reason ≠ 0 := fun h => hr fun h' => absurd h h'
    have hr : (Mqtt.reasonGetV5 a.reason).isNone = true := by
      cases h : (Mqtt.reasonGetV5 a.reason).isNone with
      | true => rfl
      | false => exact absurd (fun _ => h) hr
    obtain ⟨w, hw, hi, hd, hf, he⟩ := walk_qos2 (fun f p => ackPub a false f p) a.id (fun p => p)
      (fun _ => []) (fun _ => false) s.fromRemote 0
      (fun n p _ hp => ackPub_other a (by simp [ha]) n p hp)
      (fun n p hm hp hg => by simp at hg)
      (fun n p hm hp hg => by
        obtain ⟨h1, h2⟩ := (is2_iff _ _).mp hp
        unfold ackPub ackPubSame
        rw [if_neg (by simp [h1]), if_neg (by simp [ha]), if_pos ⟨by simp [ha], hr0, hr⟩]) hu
    unfold processAck
    rw [if_neg (by simp), hw]
    dsimp only
    rw [if_neg (by rw [hf]; split <;> simp)]
    refine ⟨_, rfl, ?_, ?_, ?_⟩
    · simp [hd]
    · simp only [hi, Bool.and_false, Bool.false_eq_true, if_false, List.map_id']; exact .inr ⟨trivial, hr0⟩
    · intro _ h; exact absurd h hr0

/-- A PUBACK which is sent. -/
theorem processAck_puback (a : Ack) (ha : a.kind = .puback) (s : Session) :
    ∃ c l, processAck a false s = some c ∧ c.s = { s with fromRemote := l } ∧ l.map Pub.core = s.fromRemote.map Pub.core ∧
      ∀ p ∈ c.delivered, p.qos = 1 ∧ p ∈ s.fromRemote ∧ p.id = a.id := by
  obtain ⟨w, hw, hi, hf, hd⟩ := walk_puback a ha s.fromRemote 0 (by omega)
  unfold processAck
  rw [if_neg (by simp), hw]
  dsimp only
  rw [if_neg (by simp; omega)]
  exact ⟨_, w.items, rfl, rfl, hi, hd⟩

/-! ## New messages -/

theorem mem_insertOrdered (p q : Pub) (l : List Pub) : q ∈ insertOrdered p l ↔ q = p ∨ q ∈ l := by
  induction l with
  | nil => simp [insertOrdered]
  | cons r l ih =>
    rw [insertOrdered]
    split
    · simp only [List.mem_cons, ih]
      constructor
      · rintro (h | h | h) <;> simp [h]
      · rintro (h | h | h) <;> simp [h]
    · simp

theorem insertOrdered_sorted (p : Pub) (l : List Pub) (h : l.Pairwise (fun p q => p.id.toNat ≤ q.id.toNat)) :
    (insertOrdered p l).Pairwise (fun p q => p.id.toNat ≤ q.id.toNat) := by
  induction l with
  | nil => simp [insertOrdered]
  | cons r l ih =>
    obtain ⟨h1, h2⟩ := List.pairwise_cons.mp h
    rw [insertOrdered]
    split
    · refine List.pairwise_cons.mpr ⟨fun q hq => ?_, ih h2⟩
      rcases (mem_insertOrdered _ _ _).mp hq with rfl | hq
      · omega
      · exact h1 q hq
    · refine List.pairwise_cons.mpr ⟨fun q hq => ?_, h⟩
      rcases List.mem_cons.mp hq with rfl | hq
      · omega
      · have := h1 q hq; omega

theorem insertOrdered_pairwise (R : Pub → Pub → Prop) (hs : ∀ a b, R a b → R b a) (p : Pub) (l : List Pub) (h : l.Pairwise R)
    (hp : ∀ q ∈ l, R p q) : (insertOrdered p l).Pairwise R := by
  induction l with
  | nil => simp [insertOrdered]
  | cons r l ih =>
    obtain ⟨h1, h2⟩ := List.pairwise_cons.mp h
    rw [insertOrdered]
    split
    · refine List.pairwise_cons.mpr ⟨fun q hq => ?_, ih h2 fun q hq => hp q (List.mem_cons_of_mem _ hq)⟩
      rcases (mem_insertOrdered _ _ _).mp hq with rfl | hq
      · exact hs _ _ (hp r List.mem_cons_self)
      · exact h1 q hq
    · exact List.pairwise_cons.mpr ⟨hp, h⟩

/-- The search finds an entry with the same identifier if there is one. -/
theorem findQos2_spec (id : BitVec 16) (hid : id ≠ 0) (l : List Pub) (hs : l.Pairwise (fun p q => p.id.toNat ≤ q.id.toNat))
    (h0 : ∀ p ∈ l, p.id ≠ 0) :
    (findQos2 id l = some none ∧ ∀ q ∈ l, q.id ≠ id) ∨ ∃ q ∈ l, q.id = id ∧ findQos2 id l = some (some q) := by
  have hid0 : id.toNat ≠ 0 := fun h => hid (BitVec.eq_of_toNat_eq h)
  induction l with
  | nil => exact .inl ⟨rfl, by simp⟩
  | cons q l ih =>
    obtain ⟨h1, h2⟩ := List.pairwise_cons.mp hs
    rw [findQos2]
    by_cases hlt : id.toNat - 1 < q.id.toNat
    · rw [if_pos hlt, if_neg (h0 q List.mem_cons_self)]
      by_cases he : q.id = id
      · rw [if_pos he]; exact .inr ⟨q, List.mem_cons_self, he, rfl⟩
      · rw [if_neg he]
        refine .inl ⟨rfl, fun r hr => ?_⟩
        rcases List.mem_cons.mp hr with rfl | hr
        · exact he
        · intro h
          have h3 := h1 r hr
          rw [h] at h3
          exact he (BitVec.eq_of_toNat_eq (by omega))
    · rw [if_neg hlt]
      rcases ih h2 (fun p hp => h0 p (List.mem_cons_of_mem _ hp)) with ⟨ha, hb⟩ | ⟨r, hr, he, hf⟩
      · refine .inl ⟨ha, fun r hr => ?_⟩
        rcases List.mem_cons.mp hr with rfl | hr
        · intro h; rw [h] at hlt; omega
        · exact hb r hr
      · exact .inr ⟨r, List.mem_cons_of_mem _ hr, he, hf⟩

/-! ## The pass over the queue from the remote -/

theorem retryReset_core (retry now : Nat) (p : Pub) : (p.retryReset retry now).core = p.core := by
  unfold Pub.retryReset
  split <;> rfl

theorem sendPub_recv (s : Session) (now : Nat) (tx : Nat → Tx) (p : Pub) (c : Ctx)
    (hp : p.outbound = false ∧ p.id ≠ 0 ∧ (p.qos = 1 ∨ p.qos = 2) ∧ p.plannedExpiry = 0) :
    (p.complete = true ∧ ∃ q : Pub, sendPub s now tx p c = some ({ give := true }, q, { c with grace := c.grace ++ [.pub q] }) ∧
      q = { p with plannedExpiry := now + s.graceTime }) ∨
    (p.complete = false ∧ ∃ a q c', sendPub s now tx p c = some (a, q, c') ∧ q.core = p.core ∧ a.give = false ∧ c'.pool = c.pool ∧ c'.grace = c.grace ∧
      ∃ w, c'.sent = c.sent ++ w ∧ ∀ x ∈ w, ∃ id, x = .ack { kind := .pubrec, id := id }) := by
  unfold sendPub
  by_cases hc : p.complete = true
  · rw [if_pos hc]; exact .inl ⟨hc, _, rfl, rfl⟩
  · rw [if_neg hc]
    refine .inr ⟨by simpa using hc, ?_⟩
    have he : ensureId c.pool p.id = some (some p.id, c.pool) := by unfold ensureId; rw [if_pos hp.2.1]
    rw [he]
    dsimp only
    generalize hq : Pub.retryReset s.retry now _ = q
    have hqc : q.core = p.core := by rw [← hq]; exact retryReset_core _ _ _
    have hout : q.outbound = false := by rw [(core_fields hqc).2.2.2.1]; exact hp.1
    obtain ⟨w, del, n, hw⟩ : ∃ w del n, processPub s now c.incomplete q = (w, del, n) := ⟨_, _, _, rfl⟩
    have hsend : ∀ x, w = some x → ∃ id, x = .ack { kind := .pubrec, id := id } := by
      intro x hx
      have h1 : w = none ∨ w = q.toSend.1 := by
        have : w = (processPub s now c.incomplete q).1 := by rw [hw]
        rw [this]
        unfold processPub
        dsimp only
        repeat' split
        all_goals first | exact .inl rfl | exact .inr rfl
      rcases h1 with h1 | h1
      · rw [h1] at hx; contradiction
      · rw [h1] at hx
        unfold Pub.toSend at hx
        rw [if_neg (by simp [hout]), hout] at hx
        split at hx
        · rw [if_neg (by simp)] at hx
          split at hx
          · simp only [Option.some.injEq] at hx; exact ⟨_, hx.symm⟩
          · simp at hx
        · simp at hx
    have hdel : del = false := by
      unfold processPub at hw
      split at hw
      · simp at hw; exact hw.2.1
      · split at hw
        · simp at hw; exact hw.2.1
        · dsimp only at hw
          rw [if_neg (by simp [hout])] at hw
          simp only [Prod.mk.injEq] at hw
          rw [← hw.2.1]
          unfold Pub.toSend
          rw [if_neg (by simp [hout]), hout]
          split
          · simp; split <;> rfl
          · rfl
    rw [hw, hdel]
    dsimp only
    unfold transmitPub
    dsimp only
    cases w with
    | none => exact ⟨_, _, _, rfl, hqc, rfl, rfl, rfl, [], by simp, by simp⟩
    | some w =>
      dsimp only
      split
      · split
        · exact ⟨_, _, _, rfl, hqc, rfl, rfl, rfl, [], by simp, by simp⟩
        · refine ⟨_, _, _, rfl, hqc, rfl, rfl, rfl, [w], rfl, ?_⟩
          intro x hx
          simp only [List.mem_singleton] at hx
          subst hx
          exact hsend x rfl
      · exact ⟨_, _, _, rfl, hqc, rfl, rfl, rfl, [], by simp, by simp⟩

theorem pass_recv (s : Session) (now : Nat) (tx : Nat → Tx) : ∀ (l : List Pub) (c : Ctx),
    (∀ p ∈ l, p.outbound = false ∧ p.id ≠ 0 ∧ (p.qos = 1 ∨ p.qos = 2) ∧ p.plannedExpiry = 0) →
    ∃ l' c' e g, pass (sendPub s now tx) l c = some (l', c', e) ∧ Thinned l l' ∧ c'.pool = c.pool ∧ c'.grace = c.grace ++ g ∧
      (∀ x ∈ g, ∃ p : Pub, x = .pub p ∧ p.outbound = false ∧ p.plannedExpiry = now + s.graceTime) ∧
      ∃ w, c'.sent = c.sent ++ w ∧ ∀ x ∈ w, ∃ id, x = .ack { kind := .pubrec, id := id } := by
  intro l
  induction l with
  | nil => intro c _; exact ⟨[], c, false, [], rfl, .nil, rfl, by simp, by simp, [], by simp, by simp⟩
  | cons p l ih =>
    intro c h
    have hp := h p List.mem_cons_self
    have hl := fun q hq => h q (List.mem_cons_of_mem _ hq)
    rw [pass]
    rcases sendPub_recv s now tx p c hp with ⟨hc, q, he, hq⟩ | ⟨hc, a, q, c', he, hq, hg, hpool, hgr, w, hw, hwa⟩
    · rw [he]
      dsimp only
      rw [if_neg (by simp), if_neg (by simp)]
      obtain ⟨l', c', e, g, h1, h2, h3, h4, h5, w2, h6, h7⟩ := ih { c with grace := c.grace ++ [.pub q] } hl
      rw [h1]
      refine ⟨l', c', e, .pub q :: g, rfl, .drop hc h2, h3, by rw [h4]; simp, ?_, w2, h6, h7⟩
      intro x hx
      rcases List.mem_cons.mp hx with rfl | hx
      · exact ⟨q, rfl, by rw [hq]; exact hp.1, by rw [hq]⟩
      · exact h5 x hx
    · rw [he]
      dsimp only
      by_cases ha : a.err = true
      · rw [if_pos ha]; exact ⟨_, _, _, [], rfl, .keep hq.symm (.refl l), hpool, by simp [hgr], by simp, w, hw, hwa⟩
      · rw [if_neg ha]
        by_cases hs : a.stop = true
        · rw [if_pos hs, hg]
          exact ⟨_, _, _, [], rfl, .keep hq.symm (.refl l), hpool, by simp [hgr], by simp, w, hw, hwa⟩
        · rw [if_neg hs, hg]
          obtain ⟨l', c'', e, g, h1, h2, h3, h4, h5, w2, h6, h7⟩ := ih c' hl
          rw [h1]
          exact ⟨q :: l', c'', e, g, rfl, .keep hq.symm h2, by rw [h3, hpool], by rw [h4, hgr], h5, w ++ w2, by rw [h6, hw, List.append_assoc],
            fun x hx => (List.mem_append.mp hx).elim (hwa x) (h7 x)⟩

end Verif.Session
