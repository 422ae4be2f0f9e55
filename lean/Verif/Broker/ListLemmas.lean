import Verif.Broker.Lemmas
/-!
# Lemmas about subscriptions, retained messages and queues
-/
namespace Verif.Broker
open Verif Session Spec

/-! ## Subscriptions -/

theorem replaceFirst_eq (s : Subscription.Sub) : ∀ (c : Subscription.Coll), (c.map (·.filter)).Nodup →
    Subscription.replaceFirst s c = if c.any (fun y => y.filter == s.filter) then some (c.map fun y => if y.filter = s.filter then s else y) else none := by
  intro c
  induction c with
  | nil => intro _; rfl
  | cons x c ih =>
    intro hn
    rw [List.map_cons, List.nodup_cons] at hn
    rw [Subscription.replaceFirst]
    by_cases hx : x.filter = s.filter
    · have : c.map (fun y => if y.filter = s.filter then s else y) = c := by
        refine map_id_of _ _ fun y hy => if_neg fun h => hn.1 ?_
        rw [hx, ← h]; exact List.mem_map.mpr ⟨y, hy, rfl⟩
      rw [if_pos hx]
      simp [hx, this]
    · rw [if_neg hx, ih hn.2]
      simp only [List.any_cons, beq_iff_eq, hx, List.map_cons, if_false]
      have : (x.filter == s.filter) = false := by simp [hx]
      rw [this, Bool.false_or]
      split <;> rfl

theorem addUnique_eq (c : Subscription.Coll) (s : Subscription.Sub) (hn : (c.map (·.filter)).Nodup) :
    (Subscription.addUnique c s true).2 = addSub c s ∧
    ((Subscription.addUnique c s true).1 = .replaced ↔ c.any (fun y => y.filter == s.filter) = true) := by
  have hcm : Subscription.collMax = 65536 := by unfold Subscription.collMax; rfl
  unfold Subscription.addUnique addSub
  by_cases hc : c = []
  · subst hc; simp
  · rw [if_neg hc, replaceFirst_eq s c hn]
    by_cases ha : c.any (fun y => y.filter == s.filter) = true
    · simp [ha]
    · rw [if_neg ha, if_neg ha]
      dsimp only
      rw [hcm]
      by_cases hl : 65536 ≤ c.length
      · rw [if_pos hl, if_neg (Nat.not_lt.mpr hl)]; exact ⟨rfl, by simp [ha]⟩
      · have hl' : c.length < 65536 := Nat.lt_of_not_le hl
        rw [if_neg hl, if_pos hl']; exact ⟨by simp, by simp [ha]⟩

theorem addSub_filters (l : List Subscription.Sub) (x : Subscription.Sub) (hn : (l.map (·.filter)).Nodup) :
    ((addSub l x).map (·.filter)).Nodup := by
  unfold addSub
  split
  · have : (l.map fun y => if y.filter = x.filter then x else y).map (·.filter) = l.map (·.filter) := by
      rw [List.map_map]
      refine List.map_congr_left fun y _ => ?_
      simp only [Function.comp]
      split
      · next h => exact h.symm
      · rfl
    rw [this]; exact hn
  · next ha =>
    split
    · rw [List.map_append, List.map_cons, List.map_nil]
      refine List.nodup_append.mpr ⟨hn, by simp, ?_⟩
      intro a ha' b hb
      rw [List.mem_singleton] at hb
      subst hb
      obtain ⟨y, hy, rfl⟩ := List.mem_map.mp ha'
      intro h
      exact ha (List.any_eq_true.mpr ⟨y, hy, by simp [h]⟩)
    · exact hn

theorem mem_addSub {l : List Subscription.Sub} {x y : Subscription.Sub} (h : y ∈ addSub l x) : y ∈ l ∨ y = x := by
  unfold addSub at h
  split at h
  · obtain ⟨z, hz, rfl⟩ := List.mem_map.mp h
    split
    · exact .inr rfl
    · exact .inl hz
  · split at h
    · simpa using h
    · exact .inl h

/-- Copying the subscriptions of a SUBSCRIBE to a session. -/
theorem appendCopy_eq : ∀ (src c : Subscription.Coll) (acc : List Subscription.Sub), (c.map (·.filter)).Nodup →
    Subscription.appendCopy (σ := List Subscription.Sub) false (some fun st x => (true, st ++ [x])) c src acc =
      (true, (src.filter (fun x => x.qos ≤ 2)).foldl addSub c, acc ++ newSubs c src) := by
  intro src
  induction src with
  | nil => intro c acc _; simp [Subscription.appendCopy, newSubs]
  | cons s src ih =>
    intro c acc hn
    rw [Subscription.appendCopy]
    by_cases hq : s.qos ≤ 2
    · rw [if_neg (by simp; omega)]
      obtain ⟨h1, h2⟩ := addUnique_eq c s hn
      have hn' := addSub_filters c s hn
      rw [newSubs, if_pos hq]
      simp only [List.filter_cons, hq, decide_true, if_true, List.foldl_cons]
      cases hr : (Subscription.addUnique c s true).1 with
      | replaced =>
        dsimp only
        rw [hr] at h2
        rw [h1, ih _ _ hn', if_pos (h2.mp rfl), List.nil_append]
      | ok =>
        dsimp only
        rw [hr] at h2
        rw [h1, ih _ _ hn', if_neg (fun h => by simpa using h2.mpr h), List.append_assoc]
      | refused =>
        dsimp only
        rw [hr] at h2
        rw [h1, ih _ _ hn', if_neg (fun h => by simpa using h2.mpr h), List.append_assoc]
    · rw [if_pos ⟨rfl, by omega⟩, ih _ _ hn, newSubs, if_neg hq]
      simp [List.filter_cons, hq]

theorem foldl_addSub (P : Subscription.Sub → Prop) : ∀ (xs l : List Subscription.Sub), (l.map (·.filter)).Nodup → (∀ y ∈ l, P y) → (∀ x ∈ xs, P x) →
    ((xs.foldl addSub l).map (·.filter)).Nodup ∧ ∀ y ∈ xs.foldl addSub l, P y := by
  intro xs
  induction xs with
  | nil => intro l hn hl _; exact ⟨hn, hl⟩
  | cons x xs ih =>
    intro l hn hl hx
    refine ih _ (addSub_filters l x hn) (fun y hy => ?_) fun y hy => hx y (List.mem_cons_of_mem _ hy)
    rcases mem_addSub hy with h | rfl
    · exact hl y h
    · exact hx _ List.mem_cons_self

theorem newSubs_mem : ∀ (xs l : List Subscription.Sub), ∀ x ∈ newSubs l xs, x ∈ xs ∧ x.qos ≤ 2 := by
  intro xs
  induction xs with
  | nil => intro l x h; simp [newSubs] at h
  | cons s xs ih =>
    intro l x h
    rw [newSubs] at h
    split at h
    · next hq =>
      rcases List.mem_append.mp h with h | h
      · split at h
        · simp at h
        · rw [List.mem_singleton] at h; subst h; exact ⟨List.mem_cons_self, hq⟩
      · exact ⟨List.mem_cons_of_mem _ (ih _ x h).1, (ih _ x h).2⟩
    · exact ⟨List.mem_cons_of_mem _ (ih _ x h).1, (ih _ x h).2⟩

/-- Removing subscriptions. -/
theorem removeMatching_eq : ∀ (fs : List (Bytes × Nat)) (c : Subscription.Coll), (c.map (·.filter)).Nodup →
    ∃ n r, Subscription.removeMatching c fs = some (n, c.filter (fun x => (x.filter, 0) ∉ r), r) := by
  intro fs
  induction fs with
  | nil => intro c _; exact ⟨0, [], by rw [Subscription.removeMatching, List.filter_eq_self.mpr (by simp)]⟩
  | cons f fs ih =>
    intro c hn
    obtain ⟨f, reason⟩ := f
    rw [Subscription.removeMatching]
    by_cases hr : reason = 0
    · subst hr
      rw [if_neg (by simp)]
      have hle : (c.filter (fun s => s.filter = f)).length ≤ 1 := by
        have h1 : ((c.filter (fun s => s.filter = f)).map (·.filter)).Nodup := hn.sublist ((List.filter_sublist).map _)
        have h2 : ∀ g ∈ (c.filter (fun s => s.filter = f)).map (·.filter), g = f := by
          intro g hg
          obtain ⟨y, hy, rfl⟩ := List.mem_map.mp hg
          simpa using (List.mem_filter.mp hy).2
        rw [← List.length_map (f := (·.filter))]
        generalize (c.filter (fun s => s.filter = f)).map (·.filter) = l at h1 h2
        match l with
        | [] => simp
        | [_] => simp
        | a :: b :: l =>
          rw [List.nodup_cons] at h1
          have ha := h2 a (by simp)
          have hb := h2 b (by simp)
          exact absurd (by simp [ha, hb]) h1.1
      have hrt : Subscription.removeTopic c f = some ((c.filter (fun s => s.filter = f)).length, c.filter (fun s => s.filter ≠ f)) := by
        unfold Subscription.removeTopic
        exact if_neg (by omega)
      rw [hrt]
      dsimp only
      obtain ⟨n, r, he⟩ := ih (c.filter (fun s => s.filter ≠ f)) (hn.sublist ((List.filter_sublist).map _))
      rw [he]
      simp only [Option.map_some]
      by_cases hk : (c.filter (fun s => s.filter = f)).length = 0
      · rw [if_pos hk]
        refine ⟨n, (f, 0x11) :: r, ?_⟩
        congr 3
        have : ∀ y ∈ c, y.filter ≠ f := by
          intro y hy h
          have : y ∈ c.filter (fun s => s.filter = f) := List.mem_filter.mpr ⟨hy, by simp [h]⟩
          rw [List.eq_nil_of_length_eq_zero hk] at this
          simp at this
        rw [show c.filter (fun s => s.filter ≠ f) = c from List.filter_eq_self.mpr (fun y hy => by simpa using this y hy)]
        refine List.filter_congr fun y _ => ?_
        simp
      · rw [if_neg hk]
        refine ⟨n + 1, (f, 0) :: r, ?_⟩
        congr 3
        rw [List.filter_filter]
        refine List.filter_congr fun y _ => ?_
        by_cases h1 : y.filter = f <;> simp [h1]
    · rw [if_pos hr]
      obtain ⟨n, r, he⟩ := ih c hn
      rw [he]
      refine ⟨n, (f, reason) :: r, ?_⟩
      simp only [Option.map_some]
      congr 3
      refine List.filter_congr fun y _ => ?_
      have : (y.filter, 0) ≠ (f, reason) := by
        intro h; rw [Prod.mk.injEq] at h; exact hr h.2.symm
      simp [this]

/-! ## Retained messages -/

theorem retainWrite_eq (p : Pub) (hp : p.retain = true) : ∀ (l : List Pub) (now : Nat) (src : Source), (l.map (·.topic)).Nodup →
    retainWrite p l = retainStep l (.published now p src) := by
  intro l now src
  simp only [retainStep, hp, Bool.not_true, Bool.false_eq_true, if_false]
  have hem : empty p = true ↔ p.payload.getD [] = [] := by simp [empty]
  induction l with
  | nil =>
    intro _
    rw [retainWrite]
    by_cases h : p.payload.getD [] = []
    · rw [if_pos (hem.mpr h), if_pos h]; rfl
    · rw [if_neg (fun x => h (hem.mp x)), if_neg h]; rfl
  | cons q l ih =>
    intro hn
    rw [List.map_cons, List.nodup_cons] at hn
    have ih := ih hn.2
    rw [retainWrite]
    by_cases hq : q.topic = p.topic
    · have hne : ∀ r ∈ l, r.topic ≠ p.topic := by
        intro r hr h; exact hn.1 (by rw [hq, ← h]; exact List.mem_map.mpr ⟨r, hr, rfl⟩)
      rw [if_pos hq]
      by_cases h : p.payload.getD [] = []
      · rw [if_pos (hem.mpr h), if_pos h, List.filter_cons, if_neg (by simp [hq])]
        exact (List.filter_eq_self.mpr fun r hr => by simpa using hne r hr).symm
      · rw [if_neg (fun x => h (hem.mp x)), if_neg h, if_pos (by simp [hq]), List.map_cons, if_pos hq,
          map_id_of _ l fun r hr => if_neg (hne r hr)]
    · rw [if_neg hq, ih]
      by_cases h : p.payload.getD [] = []
      · rw [if_pos h, if_pos h, List.filter_cons, if_pos (by simp [hq])]
      · rw [if_neg h, if_neg h]
        have : (q :: l).any (fun r => r.topic == p.topic) = l.any (fun r => r.topic == p.topic) := by simp [hq]
        rw [this]
        split
        · rw [List.map_cons, if_neg hq]
        · rfl

/-- What is retained. -/
structure RetainOk (l : List Pub) : Prop where
  topics : (l.map (·.topic)).Nodup
  valid : ∀ p ∈ l, ValidPub p ∧ p.payload.getD [] ≠ []

theorem RetainOk.step {l : List Pub} (h : RetainOk l) (e : Ev) (he : ∀ now p src, e = .published now p src → ValidPub p) : RetainOk (retainStep l e) := by
  cases e with
  | published now p src =>
    have hv := he now p src rfl
    simp only [retainStep]
    split
    · exact h
    · split
      · exact ⟨h.topics.sublist ((List.filter_sublist).map _), fun q hq => h.valid q (List.mem_filter.mp hq).1⟩
      · next hp =>
        split
        · refine ⟨?_, fun q hq => ?_⟩
          · have : (l.map fun q => if q.topic = p.topic then p else q).map (·.topic) = l.map (·.topic) := by
              rw [List.map_map]
              refine List.map_congr_left fun y _ => ?_
              simp only [Function.comp]
              split
              · next h => exact h.symm
              · rfl
            rw [this]; exact h.topics
          · obtain ⟨r, hr, rfl⟩ := List.mem_map.mp hq
            split
            · exact ⟨hv, hp⟩
            · exact h.valid r hr
        · next ha =>
          refine ⟨?_, fun q hq => ?_⟩
          · rw [List.map_append, List.map_cons, List.map_nil]
            refine List.nodup_append.mpr ⟨h.topics, by simp, ?_⟩
            intro a ha' b hb
            rw [List.mem_singleton] at hb
            subst hb
            obtain ⟨y, hy, rfl⟩ := List.mem_map.mp ha'
            intro h
            exact ha (List.any_eq_true.mpr ⟨y, hy, by simp [h]⟩)
          · rcases List.mem_append.mp hq with hq | hq
            · exact h.valid q hq
            · rw [List.mem_singleton] at hq; subst hq; exact ⟨hv, hp⟩
  | subscribed c now xs new =>
    simp only [retainStep]
    split
    · exact h
    · exact ⟨h.topics.sublist ((List.filter_sublist).map _), fun q hq => h.valid q (List.mem_filter.mp hq).1⟩
  | _ => exact h

theorem matchPublish_eq (xs : List Subscription.Sub) (hx : ∀ x ∈ xs, Subscription.SubOk x) (t : Bytes) (ht : Topic.validateName t = true) :
    Subscription.matchPublish xs t = some (xs.filter (matching t)) := by
  rw [Subscription.matchPublish_eq xs t hx ht]
  congr 1

/-- Retained messages for new subscriptions. -/
theorem retainWalk_eq (now : Nat) (new : List Subscription.Sub) (hn : ∀ x ∈ new, Subscription.SubOk x) : ∀ (l : List Pub), RetainOk l →
    retainWalk now new l = some (l.filter (fun p => !p.expired now),
      (l.filter (fun p => !p.expired now)).flatMap fun p => (new.filter (matching p.topic)).map (retainCopy p)) := by
  intro l
  induction l with
  | nil => intro _; rfl
  | cons p l ih =>
    intro ok
    have ok' : RetainOk l := ⟨(List.nodup_cons.mp ok.topics).2, fun q hq => ok.valid q (List.mem_cons_of_mem _ hq)⟩
    obtain ⟨⟨hv, _⟩, hp⟩ := ok.valid p List.mem_cons_self
    rw [retainWalk, if_neg (by cases h : p.payload <;> simp_all)]
    by_cases he : p.expired now = true
    · rw [if_pos he, ih ok', List.filter_cons, if_neg (by simp [he])]
    · rw [if_neg he, matchPublish_eq new hn p.topic hv, ih ok', List.filter_cons, if_pos (by simpa using he)]
      simp

/-! ## Queues -/

def queueAll (xs : List Pub) (q : Session) : Session := { q with toRemote := q.toRemote ++ xs.map fun x => .pub (fresh x) }
def delayAll (xs : List Pub) (q : Session) : Session := { q with delayed := q.delayed ++ xs.map fresh }

theorem run_queue : ∀ (xs : List Pub) (q : Session), Session.run q (xs.map .queue) = some (queueAll xs q, xs.map fun _ => {}) := by
  intro xs
  induction xs with
  | nil => intro q; simp [Session.run, queueAll]
  | cons x xs ih => intro q; simp [Session.run, Session.step, ih, queueAll]

theorem run_retained : ∀ (xs : List Pub) (q : Session), Session.run q (xs.map .retained) = some (delayAll xs q, xs.map fun _ => {}) := by
  intro xs
  induction xs with
  | nil => intro q; simp [Session.run, delayAll]
  | cons x xs ih => intro q; simp [Session.run, Session.step, ih, delayAll]

theorem opsSess_eq : ∀ (os : List Session.Op) (s : Sess) (q : Session) (rs : List Out), Session.run s.q os = some (q, rs) →
    opsSess os s = some ({ s with q := q }, (os.zip rs).map fun x => .op s.client x.1 x.2) := by
  intro os
  induction os with
  | nil => intro s q rs h; simp only [Session.run, Option.some.injEq, Prod.mk.injEq] at h; obtain ⟨rfl, rfl⟩ := h; rfl
  | cons o os ih =>
    intro s q rs h
    rw [Session.run] at h
    cases hs : Session.step s.q o with
    | none => rw [hs] at h; cases h
    | some x =>
      obtain ⟨q1, r⟩ := x
      rw [hs] at h
      dsimp only at h
      cases hr : Session.run q1 os with
      | none => rw [hr] at h; cases h
      | some y =>
        obtain ⟨q2, rs2⟩ := y
        rw [hr] at h
        simp only [Option.map_some, Option.some.injEq, Prod.mk.injEq] at h
        obtain ⟨rfl, rfl⟩ := h
        rw [opsSess, opSess, hs]
        simp only [Option.map_some, Option.bind_some]
        rw [ih { s with q := q1 } q2 rs2 hr]
        rfl

theorem opsSess_queue (xs : List Pub) (s : Sess) :
    opsSess (xs.map .queue) s = some ({ s with q := queueAll xs s.q }, xs.map fun x => .op s.client (.queue x) {}) := by
  rw [opsSess_eq _ s _ _ (run_queue xs s.q)]
  congr 2
  induction xs with
  | nil => rfl
  | cons x xs ih => simp [ih]

theorem opsSess_retained (xs : List Pub) (s : Sess) :
    opsSess (xs.map .retained) s = some ({ s with q := delayAll xs s.q }, xs.map fun x => .op s.client (.retained x) {}) := by
  rw [opsSess_eq _ s _ _ (run_retained xs s.q)]
  congr 2
  induction xs with
  | nil => rfl
  | cons x xs ih => simp [ih]

end Verif.Broker
