import Verif.Session.SendInv
/-!
# What the history says about the messages in the queue to the remote

Helper lemmas for the properties of the sending side.
-/
namespace Verif.Session
open Verif Spec

theorem snoc_split {α : Type} {h a b : List α} {e x : α} (heq : h ++ [e] = a ++ x :: b) :
    (∃ k, h = a ++ x :: k ∧ b = k ++ [e]) ∨ (a = h ∧ x = e ∧ b = []) := by
  rcases List.append_eq_append_iff.mp heq with ⟨c, h1, h2⟩ | ⟨c, h1, h2⟩
  · cases c with
    | nil => simp at h2 h1; exact .inr ⟨h1, h2.1.symm, h2.2⟩
    | cons y c => simp at h2
  · cases c with
    | nil => simp at h2 h1; exact .inr ⟨h1.symm, h2.1, h2.2⟩
    | cons y c =>
      simp only [List.cons_append, List.cons.injEq] at h2
      obtain ⟨rfl, h2⟩ := h2
      exact .inl ⟨c, h1, h2⟩

/-- The event happened since the session was cleaned. -/
def Recent (e : Ev) (h : List Ev) : Prop := ∃ a b, h = a ++ e :: b ∧ .cleaned ∉ b

theorem Recent.mem {e : Ev} {h : List Ev} (hr : Recent e h) : e ∈ h := by
  obtain ⟨a, b, rfl, _⟩ := hr; simp

theorem recent_snoc {x e : Ev} {h : List Ev} (hr : Recent x (h ++ [e])) : x = e ∨ (Recent x h ∧ e ≠ .cleaned) := by
  obtain ⟨a, b, heq, hb⟩ := hr
  rcases snoc_split heq with ⟨k, h1, h2⟩ | ⟨_, h2, _⟩
  · refine .inr ⟨⟨a, k, h1, fun hm => hb (by rw [h2]; simp [hm])⟩, fun hm => hb (by rw [h2, hm]; simp)⟩
  · exact .inl h2

theorem recent_append_left {x : Ev} {h k : List Ev} (hr : Recent x h) (hk : .cleaned ∉ k) : Recent x (h ++ k) := by
  obtain ⟨a, b, rfl, hb⟩ := hr
  exact ⟨a, b ++ k, by simp, by simp [hb, hk]⟩

/-- It was tried to send the message. -/
def Pub.attempted (q : Pub) : Prop := q.lastAttempt ≠ 0 ∨ q.dup = true

/-- What the history says about the messages `v` which wait to be sent or acknowledged. -/
structure Track (h : List Ev) (v : List Pub) : Prop where
  keys : (v.map (·.key)).Nodup
  origin : ∀ q ∈ v, ∃ p, .queued p ∈ h ∧ SameContent p q
  sentOrigin : ∀ t r, .sent t (.publish r) ∈ h → r.id ≠ 0 ∧ ∃ p, .queued p ∈ h ∧ SameContent p r
  same : ∀ t r, Recent (.sent t (.publish r)) h → ∀ q ∈ v, q.key = r.key → SameContent r q ∧ q.id = r.id ∧ q.attempted
  unfinished : ∀ a t r b, h = a ++ .sent t (.publish r) :: b → r.qos ≠ 0 → Unfinished r.id b → ∃ q ∈ v, q.key = r.key ∧ q.complete = false
  recd : ∀ a t r b c, h = a ++ .sent t (.publish r) :: b → .cleaned ∉ b → .acked c ∈ b → c.kind = .pubrec → c.reason = 0 → c.id = r.id → r.qos = 2 →
    ∀ q ∈ v, q.key = r.key → q.pubrec = true
  kept : ∀ a p b, h = a ++ .queued p :: b → p.qos ≠ 0 → (∃ q ∈ v, SameContent p q ∧ q.complete = false) ∨
    ∃ b1 c b2, b = b1 ++ .acked c :: b2 ∧ c.kind = finalKind p.qos ∧
      ∀ t r, Recent (.sent t (.publish r)) (a ++ .queued p :: b1) → r.key = p.key → r.id = c.id

theorem SameContent.trans {p q r : Pub} (h1 : SameContent p q) (h2 : SameContent q r) : SameContent p r :=
  ⟨h2.key.trans h1.key, h2.topic.trans h1.topic, h2.payload.trans h1.payload, h2.qos.trans h1.qos, h2.retain.trans h1.retain,
    h2.createTime.trans h1.createTime, h2.expiry.trans h1.expiry⟩

theorem SameContent.refl (p : Pub) : SameContent p p := ⟨rfl, rfl, rfl, rfl, rfl, rfl, rfl⟩

/-- A change of a message in the queue. -/
structure Chg (q q' : Pub) : Prop where
  content : SameContent q q'
  id : q.id ≠ 0 → q'.id = q.id
  att : q.attempted → q'.attempted
  comp : q.qos ≠ 0 → q'.complete = true → q.complete = true
  recd : q.pubrec = true → q'.pubrec = true

theorem Chg.refl (q : Pub) : Chg q q := ⟨SameContent.refl q, fun _ => rfl, fun h => h, fun _ h => h, fun h => h⟩

theorem comp_false {q q' : Pub} (h : q'.complete = true → q.complete = true) (hq : q.complete = false) : q'.complete = false := by
  cases hc : q'.complete with
  | false => rfl
  | true => rw [h hc] at hq; contradiction

/-- Messages change without anything to be seen. -/
theorem Track.change {h : List Ev} {v v' : List Pub} (ht : Track h v) (hk : (v'.map (·.key)).Nodup)
    (h1 : ∀ q' ∈ v', ∃ q ∈ v, Chg q q') (h2 : ∀ q ∈ v, q.qos ≠ 0 → q.complete = false → ∃ q' ∈ v', Chg q q')
    (h0 : ∀ q ∈ v, q.id = 0 → ¬ q.attempted) : Track h v' := by
  refine ⟨hk, ?_, ht.sentOrigin, ?_, ?_, ?_, ?_⟩
  · intro q' hq'
    obtain ⟨q, hq, hc⟩ := h1 q' hq'
    obtain ⟨p, hp, hs⟩ := ht.origin q hq
    exact ⟨p, hp, SameContent.trans hs hc.content⟩
  · intro t r hr q' hq' hkey
    obtain ⟨q, hq, hc⟩ := h1 q' hq'
    obtain ⟨hs, hid, ha⟩ := ht.same t r hr q hq (hc.content.key.symm.trans hkey)
    refine ⟨SameContent.trans hs hc.content, ?_, hc.att ha⟩
    rw [hc.id fun hz => h0 q hq hz ha]; exact hid
  · intro a t r b heq hq hu
    obtain ⟨q, hqm, hkey, hc⟩ := ht.unfinished a t r b heq hq hu
    have hrec : Recent (.sent t (.publish r)) h := ⟨a, b, heq, hu.1⟩
    have hqos : q.qos ≠ 0 := by rw [(ht.same t r hrec q hqm hkey).1.qos]; exact hq
    obtain ⟨q', hq', hcg⟩ := h2 q hqm hqos hc
    exact ⟨q', hq', hcg.content.key.trans hkey, comp_false (hcg.comp hqos) hc⟩
  · intro a t r b c heq hb hm hk1 hk2 hid hqos q' hq' hkey
    obtain ⟨q, hq, hc⟩ := h1 q' hq'
    exact hc.recd (ht.recd a t r b c heq hb hm hk1 hk2 hid hqos q hq (hc.content.key.symm.trans hkey))
  · intro a p b heq hq
    rcases ht.kept a p b heq hq with ⟨q, hqm, hs, hc⟩ | h
    · have hqos : q.qos ≠ 0 := by rw [hs.qos]; exact hq
      obtain ⟨q', hq', hcg⟩ := h2 q hqm hqos hc
      exact .inl ⟨q', hq', SameContent.trans hs hcg.content, comp_false (hcg.comp hqos) hc⟩
    · exact .inr h

/-- Events which say nothing about the messages in the queue. -/
def Quiet : Ev → Prop
  | .got _ _ | .delivered _ | .answer _ | .sent _ (.ack _) | .sent _ (.sub _) => True
  | _ => False

theorem Track.quiet1 {h : List Ev} {v : List Pub} (ht : Track h v) {e : Ev} (he : Quiet e) : Track (h ++ [e]) v := by
  have hsent : ∀ t r, e ≠ .sent t (.publish r) := by rintro t r rfl; exact he
  have hq : ∀ p, e ≠ .queued p := by rintro p rfl; exact he
  have ha : ∀ a, e ≠ .acked a := by rintro a rfl; exact he
  have hc : e ≠ .cleaned := by rintro rfl; exact he
  refine ⟨ht.keys, ?_, ?_, ?_, ?_, ?_, ?_⟩
  · intro q hqm
    obtain ⟨p, hp, hs⟩ := ht.origin q hqm
    exact ⟨p, by simp [hp], hs⟩
  · intro t r hm
    have hm : .sent t (.publish r) ∈ h := by
      rcases List.mem_append.mp hm with hm | hm
      · exact hm
      · simp only [List.mem_singleton] at hm; exact absurd hm.symm (hsent t r)
    obtain ⟨h1, p, hp, hs⟩ := ht.sentOrigin t r hm
    exact ⟨h1, p, by simp [hp], hs⟩
  · intro t r hr
    rcases recent_snoc hr with h1 | h1
    · exact absurd h1.symm (hsent t r)
    · exact ht.same t r h1.1
  · intro a t r b heq hqos hu
    rcases snoc_split heq with ⟨k, h1, h2⟩ | ⟨_, h2, _⟩
    · refine ht.unfinished a t r k h1 hqos ⟨fun hm => hu.1 (by rw [h2]; simp [hm]), fun c hm => hu.2 c (by rw [h2]; simp [hm])⟩
    · exact absurd h2.symm (hsent t r)
  · intro a t r b c heq hb hm hk1 hk2 hid hqos
    rcases snoc_split heq with ⟨k, h1, h2⟩ | ⟨_, h2, _⟩
    · refine ht.recd a t r k c h1 (fun hm => hb (by rw [h2]; simp [hm])) ?_ hk1 hk2 hid hqos
      rw [h2] at hm
      rcases List.mem_append.mp hm with hm | hm
      · exact hm
      · simp only [List.mem_singleton] at hm; exact absurd hm.symm (ha c)
    · exact absurd h2.symm (hsent t r)
  · intro a p b heq hqos
    rcases snoc_split heq with ⟨k, h1, h2⟩ | ⟨_, h2, _⟩
    · rcases ht.kept a p k h1 hqos with hl | ⟨b1, c, b2, hb, hr⟩
      · exact .inl hl
      · exact .inr ⟨b1, c, b2 ++ [e], by rw [h2, hb]; simp, hr⟩
    · exact absurd h2.symm (hq p)

theorem Track.quiet {v : List Pub} : ∀ (es : List Ev) (h : List Ev), Track h v → (∀ e ∈ es, Quiet e) → Track (h ++ es) v := by
  intro es
  induction es with
  | nil => intro h ht _; simpa using ht
  | cons e es ih =>
    intro h ht he
    have := ih (h ++ [e]) (ht.quiet1 (he e List.mem_cons_self)) fun x hx => he x (List.mem_cons_of_mem _ hx)
    simpa using this

theorem queuedKeys_append (a b : List Ev) : queuedKeys (a ++ b) = queuedKeys a ++ queuedKeys b := by
  induction a with
  | nil => rfl
  | cons e a ih => cases e <;> simp [queuedKeys, ih]

theorem mem_queuedKeys {h : List Ev} {p : Pub} (hm : .queued p ∈ h) : p.key ∈ queuedKeys h := by
  obtain ⟨a, b, rfl⟩ := List.append_of_mem hm
  rw [queuedKeys_append]; simp [queuedKeys]

/-- A message is queued. -/
theorem Track.queued {h : List Ev} {v v' : List Pub} (ht : Track h v) (p : Pub) (hn : p.key ∉ queuedKeys h)
    (hv : ∀ q, q ∈ v' ↔ q ∈ v ∨ q = fresh p) (hk : (v'.map (·.key)).Nodup) : Track (h ++ [.queued p]) v' := by
  have hne : ∀ q ∈ v, q.key ≠ p.key := by
    intro q hq e
    obtain ⟨p', hp', hs⟩ := ht.origin q hq
    exact hn (by rw [← e, hs.key]; exact mem_queuedKeys hp')
  refine ⟨hk, ?_, ?_, ?_, ?_, ?_, ?_⟩
  · intro q hqm
    rcases (hv q).mp hqm with hqm | rfl
    · obtain ⟨p, hp, hs⟩ := ht.origin q hqm
      exact ⟨p, by simp [hp], hs⟩
    · exact ⟨p, by simp, ⟨rfl, rfl, rfl, rfl, rfl, rfl, rfl⟩⟩
  · intro t r hm
    have hm : .sent t (.publish r) ∈ h := by
      rcases List.mem_append.mp hm with hm | hm
      · exact hm
      · simp at hm
    obtain ⟨h1, p, hp, hs⟩ := ht.sentOrigin t r hm
    exact ⟨h1, p, by simp [hp], hs⟩
  · intro t r hr q hq hkey
    rcases recent_snoc hr with h1 | h1
    · cases h1
    · rcases (hv q).mp hq with hq | rfl
      · exact ht.same t r h1.1 q hq hkey
      · obtain ⟨p', hp', hs⟩ := (ht.sentOrigin t r h1.1.mem).2
        exact absurd (mem_queuedKeys hp') (by rw [← hs.key, ← hkey]; exact hn)
  · intro a t r b heq hqos hu
    rcases snoc_split heq with ⟨k, h1, h2⟩ | ⟨_, h2, _⟩
    · obtain ⟨q, hq, hr⟩ := ht.unfinished a t r k h1 hqos ⟨fun hm => hu.1 (by rw [h2]; simp [hm]), fun c hm => hu.2 c (by rw [h2]; simp [hm])⟩
      exact ⟨q, (hv q).mpr (.inl hq), hr⟩
    · cases h2
  · intro a t r b c heq hb hm hk1 hk2 hid hqos q hq hkey
    rcases snoc_split heq with ⟨k, h1, h2⟩ | ⟨_, h2, _⟩
    · rcases (hv q).mp hq with hq | rfl
      · refine ht.recd a t r k c h1 (fun hm => hb (by rw [h2]; simp [hm])) ?_ hk1 hk2 hid hqos q hq hkey
        rw [h2] at hm
        rcases List.mem_append.mp hm with hm | hm
        · exact hm
        · simp at hm
      · obtain ⟨p', hp', hs⟩ := (ht.sentOrigin t r (by rw [h1]; simp)).2
        exact absurd (mem_queuedKeys hp') (by rw [← hs.key, ← hkey]; exact hn)
    · cases h2
  · intro a p' b heq hqos
    rcases snoc_split heq with ⟨k, h1, h2⟩ | ⟨_, h2, _⟩
    · rcases ht.kept a p' k h1 hqos with ⟨q, hq, hr⟩ | ⟨b1, c, b2, hb, hr⟩
      · exact .inl ⟨q, (hv q).mpr (.inl hq), hr⟩
      · exact .inr ⟨b1, c, b2 ++ [.queued p], by rw [h2, hb]; simp, hr⟩
    · cases h2
      refine .inl ⟨fresh p, (hv _).mpr (.inr rfl), ⟨rfl, rfl, rfl, rfl, rfl, rfl, rfl⟩, ?_⟩
      simp [Pub.complete, fresh]

/-- An acknowledgement arrives. -/
theorem Track.acked {h : List Ev} {v v' : List Pub} (ht : Track h v) (a : Ack) (hv : v' = v.map (ackOnP a))
    (ok : ∀ q ∈ v, ItemOk (.pub q)) : Track (h ++ [.acked a]) v' := by
  have hsp : ∀ q ∈ v, SameContent q (ackOnP a q) ∧ (ackOnP a q).id = q.id ∧ (q.attempted → (ackOnP a q).attempted) := by
    intro q hq
    have := (ackOnP_spec a q (ok q hq).1 (ok q hq).2.1).1
    refine ⟨⟨?_, ?_, ?_, ?_, ?_, ?_, ?_⟩, ?_, ?_⟩ <;> rw [this]
    exact fun h => h
  subst hv
  have hkeys : (v.map (ackOnP a)).map (·.key) = v.map (·.key) := by
    rw [List.map_map]; exact List.map_congr_left fun q hq => (hsp q hq).1.key
  refine ⟨by rw [hkeys]; exact ht.keys, ?_, ?_, ?_, ?_, ?_, ?_⟩
  · intro q' hqm'
    obtain ⟨q, hqm, rfl⟩ := List.mem_map.mp hqm'
    obtain ⟨p, hp, hs⟩ := ht.origin q hqm
    exact ⟨p, by simp [hp], SameContent.trans hs (hsp q hqm).1⟩
  · intro t r hm
    have hm : .sent t (.publish r) ∈ h := by
      rcases List.mem_append.mp hm with hm | hm
      · exact hm
      · simp at hm
    obtain ⟨h1, p, hp, hs⟩ := ht.sentOrigin t r hm
    exact ⟨h1, p, by simp [hp], hs⟩
  · intro t r hr q' hq' hkey
    obtain ⟨q, hq, rfl⟩ := List.mem_map.mp hq'
    rcases recent_snoc hr with h1 | h1
    · cases h1
    · obtain ⟨k1, k2, k3⟩ := ht.same t r h1.1 q hq ((hsp q hq).1.key.symm.trans hkey)
      exact ⟨SameContent.trans k1 (hsp q hq).1, (hsp q hq).2.1.trans k2, (hsp q hq).2.2 k3⟩
  · intro b t r k heq hqos hu
    rcases snoc_split heq with ⟨k', h1, h2⟩ | ⟨_, h2, _⟩
    · have hu' : Unfinished r.id k' := ⟨fun hm => hu.1 (by rw [h2]; simp [hm]), fun c hm => hu.2 c (by rw [h2]; simp [hm])⟩
      obtain ⟨q, hq, hkey, hc⟩ := ht.unfinished b t r k' h1 hqos hu'
      obtain ⟨s1, s2, s3⟩ := ht.same t r ⟨b, k', h1, hu'.1⟩ q hq hkey
      have hq0 : q.qos ≠ 0 := by rw [s1.qos]; exact hqos
      refine ⟨ackOnP a q, List.mem_map_of_mem hq, (hsp q hq).1.key.trans hkey, ?_⟩
      cases hcomp : (ackOnP a q).complete with
      | false => rfl
      | true =>
        rcases (ackOnP_spec a q (ok q hq).1 (ok q hq).2.1).2.2.1 hq0 hcomp with h3 | ⟨h3, h4⟩
        · rw [hc] at h3; contradiction
        · obtain ⟨n1, n2⟩ := hu.2 a (by rw [h2]; simp) (h3.symm.trans s2)
          rw [h4] at n1 n2
          unfold finalKind at n1 n2
          split at n1
          · exact absurd rfl n1
          · next hne => rw [if_neg hne] at n2; exact absurd rfl n2
    · cases h2
  · intro b t r k c heq hb hm hk1 hk2 hid hqos q' hq' hkey
    obtain ⟨q, hq, rfl⟩ := List.mem_map.mp hq'
    have hkey2 : q.key = r.key := (hsp q hq).1.key.symm.trans hkey
    have spec := ackOnP_spec a q (ok q hq).1 (ok q hq).2.1
    rcases snoc_split heq with ⟨k', h1, h2⟩ | ⟨_, h2, _⟩
    · have hcl : .cleaned ∉ k' := fun hm => hb (by rw [h2]; simp [hm])
      rw [h2] at hm
      rcases List.mem_append.mp hm with hm | hm
      · exact spec.2.2.2.1 (ht.recd b t r k' c h1 hcl hm hk1 hk2 hid hqos q hq hkey2)
      · simp only [List.mem_singleton, Ev.acked.injEq] at hm
        subst hm
        obtain ⟨s1, s2, s3⟩ := ht.same t r ⟨b, k', h1, hcl⟩ q hq hkey2
        exact spec.2.2.2.2.1 hk1 (by rw [s2, hid]) (s1.qos.trans hqos) hk2
    · cases h2
  · intro b p k heq hqos
    rcases snoc_split heq with ⟨k', h1, h2⟩ | ⟨_, h2, _⟩
    · rcases ht.kept b p k' h1 hqos with ⟨q, hq, hs, hc⟩ | ⟨b1, c, b2, hb, hr⟩
      · cases hcomp : (ackOnP a q).complete with
        | false => exact .inl ⟨ackOnP a q, List.mem_map_of_mem hq, SameContent.trans hs (hsp q hq).1, hcomp⟩
        | true =>
          have hq0 : q.qos ≠ 0 := by rw [hs.qos]; exact hqos
          rcases (ackOnP_spec a q (ok q hq).1 (ok q hq).2.1).2.2.1 hq0 hcomp with h3 | ⟨h3, h4⟩
          · rw [hc] at h3; contradiction
          · refine .inr ⟨k', a, [], h2, by rw [h4, hs.qos], ?_⟩
            intro t r hr hkey
            rw [← h1] at hr
            obtain ⟨s1, s2, s3⟩ := ht.same t r hr q hq (hs.key.trans hkey.symm)
            rw [← s2, h3]
      · exact .inr ⟨b1, c, b2 ++ [.acked a], by rw [h2, hb]; simp, hr⟩
    · cases h2

/-- The session is cleaned. -/
theorem Track.cleaned {h : List Ev} {v v' : List Pub} (ht : Track h v) (hk : (v'.map (·.key)).Nodup)
    (h1 : ∀ q' ∈ v', ∃ q ∈ v, SameContent q q')
    (h2 : ∀ q ∈ v, q.qos ≠ 0 → q.complete = false → ∃ q' ∈ v', SameContent q q' ∧ q'.complete = false) : Track (h ++ [.cleaned]) v' := by
  refine ⟨hk, ?_, ?_, ?_, ?_, ?_, ?_⟩
  · intro q' hq'
    obtain ⟨q, hqm, hc⟩ := h1 q' hq'
    obtain ⟨p, hp, hs⟩ := ht.origin q hqm
    exact ⟨p, by simp [hp], SameContent.trans hs hc⟩
  · intro t r hm
    have hm : .sent t (.publish r) ∈ h := by
      rcases List.mem_append.mp hm with hm | hm
      · exact hm
      · simp at hm
    obtain ⟨h1, p, hp, hs⟩ := ht.sentOrigin t r hm
    exact ⟨h1, p, by simp [hp], hs⟩
  · intro t r hr
    rcases recent_snoc hr with h1 | h1
    · cases h1
    · exact absurd rfl h1.2
  · intro a t r b heq hqos hu
    rcases snoc_split heq with ⟨k, h3, h4⟩ | ⟨_, h3, _⟩
    · exact absurd (by rw [h4]; simp) hu.1
    · cases h3
  · intro a t r b c heq hb
    rcases snoc_split heq with ⟨k, h3, h4⟩ | ⟨_, h3, _⟩
    · exact absurd (by rw [h4]; simp) hb
    · cases h3
  · intro a p b heq hqos
    rcases snoc_split heq with ⟨k, h3, h4⟩ | ⟨_, h3, _⟩
    · rcases ht.kept a p k h3 hqos with ⟨q, hq, hs, hc⟩ | ⟨b1, c, b2, hb, hr⟩
      · obtain ⟨q', hq', hs', hc'⟩ := h2 q hq (by rw [hs.qos]; exact hqos) hc
        exact .inl ⟨q', hq', SameContent.trans hs hs', hc'⟩
      · exact .inr ⟨b1, c, b2 ++ [.cleaned], by rw [h4, hb]; simp, hr⟩
    · cases h3

/-- A PUBLISH is sent. -/
theorem Track.sent {h : List Ev} {v : List Pub} (ht : Track h v) (now : Nat) (r : Pub) (hid : r.id ≠ 0)
    (ho : ∃ p, .queued p ∈ h ∧ SameContent p r) (hs : ∀ q ∈ v, q.key = r.key → SameContent r q ∧ q.id = r.id ∧ q.attempted)
    (hu : r.qos ≠ 0 → ∃ q ∈ v, q.key = r.key ∧ q.complete = false) : Track (h ++ [.sent now (.publish r)]) v := by
  refine ⟨ht.keys, ?_, ?_, ?_, ?_, ?_, ?_⟩
  · intro q hqm
    obtain ⟨p, hp, hs⟩ := ht.origin q hqm
    exact ⟨p, by simp [hp], hs⟩
  · intro t r' hm
    rcases List.mem_append.mp hm with hm | hm
    · obtain ⟨h1, p, hp, hs⟩ := ht.sentOrigin t r' hm
      exact ⟨h1, p, by simp [hp], hs⟩
    · simp only [List.mem_singleton, Ev.sent.injEq, Wire.publish.injEq] at hm
      obtain ⟨rfl, rfl⟩ := hm
      obtain ⟨p, hp, hs⟩ := ho
      exact ⟨hid, p, by simp [hp], hs⟩
  · intro t r' hr q hq hkey
    rcases recent_snoc hr with h1 | h1
    · simp only [Ev.sent.injEq, Wire.publish.injEq] at h1
      obtain ⟨rfl, rfl⟩ := h1
      exact hs q hq hkey
    · exact ht.same t r' h1.1 q hq hkey
  · intro a t r' b heq hqos hun
    rcases snoc_split heq with ⟨k, h1, h2⟩ | ⟨_, h2, _⟩
    · exact ht.unfinished a t r' k h1 hqos ⟨fun hm => hun.1 (by rw [h2]; simp [hm]), fun c hm => hun.2 c (by rw [h2]; simp [hm])⟩
    · simp only [Ev.sent.injEq, Wire.publish.injEq] at h2
      obtain ⟨rfl, rfl⟩ := h2
      exact hu hqos
  · intro a t r' b c heq hb hm hk1 hk2 hid hqos
    rcases snoc_split heq with ⟨k, h1, h2⟩ | ⟨_, _, h2⟩
    · refine ht.recd a t r' k c h1 (fun hm => hb (by rw [h2]; simp [hm])) ?_ hk1 hk2 hid hqos
      rw [h2] at hm
      rcases List.mem_append.mp hm with hm | hm
      · exact hm
      · simp at hm
    · rw [h2] at hm; simp at hm
  · intro a p b heq hqos
    rcases snoc_split heq with ⟨k, h1, h2⟩ | ⟨_, h2, _⟩
    · rcases ht.kept a p k h1 hqos with hl | ⟨b1, c, b2, hb, hr⟩
      · exact .inl hl
      · exact .inr ⟨b1, c, b2 ++ [.sent now (.publish r)], by rw [h2, hb]; simp, hr⟩
    · cases h2

end Verif.Session
