import Verif.Session.Track
/-!
# Histories of the sending side

Helper lemmas for the properties of the sending side.
-/
namespace Verif.Session
open Verif Spec

/-- What holds of every transmission. -/
structure SentOk (before : List Ev) (e : Ev) : Prop where
  queued : SentWasQueued before e
  differ : IdsDiffer before e
  again : RepeatMarked before e
  recd : NotAfterPubrec before e

theorem sentOk_other (before : List Ev) (e : Ev) (h : ∀ t r, e ≠ .sent t (.publish r)) : SentOk before e := by
  cases e with
  | sent t w =>
    cases w with
    | publish r => exact absurd rfl (h t r)
    | ack a => exact ⟨trivial, trivial, trivial, trivial⟩
    | sub q => exact ⟨trivial, trivial, trivial, trivial⟩
  | _ => exact ⟨trivial, trivial, trivial, trivial⟩

theorem atEach_snoc {Q : List Ev → Ev → Prop} {h : List Ev} {e : Ev} (h1 : AtEach Q h) (h2 : Q h e) : AtEach Q (h ++ [e]) := by
  intro before x after heq
  rcases snoc_split heq with ⟨k, hk, _⟩ | ⟨rfl, rfl, _⟩
  · exact h1 before x k hk
  · exact h2

theorem atEach_others {h : List Ev} (h1 : AtEach SentOk h) (es : List Ev) (h2 : ∀ e ∈ es, ∀ t r, e ≠ .sent t (.publish r)) :
    AtEach SentOk (h ++ es) := by
  refine atEach_append h1 fun e1 x e2 he => sentOk_other _ _ (h2 x (by rw [he]; simp))

theorem got_ids {done : List Item} {p : Pub} {todo : List Item} {pool pool' : IdPool.Pool} {g : List Item} {id : BitVec 16}
    (h : Good (idsOf done) (.pub p :: todo) pool g) (hg : Got pool p.id id pool') :
    id ≠ 0 ∧ ∀ z ∈ pubsOf done ++ pubsOf todo, z.id ≠ id := by
  have hx : ItemOk (.pub p) := h.items _ List.mem_cons_self
  obtain ⟨hgood, hid⟩ := h.got (x := .pub p) hg (.pub { p with id := id }) rfl (by
    refine ⟨hx.1, hx.2.1, hx.2.2.1, ?_⟩
    intro hz
    rcases hg with ⟨g1, g2, g3⟩ | ⟨g1, g2⟩
    · simp only at hz; rw [g2] at hz; exact absurd hz g1
    · exact hx.2.2.2 g1)
  refine ⟨hid, ?_⟩
  have hn := hgood.nodup
  rw [idsOf_cons, idsOf_single, if_neg (show Item.id (.pub { p with id := id }) ≠ 0 from hid)] at hn
  intro z hz e
  have hz0 : z.id ≠ 0 := by rw [e]; exact hid
  rw [List.nodup_append] at hn
  rcases List.mem_append.mp hz with hz | hz
  · refine hn.2.2 z.id ((mem_idsOf hz0).mpr ⟨.pub z, mem_pubsOf.mp hz, rfl⟩) id (by simp [Item.id]) e
  · have hn2 := hn.2.1
    rw [List.append_assoc, List.singleton_append, List.nodup_cons] at hn2
    refine hn2.1 (List.mem_append.mpr (.inl ?_))
    show id ∈ idsOf todo
    rw [← e]
    exact (mem_idsOf hz0).mpr ⟨.pub z, mem_pubsOf.mp hz, rfl⟩

theorem not_attempted {p : Pub} (h : ItemOk (.pub p)) (h0 : p.id = 0) : ¬ p.attempted := by
  obtain ⟨a1, _, _, _, _, a2⟩ := h.2.2.2 h0
  rintro (h | h)
  · exact h a1
  · rw [a2] at h; contradiction

/-- The message as it is looked at for transmission differs from the one before in identifier, time and DUP only. -/
theorem ready_chg (s : Session) (now : Nat) {id : BitVec 16} {p : Pub} {pool pool' : IdPool.Pool} (hg : Got pool p.id id pool') (t : Nat)
    (ht : t ≠ 0) : Chg p (p.ready s now id) ∧ Chg p { p.ready s now id with lastAttempt := t } := by
  obtain ⟨h1, h2, h3, h4, h5, h6, h7, h8, h9, h10, h11, h12, h13⟩ := ready_fields s now id p
  have hi := ready_id s now id p
  have hid : p.id ≠ 0 → id = p.id := by
    intro h
    rcases hg with ⟨_, g, _⟩ | ⟨g, _⟩
    · exact g
    · exact absurd g h
  have hcomp : ∀ q : Pub, q.qos = p.qos → q.puback = p.puback → q.pubcomp = p.pubcomp → p.qos ≠ 0 → q.complete = true → p.complete = true := by
    intro q e1 e2 e3 h0 hc
    unfold Pub.complete at hc ⊢
    rw [e1, e2, e3] at hc
    have : (p.qos == 0) = false := by simpa using h0
    rw [this] at hc ⊢
    simpa using hc
  refine ⟨⟨⟨h8, h9, h10, h1, h11, h12, h13⟩, fun h => by rw [hi]; exact hid h, ?_, hcomp _ h1 h3 h6, fun h => by rw [h4]; exact h⟩,
    ⟨⟨h8, h9, h10, h1, h11, h12, h13⟩, fun h => by show (p.ready s now id).id = _; rw [hi]; exact hid h, fun _ => .inl ht, hcomp _ h1 h3 h6, fun h => by show (p.ready s now id).pubrec = _; rw [h4]; exact h⟩⟩
  intro ha
  unfold Pub.ready Pub.retryReset
  split
  · exact .inr rfl
  · exact ha

/-- A message which is tried again and is to be sent has the DUP flag. -/
theorem ready_dup (s : Session) (now : Nat) (id : BitVec 16) (p : Pub) (ha : p.attempted) (h0 : (p.ready s now id).lastAttempt = 0) :
    (p.ready s now id).dup = true := by
  unfold Pub.ready Pub.retryReset at h0 ⊢
  split at h0
  · next hc => rw [if_pos hc]
  · next hc =>
    rw [if_neg hc]
    rcases ha with h | h
    · exact absurd h0 h
    · exact h

theorem toSend_publish {q r : Pub} (h : q.toSend.1 = some (.publish r)) : r = q ∧ (q.qos = 2 → q.pubrec = false) := by
  unfold Pub.toSend at h
  split at h
  · next hc =>
    simp only [Option.some.injEq, Wire.publish.injEq] at h
    exact ⟨h.symm, fun h2 => by rcases hc.1 with h | h <;> omega⟩
  · split at h
    · split at h
      · split at h
        · simp at h
        · split at h
          · next hr => simp only [Option.some.injEq, Wire.publish.injEq] at h; exact ⟨h.symm, fun _ => by simpa using hr⟩
          · simp at h
      · split at h <;> simp at h
    · simp at h

theorem toSend_wire {q : Pub} {w : Wire} (h : q.toSend.1 = some w) : w = .publish q ∨ ∃ a, w = .ack a := by
  cases w with
  | publish r => rw [(toSend_publish h).1]; exact .inl rfl
  | ack a => exact .inr ⟨a, rfl⟩
  | sub x =>
    exfalso
    unfold Pub.toSend at h
    revert h
    repeat' split
    all_goals simp

/-- What is known before an entry of a pass, and after it. -/
def Known (h : List Ev) (now : Nat) (l : List Item) (c : Ctx) : Prop :=
  Track (h ++ c.sent.map (.sent now)) (pubsOf l) ∧ AtEach SentOk (h ++ c.sent.map (.sent now))

theorem keys_mid {v1 v2 : List Pub} {p q : Pub} (h : ((v1 ++ p :: v2).map (·.key)).Nodup) (e : q.key = p.key) :
    ((v1 ++ q :: v2).map (·.key)).Nodup := by
  rw [List.map_append, List.map_cons] at h ⊢
  rw [e]; exact h

theorem keys_out {v1 v2 : List Pub} {p : Pub} (h : ((v1 ++ p :: v2).map (·.key)).Nodup) :
    ((v1 ++ v2).map (·.key)).Nodup ∧ ∀ z ∈ v1 ++ v2, z.key ≠ p.key := by
  rw [List.map_append, List.map_cons] at h
  have h' := List.perm_middle.nodup_iff.mp h
  rw [List.nodup_cons, ← List.map_append] at h'
  exact ⟨h'.2, fun z hz e => h'.1 (by rw [← e]; exact List.mem_map_of_mem hz)⟩

/-- One message is replaced. -/
theorem Track.replace {h : List Ev} {v1 v2 : List Pub} {p q : Pub} (ht : Track h (v1 ++ p :: v2)) (hc : Chg p q)
    (h0 : ∀ z ∈ v1 ++ p :: v2, z.id = 0 → ¬ z.attempted) : Track h (v1 ++ q :: v2) := by
  refine ht.change (keys_mid ht.keys hc.content.key) ?_ ?_ h0
  · intro z hz
    rcases List.mem_append.mp hz with hz | hz
    · exact ⟨z, by simp [hz], .refl z⟩
    · rcases List.mem_cons.mp hz with rfl | hz
      · exact ⟨p, by simp, hc⟩
      · exact ⟨z, by simp [hz], .refl z⟩
  · intro z hz _ _
    rcases List.mem_append.mp hz with hz | hz
    · exact ⟨z, by simp [hz], .refl z⟩
    · rcases List.mem_cons.mp hz with rfl | hz
      · exact ⟨q, by simp, hc⟩
      · exact ⟨z, by simp [hz], .refl z⟩

/-- One message goes away. -/
theorem Track.remove {h : List Ev} {v1 v2 : List Pub} {p : Pub} (ht : Track h (v1 ++ p :: v2)) (hc : p.complete = true ∨ p.qos = 0)
    (h0 : ∀ z ∈ v1 ++ p :: v2, z.id = 0 → ¬ z.attempted) : Track h (v1 ++ v2) := by
  refine ht.change (keys_out ht.keys).1 ?_ ?_ h0
  · intro z hz
    refine ⟨z, ?_, .refl z⟩
    rcases List.mem_append.mp hz with hz | hz <;> simp [hz]
  · intro z hz hq hf
    refine ⟨z, ?_, .refl z⟩
    rcases List.mem_append.mp hz with hz | hz
    · simp [hz]
    · rcases List.mem_cons.mp hz with rfl | hz
      · rcases hc with hc | hc
        · rw [hc] at hf; contradiction
        · exact absurd hc hq
      · simp [hz]

/-- The transmission of a PUBLISH is in order. -/
theorem sentOk_publish {H : List Ev} {done todo : List Item} {p : Pub} {pool pool' : IdPool.Pool} {g : List Item} {id : BitVec 16} (s : Session) (now n : Nat)
    (ht : Track H (pubsOf done ++ p :: pubsOf todo)) (hg : Good (idsOf done) (.pub p :: todo) pool g) (hgot : Got pool p.id id pool')
    (hh : ¬ (p.ready s now id).held s now n) (hw : (p.ready s now id).toSend.1 = some (.publish (p.ready s now id))) :
    SentOk H (.sent now (.publish (p.ready s now id))) := by
  obtain ⟨hid, hdiff⟩ := got_ids hg hgot
  have hri := ready_id s now id p
  have hc := (ready_chg s now hgot 1 (by omega)).1
  have hkey : (p.ready s now id).key = p.key := hc.content.key
  refine ⟨⟨by rw [hri]; exact hid, ?_⟩, ?_, ?_, ?_⟩
  · obtain ⟨p0, hp0, hs⟩ := ht.origin p (by simp)
    exact ⟨p0, hp0, SameContent.trans hs hc.content⟩
  · intro a t q b heq hq hne hu
    obtain ⟨z, hz, hzk, _⟩ := ht.unfinished a t q b heq hq hu
    obtain ⟨_, hzi, _⟩ := ht.same t q ⟨a, b, heq, hu.1⟩ z hz hzk
    rw [hri, ← hzi]
    apply hdiff
    rcases List.mem_append.mp hz with hz | hz
    · simp [hz]
    · rcases List.mem_cons.mp hz with rfl | hz
      · exact absurd (hzk.symm.trans hkey.symm) hne
      · simp [hz]
  · intro a t q b heq hk hcl
    obtain ⟨k1, k2, k3⟩ := ht.same t q ⟨a, b, heq, hcl⟩ p (by simp) (hkey.symm.trans hk.symm)
    have hp0 : p.id ≠ 0 := fun h0 => not_attempted (hg.items _ List.mem_cons_self) h0 k3
    refine ⟨SameContent.trans k1 hc.content, by rw [hc.id hp0]; exact k2, ready_dup s now id p k3 ?_⟩
    apply Classical.byContradiction
    exact fun hl => hh (.inl hl)
  · intro a t q b c heq hk hq2 hcl hm hkind hr hcid
    have hrec := ht.recd a t q b c heq hcl hm hkind hr hcid hq2 p (by simp) (hkey.symm.trans hk.symm)
    obtain ⟨k1, _⟩ := ht.same t q ⟨a, b, heq, hcl⟩ p (by simp) (hkey.symm.trans hk.symm)
    have := (toSend_publish hw).2 (by rw [hc.content.qos, k1.qos]; exact hq2)
    rw [hc.recd hrec] at this
    contradiction

/-- One entry of a pass. -/
theorem known_step (h : List Ev) (s : Session) (now : Nat) (hnow : 0 < now) (tx : Nat → Tx) (done : List Item) (x : Item) (todo : List Item) (c : Ctx)
    (a : Act) (y : Item) (c' : Ctx) (hg : Good (idsOf done) (x :: todo) c.pool c.grace) (hok : ∀ z ∈ done, ItemOk z)
    (hk : Known h now (done ++ x :: todo) c) (he : sendItem s now tx x c = some (a, y, c')) :
    Known h now ((done ++ if a.give then [] else [y]) ++ todo) c' := by
  obtain ⟨ht, hs⟩ := hk
  cases x with
  | sub q =>
    obtain ⟨a', q', c'', he', hstep⟩ := sendSub_cases s now tx q c hg.inv
    simp only [sendItem, he', Option.map_some, Option.some.injEq, Prod.mk.injEq] at he
    obtain ⟨rfl, rfl, rfl⟩ := he
    have hv : pubsOf ((done ++ if a'.give then [] else [Item.sub q']) ++ todo) = pubsOf (done ++ .sub q :: todo) := by
      split <;> simp [pubsOf_append, pubsOf]
    unfold Known
    rw [hv]
    cases hstep with
    | complete _ => exact ⟨ht, hs⟩
    | noId _ _ _ => exact ⟨ht, hs⟩
    | idle _ _ _ => exact ⟨ht, hs⟩
    | sent _ _ _ =>
      rw [List.map_append, ← List.append_assoc]
      exact ⟨ht.quiet1 trivial, atEach_snoc hs (sentOk_other _ _ (by simp))⟩
    | failed _ _ _ => exact ⟨ht, hs⟩
  | pub p =>
    obtain ⟨a', q, c'', he', hstep⟩ := sendPub_cases s now tx p c hg.inv fun h0 => hg.live_head (x := .pub p) h0
    simp only [sendItem, he', Option.map_some, Option.some.injEq, Prod.mk.injEq] at he
    obtain ⟨rfl, rfl, rfl⟩ := he
    have hv0 : pubsOf (done ++ .pub p :: todo) = pubsOf done ++ p :: pubsOf todo := by simp [pubsOf_append, pubsOf]
    have hv : pubsOf ((done ++ if a'.give then [] else [Item.pub q]) ++ todo) = pubsOf done ++ ((if a'.give then [] else [q]) ++ pubsOf todo) := by
      split <;> simp [pubsOf_append, pubsOf]
    rw [hv0] at ht
    have hxok : ItemOk (.pub p) := hg.items _ List.mem_cons_self
    have h0 : ∀ z ∈ pubsOf done ++ p :: pubsOf todo, z.id = 0 → ¬ z.attempted := by
      intro z hz
      rcases List.mem_append.mp hz with hz | hz
      · exact not_attempted (hok _ (mem_pubsOf.mp hz))
      · rcases List.mem_cons.mp hz with rfl | hz
        · exact not_attempted hxok
        · exact not_attempted (hg.items _ (List.mem_cons_of_mem _ (mem_pubsOf.mp hz)))
    unfold Known
    rw [hv]
    cases hstep with
    | complete hc => exact ⟨ht.remove (.inl hc) h0, hs⟩
    | noId hc hid _ =>
      refine ⟨ht.replace ?_ h0, hs⟩
      have : ({ p with lastAttempt := 0 } : Pub) = p := by
        have := (hxok.2.2.2 hid).1
        cases p; simp only at this; subst this; rfl
      rw [this]; exact .refl p
    | idle hc hgot hh =>
      exact ⟨ht.replace (ready_chg s now hgot now (by omega)).1 h0, hs⟩
    | failed hc hgot hh hw htx =>
      exact ⟨ht.replace (ready_chg s now hgot now (by omega)).2 h0, hs⟩
    | @sent id pool w hc hgot hh hw htx =>
      rw [List.map_append, ← List.append_assoc]
      have hchg := (ready_chg s now hgot now (by omega)).2
      have ht' := ht.replace hchg h0
      have hw1 : (p.ready s now id).toSend.1 = some w := by rw [hw]
      rcases toSend_wire hw1 with rfl | ⟨k, rfl⟩
      · have hok' := sentOk_publish s now c.incomplete ht hg hgot hh hw1
        refine ⟨ht'.sent now _ hok'.queued.1 hok'.queued.2 ?_ ?_, atEach_snoc hs hok'⟩
        · intro z hz hk
          have hz' : z = { p.ready s now id with lastAttempt := now } := by
            have hd := (keys_out ht'.keys).2
            rcases List.mem_append.mp hz with hz | hz
            · exact absurd hk (hd z (by simp [hz]))
            · rcases List.mem_cons.mp hz with rfl | hz
              · rfl
              · exact absurd hk (hd z (by simp [hz]))
          rw [hz']
          exact ⟨⟨rfl, rfl, rfl, rfl, rfl, rfl, rfl⟩, rfl, .inl (show now ≠ 0 by omega)⟩
        · intro hq
          refine ⟨{ p.ready s now id with lastAttempt := now }, by simp, rfl, comp_false (hchg.comp ?_) hc⟩
          rw [← (ready_fields s now id p).1]; exact hq
      · exact ⟨ht'.quiet1 trivial, atEach_snoc hs (sentOk_other _ _ (by simp))⟩
    | @gone id pool w pool' hc hgot hh hw htx hr =>
      rw [List.map_append, ← List.append_assoc]
      have hdel := toSend_del (p.ready s now id) (by rw [hw])
      have hw1 : (p.ready s now id).toSend.1 = some w := by rw [hw]
      rw [hdel.2.2, Option.some.injEq] at hw1
      subst hw1
      have hok' := sentOk_publish s now c.incomplete ht hg hgot hh hdel.2.2
      have hq0 : p.qos = 0 := by rw [← (ready_fields s now id p).1]; exact hdel.1
      have ht' := ht.remove (.inr hq0) h0
      refine ⟨ht'.sent now _ hok'.queued.1 hok'.queued.2 ?_ fun h => absurd hdel.1 h, atEach_snoc hs hok'⟩
      intro z hz hk
      exact absurd (hk.trans (ready_chg s now hgot now (by omega)).1.content.key) ((keys_out ht.keys).2 z hz)

/-- What is known about histories of the sending side. -/
def SendHist (h : List Ev) (s : Session) : Prop := (queuedKeys h).Nodup → Track h s.view ∧ AtEach SentOk h

theorem view_ok {s : Session} (hi : Inv s) : ∀ q ∈ s.view, ItemOk (.pub q) := by
  intro q hq
  rcases List.mem_append.mp hq with hq | hq
  · exact hi.send.items _ (mem_pubsOf.mp hq)
  · obtain ⟨hf, hq2⟩ := hi.delayed q hq
    have := fresh_ok q hq2
    rwa [hf] at this

theorem pubsOf_preserved (l : List Item) : pubsOf (l.filterMap preserved) =
    (pubsOf l).filterMap fun p => if p.preserve then some { fresh p with outbound := p.outbound } else none := by
  induction l with
  | nil => rfl
  | cons x l ih =>
    cases x with
    | sub q => exact ih
    | pub p =>
      rw [List.filterMap_cons, pubsOf, List.filterMap_cons]
      unfold preserved
      by_cases hp : p.preserve = true
      · simp only [if_pos hp, pubsOf]
        exact congrArg _ ih
      · simp only [if_neg hp]
        exact ih

theorem map_ackOnP_delayed (a : Ack) (ha : a.id ≠ 0) (l : List Pub) (hl : ∀ q ∈ l, fresh q = q) : l.map (ackOnP a) = l := by
  refine (List.map_congr_left fun q hq => ?_).trans (List.map_id _)
  unfold ackOnP
  rw [if_neg]
  · rfl
  · rw [← hl q hq]; exact fun h => ha h.symm

/-- A PUBREL for an outbound message does not change what the history says about it. -/
theorem rel_chg (a : Ack) (hk : a.kind = .pubrel) (q : Pub) (hok : ItemOk (.pub q)) : Chg q (ackOnP a q) := by
  have sp := ackOnP_spec a q hok.1 hok.2.1
  have hs := sp.1
  refine ⟨⟨?_, ?_, ?_, ?_, ?_, ?_, ?_⟩, fun _ => ?_, ?_, ?_, sp.2.2.2.1⟩
  iterate 8 rw [hs]
  · rw [hs]; exact fun h => h
  · intro h0 hc
    rcases sp.2.2.1 h0 hc with h | ⟨_, h⟩
    · exact h
    · rw [hk] at h; unfold finalKind at h; split at h <;> cases h

theorem rel_chg_back (a : Ack) (hk : a.kind = .pubrel) (q : Pub) (hok : ItemOk (.pub q)) : Chg (ackOnP a q) q := by
  have sp := ackOnP_spec a q hok.1 hok.2.1
  have hs := sp.1
  have hf : (ackOnP a q).complete = q.complete ∧ (ackOnP a q).pubrec = q.pubrec := by
    unfold ackOnP ackPub ackPubSame ackPubrel
    split
    · rw [if_neg (by simp_all), if_neg (by simp [hk])]
      simp only [hk, Option.map_some, Option.getD_some]
      repeat' split
      all_goals first | exact ⟨rfl, rfl⟩ | simp_all
    · exact ⟨rfl, rfl⟩
  refine ⟨⟨?_, ?_, ?_, ?_, ?_, ?_, ?_⟩, fun _ => ?_, ?_, fun _ h => by rw [hf.1]; exact h, fun h => by rw [← hf.2]; exact h⟩
  iterate 8 rw [hs]
  · rw [hs]; exact fun h => h

theorem map_keys (f : Pub → Pub) (v : List Pub) (h : ∀ q ∈ v, (f q).key = q.key) : (v.map f).map (·.key) = v.map (·.key) := by
  rw [List.map_map]; exact List.map_congr_left h

theorem SendHist.step {h : List Ev} {s s' : Session} {op : Op} {o : Out} (hi : Inv s) (hv : Valid s.broker op) (he : step s op = some (s', o))
    (hh : SendHist h s) : SendHist (h ++ events op o) s' := by
  intro hn
  rw [queuedKeys_append] at hn
  obtain ⟨ht, hs⟩ := hh (List.nodup_append.mp hn).1
  have hok := view_ok hi
  have hnew : ∀ p : Pub, queuedKeys (events op o) = [p.key] → p.key ∉ queuedKeys h := by
    intro p e hm
    exact (List.nodup_append.mp hn).2.2 p.key hm p.key (by rw [e]; simp) rfl
  have hstep := step_send s op hi hv s' o he
  cases hstep with
  | @queue p hq =>
    have hne := hnew p rfl
    refine ⟨ht.queued p hne ?_ ?_, atEach_others hs _ (by simp [events])⟩
    · intro q
      simp only [Session.view, pubsOf_append, pubsOf, List.mem_append, List.mem_singleton]
      constructor
      · rintro ((h | h) | h) <;> simp [h]
      · rintro ((h | h) | h) <;> simp [h]
    · have : (Session.view { s with toRemote := s.toRemote ++ [.pub (fresh p)] }).Perm (fresh p :: s.view) := by
        simp only [Session.view, pubsOf_append, pubsOf, List.append_assoc, List.singleton_append]
        exact List.perm_middle
      refine (this.map _).nodup_iff.mpr ?_
      rw [List.map_cons, List.nodup_cons]
      refine ⟨?_, ht.keys⟩
      intro hm
      obtain ⟨q, hq, e⟩ := List.mem_map.mp hm
      obtain ⟨p', hp', hs'⟩ := ht.origin q hq
      exact hne (by rw [show p.key = q.key from e.symm, hs'.key]; exact mem_queuedKeys hp')
  | @queueSub key unsub =>
    refine ⟨?_, atEach_others hs _ (by simp [events])⟩
    have : Session.view { s with toRemote := s.toRemote ++ [.sub { key := key, unsub := unsub }] } = s.view := by
      simp [Session.view, pubsOf_append, pubsOf]
    rw [this]
    simpa [events] using ht
  | @retained p hq =>
    have hne := hnew p rfl
    refine ⟨ht.queued p hne ?_ ?_, atEach_others hs _ (by simp [events])⟩
    · intro q
      simp only [Session.view, List.mem_append, List.mem_singleton, or_assoc]
    · have : (Session.view { s with delayed := s.delayed ++ [fresh p] }).Perm (fresh p :: s.view) := by
        simp only [Session.view]
        rw [← List.append_assoc]
        exact (List.perm_append_comm (l₁ := pubsOf s.toRemote ++ s.delayed) (l₂ := [fresh p]))
      refine (this.map _).nodup_iff.mpr ?_
      rw [List.map_cons, List.nodup_cons]
      refine ⟨?_, ht.keys⟩
      intro hm
      obtain ⟨q, hq, e⟩ := List.mem_map.mp hm
      obtain ⟨p', hp', hs'⟩ := ht.origin q hq
      exact hne (by rw [show p.key = q.key from e.symm, hs'.key]; exact mem_queuedKeys hp')
  | @publish now p v tx _ l =>
    have hq : ∀ e ∈ events (.publish now p v tx) o, Quiet e := by
      intro e he
      simp only [events, List.mem_cons, List.mem_append, List.mem_map] at he
      rcases he with rfl | ⟨_, _, rfl⟩ | ⟨_, _, rfl⟩ <;> trivial
    exact ⟨ht.quiet _ _ hq, atEach_others hs _ fun e he t r e' => by subst e'; exact hq _ he⟩
  | @rel a v5 tx _ l ha hk =>
    have hq : ∀ e ∈ o.delivered.map Ev.delivered ++ o.sent.map Ev.answer, Quiet e := by
      intro e he
      simp only [List.mem_append, List.mem_map] at he
      rcases he with ⟨_, _, rfl⟩ | ⟨_, _, rfl⟩ <;> trivial
    have e1 : h ++ events (.ack a v5 tx) o = (h ++ [.acked a]) ++ (o.delivered.map Ev.delivered ++ o.sent.map Ev.answer) := by simp [events]
    rw [e1]
    have hs1 : AtEach SentOk (h ++ [.acked a]) := atEach_others hs _ (by simp)
    refine ⟨?_, atEach_others hs1 _ fun e he t r e' => by subst e'; exact hq _ he⟩
    refine Track.quiet _ _ ?_ hq
    have h1 := ht.acked a rfl hok
    have h0 : ∀ q ∈ s.view.map (ackOnP a), q.id = 0 → ¬ q.attempted := by
      intro q' hq'
      obtain ⟨q, hq, rfl⟩ := List.mem_map.mp hq'
      have := rel_chg_back a hk q (hok q hq)
      have hid := (ackOnP_spec a q (hok q hq).1 (hok q hq).2.1).1
      intro hz hatt
      exact not_attempted (hok q hq) (by rw [hid] at hz; exact hz) (this.att hatt)
    exact h1.change ht.keys (fun q hq => ⟨_, List.mem_map_of_mem hq, rel_chg_back a hk q (hok q hq)⟩)
      (fun q' hq' _ _ => by
        obtain ⟨q, hq, rfl⟩ := List.mem_map.mp hq'
        exact ⟨q, hq, rel_chg_back a hk q (hok q hq)⟩) h0
  | @ack a v5 tx _ l ha hk hl =>
    have hq : ∀ e ∈ o.delivered.map Ev.delivered ++ o.sent.map Ev.answer, Quiet e := by
      intro e he
      simp only [List.mem_append, List.mem_map] at he
      rcases he with ⟨_, _, rfl⟩ | ⟨_, _, rfl⟩ <;> trivial
    have e1 : h ++ events (.ack a v5 tx) o = (h ++ [.acked a]) ++ (o.delivered.map Ev.delivered ++ o.sent.map Ev.answer) := by simp [events]
    rw [e1]
    have hs1 : AtEach SentOk (h ++ [.acked a]) := atEach_others hs _ (by simp)
    refine ⟨?_, atEach_others hs1 _ fun e he t r e' => by subst e'; exact hq _ he⟩
    refine Track.quiet _ _ ?_ hq
    have hd : ∀ b : Ack, b.id = a.id → s.delayed.map (ackOnP b) = s.delayed := fun b hb =>
      map_ackOnP_delayed b (by rw [hb]; exact ha) s.delayed fun q hq => (hi.delayed q hq).1
    have h1 := ht.acked a rfl hok
    have e2 : s.view.map (ackOnP a) = pubsOf (s.toRemote.map (ackOn a)) ++ s.delayed := by
      rw [Session.view, List.map_append, hd a rfl, pubsOf_ack]
    rcases hl with ⟨rfl, _⟩ | ⟨_, r, rfl⟩
    · rw [e2] at h1; exact h1
    · have hok1 : ∀ q ∈ s.view.map (ackOnP a), ItemOk (.pub q) := by
        intro q' hq'
        obtain ⟨q, hq, rfl⟩ := List.mem_map.mp hq'
        have := (ackOn_ok a ha (.pub q) (hok q hq)).2
        rwa [ackOn_pub] at this
      have e3 : Session.view { s with toRemote := (s.toRemote.map (ackOn a)).map (ackOn { kind := .pubrel, id := a.id, reason := r }) } =
          (s.view.map (ackOnP a)).map (ackOnP { kind := .pubrel, id := a.id, reason := r }) := by
        rw [e2, List.map_append, hd { kind := .pubrel, id := a.id, reason := r } rfl, ← pubsOf_ack]; rfl
      rw [e3]
      refine h1.change ?_ ?_ ?_ fun q hq h0 => not_attempted (hok1 q hq) h0
      · rw [map_keys _ _ fun q hq => (rel_chg _ rfl q (hok1 q hq)).content.key]
        exact h1.keys
      · intro q' hq'
        obtain ⟨q, hq, rfl⟩ := List.mem_map.mp hq'
        exact ⟨q, hq, rel_chg _ rfl q (hok1 q hq)⟩
      · intro q hq _ _
        exact ⟨_, List.mem_map_of_mem hq, rel_chg _ rfl q (hok1 q hq)⟩
  | @pass now tx _ l c e _ w2 hnow hp h1 h2 h3 h4 h5 h6 h7 _ h8 h9 =>
    have hgood : Good [] (s.toRemote ++ s.delayed.map .pub) s.pool s.grace := hi.send.append _ (by
      intro x hx
      obtain ⟨q, hq, rfl⟩ := List.mem_map.mp hx
      obtain ⟨hf, hq2⟩ := hi.delayed q hq
      have := fresh_ok q hq2
      rw [hf] at this
      exact ⟨this, by rw [← hf]; rfl⟩)
    obtain ⟨d, t, k1, k2⟩ := pass_steps s now hnow tx (fun done todo c => Known h now (done ++ todo) c)
      (fun done x todo c a y c' g1 g2 g3 g4 _ => known_step h s now hnow tx done x todo c a y c' g1 g2 g3 g4)
      (s.toRemote ++ s.delayed.map Item.pub) [] { pool := s.pool, grace := s.grace, incomplete := 0, sent := [] } l c e (by simpa [idsOf] using hgood) (by simp) (by
        unfold Known
        rw [List.nil_append, pubsOf_append, pubsOf_map]
        simpa using ⟨ht, hs⟩) hp
    rw [← k1, List.nil_append] at k2
    obtain ⟨k2, k3⟩ := k2
    have hq : ∀ e ∈ w2.map (Ev.sent now), Quiet e := by
      intro e he
      obtain ⟨x, hx, rfl⟩ := List.mem_map.mp he
      obtain ⟨id, rfl⟩ := h9 x hx
      trivial
    have e1 : h ++ events (.pass now tx) o = (h ++ c.sent.map (Ev.sent now)) ++ w2.map (Ev.sent now) := by simp [events, h8]
    rw [e1]
    refine ⟨Track.quiet _ _ ?_ hq, atEach_others k3 _ fun e he t r e' => by subst e'; exact hq _ he⟩
    rw [Session.view, h1, h2, List.append_nil]
    exact k2
  | tick =>
    rw [events, List.append_nil]
    exact ⟨ht, hs⟩
  | keep =>
    rw [show ∀ m r t g o, events (.init m r t g false) o = [] from fun _ _ _ _ _ => rfl, List.append_nil]
    exact ⟨ht, hs⟩
  | @clean m r t g =>
    refine ⟨?_, atEach_others hs _ (by simp [events])⟩
    rw [show ∀ m r t g o, events (.init m r t g true) o = [.cleaned] from fun _ _ _ _ _ => rfl]
    have hv' : ∀ s' : Session, s'.toRemote = s.toRemote → s'.delayed = s.delayed → (clean s').view =
        (pubsOf s.toRemote).filterMap (fun p => if p.preserve then some { fresh p with outbound := p.outbound } else none) ++ s.delayed := by
      intro s' e1 e2
      rw [Session.view, clean]
      dsimp only
      rw [e1, e2, pubsOf_preserved]
    rw [hv' { s with maxInFlight := m, receiveMax := r, retry := t, graceTime := g } rfl rfl]
    refine ht.cleaned ?_ ?_ ?_
    · refine List.Nodup.sublist ?_ ht.keys
      rw [Session.view, List.map_append, List.map_append]
      refine List.Sublist.append ?_ (List.Sublist.refl _)
      generalize pubsOf s.toRemote = l
      induction l with
      | nil => exact .slnil
      | cons p l ih =>
        rw [List.filterMap_cons]
        by_cases hp : p.preserve = true
        · simp only [if_pos hp]
          exact .cons_cons _ ih
        · simp only [if_neg hp]
          exact .cons _ ih
    · intro q' hq'
      rcases List.mem_append.mp hq' with hq' | hq'
      · obtain ⟨q, hq, e⟩ := List.mem_filterMap.mp hq'
        by_cases hp : q.preserve = true
        · rw [if_pos hp] at e
          cases e
          exact ⟨q, by simp [Session.view, hq], ⟨rfl, rfl, rfl, rfl, rfl, rfl, rfl⟩⟩
        · rw [if_neg hp] at e; cases e
      · exact ⟨q', by simp [Session.view, hq'], SameContent.refl q'⟩
    · intro q hq hq0 hc
      have hok' := hok q hq
      rcases List.mem_append.mp hq with hq | hq
      · have hp : q.preserve = true := by
          have h2 : q.qos = 1 ∨ q.qos = 2 := by have := hok'.2.1; omega
          unfold Pub.complete at hc
          unfold Pub.preserve
          rw [hok'.2.2.1]
          rcases h2 with h2 | h2 <;> simp [h2] at hc ⊢ <;> exact hc
        refine ⟨{ fresh q with outbound := q.outbound }, ?_, ⟨rfl, rfl, rfl, rfl, rfl, rfl, rfl⟩, ?_⟩
        · exact List.mem_append.mpr (.inl (List.mem_filterMap.mpr ⟨q, hq, by rw [if_pos hp]⟩))
        · simp [Pub.complete, fresh]
      · exact ⟨q, by simp [hq], SameContent.refl q, hc⟩

end Verif.Session
