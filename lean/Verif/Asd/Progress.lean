import Verif.Asd.Room
/-!
# From every state the sender may get rid of its messages
-/
namespace Verif.Asd
open Verif

variable {α : Type}

/-- The steps can be taken, and at no moment have too many been delivered. -/
inductive Goes : World α → List (Act α) → World α → Prop where
  | nil (w : World α) : Goes w [] w
  | cons {w w1 w2 : World α} {a : Act α} {as : List (Act α)} : w.step a = .ok w1 → w1.rx.started ≤ 1000 → Goes w1 as w2 → Goes w (a :: as) w2

theorem Goes.append {w w1 w2 : World α} {as bs : List (Act α)} (h1 : Goes w as w1) (h2 : Goes w1 bs w2) : Goes w (as ++ bs) w2 := by
  induction h1 with
  | nil => exact h2
  | cons a b c ih => exact .cons a b (ih h2)

theorem Goes.run {w w' : World α} {as : List (Act α)} (h : Goes w as w') : w.run as = .ok w' := by
  induction h with
  | nil => rfl
  | cons a b c ih => simp only [World.run, a, Res.bind]; exact ih

theorem Goes.started {w w' : World α} {as : List (Act α)} (h : Goes w as w') : w.rx.started ≤ 1000 → ∀ bs cs, as = bs ++ cs → ∀ w'', w.run bs = .ok w'' → w''.rx.started ≤ 1000 := by
  induction h with
  | nil =>
    intro h bs cs hbc w'' hw
    have : bs = [] := by
      cases bs with
      | nil => rfl
      | cons => cases hbc
    subst this
    cases hw
    exact h
  | cons a b c ih =>
    intro h bs cs hbc w'' hw
    cases bs with
    | nil => cases hw; exact h
    | cons d bs =>
      obtain ⟨rfl, rfl⟩ := List.cons.inj hbc
      simp only [World.run, a, Res.bind] at hw
      exact ih b bs cs rfl w'' hw

/-- The steps which are taken for progress: nothing is given, lost or begun anew. -/
def Plain : Act α → Prop
  | .send _ _ => True
  | .data => True
  | .toS _ => True
  | .toR _ => True
  | .maintain => True
  | _ => False

theorem Plain.noReset {a : Act α} (h : Plain a) : NoReset a := by cases a <;> first | trivial | exact absurd h id
theorem Plain.given {as : List (Act α)} (h : ∀ a ∈ as, Plain a) : given as = 0 := by
  induction as with
  | nil => rfl
  | cons a t ih =>
    rw [given_cons, ih fun b hb => h b (List.mem_cons_of_mem _ hb)]
    have := h a List.mem_cons_self
    cases a <;> first | rfl | exact absurd this id

/-- One step with everything which is known to hold. -/
structure Good (w : World α) : Prop where
  inv : Inv w
  few : Few w.rx

theorem good_step {w w1 : World α} (h : Good w) {a : Act α} (ha : Plain a) (hlt : w.accepted.length < 2 ^ 32) (hs : w.step a = .ok w1) (hst : w1.rx.started ≤ 1000) : Good w1 := by
  have hg : given [a] = 0 := Plain.given (by simpa using ha)
  obtain ⟨w', h1, h2, _⟩ := inv_step h.inv ha.noReset (by omega)
  rw [hs] at h1
  obtain rfl : w1 = w' := by cases h1; rfl
  exact ⟨h2 hst, few_step h.inv h.few ha.noReset hs⟩

/-- After the periodic tasks, nothing has been counted. -/
theorem maintain_started {w : World α} (h : Good w) : w.rx.maintain.started = 0 := by
  unfold Rx.maintain
  show (if w.rx.queues.isEmpty then w.rx.started else 0) = 0
  split
  · rename_i hq
    exact h.few.none (List.isEmpty_iff.1 hq)
  · rfl

/-- One message of the stream arrives. -/
theorem step_data {w : World α} (h : Good w) (hst : w.rx.started ≤ 1000) {i : Nat} {m : α} {t : List (Nat × α)} (hs : w.stream = (i, m) :: t) :
    ∃ r, w.step .data = .ok { w with rx := r, stream := t, toS := (.dack, i) :: w.toS } ∧ r.started = w.rx.started := by
  have hroom := room h.inv h.few hst
  have hq : ∃ q, insertQueue 1 { id := i, msg := some m } w.rx.queues = .ok q := by
    rw [insertQueue_rel h.inv.rx.q]
    rcases insertEntry_ok (x := ({ id := i, msg := some m } : REnt α)) h.inv.rx.sorted with ⟨e, he, hk, hie⟩ | ⟨hn, q', h1, _⟩
    · rw [hie]; exact ⟨_, rfl⟩
    · rw [h1]; exact ⟨_, rfl⟩
  obtain ⟨q, hq⟩ := hq
  refine ⟨{ w.rx with queues := q }, ?_, rfl⟩
  simp only [World.step, hs, Rx.data, if_pos hroom, hq, Res.bind]

/-- All messages of the stream arrive; the last of them is acknowledged last. -/
theorem drain (s : List (Nat × α)) : ∀ {w : World α}, Good w → w.accepted.length < 2 ^ 32 → w.rx.started ≤ 1000 → ∀ {i : Nat} {m : α}, w.stream = s ++ [(i, m)] →
    ∃ as w1, (∀ a ∈ as, Plain a) ∧ Goes w as w1 ∧ Good w1 ∧ w1.tx = w.tx ∧ w1.accepted = w.accepted ∧ w1.rx.started = w.rx.started ∧ w1.toS.head? = some (.dack, i) := by
  induction s with
  | nil =>
    intro w h hlt hst i m hs
    obtain ⟨r, h1, h2⟩ := step_data h hst hs
    refine ⟨[.data], _, by simp [Plain], .cons h1 (by rw [h2]; exact hst) (.nil _), good_step h (by exact trivial) hlt h1 (by rw [h2]; exact hst), rfl, rfl, h2, rfl⟩
  | cons x s ih =>
    intro w h hlt hst i m hs
    obtain ⟨r, h1, h2⟩ := step_data (i := x.1) (m := x.2) h hst hs
    have hst1 : r.started ≤ 1000 := by rw [h2]; exact hst
    obtain ⟨as, w1, a1, a2, a3, a4, a5, a6, a7⟩ := ih (w := { w with rx := r, stream := s ++ [(i, m)], toS := (.dack, x.1) :: w.toS }) (good_step h (by exact trivial) hlt h1 hst1) hlt hst1 rfl
    refine ⟨.data :: as, w1, ?_, .cons h1 hst1 a2, a3, a4, a5, a6.trans h2, a7⟩
    intro a ha
    rcases List.mem_cons.1 ha with e | e
    · subst e; trivial
    · exact a1 a e

/-- The receiver gets `RACK` and answers with `CACK`. -/
theorem step_rack {w : World α} (h : Good w) {i : Nat} (hh : w.toR.head? = some (.rack, i)) :
    ∃ r, w.step (.toR 0) = .ok { w with rx := r, toS := (.cack, i) :: w.toS } ∧ r.started ≤ w.rx.started + 1 := by
  have hk : w.toR[0]? = some (.rack, i) := by rw [← List.head?_eq_getElem?]; exact hh
  simp only [World.step, hk, Rx.control, findQueue_rel h.inv.rx.q]
  cases hf : findEntry REnt.id (rel w.rx) i with
  | none => exact ⟨w.rx, rfl, Nat.le_succ _⟩
  | some e =>
    obtain ⟨he, rfl⟩ := findEntry_some hf
    by_cases hg : e.grace = 0
    · obtain ⟨_, he2⟩ := h.inv.rx.ent e he
      rcases he2 with ⟨_, _, m, hm, _⟩ | ⟨a, _⟩
      · simp only [deliver_eq h.inv.rx he hg hm, Res.bind]
        exact ⟨_, rfl, Nat.le_refl _⟩
      · omega
    · have hd : w.rx.deliver 1 e = .ok w.rx := by unfold Rx.deliver; rw [if_pos hg]
      simp only [hd, Res.bind]
      exact ⟨w.rx, rfl, Nat.le_succ _⟩

/-- Once `RACK` is on its way, the entry may be removed from the send queue. -/
theorem finish {w : World α} (h : Good w) (hlt : w.accepted.length < 2 ^ 32) (hst : w.rx.started < 1000) {i : Nat} (hh : w.toR.head? = some (.rack, i)) :
    ∃ w1, Goes w [.toR 0, .toS 0] w1 ∧ Good w1 ∧ w1.accepted = w.accepted ∧ w1.tx.queue = w.tx.queue.filter (fun e => decide (e.id ≠ i)) := by
  obtain ⟨r, h1, h2⟩ := step_rack h hh
  have hst1 : r.started ≤ 1000 := by omega
  have g1 := good_step h (by exact trivial) hlt h1 hst1
  have h3 : ({ w with rx := r, toS := (.cack, i) :: w.toS } : World α).step (.toS 0) =
      .ok { w with rx := r, toS := (.cack, i) :: w.toS, tx := { w.tx with queue := removeEntry SEnt.id w.tx.queue i } } := rfl
  refine ⟨_, .cons h1 hst1 (.cons h3 hst1 (.nil _)), good_step g1 (by exact trivial) hlt h3 hst1, rfl, ?_⟩
  exact removeEntry_eq h.inv.tx.sorted

/-- One message of the send queue may be delivered and removed. -/
theorem progress {w : World α} (h : Good w) (hlt : w.accepted.length < 2 ^ 32) (hst : w.rx.started ≤ 1000) (hne : w.tx.queue ≠ []) :
    ∃ as w1, (∀ a ∈ as, Plain a) ∧ Goes w as w1 ∧ Good w1 ∧ w1.rx.started ≤ 1000 ∧ w1.accepted = w.accepted ∧ w1.tx.queue.length < w.tx.queue.length := by
  have hm : w.step .maintain = .ok { w with rx := w.rx.maintain } := rfl
  have hm0 := maintain_started h
  have hm1 : w.rx.maintain.started ≤ 1000 := by omega
  have g0 := good_step h (by exact trivial) hlt hm hm1
  generalize hw0 : ({ w with rx := w.rx.maintain } : World α) = w0 at hm g0
  have e1 : w0.tx = w.tx := by rw [← hw0]
  have e2 : w0.accepted = w.accepted := by rw [← hw0]
  have e3 : w0.rx.started = 0 := by rw [← hw0]; exact hm0
  obtain ⟨e, q, hq⟩ := List.exists_cons_of_ne_nil hne
  rw [← e1] at hq
  have he : e ∈ w0.tx.queue := by rw [hq]; exact List.mem_cons_self
  have hfind : w0.tx.queue.find? (fun y => y.id == e.id) = some e := by rw [hq]; simp
  have hlt0 : w0.accepted.length < 2 ^ 32 := by rw [e2]; exact hlt
  -- the last part
  have last : ∀ {w2 : World α} {as : List (Act α)}, (∀ a ∈ as, Plain a) → Goes w0 as w2 → Good w2 → w2.accepted = w.accepted → w2.rx.started < 1000 →
      w2.tx.queue.map SEnt.id = w0.tx.queue.map SEnt.id → w2.toR.head? = some (.rack, e.id) →
      ∃ as w1, (∀ a ∈ as, Plain a) ∧ Goes w as w1 ∧ Good w1 ∧ w1.rx.started ≤ 1000 ∧ w1.accepted = w.accepted ∧ w1.tx.queue.length < w.tx.queue.length := by
    intro w2 as ha hgo hg hacc hs hids hh
    obtain ⟨w1, b1, b2, b3, b4⟩ := finish hg (by rw [hacc]; exact hlt) hs hh
    refine ⟨.maintain :: (as ++ [.toR 0, .toS 0]), w1, ?_, .cons hm (by omega) (hgo.append b1), b2, ?_, b3.trans hacc, ?_⟩
    · intro a hin
      rcases List.mem_cons.1 hin with e' | e'
      · subst e'; trivial
      · rcases List.mem_append.1 e' with e' | e'
        · exact ha a e'
        · simp only [List.mem_cons, List.not_mem_nil, or_false] at e'
          rcases e' with e' | e' <;> subst e' <;> trivial
    · exact b1.started (by omega) [.toR 0, .toS 0] [] rfl w1 b1.run
    · have hmem : e.id ∈ w2.tx.queue.map SEnt.id := by rw [hids]; exact List.mem_map.2 ⟨e, he, rfl⟩
      obtain ⟨y, hy, hye⟩ := List.mem_map.1 hmem
      have hlen : w2.tx.queue.length = w.tx.queue.length := by
        have := congrArg List.length hids
        rw [List.length_map, List.length_map, e1] at this
        exact this
      rw [b4, ← hlen]
      exact List.length_filter_lt_length_iff_exists.2 ⟨y, hy, by simp [hye]⟩
  have hent := g0.inv.tx.ent e he
  by_cases hd : e.fDack = true
  · -- the receiver has acknowledged: `RACK` is sent again
    have hsend : w0.step (.send e.id true) = .ok { w0 with tx := { w0.tx with queue := modify SEnt.id e.id (fun _ => { e with fRack := true }) w0.tx.queue }, toR := (.rack, e.id) :: w0.toR } := by
      simp only [World.step, Tx.send, hfind, sendEntry, hd, Res.bind, Bool.not_true, Bool.false_and, if_true, World.out]
      rfl
    refine last (as := [.send e.id true]) (by simp [Plain]) (.cons hsend (by show w0.rx.started ≤ 1000; omega) (.nil _)) (good_step g0 (by exact trivial) hlt0 hsend (by show w0.rx.started ≤ 1000; omega)) e2 (by show w0.rx.started < 1000; omega) ?_ rfl
    show (modify SEnt.id e.id (fun _ => { e with fRack := true }) w0.tx.queue).map SEnt.id = _
    rw [hq]
    simp [modify]
  · have hd' : e.fDack = false := by simpa using hd
    have hr' : e.fRack = false := by
      cases hr : e.fRack with
      | false => rfl
      | true => exact absurd (g0.inv.tx.flag e he hr) hd
    have hsend : w0.step (.send e.id true) = .ok { w0 with tx := { w0.tx with queue := modify SEnt.id e.id (fun _ => { e with fMsg := true }) w0.tx.queue }, stream := w0.stream ++ [(e.id, e.msg)] } := by
      simp only [World.step, Tx.send, hfind, sendEntry, hd', hr', Res.bind, Bool.not_false, Bool.and_self, if_true, World.out]
    have g1 := good_step g0 (by exact trivial) hlt0 hsend (by show w0.rx.started ≤ 1000; omega)
    obtain ⟨as, w2, a1, a2, a3, a4, a5, a6, a7⟩ := drain w0.stream g1 hlt0 (by show w0.rx.started ≤ 1000; omega) rfl
    have hst2 : w2.rx.started = 0 := by rw [a6]; exact e3
    have hk : w2.toS[0]? = some (.dack, e.id) := by rw [← List.head?_eq_getElem?]; exact a7
    have hstep : ∃ q', w2.step (.toS 0) = .ok { w2 with tx := { w2.tx with queue := q' }, toR := (.rack, e.id) :: w2.toR } ∧ q'.map SEnt.id = w2.tx.queue.map SEnt.id := by
      simp only [World.step, hk, Tx.control]
      cases hf : findEntry SEnt.id w2.tx.queue e.id with
      | none => exact ⟨w2.tx.queue, rfl, rfl⟩
      | some y =>
        refine ⟨_, rfl, ?_⟩
        rw [modify_eq a3.inv.tx.sorted, List.map_map]
        refine List.map_congr_left ?_
        intro z _
        simp only [Function.comp]
        split <;> rfl
    obtain ⟨q', s1, s2⟩ := hstep
    have hq' : q'.map SEnt.id = w0.tx.queue.map SEnt.id := by
      rw [s2, a4]
      show (modify SEnt.id e.id (fun _ => { e with fMsg := true }) w0.tx.queue).map SEnt.id = _
      rw [hq]
      simp [modify]
    have hacc2 : w2.accepted = w.accepted := a5.trans e2
    have hst3 : w2.rx.started ≤ 1000 := by omega
    refine last (w2 := { w2 with tx := { w2.tx with queue := q' }, toR := (.rack, e.id) :: w2.toR }) (as := .send e.id true :: (as ++ [.toS 0])) ?_ (.cons hsend (by show w0.rx.started ≤ 1000; omega) (a2.append (Goes.cons (w1 := { w2 with tx := { w2.tx with queue := q' }, toR := (.rack, e.id) :: w2.toR }) s1 hst3 (.nil _)))) (good_step (a := .toS 0) a3 (by exact trivial) (by rw [hacc2]; exact hlt) s1 hst3) hacc2 (by show w2.rx.started < 1000; omega) hq' rfl
    intro a ha
    rcases List.mem_cons.1 ha with e' | e'
    · subst e'; trivial
    · rcases List.mem_append.1 e' with e' | e'
      · exact a1 a e'
      · simp only [List.mem_singleton] at e'
        subst e'; trivial

/-- All of them may. -/
theorem progress_all (n : Nat) : ∀ {w : World α}, w.tx.queue.length ≤ n → Good w → w.accepted.length < 2 ^ 32 → w.rx.started ≤ 1000 →
    ∃ as w1, (∀ a ∈ as, Plain a) ∧ Goes w as w1 ∧ Good w1 ∧ w1.accepted = w.accepted ∧ w1.tx.queue = [] := by
  induction n with
  | zero =>
    intro w hl h _ _
    exact ⟨[], w, by simp, .nil w, h, rfl, List.length_eq_zero_iff.1 (by omega)⟩
  | succ n ih =>
    intro w hl h hlt hst
    by_cases hne : w.tx.queue = []
    · exact ⟨[], w, by simp, .nil w, h, rfl, hne⟩
    · obtain ⟨as, w1, a1, a2, a3, a4, a5, a6⟩ := progress h hlt hst hne
      obtain ⟨bs, w2, b1, b2, b3, b4, b5⟩ := ih (w := w1) (by omega) a3 (by rw [a5]; exact hlt) a4
      refine ⟨as ++ bs, w2, ?_, a2.append b2, b3, b4.trans a5, b5⟩
      intro a ha
      rcases List.mem_append.1 ha with e | e
      · exact a1 a e
      · exact b1 a e

end Verif.Asd
