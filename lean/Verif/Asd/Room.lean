import Verif.Asd.Lemmas
/-!
# The release queue does not fill up
-/
namespace Verif.Asd
open Verif

variable {α : Type}

/-- The entry has been delivered, and at most `d` have been counted since. -/
def recent (d : Nat) (e : REnt α) : Bool := decide ((GRACE : Int) - d ≤ e.grace ∧ 0 < e.grace)

/-- The entries which are kept after delivery are few. -/
structure Few (r : Rx α) : Prop where
  none : r.queues = [] → r.started = 0
  le : ∀ e ∈ rel r, e.grace ≤ GRACE
  few : ∀ d, (rel r).countP (recent d) ≤ d + r.started

theorem Sorted.nodup {β : Type} {key : β → Nat} {q : List β} (hs : Sorted key q) : q.Nodup := by
  refine List.Pairwise.imp ?_ hs
  intro a b h hab
  rw [hab] at h
  omega

theorem few_init : Few ({} : Rx α) := ⟨fun _ => rfl, by simp [rel], by simp [rel]⟩

theorem few_insert {r : Rx α} (h : Few r) {x : REnt α} {q' : List (REnt α)} (hs : Sorted REnt.id (rel r)) (hs' : Sorted REnt.id q') (hx : x.grace = 0) (hn : ∀ e ∈ rel r, e.id ≠ x.id)
    (hm : ∀ e, e ∈ q' ↔ e = x ∨ e ∈ rel r) : Few { r with queues := [(1, q')] } := by
  refine ⟨by simp, ?_, ?_⟩
  · intro e he
    rcases (hm e).1 he with e1 | e1
    · subst e1; rw [hx]; decide
    · exact h.le e e1
  · intro d
    have hp : q'.Perm (x :: rel r) := by
      refine (List.perm_ext_iff_of_nodup hs'.nodup (List.nodup_cons.2 ⟨fun hx' => hn x hx' rfl, hs.nodup⟩)).2 ?_
      intro e
      rw [hm e, List.mem_cons]
    show q'.countP (recent d) ≤ d + r.started
    rw [hp.countP_eq, List.countP_cons_of_neg (by simp [recent, hx])]
    exact h.few d

theorem few_deliver {r : Rx α} {acc : List α} (h : Few r) (hr : RxOk r acc) {e : REnt α} {m : α} : Few (r.delivered e m) := by
  refine ⟨by simp [Rx.delivered], ?_, ?_⟩
  · intro y hy
    change y ∈ modify REnt.id e.id (fun _ => { e with msg := none, grace := GRACE }) (rel r) at hy
    rw [modify_eq hr.sorted, List.mem_map] at hy
    obtain ⟨z, hz, rfl⟩ := hy
    split
    · exact Int.le_refl _
    · exact h.le z hz
  · intro d
    show (modify REnt.id e.id (fun _ => { e with msg := none, grace := GRACE }) (rel r)).countP (recent d) ≤ d + (r.started + 1)
    refine Nat.le_trans ?_ (Nat.add_le_add_right (h.few d) 1)
    generalize rel r = q
    induction q with
    | nil => simp [modify]
    | cons a t ih =>
      unfold modify
      split
      · rw [List.countP_cons, List.countP_cons]
        split <;> split <;> omega
      · rw [List.countP_cons, List.countP_cons]
        omega

theorem few_maintain {r : Rx α} {acc : List α} (h : Few r) (hr : RxOk r acc) : Few r.maintain := by
  rcases hr.q with hq | hq
  · have : r.maintain = r := by
      unfold Rx.maintain
      rw [hq]
      simp only [maintainLoop, List.isEmpty_nil, if_true]
      rw [← hq]
    rw [this]
    exact h
  · have hm : r.maintain = { r with queues := [(1, updateGrace r.started (rel r))], started := 0 } := by
      generalize hr : rel r = q at hq
      unfold Rx.maintain
      rw [hq]
      rfl
    rw [hm]
    refine ⟨by simp, ?_, ?_⟩
    · intro y hy
      obtain ⟨e, he, hc⟩ := mem_updateGrace.1 hy
      have := h.le e he
      rcases hc with ⟨_, _, c⟩ | ⟨_, c⟩
      · subst c
        show e.grace - r.started ≤ GRACE
        omega
      · subst c; exact this
    · intro d
      show (updateGrace r.started (rel r)).countP (recent d) ≤ d + 0
      have key : ∀ q : List (REnt α), (∀ e ∈ q, e.grace ≤ GRACE) → d < r.started → (updateGrace r.started q).countP (recent d) = 0 := by
        intro q hle hd
        rw [List.countP_eq_zero]
        intro y hy
        obtain ⟨e, he, hc⟩ := mem_updateGrace.1 hy
        have := hle e he
        simp only [recent, decide_eq_true_eq]
        rcases hc with ⟨_, _, c⟩ | ⟨c, c'⟩
        · subst c
          simp only
          omega
        · subst c'; omega
      by_cases hd : d < r.started
      · rw [key _ h.le hd]; omega
      · have key2 : ∀ q : List (REnt α), (updateGrace r.started q).countP (recent d) ≤ q.countP (recent (d - r.started)) := by
          intro q
          induction q with
          | nil => simp [updateGrace]
          | cons a t ih =>
            unfold updateGrace
            have hcons : List.countP (recent (d - r.started)) (a :: t) = List.countP (recent (d - r.started)) t + if recent (d - r.started) a = true then 1 else 0 := List.countP_cons
            split
            · split
              · omega
              · rename_i h1 h2
                rw [List.countP_cons]
                have : recent d { a with grace := a.grace - r.started } = true → recent (d - r.started) a = true := by
                  simp only [recent, decide_eq_true_eq]
                  omega
                split
                · rename_i h3
                  rw [hcons, if_pos (this h3)]
                  omega
                · omega
            · rename_i h1
              have : ¬ recent d a = true := by
                simp only [recent, decide_eq_true_eq]
                omega
              rw [List.countP_cons_of_neg this]
              omega
        have := h.few (d - r.started)
        have := key2 (rel r)
        omega

/-- With the invariant, there is room for a message. -/
theorem room {w : World α} (h : Inv w) (hf : Few w.rx) (hst : w.rx.started ≤ 1000) : w.rx.count < RELEASE_MAX := by
  have hc : w.rx.count = (rel w.rx).length := by
    rcases h.rx.q with hq | hq
    · rw [rel_nil hq]; unfold Rx.count; rw [hq]; rfl
    · generalize hr : rel w.rx = q at hq
      unfold Rx.count
      rw [hq]
      simp
  rw [hc, List.length_eq_countP_add_countP (recent 1499)]
  have h1 := hf.few 1499
  have h2 : (rel w.rx).countP (fun a => decide ¬recent 1499 a = true) ≤ 500 := by
    rw [List.countP_eq_length_filter]
    have h3 : ((rel w.rx).filter (fun a => decide ¬recent 1499 a = true)).map REnt.id ⊆ w.tx.queue.map SEnt.id := by
      intro i hi
      obtain ⟨e, he, rfl⟩ := List.mem_map.1 hi
      obtain ⟨he1, he2⟩ := List.mem_filter.1 he
      have he3 : ¬ (((GRACE : Nat) : Int) - ((1499 : Nat) : Int) ≤ e.grace ∧ 0 < e.grace) := by
        intro hh
        have : ¬ recent 1499 e = true := of_decide_eq_true he2
        exact this (decide_eq_true hh)
      simp only [GRACE] at he3
      obtain ⟨a, b⟩ := h.rx.ent e he1
      rcases b with ⟨_, b, m, _, c⟩ | ⟨b, _⟩
      · refine Classical.byContradiction fun hn => b (h.gone e.id a ?_ ?_)
        · have := (List.getElem?_eq_some_iff.1 c).1
          rw [h.tx.pos]; omega
        · intro y hy hye
          exact hn (List.mem_map.2 ⟨y, hy, hye⟩)
      · omega
    have h4 : (((rel w.rx).filter (fun a => decide ¬recent 1499 a = true)).map REnt.id).Nodup := by
      unfold List.Nodup
      rw [List.pairwise_map]
      refine List.Pairwise.imp ?_ (h.rx.sorted.filter _)
      intro a b hab
      omega
    have h5 := h4.length_le_of_subset h3
    rw [List.length_map, List.length_map] at h5
    have := h.tx.len
    simp only [BUFFER_MAX] at this
    omega
  simp only [RELEASE_MAX]
  omega

theorem few_step {w w' : World α} (h : Inv w) (hf : Few w.rx) {a : Act α} (ha : NoReset a) (hs : w.step a = .ok w') : Few w'.rx := by
  cases a with
  | queue m =>
    simp only [World.step] at hs
    cases hq : w.tx.enqueue m with
    | bug => rw [hq] at hs; cases hs
    | ok o =>
      rw [hq] at hs
      cases o with
      | none => cases hs; exact hf
      | some t => cases hs; exact hf
  | send id ready =>
    simp only [World.step] at hs
    cases hq : w.tx.send id ready with
    | bug => rw [hq] at hs; cases hs
    | ok o =>
      rw [hq] at hs
      obtain ⟨t, o⟩ := o
      cases hs
      cases o <;> exact hf
  | data =>
    simp only [World.step] at hs
    cases hst : w.stream with
    | nil => rw [hst] at hs; cases hs; exact hf
    | cons x t =>
      obtain ⟨i, m⟩ := x
      rw [hst] at hs
      simp only [Rx.data] at hs
      split at hs
      · rw [insertQueue_rel h.rx.q] at hs
        rcases insertEntry_ok (x := ({ id := i, msg := some m } : REnt α)) h.rx.sorted with ⟨e, he, hk, hie⟩ | ⟨hn, q', h1, h2, h3, h4⟩
        · rw [hie] at hs
          cases hs
          have hq : w.rx.queues = [(1, rel w.rx)] := by
            rcases h.rx.q with hq | hq
            · rw [rel_nil hq] at he; cases he
            · exact hq
          show Few { w.rx with queues := [(1, rel w.rx)] }
          rw [← hq]
          exact hf
        · rw [h1] at hs
          cases hs
          exact few_insert hf h.rx.sorted h2 rfl hn h4
      · cases hs; exact hf
  | lose i => cases hs; exact hf
  | toS i =>
    simp only [World.step] at hs
    cases hk : w.toS[i]? with
    | none => rw [hk] at hs; cases hs; exact hf
    | some x => rw [hk] at hs; cases hs; exact hf
  | toR i =>
    simp only [World.step] at hs
    cases hk : w.toR[i]? with
    | none => rw [hk] at hs; cases hs; exact hf
    | some x =>
      obtain ⟨f, i⟩ := x
      rw [hk] at hs
      cases f with
      | rst => exact absurd (List.mem_of_getElem? hk) (h.rst i)
      | dack => cases hs; exact hf
      | cack => cases hs; exact hf
      | rack =>
        simp only [Rx.control, findQueue_rel h.rx.q] at hs
        cases hfe : findEntry REnt.id (rel w.rx) i with
        | none => rw [hfe] at hs; cases hs; exact hf
        | some e =>
          rw [hfe] at hs
          obtain ⟨he, rfl⟩ := findEntry_some hfe
          by_cases hg : e.grace = 0
          · obtain ⟨_, he2⟩ := h.rx.ent e he
            rcases he2 with ⟨_, _, m, hm, _⟩ | ⟨a, _⟩
            · simp only [deliver_eq h.rx he hg hm, Res.bind] at hs
              cases hs
              exact few_deliver hf h.rx
            · omega
          · have hd : w.rx.deliver 1 e = .ok w.rx := by unfold Rx.deliver; rw [if_pos hg]
            simp only [hd, Res.bind] at hs
            cases hs
            exact hf
  | maintain => cases hs; exact few_maintain hf h.rx
  | reset => exact absurd ha id
  | restart => exact absurd ha id

/-- A run keeps both. -/
theorem inv2_run (as : List (Act α)) : ∀ {w : World α}, Inv w → Few w.rx → (∀ a ∈ as, NoReset a) → w.accepted.length + given as < 2 ^ 32 →
    (∀ bs cs, as = bs ++ cs → ∀ w', w.run bs = .ok w' → w'.rx.started ≤ 1000) → ∃ w', w.run as = .ok w' ∧ Inv w' ∧ Few w'.rx ∧ w'.accepted.length ≤ w.accepted.length + given as := by
  induction as with
  | nil => intro w h hf _ _ _; exact ⟨w, rfl, h, hf, Nat.le_add_right _ _⟩
  | cons a as ih =>
    intro w h hf hr hlt hreg
    rw [given_cons] at hlt
    obtain ⟨w1, h1, h2, h3⟩ := inv_step h (hr a List.mem_cons_self) (by omega)
    have hst : w1.rx.started ≤ 1000 := hreg [a] as rfl w1 (by simp only [World.run, h1, Res.bind])
    obtain ⟨w2, h4, h5, h6, h7⟩ := ih (h2 hst) (few_step h hf (hr a List.mem_cons_self) h1) (fun b hb => hr b (List.mem_cons_of_mem _ hb)) (by omega) (by
      intro bs cs hbc w' hw'
      refine hreg (a :: bs) cs (by rw [hbc]; rfl) w' ?_
      simp only [World.run, h1, Res.bind]
      exact hw')
    exact ⟨w2, by simp only [World.run, h1, Res.bind]; exact h4, h5, h6, by rw [given_cons]; omega⟩

end Verif.Asd
