import Verif.Hub.Lemmas
/-!
# The duplicated output: each step keeps the invariant
-/
namespace Verif.Hub
open Verif Pfifo

variable {α : Type} {n : Nat} {W : List α} {h : Hub α} {am : List (Act α)} {aq : Nat → List (Act α)}

/-- No more was given than was written. -/
theorem Ok.given_le (k : Ok n W h am aq) : (given h.main.log).length ≤ W.length := by
  obtain ⟨mn, wq, ch, g⟩ := k.main.good
  have := congrArg List.length (g.ord trivial (Or.inl rfl))
  rw [k.wr] at this
  simp only [List.length_map, List.length_append] at this
  omega

theorem Ok.sq_le (k : Ok n W h am aq) {i : Nat} (hi : i < n) : (writes (aq i)).length + (notYet h i).length ≤ W.length := by
  have h1 := k.given_le
  rw [k.cp i hi] at h1
  simpa using h1

/-- Threads other than the one with the lock do not copy. -/
theorem Ok.not_copy (k : Ok n W h am aq) {r q i j : Nat} {d : Option α} (hr : h.lock = some r) (hq : h.at_ q = .copy i d j) : q = r := by
  have := k.lock q (by rw [hq]; trivial)
  rw [hr] at this
  exact (Option.some.inj this).symm

theorem ok_write (k : Ok n W h am aq) (d : α) :
    (h.step n (.write d) = .full ∧ LIMIT ≤ (W ++ [d]).length) ∨
    ∃ h' am', h.step n (.write d) = .ok h' ∧ Ok n (W ++ [d]) h' am' aq := by
  rcases k.main.step (a := .write d) trivial trivial (fun _ x e => by cases e) (fun e => by cases e) with ⟨e, hl⟩ | ⟨s', e, hq⟩
  · left
    refine ⟨by simp only [Hub.step, e, Res.bind], ?_⟩
    rw [k.wr] at hl
    exact hl
  · right
    obtain ⟨e1, e2⟩ := step_write e
    refine ⟨{ h with main := s' }, am ++ [.write d], by simp only [Hub.step, e, Res.bind], ?_⟩
    exact {
      main := hq
      sq := k.sq
      wr := by rw [writes_append, k.wr]; rfl
      cp := fun i hi => by
        show given s'.log = _
        rw [e1]; exact k.cp i hi
      lock := k.lock
      lock' := k.lock'
      own := k.own
      ownN := k.ownN
      inj := k.inj
      log := k.log
      log0 := k.log0
      free := k.free
      pre := k.pre
      copy := fun r i d' j he => by
        have := k.copy r i d' j he
        refine ⟨?_, this.2⟩
        show 1 ≤ (s'.rd 0).num
        rw [e2]; exact this.1 }

theorem ok_find (k : Ok n W h am aq) {r : Nat} (hr : r < n) : ∃ h', h.step n (.find r) = .ok h' ∧ Ok n W h' am aq := by
  simp only [Hub.step, Hub.find]
  cases hat : h.at_ r with
  | idle =>
    simp only []
    by_cases hl : h.lock = none
    · rw [if_pos hl]
      cases hs : slotOf h.owner r n 0 with
      | none => exact absurd hs (slotOf_ok hr k.ownN k.inj)
      | some i =>
        obtain ⟨_, h2, h3, h4⟩ := slotOf_some hs
        have hin : i < n := by omega
        have hq : ∀ q, q ≠ r → h.owner i ≠ some q := fun q hq e => by
          rcases h3 with h3 | h3
          · rw [h3] at e; exact hq (Option.some.inj e).symm
          · rw [h3] at e; cases e
        have hself : ∀ j, h.owner j = some r → j = i := fun j hj => by
          by_cases e : j < i
          · exact absurd hj (h4 j (Nat.zero_le _) e).1
          · rcases h3 with h3 | h3
            · exact k.inj j i r hj h3
            · have := k.pre i j (by omega) h3
              rw [this] at hj; cases hj
        have hny : ∀ j, notYet ({ h with owner := fun j => if j = i then some r else h.owner j }.goto r (.found i)) j = notYet h j := fun j => by
          simp only [notYet, Hub.goto, hl]
        refine ⟨_, rfl, ?_⟩
        exact {
          main := k.main
          sq := k.sq
          wr := k.wr
          cp := fun j hj => by rw [hny]; exact k.cp j hj
          lock := fun q hm => by
            by_cases e : q = r
            · rw [e, goto_self] at hm; exact hm.elim
            · rw [goto_ne _ _ e] at hm; exact k.lock q hm
          lock' := fun q hm => by
            have : h.lock = some q := hm
            rw [hl] at this; cases this
          own := fun q j hm => by
            show (if j = i then some r else h.owner j) = some q
            by_cases e : q = r
            · rw [e, goto_self] at hm
              have : i = j := Option.some.inj hm
              rw [if_pos this.symm, e]
            · rw [goto_ne _ _ e] at hm
              have ho := k.own q j hm
              rw [if_neg, ho]
              intro e'
              rw [e'] at ho
              exact hq q e ho
          ownN := fun j q ho => by
            change (if j = i then some r else h.owner j) = some q at ho
            split at ho
            · rename_i e
              exact ⟨by omega, by rw [← Option.some.inj ho]; exact hr⟩
            · exact k.ownN j q ho
          inj := fun a b q ha hb => by
            change (if a = i then some r else h.owner a) = some q at ha
            change (if b = i then some r else h.owner b) = some q at hb
            split at ha
            · split at hb
              · omega
              · rename_i e1 e2
                rw [← Option.some.inj ha] at hb
                exact absurd (hself b hb) e2
            · split at hb
              · rename_i e1 e2
                rw [← Option.some.inj hb] at ha
                exact absurd (hself a ha) e1
              · exact k.inj a b q ha hb
          log := fun j q ho => by
            change (if j = i then some r else h.owner j) = some q at ho
            show seen h.log q = given (h.sq j).log
            split at ho
            · rename_i e
              rw [← Option.some.inj ho, e]
              rcases h3 with h3 | h3
              · exact k.log i r h3
              · rw [k.free i h3, k.log0 r (fun x hx => by
                  have := hself x hx
                  rw [this, h3] at hx; cases hx)]
            · exact k.log j q ho
          log0 := fun q ho => by
            have e : q ≠ r := fun e => ho i (by show (if i = i then some r else h.owner i) = some q; rw [if_pos rfl, e])
            refine k.log0 q (fun j hj => ?_)
            by_cases e' : j = i
            · rw [e'] at hj; exact hq q e hj
            · exact ho j (by show (if j = i then some r else h.owner j) = some q; rw [if_neg e']; exact hj)
          free := fun j ho => by
            change (if j = i then some r else h.owner j) = none at ho
            split at ho
            · cases ho
            · exact k.free j ho
          pre := fun a b hab ho => by
            change (if a = i then some r else h.owner a) = none at ho
            show (if b = i then some r else h.owner b) = none
            split at ho
            · cases ho
            · rename_i e
              have : ¬ a < i := fun hlt => (h4 a (Nat.zero_le _) hlt).2 ho
              rw [if_neg (by omega)]
              exact k.pre a b hab ho
          copy := fun q a d b hq => by
            by_cases e : q = r
            · rw [e, goto_self] at hq; cases hq
            · rw [goto_ne _ _ e] at hq
              exact k.copy q a d b hq }
    · rw [if_neg hl]
      exact ⟨h, rfl, k⟩
  | _ => exact ⟨h, rfl, k⟩

/-- Moving a thread which does not copy and does not have the main queue. -/
theorem Ok.goto (k : Ok n W h am aq) {r : Nat} {x : At α} (h1 : ¬ onMain (h.at_ r)) (h2 : ¬ onMain x)
    (h3 : ∀ i, slot x = some i → h.owner i = some r) : Ok n W (h.goto r x) am aq where
  main := k.main
  sq := k.sq
  wr := k.wr
  cp := fun i hi => by
    show given h.main.log = _
    rw [k.cp i hi]
    congr 1
    cases hl : h.lock with
    | none => simp only [notYet, Hub.goto, hl]
    | some q =>
      have e : q ≠ r := fun e => h1 (by rw [← e]; exact k.lock' q hl)
      simp only [notYet, Hub.goto, hl, if_neg e]
  lock := fun q hm => by
    by_cases e : q = r
    · rw [e, goto_self] at hm; exact absurd hm h2
    · rw [goto_ne _ _ e] at hm; exact k.lock q hm
  lock' := fun q hm => by
    have hq := k.lock' q hm
    have e : q ≠ r := fun e => h1 (by rw [← e]; exact hq)
    rw [goto_ne _ _ e]; exact hq
  own := fun q j hm => by
    by_cases e : q = r
    · rw [e, goto_self] at hm; rw [e]; exact h3 j hm
    · rw [goto_ne _ _ e] at hm; exact k.own q j hm
  ownN := k.ownN
  inj := k.inj
  log := k.log
  log0 := k.log0
  free := k.free
  pre := k.pre
  copy := fun q a d b hq => by
    by_cases e : q = r
    · rw [e, goto_self] at hq; exact absurd (by rw [hq]; trivial) h2
    · rw [goto_ne _ _ e] at hq
      exact k.copy q a d b hq

theorem ok_fill (k : Ok n W h am aq) (r : Nat) : ∃ h', h.step n (.fill r) = .ok h' ∧ Ok n W h' am aq := by
  simp only [Hub.step, Hub.fill]
  cases hat : h.at_ r with
  | found i =>
    simp only []
    have ho := k.own r i (by rw [hat]; rfl)
    split
    · exact ⟨_, rfl, k.goto (by rw [hat]; exact id) (fun e => e) (fun j hj => by cases hj; exact ho)⟩
    · rename_i hc
      have hl : h.lock = none := Classical.byContradiction fun e => hc (Or.inr e)
      have k' := k.goto (r := r) (x := .read i) (by rw [hat]; exact id) (fun e => e) (fun j hj => by cases hj; exact ho)
      refine ⟨_, rfl, ?_⟩
      exact {
        main := k.main
        sq := k.sq
        wr := k.wr
        cp := fun j hj => by
          show given h.main.log = _
          rw [k.cp j hj]
          congr 1
          simp [notYet, hl, Hub.goto]
        lock := fun q hm => by
          by_cases e : q = r
          · rw [e]; rfl
          · rw [goto_ne _ _ e] at hm
            have := k.lock q hm
            rw [hl] at this; cases this
        lock' := fun q hm => by
          have e : r = q := Option.some.inj hm
          rw [← e, goto_self]; trivial
        own := fun q j hm => by
          by_cases e : q = r
          · rw [e, goto_self] at hm
            cases hm
            rw [e]; exact ho
          · rw [goto_ne _ _ e] at hm; exact k.own q j hm
        ownN := k.ownN
        inj := k.inj
        log := k.log
        log0 := k.log0
        free := k.free
        pre := k.pre
        copy := fun q a d b hq => by
          by_cases e : q = r
          · rw [e, goto_self] at hq; cases hq
          · rw [goto_ne _ _ e] at hq
            exact k.copy q a d b hq }
  | _ => exact ⟨h, rfl, k⟩

theorem legal_free : Legal Fifo.FREE := ⟨true, false, false, false, by decide⟩

/-- A step with the main queue, without copying. -/
theorem ok_move_main (k : Ok n W h am aq) {r i : Nat} (hat : h.at_ r = .fill i) :
    (h.step n (.move r) = .full ∧ LIMIT ≤ W.length) ∨ ∃ h' am', h.step n (.move r) = .ok h' ∧ Ok n W h' am' aq := by
  have hlk := k.lock r (by rw [hat]; trivial)
  have ho := k.own r i (by rw [hat]; rfl)
  have hny : ∀ j, notYet h j = [] := fun j => by simp only [notYet, hlk, hat]
  have hnc : ∀ q a d b, h.at_ q ≠ .copy a d b := fun q a d b e => by
    have := k.not_copy hlk e
    rw [this, hat] at e; cases e
  rcases k.main.step (nextAct_legal h.main legal_free) (nextAct_solo _ _) (fun _ x => (nextAct_ne_write _ _ x).2) (fun e => by cases e) with ⟨e, hl⟩ | ⟨m, e, hq⟩
  · left
    refine ⟨by simp only [Hub.step, Hub.move, hat, e, Res.bind], ?_⟩
    rw [k.wr, nextAct_writes, List.append_nil] at hl
    exact hl
  · right
    have hg := step_given e
    have e0 := e
    have hw : writes (am ++ [nextAct h.main Fifo.FREE]) = W := by rw [writes_append, nextAct_writes, List.append_nil, k.wr]
    by_cases c1 : isEnding h.main = true
    · refine ⟨{ h with main := m, lock := none }.goto r (.read i), am ++ [nextAct h.main Fifo.FREE], by simp only [Hub.step, Hub.move, hat, e, Res.bind]; rw [if_pos c1], ?_⟩
      have hnl : inLoop h.main = false := by
        unfold isEnding at c1
        unfold inLoop
        split at c1
        · rename_i heq; rw [heq]
        · cases c1
      rw [hnl, Bool.false_and, if_neg (by decide), List.append_nil] at hg
      exact {
        main := hq
        sq := k.sq
        wr := hw
        cp := fun j hj => by
          show given m.log = _
          rw [hg, k.cp j hj, hny]
          rfl
        lock := fun q hm => by
          by_cases e : q = r
          · rw [e, goto_self] at hm; exact hm.elim
          · rw [goto_ne _ _ e] at hm
            have := k.lock q hm
            rw [hlk] at this
            exact absurd (Option.some.inj this).symm e
        lock' := fun q hm => by cases hm
        own := fun q j hm => by
          by_cases e : q = r
          · rw [e, goto_self] at hm
            cases hm
            rw [e]; exact ho
          · rw [goto_ne _ _ e] at hm; exact k.own q j hm
        ownN := k.ownN
        inj := k.inj
        log := k.log
        log0 := k.log0
        free := k.free
        pre := k.pre
        copy := fun q a d b hq => by
          by_cases e : q = r
          · rw [e, goto_self] at hq; cases hq
          · rw [goto_ne _ _ e] at hq
            exact absurd hq (hnc q a d b) }
    · by_cases c2 : (inLoop h.main && inCallback m) = true
      · refine ⟨{ h with main := m }.goto r (.copy i (lastGiven m) 0), am ++ [nextAct h.main Fifo.FREE], by simp only [Hub.step, Hub.move, hat, e, Res.bind]; rw [if_neg c1, if_pos c2], ?_⟩
        rw [if_pos c2] at hg
        exact {
          main := hq
          sq := k.sq
          wr := hw
          cp := fun j hj => by
            show given m.log = _
            rw [hg, k.cp j hj, hny, List.append_nil]
            congr 1
            show _ = match h.lock with | none => [] | some q => _
            rw [hlk]
            show _ = match ({ h with main := m }.goto r (.copy i (lastGiven m) 0)).at_ r with | .copy _ d j' => _ | _ => _
            rw [goto_self]
            exact (if_pos (Nat.zero_le _)).symm
          lock := fun q hm => by
            by_cases e : q = r
            · rw [e]; exact hlk
            · rw [goto_ne _ _ e] at hm; exact k.lock q hm
          lock' := fun q hm => by
            have : h.lock = some q := hm
            rw [hlk] at this
            have e := Option.some.inj this
            rw [← e, goto_self]; trivial
          own := fun q j hm => by
            by_cases e : q = r
            · rw [e, goto_self] at hm
              cases hm
              rw [e]; exact ho
            · rw [goto_ne _ _ e] at hm; exact k.own q j hm
          ownN := k.ownN
          inj := k.inj
          log := k.log
          log0 := k.log0
          free := k.free
          pre := k.pre
          copy := fun q a d b hq' => by
            by_cases e : q = r
            · rw [e, goto_self] at hq'
              cases hq'
              refine ⟨step_num e0 c2, ?_⟩
              obtain ⟨_, _, _, g⟩ := hq.good
              exact g.some _ (by rw [hg]; simp)
            · rw [goto_ne _ _ e] at hq'
              exact absurd hq' (hnc q a d b) }
      · refine ⟨{ h with main := m }, am ++ [nextAct h.main Fifo.FREE], by simp only [Hub.step, Hub.move, hat, e, Res.bind]; rw [if_neg c1, if_neg c2], ?_⟩
        rw [if_neg c2, List.append_nil] at hg
        exact {
          main := hq
          sq := k.sq
          wr := hw
          cp := fun j hj => by
            show given m.log = _
            rw [hg]
            exact k.cp j hj
          lock := k.lock
          lock' := k.lock'
          own := k.own
          ownN := k.ownN
          inj := k.inj
          log := k.log
          log0 := k.log0
          free := k.free
          pre := k.pre
          copy := fun q a d b hq' => absurd hq' (hnc q a d b) }

/-- A copy is written. -/
theorem ok_move_copy (k : Ok n W h am aq) {r i j : Nat} {d : Option α} (hat : h.at_ r = .copy i d j) :
    (h.step n (.move r) = .full ∧ LIMIT ≤ W.length) ∨ ∃ h' aq', h.step n (.move r) = .ok h' ∧ Ok n W h' am aq' := by
  have hlk := k.lock r (by rw [hat]; trivial)
  have ho := k.own r i (by rw [hat]; rfl)
  have hny : ∀ l, notYet h l = if j ≤ l then [d] else [] := fun l => by simp only [notYet, hlk, hat]
  obtain ⟨hcb, hd⟩ := k.copy r i d j hat
  by_cases hj : j < n
  · cases d with
    | none => cases hd
    | some x =>
      rcases (k.sq j).step (a := .delayed x) trivial trivial (fun e => by cases e) (fun _ x e => by cases e) with ⟨e, hl⟩ | ⟨s, e, hq⟩
      · left
        refine ⟨by simp only [Hub.step, Hub.move, hat, if_pos hj, e, Res.bind], ?_⟩
        have h1 := k.sq_le hj
        rw [hny, if_pos (Nat.le_refl j)] at h1
        simp only [writes, List.length_append, List.length_cons, List.length_nil] at hl h1
        omega
      · right
        obtain ⟨e1, e2⟩ := step_delayed e
        have hlog : ∀ l, given (((h.setSq j s).goto r (.copy i (some x) (j + 1))).sq l).log = given (h.sq l).log := fun l => by
          show given ((h.setSq j s).sq l).log = _
          by_cases e : l = j
          · rw [e, setSq_self, e1]
          · rw [setSq_ne _ _ e]
        refine ⟨(h.setSq j s).goto r (.copy i (some x) (j + 1)), upd aq j (aq j ++ [.delayed x]),
          by simp only [Hub.step, Hub.move, hat, if_pos hj, e, Res.bind], ?_⟩
        exact {
          main := k.main
          sq := fun l => by
            show Q true (upd aq j (aq j ++ [.delayed x]) l) ((h.setSq j s).sq l)
            by_cases e : l = j
            · rw [e, setSq_self, upd_self]; exact hq
            · rw [setSq_ne _ _ e, upd_ne _ _ e]; exact k.sq l
          wr := k.wr
          cp := fun l hl => by
            have h0 := k.cp l hl
            rw [hny] at h0
            have h1 : notYet ((h.setSq j s).goto r (.copy i (some x) (j + 1))) l = if j + 1 ≤ l then [some x] else [] := by
              show (match h.lock with | none => [] | some q => _) = _
              rw [hlk]
              show (match ((h.setSq j s).goto r (.copy i (some x) (j + 1))).at_ r with | .copy _ d j' => _ | _ => _) = _
              rw [goto_self]
            show given h.main.log = _
            rw [h1, h0]
            by_cases e : l = j
            · rw [e, upd_self, if_pos (Nat.le_refl j), if_neg (by omega), writes_append, List.map_append, List.append_nil]
              rfl
            · rw [upd_ne _ _ e]
              by_cases e' : j ≤ l
              · rw [if_pos e', if_pos (by omega)]
              · rw [if_neg e', if_neg (by omega)]
          lock := fun q hm => by
            by_cases e : q = r
            · rw [e]; exact hlk
            · rw [goto_ne _ _ e] at hm; exact k.lock q hm
          lock' := fun q hm => by
            have : h.lock = some q := hm
            rw [hlk] at this
            have e := Option.some.inj this
            rw [← e, goto_self]; trivial
          own := fun q l hm => by
            by_cases e : q = r
            · rw [e, goto_self] at hm
              cases hm
              rw [e]; exact ho
            · rw [goto_ne _ _ e] at hm; exact k.own q l hm
          ownN := k.ownN
          inj := k.inj
          log := fun l q hlq => by rw [hlog]; exact k.log l q hlq
          log0 := k.log0
          free := fun l hlf => by rw [hlog]; exact k.free l hlf
          pre := k.pre
          copy := fun q a d b hq' => by
            by_cases e : q = r
            · rw [e, goto_self] at hq'
              cases hq'
              exact ⟨hcb, rfl⟩
            · rw [goto_ne _ _ e] at hq'
              exact absurd (k.not_copy hlk hq') e }
  · right
    refine ⟨h.goto r (.fill i), aq, by simp only [Hub.step, Hub.move, hat, if_neg hj], ?_⟩
    exact {
      main := k.main
      sq := k.sq
      wr := k.wr
      cp := fun l hl => by
        have h0 := k.cp l hl
        rw [hny, if_neg (by omega)] at h0
        have h1 : notYet (h.goto r (.fill i)) l = [] := by
          show (match h.lock with | none => [] | some q => _) = _
          rw [hlk]
          show (match (h.goto r (.fill i)).at_ r with | .copy _ d j' => _ | _ => _) = _
          rw [goto_self]
        rw [h1]; exact h0
      lock := fun q hm => by
        by_cases e : q = r
        · rw [e]; exact hlk
        · rw [goto_ne _ _ e] at hm; exact k.lock q hm
      lock' := fun q hm => by
        have : h.lock = some q := hm
        rw [hlk] at this
        have e := Option.some.inj this
        rw [← e, goto_self]; trivial
      own := fun q l hm => by
        by_cases e : q = r
        · rw [e, goto_self] at hm
          cases hm
          rw [e]; exact ho
        · rw [goto_ne _ _ e] at hm; exact k.own q l hm
      ownN := k.ownN
      inj := k.inj
      log := k.log
      log0 := k.log0
      free := k.free
      pre := k.pre
      copy := fun q a d b hq' => by
        by_cases e : q = r
        · rw [e, goto_self] at hq'; cases hq'
        · rw [goto_ne _ _ e] at hq'
          exact absurd (k.not_copy hlk hq') e }

theorem ok_read (k : Ok n W h am aq) {r : Nat} {ret : UInt32} (hr : Legal ret) :
    (h.step n (.read r ret) = .full ∧ LIMIT ≤ W.length) ∨ ∃ h' aq', h.step n (.read r ret) = .ok h' ∧ Ok n W h' am aq' := by
  cases hat : h.at_ r with
  | read i =>
    have ho := k.own r i (by rw [hat]; rfl)
    have hi := (k.ownN i r ho).1
    rcases (k.sq i).step (nextAct_legal (h.sq i) hr) (nextAct_solo _ _) (fun e => by cases e) (fun _ x => (nextAct_ne_write _ _ x).1) with ⟨e, hl⟩ | ⟨s, e, hq⟩
    · left
      refine ⟨by simp only [Hub.step, Hub.read, hat, e, Res.bind], ?_⟩
      rw [nextAct_writes, List.append_nil] at hl
      have := k.sq_le hi
      omega
    · right
      have hg := step_given e
      have hw : ∀ l, writes (upd aq i (aq i ++ [nextAct (h.sq i) ret]) l) = writes (aq l) := fun l => by
        by_cases e : l = i
        · rw [e, upd_self, writes_append, nextAct_writes, List.append_nil]
        · rw [upd_ne _ _ e]
      have hqs : ∀ l, Q true (upd aq i (aq i ++ [nextAct (h.sq i) ret]) l) ((h.setSq i s).sq l) := fun l => by
        by_cases e : l = i
        · rw [e, setSq_self, upd_self]; exact hq
        · rw [setSq_ne _ _ e, upd_ne _ _ e]; exact k.sq l
      -- the state with the new queue, when nothing was given
      have hsame : given s.log = given (h.sq i).log → Ok n W (h.setSq i s) am (upd aq i (aq i ++ [nextAct (h.sq i) ret])) := fun hsl => {
        main := k.main
        sq := hqs
        wr := k.wr
        cp := fun l hl => by rw [hw]; exact k.cp l hl
        lock := k.lock
        lock' := k.lock'
        own := k.own
        ownN := k.ownN
        inj := k.inj
        log := fun l q hlq => by
          rw [show seen (h.setSq i s).log q = seen h.log q from rfl, k.log l q hlq]
          by_cases e : l = i
          · rw [e, setSq_self, hsl]
          · rw [setSq_ne _ _ e]
        log0 := k.log0
        free := fun l hlf => by
          have := k.free l hlf
          by_cases e : l = i
          · rw [e, setSq_self, hsl, ← e]; exact this
          · rw [setSq_ne _ _ e]; exact this
        pre := k.pre
        copy := k.copy }
      by_cases c1 : isEnding (h.sq i) = true
      · have hnl : inLoop (h.sq i) = false := by
          unfold isEnding at c1
          unfold inLoop
          split at c1
          · rename_i heq; rw [heq]
          · cases c1
        rw [hnl, Bool.false_and, if_neg (by decide), List.append_nil] at hg
        refine ⟨(h.setSq i s).goto r .idle, upd aq i (aq i ++ [nextAct (h.sq i) ret]), by simp only [Hub.step, Hub.read, hat, e, Res.bind]; rw [if_pos c1], ?_⟩
        exact (hsame hg).goto (by show ¬ onMain (h.at_ r); rw [hat]; exact id) (fun e => e) (fun j hj => by cases hj)
      · by_cases c2 : (inLoop (h.sq i) && inCallback s) = true
        · refine ⟨{ h.setSq i s with log := h.log ++ [(r, lastGiven s)] }, upd aq i (aq i ++ [nextAct (h.sq i) ret]), by simp only [Hub.step, Hub.read, hat, e, Res.bind]; rw [if_neg c1, if_pos c2], ?_⟩
          rw [if_pos c2] at hg
          exact {
            main := k.main
            sq := hqs
            wr := k.wr
            cp := fun l hl => by rw [hw]; exact k.cp l hl
            lock := k.lock
            lock' := k.lock'
            own := k.own
            ownN := k.ownN
            inj := k.inj
            log := fun l q hlq => by
              show seen (h.log ++ [(r, lastGiven s)]) q = given ((h.setSq i s).sq l).log
              rw [seen_append, k.log l q hlq]
              by_cases e : l = i
              · have hq' : r = q := by
                  change h.owner l = some q at hlq
                  rw [e, ho] at hlq; exact Option.some.inj hlq
                rw [e, setSq_self, hg, hq', seen_self]
              · have hq' : r ≠ q := fun e' => e (k.inj l i q hlq (by rw [← e']; exact ho))
                rw [setSq_ne _ _ e, seen_ne _ hq', List.append_nil]
            log0 := fun q hlq => by
              have hq' : r ≠ q := fun e' => hlq i (by rw [← e']; exact ho)
              show seen (h.log ++ [(r, lastGiven s)]) q = []
              rw [seen_append, k.log0 q hlq, seen_ne _ hq']
              rfl
            free := fun l hlf => by
              have := k.free l hlf
              by_cases e : l = i
              · change h.owner l = none at hlf
                rw [e, ho] at hlf; cases hlf
              · show given ((h.setSq i s).sq l).log = []
                rw [setSq_ne _ _ e]; exact this
            pre := k.pre
            copy := k.copy }
        · rw [if_neg c2, List.append_nil] at hg
          exact ⟨h.setSq i s, upd aq i (aq i ++ [nextAct (h.sq i) ret]), by simp only [Hub.step, Hub.read, hat, e, Res.bind]; rw [if_neg c1, if_neg c2], hsame hg⟩
  | _ => exact Or.inr ⟨h, aq, by simp only [Hub.step, Hub.read, hat], k⟩

/-- One step. -/
theorem ok_step (k : Ok n W h am aq) {a : HubAct α} (hl : LegalStep n a) :
    (h.step n a = .full ∧ LIMIT ≤ (W ++ written [a]).length) ∨ ∃ h' am' aq', h.step n a = .ok h' ∧ Ok n (W ++ written [a]) h' am' aq' := by
  cases a with
  | write d =>
    rcases ok_write k d with ⟨e, f⟩ | ⟨h', am', e, k'⟩
    · exact Or.inl ⟨e, f⟩
    · exact Or.inr ⟨h', am', aq, e, k'⟩
  | find r =>
    obtain ⟨h', e, k'⟩ := ok_find k hl
    exact Or.inr ⟨h', am, aq, e, by simpa [written] using k'⟩
  | fill r =>
    obtain ⟨h', e, k'⟩ := ok_fill k r
    exact Or.inr ⟨h', am, aq, e, by simpa [written] using k'⟩
  | move r =>
    have hw : W ++ written [HubAct.move r] = W := by simp [written]
    rw [hw]
    cases hat : h.at_ r with
    | fill i =>
      rcases ok_move_main k hat with ⟨e, f⟩ | ⟨h', am', e, k'⟩
      · exact Or.inl ⟨e, f⟩
      · exact Or.inr ⟨h', am', aq, e, k'⟩
    | copy i d j =>
      rcases ok_move_copy k hat with ⟨e, f⟩ | ⟨h', aq', e, k'⟩
      · exact Or.inl ⟨e, f⟩
      · exact Or.inr ⟨h', am, aq', e, k'⟩
    | _ => exact Or.inr ⟨h, am, aq, by simp only [Hub.step, Hub.move, hat], k⟩
  | read r ret =>
    have hw : W ++ written [HubAct.read r ret] = W := by simp [written]
    rw [hw]
    rcases ok_read (r := r) k hl with ⟨e, f⟩ | ⟨h', aq', e, k'⟩
    · exact Or.inl ⟨e, f⟩
    · exact Or.inr ⟨h', am, aq', e, k'⟩

theorem written_append (l1 l2 : List (HubAct α)) : written (l1 ++ l2) = written l1 ++ written l2 := by
  induction l1 with
  | nil => rfl
  | cons e l ih => cases e <;> simp [written, ih]

/-- Any number of steps. -/
theorem ok_run : ∀ {as : List (HubAct α)} {h : Hub α} {W : List α} {am : List (Act α)} {aq : Nat → List (Act α)}, Ok n W h am aq →
    (∀ a ∈ as, LegalStep n a) →
    (h.run n as = .full ∧ LIMIT ≤ (W ++ written as).length) ∨ ∃ h' am' aq', h.run n as = .ok h' ∧ Ok n (W ++ written as) h' am' aq'
  | [], h, W, am, aq, k, _ => Or.inr ⟨h, am, aq, rfl, by simpa [written] using k⟩
  | a :: as, h, W, am, aq, k, hl => by
    have hww : W ++ written (a :: as) = (W ++ written [a]) ++ written as := by
      rw [List.append_assoc, ← written_append]; rfl
    rcases ok_step k (hl a List.mem_cons_self) with ⟨e, f⟩ | ⟨h1, am1, aq1, e, k1⟩
    · left
      refine ⟨by simp only [Hub.run, e, Res.bind], ?_⟩
      rw [hww, List.length_append]
      omega
    · have := ok_run k1 (fun a ha => hl a (List.mem_cons_of_mem _ ha))
      rw [← hww] at this
      simp only [Hub.run, e, Res.bind]
      exact this

end Verif.Hub
