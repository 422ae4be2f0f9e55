import Verif.Pfifo.Ops3
/-!
# What has been given and what is left, in any history
-/
namespace Verif.Pfifo
open Verif Fifo

variable {α : Type}

/-- The callback has just returned. -/
def isCalled : Rd → Prop
  | .called _ _ _ _ _ _ => True
  | _ => False

/-- Everything which holds after the data `W` has been written. `ow` means that only `rrr_fifo_protected_write` is used, `od` that only `rrr_fifo_protected_write_delayed` is. -/
structure Good (N : Nat) (solo ow od : Prop) (W : List α) (s : Sys α) (mn wq : List (Node α)) (ch : Nat → List (Node α)) : Prop where
  inv : Inv N solo s mn wq ch
  bal : ∀ p, (W.map some).countP p = (given s.log).countP p + cnt p mn + cnt p wq + tot N fun r => cnt p (pend (s.rd r) (ch r))
  fre : ∀ p, (toFree s.log).countP p = (freed s.b.m.log).countP p + tot N fun r => cnt p (freeing (s.rd r) (ch r))
  cd : ∀ r, isCalled (s.rd r) → ∀ x ∈ ch r, x.data.isSome
  num : (tot N fun r => (s.rd r).num) ≤ (given s.log).length
  some : ∀ d ∈ given s.log, d.isSome
  ordW : solo → ow → wq = []
  ord : solo → ow ∨ od → W.map Option.some = given s.log ++ ((pend (s.rd 0) (ch 0)).map Node.data ++ (mn.map Node.data ++ wq.map Node.data))

theorem given_append (l1 l2 : List (Event α)) : given (l1 ++ l2) = given l1 ++ given l2 := by
  induction l1 with
  | nil => rfl
  | cons e l ih => cases e <;> simp [given, ih]

theorem toFree_append (l1 l2 : List (Event α)) : toFree (l1 ++ l2) = toFree l1 ++ toFree l2 := by
  induction l1 with
  | nil => rfl
  | cons e l ih =>
    cases e with
    | given r d k ret => simp only [List.cons_append, toFree, ih]; split <;> rfl
    | returned r ret => simp [toFree, ih]

theorem writes_append (l1 l2 : List (Act α)) : writes (l1 ++ l2) = writes l1 ++ writes l2 := by
  induction l1 with
  | nil => rfl
  | cons e l ih => cases e <;> simp [writes, ih]

theorem freed_append (l1 l2 : List (Ev α)) : freed (l1 ++ l2) = freed l1 ++ freed l2 := List.map_append

theorem tot_add (f g : Nat → Nat) : ∀ n, (tot n fun r => f r + g r) = tot n f + tot n g
  | 0 => rfl
  | n + 1 => by rw [tot, tot, tot, tot_add f g n]; omega

theorem cnt_append (p : Option α → Bool) (l1 l2 : List (Node α)) : cnt p (l1 ++ l2) = cnt p l1 + cnt p l2 := by
  simp [cnt]

theorem cnt_nil (p : Option α → Bool) : cnt p [] = 0 := rfl

theorem cnt_cons (p : Option α → Bool) (x : Node α) (l : List (Node α)) : cnt p (x :: l) = cnt p [x] + cnt p l :=
  cnt_append p [x] l

theorem cnt_take_drop (p : Option α → Bool) (k : Nat) (l : List (Node α)) : cnt p (l.take k) + cnt p (l.drop k) = cnt p l := by
  rw [← cnt_append, List.take_append_drop]

theorem pend_idle (c : List (Node α)) : pend .idle c = [] := rfl
theorem pend_ending (n : Nat) (ret : UInt32) (c : List (Node α)) : pend (.ending n ret) c = [] := rfl
theorem pend_loop (cur stop last : Option Nat) (n : Nat) (c : List (Node α)) : pend (.loop cur stop last n) c = c := rfl
theorem pend_called (cur : Nat) (next stop last : Option Nat) (n : Nat) (ret : UInt32) (x : Node α) (c : List (Node α)) :
    pend (.called cur next stop last n ret) (x :: c) = c := rfl
theorem pend_released (cur : Nat) (next stop last : Option Nat) (n : Nat) (ret : UInt32) (x : Node α) (c : List (Node α)) :
    pend (.released cur next stop last n ret) (x :: c) = c := rfl

theorem freeing_idle (c : List (Node α)) : freeing .idle c = [] := rfl
theorem freeing_ending (n : Nat) (ret : UInt32) (c : List (Node α)) : freeing (.ending n ret) c = [] := rfl
theorem freeing_loop (cur stop last : Option Nat) (n : Nat) (c : List (Node α)) : freeing (.loop cur stop last n) c = [] := rfl
theorem freeing_called (cur : Nat) (next stop last : Option Nat) (n : Nat) (ret : UInt32) (x : Node α) (c : List (Node α)) :
    freeing (.called cur next stop last n ret) (x :: c) = if has ret FREE then [x] else [] := rfl
theorem freeing_released (cur : Nat) (next stop last : Option Nat) (n : Nat) (ret : UInt32) (x : Node α) (c : List (Node α)) :
    freeing (.released cur next stop last n ret) (x :: c) = [] := rfl

theorem num_idle : Rd.num .idle = 0 := rfl
theorem num_ending (n : Nat) (ret : UInt32) : Rd.num (.ending n ret) = n := rfl
theorem num_loop (cur stop last : Option Nat) (n : Nat) : Rd.num (.loop cur stop last n) = n := rfl
theorem num_called (cur : Nat) (next stop last : Option Nat) (n : Nat) (ret : UInt32) : Rd.num (.called cur next stop last n ret) = n := rfl
theorem num_released (cur : Nat) (next stop last : Option Nat) (n : Nat) (ret : UInt32) : Rd.num (.released cur next stop last n ret) = n := rfl

variable {N : Nat} {solo ow od : Prop} {W : List α} {s : Sys α} {mn wq : List (Node α)} {ch : Nat → List (Node α)}

/-- In the beginning. -/
theorem good_init : Good N solo ow od [] (Sys.init : Sys α) [] [] (fun _ => []) where
  inv := {
    mainSeg := rfl
    mainLast := rfl
    wqSeg := rfl
    wqLast := fun e => absurd rfl e
    nodup := fun o => by cases o <;> exact List.nodup_nil
    disj := fun o o' a ha => by cases o <;> cases ha
    live := fun a ha => absurd rfl ha
    bound := fun o a ha => by cases o <;> cases ha
    rdOk := fun _ => rfl
    idle := fun _ _ => rfl
    alone := fun _ _ _ => rfl
    count := by
      rw [tot_zero (f := fun r => load ((Sys.init : Sys α).rd r) ([] : List (Node α))) (fun r _ => rfl)]; rfl
    wcount := rfl
    mainData := fun x hx => by cases hx
    wqData := fun x hx => by cases hx }
  bal := fun p => by rw [tot_zero (f := fun r => cnt p (pend ((Sys.init : Sys α).rd r) [])) (fun r _ => rfl)]; rfl
  fre := fun p => by rw [tot_zero (f := fun r => cnt p (freeing ((Sys.init : Sys α).rd r) [])) (fun r _ => rfl)]; rfl
  cd := fun r h => by cases h
  num := by rw [tot_zero (f := fun r => ((Sys.init : Sys α).rd r).num) (fun r _ => rfl)]; exact Nat.zero_le _
  some := fun d hd => by cases hd
  ordW := fun _ _ => rfl
  ord := fun _ _ => rfl

/-- All that has been counted has been written. -/
theorem Good.total (h : Good N solo ow od W s mn wq ch) : s.b.count + s.b.wcount ≤ W.length := by
  have h1 := h.bal (fun _ => true)
  have h2 := h.num
  have h3 := h.inv.count
  have h4 := h.inv.wcount
  have e : ∀ l : List (Node α), cnt (fun _ => true) l = l.length := fun l => by simp [cnt]
  simp only [e, List.countP_true, List.length_map] at h1
  have h5 := tot_add (fun r => (s.rd r).num) (fun r => (pend (s.rd r) (ch r)).length) N
  have h6 : (tot N fun r => load (s.rd r) (ch r)) = tot N fun r => (s.rd r).num + (pend (s.rd r) (ch r)).length := rfl
  omega

/-- Steps of a reader which change what it has. -/
theorem tot_cnt {r : Nat} (hr : r < N) (f : Rd → List (Node α) → List (Node α)) (p : Option α → Bool) (x : Rd) (c : List (Node α)) :
    (tot N fun q => cnt p (f ((s.setRd r x).rd q) (upd ch r c q))) + cnt p (f (s.rd r) (ch r)) =
      (tot N fun q => cnt p (f (s.rd q) (ch q))) + cnt p (f x c) :=
  tot_setRd hr (fun x c => cnt p (f x c)) x c

theorem tot_num {r : Nat} (hr : r < N) (x : Rd) :
    (tot N fun q => ((s.setRd r x).rd q).num) + (s.rd r).num = (tot N fun q => (s.rd q).num) + x.num :=
  tot_setRd (ch := fun _ => ([] : List (Node α))) hr (fun x _ => x.num) x []

theorem setRd_ne (s : Sys α) {r q : Nat} (x : Rd) (h : q ≠ r) : (s.setRd r x).rd q = s.rd q := if_neg h
theorem setRd_self (s : Sys α) (r : Nat) (x : Rd) : (s.setRd r x).rd r = x := if_pos rfl

theorem cd_upd (h : ∀ q, isCalled (s.rd q) → ∀ y ∈ ch q, y.data.isSome) (r : Nat) (x : Rd) (c : List (Node α))
    (hx : isCalled x → ∀ y ∈ c, y.data.isSome) : ∀ q, isCalled ((s.setRd r x).rd q) → ∀ y ∈ upd ch r c q, y.data.isSome := by
  intro q hq y hy
  by_cases e : q = r
  · rw [e, setRd_self] at hq
    rw [e, upd_self] at hy
    exact hx hq y hy
  · rw [setRd_ne _ _ e] at hq
    rw [upd_ne _ _ e] at hy
    exact h q hq y hy

/-- The conditions on a step. -/
structure StepOk (N : Nat) (solo ow od : Prop) (s : Sys α) (a : Act α) : Prop where
  legal : LegalAct a
  alone : solo → SoloAct a
  quiet : solo ∨ QuietAct s a
  bound : ∀ r, a = .take r → r < N
  onlyW : ow → ∀ d, a ≠ .delayed d
  onlyD : od → ∀ d, a ≠ .write d

/-- One step. -/
theorem good_step (h : Good N solo ow od W s mn wq ch) {a : Act α} (ha : StepOk N solo ow od s a) :
    (s.step a = .full ∧ LIMIT ≤ (W ++ writes [a]).length) ∨
    ∃ s' mn' wq' ch', s.step a = .ok s' ∧ Good N solo ow od (W ++ writes [a]) s' mn' wq' ch' := by
  have htotal := h.total
  cases a with
  | write d =>
    rcases inv_write h.inv d with ⟨h1, h2⟩ | ⟨b', h1, h2, h3⟩
    · left
      refine ⟨by simp only [Sys.step, h1, Res.bind], ?_⟩
      simp only [writes, List.length_append, List.length_cons, List.length_nil]
      omega
    · right
      refine ⟨_, _, _, _, by simp only [Sys.step, h1, Res.bind], h2, ?_, ?_, h.cd, h.num, h.some, h.ordW, ?_⟩
      · intro p
        have := h.bal p
        rw [List.map_append, List.countP_append, cnt_append]
        have e : ((writes [Act.write d]).map some).countP p = cnt p [(⟨s.b.m.brk, some d, 0⟩ : Node α)] := rfl
        show _ = (given s.log).countP p + _ + _ + tot N fun r => cnt p (pend (s.rd r) (ch r))
        omega
      · intro p; show _ = (freed b'.m.log).countP p + _; rw [h3]; exact h.fre p
      · intro hs ho
        rcases ho with ho | ho
        · have := h.ord hs (Or.inl ho)
          have hq := h.ordW hs ho
          subst hq
          rw [List.map_append, this]
          simp [writes]
        · exact absurd rfl (ha.onlyD ho d)
  | delayed d =>
    rcases inv_delayed h.inv d with ⟨h1, h2⟩ | ⟨b', h1, h2, h3⟩
    · left
      refine ⟨by simp only [Sys.step, h1, Res.bind], ?_⟩
      simp only [writes, List.length_append, List.length_cons, List.length_nil]
      omega
    · right
      refine ⟨_, _, _, _, by simp only [Sys.step, h1, Res.bind], h2, ?_, ?_, h.cd, h.num, h.some, ?_, ?_⟩
      · intro p
        have := h.bal p
        rw [List.map_append, List.countP_append, cnt_append]
        have e : ((writes [Act.delayed d]).map some).countP p = cnt p [(⟨s.b.m.brk, some d, 0⟩ : Node α)] := rfl
        show _ = (given s.log).countP p + _ + _ + tot N fun r => cnt p (pend (s.rd r) (ch r))
        omega
      · intro p; show _ = (freed b'.m.log).countP p + _; rw [h3]; exact h.fre p
      · intro _ ho; exact absurd rfl (ha.onlyW ho d)
      · intro hs ho
        rcases ho with ho | ho
        · exact absurd rfl (ha.onlyW ho d)
        · have := h.ord hs (Or.inr ho)
          rw [List.map_append, this]
          simp [writes]
  | take r =>
    have hw : writes [Act.take r] = ([] : List α) := rfl
    rw [hw, List.append_nil]
    cases hrd : s.rd r with
    | idle =>
      have hr := ha.bound r rfl
      rcases inv_take h.inv hr hrd (fun hs => ha.alone hs) with ⟨h1, h2⟩ | ⟨b', cur, stop, last, h1, h2, h3⟩
      · left
        refine ⟨by simp only [Sys.step, hrd, h1, Res.bind], by omega⟩
      · right
        refine ⟨_, _, _, _, by simp only [Sys.step, hrd, h1, Res.bind], h2, ?_, ?_, cd_upd h.cd r _ _ (fun e => (by cases e)), ?_, h.some, fun _ _ => rfl, ?_⟩
        · intro p
          have hb := h.bal p
          have ht := tot_cnt (s := s) (ch := ch) hr pend p (.loop cur stop last 0) ((mn ++ wq).take MAX_READS)
          rw [hrd] at ht
          simp only [pend_idle, pend_ending, pend_loop, pend_called, pend_released, cnt_nil] at ht
          have := cnt_take_drop p MAX_READS (mn ++ wq)
          rw [cnt_append] at this
          show _ = (given s.log).countP p + _ + _ + tot N fun q => cnt p (pend ((s.setRd r (.loop cur stop last 0)).rd q) (upd ch r ((mn ++ wq).take MAX_READS) q))
          rw [cnt_nil]
          omega
        · intro p
          have ht := tot_cnt (s := s) (ch := ch) hr freeing p (.loop cur stop last 0) ((mn ++ wq).take MAX_READS)
          rw [hrd] at ht
          simp only [freeing_idle, freeing_ending, freeing_loop, freeing_called, freeing_released, cnt_nil] at ht
          have := h.fre p
          show (toFree s.log).countP p = (freed b'.m.log).countP p + tot N fun q => cnt p (freeing ((s.setRd r (.loop cur stop last 0)).rd q) (upd ch r ((mn ++ wq).take MAX_READS) q))
          rw [h3]
          omega
        · have := tot_num (s := s) hr (.loop cur stop last 0)
          rw [hrd] at this
          have hn := h.num
          show (tot N fun q => ((s.setRd r (.loop cur stop last 0)).rd q).num) ≤ (given s.log).length
          simp only [num_idle, num_ending, num_loop, num_called, num_released] at this
          omega
        · intro hs ho
          have hr0 : r = 0 := ha.alone hs
          subst hr0
          have := h.ord hs ho
          rw [hrd] at this
          rw [this, setRd_self, upd_self]
          simp only [pend, List.map_nil, List.nil_append, List.append_nil]
          show _ = given s.log ++ _
          rw [← List.map_append, ← List.map_append, List.take_append_drop]
    | _ => right; exact ⟨s, mn, wq, ch, by simp only [Sys.step, hrd], h⟩
  | next r ret =>
    right
    have hw : writes [Act.next r ret] = ([] : List α) := rfl
    rw [hw, List.append_nil]
    cases hrd : s.rd r with
    | loop cur stop last n =>
      have hact : s.rd r ≠ .idle := by rw [hrd]; intro e; cases e
      have hr : r < N := Nat.lt_of_not_le fun e => hact (h.inv.idle r e)
      have hr0 : solo → r = 0 := fun hs => by
        by_cases e : r = 0
        · exact e
        · exact absurd (h.inv.alone hs r e) hact
      have hq : n + 1 = MAX_READS → stopping ret = true → solo := by
        intro e1 e2
        rcases ha.quiet with hs | hq
        · exact hs
        · have := hq cur stop last (by rw [hrd, show n = MAX_READS - 1 by omega])
          rw [this] at e2
          cases e2
      rcases inv_next h.inv hrd (ret := ret) ha.legal hq with ⟨hc, h1, h2⟩ | ⟨x, rest, nx, hc, hd, h1, h2⟩
      · refine ⟨_, _, _, _, h1, h2, ?_, ?_, cd_upd h.cd r _ _ (fun e => (by cases e)), ?_, h.some, h.ordW, ?_⟩
        · intro p
          have hb := h.bal p
          have ht := tot_cnt (s := s) (ch := ch) hr pend p (.ending n 0) []
          rw [hrd, hc] at ht
          simp only [pend_idle, pend_ending, pend_loop, pend_called, pend_released, cnt_nil] at ht
          show _ = (given s.log).countP p + _ + _ + _
          omega
        · intro p
          have ht := tot_cnt (s := s) (ch := ch) hr freeing p (.ending n 0) []
          rw [hrd, hc] at ht
          simp only [freeing_idle, freeing_ending, freeing_loop, freeing_called, freeing_released, cnt_nil] at ht
          have := h.fre p
          show (toFree s.log).countP p = (freed s.b.m.log).countP p + _
          omega
        · have := tot_num (s := s) hr (.ending n 0)
          rw [hrd] at this
          simp only [num_idle, num_ending, num_loop, num_called, num_released] at this
          have hn := h.num
          show _ ≤ (given s.log).length
          omega
        · intro hs ho
          have e := hr0 hs
          subst e
          have := h.ord hs ho
          rw [hrd, hc] at this
          rw [this, setRd_self, upd_self]
          rfl
      · refine ⟨_, _, _, _, h1, h2, ?_, ?_, cd_upd h.cd r _ _ (fun _ => ?_), ?_, ?_, h.ordW, ?_⟩
        · intro p
          have hb := h.bal p
          have ht := tot_cnt (s := s) (ch := ch) hr pend p (.called x.addr nx stop last (n + 1) ret) (x :: rest)
          rw [hrd, hc] at ht
          simp only [pend_idle, pend_ending, pend_loop, pend_called, pend_released, cnt_nil] at ht
          rw [cnt_cons] at ht
          show _ = (given (s.log ++ [Event.given r x.data (n + 1) ret])).countP p + _ + _ +
            tot N fun q => cnt p (pend ((s.setRd r (.called x.addr nx stop last (n + 1) ret)).rd q) (upd ch r (x :: rest) q))
          rw [given_append, List.countP_append]
          have e : (given [Event.given r x.data (n + 1) ret]).countP p = cnt p [x] := rfl
          omega
        · intro p
          have ht := tot_cnt (s := s) (ch := ch) hr freeing p (.called x.addr nx stop last (n + 1) ret) (x :: rest)
          rw [hrd, hc] at ht
          simp only [freeing_idle, freeing_ending, freeing_loop, freeing_called, freeing_released, cnt_nil] at ht
          have := h.fre p
          show (toFree (s.log ++ [Event.given r x.data (n + 1) ret])).countP p = (freed s.b.m.log).countP p +
            tot N fun q => cnt p (freeing ((s.setRd r (.called x.addr nx stop last (n + 1) ret)).rd q) (upd ch r (x :: rest) q))
          rw [toFree_append, List.countP_append]
          have e : (toFree [Event.given r x.data (n + 1) ret]).countP p = cnt p (if has ret FREE then [x] else []) := by
            simp only [toFree]
            split <;> rfl
          omega
        · have hok := h.inv.rdOk r
          rw [hrd, hc] at hok
          exact hok.2.2.2.2
        · have := tot_num (s := s) hr (.called x.addr nx stop last (n + 1) ret)
          rw [hrd] at this
          simp only [num_idle, num_ending, num_loop, num_called, num_released] at this
          have hn := h.num
          show _ ≤ (given (s.log ++ [Event.given r x.data (n + 1) ret])).length
          rw [given_append, List.length_append]
          show (tot N fun q => ((s.setRd r (.called x.addr nx stop last (n + 1) ret)).rd q).num) ≤ (given s.log).length + 1
          omega
        · intro d hd'
          change d ∈ given (s.log ++ [Event.given r x.data (n + 1) ret]) at hd'
          rw [given_append, List.mem_append] at hd'
          rcases hd' with hd' | hd'
          · exact h.some d hd'
          · simp only [given, List.mem_singleton] at hd'
            rw [hd']; exact hd
        · intro hs ho
          have e := hr0 hs
          subst e
          have := h.ord hs ho
          rw [hrd, hc] at this
          rw [this, setRd_self, upd_self]
          show _ = given (s.log ++ [Event.given 0 x.data (n + 1) ret]) ++ _
          rw [given_append]
          simp [pend, given]
    | _ => exact ⟨s, mn, wq, ch, by simp only [Sys.step, hrd], h⟩
  | release r =>
    right
    have hw : writes [Act.release r] = ([] : List α) := rfl
    rw [hw, List.append_nil]
    cases hrd : s.rd r with
    | called cur next stop last n ret =>
      have hact : s.rd r ≠ .idle := by rw [hrd]; intro e; cases e
      have hr : r < N := Nat.lt_of_not_le fun e => hact (h.inv.idle r e)
      have hr0 : solo → r = 0 := fun hs => by
        by_cases e : r = 0
        · exact e
        · exact absurd (h.inv.alone hs r e) hact
      obtain ⟨x, rest, d', b', ret', hc, h1, h2, h3⟩ := inv_release h.inv hrd
      refine ⟨_, _, _, _, h1, h2, ?_, ?_, cd_upd h.cd r _ _ (fun e => (by cases e)), ?_, h.some, h.ordW, ?_⟩
      · intro p
        have hb := h.bal p
        have ht := tot_cnt (s := s) (ch := ch) hr pend p (.released cur next stop last n ret') (⟨x.addr, d', x.order⟩ :: rest)
        rw [hrd, hc] at ht
        simp only [pend_idle, pend_ending, pend_loop, pend_called, pend_released, cnt_nil] at ht
        show _ = (given s.log).countP p + _ + _ +
          tot N fun q => cnt p (pend ((s.setRd r (.released cur next stop last n ret')).rd q) (upd ch r (⟨x.addr, d', x.order⟩ :: rest) q))
        omega
      · intro p
        have ht := tot_cnt (s := s) (ch := ch) hr freeing p (.released cur next stop last n ret') (⟨x.addr, d', x.order⟩ :: rest)
        rw [hrd, hc] at ht
        simp only [freeing_idle, freeing_ending, freeing_loop, freeing_called, freeing_released, cnt_nil] at ht
        have := h.fre p
        show (toFree s.log).countP p = (freed b'.m.log).countP p +
          tot N fun q => cnt p (freeing ((s.setRd r (.released cur next stop last n ret')).rd q) (upd ch r (⟨x.addr, d', x.order⟩ :: rest) q))
        rw [h3, freed_append, List.countP_append]
        have hxd : x.data.isSome := h.cd r (by rw [hrd]; trivial) x (by rw [hc]; exact List.mem_cons_self)
        have e : (freed (releases ret x.data)).countP p = cnt p (if has ret FREE then [x] else []) := by
          cases hd : x.data with
          | none => rw [hd] at hxd; cases hxd
          | some d =>
            simp only [releases]
            split
            · simp [freed, cnt, hd]
            · rfl
        omega
      · have := tot_num (s := s) hr (.released cur next stop last n ret')
        rw [hrd] at this
        simp only [num_idle, num_ending, num_loop, num_called, num_released] at this
        have hn := h.num
        show (tot N fun q => ((s.setRd r (.released cur next stop last n ret')).rd q).num) ≤ (given s.log).length
        omega
      · intro hs ho
        have e := hr0 hs
        subst e
        have := h.ord hs ho
        rw [hrd, hc] at this
        rw [this, setRd_self, upd_self]
        rfl
    | _ => exact ⟨s, mn, wq, ch, by simp only [Sys.step, hrd], h⟩
  | finish r =>
    right
    have hw : writes [Act.finish r] = ([] : List α) := rfl
    rw [hw, List.append_nil]
    cases hrd : s.rd r with
    | released cur next stop last n ret =>
      have hact : s.rd r ≠ .idle := by rw [hrd]; intro e; cases e
      have hr : r < N := Nat.lt_of_not_le fun e => hact (h.inv.idle r e)
      have hr0 : solo → r = 0 := fun hs => by
        by_cases e : r = 0
        · exact e
        · exact absurd (h.inv.alone hs r e) hact
      cases hst : stopping ret with
      | false =>
        obtain ⟨b', x, rest, hc, h1, h2, h3⟩ := inv_finish_go h.inv hrd hst
        refine ⟨_, _, _, _, h1, h2, ?_, ?_, cd_upd h.cd r _ _ (fun e => (by cases e)), ?_, h.some, h.ordW, ?_⟩
        · intro p
          have hb := h.bal p
          have ht := tot_cnt (s := s) (ch := ch) hr pend p (.loop next stop last n) rest
          rw [hrd, hc] at ht
          simp only [pend_idle, pend_ending, pend_loop, pend_called, pend_released, cnt_nil] at ht
          show _ = (given s.log).countP p + _ + _ + tot N fun q => cnt p (pend ((s.setRd r (.loop next stop last n)).rd q) (upd ch r rest q))
          omega
        · intro p
          have ht := tot_cnt (s := s) (ch := ch) hr freeing p (.loop next stop last n) rest
          rw [hrd, hc] at ht
          simp only [freeing_idle, freeing_ending, freeing_loop, freeing_called, freeing_released, cnt_nil] at ht
          have := h.fre p
          show (toFree s.log).countP p = (freed b'.m.log).countP p +
            tot N fun q => cnt p (freeing ((s.setRd r (.loop next stop last n)).rd q) (upd ch r rest q))
          rw [h3]
          omega
        · have := tot_num (s := s) hr (.loop next stop last n)
          rw [hrd] at this
          simp only [num_idle, num_ending, num_loop, num_called, num_released] at this
          have hn := h.num
          show (tot N fun q => ((s.setRd r (.loop next stop last n)).rd q).num) ≤ (given s.log).length
          omega
        · intro hs ho
          have e := hr0 hs
          subst e
          have := h.ord hs ho
          rw [hrd, hc] at this
          rw [this, setRd_self, upd_self]
          rfl
      | true =>
        obtain ⟨b', x, rest, hc, h1, h2, h3⟩ := inv_finish_stop h.inv hrd hst
        refine ⟨_, _, _, _, h1, h2, ?_, ?_, cd_upd h.cd r _ _ (fun e => (by cases e)), ?_, h.some, h.ordW, ?_⟩
        · intro p
          have hb := h.bal p
          have ht := tot_cnt (s := s) (ch := ch) hr pend p (.ending n (ret &&& ~~~STOP)) []
          rw [hrd, hc] at ht
          simp only [pend_idle, pend_ending, pend_loop, pend_called, pend_released, cnt_nil] at ht
          show _ = (given s.log).countP p + _ + _ + tot N fun q => cnt p (pend ((s.setRd r (.ending n (ret &&& ~~~STOP))).rd q) (upd ch r [] q))
          rw [cnt_append]
          omega
        · intro p
          have ht := tot_cnt (s := s) (ch := ch) hr freeing p (.ending n (ret &&& ~~~STOP)) []
          rw [hrd, hc] at ht
          simp only [freeing_idle, freeing_ending, freeing_loop, freeing_called, freeing_released, cnt_nil] at ht
          have := h.fre p
          show (toFree s.log).countP p = (freed b'.m.log).countP p +
            tot N fun q => cnt p (freeing ((s.setRd r (.ending n (ret &&& ~~~STOP))).rd q) (upd ch r [] q))
          rw [h3]
          omega
        · have := tot_num (s := s) hr (.ending n (ret &&& ~~~STOP))
          rw [hrd] at this
          simp only [num_idle, num_ending, num_loop, num_called, num_released] at this
          have hn := h.num
          show (tot N fun q => ((s.setRd r (.ending n (ret &&& ~~~STOP))).rd q).num) ≤ (given s.log).length
          omega
        · intro hs ho
          have e := hr0 hs
          subst e
          have := h.ord hs ho
          rw [hrd, hc] at this
          rw [this, setRd_self, upd_self]
          simp [pend, Sys.setRd]
    | _ => exact ⟨s, mn, wq, ch, by simp only [Sys.step, hrd], h⟩
  | done r =>
    right
    have hw : writes [Act.done r] = ([] : List α) := rfl
    rw [hw, List.append_nil]
    cases hrd : s.rd r with
    | ending n ret =>
      have hact : s.rd r ≠ .idle := by rw [hrd]; intro e; cases e
      have hr : r < N := Nat.lt_of_not_le fun e => hact (h.inv.idle r e)
      have hr0 : solo → r = 0 := fun hs => by
        by_cases e : r = 0
        · exact e
        · exact absurd (h.inv.alone hs r e) hact
      obtain ⟨b', h1, h2, h3⟩ := inv_done h.inv hrd
      have hg : given (s.log ++ [Event.returned r ret]) = given s.log := by rw [given_append]; simp [given]
      have hf : toFree (s.log ++ [Event.returned r ret]) = toFree s.log := by rw [toFree_append]; simp [toFree]
      refine ⟨_, _, _, _, h1, h2, ?_, ?_, cd_upd h.cd r _ _ (fun e => (by cases e)), ?_, ?_, h.ordW, ?_⟩
      · intro p
        have hb := h.bal p
        have ht := tot_cnt (s := s) (ch := ch) hr pend p .idle []
        rw [hrd] at ht
        simp only [pend_idle, pend_ending, pend_loop, pend_called, pend_released, cnt_nil] at ht
        show _ = (given (s.log ++ [Event.returned r ret])).countP p + _ + _ + tot N fun q => cnt p (pend ((s.setRd r .idle).rd q) (upd ch r [] q))
        rw [hg]
        omega
      · intro p
        have ht := tot_cnt (s := s) (ch := ch) hr freeing p .idle []
        rw [hrd] at ht
        simp only [freeing_idle, freeing_ending, freeing_loop, freeing_called, freeing_released, cnt_nil] at ht
        have := h.fre p
        show (toFree (s.log ++ [Event.returned r ret])).countP p = (freed b'.m.log).countP p +
          tot N fun q => cnt p (freeing ((s.setRd r .idle).rd q) (upd ch r [] q))
        rw [h3, hf]
        omega
      · have := tot_num (s := s) hr .idle
        rw [hrd] at this
        simp only [num_idle, num_ending, num_loop, num_called, num_released] at this
        have hn := h.num
        show (tot N fun q => ((s.setRd r .idle).rd q).num) ≤ (given (s.log ++ [Event.returned r ret])).length
        rw [hg]
        omega
      · intro d hd; exact h.some d (by rw [← hg]; exact hd)
      · intro hs ho
        have e := hr0 hs
        subst e
        have := h.ord hs ho
        rw [hrd] at this
        rw [this, setRd_self, upd_self]
        show _ = given (s.log ++ [Event.returned 0 ret]) ++ _
        rw [hg]
        rfl
    | _ => exact ⟨s, mn, wq, ch, by simp only [Sys.step, hrd], h⟩

/-- One more than the largest number of a reader. -/
def readers : List (Act α) → Nat
  | [] => 1
  | .take r :: as => max (r + 1) (readers as)
  | _ :: as => readers as

theorem readers_bound {r : Nat} : ∀ {as : List (Act α)}, .take r ∈ as → r < readers as
  | a :: as, h => by
    rcases List.mem_cons.1 h with e | e
    · subst e; simp only [readers]; omega
    · have := readers_bound e
      cases a <;> simp only [readers] <;> omega

theorem readers_pos : ∀ (as : List (Act α)), 0 < readers as
  | [] => Nat.one_pos
  | a :: as => by
    have := readers_pos as
    cases a <;> simp only [readers] <;> omega

/-- Any number of steps. -/
theorem good_run : ∀ {as : List (Act α)} {s : Sys α} {W : List α} {mn wq : List (Node α)} {ch : Nat → List (Node α)},
    Good N solo ow od W s mn wq ch → (∀ a ∈ as, LegalAct a) → (solo → ∀ a ∈ as, SoloAct a) → (solo ∨ Quiet s as) →
    (∀ r, .take r ∈ as → r < N) → (ow → ∀ d, .delayed d ∉ as) → (od → ∀ d, .write d ∉ as) →
    (s.run as = .full ∧ LIMIT ≤ (W ++ writes as).length) ∨
    ∃ s' mn' wq' ch', s.run as = .ok s' ∧ Good N solo ow od (W ++ writes as) s' mn' wq' ch'
  | [], s, W, mn, wq, ch, h, _, _, _, _, _, _ => by
    right
    refine ⟨s, mn, wq, ch, rfl, ?_⟩
    simpa only [writes, List.append_nil] using h
  | a :: as, s, W, mn, wq, ch, h, h1, h2, h3, h4, h5, h6 => by
    have hok : StepOk N solo ow od s a := {
      legal := h1 a List.mem_cons_self
      alone := fun hs => h2 hs a List.mem_cons_self
      quiet := h3.imp id (fun q => q.1)
      bound := fun r e => h4 r (by rw [e]; exact List.mem_cons_self)
      onlyW := fun hw d e => h5 hw d (by rw [e]; exact List.mem_cons_self)
      onlyD := fun hw d e => h6 hw d (by rw [e]; exact List.mem_cons_self) }
    have hww : W ++ writes (a :: as) = (W ++ writes [a]) ++ writes as := by
      rw [List.append_assoc, ← writes_append]; rfl
    rcases good_step h hok with ⟨e, hl⟩ | ⟨s1, mn1, wq1, ch1, e, hg⟩
    · left
      refine ⟨by simp only [Sys.run, e, Res.bind], ?_⟩
      rw [hww, List.length_append]
      omega
    · have := good_run hg (fun a ha => h1 a (List.mem_cons_of_mem _ ha)) (fun hs a ha => h2 hs a (List.mem_cons_of_mem _ ha))
        (h3.imp id (fun q => q.2 s1 e)) (fun r hr => h4 r (List.mem_cons_of_mem _ hr))
        (fun hw d hd => h5 hw d (List.mem_cons_of_mem _ hd)) (fun hw d hd => h6 hw d (List.mem_cons_of_mem _ hd))
      rw [← hww] at this
      simp only [Sys.run, e, Res.bind]
      exact this

theorem chain_seg {cell : Nat → Option (Entry α)} : ∀ {l : List (Node α)} {p : Option Nat} {k : Nat}, Seg cell p l none → l.length ≤ k →
    chain cell k p = l.map Node.data
  | [], p, k, h, _ => by
    simp only [Seg] at h
    subst h
    cases k <;> rfl
  | x :: l, p, 0, _, hk => by simp at hk
  | x :: l, p, k + 1, ⟨hp, nx, hc, hs⟩, hk => by
    subst hp
    simp only [chain, hc, List.map_cons]
    rw [chain_seg hs (by simpa using hk)]

theorem Good.idle_ch (h : Good N solo ow od W s mn wq ch) {r : Nat} (hi : s.rd r = .idle) : ch r = [] := by
  have := h.inv.rdOk r
  rw [hi] at this
  exact this

theorem Good.idle_counts (h : Good N solo ow od W s mn wq ch) (hi : AllIdle s) : s.b.count = mn.length := by
  have := h.inv.count
  rw [tot_zero (fun r _ => by rw [hi r, load_idle])] at this
  simpa using this

theorem length_le_of_bound : ∀ {n : Nat} {l : List Nat}, l.Nodup → (∀ a ∈ l, a < n) → l.length ≤ n
  | 0, [], _, _ => Nat.le_refl _
  | 0, a :: l, _, h => absurd (h a List.mem_cons_self) (by omega)
  | n + 1, l, hn, h => by
    by_cases e : n ∈ l
    · have := length_le_of_bound (n := n) (l := l.erase n) (hn.erase n) (fun a ha => by
        have h1 := h a (List.mem_of_mem_erase ha)
        have h2 : a ≠ n := fun e => (hn.mem_erase_iff.1 ha).1 e
        omega)
      rw [List.length_erase_of_mem e] at this
      omega
    · have := length_le_of_bound (n := n) hn (fun a ha => by
        have h1 := h a ha
        have h2 : a ≠ n := fun e' => e (e' ▸ ha)
        omega)
      omega

/-- The loop which frees all entries. -/
theorem clearLoop_seg : ∀ {l : List (Node α)} {m : Mem α} {p : Option Nat} {k : Nat}, Seg m.cell p l none → (addrs l).Nodup → l.length ≤ k →
    (∀ x ∈ l, x.data.isSome) →
    ∃ m', clearLoop k m p = .ok m' ∧ (∀ a, m'.cell a = if a ∈ addrs l then none else m.cell a) ∧
      freed m'.log = freed m.log ++ l.map Node.data
  | [], m, p, k, h, _, _, _ => by
    simp only [Seg] at h
    subst h
    exact ⟨m, by cases k <;> rfl, fun a => by simp [addrs], by simp⟩
  | x :: l, m, p, 0, _, _, hk, _ => by simp at hk
  | x :: l, m, p, k + 1, ⟨hp, nx, hc, hs⟩, hn, hk, hd => by
    subst hp
    obtain ⟨hx, hn'⟩ := List.nodup_cons.1 hn
    have hxd := hd x List.mem_cons_self
    cases hdx : x.data with
    | none => rw [hdx] at hxd; cases hxd
    | some d =>
      have hcell : ∀ a, ((m.decref (some d)).set x.addr none).cell a = if a = x.addr then none else m.cell a := fun a => by
        rw [set_cell]; rfl
      have hs' : Seg ((m.decref (some d)).set x.addr none).cell nx l none := seg_frame (fun y hy => by
        rw [hcell, if_neg]
        intro e
        exact hx (e ▸ hy)) hs
      obtain ⟨m', h1, h2, h3⟩ := clearLoop_seg (k := k) hs' hn' (by simpa using hk) (fun y hy => hd y (List.mem_cons_of_mem _ hy))
      refine ⟨m', ?_, ?_, ?_⟩
      · simp only [clearLoop, hc, destroy, Res.bind, hdx]
        exact h1
      · intro a
        rw [h2, hcell]
        by_cases e1 : a ∈ addrs l
        · rw [if_pos e1, if_pos (by exact List.mem_cons_of_mem _ e1)]
        · rw [if_neg e1]
          by_cases e2 : a = x.addr
          · rw [if_pos e2, if_pos (by rw [e2]; exact List.mem_cons_self)]
          · rw [if_neg e2, if_neg (by
              intro hm
              rcases List.mem_cons.1 hm with hm | hm
              · exact e2 hm
              · exact e1 hm)]
      · rw [h3]
        simp [freed, Mem.decref, Mem.set, hdx]

/-- When all readers have returned the buffer can be destroyed. -/
theorem good_clear (h : Good N solo ow od W s mn wq ch) (hi : AllIdle s) :
    (clear s.b = .full ∧ LIMIT ≤ s.b.count + s.b.wcount) ∨
    ∃ b', clear s.b = .ok b' ∧ Empty b'.m ∧ b'.first = none ∧ b'.count = 0 ∧
      freed b'.m.log = freed s.b.m.log ++ (mn.map Node.data ++ wq.map Node.data) := by
  rcases inv_merge h.inv with ⟨h1, h2⟩ | ⟨b1, h1, h2, h3, h4⟩
  · left
    exact ⟨by simp only [clear, h1, Res.bind], h2⟩
  · right
    have hn : (addrs (mn ++ wq)).Nodup := h2.nodup .main
    have hb : ∀ a ∈ addrs (mn ++ wq), a < b1.m.brk := h2.bound .main
    have hlen := length_le_of_bound hn hb
    have hlen' : (mn ++ wq).length ≤ b1.m.brk := by simpa [addrs] using hlen
    obtain ⟨m', g1, g2, g3⟩ := clearLoop_seg (k := b1.m.brk) h2.mainSeg hn hlen' h2.mainData
    refine ⟨{ b1 with m := m', first := none, last := none, count := 0 }, ?_, ?_, rfl, rfl, ?_⟩
    · simp only [clear, h1, Res.bind, g1]
    · intro a
      show m'.cell a = none
      rw [g2]
      split
      · rfl
      · rename_i hna
        cases hca : b1.m.cell a with
        | none => rfl
        | some e =>
          obtain ⟨o, ho⟩ := h2.live a (by show b1.m.cell a ≠ none; rw [hca]; intro e; cases e)
          cases o with
          | main => exact absurd ho hna
          | wq => cases ho
          | rd r =>
            simp only [part] at ho
            rw [h.idle_ch (hi r)] at ho
            cases ho
    · show freed m'.log = _
      rw [g3, h3, List.map_append]

end Verif.Pfifo
