import Verif.Hub.Spec
/-!
# The duplicated output: invariant
-/
namespace Verif.Hub
open Verif Pfifo

variable {α : Type}

theorem run_append (s : Sys α) (as bs : List (Act α)) : s.run (as ++ bs) = (s.run as).bind fun s => s.run bs := by
  induction as generalizing s with
  | nil => rfl
  | cons a as ih =>
    simp only [List.cons_append, Sys.run]
    cases s.step a with
    | ok s' => exact ih s'
    | fault => rfl
    | bug => rfl
    | full => rfl

theorem run_snoc {s s1 s2 : Sys α} {as : List (Act α)} {a : Act α} (h1 : s.run as = .ok s1) (h2 : s1.step a = .ok s2) :
    s.run (as ++ [a]) = .ok s2 := by
  rw [run_append, h1]
  simp only [Res.bind, Sys.run, h2]

/-- A queue with one reader which was used in the way of these steps. -/
structure Q (delayed : Bool) (as : List (Act α)) (s : Sys α) : Prop where
  run : Sys.init.run as = .ok s
  legal : ∀ a ∈ as, LegalAct a
  solo : ∀ a ∈ as, SoloAct a
  kindW : delayed = false → ∀ d, .delayed d ∉ as
  kindD : delayed = true → ∀ d, .write d ∉ as

theorem Q.good {b : Bool} {as : List (Act α)} {s : Sys α} (h : Q b as s) :
    ∃ mn wq ch, Good 1 True (b = false) (b = true) (writes as) s mn wq ch := by
  have h0 := good_run (N := 1) (solo := True) (ow := b = false) (od := b = true) (good_init (α := α)) h.legal (fun _ => h.solo) (Or.inl trivial)
    (fun r hr => by have : r = 0 := h.solo _ hr; omega) h.kindW h.kindD
  rcases h0 with ⟨e, _⟩ | ⟨s', mn, wq, ch, e, g⟩
  · rw [h.run] at e; cases e
  · rw [h.run] at e
    obtain rfl := Res.ok.inj e
    exact ⟨mn, wq, ch, by simpa using g⟩

/-- A step on such a queue. -/
theorem Q.step {b : Bool} {as : List (Act α)} {s : Sys α} (h : Q b as s) {a : Act α} (hl : LegalAct a) (hs : SoloAct a)
    (hw : b = false → ∀ d, a ≠ .delayed d) (hd : b = true → ∀ d, a ≠ .write d) :
    (s.step a = .full ∧ LIMIT ≤ (writes as ++ writes [a]).length) ∨ ∃ s', s.step a = .ok s' ∧ Q b (as ++ [a]) s' := by
  obtain ⟨mn, wq, ch, g⟩ := h.good
  rcases good_step g (a := a) ⟨hl, fun _ => hs, Or.inl trivial, fun r e => by subst e; have : r = 0 := hs; omega, hw, hd⟩ with ⟨e, hl'⟩ | ⟨s', _, _, _, e, _⟩
  · exact Or.inl ⟨e, hl'⟩
  · right
    refine ⟨s', e, run_snoc h.run e, ?_, ?_, ?_, ?_⟩
    · intro x hx
      rcases List.mem_append.1 hx with hx | hx
      · exact h.legal x hx
      · rw [List.mem_singleton] at hx; rw [hx]; exact hl
    · intro x hx
      rcases List.mem_append.1 hx with hx | hx
      · exact h.solo x hx
      · rw [List.mem_singleton] at hx; rw [hx]; exact hs
    · intro e d hx
      rcases List.mem_append.1 hx with hx | hx
      · exact h.kindW e d hx
      · rw [List.mem_singleton] at hx; exact hw e d hx.symm
    · intro e d hx
      rcases List.mem_append.1 hx with hx | hx
      · exact h.kindD e d hx
      · rw [List.mem_singleton] at hx; exact hd e d hx.symm

theorem nextAct_solo (s : Sys α) (ret : UInt32) : SoloAct (nextAct s ret) := by
  unfold nextAct
  split <;> first | rfl | trivial

theorem nextAct_legal (s : Sys α) {ret : UInt32} (h : Legal ret) : LegalAct (nextAct s ret) := by
  unfold nextAct
  split <;> first | exact h | trivial

theorem nextAct_ne_write (s : Sys α) (ret : UInt32) (d : α) : nextAct s ret ≠ .write d ∧ nextAct s ret ≠ .delayed d := by
  unfold nextAct
  split <;> exact ⟨fun e => (by cases e), fun e => (by cases e)⟩

theorem nextAct_writes (s : Sys α) (ret : UInt32) : writes [nextAct s ret] = [] := by
  unfold nextAct
  split <;> rfl

/-- What a step of a reader adds to what was given. -/
theorem step_given {s s' : Sys α} {ret : UInt32} (h : s.step (nextAct s ret) = .ok s') :
    given s'.log = given s.log ++ (if inLoop s && inCallback s' then [lastGiven s'] else []) := by
  unfold nextAct at h
  cases hrd : s.rd 0 with
  | idle =>
    rw [hrd] at h
    simp only [Sys.step, hrd] at h
    cases ht : take s.b with
    | ok bx =>
      obtain ⟨b, x⟩ := bx
      rw [ht] at h
      simp only [Res.bind] at h
      obtain rfl := Res.ok.inj h
      simp [inLoop, hrd, Sys.setRd]
    | _ => rw [ht] at h; cases h
  | loop cur stop last n =>
    rw [hrd] at h
    simp only [Sys.step, hrd] at h
    split at h
    · obtain rfl := Res.ok.inj h
      simp [inLoop, inCallback, hrd, Sys.setRd]
    · split at h
      · cases h
      · split at h
        · cases h
        · obtain rfl := Res.ok.inj h
          simp [inLoop, inCallback, hrd, Sys.setRd, given_append, given, lastGiven]
  | called cur next stop last n ret' =>
    rw [hrd] at h
    simp only [Sys.step, hrd] at h
    cases ht : release s.b cur ret' with
    | ok bx =>
      obtain ⟨b, x⟩ := bx
      rw [ht] at h
      simp only [Res.bind] at h
      obtain rfl := Res.ok.inj h
      simp [inLoop, hrd, Sys.setRd]
    | _ => rw [ht] at h; cases h
  | released cur next stop last n ret' =>
    rw [hrd] at h
    simp only [Sys.step, hrd] at h
    cases ht : finish s.b cur next stop last n ret' with
    | ok bx =>
      obtain ⟨b, x⟩ := bx
      rw [ht] at h
      simp only [Res.bind] at h
      obtain rfl := Res.ok.inj h
      simp [inLoop, hrd, Sys.setRd]
    | _ => rw [ht] at h; cases h
  | ending n ret' =>
    rw [hrd] at h
    simp only [Sys.step, hrd] at h
    cases ht : done s.b n with
    | ok b =>
      rw [ht] at h
      simp only [Res.bind] at h
      obtain rfl := Res.ok.inj h
      simp [inLoop, hrd, Sys.setRd, given_append, given]
    | _ => rw [ht] at h; cases h

/-- The entry is counted. -/
theorem step_num {s s' : Sys α} {ret : UInt32} (h : s.step (nextAct s ret) = .ok s') (hc : (inLoop s && inCallback s') = true) :
    1 ≤ (s'.rd 0).num := by
  cases hrd : s.rd 0 with
  | loop cur stop last n =>
    unfold nextAct at h
    rw [hrd] at h
    simp only [Sys.step, hrd] at h
    split at h
    · obtain rfl := Res.ok.inj h
      simp [inLoop, inCallback, Sys.setRd] at hc
    · split at h
      · cases h
      · split at h
        · cases h
        · obtain rfl := Res.ok.inj h
          rw [setRd_self]
          simp [Rd.num]
  | _ => simp [inLoop, hrd] at hc

/-- Writing does not change what was given nor where the reader is. -/
theorem step_write {s s' : Sys α} {d : α} (h : s.step (.write d) = .ok s') : s'.log = s.log ∧ s'.rd = s.rd := by
  simp only [Sys.step] at h
  cases ht : write s.b d with
  | ok b => rw [ht] at h; obtain rfl := Res.ok.inj h; exact ⟨rfl, rfl⟩
  | _ => rw [ht] at h; cases h

theorem step_delayed {s s' : Sys α} {d : α} (h : s.step (.delayed d) = .ok s') : s'.log = s.log ∧ s'.rd = s.rd := by
  simp only [Sys.step] at h
  cases ht : writeDelayed s.b d with
  | ok b => rw [ht] at h; obtain rfl := Res.ok.inj h; exact ⟨rfl, rfl⟩
  | _ => rw [ht] at h; cases h

/-- The message which is being copied and which slot `i` does not have yet. -/
def notYet (h : Hub α) (i : Nat) : List (Option α) :=
  match h.lock with
  | none => []
  | some r =>
    match h.at_ r with
    | .copy _ d j => if j ≤ i then [d] else []
    | _ => []

/-- The slot with which a thread works. -/
def slot : At α → Option Nat
  | .idle => none
  | .found i => some i
  | .fill i => some i
  | .copy i _ _ => some i
  | .read i => some i

/-- What holds at any time; `am` and `aq i` are the steps which were made with the queues. -/
structure Ok (n : Nat) (W : List α) (h : Hub α) (am : List (Act α)) (aq : Nat → List (Act α)) : Prop where
  main : Q false am h.main
  sq : ∀ i, Q true (aq i) (h.sq i)
  wr : writes am = W
  cp : ∀ i, i < n → given h.main.log = (writes (aq i)).map some ++ notYet h i
  lock : ∀ r, onMain (h.at_ r) → h.lock = some r
  lock' : ∀ r, h.lock = some r → onMain (h.at_ r)
  own : ∀ r i, slot (h.at_ r) = some i → h.owner i = some r
  ownN : ∀ i r, h.owner i = some r → i < n ∧ r < n
  inj : ∀ i j r, h.owner i = some r → h.owner j = some r → i = j
  log : ∀ i r, h.owner i = some r → seen h.log r = given (h.sq i).log
  log0 : ∀ r, (∀ i, h.owner i ≠ some r) → seen h.log r = []
  free : ∀ i, h.owner i = none → given (h.sq i).log = []
  pre : ∀ i j, i ≤ j → h.owner i = none → h.owner j = none
  copy : ∀ r i d j, h.at_ r = .copy i d j → 1 ≤ (h.main.rd 0).num ∧ d.isSome

theorem ok_init (n : Nat) : Ok n ([] : List α) Hub.init [] (fun _ => []) where
  main := ⟨rfl, fun a h => (by cases h), fun a h => (by cases h), fun _ d h => (by cases h), fun _ d h => (by cases h)⟩
  sq := fun i => ⟨rfl, fun a h => (by cases h), fun a h => (by cases h), fun _ d h => (by cases h), fun _ d h => (by cases h)⟩
  wr := rfl
  cp := fun i _ => rfl
  lock := fun r h => h.elim
  lock' := fun r h => by cases h
  own := fun r i h => by cases h
  ownN := fun i r h => by cases h
  inj := fun i j r h => by cases h
  log := fun i r h => by cases h
  log0 := fun r h => rfl
  free := fun i h => rfl
  pre := fun i j _ h => rfl
  copy := fun r i d j h => by cases h

theorem goto_self (h : Hub α) (r : Nat) (x : At α) : (h.goto r x).at_ r = x := if_pos rfl
theorem goto_ne (h : Hub α) {r q : Nat} (x : At α) (e : q ≠ r) : (h.goto r x).at_ q = h.at_ q := if_neg e
theorem setSq_self (h : Hub α) (i : Nat) (s : Sys α) : (h.setSq i s).sq i = s := if_pos rfl
theorem setSq_ne (h : Hub α) {i j : Nat} (s : Sys α) (e : j ≠ i) : (h.setSq i s).sq j = h.sq j := if_neg e

theorem seen_append (l1 l2 : List (Nat × Option α)) (r : Nat) : seen (l1 ++ l2) r = seen l1 r ++ seen l2 r := by
  simp [seen]

theorem seen_self (r : Nat) (d : Option α) : seen [(r, d)] r = [d] := by simp [seen]
theorem seen_ne {q r : Nat} (d : Option α) (e : q ≠ r) : seen [(q, d)] r = [] := by simp [seen, e]

theorem slotOf_some {owner : Nat → Option Nat} {r i : Nat} : ∀ {k j : Nat}, slotOf owner r k j = some i →
    j ≤ i ∧ i < j + k ∧ (owner i = some r ∨ owner i = none) ∧ ∀ x, j ≤ x → x < i → owner x ≠ some r ∧ owner x ≠ none
  | 0, j, h => by cases h
  | k + 1, j, h => by
    simp only [slotOf] at h
    split at h
    · rename_i hc
      cases h
      exact ⟨Nat.le_refl _, by omega, hc, fun x h1 h2 => by omega⟩
    · rename_i hc
      obtain ⟨h1, h2, h3, h4⟩ := slotOf_some h
      refine ⟨by omega, by omega, h3, fun x hx1 hx2 => ?_⟩
      by_cases e : x = j
      · subst e
        exact ⟨fun e => hc (Or.inl e), fun e => hc (Or.inr e)⟩
      · exact h4 x (by omega) hx2

theorem slotOf_none {owner : Nat → Option Nat} {r : Nat} : ∀ {k j : Nat}, slotOf owner r k j = none →
    ∀ x, j ≤ x → x < j + k → owner x ≠ some r ∧ owner x ≠ none
  | 0, j, _ => fun x h1 h2 => by omega
  | k + 1, j, h => by
    simp only [slotOf] at h
    split at h
    · cases h
    · rename_i hc
      intro x hx1 hx2
      by_cases e : x = j
      · subst e
        exact ⟨fun e => hc (Or.inl e), fun e => hc (Or.inr e)⟩
      · exact slotOf_none h x (by omega) (by omega)

/-- There is a slot for each reader. -/
theorem slotOf_ok {owner : Nat → Option Nat} {r n : Nat} (hr : r < n) (hn : ∀ i q, owner i = some q → i < n ∧ q < n)
    (hinj : ∀ i j q, owner i = some q → owner j = some q → i = j) : slotOf owner r n 0 ≠ none := by
  intro h
  have h1 := slotOf_none h
  have key : ∀ k, k ≤ n → ∃ l : List Nat, l.length = k ∧ l.Nodup ∧ ∀ q ∈ l, q ≠ r ∧ ∃ i, i < k ∧ owner i = some q := by
    intro k
    induction k with
    | zero => exact fun _ => ⟨[], rfl, List.nodup_nil, fun q h => by cases h⟩
    | succ k ih =>
      intro hk
      obtain ⟨l, e1, e2, e3⟩ := ih (by omega)
      obtain ⟨g1, g2⟩ := h1 k (by omega) (by omega)
      cases ho : owner k with
      | none => exact absurd ho g2
      | some q =>
        refine ⟨q :: l, by simp [e1], List.nodup_cons.2 ⟨fun hm => ?_, e2⟩, fun x hx => ?_⟩
        · obtain ⟨_, i, hi, ho'⟩ := e3 q hm
          have := hinj i k q ho' ho
          omega
        · rcases List.mem_cons.1 hx with hx | hx
          · subst hx
            exact ⟨fun e => g1 (by rw [ho, e]), k, by omega, ho⟩
          · obtain ⟨f1, i, f2, f3⟩ := e3 x hx
            exact ⟨f1, i, by omega, f3⟩
  obtain ⟨l, e1, e2, e3⟩ := key n (Nat.le_refl n)
  have hl := length_le_of_bound (n := n) (l := r :: l) (List.nodup_cons.2 ⟨fun hm => (e3 r hm).1 rfl, e2⟩) (fun q hq => by
    rcases List.mem_cons.1 hq with hq | hq
    · rw [hq]; exact hr
    · obtain ⟨_, i, _, ho⟩ := e3 q hq
      exact (hn i q ho).2)
  simp only [List.length_cons] at hl
  omega

end Verif.Hub
