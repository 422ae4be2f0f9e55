import Verif.Wake.Spec
/-!
# Wake-ups: sums and the invariant
-/
namespace Verif.Wake
open Verif

theorem upd_same {β : Type} (f : Nat → β) (i : Nat) (v : β) : upd f i v i = v := by simp [upd]
theorem upd_ne {β : Type} (f : Nat → β) {i j : Nat} (v : β) (h : j ≠ i) : upd f i v j = f j := by simp [upd, h]

/-- A sum in which one place changes. -/
theorem sum_out {l : List Nat} {f g : Nat → Nat} (h : ∀ j ∈ l, g j = f j) : (l.map g).sum = (l.map f).sum := by
  rw [List.map_congr_left h]

theorem sum_in {l : List Nat} (nd : l.Nodup) {f g : Nat → Nat} {i : Nat} (hi : i ∈ l) (h : ∀ j ∈ l, j ≠ i → g j = f j) :
    (l.map g).sum + f i = (l.map f).sum + g i := by
  induction l with
  | nil => cases hi
  | cons a t ih =>
    rw [List.nodup_cons] at nd
    simp only [List.map_cons, List.sum_cons]
    rcases Classical.em (i = a) with e | e
    · subst e
      have := sum_out (l := t) (f := f) (g := g) (fun j hj => h j (List.mem_cons_of_mem _ hj) (fun e => nd.1 (e ▸ hj)))
      omega
    · have hi' : i ∈ t := by
        rcases List.mem_cons.1 hi with e' | e'
        · exact absurd e' e
        · exact e'
      have := ih nd.2 hi' (fun j hj => h j (List.mem_cons_of_mem _ hj))
      have := h a List.mem_cons_self (fun e' => e e'.symm)
      omega

/-- What the notifications in a list add up to for reader `r`. -/
def amountFor (r : Nat) (l : List (Nat × Nat)) : Nat := (l.map (fun x => if x.1 = r then x.2 else 0)).sum

theorem amountFor_append (r : Nat) (a b : List (Nat × Nat)) : amountFor r (a ++ b) = amountFor r a + amountFor r b := by
  simp [amountFor]

theorem amountFor_erase (r : Nat) {l : List (Nat × Nat)} {i : Nat} {x : Nat × Nat} (h : l[i]? = some x) :
    amountFor r (l.eraseIdx i) + (if x.1 = r then x.2 else 0) = amountFor r l := by
  induction l generalizing i with
  | nil => simp at h
  | cons a t ih =>
    cases i with
    | zero =>
      simp only [List.getElem?_cons_zero, Option.some.injEq] at h
      subst h
      simp only [amountFor, List.eraseIdx_zero, List.tail_cons, List.map_cons, List.sum_cons]
      omega
    | succ n =>
      have := ih (i := n) (by simpa using h)
      simp only [amountFor, List.eraseIdx_cons_succ, List.map_cons, List.sum_cons] at *
      omega

theorem amountFor_zero {r : Nat} {l : List (Nat × Nat)} (h : ∀ x ∈ l, x.1 ≠ r) : amountFor r l = 0 := by
  induction l with
  | nil => rfl
  | cons a t ih =>
    have := ih (fun x hx => h x (List.mem_cons_of_mem _ hx))
    simp only [amountFor, List.map_cons, List.sum_cons] at *
    rw [if_neg (h a List.mem_cons_self)]
    omega

theorem amountFor_all {ls : List Nat} (nd : ls.Nodup) (r k : Nat) : amountFor r (ls.map (fun r => (r, k))) = if r ∈ ls then k else 0 := by
  induction ls with
  | nil => rfl
  | cons a t ih =>
    rw [List.nodup_cons] at nd
    have := ih nd.2
    simp only [amountFor, List.map_cons, List.sum_cons] at *
    rw [this]
    rcases Classical.em (a = r) with e | e
    · subst e
      simp [nd.1]
    · have : ¬ r = a := fun e' => e e'.symm
      simp [e, this]

theorem amountFor_notify1 {c : Cfg} (hc : c.Sound) (hp : c.Private) (s rnd k r : Nat) :
    amountFor r (notify1 c s rnd k) = if r ∈ c.listeners s then k else 0 := by
  unfold notify1
  split
  · exact amountFor_all (hc.nodup s) r k
  · rename_i hd
    rcases hp s with h | h
    · exact absurd h hd
    · match hl : c.listeners s, h with
      | [], _ => simp [amountFor]
      | [x], _ =>
        have : rnd % [x].length = 0 := Nat.mod_one rnd
        rw [this]
        simp only [List.getElem?_cons_zero, amountFor, List.map_cons, List.map_nil, List.sum_cons, List.sum_nil, List.mem_singleton]
        rcases Classical.em (x = r) with e | e
        · simp [e]
        · have : ¬ r = x := fun e' => e e'.symm
          simp [e, this]

theorem chunks_go_sum (n k : Nat) (h : k ≤ n) : (chunks.go n k).sum = k := by
  induction n generalizing k with
  | zero => simp [chunks.go]; omega
  | succ n ih =>
    unfold chunks.go
    split
    · simp; omega
    · split
      · rw [List.sum_cons, ih _ (by omega)]; omega
      · simp

/-- The parts add up to the number of messages. -/
theorem chunks_sum (k : Nat) : (chunks k).sum = k := chunks_go_sum k k (Nat.le_refl k)

theorem chunks_go_le (n k : Nat) : ∀ x ∈ chunks.go n k, 0 < x ∧ x ≤ 255 := by
  induction n generalizing k with
  | zero => simp [chunks.go]
  | succ n ih =>
    unfold chunks.go
    split
    · simp
    · split
      · intro x hx
        rcases List.mem_cons.1 hx with e | e
        · omega
        · exact ih _ x e
      · intro x hx
        simp only [List.mem_singleton] at hx
        omega

/-- Each part is an amount which fits in the `uint8_t` argument and is not zero. -/
theorem chunks_le (k : Nat) : ∀ x ∈ chunks k, 0 < x ∧ x ≤ 255 := chunks_go_le k k

theorem amountFor_flatten (r : Nat) (ll : List (List (Nat × Nat))) : amountFor r ll.flatten = (ll.map (amountFor r)).sum := by
  induction ll with
  | nil => rfl
  | cons a t ih => rw [List.flatten_cons, amountFor_append, ih, List.map_cons, List.sum_cons]

theorem amountFor_notify {c : Cfg} (hc : c.Sound) (hp : c.Private) (s : Nat) (rnd : Nat → Nat) (k r : Nat) :
    amountFor r (notify c s rnd k) = if r ∈ c.listeners s then k else 0 := by
  have key : ∀ (l : List Nat) (n : Nat), ((l.zipIdx n).map (fun x => notify1 c s (rnd x.2) x.1)).map (amountFor r) =
      l.map (fun x => if r ∈ c.listeners s then x else 0) := by
    intro l
    induction l with
    | nil => intro n; rfl
    | cons a t ih =>
      intro n
      rw [List.zipIdx_cons, List.map_cons, List.map_cons, List.map_cons, ih, amountFor_notify1 hc hp]
  unfold notify
  rw [amountFor_flatten, key]
  split
  · rw [show (fun x : Nat => x) = id from rfl, List.map_id, chunks_sum]
  · induction chunks k with
    | nil => rfl
    | cons a t ih => simpa using ih

/-- What the handler has in its local variables. -/
def held : Handler → Nat
  | .idle => 0
  | .loop c _ => c
  | .poll c a _ => c + a

/-- How many messages the reader will poll for. -/
def credit (e : EvQ) : Nat := e.fd + e.deferred + held e.h

def inWrite (c : Cfg) (st : St) (r : Nat) : Nat := ((c.senders r).map st.wr).sum

/-- The event of one reader. -/
structure EvOk (e : EvQ) : Prop where
  busy : e.h ≠ .idle → e.deferred = 0
  off : e.added = false → e.paused = true ∧ e.timer = true ∧ e.active = false
  on : e.h ≠ .idle → e.added = true
  def_ : e.h = .idle → 0 < e.deferred → e.active = true ∨ e.paused = true

structure Inv (c : Cfg) (st : St) : Prop where
  ev : ∀ r, EvOk (st.q r)
  bal : ∀ r, waiting c st r = credit (st.q r) + amountFor r st.todo + inWrite c st r

theorem inv_init (c : Cfg) : Inv c .init := by
  refine ⟨fun r => ⟨fun _ => rfl, fun h => (by cases h), fun _ => rfl, fun _ h => (by cases h)⟩, fun r => ?_⟩
  have h1 : waiting c .init r = 0 := by
    unfold waiting
    generalize c.senders r = l
    induction l with
    | nil => rfl
    | cons a t ih => simpa [St.init] using ih
  have h2 : inWrite c .init r = 0 := by
    unfold inWrite
    generalize c.senders r = l
    induction l with
    | nil => rfl
    | cons a t ih => simpa [St.init] using ih
  rw [h1, h2]
  rfl

/-! ### Steps of the event -/

theorem evok_dispatch {e : EvQ} (k : EvOk e) (hi : e.h = .idle) (hc : e.callable = true) (p : Bool) : EvOk (e.dispatch p) ∧ credit (e.dispatch p) = credit e := by
  have ha : e.added = true := by
    cases h : e.added with
    | true => rfl
    | false =>
      have := (k.off h).2.2
      rw [EvQ.callable, this, h] at hc
      cases hc
  unfold EvQ.dispatch
  cases p with
  | true => exact ⟨⟨fun h => absurd hi h, fun _ => ⟨rfl, rfl, rfl⟩, fun h => absurd hi h, fun _ _ => Or.inr rfl⟩, rfl⟩
  | false =>
    dsimp only
    rw [if_neg (by decide)]
    split
    · refine ⟨⟨fun _ => rfl, fun h => ?_, fun _ => ha, fun h => (by cases h)⟩, ?_⟩
      · rw [ha] at h; cases h
      · simp only [credit, held, hi]; omega
    · rename_i hd
      refine ⟨⟨fun _ => ?_, fun h => ?_, fun _ => ha, fun h => (by cases h)⟩, ?_⟩
      · exact Nat.eq_zero_of_not_pos hd
      · rw [ha] at h; cases h
      · simp only [credit, held, hi]; omega

theorem evok_call {e e' : EvQ} (k : EvOk e) (h : e.call = some e') : EvOk e' ∧ credit e' = credit e := by
  unfold EvQ.call at h
  split at h
  · rename_i c t hh
    split at h
    · obtain rfl := Option.some.inj h
      have hb : e.h ≠ .idle := by rw [hh]; intro h; cases h
      refine ⟨⟨fun _ => k.busy hb, fun h => ?_, fun _ => k.on hb, fun h => (by cases h)⟩, ?_⟩
      · have := k.on hb
        rw [show e.added = false from h] at this; cases this
      · simp only [credit, held, hh]
        have := Nat.min_le_left c 0xffff
        omega
    · cases h
  · cases h

theorem evok_take {e e' : EvQ} (k : EvOk e) (h : e.take = some e') : EvOk e' ∧ credit e' + 1 = credit e := by
  unfold EvQ.take at h
  split at h
  · rename_i c a t hh
    split at h
    · obtain rfl := Option.some.inj h
      have hb : e.h ≠ .idle := by rw [hh]; intro h; cases h
      refine ⟨⟨fun _ => k.busy hb, fun h => ?_, fun _ => k.on hb, fun h => (by cases h)⟩, ?_⟩
      · have := k.on hb
        rw [show e.added = false from h] at this; cases this
      · simp only [credit, held, hh]
        omega
    · cases h
  · cases h

theorem evok_ret {e e' : EvQ} (k : EvOk e) (h : e.ret = some e') : EvOk e' ∧ credit e' = credit e := by
  unfold EvQ.ret at h
  split at h
  · rename_i c a t hh
    obtain rfl := Option.some.inj h
    have hb : e.h ≠ .idle := by rw [hh]; intro h; cases h
    refine ⟨⟨fun _ => k.busy hb, fun h => ?_, fun _ => k.on hb, fun h => (by cases h)⟩, ?_⟩
    · have := k.on hb
      rw [show e.added = false from h] at this; cases this
    · simp only [credit, held, hh]
  · cases h

theorem evok_fin {e e' : EvQ} (k : EvOk e) (h : e.fin = some e') : EvOk e' ∧ credit e' = credit e := by
  unfold EvQ.fin at h
  split at h
  · rename_i c t hh
    have hb : e.h ≠ .idle := by rw [hh]; intro h; cases h
    have hd := k.busy hb
    have ha := k.on hb
    split at h
    · cases h
    · split at h
      · obtain rfl := Option.some.inj h
        refine ⟨⟨fun h => absurd rfl h, fun h => ?_, fun h => absurd rfl h, fun _ _ => Or.inl rfl⟩, ?_⟩
        · rw [show e.added = false from h] at ha; cases ha
        · simp only [credit, held, hh, hd]; omega
      · obtain rfl := Option.some.inj h
        refine ⟨⟨fun h => absurd rfl h, fun h => ?_, fun h => absurd rfl h, fun _ h => ?_⟩, ?_⟩
        · rw [show e.added = false from h] at ha; cases ha
        · exfalso
          have : 0 < e.deferred := h
          omega
        · simp only [credit, held, hh, hd]; omega
  · cases h

theorem evok_fire {e : EvQ} (k : EvOk e) (hi : e.h = .idle) : EvOk e.fire ∧ credit e.fire = credit e := by
  unfold EvQ.fire
  dsimp only
  split
  · exact ⟨⟨fun h => absurd hi h, fun h => (by cases h), fun h => absurd hi h, fun _ h => k.def_ hi h⟩, rfl⟩
  · rename_i hp
    refine ⟨⟨fun h => absurd hi h, fun h => ?_, fun h => absurd hi h, fun _ h => k.def_ hi h⟩, rfl⟩
    exact absurd (k.off h).1 hp

/-! ### Steps of the system -/

theorem waiting_congr {c : Cfg} {st st' : St} (h : st'.left = st.left) (r : Nat) : waiting c st' r = waiting c st r := by
  unfold waiting; rw [h]

/-- A step which changes the event of one reader and keeps its credit. -/
theorem inv_setQ {c : Cfg} {st : St} (k : Inv c st) {r : Nat} {e : EvQ} (he : EvOk e ∧ credit e = credit (st.q r)) : Inv c (st.setQ r e) := by
  refine ⟨fun r' => ?_, fun r' => ?_⟩
  · show EvOk (upd st.q r e r')
    rcases Classical.em (r' = r) with h | h
    · subst h; rw [upd_same]; exact he.1
    · rw [upd_ne _ _ h]; exact k.ev r'
  · show waiting c st r' = credit (upd st.q r e r') + amountFor r' st.todo + inWrite c st r'
    rcases Classical.em (r' = r) with h | h
    · subst h; rw [upd_same, he.2]; exact k.bal r'
    · rw [upd_ne _ _ h]; exact k.bal r'

theorem inWrite_upd {c : Cfg} (hc : c.Sound) {wr : Nat → Nat} {s v r : Nat} :
    ((c.senders r).map (upd wr s v)).sum + (if r ∈ c.listeners s then wr s else 0) = ((c.senders r).map wr).sum + (if r ∈ c.listeners s then v else 0) := by
  split
  · rename_i h
    have := sum_in (hc.nodup' r) (f := wr) (g := upd wr s v) ((hc.sym s r).2 h) (fun j _ hj => upd_ne _ _ hj)
    rw [upd_same] at this
    omega
  · rename_i h
    rw [sum_out (f := wr)]
    intro j hj
    exact upd_ne _ _ (fun e => h ((hc.sym s r).1 (e ▸ hj)))

theorem inv_step {c : Cfg} (hc : c.Sound) (hp : c.Private) {st st' : St} {a : Act} (ha : NoFail a) (k : Inv c st) (h : st.step c a = some st') : Inv c st' := by
  cases a with
  | store s =>
    obtain rfl := Option.some.inj h
    refine ⟨k.ev, fun r => ?_⟩
    have hb := k.bal r
    have hw := inWrite_upd hc (wr := st.wr) (s := s) (v := st.wr s + 1) (r := r)
    show ((c.senders r).map (fun s' => if s' = s ∧ (if c.dup s then c.key s' r ∈ c.listeners s else c.key s' r = 0) then st.left s' (c.key s' r) + 1 else st.left s' (c.key s' r))).sum
      = credit (st.q r) + amountFor r st.todo + ((c.senders r).map (upd st.wr s (st.wr s + 1))).sum
    unfold waiting inWrite at hb
    by_cases hm : r ∈ c.listeners s
    · rw [if_pos hm, if_pos hm] at hw
      have := sum_in (hc.nodup' r) (f := fun s' => st.left s' (c.key s' r))
        (g := fun s' => if s' = s ∧ (if c.dup s then c.key s' r ∈ c.listeners s else c.key s' r = 0) then st.left s' (c.key s' r) + 1 else st.left s' (c.key s' r))
        ((hc.sym s r).2 hm) (fun j _ hj => by simp [hj])
      rw [if_pos (show s = s ∧ _ from ⟨rfl, by
        unfold Cfg.key
        split
        · exact hm
        · rfl⟩)] at this
      omega
    · rw [if_neg hm, if_neg hm] at hw
      rw [sum_out (f := fun s' => st.left s' (c.key s' r))]
      · omega
      · intro j hj
        have : j ≠ s := fun e => hm ((hc.sym s r).1 (e ▸ hj))
        simp [this]
  | done s rnd =>
    obtain rfl := Option.some.inj h
    refine ⟨k.ev, fun r => ?_⟩
    have hb := k.bal r
    have hw := inWrite_upd hc (wr := st.wr) (s := s) (v := 0) (r := r)
    show waiting c st r = credit (st.q r) + amountFor r (st.todo ++ notify c s rnd (st.wr s)) + ((c.senders r).map (upd st.wr s 0)).sum
    rw [amountFor_append, amountFor_notify hc hp]
    unfold inWrite at hb
    split at hw <;> rename_i hm <;> simp only [hm, if_true, if_false] at hw ⊢ <;> omega
  | fail s => exact ha.elim
  | over s n rnd => exact ha.elim
  | pass i =>
    simp only [St.step] at h
    split at h
    · rename_i r n hg
      obtain rfl := Option.some.inj h
      refine ⟨fun r' => ?_, fun r' => ?_⟩
      · show EvOk (upd st.q r _ r')
        rcases Classical.em (r' = r) with e | e
        · subst e; rw [upd_same]
          have := k.ev r'
          exact ⟨this.busy, this.off, this.on, this.def_⟩
        · rw [upd_ne _ _ e]; exact k.ev r'
      · have hb := k.bal r'
        have he := amountFor_erase r' hg
        show waiting c st r' = credit (upd st.q r _ r') + amountFor r' (st.todo.eraseIdx i) + inWrite c st r'
        rcases Classical.em (r' = r) with e | e
        · subst e; rw [upd_same]
          simp only [if_true] at he
          simp only [credit] at hb ⊢
          omega
        · rw [upd_ne _ _ e]
          have : ¬ r = r' := fun e' => e e'.symm
          simp only [this, if_false] at he
          omega
    · cases h
  | dispatch r p =>
    simp only [St.step] at h
    split at h
    · rename_i hi
      split at h
      · rename_i hcl
        obtain rfl := Option.some.inj h
        exact inv_setQ k (evok_dispatch (k.ev r) hi hcl p)
      · cases h
    · cases h
  | call r =>
    obtain ⟨e, he, rfl⟩ := Option.map_eq_some_iff.1 h
    exact inv_setQ k (evok_call (k.ev r) he)
  | give r s =>
    simp only [St.step] at h
    split at h
    · rename_i hg
      obtain ⟨e, he, rfl⟩ := Option.map_eq_some_iff.1 h
      have ht := evok_take (k.ev r) he
      have hm := (hc.sym s r).1 hg.1
      refine ⟨fun r' => ?_, fun r' => ?_⟩
      · show EvOk (upd st.q r e r')
        rcases Classical.em (r' = r) with h | h
        · subst h; rw [upd_same]; exact ht.1
        · rw [upd_ne _ _ h]; exact k.ev r'
      · have hb := k.bal r'
        show ((c.senders r').map (fun s' => if s' = s ∧ c.key s' r' = c.key s r then st.left s' (c.key s' r') - 1 else st.left s' (c.key s' r'))).sum
          = credit (upd st.q r e r') + amountFor r' st.todo + inWrite c st r'
        unfold waiting at hb
        rcases Classical.em (r' = r) with e' | e'
        · subst e'; rw [upd_same]
          have := sum_in (hc.nodup' r') (f := fun s' => st.left s' (c.key s' r'))
            (g := fun s' => if s' = s ∧ c.key s' r' = c.key s r' then st.left s' (c.key s' r') - 1 else st.left s' (c.key s' r')) hg.1 (fun j _ hj => by simp [hj])
          rw [if_pos ⟨rfl, rfl⟩] at this
          omega
        · rw [upd_ne _ _ e', sum_out (f := fun s' => st.left s' (c.key s' r'))]
          · exact hb
          · intro j hj
            rw [if_neg]
            rintro ⟨rfl, he2⟩
            have hm' := (hc.sym j r').1 hj
            rcases hp j with hd | hl
            · rw [Cfg.key, Cfg.key, if_pos hd, if_pos hd] at he2
              exact e' he2
            · match hL : c.listeners j, hl with
              | [], _ => rw [hL] at hm; cases hm
              | [x], _ =>
                rw [hL, List.mem_singleton] at hm hm'
                exact e' (hm'.trans hm.symm)
    · cases h
  | ret r =>
    obtain ⟨e, he, rfl⟩ := Option.map_eq_some_iff.1 h
    exact inv_setQ k (evok_ret (k.ev r) he)
  | fin r =>
    obtain ⟨e, he, rfl⟩ := Option.map_eq_some_iff.1 h
    exact inv_setQ k (evok_fin (k.ev r) he)
  | fire r =>
    simp only [St.step] at h
    split at h
    · rename_i hi
      split at h
      · obtain rfl := Option.some.inj h
        exact inv_setQ k (evok_fire (k.ev r) hi)
      · cases h
    · cases h

theorem inv_run {c : Cfg} (hc : c.Sound) (hp : c.Private) {as : List Act} : ∀ {st st' : St}, (∀ a ∈ as, NoFail a) → Inv c st → st.run c as = some st' → Inv c st' := by
  induction as with
  | nil => intro st st' _ k h; obtain rfl := Option.some.inj h; exact k
  | cons a t ih =>
    intro st st' hl k h
    obtain ⟨s1, h1, h2⟩ := Option.bind_eq_some_iff.1 h
    exact ih (fun a ha => hl a (List.mem_cons_of_mem _ ha)) (inv_step hc hp (hl a List.mem_cons_self) k h1) h2

/-! ### Pausing -/

/-- Only a pause sets the flag. -/
theorem paused_step {c : Cfg} {r : Nat} {st st' : St} {a : Act} (ha : NoPause r a) (k : (st.q r).paused = false) (h : st.step c a = some st') : (st'.q r).paused = false := by
  have key : ∀ {r' : Nat} {e : EvQ}, (r' = r → e.paused = false) → ((upd st.q r' e) r).paused = false := by
    intro r' e he
    rcases Classical.em (r = r') with hr | hr
    · subst hr; rw [upd_same]; exact he rfl
    · rw [upd_ne _ _ hr]; exact k
  cases a with
  | store s => obtain rfl := Option.some.inj h; exact k
  | done s rnd => obtain rfl := Option.some.inj h; exact k
  | fail s => obtain rfl := Option.some.inj h; exact k
  | over s n rnd => obtain rfl := Option.some.inj h; exact k
  | pass i =>
    simp only [St.step] at h
    split at h
    · obtain rfl := Option.some.inj h
      exact key (fun e => by subst e; exact k)
    · cases h
  | dispatch r' p =>
    simp only [St.step] at h
    split at h
    · split at h
      · obtain rfl := Option.some.inj h
        refine key (fun e => ?_)
        rw [ha e]
        unfold EvQ.dispatch
        dsimp only
        rw [if_neg (by decide)]
        split <;> rfl
      · cases h
    · cases h
  | call r' =>
    obtain ⟨e, he, rfl⟩ := Option.map_eq_some_iff.1 h
    refine key (fun er => ?_)
    subst er
    unfold EvQ.call at he
    split at he
    · split at he
      · obtain rfl := Option.some.inj he; exact k
      · cases he
    · cases he
  | give r' s =>
    simp only [St.step] at h
    split at h
    · obtain ⟨e, he, rfl⟩ := Option.map_eq_some_iff.1 h
      refine key (fun er => ?_)
      subst er
      unfold EvQ.take at he
      split at he
      · split at he
        · obtain rfl := Option.some.inj he; exact k
        · cases he
      · cases he
    · cases h
  | ret r' =>
    obtain ⟨e, he, rfl⟩ := Option.map_eq_some_iff.1 h
    refine key (fun er => ?_)
    subst er
    unfold EvQ.ret at he
    split at he
    · obtain rfl := Option.some.inj he; exact k
    · cases he
  | fin r' =>
    obtain ⟨e, he, rfl⟩ := Option.map_eq_some_iff.1 h
    refine key (fun er => ?_)
    subst er
    unfold EvQ.fin at he
    split at he
    · split at he
      · cases he
      · split at he <;> (obtain rfl := Option.some.inj he; exact k)
    · cases he
  | fire r' =>
    simp only [St.step] at h
    split at h
    · split at h
      · obtain rfl := Option.some.inj h
        refine key (fun er => ?_)
        subst er
        unfold EvQ.fire
        dsimp only
        split <;> exact k
      · cases h
    · cases h

theorem paused_run {c : Cfg} {r : Nat} {as : List Act} : ∀ {st st' : St}, (∀ a ∈ as, NoPause r a) → (st.q r).paused = false → st.run c as = some st' → (st'.q r).paused = false := by
  induction as with
  | nil => intro st st' _ k h; obtain rfl := Option.some.inj h; exact k
  | cons a t ih =>
    intro st st' hl k h
    obtain ⟨s1, h1, h2⟩ := Option.bind_eq_some_iff.1 h
    exact ih (fun a ha => hl a (List.mem_cons_of_mem _ ha)) (paused_step (hl a List.mem_cons_self) k h1) h2

end Verif.Wake
