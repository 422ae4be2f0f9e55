import Verif.Asd.Lists
/-!
# The invariant of assured single delivery
-/
namespace Verif.Asd
open Verif

variable {α : Type}

/-- The release queue of the sender. -/
def rel (r : Rx α) : List (REnt α) :=
  match r.queues with
  | [] => []
  | (_, q) :: _ => q

/-- The ids which have been delivered. -/
def ids (r : Rx α) : List Nat := r.log.map (fun x => x.2.1)

/-- The receiver has got the message. -/
def Known (r : Rx α) (i : Nat) : Prop := (∃ e ∈ rel r, e.id = i) ∨ i ∈ ids r

/-- The state of the sender. -/
structure TxOk (t : Tx α) (acc : List α) : Prop where
  pos : t.pos = acc.length
  sorted : Sorted SEnt.id t.queue
  ent : ∀ e ∈ t.queue, 1 ≤ e.id ∧ e.id ≤ t.pos ∧ acc[e.id - 1]? = some e.msg
  len : t.queue.length ≤ BUFFER_MAX
  flag : ∀ e ∈ t.queue, e.fRack = true → e.fDack = true

/-- The state of the receiver. -/
structure RxOk (r : Rx α) (acc : List α) : Prop where
  q : r.queues = [] ∨ r.queues = [(1, rel r)]
  sorted : Sorted REnt.id (rel r)
  ent : ∀ e ∈ rel r, 1 ≤ e.id ∧ ((e.grace = 0 ∧ e.id ∉ ids r ∧ ∃ m, e.msg = some m ∧ acc[e.id - 1]? = some m) ∨ (0 < e.grace ∧ e.id ∈ ids r))
  nodup : (ids r).Nodup
  log : ∀ x ∈ r.log, x.1 = 1 ∧ 1 ≤ x.2.1 ∧ acc[x.2.1 - 1]? = some x.2.2

/-- The entry of a message which has been delivered is kept until no copy of it can arrive: `L` are the ids which may be delivered before that. -/
def Guard (r : Rx α) (s : List (Nat × α)) (i : Nat) (L : List Nat) (g : Int) : Prop :=
  (L.length : Int) + r.started < g ∧
  (∀ e ∈ rel r, e.id ∉ ids r → e.id ∈ L) ∧
  ∀ a m b, s = a ++ (i, m) :: b → ∀ x ∈ a, x.1 ∉ ids r → x.1 ∈ L

structure Inv (w : World α) : Prop where
  tx : TxOk w.tx w.accepted
  rx : RxOk w.rx w.accepted
  gone : ∀ i, 1 ≤ i → i ≤ w.tx.pos → (∀ e ∈ w.tx.queue, e.id ≠ i) → i ∈ ids w.rx
  str : ∀ x ∈ w.stream, 1 ≤ x.1 ∧ w.accepted[x.1 - 1]? = some x.2
  dack : ∀ i, (Flag.dack, i) ∈ w.toS → 1 ≤ i ∧ i ≤ w.tx.pos ∧ Known w.rx i
  rack : ∀ i, (Flag.rack, i) ∈ w.toR → i ≤ w.tx.pos ∧ Known w.rx i ∧ ∀ e ∈ w.tx.queue, e.id = i → e.fDack = true
  cack : ∀ i, (Flag.cack, i) ∈ w.toS → i ∈ ids w.rx
  rst : ∀ i, (Flag.rst, i) ∉ w.toR
  sdack : ∀ e ∈ w.tx.queue, e.fDack = true → Known w.rx e.id
  ldack : ∀ i ∈ ids w.rx, ∀ e ∈ w.tx.queue, e.id = i → e.fDack = true
  grace : ∀ i ∈ ids w.rx, (∃ m, (i, m) ∈ w.stream) → ∃ e ∈ rel w.rx, e.id = i ∧ ∃ L, Guard w.rx w.stream i L e.grace

theorem inv_init : Inv ({} : World α) where
  tx := ⟨rfl, List.Pairwise.nil, by simp, by simp, by simp⟩
  rx := ⟨Or.inl rfl, List.Pairwise.nil, by simp [rel], List.nodup_nil, by simp⟩
  gone := by intro i h1 h2; simp at h2; omega
  str := by simp
  dack := by simp
  rack := by simp
  cack := by simp
  rst := by simp
  sdack := by simp
  ldack := by simp [ids]
  grace := by simp [ids]

/-! ### Giving a message -/

theorem nextId_lt {n : Nat} (h : n + 1 < 2 ^ 32) : nextId n = n + 1 := by
  unfold nextId
  rw [Nat.mod_eq_of_lt h]
  simp

theorem append_get {acc : List α} {i : Nat} {m m' : α} (h : acc[i]? = some m) : (acc ++ [m'])[i]? = some m := by
  have := (List.getElem?_eq_some_iff.1 h).1
  rw [List.getElem?_append_left this]
  exact h

theorem inv_queue {w : World α} (h : Inv w) (hlt : w.accepted.length + 1 < 2 ^ 32) (m : α) : ∃ w', w.step (.queue m) = .ok w' ∧ Inv w' ∧ w'.accepted.length ≤ w.accepted.length + 1 := by
  have hid : nextId w.tx.pos = w.tx.pos + 1 := nextId_lt (by rw [h.tx.pos]; exact hlt)
  simp only [World.step, Tx.enqueue]
  split
  · exact ⟨w, rfl, h, by omega⟩
  · rename_i hl
    rw [hid]
    cases hf : findEntry SEnt.id w.tx.queue (w.tx.pos + 1) with
    | some e =>
      have h1 := findEntry_some hf
      have h2 := h.tx.ent e h1.1
      omega
    | none =>
      rcases insertEntry_ok (x := ({ id := w.tx.pos + 1, msg := m } : SEnt α)) h.tx.sorted with ⟨e, he, hk, _⟩ | ⟨_, q', h1, h2, h3, h4⟩
      · have := h.tx.ent e he
        simp only at hk
        omega
      · simp only [h1, Res.bind]
        refine ⟨_, rfl, ?_, by simp⟩
        have hp := h.tx.pos
        refine { tx := ⟨by simp [hp], h2, ?_, by rw [h3]; omega, ?_⟩, rx := ⟨h.rx.q, h.rx.sorted, ?_, h.rx.nodup, ?_⟩, gone := ?_, str := ?_, dack := ?_, rack := ?_, cack := h.cack, rst := h.rst, sdack := ?_, ldack := ?_, grace := h.grace }
        · intro e he
          rcases (h4 e).1 he with e1 | e1
          · subst e1
            exact ⟨Nat.succ_le_succ (Nat.zero_le _), Nat.le_refl _, by simp [hp]⟩
          · obtain ⟨a, b, c⟩ := h.tx.ent e e1
            exact ⟨a, Nat.le_succ_of_le b, append_get c⟩
        · intro e he
          rcases (h4 e).1 he with e1 | e1
          · subst e1; intro hh; cases hh
          · exact h.tx.flag e e1
        · intro e he
          obtain ⟨a, b⟩ := h.rx.ent e he
          refine ⟨a, ?_⟩
          rcases b with ⟨b1, b2, m', b3, b4⟩ | b
          · exact Or.inl ⟨b1, b2, m', b3, append_get b4⟩
          · exact Or.inr b
        · intro x hx
          obtain ⟨a, b, c⟩ := h.rx.log x hx
          exact ⟨a, b, append_get c⟩
        · intro i hi1 hi2 hne
          have h5 : ∀ e ∈ w.tx.queue, e.id ≠ i := fun e he => hne e ((h4 e).2 (Or.inr he))
          have h6 := hne _ ((h4 _).2 (Or.inl rfl))
          simp only at h6 hi2
          exact h.gone i hi1 (by omega) h5
        · intro x hx
          obtain ⟨a, b⟩ := h.str x hx
          exact ⟨a, append_get b⟩
        · intro i hi
          obtain ⟨a, b, c⟩ := h.dack i hi
          exact ⟨a, Nat.le_succ_of_le b, c⟩
        · intro i hi
          obtain ⟨a, b, c⟩ := h.rack i hi
          refine ⟨Nat.le_succ_of_le a, b, ?_⟩
          intro e he hei
          rcases (h4 e).1 he with e1 | e1
          · subst e1; simp only at hei; omega
          · exact c e e1 hei
        · intro e he
          rcases (h4 e).1 he with e1 | e1
          · subst e1; intro hh; cases hh
          · exact h.sdack e e1
        · intro i hi e he hei
          rcases (h4 e).1 he with e1 | e1
          · exfalso
            subst e1
            simp only [ids, List.mem_map] at hi
            obtain ⟨x, hx, hxi⟩ := hi
            obtain ⟨_, _, c⟩ := h.rx.log x hx
            have := (List.getElem?_eq_some_iff.1 c).1
            simp only at hei
            omega
          · exact h.ldack i hi e e1 hei

/-! ### Sending -/

theorem map_if {β : Type} {key : β → Nat} {q : List β} {e x : β} (hs : Sorted key q) (he : e ∈ q) (hx : key x = key e) :
    ∀ y, y ∈ modify key (key e) (fun _ => x) q ↔ y = x ∨ (y ∈ q ∧ key y ≠ key e) := by
  intro y
  rw [modify_eq hs, List.mem_map]
  constructor
  · rintro ⟨z, hz, rfl⟩
    split
    · exact Or.inl rfl
    · exact Or.inr ⟨hz, by assumption⟩
  · rintro (h | ⟨h1, h2⟩)
    · exact ⟨e, he, by rw [if_pos rfl]; exact h.symm⟩
    · exact ⟨y, h1, by rw [if_neg h2]⟩

theorem modify_sorted {β : Type} {key : β → Nat} {q : List β} {id : Nat} {f : β → β} (hs : Sorted key q) (hf : ∀ e ∈ q, key e = id → key (f e) = id) : Sorted key (modify key id f q) := by
  rw [modify_eq hs]
  unfold Sorted
  rw [List.pairwise_map]
  refine List.Pairwise.imp_of_mem ?_ hs
  intro a b ha hb hab
  have hk : ∀ e ∈ q, key (if key e = id then f e else e) = key e := by
    intro e he
    split
    · rename_i h; rw [hf e he h, h]
    · rfl
  rw [hk a ha, hk b hb]
  exact hab

theorem modify_length {β : Type} {key : β → Nat} {q : List β} {id : Nat} {f : β → β} (hs : Sorted key q) : (modify key id f q).length = q.length := by
  rw [modify_eq hs, List.length_map]

/-- Changing the flags of an entry which is not to be acknowledged less than before. -/
theorem tx_modify {t : Tx α} {acc : List α} (h : TxOk t acc) {e x : SEnt α} (he : e ∈ t.queue) (hx : x.id = e.id) (hm : x.msg = e.msg) (hf : x.fRack = true → x.fDack = true) :
    TxOk { t with queue := modify SEnt.id e.id (fun _ => x) t.queue } acc := by
  refine ⟨h.pos, ?_, ?_, ?_, ?_⟩
  · exact modify_sorted h.sorted (fun _ _ _ => hx)
  · intro y hy
    rcases (map_if h.sorted he hx y).1 hy with h1 | ⟨h1, _⟩
    · subst h1; rw [hx, hm]; exact h.ent e he
    · exact h.ent y h1
  · show (modify SEnt.id e.id (fun _ => x) t.queue).length ≤ _
    rw [modify_length h.sorted]; exact h.len
  · intro y hy
    rcases (map_if h.sorted he hx y).1 hy with h1 | ⟨h1, _⟩
    · subst h1; exact hf
    · exact h.flag y h1

theorem inv_modify {w : World α} (h : Inv w) {e x : SEnt α} (he : e ∈ w.tx.queue) (hx : x.id = e.id) (hm : x.msg = e.msg) (hf : x.fRack = true → x.fDack = true)
    (hd : e.fDack = true → x.fDack = true) (hk : x.fDack = true → Known w.rx e.id) :
    Inv { w with tx := { w.tx with queue := modify SEnt.id e.id (fun _ => x) w.tx.queue } } := by
  have hmem := map_if h.tx.sorted he hx
  refine { tx := tx_modify h.tx he hx hm hf, rx := h.rx, gone := ?_, str := h.str, dack := h.dack, rack := ?_, cack := h.cack, rst := h.rst, sdack := ?_, ldack := ?_, grace := h.grace }
  · intro i hi1 hi2 hne
    refine h.gone i hi1 hi2 ?_
    intro y hy
    by_cases hye : y.id = e.id
    · rw [hye, ← hx]
      exact hne x ((hmem x).2 (Or.inl rfl))
    · exact hne y ((hmem y).2 (Or.inr ⟨hy, hye⟩))
  · intro i hi
    obtain ⟨a, b, c⟩ := h.rack i hi
    refine ⟨a, b, ?_⟩
    intro y hy hyi
    rcases (hmem y).1 hy with h1 | ⟨h1, _⟩
    · subst h1; exact hd (c e he (by omega))
    · exact c y h1 hyi
  · intro y hy
    rcases (hmem y).1 hy with h1 | ⟨h1, _⟩
    · subst h1; rw [hx]; exact hk
    · exact h.sdack y h1
  · intro i hi y hy hyi
    rcases (hmem y).1 hy with h1 | ⟨h1, _⟩
    · subst h1; exact hd (h.ldack i hi e he (by omega))
    · exact h.ldack i hi y h1 hyi

/-- A copy is sent of a message which has not been acknowledged. -/
theorem inv_copy {w : World α} (h : Inv w) {e : SEnt α} (he : e ∈ w.tx.queue) (hd : e.fDack = false) : Inv { w with stream := w.stream ++ [(e.id, e.msg)] } := by
  obtain ⟨h1, h2, h3⟩ := h.tx.ent e he
  have hni : e.id ∉ ids w.rx := by
    intro hi
    have := h.ldack _ hi e he rfl
    rw [hd] at this
    cases this
  refine { tx := h.tx, rx := h.rx, gone := h.gone, str := ?_, dack := h.dack, rack := h.rack, cack := h.cack, rst := h.rst, sdack := h.sdack, ldack := h.ldack, grace := ?_ }
  · intro x hx
    rcases List.mem_append.1 hx with h4 | h4
    · exact h.str x h4
    · simp only [List.mem_singleton] at h4
      subst h4
      exact ⟨h1, h3⟩
  · rintro i hi ⟨m, hm⟩
    have hm' : (i, m) ∈ w.stream := by
      rcases List.mem_append.1 hm with h4 | h4
      · exact h4
      · simp only [List.mem_singleton, Prod.mk.injEq] at h4
        rw [h4.1] at hi
        exact absurd hi hni
    obtain ⟨r, hr, hri, L, g1, g2, g3⟩ := h.grace i hi ⟨m, hm'⟩
    refine ⟨r, hr, hri, L, g1, g2, ?_⟩
    intro a m' b hab x hx hxi
    change w.stream ++ [(e.id, e.msg)] = a ++ (i, m') :: b at hab
    rcases List.eq_nil_or_concat b with hb | ⟨b', y, hb⟩
    · subst hb
      have := List.append_inj_right' hab rfl
      simp only [List.cons.injEq, Prod.mk.injEq, and_true] at this
      rw [this.1] at hni
      exact absurd hi hni
    · subst hb
      have h5 : w.stream = a ++ (i, m') :: b' := by
        have h6 : w.stream ++ [(e.id, e.msg)] = (a ++ (i, m') :: b') ++ [y] := by
          rw [hab]; simp
        exact List.append_inj_left' h6 rfl
      exact g3 a m' b' h5 x hx hxi

theorem inv_rack {w : World α} (h : Inv w) {i : Nat} (h1 : i ≤ w.tx.pos) (h2 : Known w.rx i) (h3 : ∀ e ∈ w.tx.queue, e.id = i → e.fDack = true) :
    Inv { w with toR := (.rack, i) :: w.toR } := by
  refine { h with rack := ?_, rst := ?_ }
  · intro j hj
    rcases List.mem_cons.1 hj with e | e
    · obtain ⟨_, rfl⟩ := Prod.mk.inj e; exact ⟨h1, h2, h3⟩
    · exact h.rack j e
  · intro j hj
    rcases List.mem_cons.1 hj with e | e
    · cases (Prod.mk.inj e).1
    · exact h.rst j e

theorem inv_send {w : World α} (h : Inv w) (id : Nat) (ready : Bool) : ∃ w', w.step (.send id ready) = .ok w' ∧ Inv w' ∧ w'.accepted = w.accepted := by
  simp only [World.step, Tx.send]
  cases hf : w.tx.queue.find? (fun e => e.id == id) with
  | none => exact ⟨w, rfl, h, rfl⟩
  | some e =>
    obtain ⟨he, hid⟩ := find_mem (key := SEnt.id) hf
    subst hid
    have hmem := h.tx.ent e he
    simp only [sendEntry]
    split
    · rename_i hc
      simp only [Bool.and_eq_true, Bool.not_eq_true'] at hc
      split
      · refine ⟨_, rfl, ?_, rfl⟩
        have h1 := inv_modify (x := { e with fMsg := true }) h he rfl rfl (h.tx.flag e he) (fun a => a) (fun a => by simp only at a; rw [hc.1] at a; cases a)
        have h2 := inv_copy (e := { e with fMsg := true }) h1 ((map_if (x := { e with fMsg := true }) h.tx.sorted he rfl _).2 (Or.inl rfl)) hc.1
        exact h2
      · refine ⟨_, rfl, ?_, rfl⟩
        exact inv_modify (x := e) h he rfl rfl (h.tx.flag e he) (fun a => a) (h.sdack e he)
    · rename_i hc
      have hd : e.fDack = true := by
        cases hd : e.fDack with
        | true => rfl
        | false =>
          cases hr : e.fRack with
          | true => rw [h.tx.flag e he hr] at hd; cases hd
          | false => simp [hd, hr] at hc
      rw [if_pos hd]
      refine ⟨_, rfl, ?_, rfl⟩
      have h1 := inv_modify (x := { e with fRack := true }) h he rfl rfl (fun _ => hd) (fun a => a) (h.sdack e he)
      refine inv_rack h1 hmem.2.1 (h.sdack e he hd) ?_
      intro y hy hyi
      rcases (map_if (x := { e with fRack := true }) h.tx.sorted he rfl y).1 hy with h2 | ⟨_, h2⟩
      · rw [h2]; exact hd
      · exact absurd hyi h2

/-! ### Control frames at the sender -/

theorem inv_dack {w : World α} (h : Inv w) {i : Nat} (h1 : i ≤ w.tx.pos) (h2 : Known w.rx i) :
    Inv { w with tx := (w.tx.control .dack i).1, toR := reply w.toR (w.tx.control .dack i).2 } := by
  simp only [Tx.control]
  cases hf : findEntry SEnt.id w.tx.queue i with
  | none =>
    refine inv_rack h h1 h2 ?_
    intro e he hei
    exact absurd hei (findEntry_none h.tx.sorted hf e he)
  | some e =>
    obtain ⟨he, rfl⟩ := findEntry_some hf
    have heq : modify SEnt.id e.id (fun e => { e with fDack := true }) w.tx.queue = modify SEnt.id e.id (fun _ => { e with fDack := true }) w.tx.queue := by
      rw [modify_eq h.tx.sorted, modify_eq h.tx.sorted]
      refine List.map_congr_left ?_
      intro y hy
      by_cases hye : y.id = e.id
      · rw [if_pos hye, if_pos hye, h.tx.sorted.inj hy he hye]
      · rw [if_neg hye, if_neg hye]
    simp only [heq, reply]
    have h3 := inv_modify (x := { e with fDack := true }) h he rfl rfl (fun _ => rfl) (fun _ => rfl) (fun _ => h2)
    refine inv_rack h3 h1 h2 ?_
    intro y hy hyi
    rcases (map_if (x := { e with fDack := true }) h.tx.sorted he rfl y).1 hy with h4 | ⟨_, h4⟩
    · rw [h4]
    · exact absurd hyi h4

theorem inv_cack {w : World α} (h : Inv w) {i : Nat} (h1 : i ∈ ids w.rx) : Inv { w with tx := { w.tx with queue := removeEntry SEnt.id w.tx.queue i } } := by
  rw [removeEntry_eq h.tx.sorted]
  have hsub : ∀ e, e ∈ w.tx.queue.filter (fun e => decide (e.id ≠ i)) → e ∈ w.tx.queue := fun e he => (List.mem_filter.1 he).1
  refine { tx := ⟨h.tx.pos, h.tx.sorted.filter _, ?_, Nat.le_trans (List.length_filter_le _ _) h.tx.len, ?_⟩, rx := h.rx, gone := ?_, str := h.str, dack := h.dack, rack := ?_, cack := h.cack, rst := h.rst, sdack := ?_, ldack := ?_, grace := h.grace }
  · intro e he; exact h.tx.ent e (hsub e he)
  · intro e he; exact h.tx.flag e (hsub e he)
  · intro j hj1 hj2 hne
    by_cases hji : j = i
    · rw [hji]; exact h1
    · refine h.gone j hj1 hj2 ?_
      intro e he hej
      exact hne e (List.mem_filter.2 ⟨he, by simp only [decide_eq_true_eq]; omega⟩) hej
  · intro j hj
    obtain ⟨a, b, c⟩ := h.rack j hj
    exact ⟨a, b, fun e he => c e (hsub e he)⟩
  · intro e he; exact h.sdack e (hsub e he)
  · intro j hj e he; exact h.ldack j hj e (hsub e he)

theorem inv_toS {w : World α} (h : Inv w) (k : Nat) : ∃ w', w.step (.toS k) = .ok w' ∧ Inv w' ∧ w'.accepted = w.accepted := by
  simp only [World.step]
  cases hk : w.toS[k]? with
  | none => exact ⟨w, rfl, h, rfl⟩
  | some x =>
    obtain ⟨f, i⟩ := x
    have hm := List.mem_of_getElem? hk
    refine ⟨_, rfl, ?_, rfl⟩
    cases f with
    | dack => exact inv_dack h (h.dack i hm).2.1 (h.dack i hm).2.2
    | cack => exact inv_cack h (h.cack i hm)
    | rst => exact h
    | rack => exact h

/-! ### The receiver -/

theorem rel_cons {r : Rx α} {h : Nat} {q : List (REnt α)} {t : List (Nat × List (REnt α))} (hq : r.queues = (h, q) :: t) : rel r = q := by
  unfold rel; rw [hq]

theorem rel_nil {r : Rx α} (hq : r.queues = []) : rel r = [] := by
  unfold rel; rw [hq]

/-- Inserting into the queues is inserting into the queue of the sender. -/
theorem insertQueue_rel {r : Rx α} (hq : r.queues = [] ∨ r.queues = [(1, rel r)]) (x : REnt α) :
    insertQueue 1 x r.queues = (insertEntry REnt.id (rel r) x).bind fun q => .ok [(1, q)] := by
  rcases hq with hq | hq
  · rw [rel_nil hq, hq]; rfl
  · generalize rel r = q at hq
    rw [hq]
    rfl

theorem findQueue_rel {r : Rx α} (hq : r.queues = [] ∨ r.queues = [(1, rel r)]) (i : Nat) : findQueue 1 i r.queues = findEntry REnt.id (rel r) i := by
  rcases hq with hq | hq
  · rw [rel_nil hq, hq]; rfl
  · generalize rel r = q at hq
    rw [hq]
    rfl

/-- Taking the first message of the stream when nothing changes in the queue. -/
theorem guard_tail {r : Rx α} {x : Nat × α} {t : List (Nat × α)} {i : Nat} {L : List Nat} {g : Int} (h : Guard r (x :: t) i L g) : Guard r t i L g := by
  obtain ⟨a, b, c⟩ := h
  refine ⟨a, b, ?_⟩
  intro a' m b' hab y hy
  exact c (x :: a') m b' (by rw [hab]; rfl) y (List.mem_cons_of_mem _ hy)

theorem inv_dackS {w : World α} (h : Inv w) {i : Nat} (h1 : 1 ≤ i) (h2 : i ≤ w.tx.pos) (h3 : Known w.rx i) : Inv { w with toS := (.dack, i) :: w.toS } := by
  refine { h with dack := ?_, cack := ?_ }
  · intro j hj
    rcases List.mem_cons.1 hj with e | e
    · obtain ⟨_, rfl⟩ := Prod.mk.inj e; exact ⟨h1, h2, h3⟩
    · exact h.dack j e
  · intro j hj
    rcases List.mem_cons.1 hj with e | e
    · cases (Prod.mk.inj e).1
    · exact h.cack j e

theorem inv_data {w : World α} (h : Inv w) : ∃ w', w.step .data = .ok w' ∧ Inv w' ∧ w'.accepted = w.accepted := by
  simp only [World.step]
  cases hs : w.stream with
  | nil => exact ⟨w, rfl, h, rfl⟩
  | cons x t =>
    obtain ⟨i, m⟩ := x
    simp only [Rx.data]
    split
    · obtain ⟨hi1, hi2⟩ := h.str (i, m) (by rw [hs]; exact List.mem_cons_self)
      simp only at hi1 hi2
      have hi3 : i ≤ w.tx.pos := by
        have := (List.getElem?_eq_some_iff.1 hi2).1
        rw [h.tx.pos]; omega
      rw [insertQueue_rel h.rx.q]
      have hsub : ∀ y, y ∈ t → y ∈ w.stream := fun y hy => by rw [hs]; exact List.mem_cons_of_mem _ hy
      rcases insertEntry_ok (x := ({ id := i, msg := some m } : REnt α)) h.rx.sorted with ⟨e, he, hk, hie⟩ | ⟨hn, q', h1, h2, h3, h4⟩
      · rw [hie]
        refine ⟨_, rfl, ?_, rfl⟩
        have hq : w.rx.queues = [(1, rel w.rx)] := by
          rcases h.rx.q with hq | hq
          · rw [rel_nil hq] at he; cases he
          · exact hq
        have heq : { w.rx with queues := [(1, rel w.rx)] } = w.rx := by rw [← hq]
        show Inv { w with rx := { w.rx with queues := [(1, rel w.rx)] }, stream := t, toS := (.dack, i) :: w.toS }
        rw [heq]
        have h5 : Inv { w with stream := t } := by
          refine { h with str := fun y hy => h.str y (hsub y hy), grace := ?_ }
          rintro j hj ⟨m', hm'⟩
          obtain ⟨r, hr, hri, L, hg⟩ := h.grace j hj ⟨m', hsub _ hm'⟩
          rw [hs] at hg
          exact ⟨r, hr, hri, L, guard_tail hg⟩
        exact inv_dackS h5 hi1 hi3 (Or.inl ⟨e, he, hk⟩)
      · rw [h1]
        refine ⟨_, rfl, ?_, rfl⟩
        show Inv { w with rx := { w.rx with queues := [(1, q')] }, stream := t, toS := (.dack, i) :: w.toS }
        have hids : ids ({ w.rx with queues := [(1, q')] } : Rx α) = ids w.rx := rfl
        have hrel : rel ({ w.rx with queues := [(1, q')] } : Rx α) = q' := rfl
        have hni : i ∉ ids w.rx := by
          intro hi
          obtain ⟨r, hr, hri, _⟩ := h.grace i hi ⟨m, by rw [hs]; exact List.mem_cons_self⟩
          exact hn r hr hri
        have hkn : ∀ j, Known w.rx j → Known ({ w.rx with queues := [(1, q')] } : Rx α) j := by
          rintro j (⟨e, he, hej⟩ | hj)
          · exact Or.inl ⟨e, (h4 e).2 (Or.inr he), hej⟩
          · exact Or.inr hj
        have h5 : Inv { w with rx := { w.rx with queues := [(1, q')] }, stream := t } := by
          refine { tx := h.tx, rx := ⟨Or.inr rfl, h2, ?_, h.rx.nodup, h.rx.log⟩, gone := h.gone, str := fun y hy => h.str y (hsub y hy), dack := ?_, rack := ?_, cack := h.cack, rst := h.rst, sdack := ?_, ldack := h.ldack, grace := ?_ }
          · intro e he
            rcases (h4 e).1 he with e1 | e1
            · subst e1
              exact ⟨hi1, Or.inl ⟨rfl, hni, m, rfl, hi2⟩⟩
            · exact h.rx.ent e e1
          · intro j hj
            obtain ⟨a, b, c⟩ := h.dack j hj
            exact ⟨a, b, hkn j c⟩
          · intro j hj
            obtain ⟨a, b, c⟩ := h.rack j hj
            exact ⟨a, hkn j b, c⟩
          · intro e he hd
            exact hkn _ (h.sdack e he hd)
          · rintro j hj ⟨m', hm'⟩
            obtain ⟨r, hr, hri, L, hg⟩ := h.grace j hj ⟨m', hsub _ hm'⟩
            rw [hs] at hg
            refine ⟨r, (h4 r).2 (Or.inr hr), hri, L, hg.1, ?_, (guard_tail hg).2.2⟩
            intro e he hei
            rcases (h4 e).1 he with e1 | e1
            · subst e1
              obtain ⟨a, b, hab⟩ := List.append_of_mem hm'
              change t = _ at hab
              exact hg.2.2 ((i, m) :: a) m' b (by rw [hab]; rfl) (i, m) List.mem_cons_self hni
            · exact hg.2.1 e e1 hei
        exact inv_dackS h5 hi1 hi3 (Or.inl ⟨_, (h4 _).2 (Or.inl rfl), rfl⟩)
    · exact ⟨w, rfl, h, rfl⟩

/-- A message is lost. -/
theorem inv_lose {w : World α} (h : Inv w) (k : Nat) : Inv { w with stream := w.stream.eraseIdx k } := by
  refine { h with str := fun x hx => h.str x (List.mem_of_mem_eraseIdx hx), grace := ?_ }
  rintro j hj ⟨m', hm'⟩
  obtain ⟨r, hr, hri, L, hg⟩ := h.grace j hj ⟨m', List.mem_of_mem_eraseIdx hm'⟩
  refine ⟨r, hr, hri, L, hg.1, hg.2.1, ?_⟩
  intro a m b hab x hx hxi
  -- the message is in its place in the stream as it was before
  have key : ∀ (s a : List (Nat × α)) (k : Nat), s.eraseIdx k = a ++ (j, m) :: b → ∃ a' b', s = a' ++ (j, m) :: b' ∧ ∀ y ∈ a, y ∈ a' := by
    intro s a k he
    by_cases hk : k < s.length
    · rw [List.eraseIdx_eq_take_drop_succ] at he
      have hs : s = s.take k ++ s[k] :: s.drop (k + 1) := by
        rw [List.getElem_cons_drop, List.take_append_drop]
      rcases List.append_eq_append_iff.1 he with ⟨c, h1, h2⟩ | ⟨c, h1, h2⟩
      · refine ⟨s.take k ++ s[k] :: c, b, ?_, ?_⟩
        · rw [List.append_assoc, List.cons_append, ← h2]; exact hs
        · intro y hy
          rw [h1] at hy
          rcases List.mem_append.1 hy with h3 | h3
          · exact List.mem_append.2 (Or.inl h3)
          · exact List.mem_append.2 (Or.inr (List.mem_cons_of_mem _ h3))
      · cases c with
        | nil =>
          refine ⟨s.take k ++ [s[k]], b, ?_, ?_⟩
          · simp only [List.nil_append] at h2
            rw [List.append_assoc, List.singleton_append, h2]; exact hs
          · intro y hy
            rw [List.append_nil] at h1
            rw [h1]
            exact List.mem_append.2 (Or.inl hy)
        | cons z c =>
          simp only [List.cons_append, List.cons.injEq] at h2
          refine ⟨a, c ++ s[k] :: s.drop (k + 1), ?_, fun y hy => hy⟩
          rw [h2.1, ← List.cons_append, ← List.append_assoc, ← h1]
          exact hs
    · rw [List.eraseIdx_of_length_le (by omega)] at he
      exact ⟨a, b, he, fun y hy => hy⟩
  obtain ⟨a', b', h1, h2⟩ := key w.stream a k hab
  exact hg.2.2 a' m b' h1 x (h2 x hx) hxi

/-! ### Delivery -/

theorem inv_cackS {w : World α} (h : Inv w) {i : Nat} (h1 : i ∈ ids w.rx) : Inv { w with toS := (.cack, i) :: w.toS } := by
  refine { h with dack := ?_, cack := ?_ }
  · intro j hj
    rcases List.mem_cons.1 hj with e | e
    · cases (Prod.mk.inj e).1
    · exact h.dack j e
  · intro j hj
    rcases List.mem_cons.1 hj with e | e
    · obtain ⟨_, rfl⟩ := Prod.mk.inj e; exact h1
    · exact h.cack j e

/-- The receiver after it has delivered the message of an entry. -/
def Rx.delivered (r : Rx α) (e : REnt α) (m : α) : Rx α :=
  { queues := [(1, modify REnt.id e.id (fun _ => { e with msg := none, grace := GRACE }) (rel r))], started := r.started + 1, log := r.log ++ [(1, e.id, m)] }

theorem deliver_eq {r : Rx α} {acc : List α} (h : RxOk r acc) {e : REnt α} (he : e ∈ rel r) {m : α} (hg : e.grace = 0) (hm : e.msg = some m) : r.deliver 1 e = .ok (r.delivered e m) := by
  have hq : r.queues = [(1, rel r)] := by
    rcases h.q with hq | hq
    · rw [rel_nil hq] at he; cases he
    · exact hq
  have heq : modify REnt.id e.id (fun e => { e with msg := none, grace := GRACE }) (rel r) = modify REnt.id e.id (fun _ => { e with msg := none, grace := GRACE }) (rel r) := by
    rw [modify_eq h.sorted, modify_eq h.sorted]
    refine List.map_congr_left ?_
    intro y hy
    by_cases hye : y.id = e.id
    · rw [if_pos hye, if_pos hye, h.sorted.inj hy he hye]
    · rw [if_neg hye, if_neg hye]
  unfold Rx.deliver
  rw [if_neg (by simp [hg]), hm]
  have h2 : modifyQueue 1 e.id (fun e => { e with msg := none, grace := GRACE }) r.queues = [(1, modify REnt.id e.id (fun e => { e with msg := none, grace := GRACE }) (rel r))] := by
    generalize rel r = q at hq
    rw [hq]
    rfl
  simp only [h2, heq, Rx.delivered]

theorem inv_deliver {w : World α} (h : Inv w) {e : REnt α} (he : e ∈ rel w.rx) {m : α} (hg : e.grace = 0) (hm : e.msg = some m) (hp : e.id ≤ w.tx.pos)
    (hd : ∀ y ∈ w.tx.queue, y.id = e.id → y.fDack = true) (hst : w.rx.started + 1 ≤ 1000) : Inv { w with rx := w.rx.delivered e m } := by
  obtain ⟨he1, he2⟩ := h.rx.ent e he
  have ⟨hni, hacc⟩ : e.id ∉ ids w.rx ∧ w.accepted[e.id - 1]? = some m := by
    rcases he2 with ⟨_, b, m', c, d⟩ | ⟨a, _⟩
    · rw [hm] at c
      obtain rfl := Option.some.inj c
      exact ⟨b, d⟩
    · omega
  have hids : ids (w.rx.delivered e m) = ids w.rx ++ [e.id] := by simp [ids, Rx.delivered]
  have hmem : ∀ y, y ∈ rel (w.rx.delivered e m) ↔ y = { e with msg := none, grace := GRACE } ∨ (y ∈ rel w.rx ∧ y.id ≠ e.id) :=
    map_if (key := REnt.id) (x := ({ id := e.id, msg := none, grace := (GRACE : Int) } : REnt α)) h.rx.sorted he rfl
  have hin : ∀ j, j ∈ ids w.rx → j ∈ ids (w.rx.delivered e m) := fun j hj => by rw [hids]; exact List.mem_append.2 (Or.inl hj)
  have hself : e.id ∈ ids (w.rx.delivered e m) := by rw [hids]; simp
  have hnot : ∀ j, j ∉ ids (w.rx.delivered e m) → j ∉ ids w.rx ∧ j ≠ e.id := by
    intro j hj
    rw [hids] at hj
    simp only [List.mem_append, List.mem_singleton, not_or] at hj
    exact hj
  have hkn : ∀ j, Known w.rx j → Known (w.rx.delivered e m) j := by
    rintro j (⟨y, hy, hyj⟩ | hj)
    · by_cases hye : y.id = e.id
      · exact Or.inr (by rw [← hyj, hye]; exact hself)
      · exact Or.inl ⟨y, (hmem y).2 (Or.inr ⟨hy, hye⟩), hyj⟩
    · exact Or.inr (hin j hj)
  -- what has not been delivered is in the send queue
  have hkeep : ∀ j, 1 ≤ j → (∃ m, w.accepted[j - 1]? = some m) → j ∉ ids w.rx → j ∈ w.tx.queue.map SEnt.id := by
    rintro j hj1 ⟨m', hm'⟩ hj
    have hjp : j ≤ w.tx.pos := by
      have := (List.getElem?_eq_some_iff.1 hm').1
      rw [h.tx.pos]; omega
    refine Classical.byContradiction fun hc => hj (h.gone j hj1 hjp ?_)
    intro y hy hyj
    exact hc (List.mem_map.2 ⟨y, hy, hyj⟩)
  refine { tx := h.tx, rx := ⟨Or.inr rfl, ?_, ?_, ?_, ?_⟩, gone := ?_, str := h.str, dack := ?_, rack := ?_, cack := ?_, rst := h.rst, sdack := ?_, ldack := ?_, grace := ?_ }
  · exact modify_sorted h.rx.sorted (fun _ _ _ => rfl)
  · intro y hy
    rcases (hmem y).1 hy with h1 | ⟨h1, h2⟩
    · subst h1
      exact ⟨he1, Or.inr ⟨by show (0 : Int) < GRACE; decide, hself⟩⟩
    · obtain ⟨a, b⟩ := h.rx.ent y h1
      refine ⟨a, ?_⟩
      rcases b with ⟨b1, b2, b3⟩ | ⟨b1, b2⟩
      · refine Or.inl ⟨b1, ?_, b3⟩
        rw [hids]
        simp only [List.mem_append, List.mem_singleton, not_or]
        exact ⟨b2, h2⟩
      · exact Or.inr ⟨b1, hin _ b2⟩
  · show (ids (w.rx.delivered e m)).Nodup
    rw [hids, List.nodup_append]
    refine ⟨h.rx.nodup, by simp, ?_⟩
    intro a ha b hb hab
    simp only [List.mem_singleton] at hb
    rw [hab, hb] at ha
    exact hni ha
  · intro x hx
    rcases List.mem_append.1 hx with h1 | h1
    · exact h.rx.log x h1
    · simp only [List.mem_singleton] at h1
      subst h1
      exact ⟨rfl, he1, hacc⟩
  · intro i hi1 hi2 hne
    exact hin i (h.gone i hi1 hi2 hne)
  · intro j hj
    obtain ⟨a, b, c⟩ := h.dack j hj
    exact ⟨a, b, hkn j c⟩
  · intro j hj
    obtain ⟨a, b, c⟩ := h.rack j hj
    exact ⟨a, hkn j b, c⟩
  · intro j hj; exact hin j (h.cack j hj)
  · intro y hy hyd; exact hkn _ (h.sdack y hy hyd)
  · intro j hj y hy hyj
    change j ∈ ids (w.rx.delivered e m) at hj
    rw [hids] at hj
    rcases List.mem_append.1 hj with h1 | h1
    · exact h.ldack j h1 y hy hyj
    · simp only [List.mem_singleton] at h1
      exact hd y hy (by rw [hyj, h1])
  · rintro j hj ⟨m', hm'⟩
    change j ∈ ids (w.rx.delivered e m) at hj
    rw [hids] at hj
    rcases List.mem_append.1 hj with h1 | h1
    · obtain ⟨r, hr, hri, L, g1, g2, g3⟩ := h.grace j h1 ⟨m', hm'⟩
      have hne : r.id ≠ e.id := by
        intro hh
        rw [← hh, hri] at hni
        exact hni h1
      have hel : e.id ∈ L := g2 e he hni
      refine ⟨r, (hmem r).2 (Or.inr ⟨hr, hne⟩), hri, L.erase e.id, ?_, ?_, ?_⟩
      · rw [List.length_erase_of_mem hel]
        have : 0 < L.length := List.length_pos_of_mem hel
        show ((L.length - 1 : Nat) : Int) + ((w.rx.started + 1 : Nat) : Int) < r.grace
        omega
      · intro y hy hyi
        have hyi := hnot _ hyi
        rcases (hmem y).1 hy with h3 | ⟨h3, h4⟩
        · subst h3; exact absurd rfl hyi.2
        · exact (List.mem_erase_of_ne h4).2 (g2 y h3 hyi.1)
      · intro a m'' b hab x hx hxi
        have hxi := hnot _ hxi
        exact (List.mem_erase_of_ne hxi.2).2 (g3 a m'' b hab x hx hxi.1)
    · simp only [List.mem_singleton] at h1
      subst h1
      have hel : e.id ∈ w.tx.queue.map SEnt.id := hkeep e.id he1 ⟨m, hacc⟩ hni
      refine ⟨_, (hmem _).2 (Or.inl rfl), rfl, (w.tx.queue.map SEnt.id).erase e.id, ?_, ?_, ?_⟩
      · rw [List.length_erase_of_mem hel, List.length_map]
        have h3 := h.tx.len
        have h4 : 0 < (w.tx.queue.map SEnt.id).length := List.length_pos_of_mem hel
        rw [List.length_map] at h4
        show ((w.tx.queue.length - 1 : Nat) : Int) + ((w.rx.started + 1 : Nat) : Int) < ((GRACE : Nat) : Int)
        simp only [BUFFER_MAX, GRACE] at h3 ⊢
        omega
      · intro y hy hyi
        have hyi := hnot _ hyi
        rcases (hmem y).1 hy with h3 | ⟨h3, h4⟩
        · subst h3; exact absurd rfl hyi.2
        · refine (List.mem_erase_of_ne h4).2 ?_
          obtain ⟨a, b⟩ := h.rx.ent y h3
          rcases b with ⟨_, _, m2, _, b⟩ | ⟨_, b⟩
          · exact hkeep y.id a ⟨m2, b⟩ hyi.1
          · exact absurd b hyi.1
      · intro a m'' b hab x hx hxi
        have hxi := hnot _ hxi
        refine (List.mem_erase_of_ne hxi.2).2 ?_
        change w.stream = a ++ (e.id, m'') :: b at hab
        obtain ⟨c, d⟩ := h.str x (by rw [hab]; exact List.mem_append.2 (Or.inl hx))
        exact hkeep x.1 c ⟨x.2, d⟩ hxi.1

theorem inv_toR {w : World α} (h : Inv w) (k : Nat) : ∃ w', w.step (.toR k) = .ok w' ∧ (w'.rx.started ≤ 1000 → Inv w') ∧ w'.accepted = w.accepted := by
  simp only [World.step]
  cases hk : w.toR[k]? with
  | none => exact ⟨w, rfl, fun _ => h, rfl⟩
  | some x =>
    obtain ⟨f, i⟩ := x
    have hm := List.mem_of_getElem? hk
    cases f with
    | rst => exact absurd hm (h.rst i)
    | dack => exact ⟨w, rfl, fun _ => h, rfl⟩
    | cack => exact ⟨w, rfl, fun _ => h, rfl⟩
    | rack =>
      obtain ⟨r1, r2, r3⟩ := h.rack i hm
      simp only [Rx.control, findQueue_rel h.rx.q]
      cases hf : findEntry REnt.id (rel w.rx) i with
      | none =>
        refine ⟨_, rfl, fun _ => ?_, rfl⟩
        refine inv_cackS h ?_
        rcases r2 with ⟨y, hy, hyi⟩ | r2
        · exact absurd hyi (findEntry_none h.rx.sorted hf y hy)
        · exact r2
      | some e =>
        obtain ⟨he, rfl⟩ := findEntry_some hf
        by_cases hg : e.grace = 0
        · obtain ⟨_, he2⟩ := h.rx.ent e he
          rcases he2 with ⟨_, _, m, hm, _⟩ | ⟨a, _⟩
          · simp only [deliver_eq h.rx he hg hm, Res.bind]
            refine ⟨_, rfl, fun hst => ?_, rfl⟩
            have h1 := inv_deliver h he hg hm r1 r3 hst
            refine inv_cackS h1 ?_
            simp [ids, Rx.delivered]
          · omega
        · have hd : w.rx.deliver 1 e = .ok w.rx := by unfold Rx.deliver; rw [if_pos hg]
          simp only [hd, Res.bind]
          refine ⟨_, rfl, fun _ => ?_, rfl⟩
          refine inv_cackS h ?_
          obtain ⟨_, he2⟩ := h.rx.ent e he
          rcases he2 with ⟨a, _⟩ | ⟨_, a⟩
          · exact absurd a hg
          · exact a

/-! ### The periodic tasks -/

theorem mem_updateGrace {n : Nat} {q : List (REnt α)} {y : REnt α} :
    y ∈ updateGrace n q ↔ ∃ e ∈ q, (0 < e.grace ∧ 0 < e.grace - n ∧ y = { e with grace := e.grace - n }) ∨ (¬ 0 < e.grace ∧ y = e) := by
  induction q with
  | nil => simp [updateGrace]
  | cons a t ih =>
    unfold updateGrace
    simp only [List.mem_cons, exists_eq_or_imp, gt_iff_lt]
    split
    · rename_i h1
      split
      · rename_i h2
        rw [ih]
        constructor
        · exact Or.inr
        · rintro ((⟨_, a, _⟩ | ⟨a, _⟩) | a)
          · omega
          · exact absurd h1 a
          · exact a
      · rename_i h2
        rw [List.mem_cons, ih]
        constructor
        · rintro (a | a)
          · exact Or.inl (Or.inl ⟨h1, by omega, a⟩)
          · exact Or.inr a
        · rintro ((⟨_, _, a⟩ | ⟨a, _⟩) | a)
          · exact Or.inl a
          · exact absurd h1 a
          · exact Or.inr a
    · rename_i h1
      rw [List.mem_cons, ih]
      constructor
      · rintro (a | a)
        · exact Or.inl (Or.inr ⟨h1, a⟩)
        · exact Or.inr a
      · rintro ((⟨a, _, _⟩ | ⟨_, a⟩) | a)
        · exact absurd a h1
        · exact Or.inl a
        · exact Or.inr a

theorem updateGrace_sorted {n : Nat} {q : List (REnt α)} (hs : Sorted REnt.id q) : Sorted REnt.id (updateGrace n q) := by
  induction q with
  | nil => exact hs
  | cons a t ih =>
    have hs' := List.pairwise_cons.1 hs
    have hlt : ∀ y ∈ updateGrace n t, a.id < y.id := by
      intro y hy
      obtain ⟨e, he, h⟩ := mem_updateGrace.1 hy
      have := hs'.1 e he
      rcases h with ⟨_, _, h⟩ | ⟨_, h⟩
      · subst h; exact this
      · subst h; exact this
    unfold updateGrace
    split
    · split
      · exact ih hs'.2
      · exact List.pairwise_cons.2 ⟨hlt, ih hs'.2⟩
    · exact List.pairwise_cons.2 ⟨hlt, ih hs'.2⟩

theorem inv_maintain {w : World α} (h : Inv w) : Inv { w with rx := w.rx.maintain } := by
  rcases h.rx.q with hq | hq
  · have : w.rx.maintain = w.rx := by
      unfold Rx.maintain
      rw [hq]
      simp only [maintainLoop, List.isEmpty_nil, if_true]
      rw [← hq]
    rw [this]
    exact h
  · have hm : w.rx.maintain = { w.rx with queues := [(1, updateGrace w.rx.started (rel w.rx))], started := 0 } := by
      generalize hr : rel w.rx = q at hq
      unfold Rx.maintain
      rw [hq]
      rfl
    rw [hm]
    have hmem : ∀ y, y ∈ rel ({ w.rx with queues := [(1, updateGrace w.rx.started (rel w.rx))], started := 0 } : Rx α) ↔ y ∈ updateGrace w.rx.started (rel w.rx) := fun y => Iff.rfl
    have hkn : ∀ j, Known w.rx j → Known ({ w.rx with queues := [(1, updateGrace w.rx.started (rel w.rx))], started := 0 } : Rx α) j := by
      rintro j (⟨y, hy, hyj⟩ | hj)
      · obtain ⟨_, hb⟩ := h.rx.ent y hy
        rcases hb with ⟨b1, _, _⟩ | ⟨_, b2⟩
        · exact Or.inl ⟨y, (hmem y).2 (mem_updateGrace.2 ⟨y, hy, Or.inr ⟨by omega, rfl⟩⟩), hyj⟩
        · rw [hyj] at b2
          exact Or.inr b2
      · exact Or.inr hj
    refine { tx := h.tx, rx := ⟨Or.inr rfl, updateGrace_sorted h.rx.sorted, ?_, h.rx.nodup, h.rx.log⟩, gone := h.gone, str := h.str, dack := ?_, rack := ?_, cack := h.cack, rst := h.rst, sdack := ?_, ldack := h.ldack, grace := ?_ }
    · intro y hy
      obtain ⟨e, he, hc⟩ := mem_updateGrace.1 ((hmem y).1 hy)
      obtain ⟨a, b⟩ := h.rx.ent e he
      rcases hc with ⟨c1, c2, c3⟩ | ⟨_, c3⟩
      · subst c3
        refine ⟨a, Or.inr ⟨c2, ?_⟩⟩
        rcases b with ⟨b1, _⟩ | ⟨_, b2⟩
        · omega
        · exact b2
      · subst c3; exact ⟨a, b⟩
    · intro j hj
      obtain ⟨a, b, c⟩ := h.dack j hj
      exact ⟨a, b, hkn j c⟩
    · intro j hj
      obtain ⟨a, b, c⟩ := h.rack j hj
      exact ⟨a, hkn j b, c⟩
    · intro y hy hyd; exact hkn _ (h.sdack y hy hyd)
    · rintro j hj hm'
      obtain ⟨r, hr, hri, L, g1, g2, g3⟩ := h.grace j hj hm'
      refine ⟨{ r with grace := r.grace - w.rx.started }, (hmem _).2 (mem_updateGrace.2 ⟨r, hr, Or.inl ⟨by omega, by omega, rfl⟩⟩), hri, L, ?_, ?_, g3⟩
      · show (L.length : Int) + ((0 : Nat) : Int) < r.grace - w.rx.started
        omega
      · intro y hy hyi
        obtain ⟨e, he, hc⟩ := mem_updateGrace.1 ((hmem y).1 hy)
        rcases hc with ⟨_, _, c3⟩ | ⟨_, c3⟩
        · subst c3; exact g2 e he hyi
        · subst c3; exact g2 _ he hyi

/-! ### Any run -/

theorem inv_step {w : World α} (h : Inv w) {a : Act α} (ha : NoReset a) (hlt : w.accepted.length + given [a] < 2 ^ 32) :
    ∃ w', w.step a = .ok w' ∧ (w'.rx.started ≤ 1000 → Inv w') ∧ w'.accepted.length ≤ w.accepted.length + given [a] := by
  cases a with
  | queue m => obtain ⟨w', h1, h2, h3⟩ := inv_queue h hlt m; exact ⟨w', h1, fun _ => h2, h3⟩
  | send id ready => obtain ⟨w', h1, h2, h3⟩ := inv_send h id ready; exact ⟨w', h1, fun _ => h2, by rw [h3]; exact Nat.le_add_right _ _⟩
  | data => obtain ⟨w', h1, h2, h3⟩ := inv_data h; exact ⟨w', h1, fun _ => h2, by rw [h3]; exact Nat.le_add_right _ _⟩
  | lose i => exact ⟨_, rfl, fun _ => inv_lose h i, Nat.le_refl _⟩
  | toS i => obtain ⟨w', h1, h2, h3⟩ := inv_toS h i; exact ⟨w', h1, fun _ => h2, by rw [h3]; exact Nat.le_add_right _ _⟩
  | toR i => obtain ⟨w', h1, h2, h3⟩ := inv_toR h i; exact ⟨w', h1, h2, by rw [h3]; exact Nat.le_add_right _ _⟩
  | maintain => exact ⟨_, rfl, fun _ => inv_maintain h, Nat.le_refl _⟩
  | reset => exact absurd ha id
  | restart => exact absurd ha id

theorem given_cons (a : Act α) (as : List (Act α)) : given (a :: as) = given [a] + given as := by
  cases a <;> simp [given, Nat.add_comm]

theorem inv_run (as : List (Act α)) : ∀ {w : World α}, Inv w → (∀ a ∈ as, NoReset a) → w.accepted.length + given as < 2 ^ 32 →
    (∀ bs cs, as = bs ++ cs → ∀ w', w.run bs = .ok w' → w'.rx.started ≤ 1000) → ∃ w', w.run as = .ok w' ∧ Inv w' := by
  induction as with
  | nil => intro w h _ _ _; exact ⟨w, rfl, h⟩
  | cons a as ih =>
    intro w h hr hlt hreg
    rw [given_cons] at hlt
    obtain ⟨w1, h1, h2, h3⟩ := inv_step h (hr a List.mem_cons_self) (by omega)
    have hst : w1.rx.started ≤ 1000 := hreg [a] as rfl w1 (by simp only [World.run, h1, Res.bind])
    obtain ⟨w2, h4, h5⟩ := ih (h2 hst) (fun b hb => hr b (List.mem_cons_of_mem _ hb)) (by omega) (by
      intro bs cs hbc w' hw'
      refine hreg (a :: bs) cs (by rw [hbc]; rfl) w' ?_
      simp only [World.run, h1, Res.bind]
      exact hw')
    exact ⟨w2, by simp only [World.run, h1, Res.bind]; exact h4, h5⟩

end Verif.Asd
