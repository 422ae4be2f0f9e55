import Verif.Modbus.Refine
/-!
# Properties of the modbus client
-/
namespace Verif.Modbus
open Verif Endian Spec

variable {P : Type}

/-- Requests of a ledger. -/
def calls (l : Ledger P) : List (Call × P) := l.map fun e => (e.call, e.priv)

theorem calls_mark (l : Ledger P) (i : Nat) (s : Status) : calls (mark l i s) = calls l := by
  apply List.ext_getElem?
  intro j
  unfold calls mark
  rw [List.getElem?_map, List.getElem?_map, List.getElem?_modify]
  cases l[j]? with
  | none => rfl
  | some e =>
    by_cases h : i = j
    · simp [h]
    · simp [h]

/-- The first `n` requests are not waiting, the others are. -/
def Sent (l : Ledger P) (n : Nat) : Prop := n ≤ l.length ∧ ∀ (i : Nat) (e : Entry P), l[i]? = some e → (e.status = .waiting ↔ n ≤ i)

theorem sent_finish {l : Ledger P} {n i : Nat} (h : Sent l n) (hl : live l i) : Sent (mark l i .finished) n := by
  refine ⟨by rw [mark_length]; exact h.1, ?_⟩
  intro j f hf
  obtain ⟨g, hg, ⟨hne, rfl⟩ | ⟨rfl, rfl⟩⟩ := get_mark hf
  · exact h.2 j f hg
  · obtain ⟨e, t, he, hs⟩ := hl
    rw [he] at hg
    cases hg
    have := h.2 j _ he
    rw [hs] at this
    constructor
    · intro x; cases x
    · intro x; have := this.mpr x; cases this

/-- The frame of a request with its number. -/
def frameOf (i : Nat) (c : Call × P) : Bytes := frame (i % 65536) (pdu c.1)

theorem step_frames {l l' : Ledger P} {op : Op P} {o : Out P} (h : Spec.Step l op o l') {n : Nat} (hn : Sent l n) :
    ∃ n', Sent l' n' ∧ n ≤ n' ∧ calls l' = calls l ++ accepted [op] [o] ∧
      frames [o] = (((calls l').mapIdx frameOf).take n').drop n := by
  have same : ∀ (X : List Bytes), (X.take n).drop n = [] := by
    intro X
    apply List.drop_eq_nil_of_le
    rw [List.length_take]
    omega
  cases h with
  | push h =>
    cases h with
    | failed r => exact ⟨n, hn, Nat.le_refl _, by simp [accepted], (same _).symm⟩
    | accepted p hp =>
      refine ⟨n, ⟨by simp; have := hn.1; omega, ?_⟩, Nat.le_refl _, by simp [accepted, calls], (same _).symm⟩
      intro i e he
      rcases get_append_one he with he | ⟨rfl, rfl⟩
      · exact hn.2 i e he
      · simp [hn.1]
    | timeout p i e t h1 he hs ht => exact ⟨n, hn, Nat.le_refl _, by simp [accepted], (same _).symm⟩
    | full p i e h1 he hs ht => exact ⟨n, hn, Nat.le_refl _, by simp [accepted], (same _).symm⟩
  | write h =>
    cases h with
    | nothing hw => exact ⟨n, hn, Nat.le_refl _, by simp [accepted], (same _).symm⟩
    | send i e he hw hf =>
      have hil := lt_of_get he
      have hin : i = n := by
        have h1 := (hn.2 i e he).mp hw
        rcases Nat.lt_or_ge n i with h2 | h2
        · have hnl : n < l.length := by omega
          exact absurd ((hn.2 n _ (List.getElem?_eq_getElem hnl)).mpr (Nat.le_refl _)) (hf n _ h2 (List.getElem?_eq_getElem hnl))
        · omega
      subst hin
      refine ⟨i + 1, ⟨by rw [mark_length]; omega, ?_⟩, by omega, by simp [accepted, calls_mark], ?_⟩
      · intro j f hf'
        obtain ⟨g, hg, ⟨hne, rfl⟩ | ⟨rfl, rfl⟩⟩ := get_mark hf'
        · rw [hn.2 j f hg]; omega
        · simp
      · rw [calls_mark]
        apply List.ext_getElem?
        intro j
        rw [List.getElem?_drop, List.getElem?_take]
        cases j with
        | zero =>
          rw [Nat.add_zero, if_pos (by omega), List.getElem?_mapIdx]
          unfold calls
          rw [List.getElem?_map, he]
          rfl
        | succ j => rw [if_neg (by omega)]; rfl
  | read h =>
    cases h with
    | more hr => exact ⟨n, hn, Nat.le_refl _, by simp [accepted], (same _).symm⟩
    | bad hr => exact ⟨n, hn, Nat.le_refl _, by simp [accepted], (same _).symm⟩
    | unknown id r k hr hu => exact ⟨n, hn, Nat.le_refl _, by simp [accepted], (same _).symm⟩
    | foreign id r k hr i hl hi hu e he hv =>
      exact ⟨n, sent_finish hn hl, Nat.le_refl _, by simp [accepted, calls_mark], (same _).symm⟩
    | malformed id r k hr i hl hi hu e he hv =>
      exact ⟨n, sent_finish hn hl, Nat.le_refl _, by simp [accepted, calls_mark], (same _).symm⟩
    | call id r k hr i hl hi hu e he ev hv =>
      exact ⟨n, sent_finish hn hl, Nat.le_refl _, by simp [accepted, calls_mark], (same _).symm⟩

theorem accepted_cons (op : Op P) (o : Out P) (ops : List (Op P)) (os : List (Out P)) :
    accepted (op :: ops) (o :: os) = accepted [op] [o] ++ accepted ops os := by
  rcases op with ⟨now, c, _ | p⟩ | _ | _ <;> rcases o with ⟨_ | _, _⟩ | _ | _ <;> rfl

theorem mapIdx_prefix (X Y : List (Call × P)) (n : Nat) (h : n ≤ X.length) :
    ((X ++ Y).mapIdx frameOf).take n = (X.mapIdx frameOf).take n := by
  apply List.ext_getElem?
  intro j
  rw [List.getElem?_take, List.getElem?_take]
  split
  · rw [List.getElem?_mapIdx, List.getElem?_mapIdx, List.getElem?_append_left (by omega)]
  · rfl

theorem run_frames {l l' : Ledger P} {ops : List (Op P)} {os : List (Out P)} (h : Spec.Run l ops os l') : ∀ {n : Nat}, Sent l n →
    ∃ n', Sent l' n' ∧ n ≤ n' ∧ calls l' = calls l ++ accepted ops os ∧
      frames os = (((calls l').mapIdx frameOf).take n').drop n := by
  induction h with
  | nil =>
    intro n hn
    refine ⟨n, hn, Nat.le_refl _, by simp [accepted], ?_⟩
    rw [List.drop_eq_nil_of_le (by rw [List.length_take]; omega)]
    rfl
  | @cons l op o l1 ops os l2 hs ht ih =>
    intro n hn
    obtain ⟨n1, h1, h2, h3, h4⟩ := step_frames hs hn
    obtain ⟨n2, k1, k2, k3, k4⟩ := ih h1
    refine ⟨n2, k1, by omega, by rw [accepted_cons, ← List.append_assoc, ← h3, k3], ?_⟩
    have hl1 : n1 ≤ (calls l1).length := by unfold calls; rw [List.length_map]; exact h1.1
    rw [show o :: os = [o] ++ os from rfl, show frames ([o] ++ os) = frames [o] ++ frames os by
      unfold frames; rw [List.filterMap_append], h4, k4, ← mapIdx_prefix _ (accepted ops os) n1 hl1, ← k3]
    generalize (calls l2).mapIdx frameOf = X
    apply List.ext_getElem?
    intro j
    rw [List.getElem?_append]
    simp only [List.length_drop, List.length_take, List.getElem?_drop, List.getElem?_take]
    split
    · rw [if_pos (by omega), if_pos (by omega)]
    · rename_i hj
      by_cases hx : X.length ≤ n + j
      · rw [List.getElem?_eq_none hx, List.getElem?_eq_none (by omega)]
        simp
      · rw [show n1 + (j - (min n1 X.length - n)) = n + j by omega]

/-- What callbacks are called for the request number `i`. -/
def Good (reqs : List (Call × P)) (i : Nat) (es : List (Event P)) : Prop :=
  ∃ c p, reqs[i]? = some (c, p) ∧ (es = [.destroy p] ∨ ∃ ev, es = [ev, .destroy p] ∧ Concerns (code c) (i % 65536) p ev)

theorem verdict_concerns {c : Call} {id : UInt16} {p : P} {r : Bytes} {ev : Event P} (h : verdict c id p r = .call ev) :
    Concerns (code c) id.toNat p ev := by
  unfold verdict at h
  split at h
  · cases h
  · split at h
    · split at h
      · cases h; exact ⟨rfl, rfl, rfl⟩
      · cases h; exact ⟨rfl, rfl, rfl⟩
      · cases h
    · split at h
      · cases h
      · split at h
        · split at h
          · cases h; exact ⟨rfl, rfl, rfl⟩
          · split at h <;> cases h
        · split at h
          · cases h; exact ⟨rfl, rfl, rfl⟩
          · split at h <;> cases h
        · split at h
          · cases h
          · split at h
            · cases h; exact ⟨rfl, rfl, rfl⟩
            · cases h

/-- Request number `i` is finished. -/
def Finished (l : Ledger P) (i : Nat) : Prop := ∃ e, l[i]? = some e ∧ e.status = .finished

theorem finished_mark {l : Ledger P} {i j : Nat} (hj : Finished l j) : Finished (mark l i .finished) j := by
  obtain ⟨e, he, hs⟩ := hj
  by_cases h : i = j
  · exact ⟨{ e with status := .finished }, by unfold mark; rw [List.getElem?_modify, he, h]; simp, rfl⟩
  · exact ⟨e, by unfold mark; rw [List.getElem?_modify, he]; simp [h], hs⟩

theorem finished_send {l : Ledger P} {i j : Nat} {e : Entry P} (he : l[i]? = some e) (hw : e.status = .waiting) (now : UInt64)
    (hj : Finished l j) : Finished (mark l i (.sent now)) j := by
  obtain ⟨f, hf, hs⟩ := hj
  have h : i ≠ j := by
    rintro rfl
    rw [he] at hf
    cases hf
    rw [hw] at hs
    cases hs
  exact ⟨f, by unfold mark; rw [List.getElem?_modify, hf]; simp [h], hs⟩

theorem mark_finished {l : Ledger P} {i : Nat} {e : Entry P} (he : l[i]? = some e) : Finished (mark l i .finished) i :=
  ⟨{ e with status := .finished }, by unfold mark; rw [List.getElem?_modify, he]; simp, rfl⟩

theorem live_not_finished {l : Ledger P} {i : Nat} (h : live l i) : ¬ Finished l i := by
  rintro ⟨f, hf, hs⟩
  obtain ⟨e, t, he, ht⟩ := h
  rw [he] at hf
  cases hf
  rw [ht] at hs
  cases hs

theorem step_answers {l l' : Ledger P} {op : Op P} {o : Out P} (h : Spec.Step l op o l') :
    (∀ j, Finished l j → Finished l' j) ∧
    (answers [o] = [] ∨ ∃ i es, answers [o] = [es] ∧ ¬ Finished l i ∧ Finished l' i ∧ Good (calls l') i es) := by
  cases h with
  | push h =>
    cases h with
    | failed r => exact ⟨fun _ h => h, Or.inl rfl⟩
    | accepted p hp =>
      refine ⟨?_, Or.inl rfl⟩
      rintro j ⟨e, he, hs⟩
      exact ⟨e, by rw [List.getElem?_append_left (lt_of_get he)]; exact he, hs⟩
    | timeout p i e t h1 he hs ht => exact ⟨fun _ h => h, Or.inl rfl⟩
    | full p i e h1 he hs ht => exact ⟨fun _ h => h, Or.inl rfl⟩
  | write h =>
    cases h with
    | nothing hw => exact ⟨fun _ h => h, Or.inl rfl⟩
    | send i e he hw hf => exact ⟨fun j hj => finished_send he hw _ hj, Or.inl rfl⟩
  | read h =>
    cases h with
    | more hr => exact ⟨fun _ h => h, Or.inl rfl⟩
    | bad hr => exact ⟨fun _ h => h, Or.inl rfl⟩
    | unknown id r k hr hu => exact ⟨fun _ h => h, Or.inl rfl⟩
    | foreign id r k hr i hl hi hu e he hv => exact ⟨fun j hj => finished_mark hj, Or.inl rfl⟩
    | malformed id r k hr i hl hi hu e he hv =>
      refine ⟨fun j hj => finished_mark hj, Or.inr ⟨i, _, rfl, live_not_finished hl, mark_finished he, e.call, e.priv, ?_, Or.inl rfl⟩⟩
      rw [calls_mark]
      unfold calls
      rw [List.getElem?_map, he]
      rfl
    | call id r k hr i hl hi hu e he ev hv =>
      refine ⟨fun j hj => finished_mark hj, Or.inr ⟨i, _, rfl, live_not_finished hl, mark_finished he, e.call, e.priv, ?_, Or.inr ⟨ev, rfl, ?_⟩⟩⟩
      · rw [calls_mark]
        unfold calls
        rw [List.getElem?_map, he]
        rfl
      · rw [hi]
        exact verdict_concerns hv

theorem run_answers {l l' : Ledger P} {ops : List (Op P)} {os : List (Out P)} (h : Spec.Run l ops os l') :
    (∀ j, Finished l j → Finished l' j) ∧ (∃ tail, calls l' = calls l ++ tail) ∧
    ∃ tagged : List (Nat × List (Event P)), tagged.map (·.2) = answers os ∧ (tagged.map (·.1)).Nodup ∧
      (∀ x ∈ tagged, Good (calls l') x.1 x.2 ∧ ¬ Finished l x.1 ∧ Finished l' x.1) := by
  induction h with
  | nil => exact ⟨fun _ h => h, ⟨[], by simp⟩, [], rfl, List.nodup_nil, by simp⟩
  | @cons l op o l1 ops os l2 hs ht ih =>
    obtain ⟨f2, ⟨tail, htail⟩, tg, t1, t2, t3⟩ := ih
    obtain ⟨f1, hans⟩ := step_answers hs
    have hpre : ∃ tail, calls l1 = calls l ++ tail := by
      cases hs with
      | push h =>
        cases h with
        | accepted p hp => exact ⟨_, by simp [calls]; rfl⟩
        | _ => exact ⟨[], by simp⟩
      | write h =>
        cases h with
        | nothing hw => exact ⟨[], by simp⟩
        | send i e he hw hf => exact ⟨[], by simp [calls_mark]⟩
      | read h => cases h <;> exact ⟨[], by simp [calls_mark]⟩
    obtain ⟨tail1, htail1⟩ := hpre
    refine ⟨fun j hj => f2 j (f1 j hj), ⟨tail1 ++ tail, by rw [htail, htail1, List.append_assoc]⟩, ?_⟩
    have happ : answers (o :: os) = answers [o] ++ answers os := by
      rw [show o :: os = [o] ++ os from rfl]; unfold answers; rw [List.filterMap_append]
    rcases hans with h0 | ⟨i, es, h1, h2, h3, h4⟩
    · refine ⟨tg, by rw [happ, h0, t1]; rfl, t2, fun x hx => ⟨(t3 x hx).1, fun hf => (t3 x hx).2.1 (f1 _ hf), (t3 x hx).2.2⟩⟩
    · refine ⟨(i, es) :: tg, by rw [happ, h1, List.map_cons, t1]; rfl, ?_, ?_⟩
      · rw [List.map_cons, List.nodup_cons]
        refine ⟨?_, t2⟩
        intro hm
        obtain ⟨x, hx, rfl⟩ := List.mem_map.mp hm
        exact (t3 x hx).2.1 h3
      · intro x hx
        rcases List.mem_cons.mp hx with rfl | hx
        · refine ⟨?_, h2, f2 _ h3⟩
          obtain ⟨c, p, hc, hrest⟩ := h4
          refine ⟨c, p, ?_, hrest⟩
          rw [htail, List.getElem?_append_left (lt_of_get hc)]
          exact hc
        · exact ⟨(t3 x hx).1, fun hf => (t3 x hx).2.1 (f1 _ hf), (t3 x hx).2.2⟩

/-! ## C37 -/

/-- **C37** For all histories of requests, writes and received data, of any length: the program does not abort, and what can be seen is
what the ledger of requests says. In particular a response goes to the only request with its id which was sent and is
not answered, with the private data of that request, and writes send the requests in the order in which they were pushed. -/
theorem follows_ledger (ops : List (Op P)) (h : ∀ op ∈ ops, OpFine op) :
    ∃ os c l, run .new ops = some (os, c) ∧ Spec.Run [] ops os l ∧
      (∀ i j, live l i → live l j → i % 65536 = j % 65536 → i = j) := by
  obtain ⟨os, c, l, h1, h2, n, h3⟩ := run_refines ops h R.new
  exact ⟨os, c, l, h1, h2, fun i j hi hj => h3.live_unique hi hj⟩

/-- **C37** Requests are sent in the order in which they were accepted, each once, with ids which count up. -/
theorem sent_in_order (ops : List (Op P)) (h : ∀ op ∈ ops, OpFine op) :
    ∃ os c, run .new ops = some (os, c) ∧
      ∃ k, frames os = ((accepted ops os).take k).mapIdx fun i r => frame (i % 65536) (pdu r.1) := by
  obtain ⟨os, c, l, h1, h2, _⟩ := follows_ledger ops h
  obtain ⟨n, _, _, h5, h6⟩ := run_frames h2 (n := 0) ⟨by simp, by simp⟩
  refine ⟨os, c, h1, n, ?_⟩
  rw [h6, h5]
  show List.drop 0 _ = _
  rw [List.drop_zero]
  show ((accepted ops os).mapIdx frameOf).take n = _
  apply List.ext_getElem?
  intro j
  rw [List.getElem?_take, List.getElem?_mapIdx, List.getElem?_mapIdx, List.getElem?_take]
  split <;> rfl

/-- **C37** Each request is answered at most once: by one call of a callback with the function code, the id and the private data of the
request, and then destruction of the private data, or by destruction alone if the response was malformed. -/
theorem answered_once (ops : List (Op P)) (h : ∀ op ∈ ops, OpFine op) :
    ∃ os c, run .new ops = some (os, c) ∧
      ∃ tagged : List (Nat × List (Event P)), tagged.map (·.2) = answers os ∧ (tagged.map (·.1)).Nodup ∧
        ∀ x ∈ tagged, ∃ c p, (accepted ops os)[x.1]? = some (c, p) ∧
          (x.2 = [.destroy p] ∨ ∃ ev, x.2 = [ev, .destroy p] ∧ Concerns (code c) (x.1 % 65536) p ev) := by
  obtain ⟨os, c, l, h1, h2, _⟩ := follows_ledger ops h
  obtain ⟨n, _, _, h5, _⟩ := run_frames h2 (n := 0) ⟨by simp, by simp⟩
  obtain ⟨_, _, tg, t1, t2, t3⟩ := run_answers h2
  have h5 : calls l = accepted ops os := h5
  exact ⟨os, c, h1, tg, t1, t2, fun x hx => h5 ▸ (t3 x hx).1⟩

/-- A history with two requests, which are answered in the other order. -/
def sample : List (Op Nat) :=
  [.push 5000000 (.holding 7 1) (.ok 100), .push 5000000 (.coils 0 9) (.ok 101), .write 5000001 2048, .write 5000002 2048, .write 5000003 2048,
   .read .ok [0, 1, 0, 0, 0, 5, 255, 1, 2, 0xaa, 1], .read .ok [0, 0, 0, 0, 0, 3, 255, 0x83, 2]]

example : ∀ op ∈ sample, OpFine op := by
  intro op hop
  simp only [sample, List.mem_cons, List.not_mem_nil, or_false] at hop
  rcases hop with rfl | rfl | rfl | rfl | rfl | rfl | rfl <;>
    first | exact trivial | exact ⟨by decide, by decide⟩ | exact ⟨by decide, by simp [Fine]⟩

example : (run .new sample).map (·.1) = some [.push .ok [], .push .ok [], .write .ok [0, 0, 0, 0, 0, 6, 255, 3, 0, 7, 0, 1],
    .write .ok [0, 1, 0, 0, 0, 6, 255, 1, 0, 0, 0, 9], .write .done [],
    .read .ok (some 11) [.bytes 1 1 [0xaa, 1] 101, .destroy 101], .read .ok (some 9) [.error 3 0 (some 2) 100, .destroy 100]] := by
  decide +kernel

/-! ## C62: received data -/

/-- **C62** Nothing is done before a frame is complete, and what follows a frame does not matter for it. -/
theorem read_complete (c : Client P) (cb : Ret) (b t : Bytes) (x : Ret × Option Nat × List (Event P) × Client P) (h : read c cb b = some x) :
    (x.1 = .incomplete ∧ x.2.1 = none ∧ x.2.2 = ([], c) ∧ (b.length < 7 ∨ b.length < announced b)) ∨ read c cb (b ++ t) = some x := by
  rw [received_eq] at h ⊢
  by_cases h7 : b.length < 7
  · left
    rw [show received b = .more by unfold received; rw [if_pos h7]] at h
    cases h
    exact ⟨rfl, rfl, rfl, Or.inl h7⟩
  · have ha : announced (b ++ t) = announced b := by
      unfold announced
      simp only [List.getD_eq_getElem?_getD]
      rw [List.getElem?_append_left (by omega), List.getElem?_append_left (by omega)]
    by_cases hm : announced b ≠ 6 ∧ b.length < announced b
    · left
      rw [show received b = .more by unfold received; rw [if_neg h7, if_neg hm.1, if_pos hm.2]] at h
      cases h
      exact ⟨rfl, rfl, rfl, Or.inr hm.2⟩
    · right
      have : received (b ++ t) = received b := by
        unfold received
        rw [ha, if_neg h7, if_neg (by rw [List.length_append]; omega)]
        by_cases h6 : announced b = 6
        · rw [if_pos h6, if_pos h6]
        · rw [if_neg h6, if_neg h6, if_neg (show ¬ (b ++ t).length < announced b by rw [List.length_append]; omega), if_neg (show ¬ b.length < announced b by omega)]
          by_cases hb : announced b < 8 ∨ 259 < announced b
          · rw [if_pos hb, if_pos hb]
          · rw [if_neg hb, if_neg hb, List.take_append_of_le_length (by omega)]
            simp only [List.getD_eq_getElem?_getD]
            rw [List.getElem?_append_left (by omega), List.getElem?_append_left (by omega)]
      rw [this]
      exact h

example : read (P := Nat) .new .ok [0, 0, 0, 0, 0, 3, 255] = some (.incomplete, none, [], .new) := by decide +kernel

/-! ## C63: private data -/

/-- **C63** fails: a response with another function code than that of the request uses the request up, and its private data is never destroyed. -/
theorem private_data_leaks : ∃ (ops : List (Op Nat)) (os : List (Out Nat)) (c : Client Nat), (∀ op ∈ ops, OpFine op) ∧
    run .new ops = some (os, c) ∧ accepted ops os = [(.holding 7 1, 100)] ∧
      answers os = [] ∧ ∀ t ∈ c.slots, t = .zero := by
  refine ⟨[.push 5000000 (.holding 7 1) (.ok 100), .write 5000001 2048, .read .ok [0, 0, 0, 0, 0, 3, 255, 4, 2]], _, _, ?_, rfl, ?_⟩
  · intro op hop
    simp only [List.mem_cons, List.not_mem_nil, or_false] at hop
    rcases hop with rfl | rfl | rfl <;>
      first | exact trivial | exact ⟨by decide, by decide⟩ | exact ⟨by decide, by simp [Fine]⟩
  · decide +kernel

/-- An error response without exception code is accepted, the user gets a code which was never received. -/
theorem exception_code_missing : ∃ (ops : List (Op Nat)) (os : List (Out Nat)) (c : Client Nat), (∀ op ∈ ops, OpFine op) ∧
    run .new ops = some (os, c) ∧ answers os = [[.error 3 0 none 100, .destroy 100]] := by
  refine ⟨[.push 5000000 (.holding 7 1) (.ok 100), .write 5000001 2048, .read .ok [0, 0, 0, 0, 0, 2, 255, 0x83]], _, _, ?_, rfl, ?_⟩
  · intro op hop
    simp only [List.mem_cons, List.not_mem_nil, or_false] at hop
    rcases hop with rfl | rfl | rfl <;>
      first | exact trivial | exact ⟨by decide, by decide⟩ | exact ⟨by decide, by simp [Fine]⟩
  · decide +kernel

end Verif.Modbus
