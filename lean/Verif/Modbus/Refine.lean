import Verif.Modbus.Lemmas
/-!
# The client follows the ledger
-/
namespace Verif.Modbus
open Verif Endian Spec

variable {P : Type}

/-- What the slot of a request holds. -/
def content (i : Nat) (e : Entry P) : Transaction P :=
  match e.status with
  | .waiting => ⟨UInt16.ofNat i, pdu e.call, 0, some e.priv⟩
  | .sent t => ⟨UInt16.ofNat i, pdu e.call, t, some e.priv⟩
  | .finished => .zero

/-- The client and the ledger; `n` requests are sent. -/
structure R (c : Client P) (l : Ledger P) (n : Nat) : Prop where
  idPos : c.idPos = UInt16.ofNat l.length
  len : c.slots.length = 32
  wpos : c.writePos = l.length % 32
  tpos : c.transmitPos = n % 32
  tle : n ≤ l.length
  tge : l.length ≤ n + 32
  st : ∀ (i : Nat) (e : Entry P), l[i]? = some e → (e.status = .waiting ↔ n ≤ i)
  times : ∀ (i : Nat) (e : Entry P) (t : UInt64), l[i]? = some e → e.status = .sent t → t ≠ 0
  fine : ∀ (i : Nat) (e : Entry P), l[i]? = some e → Fine e.call
  old : ∀ (i : Nat) (e : Entry P), l[i]? = some e → i + 32 < l.length → e.status = .finished
  slot : ∀ (i : Nat) (e : Entry P), l[i]? = some e → l.length ≤ i + 32 → c.slots[i % 32]? = some (content i e)
  free : ∀ s, s < 32 → l.length ≤ s → c.slots[s]? = some .zero

theorem R.new : R (P := P) .new [] 0 := by
  refine ⟨rfl, by simp [Client.new, slotCount], rfl, rfl, by simp, by simp, by simp, by simp, by simp, by simp, by simp, ?_⟩
  intro s hs _
  show (List.replicate slotCount (Transaction.zero (P := P)))[s]? = _
  rw [List.getElem?_replicate, if_pos (show s < slotCount from hs)]

theorem lt_of_get {α : Type} {l : List α} {i : Nat} {e : α} (h : l[i]? = some e) : i < l.length := by
  rw [List.getElem?_eq_some_iff] at h
  exact h.1

/-- Every slot is free or holds one of the last 32 requests. -/
theorem R.slots {c : Client P} {l : Ledger P} {n : Nat} (h : R c l n) (s : Nat) (hs : s < 32) :
    c.slots[s]? = some .zero ∨ ∃ i e, l[i]? = some e ∧ l.length ≤ i + 32 ∧ i % 32 = s ∧ c.slots[s]? = some (content i e) := by
  by_cases hf : l.length ≤ s
  · exact Or.inl (h.free s hs hf)
  · right
    have hi : l.length - 1 - (l.length - 1 - s) % 32 < l.length := by omega
    have hm : (l.length - 1 - (l.length - 1 - s) % 32) % 32 = s := by omega
    refine ⟨_, l[_]'hi, List.getElem?_eq_getElem hi, by omega, hm, ?_⟩
    have := h.slot _ _ (List.getElem?_eq_getElem hi) (by omega)
    rwa [hm] at this

/-! ## Pushing -/

theorem slot_busy {e : Entry P} {i : Nat} (h : e.status ≠ .finished) : (content i e).req = pdu e.call := by
  unfold content
  split <;> simp_all

theorem R.at_write {c : Client P} {l : Ledger P} {n : Nat} (h : R c l n) :
    (l.length < 32 ∧ c.slots.getD c.writePos .zero = .zero) ∨
    ∃ i e, i + 32 = l.length ∧ l[i]? = some e ∧ c.slots.getD c.writePos .zero = content i e := by
  by_cases hl : l.length < 32
  · left
    refine ⟨hl, ?_⟩
    rw [h.wpos, Nat.mod_eq_of_lt hl, List.getD_eq_getElem?_getD, h.free _ hl (Nat.le_refl _)]
    rfl
  · right
    have hi : l.length - 32 < l.length := by omega
    refine ⟨l.length - 32, l[l.length - 32], by omega, List.getElem?_eq_getElem hi, ?_⟩
    have := h.slot _ _ (List.getElem?_eq_getElem hi) (by omega)
    rw [show (l.length - 32) % 32 = l.length % 32 by omega] at this
    rw [h.wpos, List.getD_eq_getElem?_getD, this]
    rfl

theorem get_append_one {α : Type} {l : List α} {x e : α} {i : Nat} (h : (l ++ [x])[i]? = some e) :
    (l[i]? = some e) ∨ (i = l.length ∧ e = x) := by
  rw [List.getElem?_append] at h
  split at h
  · exact Or.inl h
  · rename_i hlt
    have : i - l.length = 0 := by
      by_cases h0 : i - l.length = 0
      · exact h0
      · rw [List.getElem?_eq_none (by simp; omega)] at h; cases h
    rw [this] at h
    right
    refine ⟨by omega, ?_⟩
    simpa using h.symm

theorem push_accept {c : Client P} {l : Ledger P} {n : Nat} (h : R c l n) (call : Call) (hc : Fine call) (p : P)
    (hfree : ∀ i e, i + 32 = l.length → l[i]? = some e → e.status = .finished) :
    R { c with writePos := (if c.writePos + 1 = slotCount then 0 else c.writePos + 1), idPos := c.idPos + 1,
               slots := c.slots.set c.writePos ⟨c.idPos, pdu call, 0, some p⟩ } (l ++ [⟨call, p, .waiting⟩]) n := by
  have hlen : (l ++ [(⟨call, p, .waiting⟩ : Entry P)]).length = l.length + 1 := by simp
  have hnl : l.length < n + 32 := by
    rcases Nat.lt_or_ge l.length (n + 32) with h1 | h1
    · exact h1
    · exfalso
      have he : l.length = n + 32 := Nat.le_antisymm h.tge h1
      have hi : n < l.length := by omega
      have h2 := hfree n _ he.symm (List.getElem?_eq_getElem hi)
      have h3 := (h.st n _ (List.getElem?_eq_getElem hi)).mpr (Nat.le_refl _)
      rw [h2] at h3
      cases h3
  refine ⟨?_, by simp [h.len], ?_, h.tpos, by rw [hlen]; have := h.tle; omega, by rw [hlen]; omega, ?_, ?_, ?_, ?_, ?_, ?_⟩
  · show c.idPos + 1 = _
    rw [h.idPos, hlen]
    apply UInt16.toNat_inj.mp
    rw [UInt16.toNat_add, UInt16.toNat_ofNat', UInt16.toNat_ofNat']
    show (_ + 1) % 65536 = _
    omega
  · show (if c.writePos + 1 = slotCount then 0 else c.writePos + 1) = _
    rw [h.wpos, hlen]
    unfold slotCount
    split <;> omega
  · intro i e he
    rcases get_append_one he with he | ⟨rfl, rfl⟩
    · exact h.st i e he
    · simp [h.tle]
  · intro i e t he hs
    rcases get_append_one he with he | ⟨rfl, rfl⟩
    · exact h.times i e t he hs
    · cases hs
  · intro i e he
    rcases get_append_one he with he | ⟨rfl, rfl⟩
    · exact h.fine i e he
    · exact hc
  · intro i e he hi
    rw [hlen] at hi
    rcases get_append_one he with he | ⟨rfl, rfl⟩
    · rcases Nat.lt_or_ge (i + 32) l.length with h1 | h1
      · exact h.old i e he h1
      · exact hfree i e (by omega) he
    · omega
  · intro i e he hi
    rw [hlen] at hi
    show (c.slots.set c.writePos _)[i % 32]? = _
    rcases get_append_one he with he | ⟨rfl, rfl⟩
    · have := lt_of_get he
      rw [List.getElem?_set_ne (by rw [h.wpos]; omega)]
      exact h.slot i e he (by omega)
    · rw [← h.wpos, List.getElem?_set_self (by rw [h.len, h.wpos]; omega), h.idPos]
      rfl
  · intro s hs hf
    rw [hlen] at hf
    show (c.slots.set c.writePos _)[s]? = _
    rw [List.getElem?_set_ne (by rw [h.wpos]; omega)]
    exact h.free s hs (by omega)

theorem push_step {c : Client P} {l : Ledger P} {n : Nat} (h : R c l n) (now : UInt64) (call : Call) (created : Except Ret P)
    (hnow : 1000000 ≤ now.toNat) (hc : Fine call) :
    ∃ o c' l', step c (.push now call created) = some (o, c') ∧ Spec.Step l (.push now call created) o l' ∧ ∃ n', R c' l' n' := by
  unfold step push
  dsimp only
  rw [req_fine call hc]
  simp only [Option.map_some]
  unfold reqPush
  cases created with
  | error r => exact ⟨_, _, _, rfl, .push (.failed r), n, h⟩
  | ok p =>
    dsimp only
    have hsub : (now - 1 * 1000 * 1000 : UInt64).toNat = now.toNat - 1000000 := by
      have e : (1 * 1000 * 1000 : UInt64).toNat = 1000000 := rfl
      rw [UInt64.toNat_sub_of_le _ _ (UInt64.le_iff_toNat_le.mpr (by rw [e]; exact hnow)), e]
    unfold reserve
    rcases h.at_write with ⟨hl, hz⟩ | ⟨i, e, hi, he, hz⟩
    · simp only [hz]
      rw [if_neg (by simp [Transaction.zero])]
      refine ⟨_, _, _, rfl, .push (.accepted p ?_), n, push_accept h call hc p ?_⟩
      · intro i e hi; omega
      · intro i e hi; omega
    · simp only [hz]
      have hpl := pdu_length e.call (h.fine i e he)
      cases hs : e.status with
      | finished =>
        have hfr : ∀ j f, j + 32 = l.length → l[j]? = some f → f.status = .finished := by
          intro j f hj hf
          have : j = i := by omega
          subst this
          rw [he] at hf
          cases hf
          exact hs
        rw [if_neg (by simp [content, hs, Transaction.zero])]
        exact ⟨_, _, _, rfl, .push (.accepted p hfr), n, push_accept h call hc p hfr⟩
      | waiting =>
        rw [if_pos (by rw [slot_busy (by rw [hs]; simp)]; omega), if_neg (by simp [content, hs])]
        exact ⟨_, _, _, rfl, .push (.full p i e hi he (by rw [hs]; simp) (by intro t ht; rw [hs] at ht; cases ht)), n, h⟩
      | sent t =>
        rw [if_pos (by rw [slot_busy (by rw [hs]; simp)]; omega)]
        have htm : (content i e).time = t := by simp [content, hs]
        have ht0 := h.times i e t he hs
        rw [htm]
        by_cases hto : t.toNat + 1000000 < now.toNat
        · rw [if_pos]
          · exact ⟨_, _, _, rfl, .push (.timeout p i e t hi he hs hto), n, h⟩
          · refine ⟨UInt64.lt_iff_toNat_lt.mpr ?_, UInt64.lt_iff_toNat_lt.mpr (by rw [hsub]; omega)⟩
            show 0 < t.toNat
            rcases Nat.eq_zero_or_pos t.toNat with h0 | h0
            · exact absurd (UInt64.toNat_inj.mp h0) ht0
            · exact h0
        · rw [if_neg]
          · refine ⟨_, _, _, rfl, .push (.full p i e hi he (by rw [hs]; simp) ?_), n, h⟩
            intro t' ht'
            rw [hs] at ht'
            cases ht'
            omega
          · rintro ⟨_, h2⟩
            have := UInt64.lt_iff_toNat_lt.mp h2
            rw [hsub] at this
            omega

/-! ## Writing -/

theorem get_mark {l : Ledger P} {i j : Nat} {s : Status} {e : Entry P} (h : (mark l i s)[j]? = some e) :
    ∃ f, l[j]? = some f ∧ ((j ≠ i ∧ e = f) ∨ (j = i ∧ e = { f with status := s })) := by
  unfold mark at h
  rw [List.getElem?_modify] at h
  cases hf : l[j]? with
  | none => rw [hf] at h; simp at h
  | some f =>
    rw [hf] at h
    refine ⟨f, rfl, ?_⟩
    by_cases hij : i = j
    · right
      refine ⟨hij.symm, ?_⟩
      simpa [hij] using h.symm
    · left
      refine ⟨fun e => hij e.symm, ?_⟩
      simpa [hij] using h.symm

theorem mark_length (l : Ledger P) (i : Nat) (s : Status) : (mark l i s).length = l.length := by
  unfold mark; simp

/-- A change of the state of a request and of its slot. -/
theorem R.marked {c : Client P} {l : Ledger P} {n : Nat} (h : R c l n) (i : Nat) (e : Entry P) (he : l[i]? = some e)
    (hw : l.length ≤ i + 32) (s : Status) (n' tp : Nat) (htp : tp = n' % 32) (hn1 : n' ≤ l.length) (hn2 : l.length ≤ n' + 32)
    (hst : ∀ j f, (mark l i s)[j]? = some f → (f.status = .waiting ↔ n' ≤ j)) (hs : ∀ t, s = .sent t → t ≠ 0) :
    R { c with transmitPos := tp, slots := c.slots.set (i % 32) (content i { e with status := s }) } (mark l i s) n' := by
  have hlen := mark_length l i s
  have hil := lt_of_get he
  refine ⟨by rw [hlen]; exact h.idPos, by simp [h.len], by rw [hlen]; exact h.wpos, htp, by rw [hlen]; exact hn1, by rw [hlen]; exact hn2,
    hst, ?_, ?_, ?_, ?_, ?_⟩
  · intro j f t hf ht
    obtain ⟨g, hg, ⟨_, rfl⟩ | ⟨_, rfl⟩⟩ := get_mark hf
    · exact h.times j f t hg ht
    · exact hs t ht
  · intro j f hf
    obtain ⟨g, hg, ⟨_, rfl⟩ | ⟨_, rfl⟩⟩ := get_mark hf
    · exact h.fine j f hg
    · exact h.fine j g hg
  · intro j f hf hj
    rw [hlen] at hj
    obtain ⟨g, hg, ⟨_, rfl⟩ | ⟨rfl, rfl⟩⟩ := get_mark hf
    · exact h.old j f hg hj
    · omega
  · intro j f hf hj
    rw [hlen] at hj
    show (c.slots.set (i % 32) _)[j % 32]? = _
    obtain ⟨g, hg, ⟨hne, rfl⟩ | ⟨rfl, rfl⟩⟩ := get_mark hf
    · have := lt_of_get hg
      rw [List.getElem?_set_ne (by omega)]
      exact h.slot j f hg hj
    · rw [he] at hg
      cases hg
      rw [List.getElem?_set_self (by rw [h.len]; omega)]
  · intro k hk hf
    rw [hlen] at hf
    show (c.slots.set (i % 32) _)[k]? = _
    rw [List.getElem?_set_ne (by omega)]
    exact h.free k hk hf

theorem write_step {c : Client P} {l : Ledger P} {n : Nat} (h : R c l n) (now : UInt64) (room : Nat) (hnow : now ≠ 0)
    (hroom : 259 ≤ room) :
    ∃ o c' l', step c (.write now room) = some (o, c') ∧ Spec.Step l (.write now room) o l' ∧ ∃ n', R c' l' n' := by
  unfold step write
  rcases Nat.lt_or_ge n l.length with hlt | hge
  · have he := List.getElem?_eq_getElem hlt
    generalize l[n] = e at he
    have hw := (h.st n e he).mpr (Nat.le_refl _)
    have hslot := h.slot n e he h.tge
    have hc : content n e = ⟨UInt16.ofNat n, pdu e.call, 0, some e.priv⟩ := by unfold content; rw [hw]
    have hpl := pdu_length e.call (h.fine n e he)
    have hg : c.slots.getD c.transmitPos .zero = ⟨UInt16.ofNat n, pdu e.call, 0, some e.priv⟩ := by
      rw [h.tpos, List.getD_eq_getElem?_getD, hslot, hc]
      rfl
    simp only [hg]
    rw [if_neg (by simp; intro h0; rw [h0] at hpl; simp at hpl), if_neg (by omega), if_neg (by omega)]
    refine ⟨_, _, mark l n (.sent now), rfl, .write (o := .write .ok _) ?_, n + 1, ?_⟩
    rotate_left
    · have := h.marked n e he h.tge (.sent now) (n + 1) (if c.transmitPos + 1 = slotCount then 0 else c.transmitPos + 1)
        (by rw [h.tpos]; unfold slotCount; split <;> omega) hlt (by have := h.tge; omega) (by
          intro j f hf
          obtain ⟨g, hg, ⟨hne, rfl⟩ | ⟨rfl, rfl⟩⟩ := get_mark hf
          · rw [h.st j f hg]
            omega
          · simp) (by intro t ht; cases ht; exact hnow)
      rw [h.tpos] at this ⊢
      exact this
    · have hf : be16 (UInt16.ofNat n) ++ be16 0 ++ be16 (UInt16.ofNat ((pdu e.call).length + 1)) ++ [0xff] ++ pdu e.call =
          frame (n % 65536) (pdu e.call) := by
        unfold frame
        rw [be16_word, be16_word, be16_word, UInt16.toNat_ofNat', UInt16.toNat_ofNat',
          Nat.mod_eq_of_lt (show (pdu e.call).length + 1 < 2 ^ 16 by omega), Nat.add_comm 1]
        rfl
      rw [hf]
      exact .send n e he hw (by
        intro j f hj hf hwf
        have := (h.st j f hf).mp hwf
        omega)
  · have hnl : n = l.length := Nat.le_antisymm h.tle hge
    have hnw : ∀ (j : Nat) (f : Entry P), l[j]? = some f → f.status ≠ .waiting := by
      intro j f hf hw
      have := (h.st j f hf).mp hw
      have := lt_of_get hf
      omega
    dsimp only
    rw [if_pos]
    · refine ⟨_, _, _, rfl, .write (.nothing ?_), n, h⟩
      intro e he
      obtain ⟨j, hj⟩ := List.mem_iff_getElem?.mp he
      exact hnw j e hj
    · rw [h.tpos, hnl, ← h.wpos]
      rcases h.at_write with ⟨_, hz⟩ | ⟨i, e, hi, he, hz⟩
      · rw [hz]; left; rfl
      · rw [hz]
        cases hs : e.status with
        | waiting => exact absurd hs (hnw i e he)
        | finished => left; simp [content, hs, Transaction.zero]
        | sent t => right; simp only [content, hs]; exact h.times i e t he hs

/-! ## Reading -/

theorem received_eq (c : Client P) (cb : Ret) (b : Bytes) :
    read c cb b = match received b with
      | .more => some (.incomplete, none, [], c)
      | .bad => some (.soft, none, [], c)
      | .frame id r n => (receive c cb id r).map fun (x, es, c) => (x, if x = .ok then some n else none, es, c) := by
  unfold read received
  have hl : (at16 b 4).toNat = announced b - 6 := by rw [at16_toNat]; unfold announced; simp only [show 4 + 1 = 5 from rfl]; omega
  have ha : 6 ≤ announced b := by unfold announced; omega
  by_cases h7 : b.length < 7
  · rw [if_pos h7, if_pos h7]
  · rw [if_neg h7, if_neg h7]
    simp only [hl]
    by_cases h6 : announced b = 6
    · rw [if_pos (by omega), if_pos h6]
    · rw [if_neg (by omega), if_neg h6]
      by_cases hm : b.length < announced b
      · rw [if_pos (by omega), if_pos hm]
      · rw [if_neg (by omega), if_neg hm]
        by_cases h8 : announced b < 8
        · rw [if_pos (by omega), if_pos (by omega)]
        · rw [if_neg (by omega)]
          by_cases h9 : 259 < announced b
          · rw [if_pos (by omega), if_pos (by omega)]
          · rw [if_neg (by omega), if_neg (by omega)]
            dsimp only
            rw [at16_eq, show 6 + (announced b - 6) = announced b by omega, List.drop_take]

theorem received_pdu {b : Bytes} {id : UInt16} {r : Bytes} {n : Nat} (h : received b = .frame id r n) : r ≠ [] ∧ r.length ≤ 252 := by
  unfold received at h
  split at h
  · cases h
  · split at h
    · cases h
    · split at h
      · cases h
      · split at h
        · cases h
        · cases h
          constructor
          · intro e
            have := congrArg List.length e
            rw [List.length_drop, List.length_take, List.length_nil] at this
            omega
          · rw [List.length_drop, List.length_take]
            omega

theorem R.live_window {c : Client P} {l : Ledger P} {n : Nat} (h : R c l n) {i : Nat} (hl : live l i) : i < l.length ∧ l.length ≤ i + 32 := by
  obtain ⟨e, t, he, hs⟩ := hl
  refine ⟨lt_of_get he, ?_⟩
  rcases Nat.lt_or_ge (i + 32) l.length with h1 | h1
  · have := h.old i e he h1
    rw [hs] at this
    cases this
  · exact h1

theorem R.live_unique {c : Client P} {l : Ledger P} {n : Nat} (h : R c l n) {i j : Nat} (hi : live l i) (hj : live l j)
    (he : i % 65536 = j % 65536) : i = j := by
  have := h.live_window hi
  have := h.live_window hj
  omega

theorem content_matches {i : Nat} {e : Entry P} {id : UInt16} :
    Matches id (content i e) ↔ (∃ t, e.status = .sent t ∧ t ≠ 0) ∧ i % 65536 = id.toNat := by
  have hid : id = UInt16.ofNat i ↔ i % 65536 = id.toNat := by
    constructor
    · intro h; rw [h, UInt16.toNat_ofNat']
    · intro h; apply UInt16.toNat_inj.mp; rw [UInt16.toNat_ofNat']; exact h.symm
  unfold content Matches
  split
  · rename_i hs; simp [hs]
  · rename_i t hs; simp [hs, hid]
  · rename_i hs; simp [hs, Transaction.zero]

theorem zero_matches (id : UInt16) : ¬ Matches id (Transaction.zero (P := P)) := by simp [Matches, Transaction.zero]

theorem read_step {c : Client P} {l : Ledger P} {n : Nat} (h : R c l n) (cb : Ret) (b : Bytes) :
    ∃ o c' l', step c (.read cb b) = some (o, c') ∧ Spec.Step l (.read cb b) o l' ∧ ∃ n', R c' l' n' := by
  unfold step
  dsimp only
  rw [received_eq]
  cases hr : received b with
  | more => exact ⟨_, _, _, rfl, .read (.more hr), n, h⟩
  | bad => exact ⟨_, _, _, rfl, .read (.bad hr), n, h⟩
  | frame id r k =>
    dsimp only
    obtain ⟨hr0, hrl⟩ := received_pdu hr
    by_cases hex : ∃ i, live l i ∧ i % 65536 = id.toNat
    · obtain ⟨i, hl, hi⟩ := hex
      have hu : ∀ j, live l j → j % 65536 = id.toNat → j = i := fun j hj he => h.live_unique hj hl (by omega)
      have hwin := h.live_window hl
      obtain ⟨e, t, he, hs⟩ := hl
      have ht := h.times i e t he hs
      have hc : content i e = ⟨id, pdu e.call, t, some e.priv⟩ := by
        unfold content
        rw [hs]
        dsimp only
        congr 1
        apply UInt16.toNat_inj.mp
        rw [UInt16.toNat_ofNat']
        exact hi
      have hslot := h.slot i e he hwin.2
      have hfind : findConsume id c.slots = some (content i e, c.slots.set (i % 32) .zero) := by
        apply findConsume_some id c.slots (i % 32) _ hslot (content_matches.mpr ⟨⟨t, hs, ht⟩, hi⟩)
        intro j u hj hu' hm
        rcases h.slots j (by omega) with hz | ⟨m, f, hf, hmw, hmj, hc'⟩
        · rw [hz] at hu'; cases hu'; exact zero_matches id hm
        · rw [hc'] at hu'
          cases hu'
          obtain ⟨⟨t', hs', _⟩, hid⟩ := content_matches.mp hm
          have := hu m ⟨f, t', hf, hs'⟩ hid
          omega
      have hR : R { c with slots := c.slots.set (i % 32) .zero } (mark l i .finished) n := by
        refine h.marked i e he hwin.2 .finished n c.transmitPos h.tpos h.tle h.tge ?_ (by intro t ht; cases ht)
        intro j f hf
        obtain ⟨g, hg, ⟨hne, rfl⟩ | ⟨rfl, rfl⟩⟩ := get_mark hf
        · exact h.st j f hg
        · rw [he] at hg
          cases hg
          have := h.st j e he
          rw [hs] at this
          constructor
          · intro x; cases x
          · intro x; have := this.mpr x; cases this
      unfold receive
      rw [hfind]
      dsimp only
      rw [hc, receiveFor_eq e.call (h.fine i e he) id t e.priv cb r hr0 hrl]
      cases hv : verdict e.call id e.priv r with
      | foreign => exact ⟨_, _, _, rfl, .read (.foreign id r k hr i ⟨e, t, he, hs⟩ hi hu e he hv), n, hR⟩
      | malformed => exact ⟨_, _, _, rfl, .read (.malformed id r k hr i ⟨e, t, he, hs⟩ hi hu e he hv), n, hR⟩
      | call ev => exact ⟨_, _, _, rfl, .read (.call id r k hr i ⟨e, t, he, hs⟩ hi hu e he ev hv), n, hR⟩
    · have hfind : findConsume id c.slots = none := by
        apply findConsume_none
        intro u hu hm
        obtain ⟨s, hsu⟩ := List.mem_iff_getElem?.mp hu
        have hs32 : s < 32 := h.len ▸ lt_of_get hsu
        rcases h.slots s hs32 with hz | ⟨m, f, hf, hmw, hmj, hc'⟩
        · rw [hz] at hsu; cases hsu; exact zero_matches id hm
        · rw [hc'] at hsu
          cases hsu
          obtain ⟨⟨t', hs', _⟩, hid⟩ := content_matches.mp hm
          exact hex ⟨m, ⟨f, t', hf, hs'⟩, hid⟩
      unfold receive
      rw [hfind]
      exact ⟨_, _, _, rfl, .read (.unknown id r k hr fun i hl hi => hex ⟨i, hl, hi⟩), n, h⟩

theorem step_refines {c : Client P} {l : Ledger P} {n : Nat} (h : R c l n) (op : Op P) (hop : OpFine op) :
    ∃ o c' l', step c op = some (o, c') ∧ Spec.Step l op o l' ∧ ∃ n', R c' l' n' := by
  cases op with
  | push now call created => exact push_step h now call created hop.1 hop.2
  | write now room => exact write_step h now room hop.1 hop.2
  | read cb b => exact read_step h cb b

theorem run_refines (ops : List (Op P)) (hops : ∀ op ∈ ops, OpFine op) : ∀ {c : Client P} {l : Ledger P} {n : Nat}, R c l n →
    ∃ os c' l', run c ops = some (os, c') ∧ Spec.Run l ops os l' ∧ ∃ n', R c' l' n' := by
  induction ops with
  | nil => intro c l n h; exact ⟨[], c, l, rfl, .nil, n, h⟩
  | cons op ops ih =>
    intro c l n h
    obtain ⟨o, c1, l1, h1, h2, n1, h3⟩ := step_refines h op (hops op (by simp))
    obtain ⟨os, c2, l2, k1, k2, n2, k3⟩ := ih (fun x hx => hops x (by simp [hx])) h3
    refine ⟨o :: os, c2, l2, ?_, .cons h2 k2, n2, k3⟩
    unfold run
    rw [h1]
    simp only [Option.bind_some]
    rw [k1]
    rfl

end Verif.Modbus
