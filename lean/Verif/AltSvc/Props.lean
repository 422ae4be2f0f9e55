import Verif.AltSvc.Spec
import Verif.Uri.Props

/-!
# C142 and C143: graylists, and which service is used
-/
namespace Verif.AltSvc
open Verif Spec Verif.Endian

/-! ## Graylists -/

theorem fresh_fresh (now t : Nat) (h : t ≤ now) (l : List Entry) : fresh now (fresh t l) = fresh now l := by
  unfold fresh
  rw [List.filter_filter]
  congr 1
  funext e
  rw [Bool.eq_iff_iff]
  simp only [gt_iff_lt, Nat.not_lt, Bool.and_eq_true, decide_eq_true_eq]
  omega

theorem fresh_append (now : Nat) (a b : List Entry) : fresh now (a ++ b) = fresh now a ++ fresh now b := List.filter_append ..

/-- The flags of an address in entries which have not expired. -/
def flagList (addr : Bytes) (l : List Entry) : List UInt32 := l.filterMap fun e => if e.addr = addr then some e.flags else none

theorem count_eq (now : Nat) (addr : Bytes) (l : List Entry) : count now addr l = (flagList addr (fresh now l)).length := by
  unfold count flagList
  generalize fresh now l = m
  have : ∀ n, m.foldl (fun n e => if e.addr = addr then n + 1 else n) n = n + (m.filterMap fun e => if e.addr = addr then some e.flags else none).length := by
    induction m with
    | nil => intro n; rfl
    | cons e m ih =>
      intro n
      simp only [List.foldl_cons, List.filterMap_cons]
      rw [ih]
      split <;> simp_all <;> omega
  rw [this]; simp

theorem flagsOf_eq (now : Nat) (addr : Bytes) (l : List Entry) : flagsOf now addr l = (flagList addr (fresh now l)).foldl (· ||| ·) 0 := by
  unfold flagsOf flagList
  generalize fresh now l = m
  have : ∀ n, m.foldl (fun n e => if e.addr = addr then n ||| e.flags else n) n = (m.filterMap fun e => if e.addr = addr then some e.flags else none).foldl (· ||| ·) n := by
    induction m with
    | nil => intro n; rfl
    | cons e m ih =>
      intro n
      simp only [List.foldl_cons, List.filterMap_cons]
      rw [ih]
      split <;> simp_all
  exact this 0

/-- For all which happened to a graylist, in any order and with any addresses: an address has the flags it was put on the list with and is counted as often as it was put there, for all times which have not passed.
How often the list was looked at before does not matter. -/
theorem graylist_exact (ops : List Op) (now : Nat) (addr : Bytes) (h : ∀ t, Op.look t ∈ ops → t ≤ now) :
    count now addr (run ops) = (active ops now addr).length ∧ flagsOf now addr (run ops) = (active ops now addr).foldl (· ||| ·) 0 := by
  have key : ∀ (ops : List Op) (l : List Entry), (∀ t, Op.look t ∈ ops → t ≤ now) → flagList addr (fresh now (ops.foldl step l)) = flagList addr (fresh now l) ++ active ops now addr := by
    intro ops
    induction ops with
    | nil => intro l _; simp [active]
    | cons o ops ih =>
      intro l h
      have h' : ∀ t, Op.look t ∈ ops → t ≤ now := fun t ht => h t (List.mem_cons_of_mem _ ht)
      rw [List.foldl_cons, ih _ h']
      cases o with
      | look t =>
        show flagList addr (fresh now (fresh t l)) ++ _ = _
        rw [fresh_fresh now t (h t (by simp))]
        simp [active]
      | push t a p f =>
        show flagList addr (fresh now (push t a p f l)) ++ _ = _
        unfold push
        by_cases hp : p = 0
        · simp [active, hp]
        · rw [if_neg hp, fresh_append]
          by_cases hn : now ≤ t + p
          · by_cases ha : a = addr
            · simp [flagList, fresh, active, hp, ha, hn, List.filterMap_append]
            · simp [flagList, fresh, active, hp, ha, hn, List.filterMap_append]
          · simp [flagList, fresh, active, hp, hn]
  have := key ops [] h
  rw [count_eq, flagsOf_eq]
  unfold run
  rw [this]
  simp [flagList, fresh]

example : active [.push 0 [1] 10 1, .look 5, .push 5 [1] 100 2, .push 5 [2] 100 4, .look 20] 50 [1] = [2] := by decide

/-- Clearing flags of an address does not change anything for others, as long as entries have flags. -/
theorem clear_others (now : Nat) (a b : Bytes) (f : UInt32) (l : List Entry) (hab : b ≠ a) (hf : ∀ e ∈ l, e.flags ≠ 0) :
    flagsOf now b (flagsClear a f l) = flagsOf now b l ∧ count now b (flagsClear a f l) = count now b l := by
  rw [count_eq, count_eq, flagsOf_eq, flagsOf_eq]
  have : flagList b (fresh now (flagsClear a f l)) = flagList b (fresh now l) := by
    unfold flagsClear flagList fresh
    induction l with
    | nil => rfl
    | cons e l ih =>
      have ih := ih fun e he => hf e (List.mem_cons_of_mem _ he)
      have he := hf e (by simp)
      simp only [List.map_cons]
      by_cases ha : e.addr = a
      · simp only [if_pos ha]
        have h1 : ∀ x : Entry, x.addr = a → (if x.addr = b then some x.flags else none) = none := fun x hx => if_neg (by rw [hx]; exact fun h => hab h.symm)
        by_cases h0 : (e.flags &&& ~~~f) != 0
        · rw [List.filter_cons_of_pos (by exact h0)]
          by_cases hx : now > e.expire
          · rw [List.filter_cons_of_neg (by simpa using hx), List.filter_cons_of_neg (by simpa using hx)]; exact ih
          · rw [List.filter_cons_of_pos (by simpa using hx), List.filter_cons_of_pos (by simpa using hx), List.filterMap_cons, List.filterMap_cons, h1 _ (by exact ha), h1 _ ha]; exact ih
        · rw [List.filter_cons_of_neg (by exact h0)]
          by_cases hx : now > e.expire
          · rw [List.filter_cons_of_neg (a := e) (by simpa using hx)]; exact ih
          · rw [List.filter_cons_of_pos (a := e) (by simpa using hx), List.filterMap_cons, h1 _ ha]; exact ih
      · simp only [if_neg ha]
        rw [List.filter_cons_of_pos (by simpa using he)]
        by_cases hx : now > e.expire
        · rw [List.filter_cons_of_neg (by simpa using hx), List.filter_cons_of_neg (by simpa using hx)]; exact ih
        · rw [List.filter_cons_of_pos (by simpa using hx), List.filter_cons_of_pos (by simpa using hx), List.filterMap_cons, List.filterMap_cons, ih]
  rw [this]
  exact ⟨rfl, rfl⟩

/-- An address which was put on the list without flags is removed when flags of another address are cleared. -/
theorem clear_removes_others : count 5 [1] (push 0 [1] 10 0 []) = 1 ∧ count 5 [1] (flagsClear [2] 1 (push 0 [1] 10 0 [])) = 0 := by decide

/-! ## Connections -/

/-- Different servers, ports or versions have different addresses. -/
theorem addr_injective (s s' : Bytes) (n n' : UInt64) (a : Bytes) (h : addrMake s n = some a) (h' : addrMake s' n' = some a) : s = s' ∧ n = n' := by
  unfold addrMake at h h'
  split at h
  · split at h'
    · cases h
      simp only [Option.some.injEq] at h'
      have := List.append_inj h' (by rw [be64_length, be64_length])
      refine ⟨this.2.symm, ?_⟩
      rw [← of_be64 n, ← of_be64 n', this.1]
    · cases h'
  · cases h

theorem matchNumber_injective (p q : UInt16) (a b : Nat) (ha : a < 256) (hb : b < 256) (h : matchNumber p a = matchNumber q b) : p = q ∧ a = b := by
  have h := congrArg UInt64.toNat h
  unfold matchNumber at h
  have hp := p.toNat_lt
  have hq := q.toNat_lt
  rw [UInt64.toNat_ofNat', UInt64.toNat_ofNat', Nat.mod_eq_of_lt (by omega), Nat.mod_eq_of_lt (by omega)] at h
  refine ⟨UInt16.toNat_inj.mp (by omega), by omega⟩

/-- The entries of a connection. -/
def entriesOf (t : Try) : List Entry := match addrMake t.server t.number with
  | none => []
  | some a => [⟨a, t.time + longPeriod, long⟩, ⟨a, t.time + shortPeriod, short⟩]

theorem backward_tail {t : Try} {r : List Try} (h : Backward (t :: r)) : Backward r := by
  cases r with
  | nil => trivial
  | cons a r => exact h.2

theorem backward_le {r : List Try} : ∀ {t : Try}, Backward (t :: r) → ∀ x ∈ r, x.time ≤ t.time := by
  induction r with
  | nil => intro t _ x hx; cases hx
  | cons a r ih =>
    intro t h x hx
    rcases List.mem_cons.mp hx with rfl | hx
    · exact h.1
    · exact Nat.le_trans (ih h.2 x hx) h.1

/-- The list has the entries of all connections which were made. -/
theorem tries_fresh (l : List Try) (hb : Backward l) (now : Nat) (hn : ∀ t ∈ l, t.time ≤ now) : fresh now (tries l).1 = fresh now ((tries l).2.reverse.flatMap entriesOf) := by
  induction l with
  | nil => rfl
  | cons t r ih =>
    have ih := ih (backward_tail hb) fun x hx => hn x (List.mem_cons_of_mem _ hx)
    have ht : t.time ≤ now := hn t (by simp)
    simp only [tries]
    unfold attempt
    cases ha : addrMake t.server t.number with
    | none => simpa using ih
    | some a =>
      simp only
      split
      · simp only [reduceCtorEq, if_false]
        rw [fresh_fresh now _ ht]; exact ih
      · simp only [if_true, List.reverse_cons, List.flatMap_append, List.flatMap_cons, List.flatMap_nil, List.append_nil]
        unfold push
        rw [if_neg (by decide), if_neg (by decide), fresh_append, fresh_append, fresh_append, fresh_fresh now _ ht, ih]
        simp only [entriesOf, ha, List.append_assoc]
        congr 1
        rw [← fresh_append]; rfl

theorem tries_mem (l : List Try) : ∀ c ∈ (tries l).2, c ∈ l ∧ (addrMake c.server c.number).isSome := by
  induction l with
  | nil => intro c hc; cases hc
  | cons t r ih =>
    intro c hc
    simp only [tries] at hc
    split at hc
    · next h =>
      rcases List.mem_cons.mp hc with rfl | hc
      · refine ⟨by simp, ?_⟩
        unfold attempt at h
        cases ha : addrMake c.server c.number with
        | none => rw [ha] at h; cases h
        | some a => rfl
      · exact ⟨List.mem_cons_of_mem _ (ih c hc).1, (ih c hc).2⟩
    · exact ⟨List.mem_cons_of_mem _ (ih c hc).1, (ih c hc).2⟩

theorem mem_flagList (addr : Bytes) (f : UInt32) (l : List Entry) : f ∈ flagList addr l ↔ ∃ e ∈ l, e.addr = addr ∧ e.flags = f := by
  unfold flagList
  simp only [List.mem_filterMap]
  constructor
  · rintro ⟨e, he, h⟩
    split at h
    · next ha => exact ⟨e, he, ha, by simpa using h⟩
    · cases h
  · rintro ⟨e, he, ha, hf⟩
    exact ⟨e, he, by rw [if_pos ha, hf]⟩

/-- What is on the list at a time: entries of the connections to that server in the last second, and in the last fifth of a second. -/
theorem tries_flags (l : List Try) (hb : Backward l) (now : Nat) (hn : ∀ t ∈ l, t.time ≤ now) (s : Bytes) (n : UInt64) (a : Bytes) (ha : addrMake s n = some a) (f : UInt32) :
    f ∈ flagList a (fresh now (tries l).1) ↔ ∃ c ∈ (tries l).2, c.server = s ∧ c.number = n ∧ ((f = long ∧ now ≤ c.time + longPeriod) ∨ (f = short ∧ now ≤ c.time + shortPeriod)) := by
  rw [tries_fresh l hb now hn, mem_flagList]
  constructor
  · rintro ⟨e, he, hea, hef⟩
    unfold fresh at he
    simp only [List.mem_filter, List.mem_flatMap, List.mem_reverse, gt_iff_lt, Nat.not_lt, decide_eq_true_eq] at he
    obtain ⟨⟨c, hc, hec⟩, hx⟩ := he
    unfold entriesOf at hec
    cases hca : addrMake c.server c.number with
    | none => rw [hca] at hec; cases hec
    | some b =>
      rw [hca] at hec
      simp only [List.mem_cons, List.not_mem_nil, or_false] at hec
      have hba : b = a := by rcases hec with rfl | rfl <;> exact hea
      subst hba
      obtain ⟨h1, h2⟩ := addr_injective _ _ _ _ _ hca ha
      refine ⟨c, hc, h1, h2, ?_⟩
      rcases hec with rfl | rfl
      · exact .inl ⟨hef.symm, hx⟩
      · exact .inr ⟨hef.symm, hx⟩
  · rintro ⟨c, hc, rfl, rfl, h⟩
    rcases h with ⟨rfl, h⟩ | ⟨rfl, h⟩
    · refine ⟨⟨a, c.time + longPeriod, long⟩, ?_, rfl, rfl⟩
      unfold fresh
      simp only [List.mem_filter, List.mem_flatMap, List.mem_reverse, gt_iff_lt, Nat.not_lt, decide_eq_true_eq]
      exact ⟨⟨c, hc, by simp [entriesOf, ha]⟩, h⟩
    · refine ⟨⟨a, c.time + shortPeriod, short⟩, ?_, rfl, rfl⟩
      unfold fresh
      simp only [List.mem_filter, List.mem_flatMap, List.mem_reverse, gt_iff_lt, Nat.not_lt, decide_eq_true_eq]
      exact ⟨⟨c, hc, by simp [entriesOf, ha]⟩, h⟩

/-- After any requests to any servers: a connection to a server is made exactly if none was made to that server, port and version in the last second. -/
theorem connect_iff (l : List Try) (t : Try) (hb : Backward (t :: l)) (hs : t.server.length ≤ 120) :
    (attempt t.time t.server t.number (tries l).1).2 = .connect ↔ ∀ c ∈ (tries l).2, c.server = t.server → c.number = t.number → t.time > c.time + 1000000 := by
  have ha : addrMake t.server t.number = some (be64 t.number ++ t.server) := if_pos (by omega)
  have key := tries_flags l (backward_tail hb) t.time (backward_le hb) t.server t.number _ ha
  unfold attempt
  rw [ha]
  simp only
  rw [count_eq, fresh_fresh _ _ (Nat.le_refl _)]
  have hl : longPeriod = 1000000 := rfl
  have hsh : shortPeriod = 200000 := rfl
  constructor
  · intro h c hc h1 h2
    split at h
    · cases h
    · next h0 =>
      have h0 : flagList (be64 t.number ++ t.server) (fresh t.time (tries l).1) = [] := List.length_eq_zero_iff.mp (by omega)
      apply Classical.byContradiction
      intro hlt
      have := (key long).mpr ⟨c, hc, h1, h2, .inl ⟨rfl, by omega⟩⟩
      rw [h0] at this
      cases this
  · intro h
    rw [if_neg]
    intro hpos
    obtain ⟨f, hf⟩ := List.exists_mem_of_length_pos hpos
    obtain ⟨c, hc, h1, h2, h3⟩ := (key f).mp hf
    have := h c hc h1 h2
    rcases h3 with ⟨_, h3⟩ | ⟨_, h3⟩ <;> omega

/-- Two connections to the same server, port and version are more than a second apart. -/
theorem connects_apart (l : List Try) (hb : Backward l) : ((tries l).2).Pairwise fun later earlier => later.server = earlier.server → later.number = earlier.number → later.time > earlier.time + 1000000 := by
  induction l with
  | nil => exact List.Pairwise.nil
  | cons t r ih =>
    have ih := ih (backward_tail hb)
    simp only [tries]
    split
    · next h =>
      refine List.Pairwise.cons ?_ ih
      intro c hc h1 h2
      have hs : t.server.length ≤ 120 := by
        unfold attempt addrMake at h
        apply Classical.byContradiction
        intro hlt
        rw [if_neg (by omega)] at h
        cases h
      exact (connect_iff r t hb hs).mp h c hc h1.symm h2.symm
    · exact ih

example : (tries [⟨1300000, [97], 5⟩, ⟨1000000, [97], 5⟩, ⟨500000, [98], 5⟩, ⟨200000, [97], 5⟩]).2 = [⟨1300000, [97], 5⟩, ⟨500000, [98], 5⟩, ⟨200000, [97], 5⟩] ∧
    Backward [⟨1300000, [97], 5⟩, ⟨1000000, [97], 5⟩, ⟨500000, [98], 5⟩, ⟨200000, [97], 5⟩] := by
  refine ⟨by decide +kernel, by simp [Backward]⟩

end Verif.AltSvc
