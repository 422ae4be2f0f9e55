import Verif.Pfifo.Spec
/-!
# Lists in memory which are owned by different threads
-/
namespace Verif.Pfifo
open Verif Fifo

variable {α : Type}

/-- Two lists in memory are joined by changing the pointer of the last entry of the first one. -/
theorem join {m : Mem α} {p1 e p2 q last : Option Nat} {l1 l2 : List (Node α)} (h1 : Seg m.cell p1 l1 e) (hne : l1 ≠ [])
    (hl : last = lastAddr l1) (hnd : (addrs l1).Nodup) (h2 : Seg m.cell p2 l2 q) (hd : ∀ a ∈ addrs l1, a ∉ addrs l2) :
    ∃ m', setNext m last p2 = .ok m' ∧ Seg m'.cell p1 (l1 ++ l2) q ∧ m'.brk = m.brk ∧ m'.log = m.log ∧
      (∀ a, a ∉ addrs l1 → m'.cell a = m.cell a) ∧ (∀ a, m'.cell a = none ↔ m.cell a = none) := by
  obtain ⟨pre, x, rfl⟩ := eq_concat hne
  rw [lastAddr_concat] at hl
  subst hl
  obtain ⟨nx, hc⟩ := seg_cell h1 (n := x) (by simp)
  have hx : x.addr ∉ addrs pre := (nodup_mid (rest := []) hnd).1
  refine ⟨m.set x.addr (some ⟨x.data, x.order, p2⟩), by simp only [setNext, hc], ?_, rfl, rfl, ?_, ?_⟩
  · rw [seg_append]
    refine ⟨p2, seg_relink h1 hx, seg_frame ?_ h2⟩
    intro a ha
    rw [set_cell, if_neg]
    rintro rfl
    exact hd x.addr (by simp) ha
  · intro a ha
    rw [set_cell, if_neg]
    rintro rfl
    exact ha (by simp)
  · intro a
    rw [set_cell]
    split
    · rename_i h; subst h; rw [hc]; simp
    · rfl

/-- Going `k` entries ahead. -/
theorem walk_seg {cell : Nat → Option (Entry α)} : ∀ (k : Nat) {l : List (Node α)} {p : Option Nat}, Seg cell p l none →
    walk cell k p = .ok ((l.drop k).head?.map Node.addr)
  | 0, l, p, h => by rw [walk, seg_head h, List.drop_zero]
  | k + 1, [], p, h => by subst h; rfl
  | k + 1, x :: l, p, h => by
    obtain ⟨rfl, nx, hc, h⟩ := h
    simp only [walk, hc, List.drop_succ_cons]
    exact walk_seg k h

/-- Sums over the readers. -/
def tot : Nat → (Nat → Nat) → Nat
  | 0, _ => 0
  | n + 1, f => tot n f + f n

theorem tot_congr {f g : Nat → Nat} : ∀ {n : Nat}, (∀ r, r < n → f r = g r) → tot n f = tot n g
  | 0, _ => rfl
  | n + 1, h => by
    rw [tot, tot, tot_congr (fun r hr => h r (by omega)), h n (by omega)]

theorem tot_set {f g : Nat → Nat} {r : Nat} : ∀ {n : Nat}, r < n → (∀ q, q ≠ r → f q = g q) → tot n f + g r = tot n g + f r
  | n + 1, hr, h => by
    rw [tot, tot]
    by_cases e : r = n
    · subst e
      rw [tot_congr (g := g) (fun q hq => h q (by omega))]
      omega
    · have := tot_set (f := f) (g := g) (n := n) (by omega) h
      have := h n (fun e' => e e'.symm)
      omega

theorem tot_zero {f : Nat → Nat} : ∀ {n : Nat}, (∀ r, r < n → f r = 0) → tot n f = 0
  | 0, _ => rfl
  | n + 1, h => by rw [tot, tot_zero (fun r hr => h r (by omega)), h n (by omega)]

theorem tot_le {f : Nat → Nat} {r : Nat} : ∀ {n : Nat}, r < n → f r ≤ tot n f
  | n + 1, h => by
    rw [tot]
    by_cases e : r = n
    · subst e; omega
    · have := tot_le (f := f) (n := n) (r := r) (by omega); omega

/-- Who has an entry. -/
inductive Owner where
  | main | wq | rd (r : Nat)

/-- The entries of an owner. -/
def part (mn wq : List (Node α)) (ch : Nat → List (Node α)) : Owner → List (Node α)
  | .main => mn
  | .wq => wq
  | .rd r => ch r

/-- How many entries have that data. -/
abbrev cnt (p : Option α → Bool) (l : List (Node α)) : Nat := (l.map Node.data).countP p

/-- The entries a reader has taken and which its callback has not been given. -/
def pend : Rd → List (Node α) → List (Node α)
  | .loop _ _ _ _, c => c
  | .called _ _ _ _ _ _, c => c.tail
  | .released _ _ _ _ _ _, c => c.tail
  | _, _ => []

/-- `processed_entries`. -/
def Rd.num : Rd → Nat
  | .idle => 0
  | .loop _ _ _ n => n
  | .called _ _ _ _ n _ => n
  | .released _ _ _ _ n _ => n
  | .ending n _ => n

/-- The share of a reader in the counter of the buffer. -/
def load (x : Rd) (c : List (Node α)) : Nat := x.num + (pend x c).length

theorem load_idle (c : List (Node α)) : load .idle c = 0 := rfl
theorem load_ending (n : Nat) (ret : UInt32) (c : List (Node α)) : load (.ending n ret) c = n := rfl
theorem load_loop (cur stop last : Option Nat) (n : Nat) (c : List (Node α)) : load (.loop cur stop last n) c = n + c.length := rfl
theorem load_called (cur : Nat) (next stop last : Option Nat) (n : Nat) (ret : UInt32) (x : Node α) (c : List (Node α)) :
    load (.called cur next stop last n ret) (x :: c) = n + c.length := rfl
theorem load_released (cur : Nat) (next stop last : Option Nat) (n : Nat) (ret : UInt32) (x : Node α) (c : List (Node α)) :
    load (.released cur next stop last n ret) (x :: c) = n + c.length := rfl

/-- The data which a callback has been given but which has not been freed yet, although it should. -/
def freeing : Rd → List (Node α) → List (Node α)
  | .called _ _ _ _ _ ret, c => if has ret FREE then c.take 1 else []
  | _, _ => []

/-- What a reader in the given state has. -/
def RdOk (solo : Prop) (cell : Nat → Option (Entry α)) (first : Option Nat) : Rd → List (Node α) → Prop
  | .idle, c => c = []
  | .ending _ _, c => c = []
  | .loop cur stop last n, c =>
    Seg cell cur c stop ∧ (c ≠ [] → last = lastAddr c) ∧ (∀ a ∈ addrs c, stop ≠ some a) ∧
      (stop ≠ none → n + c.length = MAX_READS ∧ (solo → first = stop)) ∧ (∀ x ∈ c, x.data.isSome)
  | .called cur next stop last n ret, c =>
    ∃ x rest, c = x :: rest ∧ x.addr = cur ∧ cell cur = some ⟨x.data, x.order, next⟩ ∧ Seg cell next rest stop ∧
      last = lastAddr c ∧ (∀ a ∈ addrs c, stop ≠ some a) ∧
      (stop ≠ none → n + rest.length = MAX_READS ∧ (solo → first = stop)) ∧ (∀ y ∈ rest, y.data.isSome) ∧
      Legal ret ∧ (n = MAX_READS → stopping ret = true → solo)
  | .released cur next stop last n ret, c =>
    ∃ x rest, c = x :: rest ∧ x.addr = cur ∧ cell cur = some ⟨x.data, x.order, next⟩ ∧ Seg cell next rest stop ∧
      last = lastAddr c ∧ (∀ a ∈ addrs c, stop ≠ some a) ∧
      (stop ≠ none → n + rest.length = MAX_READS ∧ (solo → first = stop)) ∧ (∀ y ∈ rest, y.data.isSome) ∧
      (stopping ret = true → x.data = none) ∧ (stopping ret = false → ret = 0) ∧
      (n = MAX_READS → stopping ret = true → solo)

/-- What holds of the buffer and its readers at any time. -/
structure Inv (N : Nat) (solo : Prop) (s : Sys α) (mn wq : List (Node α)) (ch : Nat → List (Node α)) : Prop where
  mainSeg : Seg s.b.m.cell s.b.first mn none
  mainLast : s.b.last = lastAddr mn
  wqSeg : Seg s.b.m.cell s.b.wfirst wq none
  wqLast : wq ≠ [] → s.b.wlast = lastAddr wq
  nodup : ∀ o, (addrs (part mn wq ch o)).Nodup
  disj : ∀ o o' a, a ∈ addrs (part mn wq ch o) → a ∈ addrs (part mn wq ch o') → o = o'
  live : ∀ a, s.b.m.cell a ≠ none → ∃ o, a ∈ addrs (part mn wq ch o)
  bound : ∀ o, ∀ a ∈ addrs (part mn wq ch o), a < s.b.m.brk
  rdOk : ∀ r, RdOk solo s.b.m.cell s.b.first (s.rd r) (ch r)
  idle : ∀ r, N ≤ r → s.rd r = .idle
  alone : solo → ∀ r, r ≠ 0 → s.rd r = .idle
  count : s.b.count = mn.length + tot N fun r => load (s.rd r) (ch r)
  wcount : s.b.wcount = wq.length
  mainData : ∀ x ∈ mn, x.data.isSome
  wqData : ∀ x ∈ wq, x.data.isSome

theorem Inv.clean {N : Nat} {solo : Prop} {s : Sys α} {mn wq : List (Node α)} {ch : Nat → List (Node α)}
    (h : Inv N solo s mn wq ch) (a : Nat) (ha : s.b.m.brk ≤ a) : s.b.m.cell a = none := by
  cases hc : s.b.m.cell a with
  | none => rfl
  | some e =>
    obtain ⟨o, ho⟩ := h.live a (by rw [hc]; simp)
    have := h.bound o a ho
    omega

/-- A reader does not notice changes elsewhere. -/
theorem RdOk.frame {solo : Prop} {cell cell' : Nat → Option (Entry α)} {first first' : Option Nat} {x : Rd} {c : List (Node α)}
    (h : RdOk solo cell first x c) (hc : ∀ a ∈ addrs c, cell' a = cell a)
    (hf : solo → first ≠ none → first' = first) : RdOk solo cell' first' x c := by
  cases x with
  | idle => exact h
  | ending n ret => exact h
  | loop cur stop last n =>
    obtain ⟨h1, h2, h3, h4, h5⟩ := h
    exact ⟨seg_frame hc h1, h2, h3, fun e => ⟨(h4 e).1, fun hs => by
      have := (h4 e).2 hs
      rw [hf hs (by rw [this]; exact e), this]⟩, h5⟩
  | called cur next stop last n ret =>
    obtain ⟨y, rest, h1, h2, h3, h4, h5, h6, h7, h8, h9⟩ := h
    refine ⟨y, rest, h1, h2, ?_, seg_frame (fun a ha => hc a ?_) h4, h5, h6, fun e => ⟨(h7 e).1, fun hs => ?_⟩, h8, h9⟩
    · rw [hc cur (by rw [h1, ← h2]; simp)]; exact h3
    · rw [h1]; exact List.mem_cons_of_mem _ ha
    · have := (h7 e).2 hs
      rw [hf hs (by rw [this]; exact e), this]
  | released cur next stop last n ret =>
    obtain ⟨y, rest, h1, h2, h3, h4, h5, h6, h7, h8, h9⟩ := h
    refine ⟨y, rest, h1, h2, ?_, seg_frame (fun a ha => hc a ?_) h4, h5, h6, fun e => ⟨(h7 e).1, fun hs => ?_⟩, h8, h9⟩
    · rw [hc cur (by rw [h1, ← h2]; simp)]; exact h3
    · rw [h1]; exact List.mem_cons_of_mem _ ha
    · have := (h7 e).2 hs
      rw [hf hs (by rw [this]; exact e), this]

end Verif.Pfifo
