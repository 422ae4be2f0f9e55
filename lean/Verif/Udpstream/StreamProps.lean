import Verif.Udpstream.Streams
import Verif.Udpstream.Invariant
/-!
# C104: packets from the network, streams and memory
-/
namespace Verif.Udpstream
open Verif

/-- An endpoint without streams. -/
def Coll.new (accept noSwap : Bool) : Coll := ⟨[], accept, noSwap, 0⟩

/-- The objects are distinct, and so are the numbers of streams which have one; receive buffers are sorted. -/
structure SInv (c : Coll) : Prop where
  fresh : ∀ s ∈ c.streams, s.key < c.next
  keys : c.streams.Pairwise (fun s t => s.key ≠ t.key)
  ids : c.streams.Pairwise (fun s t => s.id = t.id → s.id = 0)
  sorted : ∀ s ∈ c.streams, Sorted s.rx.buf

theorem pairwise_key {l : List Stream} (h : l.Pairwise (fun s t => s.key ≠ t.key)) {s t : Stream} (hs : s ∈ l) (ht : t ∈ l) (e : s.key = t.key) : s = t := by
  induction l with
  | nil => cases hs
  | cons x r ih =>
    cases hs with
    | head =>
      cases ht with
      | head => rfl
      | tail _ ht => exact absurd e (List.rel_of_pairwise_cons h ht)
    | tail _ hs =>
      cases ht with
      | head => exact absurd e.symm (List.rel_of_pairwise_cons h hs)
      | tail _ ht => exact ih (List.Pairwise.of_cons h) hs ht

theorem SInv.unique {c : Coll} (h : SInv c) {s t : Stream} (hs : s ∈ c.streams) (ht : t ∈ c.streams) (e : s.key = t.key) : s = t := pairwise_key h.keys hs ht e

theorem pairwise_mem {α : Type} {R : α → α → Prop} {l : List α} (h : l.Pairwise R) : l.Pairwise (fun a b => a ∈ l ∧ b ∈ l ∧ R a b) := by
  have := List.Pairwise.and_mem.mp h
  exact this

theorem SInv.destroy {c : Coll} (h : SInv c) (p : Stream → Bool) : SInv (destroyIf p c) where
  fresh := fun s hs => h.fresh s (List.mem_filter.mp hs).1
  keys := h.keys.sublist List.filter_sublist
  ids := h.ids.sublist List.filter_sublist
  sorted := fun s hs => h.sorted s (List.mem_filter.mp hs).1

theorem SInv.modify {c : Coll} (h : SInv c) (k : Nat) (f : Stream → Stream) (hf : ∀ s ∈ c.streams, s.key = k → (f s).key = k ∧ Sorted (f s).rx.buf)
    (hi : ∀ s ∈ c.streams, s.key = k → (f s).id = s.id ∨ ∀ t ∈ c.streams, t.id ≠ (f s).id) : SInv (modify k f c) where
  fresh := by
    intro s hs
    obtain ⟨t, ht, e⟩ := List.mem_map.mp hs
    subst e
    by_cases hk : t.key = k
    · simp only [if_pos hk]
      rw [(hf t ht hk).1, ← hk]; exact h.fresh t ht
    · simp only [if_neg hk]; exact h.fresh t ht
  keys := by
    refine List.pairwise_map.mpr ((pairwise_mem h.keys).imp ?_)
    rintro s t ⟨hs, ht, hne⟩
    by_cases h1 : s.key = k <;> by_cases h2 : t.key = k
    · exact absurd (h1.trans h2.symm) hne
    · simp only [if_pos h1, if_neg h2]; rw [(hf s hs h1).1]; exact fun e => h2 e.symm
    · simp only [if_neg h1, if_pos h2]; rw [(hf t ht h2).1]; exact h1
    · simp only [if_neg h1, if_neg h2]; exact hne
  ids := by
    refine List.pairwise_map.mpr ((pairwise_mem (h.keys.and h.ids)).imp ?_)
    rintro s t ⟨hs, ht, hne, hid⟩
    by_cases h1 : s.key = k <;> by_cases h2 : t.key = k
    · exact absurd (h1.trans h2.symm) hne
    · simp only [if_pos h1, if_neg h2]
      intro e
      rcases hi s hs h1 with h3 | h3
      · rw [h3] at e ⊢; exact hid e
      · exact absurd e.symm (h3 t ht)
    · simp only [if_neg h1, if_pos h2]
      intro e
      rcases hi t ht h2 with h3 | h3
      · rw [h3] at e; exact hid e
      · exact absurd e (h3 s hs)
    · simp only [if_neg h1, if_neg h2]; exact hid
  sorted := by
    intro s hs
    obtain ⟨t, ht, e⟩ := List.mem_map.mp hs
    subst e
    by_cases hk : t.key = k
    · simp only [if_pos hk]; exact (hf t ht hk).2
    · simp only [if_neg hk]; exact h.sorted t ht

/-- Replacing the stream `s` by `s'`. -/
theorem SInv.replace {c : Coll} (h : SInv c) {s s' : Stream} (hs : s ∈ c.streams) (hk : s'.key = s.key) (hi : s'.id = s.id) (hb : Sorted s'.rx.buf) : SInv (Verif.Udpstream.modify s.key (fun _ => s') c) := by
  refine h.modify s.key (fun _ => s') (fun t _ _ => ⟨hk, hb⟩) ?_
  intro t ht e
  have := h.unique ht hs e
  subst this
  exact Or.inl hi

theorem SInv.create {c : Coll} (h : SInv c) (id : UInt16) (handle : UInt32) (a : Bytes) (hid : id = 0 ∨ ∀ t ∈ c.streams, t.id ≠ id) : SInv (create c id handle a) where
  fresh := by
    intro s hs
    cases hs with
    | head => exact Nat.lt_succ_self _
    | tail _ hs => exact Nat.lt_succ_of_lt (h.fresh s hs)
  keys := by
    refine List.Pairwise.cons ?_ h.keys
    intro t ht
    have := h.fresh t ht
    show c.next ≠ t.key
    omega
  ids := by
    refine List.Pairwise.cons ?_ h.ids
    intro t ht e
    rcases hid with h0 | h1
    · exact h0
    · exact absurd e.symm (h1 t ht)
  sorted := by
    intro s hs
    cases hs with
    | head => exact List.Pairwise.nil
    | tail _ hs => exact h.sorted s hs

theorem allocLoop_free (l : List Stream) (n : Nat) (id : UInt16) : allocLoop l n id = 0 ∨ ∀ t ∈ l, t.id ≠ allocLoop l n id := by
  induction n generalizing id with
  | zero => exact Or.inl rfl
  | succ n ih =>
    unfold allocLoop
    split
    · exact ih _
    · rename_i h
      right
      intro t ht e
      exact h (List.any_eq_true.mpr ⟨t, ht, by simp [e]⟩)

theorem findConn_mem {h : UInt32} {id : UInt16} {a : Bytes} {l : List Stream} {s : Stream} (e : findConn h id a l = some (some s)) : s ∈ l ∧ s.handle = h ∧ s.id = id ∧ s.addr = a := by
  induction l with
  | nil => simp [findConn] at e
  | cons x r ih =>
    unfold findConn at e
    split at e
    · split at e
      · cases e
      · split at e
        · rename_i h1 _ h2
          injection e with e; injection e with e; subst e
          exact ⟨List.mem_cons_self .., h1.1, h2.2, h2.1⟩
        · exact ⟨List.mem_cons_of_mem _ (ih e).1, (ih e).2⟩
    · exact ⟨List.mem_cons_of_mem _ (ih e).1, (ih e).2⟩

theorem findId_none {l : List Stream} {id : UInt16} (h : ¬ (findId l id).isSome = true) : ∀ t ∈ l, t.id ≠ id := by
  intro t ht e
  apply h
  unfold findId
  rw [List.find?_isSome]
  exact ⟨t, ht, by simp [e]⟩

/-- The collection after it. -/
def Outcome.coll : Outcome → Option Coll
  | .ok c _ => some c
  | .soft c => some c
  | _ => none

theorem sinv_connect {c : Coll} (h : SInv c) (p : Packet) (a : Bytes) (rand : UInt16) (c' : Coll) (e : (handleConnect c p a rand).coll = some c') : SInv c' := by
  unfold handleConnect at e
  split at e
  · injection e with e; subst e; exact h
  split at e
  · cases e
  split at e
  · injection e with e; subst e; exact h
  unfold handleConnect2 at e
  split at e
  · cases e
  · rename_i s hs
    obtain ⟨m1, m2, m3, m4⟩ := findConn_mem hs
    split at e
    · split at e
      · injection e with e; subst e; exact h.destroy _
      · rename_i hn
        injection e with e; subst e
        refine h.modify _ _ (fun t ht hk => ⟨hk, h.sorted t ht⟩) ?_
        intro t ht hk
        exact Or.inr (findId_none hn)
    · injection e with e; subst e; exact h
  · split at e
    · split at e
      · injection e with e; subst e; exact h
      · split at e
        · injection e with e; subst e
          exact h.create _ _ _ (allocLoop_free _ _ _)
        · injection e with e; subst e; exact h
    · injection e with e; subst e; exact h

theorem finish_coll {k : Nat} {c c' : Coll} {r : List Reply} (e : (finish k c r).coll = some c') : c' = c := by
  unfold finish at e
  split at e
  · injection e with e; exact e.symm
  · cases e

theorem receive_sorted {rx rx' : Rx} (hs : Sorted rx.buf) {f : Frame} (h : rx.receive f = .ok rx') : Sorted rx'.buf := by
  unfold Rx.receive at h
  split at h
  · injection h with h; subst h; exact hs
  · split at h
    · cases h
    · obtain ⟨l', e1, e2, _⟩ := insert_spec ⟨f, 0⟩ rx.buf hs
      rw [e1] at h
      injection h with h; subst h; exact e2

/-- The stream after the window size was read. -/
theorem windowed (p : Packet) (s : Stream) : ∃ s', (if p.hasWindow then { s with tx := { s.tx with window := p.word.toNat } } else s) = s' ∧ s'.key = s.key ∧ s'.id = s.id ∧ s'.rx = s.rx ∧ s'.handle = s.handle := by
  refine ⟨_, rfl, ?_⟩
  split <;> exact ⟨rfl, rfl, rfl, rfl⟩

theorem sinv_stream {c : Coll} (h : SInv c) (p : Packet) (s : Stream) (hs : s ∈ c.streams) (now : Nat) (c' : Coll) (e : (handleStream c p s now).coll = some c') : SInv c' := by
  unfold handleStream at e
  split at e
  · rw [finish_coll e]; exact h.destroy _
  split at e
  · rw [finish_coll e]; exact h
  obtain ⟨s', es, k1, k2, k3, k4⟩ := windowed p s
  simp only [es] at e
  have hb : Sorted s'.rx.buf := by rw [k3]; exact h.sorted s hs
  split at e
  · rw [finish_coll e]; exact h.replace (s' := { s' with tx := _ }) hs k1 k2 hb
  split at e
  · rw [finish_coll e]; exact h.replace hs k1 k2 hb
  split at e
  · rename_i rx hrx
    rw [finish_coll e]
    exact h.replace (s' := { s' with rx := rx }) hs k1 k2 (receive_sorted hb hrx)
  · rw [finish_coll e]; exact h.destroy _
  · cases e

theorem target_mem {c : Coll} {p : Packet} {s : Stream} (h : target c p = some s) : s ∈ c.streams ∧ (p.id ≠ 0 → s.id = p.id) ∧ (p.id = 0 → p.word ≠ 0 ∧ s.handle = p.word) := by
  unfold target at h
  split at h
  · rename_i hp
    have := List.find?_some h
    exact ⟨List.mem_of_find?_eq_some h, fun _ => by simpa using this, fun x => absurd x hp⟩
  · rename_i hp
    split at h
    · rename_i hw
      have := List.find?_some h
      exact ⟨List.mem_of_find?_eq_some h, fun x => absurd x (by simpa using hp), fun _ => ⟨hw, by simpa using this⟩⟩
    · cases h

theorem updateRemote_same {s s' : Stream} {a : Bytes} (h : updateRemote s a = some s') : s'.key = s.key ∧ s'.id = s.id ∧ s'.handle = s.handle ∧ s'.rx = s.rx ∧ s'.tx = s.tx ∧ s'.addrLen = s.addrLen := by
  unfold updateRemote at h
  split at h
  · split at h
    · cases h
    · injection h with h; subst h; exact ⟨rfl, rfl, rfl, rfl, rfl, rfl⟩
  · split at h
    · cases h
    · injection h with h; subst h; exact ⟨rfl, rfl, rfl, rfl, rfl, rfl⟩

theorem mem_modify {c : Coll} {s s' : Stream} (hs : s ∈ c.streams) : s' ∈ (modify s.key (fun _ => s') c).streams :=
  List.mem_map.mpr ⟨s, hs, by simp⟩

theorem sinv_handle {c : Coll} (h : SInv c) (p : Packet) (a : Bytes) (rand : UInt16) (now : Nat) (c' : Coll) (e : (handle c p a rand now).coll = some c') : SInv c' := by
  unfold handle at e
  split at e
  · injection e with e; subst e; exact h
  split at e
  · exact sinv_connect h p a rand c' e
  split at e
  · split at e <;> (injection e with e; subst e; exact h)
  · rename_i s ht
    have hs := (target_mem ht).1
    split at e
    · split at e
      · injection e with e; subst e; exact h
      split at e
      · cases e
      split at e
      · injection e with e; subst e; exact h
      exact sinv_stream h p s hs now c' e
    · split at e
      · cases e
      · rename_i s' hu
        obtain ⟨u1, u2, u3, u4, u5, u6⟩ := updateRemote_same hu
        exact sinv_stream (h.replace hs u1 u2 (by rw [u4]; exact h.sorted s hs)) p s' (mem_modify hs) now c' e

/-! ## Processing receive buffers -/

theorem scan_sorted (prev count size : Nat) (l : List RFrame) (hs : Sorted l) (hz : size ≠ 0 → ∀ x ∈ l, prev < x.frame.id) :
    ∃ b r, scan prev count size l = some (b, r) ∧ b.Sublist l := by
  induction l generalizing count size with
  | nil => exact ⟨[], none, rfl, List.Sublist.refl _⟩
  | cons n r ih =>
    unfold scan
    by_cases h1 : n.frame.id > prev
    · rw [if_pos h1]
      split
      · exact ⟨_, _, rfl, List.Sublist.refl _⟩
      split
      · exact ⟨_, _, rfl, List.Sublist.refl _⟩
      obtain ⟨b, x, e, hb⟩ := ih (count + 1) (size + n.frame.data.length) (List.Pairwise.of_cons hs) (fun _ y hy => by
        have := List.rel_of_pairwise_cons hs hy; omega)
      rw [e]
      exact ⟨_, _, rfl, hb.cons_cons _⟩
    · rw [if_neg h1]
      have h0 : size = 0 := by
        by_cases h : size = 0
        · exact h
        · exact absurd (hz h n (List.mem_cons_self ..)) h1
      rw [if_neg (by simp [h0])]
      obtain ⟨b, x, e, hb⟩ := ih count size (List.Pairwise.of_cons hs) (fun h => absurd h0 h)
      exact ⟨b, x, e, hb.cons _⟩

/-- Whatever frames are in the buffer, in whatever state: no check fails, and the buffer remains sorted. -/
theorem deliverLoop_sorted (v : Msg → Verdict) (ready : List Bool) (rx : Rx) (hs : Sorted rx.buf) :
    (deliverLoop v ready rx).2 ≠ .bug ∧ ∀ rx', (deliverLoop v ready rx).2 = .ok rx' → Sorted rx'.buf := by
  induction ready generalizing rx with
  | nil => exact ⟨by simp [deliverLoop], fun rx' e => by simp only [deliverLoop, Res.ok.injEq] at e; subst e; exact hs⟩
  | cons b ready ih =>
    cases b with
    | false => exact ⟨by simp [deliverLoop], fun rx' e => by simp only [deliverLoop, Res.ok.injEq] at e; subst e; exact hs⟩
    | true =>
      obtain ⟨b, r, e, hb⟩ := scan_sorted rx.prev 0 0 rx.buf hs (fun h => absurd rfl h)
      have hs' : Sorted b := hs.sublist hb
      cases r with
      | none =>
        simp only [deliverLoop, e]
        exact ⟨by simp, fun rx' e => by simp only [Res.ok.injEq] at e; subst e; exact hs'⟩
      | some n =>
        simp only [deliverLoop, e]
        split
        · exact ⟨by simp, fun rx' e => by cases e⟩
        · have := ih { rx with buf := b.drop n, prev := ((b.take n).getLast?.map (fun n => n.frame.id)).getD 0 } (hs'.sublist (List.drop_sublist _ _))
          cases hv : v (join (b.take n)) with
          | error => exact ⟨by simp, fun rx' e => by cases e⟩
          | take => exact this
          | refuse => exact this

theorem process_sorted (rx : Rx) (v : Msg → Verdict) (ready : List Bool) (hs : Sorted rx.buf) : (rx.process v ready).2.2 ≠ .bug ∧ ∀ rx', (rx.process v ready).2.2 = .ok rx' → Sorted rx'.buf := by
  unfold Rx.process
  exact deliverLoop_sorted v ready _ (sorted_frames (ackLoop_frames rx.prev 0 0 rx.buf).symm hs)

theorem sstep_inv {c : Coll} (h : SInv c) (e : SEv) (c' : Coll) (hc : sstep c e = some c') : SInv c' := by
  cases e with
  | packet p a rand now =>
    simp only [sstep] at hc
    refine sinv_handle h p a rand now c' ?_
    cases ho : handle c p a rand now with
    | ok x y => rw [ho] at hc; exact hc
    | soft x => rw [ho] at hc; exact hc
    | useAfterFree => rw [ho] at hc; cases hc
    | overflow => rw [ho] at hc; cases hc
    | bug => rw [ho] at hc; cases hc
  | connect hd a => injection hc with hc; subst hc; exact h.create _ _ _ (Or.inl rfl)
  | remove p => injection hc with hc; subst hc; exact h.destroy p
  | queue k d app => injection hc with hc; subst hc; exact h.modify _ _ (fun t ht hk => ⟨hk, h.sorted t ht⟩) (fun t _ _ => Or.inl rfl)
  | send k now => injection hc with hc; subst hc; exact h.modify _ _ (fun t ht hk => ⟨hk, h.sorted t ht⟩) (fun t _ _ => Or.inl rfl)
  | process k v ready =>
    have hc : processStream c k v ready = some c' := hc
    unfold processStream at hc
    split at hc
    · injection hc with hc; subst hc; exact h
    · rename_i s hf
      have hk : s.key = k := by simpa using List.find?_some hf
      have hs := List.mem_of_find?_eq_some hf
      split at hc
      · rename_i rx hrx
        injection hc with hc; subst hc; subst hk
        exact h.replace (s' := { s with rx := rx }) hs rfl rfl ((process_sorted s.rx v ready (h.sorted s hs)).2 rx hrx)
      · injection hc with hc; subst hc; exact h.destroy _
      · cases hc

theorem srun_inv {c : Coll} (h : SInv c) (l : List SEv) (c' : Coll) (hc : srun c l = some c') : SInv c' := by
  induction l generalizing c with
  | nil => injection hc with hc; subst hc; exact h
  | cons e r ih =>
    unfold srun at hc
    rw [Option.bind_eq_some_iff] at hc
    obtain ⟨c1, h1, h2⟩ := hc
    exact ih (sstep_inv h e c1 h1) h2

theorem sinv_new (accept noSwap : Bool) : SInv (Coll.new accept noSwap) := ⟨(fun s h => by cases h), List.Pairwise.nil, List.Pairwise.nil, (fun s h => by cases h)⟩

/-! ## C104 -/

/-- C104: however packets arrive, from whomever, and whatever the application does: streams which have a number have different numbers. -/
theorem ids_distinct (accept noSwap : Bool) (l : List SEv) (c : Coll) (h : srun (Coll.new accept noSwap) l = some c) :
    c.streams.Pairwise (fun s t => s.id = t.id → s.id = 0) := (srun_inv (sinv_new accept noSwap) l c h).ids

theorem mem_modify_other {c : Coll} {k : Nat} {f : Stream → Stream} {t : Stream} (ht : t ∈ c.streams) (hk : t.key ≠ k) : t ∈ (modify k f c).streams :=
  List.mem_map.mpr ⟨t, ht, by simp [hk]⟩

theorem mem_destroy {c : Coll} {p : Stream → Bool} {t : Stream} (ht : t ∈ c.streams) (hp : p t = false) : t ∈ (destroyIf p c).streams :=
  List.mem_filter.mpr ⟨ht, by simp [hp]⟩

/-- Streams which a packet is not for. -/
def Packet.foreign (p : Packet) (t : Stream) : Prop := if p.id ≠ 0 then t.id ≠ p.id else p.word ≠ 0 → t.handle ≠ p.word

theorem stream_isolated {c : Coll} (p : Packet) (s : Stream) (hs : (p.id ≠ 0 → s.id = p.id) ∧ (p.id = 0 → p.word ≠ 0 ∧ s.handle = p.word)) (now : Nat) (c' : Coll)
    (e : (handleStream c p s now).coll = some c') (t : Stream) (ht : t ∈ c.streams) (hk : t.key ≠ s.key) (hf : p.foreign t) : t ∈ c'.streams := by
  unfold handleStream at e
  split at e
  · rw [finish_coll e]
    refine mem_destroy ht ?_
    unfold Packet.foreign at hf
    unfold resets
    by_cases h0 : p.id = 0
    · have hw := (hs.2 h0).1
      rw [if_pos ⟨h0, hw⟩]
      rw [if_neg (by simpa using h0)] at hf
      simpa using hf hw
    · rw [if_pos h0] at hf
      rw [if_neg (by simp [h0])]
      split
      · simpa using hf
      · simp [hf]
  split at e
  · rw [finish_coll e]; exact ht
  rename_i h0
  obtain ⟨s', es, _⟩ := windowed p s
  simp only [es] at e
  split at e
  · rw [finish_coll e]; exact mem_modify_other ht hk
  split at e
  · rw [finish_coll e]; exact mem_modify_other ht hk
  split at e
  · rw [finish_coll e]; exact mem_modify_other ht hk
  · rw [finish_coll e]
    refine mem_destroy ht ?_
    unfold Packet.foreign at hf
    rw [if_pos h0] at hf
    simpa using hf
  · cases e

/-- C104: the answer to a connection request. Either a stream exists afterwards with the number which the answer tells, the handle and the address of the request, and this number is not 0; or the answer is the
number 0 and no stream has been created. -/
theorem connect_answer (c c' : Coll) (p : Packet) (a : Bytes) (rand : UInt16) (n : UInt16) (w : UInt32) (h : handleConnect c p a rand = .ok c' [.connect n w]) :
    w = p.word ∧ ((n ≠ 0 ∧ ∃ s, c'.streams = s :: c.streams ∧ s.id = n ∧ s.handle = p.word ∧ s.addr = a ∧ ∀ t ∈ c.streams, t.id ≠ n) ∨ (n = 0 ∧ c' = c)) := by
  unfold handleConnect at h
  split at h
  · cases h
  split at h
  · cases h
  split at h
  · cases h
  unfold handleConnect2 at h
  split at h
  · cases h
  · split at h
    · split at h <;> cases h
    · cases h
  · split at h
    · split at h
      · cases h
      · split at h
        · rename_i hn
          cases h
          refine ⟨rfl, Or.inl ⟨fun h0 => ?_, _, rfl, rfl, rfl, rfl, ?_⟩⟩
          · rw [h0] at hn; exact absurd hn (by decide)
          · rcases allocLoop_free c.streams 0xffff rand with h0 | h0
            · rw [h0] at hn; exact absurd hn (by decide)
            · exact h0
        · cases h; exact ⟨rfl, Or.inr ⟨rfl, rfl⟩⟩
    · cases h

/-- C104: a packet with the number of a stream, or without a number and with a handle, leaves all other streams as they are: whatever is in the packet, and whoever sent it. -/
theorem other_streams_untouched (accept noSwap : Bool) (l : List SEv) (c : Coll) (h : srun (Coll.new accept noSwap) l = some c)
    (p : Packet) (hp : p.type ≠ 1) (a : Bytes) (rand : UInt16) (now : Nat) (c' : Coll) (e : sstep c (.packet p a rand now) = some c')
    (t : Stream) (ht : t ∈ c.streams) (hf : if p.id ≠ 0 then t.id ≠ p.id else p.word ≠ 0 → t.handle ≠ p.word) : t ∈ c'.streams := by
  have inv := srun_inv (sinv_new accept noSwap) l c h
  have hf : p.foreign t := hf
  have e : (handle c p a rand now).coll = some c' := by
    simp only [sstep] at e
    cases ho : handle c p a rand now <;> rw [ho] at e <;> first | exact e | cases e
  unfold handle at e
  split at e
  · injection e with e; subst e; exact ht
  try rw [if_neg hp] at e
  split at e
  · split at e <;> (injection e with e; subst e; exact ht)
  · rename_i s hs
    obtain ⟨hm, hs⟩ := target_mem hs
    have hk : t.key ≠ s.key := by
      intro hk
      have := inv.unique ht hm hk
      subst this
      unfold Packet.foreign at hf
      by_cases h0 : p.id = 0
      · rw [if_neg (by simpa using h0)] at hf
        exact hf (hs.2 h0).1 (hs.2 h0).2
      · rw [if_pos h0] at hf
        exact hf (hs.1 h0)
    split at e
    · split at e
      · injection e with e; subst e; exact ht
      split at e
      · cases e
      split at e
      · injection e with e; subst e; exact ht
      exact stream_isolated p s hs now c' e t ht hk hf
    · split at e
      · cases e
      · rename_i s' hu
        obtain ⟨u1, u2, u3, u4, u5, u6⟩ := updateRemote_same hu
        exact stream_isolated p s' ⟨fun x => u2.trans (hs.1 x), fun x => ⟨(hs.2 x).1, u3.trans (hs.2 x).2⟩⟩ now c' e t (mem_modify_other ht hk) (by rw [u1]; exact hk) hf

/-! ## Memory -/

/-- The address of every stream has the length `n`. -/
def Fits (n : Nat) (c : Coll) : Prop := ∀ s ∈ c.streams, s.addrLen = n ∧ s.cap = n

/-- Addresses of a step have the length `n`. -/
def SEv.fits (n : Nat) : SEv → Prop
  | .packet _ a _ _ => a.length = n
  | .connect _ a => a.length = n
  | _ => True

theorem fits_destroy {n : Nat} {c : Coll} (h : Fits n c) (p : Stream → Bool) : Fits n (destroyIf p c) := fun s hs => h s (List.mem_filter.mp hs).1

theorem fits_modify {n : Nat} {c : Coll} (h : Fits n c) (k : Nat) (f : Stream → Stream) (hf : ∀ s ∈ c.streams, (f s).addrLen = n ∧ (f s).cap = n) : Fits n (modify k f c) := by
  intro s hs
  obtain ⟨t, ht, e⟩ := List.mem_map.mp hs
  subst e
  split
  · exact hf t ht
  · exact h t ht

theorem fits_create {n : Nat} {c : Coll} (h : Fits n c) (id : UInt16) (hd : UInt32) (a : Bytes) (ha : a.length = n) : Fits n (create c id hd a) := by
  intro s hs
  cases hs with
  | head => exact ⟨ha, ha⟩
  | tail _ hs => exact h s hs

theorem findConn_fits {n : Nat} {l : List Stream} (h : ∀ s ∈ l, s.addrLen = n ∧ s.cap = n) (hd : UInt32) (id : UInt16) (a : Bytes) : findConn hd id a l ≠ none := by
  induction l with
  | nil => simp [findConn]
  | cons x r ih =>
    have hr := ih (fun s hs => h s (List.mem_cons_of_mem _ hs))
    have hx := h x (List.mem_cons_self ..)
    unfold findConn
    split
    · rename_i h1
      rw [if_neg (by omega)]
      split
      · simp
      · exact hr
    · exact hr

theorem connect_fits {n : Nat} {c : Coll} (h : Fits n c) (p : Packet) (a : Bytes) (ha : a.length = n) (rand : UInt16) :
    ∃ c', (handleConnect c p a rand).coll = some c' ∧ Fits n c' := by
  unfold handleConnect
  split
  · exact ⟨_, rfl, h⟩
  split
  · rename_i e; exact absurd e (findConn_fits h _ _ _)
  split
  · exact ⟨_, rfl, h⟩
  unfold handleConnect2
  split
  · rename_i e; exact absurd e (findConn_fits h _ _ _)
  · split
    · split
      · exact ⟨_, rfl, fits_destroy h _⟩
      · exact ⟨_, rfl, fits_modify h _ _ (fun s hs => h s hs)⟩
    · exact ⟨_, rfl, h⟩
  · split
    · split
      · exact ⟨_, rfl, h⟩
      · split
        · exact ⟨_, rfl, fits_create h _ _ _ ha⟩
        · exact ⟨_, rfl, h⟩
    · exact ⟨_, rfl, h⟩

/-- The packet makes the program destroy the stream it is for: a RESET, or a data frame which is not the first one of a new stream. -/
def Packet.fatal (p : Packet) (s : Stream) : Prop :=
  (p.type = 0 ∧ (p.id ≠ 0 → p.word ≠ 0 → s.handle = p.word)) ∨
  (p.type ≠ 0 ∧ p.type ≠ 4 ∧ p.type ≠ 5 ∧ p.id ≠ 0 ∧ p.word.toNat > 1 ∧ s.rx.counter = 0)

theorem finish_alive {c : Coll} {s : Stream} (h : s ∈ c.streams) (r : List Reply) : finish s.key c r = .ok c r := by
  unfold finish
  rw [if_pos (List.any_eq_true.mpr ⟨s, h, by simp⟩)]

theorem finish_alive' {c : Coll} {s : Stream} {k : Nat} (h : s ∈ c.streams) (hk : s.key = k) (r : List Reply) : finish k c r = .ok c r := by
  subst hk; exact finish_alive h r

theorem finish_dead {c : Coll} {k : Nat} (h : ∀ s ∈ c.streams, s.key ≠ k) (r : List Reply) : finish k c r = .useAfterFree := by
  unfold finish
  rw [if_neg]
  intro h1
  obtain ⟨s, hs, e⟩ := List.any_eq_true.mp h1
  exact h s hs (by simpa using e)

theorem receive_cases {rx : Rx} (hs : Sorted rx.buf) (f : Frame) : (rx.receive f = .destroyed ∧ rx.counter = 0 ∧ f.id > 1) ∨ (∃ rx', rx.receive f = .ok rx' ∧ ¬ (rx.counter = 0 ∧ f.id > 1)) := by
  unfold Rx.receive
  split
  · rename_i h
    refine Or.inr ⟨_, rfl, ?_⟩
    omega
  · rename_i h1
    split
    · rename_i h2
      refine Or.inl ⟨rfl, ?_⟩
      omega
    · rename_i h2
      obtain ⟨l', e1, e2, _⟩ := insert_spec ⟨f, 0⟩ rx.buf hs
      rw [e1]
      refine Or.inr ⟨_, rfl, ?_⟩
      omega

/-- What a packet for a stream leads to. -/
theorem stream_outcome {n : Nat} {c : Coll} (inv : SInv c) (h : Fits n c) (p : Packet) (s : Stream) (hm : s ∈ c.streams) (hs : (p.id ≠ 0 → s.id = p.id) ∧ (p.id = 0 → p.word ≠ 0 ∧ s.handle = p.word)) (now : Nat) :
    (p.fatal s ∧ handleStream c p s now = .useAfterFree) ∨ (¬ p.fatal s ∧ ∃ c' r, handleStream c p s now = .ok c' r ∧ Fits n c') := by
  obtain ⟨s', es, k1, k2, k3, k4⟩ := windowed p s
  have hcap : s'.addrLen = n ∧ s'.cap = n := by
    have := h s hm
    subst es
    split <;> exact this
  by_cases h0 : p.type = 0
  · have hr : resets p s = true ↔ (p.id ≠ 0 → p.word ≠ 0 → s.handle = p.word) := by
      unfold resets
      by_cases hi : p.id = 0
      · rw [if_pos ⟨hi, (hs.2 hi).1⟩]
        simp [hi, (hs.2 hi).2]
      · rw [if_neg (by simp [hi])]
        by_cases hw : p.word = 0
        · rw [if_pos ⟨hi, hw⟩]; simp [hs.1 hi, hw]
        · rw [if_neg (by simp [hw])]; simp [hs.1 hi, hi, hw]
    have e : handleStream c p s now = finish s.key (destroyIf (resets p) c) [] := by unfold handleStream; rw [if_pos h0]
    rw [e]
    by_cases hd : resets p s = true
    · left
      refine ⟨Or.inl ⟨h0, hr.mp hd⟩, finish_dead ?_ _⟩
      intro t ht hk
      obtain ⟨ht1, ht2⟩ := List.mem_filter.mp ht
      rw [inv.unique ht1 hm hk, hd] at ht2
      simp at ht2
    · right
      refine ⟨?_, _, _, finish_alive (mem_destroy hm (by simpa using hd)) _, fits_destroy h _⟩
      rintro (⟨_, h1⟩ | ⟨h1, _⟩)
      · exact hd (hr.mpr h1)
      · exact h1 h0
  by_cases hi : p.id = 0
  · right
    have e : handleStream c p s now = finish s.key c [] := by unfold handleStream; rw [if_neg h0, if_pos hi]
    rw [e]
    refine ⟨?_, _, _, finish_alive hm _, h⟩
    rintro (⟨h1, _⟩ | ⟨_, _, _, h1, _⟩)
    · exact h0 h1
    · exact h1 hi
  unfold handleStream
  rw [if_neg h0, if_neg hi]
  simp only [es]
  have hne : ¬ (p.type ≠ 4 ∧ p.type ≠ 5) → ¬ p.fatal s := by
    rintro h3 (⟨h1, _⟩ | ⟨_, h4, h5, _⟩)
    · exact h0 h1
    · exact h3 ⟨h4, h5⟩
  by_cases h4 : p.type = 4
  · right
    rw [if_pos h4]
    exact ⟨hne (fun h => h.1 h4), _, _, finish_alive' (s := { s' with tx := (s'.tx.ack ⟨p.ackFirst.toNat, p.ackLast.toNat, 0⟩ now).1 }) (mem_modify hm) k1 _, fits_modify h _ _ (fun _ _ => hcap)⟩
  rw [if_neg h4]
  by_cases h5 : p.type = 5
  · right
    rw [if_pos h5]
    exact ⟨hne (fun h => h.2 h5), _, _, finish_alive' (mem_modify hm) k1 _, fits_modify h _ _ (fun _ _ => hcap)⟩
  rw [if_neg h5]
  have hb : Sorted s'.rx.buf := by rw [k3]; exact inv.sorted s hm
  rcases receive_cases hb p.frame with ⟨e, e1, e2⟩ | ⟨rx', e, e1⟩
  · left
    rw [e]
    refine ⟨Or.inr ⟨h0, h4, h5, hi, e2, by rw [← k3]; exact e1⟩, finish_dead ?_ _⟩
    intro t ht hk
    obtain ⟨ht1, ht2⟩ := List.mem_filter.mp ht
    rw [inv.unique ht1 hm hk] at ht2
    simp [hs.1 hi] at ht2
  · right
    rw [e]
    refine ⟨?_, _, _, finish_alive' (s := { s' with rx := rx' }) (mem_modify hm) k1 _, fits_modify h _ _ (fun _ _ => hcap)⟩
    rintro (⟨h1, _⟩ | ⟨_, _, _, _, h6, h7⟩)
    · exact h0 h1
    · exact e1 ⟨by rw [k3]; exact h7, h6⟩

theorem handle_outcome {n : Nat} {c : Coll} (inv : SInv c) (h : Fits n c) (p : Packet) (a : Bytes) (ha : a.length = n) (rand : UInt16) (now : Nat) :
    (p.version ≥ 2 ∧ p.type ≠ 1 ∧ (∃ s ∈ c.streams, target c p = some s ∧ (c.noSwap = true → s.addr = a) ∧ p.fatal s) ∧ handle c p a rand now = .useAfterFree) ∨
    (¬ (p.version ≥ 2 ∧ p.type ≠ 1 ∧ ∃ s ∈ c.streams, target c p = some s ∧ (c.noSwap = true → s.addr = a) ∧ p.fatal s) ∧ ∃ c', (handle c p a rand now).coll = some c' ∧ Fits n c') := by
  by_cases hv : p.version < 2
  · right
    have e : handle c p a rand now = .ok c [] := by unfold handle; rw [if_pos hv]
    rw [e]
    exact ⟨fun x => absurd x.1 (UInt8.not_le.mpr hv), _, rfl, h⟩
  have hv' : p.version ≥ 2 := UInt8.not_lt.mp hv
  by_cases hp : p.type = 1
  · right
    have e : handle c p a rand now = handleConnect c p a rand := by unfold handle; rw [if_neg hv, if_pos hp]
    rw [e]
    exact ⟨fun x => x.2.1 hp, connect_fits h p a ha rand⟩
  cases ht : target c p with
  | none =>
    right
    refine ⟨(fun ⟨_, _, s, _, x, _⟩ => by cases x), ?_⟩
    unfold handle
    rw [if_neg hv, if_neg hp, ht]
    by_cases hq : p.type ≠ 0 ∧ (p.id ≠ 0 ∨ p.word ≠ 0)
    · exact ⟨c, by simp only [if_pos hq]; rfl, h⟩
    · exact ⟨c, by simp only [if_neg hq]; rfl, h⟩
  | some s =>
    obtain ⟨hm, hs⟩ := target_mem ht
    have hfit := h s hm
    have ex : ∀ q : Prop, (∃ s' ∈ c.streams, some s = some s' ∧ (c.noSwap = true → s'.addr = a) ∧ p.fatal s') ↔ ((c.noSwap = true → s.addr = a) ∧ p.fatal s) := fun _ =>
      ⟨fun ⟨s', _, x, y⟩ => by injection x with x; subst x; exact y, fun y => ⟨s, hm, rfl, y⟩⟩
    rw [ex True]
    by_cases hn : c.noSwap = true
    · by_cases hadr : s.addr = a
      · have e : handle c p a rand now = handleStream c p s now := by
          unfold handle
          rw [if_neg hv, if_neg hp, ht]
          show (if c.noSwap = true then _ else _ : Outcome) = _
          rw [if_pos hn, if_neg (by simp [hfit.1, ha]), if_neg (by omega), if_neg (by simp [hadr])]
        rw [e]
        rcases stream_outcome inv h p s hm hs now with ⟨h1, h2⟩ | ⟨h1, c', r, h2, h3⟩
        · exact Or.inl ⟨hv', hp, ⟨fun _ => hadr, h1⟩, h2⟩
        · exact Or.inr ⟨fun x => h1 x.2.2.2, c', by rw [h2]; rfl, h3⟩
      · have e : handle c p a rand now = .ok c [] := by
          unfold handle
          rw [if_neg hv, if_neg hp, ht]
          show (if c.noSwap = true then _ else _ : Outcome) = _
          rw [if_pos hn, if_neg (by simp [hfit.1, ha]), if_neg (by omega), if_pos hadr]
        rw [e]
        exact Or.inr ⟨fun x => hadr (x.2.2.1 hn), _, rfl, h⟩
    · have hu : updateRemote s a = some { s with addr := a } := by
        unfold updateRemote
        rw [if_neg (by simp [hfit.1, ha]), if_neg (by omega)]
      have e : handle c p a rand now = handleStream (modify s.key (fun _ => { s with addr := a }) c) p { s with addr := a } now := by
        unfold handle
        rw [if_neg hv, if_neg hp, ht]
        show (if c.noSwap = true then _ else _ : Outcome) = _
        rw [if_neg hn, hu]
      rw [e]
      have inv' := inv.replace (s' := { s with addr := a }) hm rfl rfl (inv.sorted s hm)
      have h' : Fits n (modify s.key (fun _ => { s with addr := a }) c) := fits_modify h _ _ (fun _ _ => hfit)
      rcases stream_outcome inv' h' p { s with addr := a } (mem_modify hm) hs now with ⟨h1, h2⟩ | ⟨h1, c', r, h2, h3⟩
      · exact Or.inl ⟨hv', hp, ⟨fun x => absurd x hn, h1⟩, h2⟩
      · exact Or.inr ⟨fun x => h1 x.2.2.2, c', by rw [h2]; rfl, h3⟩

theorem sstep_fits {n : Nat} {c : Coll} (inv : SInv c) (h : Fits n c) (e : SEv) (he : e.fits n) (c' : Coll) (hc : sstep c e = some c') : Fits n c' := by
  cases e with
  | packet p a rand now =>
    simp only [sstep] at hc
    rcases handle_outcome inv h p a he rand now with ⟨_, _, _, h1⟩ | ⟨_, c1, h1, h2⟩
    · rw [h1] at hc; cases hc
    · cases ho : handle c p a rand now <;> rw [ho] at hc h1 <;> first | (cases h1; cases hc; exact h2) | cases hc
  | connect hd a => injection hc with hc; subst hc; exact fits_create h _ _ _ he
  | remove p => injection hc with hc; subst hc; exact fits_destroy h p
  | queue k d app => injection hc with hc; subst hc; exact fits_modify h _ _ (fun t ht => h t ht)
  | send k now => injection hc with hc; subst hc; exact fits_modify h _ _ (fun t ht => h t ht)
  | process k v ready =>
    have hc : processStream c k v ready = some c' := hc
    unfold processStream at hc
    split at hc
    · injection hc with hc; subst hc; exact h
    · rename_i s hf
      have hs := List.mem_of_find?_eq_some hf
      split at hc
      · injection hc with hc; subst hc; exact fits_modify h _ _ (fun _ _ => h s hs)
      · injection hc with hc; subst hc; exact fits_destroy h _
      · cases hc

theorem srun_fits {n : Nat} {c : Coll} (inv : SInv c) (h : Fits n c) (l : List SEv) (hl : ∀ e ∈ l, e.fits n) (c' : Coll) (hc : srun c l = some c') : Fits n c' := by
  induction l generalizing c with
  | nil => injection hc with hc; subst hc; exact h
  | cons e r ih =>
    unfold srun at hc
    rw [Option.bind_eq_some_iff] at hc
    obtain ⟨c1, h1, h2⟩ := hc
    exact ih (sstep_inv inv e c1 h1) (sstep_fits inv h e (hl e (List.mem_cons_self ..)) c1 h1) (fun e he => hl e (List.mem_cons_of_mem _ he)) h2

/-- C104, the part which holds: as long as all addresses have the same length, a packet leads to an error of the program in exactly one case: it is accepted for a stream, and is a RESET or a data frame which is not the first one of a new stream.
Then the stream is freed and read. What is missing: that there is no such case. -/
theorem packet_memory_partial (accept noSwap : Bool) (n : Nat) (l : List SEv) (hl : ∀ e ∈ l, e.fits n) (c : Coll) (h : srun (Coll.new accept noSwap) l = some c)
    (p : Packet) (a : Bytes) (ha : a.length = n) (rand : UInt16) (now : Nat) :
    (handle c p a rand now = .useAfterFree ∨ (∃ c' r, handle c p a rand now = .ok c' r) ∨ ∃ c', handle c p a rand now = .soft c') ∧
    (handle c p a rand now = .useAfterFree ↔ p.version ≥ 2 ∧ p.type ≠ 1 ∧ ∃ s ∈ c.streams, target c p = some s ∧ (c.noSwap = true → s.addr = a) ∧
      ((p.type = 0 ∧ (p.id ≠ 0 → p.word ≠ 0 → s.handle = p.word)) ∨
       (p.type ≠ 0 ∧ p.type ≠ 4 ∧ p.type ≠ 5 ∧ p.id ≠ 0 ∧ p.word.toNat > 1 ∧ s.rx.counter = 0))) := by
  have inv := srun_inv (sinv_new accept noSwap) l c h
  have fit := srun_fits (sinv_new accept noSwap) (fun s hs => by cases hs) l hl c h
  rcases handle_outcome inv fit p a ha rand now with ⟨h1, h2, h3, h4⟩ | ⟨h1, c', h2, h3⟩
  · exact ⟨Or.inl h4, fun _ => ⟨h1, h2, h3⟩, fun _ => h4⟩
  · refine ⟨?_, ?_, fun x => absurd x h1⟩
    · cases ho : handle c p a rand now <;> rw [ho] at h2
      · exact Or.inr (Or.inl ⟨_, _, rfl⟩)
      · exact Or.inr (Or.inr ⟨_, rfl⟩)
      · exact Or.inl rfl
      · cases h2
      · cases h2
    · intro e
      rw [e] at h2
      cases h2

/-- C104: processing a receive buffer never fails a check of the program, whatever packets have arrived; and it fails otherwise only with 4 GiB of data or more (see C102). -/
theorem process_never_bug (accept noSwap : Bool) (l : List SEv) (c : Coll) (h : srun (Coll.new accept noSwap) l = some c) (s : Stream) (hs : s ∈ c.streams)
    (v : Msg → Verdict) (ready : List Bool) : (s.rx.process v ready).2.2 ≠ .bug :=
  (process_sorted s.rx v ready ((srun_inv (sinv_new accept noSwap) l c h).sorted s hs)).1

/-! ## Examples and violations -/

/-- A packet without data. -/
def Packet.of (type : UInt8) (id : UInt16) (word : UInt32) : Packet := ⟨type, false, false, 3, id, word, 0, 0, 0, []⟩

/-- A server with two clients, from addresses of 16 bytes. -/
def exAddr (i : UInt8) : Bytes := i :: List.replicate 15 0

/-- The two clients connect; then the first one sends a frame, the server sends a message to it, and the frame is acknowledged. -/
def exEvents : List SEv := [.packet (.of 1 0 7) (exAddr 1) 100 0, .packet (.of 1 0 7) (exAddr 2) 100 0,
  .packet { Packet.of 3 100 1 with boundary := true, data := [1, 2] } (exAddr 1) 0 0, .queue 0 [3, 4] 5, .send 0 20, .packet { Packet.of 4 100 50 with hasWindow := true, ackFirst := 1, ackLast := 1 } (exAddr 1) 0 30]

/-- A summary of the streams. -/
def Coll.summary (c : Coll) : List (UInt16 × UInt32 × Bytes × Nat × Nat × Nat) := c.streams.map (fun s => (s.id, s.handle, s.addr.take 1, s.rx.buf.length, s.tx.buf.length, s.tx.window))

example : (srun (Coll.new true false) exEvents).map Coll.summary = some [(101, 7, [2], 0, 0, 375), (100, 7, [1], 1, 0, 50)] := rfl

example : ∀ e ∈ exEvents, e.fits 16 := by
  intro e he
  simp only [exEvents, List.mem_cons, List.mem_nil_iff, or_false] at he
  rcases he with rfl | rfl | rfl | rfl | rfl | rfl <;> first | rfl | trivial

/-- C104 is violated by every RESET for a known stream: the stream is destroyed and then read (udpstream.c:1296). -/
theorem reset_read_after_free : ∃ l c p a, (∀ e ∈ l, e.fits 16) ∧ srun (Coll.new true false) l = some c ∧ a.length = 16 ∧ p = Packet.of 0 100 0 ∧ handle c p a 0 0 = .useAfterFree :=
  ⟨[.packet (.of 1 0 7) (exAddr 1) 100 0], _, _, exAddr 1, by
    intro e he
    simp only [List.mem_singleton] at he
    subst he; rfl, rfl, rfl, rfl, by decide +kernel⟩

/-- C104 is violated when the second frame of a stream arrives before the first one. -/
theorem early_frame_read_after_free : ∃ l c p a, (∀ e ∈ l, e.fits 16) ∧ srun (Coll.new true false) l = some c ∧ a.length = 16 ∧ p = Packet.of 3 100 2 ∧ handle c p a 0 0 = .useAfterFree :=
  ⟨[.packet (.of 1 0 7) (exAddr 1) 100 0], _, _, exAddr 1, by
    intro e he
    simp only [List.mem_singleton] at he
    subst he; rfl, rfl, rfl, rfl, by decide +kernel⟩

/-- C104 is violated although nothing but a CONNECT was sent, in the copies which the program always sends: the server opens a stream for each copy, the client answers the second response with a RESET, and the server reads the stream it has destroyed. -/
theorem connect_copies : ∃ server client : Coll,
    srun (Coll.new true false) [.packet (.of 1 0 7) (exAddr 1) 100 0, .packet (.of 1 0 7) (exAddr 1) 200 0] = some server ∧
    server.streams.map (·.id) = [200, 100] ∧
    srun (Coll.new false false) [.connect 7 (exAddr 9), .packet (.of 1 100 7) (exAddr 9) 0 0] = some client ∧
    handle client (.of 1 200 7) (exAddr 9) 0 0 = .ok client [.reset 200 7] ∧
    handle server (.of 0 200 7) (exAddr 1) 0 0 = .useAfterFree :=
  ⟨_, _, rfl, rfl, rfl, by decide +kernel, by decide +kernel⟩

/-- C104 is violated when a stream receives from addresses of different lengths: memory for 16 bytes is allocated, whatever the length. -/
theorem address_overflow : ∃ l c p a, srun (Coll.new true false) l = some c ∧ a.length = 28 ∧ p = Packet.of 5 100 0 ∧ handle c p a 0 0 = .overflow :=
  ⟨[.packet (.of 1 0 7) (exAddr 1) 100 0], _, _, List.replicate 28 0, rfl, rfl, rfl, by decide +kernel⟩

example : handleConnect (Coll.new true false) (.of 1 0 7) (exAddr 1) 100 = .ok (create (Coll.new true false) 100 7 (exAddr 1)) [.connect 100 7] := rfl

end Verif.Udpstream
