import Verif.Channel.Spec
/-!
# The ring of blocks
-/
namespace Verif.Channel
open Verif

/-- The messages from number `r` up to number `w` of `l` are in the ring. -/
structure Ring (f : Nat → Block) (r w : Nat) (l : List Bytes) : Prop where
  held : ∀ k, r ≤ k → k < w → ∃ m : Bytes, l[k]? = some m ∧ m ≠ [] ∧ (f (k % 1024)).size = m.length ∧
    (f (k % 1024)).data.take (f (k % 1024)).size = m
  free : ∀ i, (∀ k, r ≤ k → k < w → k % 1024 ≠ i) → (f i).size = 0

theorem Ring.same {f g : Nat → Block} {r w : Nat} {l : List Bytes} (h : Ring f r w l)
    (hs : ∀ i, (g i).size = (f i).size) (hd : ∀ i, (f i).size ≠ 0 → (g i).data = (f i).data) :
    Ring g r w l := by
  constructor
  · intro k h1 h2
    obtain ⟨m, a, b, c, d⟩ := h.held k h1 h2
    refine ⟨m, a, b, by rw [hs, c], ?_⟩
    rw [hs, hd _ _, d]
    rw [c]; cases m with
    | nil => exact absurd rfl b
    | cons x y => simp
  · intro i hi
    rw [hs]; exact h.free i hi

theorem Ring.notFull {f : Nat → Block} {r w : Nat} {l : List Bytes} (h : Ring f r w l)
    (h2 : w ≤ r + 1024) (hz : (f (w % 1024)).size = 0) : w < r + 1024 := by
  rcases Nat.lt_or_ge w (r + 1024) with h3 | h3
  · exact h3
  · have hw : w = r + 1024 := by omega
    obtain ⟨m, _, b, c, _⟩ := h.held r (Nat.le_refl _) (by omega)
    have : w % 1024 = r % 1024 := by omega
    rw [← this, hz] at c
    cases m with
    | nil => exact absurd rfl b
    | cons x y => simp at c

theorem Ring.push {f : Nat → Block} {r w : Nat} {l : List Bytes} (h : Ring f r w l) (hr : r ≤ w)
    (hl : l.length = w) (h2 : w ≤ r + 1024) (hz : (f (w % 1024)).size = 0) {m : Bytes} (hm : m ≠ [])
    {g : Nat → Block} (ho : ∀ i, i ≠ w % 1024 → g i = f i) (hs : (g (w % 1024)).size = m.length)
    (hd : (g (w % 1024)).data = m) : Ring g r (w + 1) (l ++ [m]) := by
  have hf := h.notFull h2 hz
  constructor
  · intro k h3 h4
    rcases Nat.lt_or_ge k w with h5 | h5
    · obtain ⟨m', a, b, c, d⟩ := h.held k h3 h5
      have hne : k % 1024 ≠ w % 1024 := by omega
      rw [ho _ hne]
      refine ⟨m', ?_, b, c, d⟩
      rw [List.getElem?_append_left (by omega)]; exact a
    · have : k = w := by omega
      subst this
      refine ⟨m, ?_, hm, hs, ?_⟩
      · rw [← hl]; simp
      · rw [hs, hd]; simp
  · intro i hi
    have hne : i ≠ w % 1024 := fun e => hi w hr (by omega) e.symm
    rw [ho _ hne]
    exact h.free i (fun k a b => hi k a (by omega))

theorem Ring.pop {f : Nat → Block} {r w : Nat} {l : List Bytes} (h : Ring f r w l)
    (h2 : w ≤ r + 1024) {g : Nat → Block} (ho : ∀ i, i ≠ r % 1024 → g i = f i)
    (hs : (g (r % 1024)).size = 0) : Ring g (r + 1) w l := by
  constructor
  · intro k h3 h4
    obtain ⟨m', a, b, c, d⟩ := h.held k (by omega) h4
    have hne : k % 1024 ≠ r % 1024 := by omega
    rw [ho _ hne]
    exact ⟨m', a, b, c, d⟩
  · intro i hi
    rcases Nat.decEq i (r % 1024) with hne | he
    · rw [ho _ hne]
      refine h.free i (fun k a b e => ?_)
      rcases Nat.lt_or_ge r k with h5 | h5
      · exact hi k h5 b e
      · have : k = r := by omega
        subst this; exact hne e.symm
    · rw [he]; exact hs

theorem Ring.head {f : Nat → Block} {r w : Nat} {l : List Bytes} (h : Ring f r w l) (hr : r ≤ w)
    (hz : (f (r % 1024)).size ≠ 0) : r < w := by
  rcases Nat.lt_or_ge r w with h3 | h3
  · exact h3
  · exact absurd (h.free _ (fun k a b => by omega)) hz

theorem next_mod (n : Nat) : next (n % 1024) = (n + 1) % 1024 := by
  unfold next slots
  split <;> omega

/-- What the position of the writer lags behind the messages which have been put. -/
def wLag : Writer → Nat
  | .stored _ => 1
  | _ => 0

/-- What the position of the reader lags behind the messages which have been delivered. -/
def rLag : Reader → Nat
  | .consumed _ => 1
  | _ => 0

/-- What is known of the writer where it is. -/
def WriterOk (s : State) : Prop :=
  match s.writer with
  | .idle => True
  | .cleaning m b _ => m ≠ [] ∧ b = s.wpos
  | .locking m b => m ≠ [] ∧ b = s.wpos
  | .locked m b => m ≠ [] ∧ b = s.wpos ∧ (s.blocks b).lock = some .writer
  | .stored m => m ≠ []
  | .notify m => m ≠ []

/-- What is known of the reader where it is. -/
def ReaderOk (s : State) : Prop :=
  match s.reader with
  | .idle => True
  | .locking b => b = s.rpos
  | .locked b => b = s.rpos ∧ (s.blocks b).lock = some .reader
  | .consumed _ => True

/-- The blocks which are locked. -/
structure LockOk (s : State) : Prop where
  w : ∀ i, (s.blocks i).lock = some .writer → ∃ m, s.writer = .locked m i
  r : ∀ i, (s.blocks i).lock = some .reader → s.reader = .locked i

/-- The invariant of the channel. -/
structure Inv (s : State) : Prop where
  order : s.delivered = (sent s).take s.delivered.length
  le : s.delivered.length ≤ (sent s).length
  room : (sent s).length ≤ s.delivered.length + 1024
  ring : Ring s.blocks s.delivered.length (sent s).length (sent s)
  wlag : wLag s.writer ≤ (sent s).length
  rlag : rLag s.reader ≤ s.delivered.length
  wpos : s.wpos = ((sent s).length - wLag s.writer) % 1024
  rpos : s.rpos = (s.delivered.length - rLag s.reader) % 1024
  count : s.count = ((sent s).length : Int) - wLag s.writer - (s.delivered.length - rLag s.reader)
  wok : WriterOk s
  rok : ReaderOk s
  lock : LockOk s
  clean : ∀ i, (s.blocks i).cleanup = true → (s.blocks i).size = 0

/-- What does not change. -/
theorem Inv.frame {s s' : State} (h : Inv s) (hsent : sent s' = sent s)
    (hdel : s'.delivered = s.delivered) (hwl : wLag s'.writer = wLag s.writer)
    (hrl : rLag s'.reader = rLag s.reader) (hwp : s'.wpos = s.wpos) (hrp : s'.rpos = s.rpos)
    (hc : s'.count = s.count) (hsz : ∀ i, (s'.blocks i).size = (s.blocks i).size)
    (hdt : ∀ i, (s.blocks i).size ≠ 0 → (s'.blocks i).data = (s.blocks i).data)
    (hcl : ∀ i, (s'.blocks i).cleanup = true → (s'.blocks i).size = 0)
    (wok : WriterOk s') (rok : ReaderOk s') (lock : LockOk s') : Inv s' where
  order := by rw [hsent, hdel]; exact h.order
  le := by rw [hsent, hdel]; exact h.le
  room := by rw [hsent, hdel]; exact h.room
  ring := by rw [hsent, hdel]; exact h.ring.same hsz hdt
  wlag := by rw [hsent, hwl]; exact h.wlag
  rlag := by rw [hdel, hrl]; exact h.rlag
  wpos := by rw [hsent, hwl, hwp]; exact h.wpos
  rpos := by rw [hdel, hrl, hrp]; exact h.rpos
  count := by rw [hsent, hdel, hwl, hrl, hc]; exact h.count
  wok := wok
  rok := rok
  lock := lock
  clean := hcl

/-- The memory of the blocks. -/
structure Safe (s : State) : Prop where
  cap : ∀ i, (s.blocks i).capacity ≤ (s.blocks i).store.room
  fits : ∀ i, (s.blocks i).size ≤ (s.blocks i).capacity
  safe : s.overrun = false

theorem allocate_safe (b : Block) (n : Nat) (f : Bool) (y : Sys) (hc : b.capacity ≤ b.store.room)
    (hs : b.size = 0) : (allocate b n f y).1.capacity ≤ (allocate b n f y).1.store.room ∧
      (allocate b n f y).1.size = 0 ∧ (allocate b n f y).1.lock = b.lock ∧
      (allocate b n f y).1.cleanup = b.cleanup ∧
      ((allocate b n f y).2 = true → n ≤ (allocate b n f y).1.capacity) := by
  have hsz : n ≤ shmSize n := by unfold shmSize shmMinReuse; omega
  unfold allocate
  cases hst : b.store <;> simp only [Block.free] <;> (repeat' split) <;>
    simp_all [Store.room]
  all_goals (try omega)

end Verif.Channel
