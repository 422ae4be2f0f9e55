import Verif.Channel.Props
/-!
# Where the channel does not deliver in order (C24)
-/
namespace Verif.Channel
open Verif

/-- C24 does not hold when "successfully written" means that write returned success: when the
notification of the reader fails write returns an error, but the message is in the channel and it is
delivered. A caller which writes the message again has it delivered twice. -/
theorem unnotified_delivered : ∃ acts, NonEmpty acts ∧
    (run init acts).writes = [([5], Ret.unnotified)] ∧ (run init acts).delivered = [[5]] := by
  refine ⟨[.write [5], go, go, go, .writer true .given true false] ++ soloRead, ?_, ?_⟩
  · intro m hm
    simp [soloRead] at hm
    rw [hm]; decide
  · decide +kernel

/-- One write where nothing fails and nothing is to be cleaned up. -/
def quickWrite (m : Bytes) : List Act := [.write m, go, go, go, go]

/-- What is known before and after a quick write. -/
structure Still (s : State) : Prop where
  w : s.writer = .idle
  r : s.reader = .idle
  c : s.cleanup = false
  l : ∀ i, (s.blocks i).lock = none
  d : s.delivered = []
  p : s.rpos = 0

theorem quick_run {s : State} (h : Still s) (m : Bytes) (hz : (s.blocks s.wpos).size = 0) :
    Still (run s (quickWrite m)) ∧
    (run s (quickWrite m)).wpos = next s.wpos ∧
    (run s (quickWrite m)).count = s.count + 1 ∧
    (run s (quickWrite m)).writes = s.writes ++ [(m, .ok)] ∧
    ((run s (quickWrite m)).blocks s.wpos).size = m.length ∧
    ((run s (quickWrite m)).blocks s.wpos).data = m ∧
    ∀ i, i ≠ s.wpos → ((run s (quickWrite m)).blocks i).size = (s.blocks i).size := by
  unfold quickWrite
  have h1 : step s (.write m) = { s with writer := .locking m s.wpos } := by
    show startWrite s m = _
    unfold startWrite
    rw [h.w]; dsimp only
    rw [h.c, if_neg (by decide)]
  have h2 : step { s with writer := .locking m s.wpos } go =
      { s.set s.wpos { s.blocks s.wpos with lock := some .writer } with writer := .locked m s.wpos } := by
    show stepWriter { s with writer := .locking m s.wpos } true .given true true = _
    unfold stepWriter
    dsimp only
    rw [if_neg (by rw [h.l]; exact fun e => e rfl)]
    rfl
  rw [run_cons, h1, run_cons, h2]
  generalize hs1 : ({ s.set s.wpos { s.blocks s.wpos with lock := some .writer } with writer := .locked m s.wpos } : State) = s1
  have w1 : s1.writer = .locked m s.wpos := by rw [← hs1]
  have hz1 : (s1.blocks s.wpos).size = 0 := by rw [← hs1]; simp [State.set, hz]
  have ho1 : ∀ i, i ≠ s.wpos → s1.blocks i = s.blocks i := fun i hi => by
    rw [← hs1]; simp [State.set, hi]
  have hal := allocate_given (s1.blocks s.wpos) m.length
  generalize hab : allocate (s1.blocks s.wpos) m.length true .given = ab at hal
  obtain ⟨b', ok⟩ := ab
  simp only at hal
  subst hal
  have h3 : step s1 go = { ({ s1 with overrun := s1.overrun || decide (b'.store.room < m.length) }).set s.wpos
      { b' with lock := none, cleanup := false, size := m.length, data := m }
      with writer := .stored m } := by
    show stepWriter s1 _ _ _ _ = _
    unfold stepWriter
    rw [w1]; dsimp only
    rw [if_neg (by rw [hz1]; exact fun e => e rfl), hab]
    rfl
  rw [run_cons, h3]
  have e1 : s1.wpos = s.wpos := by rw [← hs1]; rfl
  have e2 : s1.count = s.count := by rw [← hs1]; rfl
  have e3 : s1.writes = s.writes := by rw [← hs1]; rfl
  have e4 : s1.reader = .idle := by rw [← hs1]; exact h.r
  have e5 : s1.cleanup = false := by rw [← hs1]; exact h.c
  have e6 : s1.delivered = [] := by rw [← hs1]; exact h.d
  have e7 : s1.rpos = 0 := by rw [← hs1]; exact h.p
  rw [← e1]
  refine ⟨⟨rfl, e4, e5, ?_, e6, e7⟩, rfl, by rw [← e2]; rfl, by rw [← e3]; rfl, ?_, ?_, ?_⟩
  · intro i
    show (if i = s1.wpos then _ else s1.blocks i : Block).lock = none
    split
    · rfl
    · rename_i hi
      rw [ho1 i (by rw [← e1]; exact hi)]; exact h.l i
  · show (if s1.wpos = s1.wpos then _ else s1.blocks s1.wpos : Block).size = _
    rw [if_pos rfl]
  · show (if s1.wpos = s1.wpos then _ else s1.blocks s1.wpos : Block).data = _
    rw [if_pos rfl]
  · intro i hi
    show (if i = s1.wpos then _ else s1.blocks i : Block).size = _
    rw [if_neg hi, ho1 i (by rw [← e1]; exact hi)]

/-- An empty message, then a number of others. -/
def emptyFirst : Nat → List Act
  | 0 => quickWrite []
  | n + 1 => emptyFirst n ++ quickWrite [7]

theorem emptyFirst_run (n : Nat) (hn : n ≤ 1023) : Still (run init (emptyFirst n)) ∧
    (run init (emptyFirst n)).wpos = (n + 1) % 1024 ∧ (run init (emptyFirst n)).count = n + 1 ∧
    (run init (emptyFirst n)).writes = ([], .ok) :: List.replicate n ([7], .ok) ∧
    (∀ i, n < i → ((run init (emptyFirst n)).blocks i).size = 0) ∧
    ((run init (emptyFirst n)).blocks 0).size = 0 := by
  induction n with
  | zero =>
    have := quick_run (s := init) ⟨rfl, rfl, rfl, fun _ => rfl, rfl, rfl⟩ [] rfl
    refine ⟨this.1, this.2.1, this.2.2.1, this.2.2.2.1, ?_, this.2.2.2.2.1⟩
    intro i hi
    have h2 := this.2.2.2.2.2.2 i (by show i ≠ 0; omega)
    rw [show emptyFirst 0 = quickWrite [] from rfl, h2]; rfl
  | succ n ih =>
    obtain ⟨h1, h2, h3, h4, h5, h6⟩ := ih (by omega)
    have hw : (run init (emptyFirst n)).wpos = n + 1 := by rw [h2]; omega
    have := quick_run h1 [7] (by rw [hw]; exact h5 _ (by omega))
    rw [emptyFirst, run_append]
    refine ⟨this.1, ?_, ?_, ?_, ?_, ?_⟩
    · rw [this.2.1, h2, next_mod]
    · rw [this.2.2.1, h3]; omega
    · rw [this.2.2.2.1, h4, List.replicate_succ', List.cons_append]
    · intro i hi
      rw [this.2.2.2.2.2.2 i (by omega)]; exact h5 i (by omega)
    · rw [this.2.2.2.2.2.2 0 (by omega)]; exact h6

/-- C24 does not hold with empty messages: an empty message takes a place in the channel but the place
looks free. The reader stops at it, and when the writer comes around it puts a message in that place,
which is then delivered before the 1024 messages which were put earlier. -/
theorem empty_reorders : ∃ acts, (∀ w ∈ (run init acts).writes, w.2 = Ret.ok) ∧
    (run init acts).delivered = [[8]] ∧
    sent (run init acts) = [] :: List.replicate 1023 [7] ++ [[8]] ∧
    ¬ (run init acts).delivered <+: sent (run init acts) := by
  obtain ⟨n, hn⟩ : ∃ n : Nat, n = 1023 := ⟨_, rfl⟩
  rw [← hn]
  obtain ⟨h1, h2, h3, h4, h5, h6⟩ := emptyFirst_run n (by omega)
  generalize hS : run init (emptyFirst n) = s at *
  have hw : s.wpos = 0 := by rw [h2, hn]
  have q := quick_run h1 [8] (by rw [hw]; exact h6)
  generalize hT : run s (quickWrite [8]) = t at q
  obtain ⟨q1, q2, q3, q4, q5, q6, q7⟩ := q
  rw [hw] at q5 q6
  have r1 : step t .read = { t with reader := .locking 0 } := by
    show startRead t = _
    unfold startRead
    rw [q1.r]; dsimp only
    rw [if_neg (by rw [q3, h3]; omega), q1.p]
  have r2 : step { t with reader := .locking 0 } (.reader true true) =
      { t.set 0 { t.blocks 0 with lock := some .reader } with reader := .locked 0 } := by
    show stepReader { t with reader := .locking 0 } true true = _
    unfold stepReader
    dsimp only
    rw [if_neg (by rw [q1.l]; exact fun e => e rfl)]
    rfl
  have r3 : (step { t.set 0 { t.blocks 0 with lock := some .reader } with reader := .locked 0 }
      (.reader true true)).delivered = [[8]] ∧
      (step { t.set 0 { t.blocks 0 with lock := some .reader } with reader := .locked 0 }
      (.reader true true)).writes = t.writes ∧
      (step { t.set 0 { t.blocks 0 with lock := some .reader } with reader := .locked 0 }
      (.reader true true)).writer = .idle := by
    simp [step, stepReader, State.set, q5, q6, q1.d, q1.w]
  have hrun : run init (emptyFirst n ++ quickWrite [8] ++ [.read, .reader true true,
      .reader true true]) = step { t.set 0 { t.blocks 0 with lock := some .reader } with reader := .locked 0 }
      (.reader true true) := by
    rw [run_append, run_append, hS, hT, run_cons, r1, run_cons, r2]
    rfl
  refine ⟨emptyFirst n ++ quickWrite [8] ++ [.read, .reader true true, .reader true true], ?_⟩
  rw [hrun]
  obtain ⟨d, ws, wi⟩ := r3
  have hsent : sent (step { t.set 0 { t.blocks 0 with lock := some .reader } with reader := .locked 0 }
      (.reader true true)) = [] :: List.replicate n [7] ++ [[8]] := by
    unfold sent
    rw [ws, wi, q4, h4]
    simp only [List.filter_append, List.filter_cons, wasPut, List.filter_replicate, inFlight]
    simp
  refine ⟨?_, d, hsent, ?_⟩
  · intro w hw
    rw [ws, q4, h4] at hw
    simp at hw
    rcases hw with e | e | e
    · rw [e]
    · rw [e.2]
    · rw [e]
  · rw [d, hsent]
    intro hp
    have := hp.length_le
    obtain ⟨t', ht⟩ := hp
    simp at ht

end Verif.Channel
