import Verif.Pfifo.Props
/-!
# The buffer between instances: histories
-/
namespace Verif.Pfifo
open Verif Fifo

/-- What has been given in a run, and to whom. -/
def seen (as : List (Act Nat)) : Option (List (Nat × Option Nat)) :=
  match Sys.init.run as with
  | .ok s => some (s.log.filterMap fun | .given r d _ _ => some (r, d) | .returned _ _ => none)
  | _ => none

/-- The run has accessed memory which was freed. -/
def faults (as : List (Act Nat)) : Bool :=
  match Sys.init.run as with
  | .fault => true
  | _ => false

/-- The callback of reader `r` is given an entry and says `SEARCH_FREE`. -/
def one (r : Nat) : List (Act Nat) := [.next r FREE, .release r, .finish r]

/-- Nothing more to give. -/
def last (r : Nat) : List (Act Nat) := [.next r 0, .done r]

/-- The callback says `SEARCH_FREE` and `SEARCH_STOP`. -/
def stop (r : Nat) : List (Act Nat) := [.next r (FREE ||| STOP), .release r, .finish r, .done r]

/-- Reader 0 is given 499 of 501 messages. Then reader 1 takes the last one and is given it, and after that reader 0 is given number 500 and stops. -/
def boundary : List (Act Nat) :=
  (List.range 501).map .write ++ [.take 0] ++ (List.replicate 499 (one 0)).flatten ++ [.take 1] ++ one 1 ++ last 1 ++ stop 0

set_option maxRecDepth 100000 in
/-- **C92, what does not hold.** When reader 0 stops with entry 500, it puts back what it has not taken: the entry which belongs to reader 1 and which that reader has freed. The next call accesses it. -/
theorem two_readers_stop_at_limit : faults boundary = false ∧ faults (boundary ++ [.take 0]) = true := by
  decide +kernel

/-- The last entry, which reader 1 has taken and is working on. -/
def boundary2 : List (Act Nat) :=
  (List.range 501).map .write ++ [.take 0] ++ (List.replicate 499 (one 0)).flatten ++ [.take 1, .next 1 FREE] ++ stop 0

set_option maxRecDepth 100000 in
/-- **C92, what does not hold.** In the same way a message is given to both readers: number 500 was written once. -/
theorem two_readers_given_twice :
    (seen (boundary2 ++ [.take 0, .next 0 FREE])).map (fun l => l.filter fun x => x.2 == some 500) = some [(1, some 500), (0, some 500)] ∧
      (writes (boundary2 ++ [.take 0, .next 0 FREE])).countP (· == 500) = 1 := by
  decide +kernel

/-- The two write functions do not keep the order between them: the message which was written first is read last. -/
theorem mixed_writes_out_of_order :
    seen ([.delayed 1, .write 2, .take 0] ++ one 0 ++ one 0) = some [(0, some 2), (0, some 1)] := by
  decide +kernel

/-- Check for `Quiet`. -/
def quiet : Sys Nat → List (Act Nat) → Bool
  | _, [] => true
  | s, a :: as =>
    (match a with
      | .next r ret => (match s.rd r with
        | .loop _ _ _ n => n != MAX_READS - 1 || !stopping ret
        | _ => true)
      | _ => true) &&
    (match s.step a with
      | .ok s' => quiet s' as
      | _ => true)

theorem quiet_ok : ∀ (as : List (Act Nat)) (s : Sys Nat), quiet s as = true → Quiet s as
  | [], _, _ => trivial
  | a :: as, s, h => by
    simp only [quiet, Bool.and_eq_true] at h
    refine ⟨?_, fun s' e => ?_⟩
    · cases a with
      | next r ret =>
        intro cur stop last e
        have := h.1
        simp only [e] at this
        simpa using this
      | _ => trivial
    · have := h.2
      rw [e] at this
      exact quiet_ok as s' this

/-- One reader: five messages are written while it reads; it stops twice, once with an error. -/
def hist : List (Act Nat) :=
  [.write 1, .write 2, .take 0, .next 0 FREE, .write 3, .release 0, .finish 0] ++
  stop 0 ++ [.write 4, .take 0] ++ one 0 ++ [.write 5] ++ [.next 0 (FREE ||| CALLBACK_ERR), .release 0, .finish 0, .done 0] ++ [.take 0] ++ one 0 ++ last 0

/-- As above with delayed writing. -/
def hist2 : List (Act Nat) :=
  [.delayed 1, .delayed 2, .take 0, .next 0 FREE, .delayed 3, .release 0, .finish 0] ++ stop 0 ++ [.take 0] ++ one 0 ++ last 0 ++ [.delayed 4]

/-- Two readers. -/
def hist3 : List (Act Nat) :=
  [.write 1, .write 2, .take 0, .write 3, .take 1, .next 1 0, .next 0 FREE, .release 0, .release 1, .write 4, .finish 1] ++
  [.finish 0] ++ stop 0 ++ last 1 ++ [.take 1] ++ one 1 ++ last 1 ++ [.delayed 5]

theorem legal_0 : Legal 0 := ⟨false, false, false, false, by decide⟩
theorem legal_free : Legal FREE := ⟨true, false, false, false, by decide⟩
theorem legal_freestop : Legal (FREE ||| STOP) := ⟨true, true, false, false, by decide⟩
theorem legal_freeerr : Legal (FREE ||| CALLBACK_ERR) := ⟨true, false, true, false, by decide⟩

/-- Check for `LegalAct`. -/
def legal : Act Nat → Bool
  | .next _ ret => ret = 0 || ret = FREE || ret = FREE ||| STOP || ret = FREE ||| CALLBACK_ERR
  | _ => true

theorem legal_ok (as : List (Act Nat)) (h : as.all legal = true) : ∀ a ∈ as, LegalAct a := by
  intro a ha
  have := List.all_eq_true.1 h a ha
  cases a with
  | next r ret =>
    simp only [legal, Bool.or_eq_true, decide_eq_true_eq] at this
    rcases this with ((e | e) | e) | e <;> subst e
    · exact legal_0
    · exact legal_free
    · exact legal_freestop
    · exact legal_freeerr
  | _ => trivial

theorem solo_ok (as : List (Act Nat)) (h : as.all (fun a => match a with | .take r => r == 0 | _ => true) = true) : ∀ a ∈ as, SoloAct a := by
  intro a ha
  have := List.all_eq_true.1 h a ha
  cases a with
  | take r => exact beq_iff_eq.1 this
  | _ => trivial

/-- `single_reader` applies, and says that the five messages were given in order. -/
example : ((∀ a ∈ hist, LegalAct a) ∧ (∀ a ∈ hist, SoloAct a) ∧ ∀ d, Act.delayed d ∉ hist) ∧
    seen hist = some [(0, some 1), (0, some 2), (0, some 3), (0, some 4), (0, some 5)] :=
  ⟨⟨legal_ok _ (by decide +kernel), solo_ok _ (by decide +kernel), fun d h => by simp [hist, one, last, stop] at h⟩, by decide +kernel⟩

/-- As above; the last message is still in the write queue. -/
example : ((∀ a ∈ hist2, LegalAct a) ∧ (∀ a ∈ hist2, SoloAct a) ∧ ∀ d, Act.write d ∉ hist2) ∧
    seen hist2 = some [(0, some 1), (0, some 2), (0, some 3)] :=
  ⟨⟨legal_ok _ (by decide +kernel), solo_ok _ (by decide +kernel), fun d h => by simp [hist2, one, last, stop] at h⟩, by decide +kernel⟩

/-- `single_reader_progress`: message 4 is the next one. -/
example : seen (hist2 ++ [.take 0, .next 0 FREE]) = some [(0, some 1), (0, some 2), (0, some 3), (0, some 4)] := by decide +kernel

/-- `many_readers_partial` and `memory_partial` apply; message 5 is freed when the buffer is destroyed. Message 3 was given to reader 1, which kept it. -/
example : (∀ a ∈ hist3, LegalAct a) ∧ Quiet Sys.init hist3 ∧
    seen hist3 = some [(1, some 3), (0, some 1), (0, some 2), (1, some 4)] ∧
    (match Sys.init.run hist3 with
      | .ok s => (match clear s.b with
        | .ok b => some (freed s.b.m.log, freed b.m.log)
        | _ => none)
      | _ => none) = some ([some 1, some 2, some 4], [some 1, some 2, some 4, some 5]) :=
  ⟨legal_ok _ (by decide +kernel), quiet_ok _ _ (by decide +kernel), by decide +kernel, by decide +kernel⟩

end Verif.Pfifo
