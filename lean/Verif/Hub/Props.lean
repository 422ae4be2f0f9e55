import Verif.Hub.Steps
/-!
# Duplicated output (C94)
-/
namespace Verif.Hub
open Verif Pfifo

variable {α : Type}

/-- **C94.** An instance with duplicated output to up to `n` readers. Whatever the threads do, in any order, no freed memory is used and the program does not end (only a 32-bit counter may be full, after that many messages).
What each reader has been given is what was written, in the same order, each message once, from the first message on, however late the reader begins and however the others go on; and when the
main queue and its own queue are empty it has been given everything. -/
theorem duplicated_output (n : Nat) (as : List (HubAct α)) (hl : ∀ a ∈ as, LegalStep n a) :
    (Hub.init.run n as = .full ∧ LIMIT ≤ (written as).length) ∨
    ∃ h, Hub.init.run n as = .ok h ∧
      ∀ r, ∃ left, (written as).map some = seen h.log r ++ left ∧
        ∀ i, h.owner i = some r → h.main.b.count = 0 → (h.sq i).b.count = 0 → (h.sq i).b.wcount = 0 → left = [] := by
  rcases ok_run (ok_init n) hl with ⟨e, f⟩ | ⟨h, am, aq, e, k⟩
  · left
    exact ⟨e, by simpa using f⟩
  · right
    rw [List.nil_append] at k
    refine ⟨h, e, fun r => ?_⟩
    obtain ⟨mn, wq, ch, g⟩ := k.main.good
    have hm := g.ord trivial (Or.inl rfl)
    rw [k.wr] at hm
    rcases Classical.em (∃ i, h.owner i = some r) with ⟨i, ho⟩ | hno
    · have hi := (k.ownN i r ho).1
      obtain ⟨mn', wq', ch', g'⟩ := (k.sq i).good
      have hs := g'.ord trivial (Or.inr rfl)
      have hcp := k.cp i hi
      rw [hs] at hcp
      rw [hcp] at hm
      rw [List.append_assoc, List.append_assoc] at hm
      rw [k.log i r ho]
      refine ⟨_, hm, ?_⟩
      intro i' ho' h1 h2 h3
      have ei := k.inj i' i r ho' ho
      subst ei
      have c1 := g.inv.count
      have c2 := g.inv.wcount
      have c3 := g'.inv.count
      have c4 := g'.inv.wcount
      rw [h1, tot] at c1
      rw [h2, tot] at c3
      have hwq : wq = [] := g.ordW trivial rfl
      have z1 : load (h.main.rd 0) (ch 0) = 0 := by omega
      have z2 : load ((h.sq i').rd 0) (ch' 0) = 0 := by omega
      have hny : notYet h i' = [] := by
        unfold notYet
        split
        · rfl
        · split
          · rename_i q _ hat
            have := (k.copy _ _ _ _ hat).1
            exfalso
            have : 1 ≤ load (h.main.rd 0) (ch 0) := Nat.le_trans this (Nat.le_add_right _ _)
            omega
          · rfl
      rw [hny]
      simp only [load] at z1 z2
      rw [List.length_eq_zero_iff.1 (show (pend (h.main.rd 0) (ch 0)).length = 0 by omega), List.length_eq_zero_iff.1 (show mn.length = 0 by omega), hwq,
        List.length_eq_zero_iff.1 (show (pend ((h.sq i').rd 0) (ch' 0)).length = 0 by omega), List.length_eq_zero_iff.1 (show mn'.length = 0 by omega),
        List.length_eq_zero_iff.1 (show wq'.length = 0 by omega)]
      rfl
    · refine ⟨(written as).map some, ?_, fun i ho => absurd ⟨i, ho⟩ hno⟩
      rw [k.log0 r (fun i ho => hno ⟨i, ho⟩)]
      rfl

/-- **C94.** The locks do what they are for: only one thread at a time is reading the main queue, and each split queue has one reader. -/
theorem exclusive (n : Nat) (as : List (HubAct α)) (hl : ∀ a ∈ as, LegalStep n a) {h : Hub α} (hr : Hub.init.run n as = .ok h) (q r : Nat) :
    (onMain (h.at_ q) → onMain (h.at_ r) → q = r) ∧ ∀ i, onSplit i (h.at_ q) → onSplit i (h.at_ r) → q = r := by
  rcases ok_run (ok_init n) hl with ⟨e, f⟩ | ⟨h', am, aq, e, k⟩
  · rw [hr] at e; cases e
  · rw [hr] at e
    obtain rfl := Res.ok.inj e
    refine ⟨fun h1 h2 => ?_, fun i h1 h2 => ?_⟩
    · have a := k.lock q h1
      have b := k.lock r h2
      rw [a] at b
      exact Option.some.inj b
    · have : ∀ r, onSplit i (h.at_ r) → h.owner i = some r := fun r hs => by
        cases hat : h.at_ r with
        | read j =>
          rw [hat] at hs
          have : i = j := hs
          rw [this]
          exact k.own r j (by rw [hat]; rfl)
        | _ => rw [hat] at hs; exact hs.elim
      have a := this q h1
      have b := this r h2
      rw [a] at b
      exact Option.some.inj b

end Verif.Hub
