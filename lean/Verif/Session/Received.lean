import Verif.Session.RecvProps
/-!
# What is delivered has been received
-/
namespace Verif.Session
open Verif Spec

/-- What is held and delivered has a property if the messages which are accepted have it. -/
theorem received_step (P : Pub → Prop) (hP : ∀ r p, SameMessage r p → P r → P p) (s s' : Session) (op : Op) (o : Out) (hi : Inv s) (hv : Valid s.broker op)
    (he : step s op = some (s', o)) (hs : ∀ p ∈ s.fromRemote, P p) (hop : ∀ now r tx, op = .publish now r .accept tx → P r) :
    (∀ p ∈ s'.fromRemote, P p) ∧ ∀ p ∈ o.delivered, P p := by
  obtain ⟨s1, o1, he1, _, _, hr⟩ : ∃ s1 o1, Session.step s op = some (s1, o1) ∧ Inv s1 ∧ s1.broker = s.broker ∧
      RecvStep s.fromRemote op o1 s1.fromRemote := by
    rcases step_inv s op hi hv with ⟨_, hn⟩ | hx
    · rw [he] at hn; cases hn
    · exact hx
  rw [he] at he1
  simp only [Option.some.injEq, Prod.mk.injEq] at he1
  obtain ⟨rfl, rfl⟩ := he1
  generalize s'.fromRemote = l' at hr
  generalize s.fromRemote = l at hr hs
  have hrefl : ∀ p : Pub, SameMessage p p := fun p => ⟨rfl, rfl, rfl, rfl, rfl, rfl, rfl, rfl, rfl⟩
  have hthin : ∀ {a b : List Pub}, Thinned a b → (∀ p ∈ a, P p) → ∀ p ∈ b, P p := by
    intro a b ht ha p hp
    obtain ⟨q, hq, e⟩ := ht.mem p hp
    exact hP q p (core_same e (hrefl q)) (ha q hq)
  cases hr with
  | thin hd ht _ _ _ _ =>
    refine ⟨hthin ht hs, fun p hp => ?_⟩
    rcases hd p hp with ⟨_, hm⟩ | ⟨_, now, r, tx, e, rfl⟩
    · exact hs p hm
    · exact hP r _ (fresh_same now r false) (hop now r tx e)
  | @one now p tx _ _ rest _ hd hrest ht =>
    have hn : P { received p with lastAttempt := now } := hP p _ (fresh_same now p false) (hop now p tx rfl)
    refine ⟨hthin ht fun q hq => ?_, fun q hq => ?_⟩
    · rcases (mem_insertOrdered _ _ _).mp hq with rfl | hq
      · exact hn
      · exact hs q hq
    · rw [hd] at hq
      rcases List.mem_cons.mp hq with rfl | hq
      · exact hn
      · exact hs q (hrest q hq).2
  | @store now p tx _ _ _ hd _ =>
    refine ⟨fun q hq => ?_, by rw [hd]; simp⟩
    rcases (mem_insertOrdered _ _ _).mp hq with rfl | hq
    · exact hP p _ (fresh_same now p true) (hop now p tx rfl)
    · exact hs q hq
  | @rel a v5 tx _ _ _ hd hl _ =>
    have h1 : ∀ p ∈ l.map (relOn a.id), P p := by
      intro p hp
      obtain ⟨q, hq, rfl⟩ := List.mem_map.mp hp
      exact hP q _ (relOn_same _ _) (hs q hq)
    refine ⟨?_, fun p hp => ?_⟩
    · rcases hl with rfl | rfl
      · exact h1
      · intro p hp
        obtain ⟨q, hq, rfl⟩ := List.mem_map.mp hp
        exact hP q _ (compOn_same _ _) (h1 q hq)
    · rw [hd] at hp
      exact hs p (List.mem_filter.mp hp).1
  | clean hd => exact ⟨by simp, by rw [hd]; simp⟩

end Verif.Session
