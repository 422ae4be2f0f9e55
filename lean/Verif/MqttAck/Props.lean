import Verif.MqttAck.Model
/-!
# C156: acknowledged subscriptions and unsubscriptions
-/
namespace Verif.MqttAck
open Verif

/-- Place `i` of request and acknowledgements: this filter was confirmed as removed. -/
def Confirmed (req : List Bytes) (acks : List UInt8) (t : Bytes) : Prop := ∃ i : Nat, req[i]? = some t ∧ acks[i]? = some 0

theorem confirmed_cons (r : Bytes) (req : List Bytes) (a : UInt8) (acks : List UInt8) (t : Bytes) :
    Confirmed (r :: req) (a :: acks) t ↔ (r = t ∧ a = 0) ∨ Confirmed req acks t := by
  constructor
  · rintro ⟨i, h1, h2⟩
    cases i with
    | zero => exact .inl ⟨by simpa using h1, by simpa using h2⟩
    | succ i => exact .inr ⟨i, by simpa using h1, by simpa using h2⟩
  · rintro (⟨h1, h2⟩ | ⟨i, h1, h2⟩)
    · exact ⟨0, by simp [h1], by simp [h2]⟩
    · exact ⟨i + 1, by simpa using h1, by simpa using h2⟩

theorem count_filter_le (l : List Bytes) (p : Bytes → Bool) (h : l.Nodup) : (l.filter p).Nodup :=
  h.sublist List.filter_sublist

theorem unsubLoop_spec : ∀ (req : List Bytes) (acks : List UInt8) (subs : List Bytes), req.length = acks.length → subs.Nodup →
    ∃ r, unsubLoop subs req acks = .ok r ∧ List.Sublist r subs ∧ ∀ t, t ∈ r ↔ t ∈ subs ∧ ¬ Confirmed req acks t := by
  intro req
  induction req with
  | nil =>
    intro acks subs h _
    have : acks = [] := List.length_eq_zero_iff.mp (by simpa using h.symm)
    subst this
    exact ⟨subs, rfl, List.Sublist.refl _, fun t => ⟨fun ht => ⟨ht, by rintro ⟨i, h1, _⟩; simp at h1⟩, fun ht => ht.1⟩⟩
  | cons x req ih =>
    intro acks subs h hn
    cases acks with
    | nil => simp at h
    | cons a acks =>
      have hl : req.length = acks.length := by simpa using h
      unfold unsubLoop
      by_cases ha : a ≠ 0
      · rw [if_pos ha]
        obtain ⟨r, e, hs, hm⟩ := ih acks subs hl hn
        refine ⟨r, e, hs, fun t => ?_⟩
        rw [hm, confirmed_cons]
        constructor
        · rintro ⟨h1, h2⟩; exact ⟨h1, by rintro (⟨_, h⟩ | h); exact ha h; exact h2 h⟩
        · rintro ⟨h1, h2⟩; exact ⟨h1, fun h => h2 (.inr h)⟩
      · rw [if_neg ha]
        have ha0 : a = 0 := Classical.not_not.mp ha
        have hc : ¬ subs.count x > 1 := by
          have := List.nodup_iff_count.mp hn x; omega
        unfold remove
        rw [if_neg hc]
        obtain ⟨r, e, hs, hm⟩ := ih acks (subs.filter (· != x)) hl (count_filter_le _ _ hn)
        refine ⟨r, e, hs.trans List.filter_sublist, fun t => ?_⟩
        rw [hm, confirmed_cons, List.mem_filter, bne_iff_ne]
        constructor
        · rintro ⟨⟨h1, h3⟩, h2⟩; exact ⟨h1, by rintro (⟨h, _⟩ | h); exact h3 h.symm; exact h2 h⟩
        · rintro ⟨h1, h2⟩; exact ⟨⟨h1, fun e => h2 (.inl ⟨e.symm, ha0⟩)⟩, fun h => h2 (.inr h)⟩

/-- **C156** With version 5, an answer to an unsubscription takes out of the filters which are asked for at the next connection exactly those which the broker has confirmed;
the others stay in their order. -/
theorem unsuback_exact (subs req : List Bytes) (acks : List UInt8) (h : req.length = acks.length) (hn : subs.Nodup) :
    ∃ r, unsuback true subs req acks = .ok r ∧ List.Sublist (onConnect r) subs ∧
      ∀ t, t ∈ onConnect r ↔ t ∈ subs ∧ ¬ Confirmed req acks t := by
  unfold unsuback
  rw [if_pos rfl, if_neg (by simpa using h)]
  exact unsubLoop_spec req acks subs h hn

example : unsuback true [[97], [98], [99]] [[98], [99], [100]] [0, 0x87, 0] = .ok [[97], [99]] := by decide

/-- **C156** With version 3.1, where the filters are removed when the command is given (`Verif.MqttClient.unsubscribe_partial`) and the answer has no entries, it changes nothing. -/
theorem v31_unchanged (subs req : List Bytes) (acks : List UInt8) : ∃ r, unsuback false subs req acks = .ok r ∧ onConnect r = subs :=
  ⟨subs, rfl, rfl⟩

example : unsuback false [[97]] [[98]] [] = .ok [[97]] := by decide

/-- The warning which the answer to one filter calls for. -/
def warning (i : Nat) (s : Sub) (a : UInt8) : Option Warn :=
  if 2 < a then some (.rejected i s.filter) else if a < s.qos then some (.lower i s.filter a s.qos) else none

theorem subLoop_spec (known : UInt8 → Bool) : ∀ (req : List Sub) (acks : List UInt8) (i : Nat) (w : List Warn), req.length = acks.length →
    (∀ a ∈ acks, 2 < a → known a = true) →
    ∃ w', subLoop known i req acks w = .ok (w ++ w') ∧
      ∀ x, x ∈ w' ↔ ∃ (j : Nat) (s : Sub) (a : UInt8), req[j]? = some s ∧ acks[j]? = some a ∧ warning (i + j) s a = some x := by
  intro req
  induction req with
  | nil =>
    intro acks i w h _
    have : acks = [] := List.length_eq_zero_iff.mp (by simpa using h.symm)
    subst this
    exact ⟨[], by simp [subLoop], by intro x; simp⟩
  | cons s req ih =>
    intro acks i w h hk
    cases acks with
    | nil => simp at h
    | cons a acks =>
      have hl : req.length = acks.length := by simpa using h
      have hk' : ∀ a ∈ acks, 2 < a → known a = true := fun a ha => hk a (by simp [ha])
      have head : ∃ w', subLoop known i (s :: req) (a :: acks) w = .ok (w ++ ((warning i s a).toList ++ w')) ∧
          ∀ x, x ∈ w' ↔ ∃ (j : Nat) (s : Sub) (a : UInt8), req[j]? = some s ∧ acks[j]? = some a ∧ warning (i + 1 + j) s a = some x := by
        unfold subLoop warning
        by_cases h2 : 2 < a
        · rw [if_pos h2, if_pos h2, if_pos (hk a (by simp) h2)]
          obtain ⟨w', e, hm⟩ := ih acks (i + 1) (w ++ [.rejected i s.filter]) hl hk'
          exact ⟨w', by rw [e]; simp, hm⟩
        · rw [if_neg h2, if_neg h2]
          by_cases hq : a < s.qos
          · rw [if_pos hq, if_pos hq]
            obtain ⟨w', e, hm⟩ := ih acks (i + 1) (w ++ [.lower i s.filter a s.qos]) hl hk'
            exact ⟨w', by rw [e]; simp, hm⟩
          · rw [if_neg hq, if_neg hq]
            obtain ⟨w', e, hm⟩ := ih acks (i + 1) w hl hk'
            exact ⟨w', by rw [e]; simp, hm⟩
      obtain ⟨w', e, hm⟩ := head
      refine ⟨_, e, fun x => ?_⟩
      rw [List.mem_append, Option.mem_toList, hm]
      constructor
      · rintro (h | ⟨j, s', a', h1, h2, h3⟩)
        · exact ⟨0, s, a, rfl, rfl, h⟩
        · exact ⟨j + 1, s', a', by simpa using h1, by simpa using h2, by rw [← h3]; congr 1; omega⟩
      · rintro ⟨j, s', a', h1, h2, h3⟩
        cases j with
        | zero =>
          simp only [List.getElem?_cons_zero, Option.some.injEq] at h1 h2
          subst h1 h2
          exact .inl h3
        | succ j =>
          exact .inr ⟨j, s', a', by simpa using h1, by simpa using h2, by rw [← h3]; congr 1; omega⟩

/-- **C156** If the broker's reasons are known, the answer to a subscription gives a warning for exactly those filters which are rejected or have got a lower quality of service than was asked for, with its filter. -/
theorem suback_warns (known : UInt8 → Bool) (req : List Sub) (acks : List UInt8) (h : req.length = acks.length)
    (hk : ∀ a ∈ acks, 2 < a → known a = true) :
    ∃ w, suback known req acks = .ok w ∧
      (∀ i f, .rejected i f ∈ w ↔ ∃ s a, req[i]? = some s ∧ acks[i]? = some a ∧ 2 < a ∧ f = s.filter) ∧
      (∀ i f g q, .lower i f g q ∈ w ↔ ∃ s, req[i]? = some s ∧ acks[i]? = some g ∧ ¬ 2 < g ∧ g < s.qos ∧ f = s.filter ∧ q = s.qos) := by
  obtain ⟨w, e, hm⟩ := subLoop_spec known req acks 0 [] h hk
  refine ⟨w, ?_, ?_, ?_⟩
  · unfold suback; rw [if_neg (by simpa using h), e]; rfl
  · intro i f
    rw [hm]
    constructor
    · rintro ⟨j, s, a, h1, h2, h3⟩
      unfold warning at h3
      split at h3
      · rename_i h4
        injection h3 with h3
        injection h3 with h5 h6
        rw [Nat.zero_add] at h5
        subst h5
        exact ⟨s, a, h1, h2, h4, h6.symm⟩
      · split at h3
        · injection h3 with h3; cases h3
        · cases h3
    · rintro ⟨s, a, h1, h2, h3, rfl⟩
      exact ⟨i, s, a, h1, h2, by unfold warning; rw [if_pos h3, Nat.zero_add]⟩
  · intro i f g q
    rw [hm]
    constructor
    · rintro ⟨j, s, a, h1, h2, h3⟩
      unfold warning at h3
      split at h3
      · injection h3 with h3; cases h3
      · rename_i h4
        split at h3
        · rename_i h5
          injection h3 with h3
          injection h3 with e1 e2 e3 e4
          rw [Nat.zero_add] at e1
          subst e1 e3
          exact ⟨s, h1, h2, h4, h5, e2.symm, e4.symm⟩
        · cases h3
    · rintro ⟨s, h1, h2, h3, h4, rfl, rfl⟩
      exact ⟨i, s, g, h1, h2, by unfold warning; rw [if_neg h3, if_pos h4, Nat.zero_add]⟩

example : suback (fun _ => true) [⟨[97], 2⟩, ⟨[98], 1⟩, ⟨[99], 1⟩] [1, 1, 0x87] = .ok [.lower 0 [97] 1 2, .rejected 2 [99]] := by decide

theorem subLoop_unknown (known : UInt8 → Bool) : ∀ (req : List Sub) (acks : List UInt8) (i : Nat) (w : List Warn), req.length = acks.length →
    (∃ a ∈ acks, 2 < a ∧ known a = false) → ∃ w', subLoop known i req acks w = .fail w' := by
  intro req
  induction req with
  | nil =>
    intro acks i w h ⟨a, ha, _⟩
    have : acks = [] := List.length_eq_zero_iff.mp (by simpa using h.symm)
    subst this
    cases ha
  | cons s req ih =>
    intro acks i w h ⟨b, hb, h2, hk⟩
    cases acks with
    | nil => simp at h
    | cons a acks =>
      have hl : req.length = acks.length := by simpa using h
      unfold subLoop
      by_cases h3 : a > 2
      · rw [if_pos h3]
        by_cases h4 : known a = true
        · rw [if_pos h4]
          refine ih acks _ _ hl ⟨b, ?_, h2, hk⟩
          rcases List.mem_cons.mp hb with e | e
          · rw [e, h4] at hk; cases hk
          · exact e
        · rw [if_neg h4]; exact ⟨w, rfl⟩
      · rw [if_neg h3]
        have hb' : b ∈ acks := by
          rcases List.mem_cons.mp hb with e | e
          · rw [e] at h2; exact absurd h2 h3
          · exact e
        split
        · exact ih acks _ _ hl ⟨b, hb', h2, hk⟩
        · exact ih acks _ _ hl ⟨b, hb', h2, hk⟩

/-- **C156** An answer to a subscription with a reason which is not known is an error. -/
theorem unknown_fails (known : UInt8 → Bool) (req : List Sub) (acks : List UInt8) (h : req.length = acks.length)
    (hu : ∃ a ∈ acks, 2 < a ∧ known a = false) : ∃ w, suback known req acks = .fail w := by
  unfold suback
  rw [if_neg (by simpa using h)]
  exact subLoop_unknown known req acks 0 [] h hu

example : suback (fun _ => false) [⟨[97], 2⟩, ⟨[98], 1⟩] [1, 3] = .fail [.lower 0 [97] 1 2] := by decide

/-- **C156** An answer to a subscription or, with version 5, to an unsubscription with another number of entries than were asked for aborts the program; the session is to have refused it. -/
theorem mismatch_aborts (known : UInt8 → Bool) (req : List Sub) (ureq subs : List Bytes) (acks : List UInt8) :
    (req.length ≠ acks.length → suback known req acks = .bug) ∧ (ureq.length ≠ acks.length → unsuback true subs ureq acks = .bug) := by
  constructor
  · intro h; unfold suback; rw [if_pos h]
  · intro h; unfold unsuback; rw [if_pos rfl, if_pos h]

example : ([⟨[97], 0⟩] : List Sub).length ≠ ([] : List UInt8).length := by decide

end Verif.MqttAck
