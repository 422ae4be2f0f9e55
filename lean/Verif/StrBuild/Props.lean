import Verif.StrBuild.Spec
/-!
# C155: texts are put together correctly
-/
namespace Verif.StrBuild
open Verif

/-- The builder holds the text, in a buffer of at most `k` bytes with place for a zero. -/
structure Inv (s : SB) (c : Bytes) (k : Nat) : Prop where
  wpos : s.wpos = c.length
  size : s.size ≤ k
  none : s.buf = none → c = []
  some : ∀ b, s.buf = some b → c.length + 1 ≤ b.length ∧ b.take c.length = c.map some

theorem reserve_ok (s : SB) (c : Bytes) (k n : Nat) (h : Inv s c k) (hk : k + n + 1025 < 2 ^ 64) :
    ∃ b, reserve s n = .ok ⟨some b, s.wpos⟩ ∧ c.length + n + 1 ≤ b.length ∧ b.take c.length = c.map some ∧ b.length ≤ k + (n + 1025) ∧
      (∀ b0, s.buf = some b0 → ∃ t, b = b0 ++ t) := by
  obtain ⟨buf, wpos⟩ := s
  have hw : wpos = c.length := h.wpos
  have hsz := h.size
  subst hw
  cases buf with
  | none =>
    have hc := h.none rfl
    subst hc
    have e1 : (n + 1 + 1024) % word = n + 1025 := Nat.mod_eq_of_lt (by unfold word; omega)
    have e2 : (n + 1025 + 0) % word = n + 1025 := Nat.mod_eq_of_lt (by unfold word; omega)
    refine ⟨List.replicate (n + 1025) none, ?_, by simp, by simp, by simp, (fun b0 h => by cases h)⟩
    unfold reserve
    rw [if_pos (.inr rfl)]
    simp only [SB.size, e1]
    rw [if_neg (by omega)]
    simp
  | some b =>
    obtain ⟨h1, h2⟩ := h.some b rfl
    have hb : b.length ≤ k := hsz
    have e0 : (c.length + n + 1) % word = c.length + n + 1 := Nat.mod_eq_of_lt (by unfold word; omega)
    have e1 : (n + 1 + 1024) % word = n + 1025 := Nat.mod_eq_of_lt (by unfold word; omega)
    have e2 : (n + 1025 + b.length) % word = n + 1025 + b.length := Nat.mod_eq_of_lt (by unfold word; omega)
    unfold reserve
    simp only [SB.size, e0, e1, e2]
    by_cases hg : c.length + n + 1 > b.length
    · rw [if_pos (.inl hg), if_neg (by omega)]
      simp only [Option.getD_some]
      rw [Nat.add_sub_cancel]
      refine ⟨b ++ List.replicate (n + 1025) none, rfl, ?_, ?_, ?_, ?_⟩
      · rw [List.length_append, List.length_replicate]; omega
      · rw [List.take_append_of_le_length (by omega), h2]
      · rw [List.length_append, List.length_replicate]; omega
      · intro b0 hb0; injection hb0 with hb0; exact ⟨List.replicate (n + 1025) none, by rw [hb0]⟩
    · rw [if_neg (by rintro (h | h); exact hg h; cases h)]
      exact ⟨b, rfl, by omega, h2, by omega, fun b0 hb0 => ⟨[], by rw [List.append_nil]; exact Option.some.inj hb0⟩⟩

/-- The byte behind the text is zero. -/
def Terminated (s : SB) : Prop := ∀ b, s.buf = some b → b[s.wpos]? = some (some 0)

theorem add_ok (s : SB) (c d : Bytes) (k : Nat) (h : Inv s c k) (hk : k + d.length + 1025 < 2 ^ 64) :
    ∃ s', (reserve s d.length).bind (put · d) = .ok s' ∧ Inv s' (c ++ d) (k + (d.length + 1025)) ∧ Terminated s' ∧ s'.buf ≠ none := by
  obtain ⟨b, hr, h1, h2, h3, _⟩ := reserve_ok s c k d.length h hk
  have hw := h.wpos
  rw [hr, hw]
  simp only [Out.bind, put]
  rw [if_neg (by omega)]
  have ht : (b.take c.length).length = c.length := by rw [List.length_take]; omega
  refine ⟨_, rfl, ⟨by simp, ?_, (fun h => by cases h), ?_⟩, ?_, by simp⟩
  · simp only [SB.size, List.length_append, ht, List.length_map, List.length_cons, List.length_nil, List.length_drop]; omega
  · intro b' hb'
    injection hb' with hb'
    subst hb'
    constructor
    · simp only [List.length_append, ht, List.length_map, List.length_cons, List.length_nil, List.length_drop]; omega
    · rw [h2, List.append_assoc, List.take_append_of_le_length (by simp), ← List.map_append, List.take_of_length_le (by simp)]
  · intro b' hb'
    injection hb' with hb'
    subst hb'
    simp only
    rw [h2, List.append_assoc, ← List.map_append, List.getElem?_append_right (by simp)]
    simp

theorem step_inv (s : SB) (c : Bytes) (k : Nat) (o : Op) (h : Inv s c k) (hk : k + Spec.need o < 2 ^ 64) :
    (∃ s', step s o = .ok s' ∧ Inv s' (Spec.next c o) (k + Spec.need o)) ∨ (o = .format [] ∧ step s o = .fail s) := by
  have same : Inv s c (k + Spec.need o) := ⟨h.wpos, Nat.le_trans h.size (by omega), h.none, h.some⟩
  cases o with
  | append d =>
    simp only [step, append, Spec.next]
    by_cases hd : d = [] ∧ s.buf ≠ none
    · rw [if_pos hd]; exact .inl ⟨s, rfl, by rw [hd.1] at same ⊢; simpa using same⟩
    · rw [if_neg hd]
      obtain ⟨s', e, hi, _⟩ := add_ok s c d k h (by simpa [Spec.need, Nat.add_assoc] using hk)
      exact .inl ⟨s', e, hi⟩
  | raw d =>
    obtain ⟨s', e, hi, _⟩ := add_ok s c d k h (by simpa [Spec.need, Nat.add_assoc] using hk)
    exact .inl ⟨s', e, hi⟩
  | format d =>
    simp only [step, appendFormat, Spec.next]
    by_cases hd : d = []
    · rw [if_pos hd]; exact .inr ⟨by rw [hd], rfl⟩
    · rw [if_neg hd]
      obtain ⟨s', e, hi, _⟩ := add_ok s c d k h (by simpa [Spec.need, Nat.add_assoc] using hk)
      exact .inl ⟨s', e, hi⟩
  | from_ d =>
    simp only [step, appendFrom, Spec.next]
    by_cases hd : d = []
    · rw [if_pos hd]; exact .inl ⟨s, rfl, by rw [hd] at same ⊢; simpa using same⟩
    · rw [if_neg hd]
      obtain ⟨s', e, hi, _⟩ := add_ok s c d k h (by simpa [Spec.need, Nat.add_assoc] using hk)
      exact .inl ⟨s', e, hi⟩
  | reserve n =>
    obtain ⟨b, e, h1, h2, h3, _⟩ := reserve_ok s c k n h (by simpa [Spec.need, Nat.add_assoc] using hk)
    refine .inl ⟨_, e, h.wpos, h3, (fun h => by cases h), ?_⟩
    intro b' hb'
    injection hb' with hb'
    subst hb'
    exact ⟨by simp only [Spec.next]; omega, h2⟩
  | truncate =>
    obtain ⟨buf, wpos⟩ := s
    cases buf with
    | none =>
      have hc := h.none rfl
      subst hc
      exact .inl ⟨_, rfl, same⟩
    | some b =>
      obtain ⟨h1, _⟩ := h.some b rfl
      have hb : b.length ≤ k := h.size
      simp only [step, truncate]
      rw [if_neg (by omega)]
      refine .inl ⟨_, rfl, rfl, ?_, (fun h => by cases h), ?_⟩
      · simp only [SB.size, List.length_cons, List.length_drop]; omega
      · intro b' hb'; injection hb' with hb'; subst hb'; exact ⟨by simp [Spec.next], rfl⟩
  | chop =>
    refine .inl ⟨_, rfl, ?_⟩
    have hw := h.wpos
    have hl : (Spec.next c .chop).length = c.length - 1 := by simp [Spec.next]
    refine ⟨?_, ?_, ?_, ?_⟩
    · rw [hl]; unfold chop; split
      · simp only; omega
      · omega
    · have : (chop s).size = s.size := by unfold chop; split <;> rfl
      rw [this]; exact same.size
    · intro hb
      have : s.buf = none := by unfold chop at hb; split at hb <;> exact hb
      rw [h.none this]; rfl
    · intro b hb
      have : s.buf = some b := by unfold chop at hb; split at hb <;> exact hb
      obtain ⟨h1, h2⟩ := h.some b this
      refine ⟨by omega, ?_⟩
      rw [hl]
      simp only [Spec.next, List.dropLast_eq_take, List.map_take, ← h2, List.take_take]
      congr 1
      omega
  | clear => exact .inl ⟨_, rfl, rfl, Nat.zero_le _, fun _ => rfl, (fun b h => by cases h)⟩

theorem run_inv (l : List Op) : ∀ (s : SB) (c : Bytes) (k : Nat), Inv s c k → k + (l.map Spec.need).sum < 2 ^ 64 →
    ∃ s', run s l = some s' ∧ Inv s' (l.foldl Spec.next c) (k + (l.map Spec.need).sum) := by
  induction l with
  | nil => intro s c k h _; exact ⟨s, rfl, h⟩
  | cons o l ih =>
    intro s c k h hk
    simp only [List.map_cons, List.sum_cons] at hk
    rcases step_inv s c k o h (by omega) with ⟨s', e, hi⟩ | ⟨rfl, e⟩
    · obtain ⟨s'', e', hi'⟩ := ih s' _ _ hi (by omega)
      refine ⟨s'', by simp only [run, e]; exact e', ?_⟩
      simpa [Nat.add_assoc] using hi'
    · obtain ⟨s'', e', hi'⟩ := ih s c (k + Spec.need (.format [])) ⟨h.wpos, Nat.le_trans h.size (by omega), h.none, h.some⟩ (by omega)
      refine ⟨s'', by simp only [run, e]; exact e', ?_⟩
      simpa [Nat.add_assoc, Spec.next] using hi'

theorem new_inv : Inv new [] 0 := ⟨rfl, Nat.le_refl _, fun _ => rfl, (fun b h => by cases h)⟩

/-- **C155** (partial) For every sequence of calls the sizes of which fit in 64 bits, nothing outside of the buffer is written, the length is that of the texts put together,
and the buffer begins with them. Missing: sizes which do not fit (`reserve_wraps`). -/
theorem content_partial (l : List Op) (h : Spec.Fits l) :
    ∃ s, run new l = some s ∧ s.length = (Spec.content l).length ∧ (s.buf = none → Spec.content l = []) ∧
      ∀ b, s.buf = some b → b.take s.length = (Spec.content l).map some ∧ s.length < s.size := by
  obtain ⟨s, e, hi⟩ := run_inv l new [] 0 new_inv (by simpa [Spec.Fits] using h)
  have hl : s.length = (Spec.content l).length := by
    cases hb : s.buf with
    | none => rw [show Spec.content l = [] from hi.none hb]; simp [SB.length, hb]
    | some b => simp only [SB.length, hb]; exact hi.wpos
  refine ⟨s, e, hl, hi.none, fun b hb => ?_⟩
  obtain ⟨h1, h2⟩ := hi.some b hb
  refine ⟨by rw [hl]; exact h2, ?_⟩
  rw [hl]
  simp only [SB.size, hb]
  exact h1

example : Spec.Fits [.append [97], .reserve 5, .raw [98, 0], .chop, .format [99]] ∧
    Spec.content [.append [97], .reserve 5, .raw [98, 0], .chop, .format [99]] = [97, 98, 99] := by
  unfold Spec.Fits; decide

/-- **C155** After any calls the sizes of which fit in 64 bits, a further call which fits fails only if it is to add a formatted text which is empty. -/
theorem fails_iff (l : List Op) (o : Op) (h : Spec.Fits (l ++ [o])) :
    ∃ s, run new l = some s ∧ ((∃ s', step s o = .fail s') ↔ o = .format []) := by
  have hs : (l.map Spec.need).sum + Spec.need o < 2 ^ 64 := by simpa [Spec.Fits] using h
  obtain ⟨s, e, hi⟩ := run_inv l new [] 0 new_inv (by omega)
  refine ⟨s, e, ?_, ?_⟩
  · rintro ⟨s', hf⟩
    rcases step_inv s _ _ o hi (by omega) with ⟨s'', e', _⟩ | ⟨ho, _⟩
    · rw [e'] at hf; cases hf
    · exact ho
  · rintro rfl; exact ⟨s, rfl⟩

example : Spec.Fits ([.append [97]] ++ [.format []]) := by unfold Spec.Fits; decide

/-- Calls after which the text is to be read from the buffer: not `chop` and not `reserve`. -/
def Ordinary (o : Op) : Prop := o ≠ .chop ∧ ∀ n, o ≠ .reserve n

theorem step_terminated (s s' : SB) (c : Bytes) (k : Nat) (o : Op) (h : Inv s c k) (hk : k + Spec.need o < 2 ^ 64) (ht : Terminated s)
    (ho : Ordinary o) (e : step s o = .ok s') : Terminated s' := by
  have add : ∀ d, k + d.length + 1025 < 2 ^ 64 → (reserve s d.length).bind (put · d) = .ok s' → Terminated s' := by
    intro d hd e'
    obtain ⟨s'', e'', _, t, _⟩ := add_ok s c d k h hd
    rw [e''] at e'; injection e' with e'; exact e' ▸ t
  cases o with
  | append d =>
    simp only [step, append] at e
    split at e
    · injection e with e; exact e ▸ ht
    · exact add d (by simpa [Spec.need, Nat.add_assoc] using hk) e
  | raw d => exact add d (by simpa [Spec.need, Nat.add_assoc] using hk) e
  | format d =>
    simp only [step, appendFormat] at e
    split at e
    · cases e
    · exact add d (by simpa [Spec.need, Nat.add_assoc] using hk) e
  | from_ d =>
    simp only [step, appendFrom] at e
    split at e
    · injection e with e; exact e ▸ ht
    · exact add d (by simpa [Spec.need, Nat.add_assoc] using hk) e
  | reserve n => exact absurd rfl (ho.2 n)
  | truncate =>
    simp only [step, truncate] at e
    split at e
    · injection e with e; exact e ▸ ht
    · split at e
      · cases e
      · injection e with e; subst e; intro b hb; injection hb with hb; subst hb; rfl
  | chop => exact absurd rfl ho.1
  | clear => injection e with e; subst e; intro b hb; cases hb

theorem run_terminated (l : List Op) : ∀ (s : SB) (c : Bytes) (k : Nat), Inv s c k → k + (l.map Spec.need).sum < 2 ^ 64 → Terminated s →
    (∀ o ∈ l, Ordinary o) → ∀ s', run s l = some s' → Terminated s' := by
  induction l with
  | nil => intro s c k _ _ ht _ s' e; injection e with e; exact e ▸ ht
  | cons o l ih =>
    intro s c k h hk ht ho s' e
    simp only [List.map_cons, List.sum_cons] at hk
    rcases step_inv s c k o h (by omega) with ⟨s1, e1, hi⟩ | ⟨rfl, e1⟩
    · simp only [run, e1] at e
      exact ih s1 _ _ hi (by omega) (step_terminated s s1 c k o h (by omega) ht (ho o (by simp)) e1) (fun o h => ho o (by simp [h])) s' e
    · simp only [run, e1] at e
      exact ih s c k h (by omega) ht (fun o h => ho o (by simp [h])) s' e

theorem cells_text (c : Bytes) (rest : List (Option UInt8)) (h : (0 : UInt8) ∉ c) : cells (c.map some ++ some 0 :: rest) = some c := by
  induction c with
  | nil => rfl
  | cons x c ih =>
    simp only [List.mem_cons, not_or] at h
    have hx : x ≠ 0 := fun e => h.1 e.symm
    simp only [List.map_cons, List.cons_append]
    unfold cells
    split
    · rename_i e; cases e
    · rename_i e; cases e
    · rename_i e; injection e with e; injection e with e; exact absurd e hx
    · rename_i y l _ e
      injection e with e1 e2
      injection e1 with e1
      subst e1 e2
      rw [ih h.2]; rfl

/-- **C155** (partial) After every sequence of calls of `append` of all kinds, `truncate` and `clear` the sizes of which fit, whoever reads the buffer as a C string or takes it over gets the texts put together, if there
is a buffer and no zero in them. Missing: `chop` and `reserve` (`chop_keeps`, `reserve_unwritten`). -/
theorem text_partial (l : List Op) (h : Spec.Fits l) (ho : ∀ o ∈ l, Ordinary o) (hz : (0 : UInt8) ∉ Spec.content l) :
    ∃ s, run new l = some s ∧ (s.buf ≠ none → s.text = some (Spec.content l)) := by
  have hs : 0 + (l.map Spec.need).sum < 2 ^ 64 := by simpa [Spec.Fits] using h
  obtain ⟨s, e, hi⟩ := run_inv l new [] 0 new_inv hs
  have ht := run_terminated l new [] 0 new_inv hs (fun b h => by cases h) ho s e
  refine ⟨s, e, fun hb => ?_⟩
  cases hb' : s.buf with
  | none => exact absurd hb' hb
  | some b =>
    have t := ht b hb'
    obtain ⟨h1, h2⟩ := hi.some b hb'
    rw [hi.wpos] at t
    have hd : b = (Spec.content l).map some ++ some 0 :: b.drop ((Spec.content l).length + 1) := by
      have h2' : b.take (Spec.content l).length = (Spec.content l).map some := h2
      rw [← h2']
      have t' : b[(Spec.content l).length]? = some (some 0) := t
      obtain ⟨hlt, hget⟩ := List.getElem?_eq_some_iff.mp t'
      rw [← hget, List.getElem_cons_drop, List.take_append_drop]
    simp only [SB.text, hb']
    rw [hd]
    exact cells_text _ _ hz

example : ∃ s, run new [.append [97], .from_ [98], .format [99]] = some s ∧ s.text = some [97, 98, 99] := by
  obtain ⟨s, e, h⟩ := text_partial [.append [97], .from_ [98], .format [99]] (by unfold Spec.Fits; decide)
    (by intro o ho; simp at ho; rcases ho with rfl | rfl | rfl <;> exact ⟨by simp, by simp⟩) (by decide)
  refine ⟨s, e, h ?_⟩
  intro hb
  have : (run new [.append [97], .from_ [98], .format [99]]).map (·.buf.isSome) = some true := by decide +kernel
  rw [e] at this
  simp [hb] at this

theorem run_snoc (l : List Op) (o : Op) : ∀ s, run s (l ++ [o]) = (run s l).bind fun t => run t [o] := by
  induction l with
  | nil => intro s; rfl
  | cons a l ih =>
    intro s
    simp only [List.cons_append, run]
    cases step s a with
    | ok t => exact ih t
    | fail t => exact ih t
    | outside => rfl

/-- **C155** After `append` of any text, the empty one too, there is a buffer. -/
theorem has_buffer (l : List Op) (d : Bytes) (h : Spec.Fits (l ++ [.append d])) :
    ∃ s, run new (l ++ [.append d]) = some s ∧ s.buf ≠ none := by
  have hs : (l.map Spec.need).sum + (d.length + 1025) < 2 ^ 64 := by
    have : ((l ++ [Op.append d]).map Spec.need).sum < 2 ^ 64 := h
    simpa [Spec.need] using this
  obtain ⟨s, e, hi⟩ := run_inv l new [] 0 new_inv (by omega)
  rw [run_snoc, e]
  simp only [Option.bind_some, run, step, append]
  by_cases hd : d = [] ∧ s.buf ≠ none
  · rw [if_pos hd]; exact ⟨s, rfl, hd.2⟩
  · rw [if_neg hd]
    rw [Nat.zero_add] at hi
    obtain ⟨s', e', _, _, hb⟩ := add_ok s _ d _ hi (by rw [Nat.add_assoc]; exact hs)
    rw [e']
    exact ⟨s', rfl, hb⟩

example : Spec.Fits ([.clear] ++ [.append []]) := by unfold Spec.Fits; decide

/-- **C155** fails at full strength: after `chop` the length is less by one, but whoever reads the buffer as a C string still gets the last character. -/
theorem chop_keeps : ∃ s, run new [.append [97, 98], .chop] = some s ∧ s.length = 1 ∧ s.text = some [97, 98] :=
  ⟨(run new [.append [97, 98], .chop]).getD new, by decide +kernel, by decide +kernel, by decide +kernel⟩

/-- **C155** fails at full strength: after `reserve` of a new builder there is a buffer, but nothing is written to it and it can not be read as a C string. -/
theorem reserve_unwritten : ∃ s, run new [.reserve 4] = some s ∧ s.buf ≠ none ∧ s.length = 0 ∧ s.text = none :=
  ⟨(run new [.reserve 4]).getD new, by decide +kernel, by decide +kernel, by decide +kernel, by decide +kernel⟩

/-- **C155** fails at full strength: reserving a size such that the sum wraps to zero succeeds with the buffer as it was. -/
theorem reserve_wraps : ∃ s, run new [.append [97]] = some s ∧ reserve s (2 ^ 64 - 2) = .ok s ∧ s.size < 2 ^ 64 - 2 :=
  ⟨(run new [.append [97]]).getD new, by decide +kernel, by decide +kernel, by decide +kernel⟩

end Verif.StrBuild
