import Verif.Uri.Spec
import Verif.HttpUtil.Props
import Verif.Bits

namespace Verif.Uri
open Verif Verif.HttpUtil Spec

theorem scanHost_sound (a : Bool) : ∀ (l : Bytes) (n : Nat) (h rest : Bytes), scanHost a n l = some (h, rest) →
    l = h ++ rest ∧ (∀ c ∈ h, isAlnum c = true ∨ c = 46 ∨ c = 45) ∧ (n = 0 → h.head? ≠ some 45) ∧ (rest = [] ∨ rest.head? = some 58 ∨ (a = true ∧ rest.head? = some 47)) := by
  intro l
  induction l with
  | nil =>
    intro n h rest e
    simp only [scanHost, Option.some.injEq, Prod.mk.injEq] at e
    obtain ⟨rfl, rfl⟩ := e
    simp
  | cons c r ih =>
    intro n h rest e
    unfold scanHost at e
    have step : ∀ {x}, scanHost a (n + 1) r = some x → (c :: x.1, x.2) = (h, rest) → (isAlnum c = true ∨ c = 46 ∨ c = 45) → (n = 0 → c ≠ 45) →
        c :: r = h ++ rest ∧ (∀ c ∈ h, isAlnum c = true ∨ c = 46 ∨ c = 45) ∧ (n = 0 → h.head? ≠ some 45) ∧ (rest = [] ∨ rest.head? = some 58 ∨ (a = true ∧ rest.head? = some 47)) := by
      intro x hx e' hc hd
      obtain ⟨x1, x2⟩ := x
      simp only [Prod.mk.injEq] at e'
      obtain ⟨rfl, rfl⟩ := e'
      obtain ⟨h1, h2, _, h4⟩ := ih (n + 1) x1 x2 hx
      refine ⟨by rw [h1]; rfl, ?_, by simpa using hd, h4⟩
      intro d hd'
      rcases List.mem_cons.mp hd' with rfl | hd'
      · exact hc
      · exact h2 d hd'
    split at e
    · next hc =>
      cases hs : scanHost a (n + 1) r with
      | none => rw [hs] at e; cases e
      | some x =>
        rw [hs] at e
        simp only [Option.map_some, Option.some.injEq] at e
        simp only [Bool.or_eq_true, beq_iff_eq] at hc
        refine step hs e (hc.imp id .inl) ?_
        rintro _ rfl
        rcases hc with hc | hc
        · revert hc; decide
        · revert hc; decide
    · split at e
      · next _ hc =>
        simp only [beq_iff_eq] at hc
        split at e
        · cases e
        · next hn =>
          cases hs : scanHost a (n + 1) r with
          | none => rw [hs] at e; cases e
          | some x =>
            rw [hs] at e
            simp only [Option.map_some, Option.some.injEq] at e
            exact step hs e (.inr (.inr hc)) (fun h0 => absurd h0 hn)
      · split at e
        · next _ _ hc =>
          simp only [Option.some.injEq, Prod.mk.injEq] at e
          obtain ⟨rfl, rfl⟩ := e
          simp only [Bool.or_eq_true, Bool.and_eq_true, beq_iff_eq] at hc
          refine ⟨rfl, by simp, by simp, .inr ?_⟩
          rcases hc with ⟨ha, rfl⟩ | rfl
          · exact .inr ⟨ha, rfl⟩
          · exact .inl rfl
        · cases e

theorem scanHost_complete (a : Bool) (rest : Bytes) (hr : rest = [] ∨ rest.head? = some 58 ∨ (a = true ∧ rest.head? = some 47)) : ∀ (h : Bytes) (n : Nat),
    (∀ c ∈ h, isAlnum c = true ∨ c = 46 ∨ c = 45) → (n = 0 → h.head? ≠ some 45) → scanHost a n (h ++ rest) = some (h, rest) := by
  intro h
  induction h with
  | nil =>
    intro n _ _
    cases rest with
    | nil => rfl
    | cons c r =>
      simp only [reduceCtorEq, List.head?_cons, Option.some.injEq, false_or] at hr
      have hc : c = 58 ∨ c = 47 := hr.imp id And.right
      have h1 : (isAlnum c || c == 46) = false := by rcases hc with rfl | rfl <;> decide
      have h2 : (c == 45) = false := by rcases hc with rfl | rfl <;> decide
      have h3 : ((a && c == 47) || c == 58) = true := by rcases hr with rfl | ⟨rfl, rfl⟩ <;> simp
      simp [scanHost, h1, h2, h3]
  | cons c h ih =>
    intro n hc hd
    have := ih (n + 1) (fun d hd => hc d (List.mem_cons_of_mem _ hd)) (by omega)
    rw [List.cons_append]
    unfold scanHost
    rw [this]
    by_cases h1 : (isAlnum c || c == 46) = true
    · rw [if_pos h1]; rfl
    · rw [if_neg h1]
      have h2 : c = 45 := by
        rcases hc c (by simp) with h | h | h
        · simp [h] at h1
        · simp [h] at h1
        · exact h
      have h3 : n ≠ 0 := fun h0 => hd h0 (by simp [h2])
      rw [if_pos (by simp [h2]), if_neg h3]; rfl

theorem digit_value (c : UInt8) : (isDigit 10 c = true → digitValue c = c.toNat - 48) ∧ (isDigit 10 c = true ↔ 48 ≤ c ∧ c ≤ 57) := by
  revert c
  exact all256 (by unfold isDigit digitValue; decide +kernel)

theorem foldl_number (l : Bytes) (hd : ∀ c ∈ l, isDigit 10 c = true) : ∀ n, l.foldl (fun n c => n * 10 + digitValue c) n = l.foldl (fun n c => n * 10 + (c.toNat - 48)) n := by
  induction l with
  | nil => intro n; rfl
  | cons c l ih =>
    intro n
    simp only [List.foldl_cons]
    rw [(digit_value c).1 (hd c (by simp))]
    exact ih (fun c hc => hd c (List.mem_cons_of_mem _ hc)) _

theorem takeWhile_digits (d t : Bytes) (hd : ∀ c ∈ d, isDigit 10 c = true) (ht : ∀ c, t.head? = some c → isDigit 10 c = false) : (d ++ t).takeWhile (isDigit 10) = d := by
  induction d with
  | nil =>
    cases t with
    | nil => rfl
    | cons c t => simp [List.takeWhile, ht c rfl]
  | cons c d ih =>
    rw [List.cons_append, List.takeWhile_cons_of_pos (hd c (by simp)), ih (fun c hc => hd c (List.mem_cons_of_mem _ hc))]

theorem port_complete (d t : Bytes) (hp : PortText d) (ht : ∀ c, t.head? = some c → ¬ (48 ≤ c ∧ c ≤ 57)) : strtoullRaw 10 (d ++ t) = some (number d, d.length) := by
  obtain ⟨h1, h2, h3, h4⟩ := hp
  have hd : ∀ c ∈ d, isDigit 10 c = true := fun c hc => (digit_value c).2.mpr (h1 c hc)
  have ht' : ∀ c, t.head? = some c → isDigit 10 c = false := fun c hc => by
    cases h : isDigit 10 c with
    | false => rfl
    | true => exact absurd ((digit_value c).2.mp h) (ht c hc)
  have hne : d.length ≠ 0 := by
    intro h0
    rw [List.length_eq_zero_iff.mp h0] at h3
    exact absurd h3 (by decide)
  unfold strtoullRaw
  simp only [takeWhile_digits d t hd ht']
  rw [if_neg hne, if_neg (by omega)]
  unfold strtoull
  simp only [foldl_number d hd 0]
  have : d.foldl (fun n c => n * 10 + (c.toNat - 48)) 0 = number d := rfl
  rw [this, if_pos (by omega)]

theorem port_sound (r : Bytes) (v n : Nat) (h : strtoullRaw 10 r = some (v, n)) (h1 : ¬ (v < 1 ∨ v > 65535)) : ∃ d, PortText d ∧ v = number d ∧ r = d ++ r.drop n ∧ d.length = n := by
  unfold strtoullRaw at h
  simp only at h
  split at h
  · cases h
  · split at h
    · cases h
    · next hl =>
      simp only [Option.some.injEq, Prod.mk.injEq] at h
      obtain ⟨hv, hn⟩ := h
      have hd : ∀ c ∈ r.takeWhile (isDigit 10), isDigit 10 c = true := List.all_eq_true.mp List.all_takeWhile
      have hnum : v = number (r.takeWhile (isDigit 10)) := by
        unfold strtoull at hv
        simp only [foldl_number _ hd 0] at hv
        split at hv
        · exact hv.symm
        · omega
      refine ⟨r.takeWhile (isDigit 10), ⟨fun c hc => (digit_value c).2.mp (hd c hc), by omega, by omega, by omega⟩, hnum, ?_, hn⟩
      have e : r.takeWhile (isDigit 10) ++ r.dropWhile (isDigit 10) = r := List.takeWhile_append_dropWhile
      have : r.drop n = r.dropWhile (isDigit 10) := by
        rw [← hn]
        have e' : (r.takeWhile (isDigit 10) ++ r.dropWhile (isDigit 10)).drop (r.takeWhile (isDigit 10)).length = r.dropWhile (isDigit 10) := List.drop_left
        rwa [e] at e'
      rw [this, e]

theorem same_colon' : ∀ c : UInt8, SameLetter c 58 ↔ c = 58 := all256 (by unfold SameLetter; decide +kernel)
theorem same_colon {c : UInt8} : SameLetter c 58 ↔ c = 58 := same_colon' c

theorem same_slash' : ∀ c : UInt8, SameLetter c 47 ↔ c = 47 := all256 (by unfold SameLetter; decide +kernel)
theorem same_slash {c : UInt8} : SameLetter c 47 ↔ c = 47 := same_slash' c

/-- Searches do not fail. -/
theorem search_total (l needle : Bytes) (hn : needle ≠ []) : strcasestr l needle = .err ∨ ∃ p n, strcasestr l needle = .ok (p, n) := by
  rcases (strcasestr_partial l needle hn).1 with h | ⟨p, n, h, _⟩
  · exact .inl h
  · exact .inr ⟨p, n, h⟩

theorem slashes_first (l : Bytes) (h : l.head? ≠ some 47) (n : Nat) : strcasestr l slashes ≠ .ok (0, n) := by
  intro e
  obtain ⟨_, ho⟩ := (strcasestr_beginning l slashes (by decide)).mp ⟨n, e⟩
  have := same_slash.mp (ho 0 (by decide))
  cases l with
  | nil => exact absurd this (by decide)
  | cons c r => exact h (by simpa using this)

theorem slashes_found (l : Bytes) (n : Nat) (e : strcasestr l slashes = .ok (0, n)) : n = 2 ∧ l = slashes ++ l.drop 2 := by
  obtain ⟨hl, ho⟩ := (strcasestr_beginning l slashes (by decide)).mp ⟨n, e⟩
  have h0 := same_slash.mp (ho 0 (by decide))
  have h1 := same_slash.mp (ho 1 (by decide))
  simp only [slashes, List.length_cons, List.length_nil] at hl
  match l, hl with
  | a :: b :: r, _ =>
    simp only [List.getD_cons_zero, Nat.zero_add, List.getD_cons_succ] at h0 h1
    refine ⟨?_, by rw [h0, h1]; rfl⟩
    rcases (strcasestr_partial (a :: b :: r) slashes (by decide)).1 with h | ⟨p, m, h, hc⟩
    · rw [e] at h; cases h
    · rw [e] at h
      simp only [Out.ok.injEq, Prod.mk.injEq] at h
      obtain ⟨rfl, rfl⟩ := h
      rcases hc with ⟨h, _⟩ | ⟨h, _, h', _⟩
      · exact h
      · simp only [slashes, List.length_cons, List.length_nil] at h h'
        omega

theorem getD_append_left (p r : Bytes) (i : Nat) (h : i < p.length) : (p ++ r).getD i 0 = p[i] := by
  rw [List.getD_eq_getElem?_getD, List.getElem?_append_left h, List.getElem?_eq_getElem h]; rfl

theorem separator_occurs (p r : Bytes) : OccursAt (p ++ separator ++ r) separator p.length := by
  refine ⟨by simp [separator], fun i hi => ?_⟩
  left
  rw [List.append_assoc, List.getD_eq_getElem?_getD, List.getElem?_append_right (by omega), List.getElem?_append_left (by omega), Nat.add_sub_cancel_left, ← List.getD_eq_getElem?_getD]

theorem separator_found (p r : Bytes) (hp : 58 ∉ p) : strcasestr (p ++ separator ++ r) separator = .ok (p.length, 3) := by
  obtain ⟨q, hq, hle⟩ := (strcasestr_partial (p ++ separator ++ r) separator (by decide)).2 p.length (separator_occurs p r) (by
    by_cases h0 : p.length = 0
    · exact .inl h0
    · right
      intro hs
      have := same_colon.mp hs
      rw [List.append_assoc, getD_append_left p _ _ (by omega)] at this
      exact hp (this ▸ List.getElem_mem _))
  rcases (strcasestr_partial (p ++ separator ++ r) separator (by decide)).1 with h | ⟨q', n, h, hc⟩
  · rw [hq] at h; cases h
  · have hn : separator.length = 3 := rfl
    rw [hq, hn] at h
    simp only [Out.ok.injEq, Prod.mk.injEq] at h
    obtain ⟨rfl, rfl⟩ := h
    rcases hc with ⟨_, _, ho⟩ | ⟨h, _⟩
    · have h0 := same_colon.mp (ho 0 (by decide))
      by_cases hlt : q < p.length
      · rw [Nat.add_zero, List.append_assoc, getD_append_left p _ _ hlt] at h0
        exact absurd (h0 ▸ List.getElem_mem _) hp
      · rw [hq, hn, show q = p.length by omega]
    · exact absurd h (by decide)

/-- What a search for the separator finds: it is there, or the text ends in it. -/
theorem separator_sound (l : Bytes) (p n : Nat) (h : strcasestr l separator = .ok (p, n)) : l.drop (p + n) = [] ∨ l = l.take p ++ separator ++ l.drop (p + n) := by
  rcases (strcasestr_partial l separator (by decide)).1 with h' | ⟨q, m, h', hc⟩
  · rw [h] at h'; cases h'
  · rw [h] at h'
    simp only [Out.ok.injEq, Prod.mk.injEq] at h'
    obtain ⟨rfl, rfl⟩ := h'
    rcases hc with ⟨rfl, hl, ho⟩ | ⟨_, _, he, _⟩
    · right
      have h0 := same_colon.mp (ho 0 (by decide))
      have h1 := same_slash.mp (ho 1 (by decide))
      have h2 := same_slash.mp (ho 2 (by decide))
      have e : l.drop p = separator ++ l.drop (p + separator.length) := by
        simp only [separator, List.length_cons, List.length_nil] at hl ⊢
        rw [← List.drop_drop]
        have hlen : 3 ≤ (l.drop p).length := by rw [List.length_drop]; omega
        rw [List.getD_eq_getElem?_getD, ← List.getElem?_drop, ← List.getD_eq_getElem?_getD] at h0 h1 h2
        generalize l.drop p = m at hlen h0 h1 h2
        match m, hlen, h0, h1, h2 with
        | a :: b :: c :: r, _, h0, h1, h2 =>
          simp at h0 h1 h2
          simp [h0, h1, h2]
      rw [List.append_assoc, ← e, List.take_append_drop]
    · left; rw [List.drop_eq_nil_iff]; omega

end Verif.Uri
