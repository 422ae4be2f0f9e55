import Verif.Passwd.Auth
/-!
# Passwords stored without encryption

What is stored is compared only for its own length. Passwords of which the length is no multiple of three are matched exactly, others also match longer
passwords, and passwords of more than 54 characters cannot be stored.
-/
namespace Verif.Passwd
open Verif
open Verif.Base64 (encLoop encode table at' three_induction)
open Verif.Base64.Spec (base64)

theorem encode_eq {s e : Bytes} (h : encode s = some e) : e = encLoop s 0 := by
  unfold encode at h
  split at h
  · cases h
  · exact (Option.some.inj h).symm

/-- A short text has no line end but the last. -/
theorem encLoop_short (s : Bytes) : ∀ ll, ll % 4 = 0 → ll + (s.length + 2) / 3 * 4 ≤ 72 → (s ≠ [] ∨ ll ≠ 0) → ll < 72 →
    encLoop s ll = base64 s ++ [10] := by
  induction s using three_induction with
  | h0 => intro ll _ _ h _; simp [encLoop, Base64.Spec.base64, Base64.Spec.rfc]; rcases h with h | h; exact absurd rfl h; exact h
  | h1 a => intro ll _ _ _ _; rw [Base64.base64_one]; simp [encLoop]
  | h2 a b => intro ll _ _ _ _; rw [Base64.base64_two]; simp [encLoop]
  | h3 a b c rest ih =>
    intro ll h4 hl _ hlt
    rw [Base64.base64_cons3, encLoop]
    simp only [List.length_cons] at hl
    by_cases hr : rest = []
    · subst hr
      by_cases h72 : ll + 4 ≥ 72
      · rw [if_pos h72]
        simp [encLoop, Base64.Spec.base64, Base64.Spec.rfc]
      · rw [if_neg h72]
        simp [encLoop, Base64.Spec.base64, Base64.Spec.rfc]
    · have : 0 < rest.length := List.length_pos_iff.2 hr
      rw [if_neg (by omega), ih (ll + 4) (by omega) (by omega) (.inl hr) (by omega)]
      simp

theorem at_inj {i j : UInt8} (hi : i.toNat < 64) (hj : j.toNat < 64) (h : at' table i = at' table j) : i = j := by
  rw [← (Base64.d_at i hi).1, ← (Base64.d_at j hj).1, h]

theorem at_ne {i : UInt8} (hi : i.toNat < 64) : at' table i ≠ 61 := (Base64.d_at i hi).2

theorem prefix_exact (pw : Bytes) : ∀ ll pw', pw.length % 3 ≠ 0 → ll + (pw.length + 2) / 3 * 4 ≤ 72 → base64 pw <+: encLoop pw' ll ++ [0] → pw' = pw := by
  induction pw using three_induction with
  | h0 => intro ll pw' h; exact absurd rfl h
  | h1 a =>
    intro ll pw' _ _ h
    rw [Base64.base64_one] at h
    match pw' with
    | [] =>
      have := h.length_le
      simp only [encLoop] at this
      split at this <;> simp at this
    | [a'] =>
      simp only [encLoop, List.cons_append, List.cons_prefix_cons] at h
      obtain ⟨h1, h2, _⟩ := h
      have e1 := at_inj (Base64.i0_lt a) (Base64.i0_lt a') h1
      have e2 := at_inj (Base64.i1p_lt a) (Base64.i1p_lt a') h2
      have g := Base64.group_take1 a
      rw [e1, e2, Base64.group_take1 a'] at g
      exact g
    | [a', b'] =>
      simp only [encLoop, List.cons_append, List.cons_prefix_cons] at h
      exact absurd h.2.2.1.symm (at_ne (Base64.i2p_lt b'))
    | a' :: b' :: c' :: r' =>
      simp only [encLoop, List.cons_append, List.cons_prefix_cons] at h
      exact absurd h.2.2.1.symm (at_ne (Base64.i2_lt b' c'))
  | h2 a b =>
    intro ll pw' _ _ h
    rw [Base64.base64_two] at h
    match pw' with
    | [] =>
      have := h.length_le
      simp only [encLoop] at this
      split at this <;> simp at this
    | [a'] =>
      simp only [encLoop, List.cons_append, List.cons_prefix_cons] at h
      exact absurd h.2.2.1 (at_ne (Base64.i2p_lt b))
    | [a', b'] =>
      simp only [encLoop, List.cons_append, List.cons_prefix_cons] at h
      obtain ⟨h1, h2, h3, _⟩ := h
      have e1 := at_inj (Base64.i0_lt a) (Base64.i0_lt a') h1
      have e2 := at_inj (Base64.i1_lt a b) (Base64.i1_lt a' b') h2
      have e3 := at_inj (Base64.i2p_lt b) (Base64.i2p_lt b') h3
      have g := Base64.group_take2 a b
      rw [e1, e2, e3, Base64.group_take2 a' b'] at g
      exact g
    | a' :: b' :: c' :: r' =>
      simp only [encLoop, List.cons_append, List.cons_prefix_cons] at h
      exact absurd h.2.2.2.1.symm (at_ne (Base64.i3_lt c'))
  | h3 a b c rest ih =>
    intro ll pw' h3 hl h
    simp only [List.length_cons] at h3 hl
    have hr : 0 < rest.length := by omega
    rw [Base64.base64_cons3] at h
    match pw' with
    | [] =>
      have := h.length_le
      simp only [encLoop] at this
      split at this <;> simp at this
    | [a'] =>
      simp only [encLoop, List.cons_append, List.cons_prefix_cons] at h
      exact absurd h.2.2.1 (at_ne (Base64.i2_lt b c))
    | [a', b'] =>
      simp only [encLoop, List.cons_append, List.cons_prefix_cons] at h
      exact absurd h.2.2.2.1 (at_ne (Base64.i3_lt c))
    | a' :: b' :: c' :: r' =>
      simp only [encLoop, List.cons_append, List.cons_prefix_cons] at h
      rw [if_neg (by omega)] at h
      obtain ⟨h1, h2, h3', h4, h5⟩ := h
      have e1 := at_inj (Base64.i0_lt a) (Base64.i0_lt a') h1
      have e2 := at_inj (Base64.i1_lt a b) (Base64.i1_lt a' b') h2
      have e3 := at_inj (Base64.i2_lt b c) (Base64.i2_lt b' c') h3'
      have e4 := at_inj (Base64.i3_lt c) (Base64.i3_lt c') h4
      have g := Base64.group_enc a b c
      rw [e1, e2, e3, e4, Base64.group_enc a' b' c'] at g
      simp only [List.cons.injEq, and_true] at g
      obtain ⟨g1, g2, g3⟩ := g
      rw [g1, g2, g3, ih (ll + 4) r' (by omega) (by omega) h5]

theorem base64_append (pw x : Bytes) (h : pw.length % 3 = 0) : base64 (pw ++ x) = base64 pw ++ base64 x := by
  induction pw using three_induction with
  | h0 => simp [Base64.Spec.base64, Base64.Spec.rfc]
  | h1 a => simp at h
  | h2 a b => simp at h
  | h3 a b c rest ih =>
    simp only [List.length_cons] at h
    simp only [List.cons_append]
    rw [Base64.base64_cons3, Base64.base64_cons3, ih (by omega)]
    simp

/-- What is stored for a password which is not encrypted -/
theorem plain_stored (cr : Crypt) (ho : cr.openssl = false) (salt pw h : Bytes) (he : encrypt cr salt pw = .done h) :
    pw.length ≤ 256 ∧ Stored (stripNewlines h) [48] [] (base64 pw) := by
  unfold encrypt at he
  rw [if_neg (by simp [ho])] at he
  split at he
  · cases he
  · next hl =>
    refine ⟨by unfold keyLength at hl; omega, ?_⟩
    cases h1 : encode pw with
    | none => simp [h1] at he
    | some e =>
      simp only [h1, Enc.done.injEq] at he
      refine ⟨?_, by decide, by decide, by rw [← strip_eq h1]; exact strip_clean h1⟩
      rw [← he, strip_append, strip_eq h1]
      simp [stripNewlines]

theorem plain_iff (cr : Crypt) (ho : cr.openssl = false) (salt pw pw' h : Bytes) (hp : pw ≠ []) (he : encrypt cr salt pw = .done h) :
    check cr (stripNewlines h) pw' = .yes ↔ pw' ≠ [] ∧ pw'.length ≤ 256 ∧ base64 pw <+: encLoop pw' 0 ++ [0] := by
  obtain ⟨_, hs⟩ := plain_stored cr ho salt pw h he
  have hb : base64 pw ≠ [] := by
    intro hb
    have := Base64.rfc_length pw
    rw [hb] at this
    have := List.length_pos_iff.2 hp
    simp only [List.length_nil] at *
    omega
  by_cases hp' : pw' = []
  · subst hp'; simp [check]
  · rw [check_stored cr _ pw' _ _ _ hp' hs, if_neg hb]
    simp only [List.head?_cons, ne_eq, not_true_eq_false, if_false]
    rw [checkBase64_iff]
    unfold PlainMatch
    simp only [ne_eq, hp', not_false_eq_true, true_and]
    constructor
    · rintro ⟨hl, e, h1, h2⟩
      rw [encode_eq h1] at h2
      exact ⟨hl, h2⟩
    · rintro ⟨hl, h2⟩
      obtain ⟨e, h1⟩ := Base64.encode_some pw' (by omega)
      exact ⟨hl, e, h1, by rw [encode_eq h1]; exact h2⟩

/-- C126. Without encryption, what is stored for a password of at most 54 characters, of which the length is no multiple of three, matches this password
only. -/
theorem plain_exact_partial (cr : Crypt) (ho : cr.openssl = false) (salt pw pw' h : Bytes) (he : encrypt cr salt pw = .done h)
    (hl : pw.length ≤ 54) (h3 : pw.length % 3 ≠ 0) : check cr (stripNewlines h) pw' = .yes ↔ pw' = pw := by
  have hp : pw ≠ [] := by rintro rfl; exact h3 rfl
  rw [plain_iff cr ho salt pw pw' h hp he]
  constructor
  · rintro ⟨_, _, hx⟩
    exact prefix_exact pw 0 pw' h3 (by omega) hx
  · rintro rfl
    refine ⟨hp, by omega, ?_⟩
    rw [encLoop_short pw' 0 rfl (by omega) (.inl hp) (by omega), List.append_assoc]
    exact List.prefix_append ..

/-- C126. Without encryption, when the length of a password is a multiple of three, all longer passwords which begin with it match, too. -/
theorem plain_prefix (cr : Crypt) (ho : cr.openssl = false) (salt pw x h : Bytes) (he : encrypt cr salt pw = .done h) (hp : pw ≠ [])
    (h3 : pw.length % 3 = 0) (hl : (pw ++ x).length ≤ 54) : check cr (stripNewlines h) (pw ++ x) = .yes := by
  rw [plain_iff cr ho salt pw _ h hp he]
  refine ⟨by simp [hp], by omega, ?_⟩
  rw [encLoop_short _ 0 rfl (by omega) (.inl (by simp [hp])) (by omega), base64_append pw x h3, List.append_assoc, List.append_assoc]
  exact List.prefix_append ..

/-- A build without OpenSSL -/
def plainCrypt : Crypt := { openssl := false, kdf := fun _ _ => none }

/-- `abc` is stored as `$0$$YWJj`. -/
example : encrypt plainCrypt [] [97, 98, 99] = .done [36, 48, 36, 36, 89, 87, 74, 106, 10] := by decide +kernel

/-- C126. The password `abcdef` is accepted when `abc` is stored. -/
theorem longer_accepted : check plainCrypt [36, 48, 36, 36, 89, 87, 74, 106] [97, 98, 99, 100, 101, 102] = .yes := by decide +kernel

/-- C126. For a password which is shorter than the one which is stored, memory beyond the Base64 text is compared. -/
theorem shorter_beyond : check plainCrypt [36, 48, 36, 36, 89, 87, 74, 106, 90, 71, 86, 109] [97] = .beyond := by decide +kernel

/-- C126. Passwords of more than 54 characters cannot be stored without encryption: the check which follows always fails, and the program aborts. -/
theorem long_refused (cr : Crypt) (ho : cr.openssl = false) (salt pw h : Bytes) (he : encrypt cr salt pw = .done h) (hl : 54 < pw.length) :
    check cr (stripNewlines h) pw ≠ .yes := by
  have hp : pw ≠ [] := by rintro rfl; simp at hl
  rw [ne_eq, plain_iff cr ho salt pw pw h hp he]
  rintro ⟨_, _, hx⟩
  have key : ∀ (s : Bytes) (ll : Nat), ll % 4 = 0 → ll < 72 → 72 < ll + (s.length + 2) / 3 * 4 → ¬ base64 s <+: encLoop s ll ++ [0] := by
    intro s
    induction s using three_induction with
    | h0 => intro ll _ h h'; simp at h'; omega
    | h1 a => intro ll h4 h h'; simp at h'; omega
    | h2 a b => intro ll h4 h h'; simp at h'; omega
    | h3 a b c rest ih =>
      intro ll h4 h h' hx
      simp only [List.length_cons] at h'
      rw [Base64.base64_cons3, encLoop] at hx
      simp only [List.cons_append, List.cons_prefix_cons, true_and] at hx
      by_cases h72 : ll + 4 ≥ 72
      · rw [if_pos h72] at hx
        have hr : rest ≠ [] := by
          rintro rfl
          simp at h'
          omega
        have hn : ∀ r : Bytes, r ≠ [] → ∀ y, ¬ base64 r <+: 10 :: y := by
          intro r hr y hy
          have : ∃ i z, i.toNat < 64 ∧ base64 r = at' table i :: z := by
            match r with
            | [] => exact absurd rfl hr
            | [a] => rw [Base64.base64_one]; exact ⟨_, _, Base64.i0_lt a, rfl⟩
            | [a, b] => rw [Base64.base64_two]; exact ⟨_, _, Base64.i0_lt a, rfl⟩
            | a :: b :: c :: r => rw [Base64.base64_cons3]; exact ⟨_, _, Base64.i0_lt a, rfl⟩
          obtain ⟨i, z, hi, hb⟩ := this
          rw [hb, List.cons_prefix_cons] at hy
          have := Base64.at_in hi
          rw [hy.1, Base64.nl_out] at this
          cases this
        exact hn rest hr _ hx
      · rw [if_neg h72] at hx
        exact ih (ll + 4) (by omega) (by omega) (by omega) hx
  exact key pw 0 rfl (by omega) (by omega) hx

/-- C126. When the key cannot be derived, no hash is made, but there is no error either. -/
theorem failure_unseen (cr : Crypt) (ho : cr.openssl = true) (salt pw : Bytes) (hs : salt.length = 32) (hp : pw ≠ []) (hl : pw.length < 2 ^ 31)
    (hk : cr.kdf pw salt = none) : encrypt cr salt pw = .nothing := by
  have hsne : salt ≠ [] := by rintro rfl; cases hs
  obtain ⟨s, h1⟩ := Base64.encode_some salt (by omega)
  have hd := Base64.decode_encode salt s hsne h1
  have hne : s ≠ [] := by
    rintro rfl
    simp [Base64.decode, Base64.count] at hd
  have : derive cr pw s = .error .no := by
    unfold derive
    simp only [hp, hne, decide_false, Bool.or_self, Bool.false_eq_true, if_false, hd, hk]
    rw [if_neg (by omega), if_neg (by omega), if_neg (by omega)]
  unfold encrypt
  rw [if_pos ho, h1]
  simp only [this]

/-- C126. A stored key which is too short lets memory beyond it be compared, and a stored salt which is too short aborts the program: `$1$AAAA$AAAA`. -/
theorem stored_short (cr : Crypt) (ho : cr.openssl = true) (pw : Bytes) (hp : pw ≠ []) :
    check cr [36, 49, 36, 65, 65, 65, 65, 36, 65, 65, 65, 65] pw = .abort := by
  have hs : Stored [36, 49, 36, 65, 65, 65, 65, 36, 65, 65, 65, 65] [49] [65, 65, 65, 65] [65, 65, 65, 65] := ⟨rfl, by decide, by decide, by decide⟩
  rw [check_stored cr _ pw _ _ _ hp hs]
  have hd : Base64.decode [65, 65, 65, 65] = some [0, 0, 0] := by decide +kernel
  simp [checkOpenssl, ho, hd, derive, hp]

end Verif.Passwd
