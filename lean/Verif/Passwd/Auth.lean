import Verif.Passwd.Lemmas
import Verif.Base64.Props
/-!
# Authentication against a password file

`authenticate_iff`: who gets in. `check_iff`: which passwords match what is stored. `encrypted_iff`, `plain_exact_partial`, `plain_prefix`: which
passwords match what has been stored for a password.
-/
namespace Verif.Passwd
open Verif

/-! ## Files -/

theorem fileLines_eq (b : Bytes) (h0 : (0 : UInt8) ∉ b) : fileLines b = content b := lineLoop_eq _ b (Nat.lt_succ_self _) h0

theorem authLines_iff (cr : Crypt) (name password : Bytes) (permission : Option Bytes) (ls : List Bytes) :
    authLines cr name password permission ls = .yes ↔
      ∃ pre l post u, ls = pre ++ l :: post ∧ (∀ x ∈ pre, ∃ v, Entry x v ∧ v.name ≠ name) ∧ Entry l u ∧ u.name = name
        ∧ check cr u.hash password = .yes ∧ ∀ p, permission = some p → p ∈ u.permissions := by
  induction ls with
  | nil =>
    constructor
    · intro h; cases h
    · rintro ⟨pre, l, post, u, h, _⟩
      cases pre <;> simp at h
  | cons l ls ih =>
    rw [authLines]
    constructor
    · intro h
      cases hu : user l with
      | none => simp [hu] at h
      | some u =>
        simp only [hu] at h
        have he := (user_iff l u).1 hu
        split at h
        · next hn =>
          obtain ⟨pre, k, post, v, h1, h2, h3⟩ := ih.1 h
          refine ⟨l :: pre, k, post, v, by rw [h1]; rfl, ?_, h3⟩
          intro x hx
          rcases List.mem_cons.1 hx with rfl | hx
          · exact ⟨u, he, hn⟩
          · exact h2 x hx
        · next hn =>
          have hn : u.name = name := Decidable.not_not.1 hn
          refine ⟨[], l, ls, u, rfl, by simp, he, hn, ?_⟩
          cases hc : check cr u.hash password with
          | yes =>
            refine ⟨rfl, ?_⟩
            simp only [hc] at h
            intro p hp
            subst hp
            simp only at h
            split at h
            · next ha =>
              simp only [List.any_eq_true, beq_iff_eq] at ha
              obtain ⟨q, hq, rfl⟩ := ha
              exact hq
            · cases h
          | no => simp [hc] at h
          | abort => simp [hc] at h
          | beyond => simp [hc] at h
    · rintro ⟨pre, k, post, u, h1, h2, h3, h4, h5, h6⟩
      cases pre with
      | nil =>
        simp only [List.nil_append, List.cons.injEq] at h1
        obtain ⟨rfl, rfl⟩ := h1
        simp only [(user_iff l u).2 h3, h4, ne_eq, not_true_eq_false, if_false, h5]
        cases permission with
        | none => rfl
        | some p =>
          have : (u.permissions.any (· == p)) = true := by
            simp only [List.any_eq_true, beq_iff_eq]
            exact ⟨p, h6 p rfl, rfl⟩
          simp [this]
      | cons x xs =>
        simp only [List.cons_append, List.cons.injEq] at h1
        obtain ⟨rfl, rfl⟩ := h1
        obtain ⟨v, hv, hvn⟩ := h2 l (List.mem_cons_self ..)
        simp only [(user_iff l v).2 hv, if_pos hvn]
        exact ih.2 ⟨xs, k, post, u, rfl, fun x hx => h2 x (List.mem_cons_of_mem _ hx), h3, h4, h5, h6⟩

/-- C126. A user gets in exactly when the file can be read, the first line with the name of the user has a matching password and, if a permission is
demanded, this permission, and all lines before are well-formed. -/
theorem authenticate_iff (cr : Crypt) (file : Option Bytes) (name password : Bytes) (permission : Option Bytes)
    (h0 : ∀ b, file = some b → (0 : UInt8) ∉ b) :
    authenticate cr file name password permission = .yes ↔
      name ≠ [] ∧ password ≠ [] ∧ ∃ b, file = some b ∧ b.length < 2 ^ 32
        ∧ ∃ pre l post u, content b = pre ++ l :: post ∧ (∀ x ∈ pre, ∃ v, Entry x v ∧ v.name ≠ name) ∧ Entry l u ∧ u.name = name
          ∧ check cr u.hash password = .yes ∧ ∀ p, permission = some p → p ∈ u.permissions := by
  unfold authenticate
  by_cases hn : name = []
  · simp [hn]
  by_cases hp : password = []
  · simp [hp]
  simp only [hn, hp, decide_false, Bool.or_self, Bool.false_eq_true, if_false, ne_eq, not_false_eq_true, true_and]
  cases file with
  | none => simp
  | some b =>
    simp only [Option.some.injEq, exists_eq_left']
    have hb := h0 b rfl
    rw [← authLines_iff, ← fileLines_eq b hb]
    split
    · next h =>
      constructor
      · intro h; cases h
      · rintro ⟨hl, ha⟩
        simp only [Bool.or_eq_true, decide_eq_true_eq] at h
        rcases h with h | h
        · rw [List.length_eq_zero_iff.1 h] at ha
          exact absurd ha (by simp [fileLines, lineLoop, Parse.ignoreSpaces, Parse.ignore, authLines])
        · omega
    · next h =>
      simp only [Bool.or_eq_true, decide_eq_true_eq, not_or] at h
      constructor
      · intro ha; exact ⟨by omega, ha⟩
      · exact fun ha => ha.2

/-! ## Stored passwords -/

theorem stored_iff (text : Bytes) (l : List Bytes) (hl : l.length = 4) :
    split 36 4 text = some l ↔ ∃ a k s h, l = [a, k, s, h] ∧ text = a ++ 36 :: (k ++ 36 :: (s ++ 36 :: h))
      ∧ (36 : UInt8) ∉ a ∧ (36 : UInt8) ∉ k ∧ (36 : UInt8) ∉ s ∧ (36 : UInt8) ∉ h := by
  rw [split_iff]
  constructor
  · rintro (⟨_, rfl⟩ | ⟨_, _, hx, hj⟩)
    · cases hl
    · match l, hl with
      | [a, k, s, h], _ =>
        exact ⟨a, k, s, h, rfl, by simpa [joined] using hj, hx a (by simp), hx k (by simp), hx s (by simp), hx h (by simp)⟩
  · rintro ⟨a, k, s, h, rfl, ht, h1, h2, h3, h4⟩
    right
    refine ⟨by rw [ht]; simp, by simp, ?_, by simp [joined, ht]⟩
    intro x hx
    simp only [List.mem_cons, List.not_mem_nil, or_false] at hx
    rcases hx with rfl | rfl | rfl | rfl <;> assumption

theorem check_stored (cr : Crypt) (text password kind salt hash : Bytes) (hp : password ≠ []) (hs : Stored text kind salt hash) :
    check cr text password =
      if hash = [] then .no
      else
        match kind.head? with
        | some 48 => if salt ≠ [] then .no else checkBase64 hash password
        | some 49 => if salt = [] then .no else checkOpenssl cr salt hash password
        | _ => .no := by
  obtain ⟨ht, h1, h2, h3⟩ := hs
  have : split 36 4 text = some [[], kind, salt, hash] :=
    (stored_iff text _ rfl).2 ⟨[], kind, salt, hash, rfl, ht, by simp, h1, h2, h3⟩
  unfold check
  rw [if_neg hp, if_neg (by rw [ht]; simp), this]
  show checkElements cr password [[], kind, salt, hash] = _
  by_cases hh : hash = []
  · simp [checkElements, hh]
  · unfold checkElements
    simp only [ne_eq, not_true_eq_false, if_false, if_neg hh]
    rfl

/-- The text matches in the way of passwords without encryption: what is stored begins the Base64 text of the password (which has line ends). -/
def PlainMatch (hash password : Bytes) : Prop := password.length ≤ 256 ∧ ∃ e, Base64.encode password = some e ∧ (hash <+: e ++ [0])

/-- The text matches in the way of passwords with encryption: at least 256 bytes are stored, with a salt of at least 32 bytes, and the first 256 bytes are
the key of the password. -/
def KeyMatch (cr : Crypt) (salt hash password : Bytes) : Prop :=
  ∃ raw s k, Base64.decode hash = some raw ∧ 256 ≤ raw.length ∧ Base64.decode salt = some s ∧ 32 ≤ s.length ∧ s.length < 2 ^ 31
    ∧ password.length < 2 ^ 31 ∧ cr.kdf password s = some k ∧ k.take 256 = raw.take 256

theorem checkBase64_iff (hash password : Bytes) : checkBase64 hash password = .yes ↔ PlainMatch hash password := by
  unfold checkBase64 PlainMatch keyLength
  split
  · constructor
    · intro h; cases h
    · rintro ⟨h, _⟩; omega
  · next hl =>
    cases he : Base64.encode password with
    | none => simp
    | some e =>
      dsimp only
      constructor
      · intro h
        split at h
        · cases h
        · split at h
          · next h2 => exact ⟨by omega, e, rfl, by rw [h2]; exact List.take_prefix ..⟩
          · cases h
      · rintro ⟨_, e', h1, h2⟩
        obtain rfl := Option.some.inj h1
        have := h2.length_le
        simp only [List.length_append, List.length_singleton] at this
        rw [if_neg (by omega), if_pos (List.prefix_iff_eq_take.1 h2)]

theorem derive_iff (cr : Crypt) (password salt k : Bytes) (hp : password ≠ []) (hs : salt ≠ []) : derive cr password salt = .ok k ↔
    ∃ s, Base64.decode salt = some s ∧ 32 ≤ s.length ∧ s.length < 2 ^ 31 ∧ password.length < 2 ^ 31 ∧ cr.kdf password s = some k := by
  unfold derive
  simp only [hp, hs, decide_false, Bool.or_self, Bool.false_eq_true, if_false]
  cases hd : Base64.decode salt with
  | none => simp
  | some s =>
    simp only [Option.some.injEq, exists_eq_left']
    split
    · simp; omega
    · split
      · simp; omega
      · split
        · simp; omega
        · cases hk : cr.kdf password s with
          | none => simp
          | some k' =>
            simp only [Except.ok.injEq, Option.some.injEq]
            constructor
            · intro h; exact ⟨by omega, by omega, by omega, h⟩
            · exact fun h => h.2.2.2

theorem checkOpenssl_iff (cr : Crypt) (salt hash password : Bytes) (hp : password ≠ []) (hs : salt ≠ []) :
    checkOpenssl cr salt hash password = .yes ↔ cr.openssl = true ∧ KeyMatch cr salt hash password := by
  unfold checkOpenssl KeyMatch keyLength
  cases ho : cr.openssl with
  | false => simp
  | true =>
    simp only [Bool.not_true, Bool.false_eq_true, if_false, true_and]
    cases hd : Base64.decode hash with
    | none => simp
    | some raw =>
      dsimp only
      cases hk : derive cr password salt with
      | error r =>
        dsimp only
        constructor
        · intro h
          subst h
          exfalso
          unfold derive at hk
          simp only [hp, hs, decide_false, Bool.or_self, Bool.false_eq_true, if_false] at hk
          cases hds : Base64.decode salt with
          | none => simp [hds] at hk
          | some s =>
            simp only [hds] at hk
            split at hk
            · simp at hk
            · split at hk
              · simp at hk
              · split at hk
                · simp at hk
                · split at hk <;> simp at hk
        · rintro ⟨raw', s, k, _, _, h1, h2, h3, h4, h5, _⟩
          have := (derive_iff cr password salt k hp hs).2 ⟨s, h1, h2, h3, h4, h5⟩
          rw [this] at hk
          cases hk
      | ok k =>
        dsimp only
        obtain ⟨s, h1, h2, h3, h4, h5⟩ := (derive_iff cr password salt k hp hs).1 hk
        constructor
        · intro h
          split at h
          · cases h
          · split at h
            · next h6 => exact ⟨raw, s, k, rfl, by omega, h1, h2, h3, h4, h5, h6⟩
            · cases h
        · rintro ⟨raw', s', k', hr, h6, h1', _, _, _, h5', h7⟩
          obtain rfl := Option.some.inj hr
          rw [h1] at h1'
          obtain rfl := Option.some.inj h1'
          rw [h5] at h5'
          obtain rfl := Option.some.inj h5'
          rw [if_neg (by omega), if_pos h7]

/-- C126. A password matches exactly when it is not empty and what is stored is of one of the two kinds and matches in its way. -/
theorem check_iff (cr : Crypt) (text password : Bytes) : check cr text password = .yes ↔
    password ≠ [] ∧ ∃ kind salt hash, Stored text kind salt hash ∧ hash ≠ []
      ∧ ((kind.head? = some 48 ∧ salt = [] ∧ PlainMatch hash password)
        ∨ (kind.head? = some 49 ∧ salt ≠ [] ∧ cr.openssl = true ∧ KeyMatch cr salt hash password)) := by
  constructor
  · intro h
    have hp : password ≠ [] := by
      rintro rfl
      simp [check] at h
    refine ⟨hp, ?_⟩
    have h' := h
    unfold check at h
    rw [if_neg hp] at h
    split at h
    · cases h
    · next hne =>
      cases hs : split 36 4 text with
      | none => simp [hs] at h
      | some l =>
        simp only [hs] at h
        have hl : l.length = 4 := by
          unfold checkElements at h
          split at h
          · rfl
          · cases h
        obtain ⟨a, k, s, x, rfl, ht, h1, h2, h3, h4⟩ := (stored_iff text l hl).1 hs
        have ha : a = [] := by
          unfold checkElements at h
          simp only at h
          split at h
          · cases h
          · next hh => exact Decidable.not_not.1 hh
        subst ha
        have hst : Stored text k s x := ⟨ht, h2, h3, h4⟩
        refine ⟨k, s, x, hst, ?_⟩
        rw [check_stored cr text password k s x hp hst] at h'
        split at h'
        · cases h'
        · next hx =>
          refine ⟨hx, ?_⟩
          split at h'
          · next hk =>
            split at h'
            · cases h'
            · next hss => exact .inl ⟨hk, Decidable.not_not.1 hss, (checkBase64_iff x password).1 h'⟩
          · next hk =>
            split at h'
            · cases h'
            · next hss =>
              have := (checkOpenssl_iff cr s x password hp hss).1 h'
              exact .inr ⟨hk, hss, this⟩
          · cases h'
  · rintro ⟨hp, k, s, x, hst, hx, h⟩
    rw [check_stored cr text password k s x hp hst, if_neg hx]
    rcases h with ⟨hk, hs, hm⟩ | ⟨hk, hs, hm⟩
    · simp only [hk, hs, ne_eq, not_true_eq_false, if_false]
      exact (checkBase64_iff x password).2 hm
    · simp only [hk, hs, if_false]
      exact (checkOpenssl_iff cr s x password hp hs).2 hm

/-! ## Passwords which have been stored -/

theorem strip_filter (s : Bytes) : (stripNewlines s).filter Base64.Spec.inAlphabet = s.filter Base64.Spec.inAlphabet := by
  unfold stripNewlines
  rw [List.filter_filter]
  apply List.filter_congr
  intro c _
  have h10 : Base64.Spec.inAlphabet 10 = false := Base64.nl_out
  have h13 : Base64.Spec.inAlphabet 13 = false := by decide +kernel
  by_cases h : c = 13 ∨ c = 10
  · rcases h with rfl | rfl <;> simp [h10, h13]
  · simp only [not_or] at h
    simp [h]

theorem strip_alphabet {s e : Bytes} (h : Base64.encode s = some e) : ∀ c ∈ stripNewlines e, Base64.Spec.inAlphabet c = true := by
  intro c hc
  unfold stripNewlines at hc
  rw [List.mem_filter] at hc
  rcases Base64.encode_chars s e h c hc.1 with rfl | h
  · simp at hc
  · exact h

theorem strip_clean {s e : Bytes} (h : Base64.encode s = some e) : (36 : UInt8) ∉ stripNewlines e := by
  intro hc
  have := strip_alphabet h 36 hc
  exact absurd this (by decide +kernel)

theorem strip_eq {s e : Bytes} (h : Base64.encode s = some e) : stripNewlines e = Base64.Spec.base64 s := by
  rw [← Base64.encode_rfc s e h, ← strip_filter, List.filter_eq_self.2 (strip_alphabet h)]

theorem strip_append (a b : Bytes) : stripNewlines (a ++ b) = stripNewlines a ++ stripNewlines b := by simp [stripNewlines]

/-- C126. With encryption, what is stored for a password matches exactly the passwords with the same key, for the salt it was stored with. The key
function gives 256 bytes. -/
theorem encrypted_iff (cr : Crypt) (ho : cr.openssl = true) (hk : ∀ p s k, cr.kdf p s = some k → k.length = 256) (salt pw pw' h : Bytes)
    (hs : salt.length = 32) (he : encrypt cr salt pw = .done h) (hl : pw'.length < 2 ^ 31) :
    check cr (stripNewlines h) pw' = .yes ↔ pw' ≠ [] ∧ cr.kdf pw' salt = cr.kdf pw salt := by
  unfold encrypt at he
  rw [if_pos ho] at he
  have hsne : salt ≠ [] := by rintro rfl; cases hs
  cases h1 : Base64.encode salt with
  | none => simp [h1] at he
  | some s =>
    simp only [h1] at he
    have hpne : pw ≠ [] := by
      rintro rfl
      simp [derive] at he
    have hsne2 : s ≠ [] := by
      rintro rfl
      have := Base64.decode_encode salt [] hsne h1
      simp [Base64.decode, Base64.count] at this
    cases h2 : derive cr pw s with
    | error r => cases r <;> simp [h2] at he
    | ok k =>
      simp only [h2] at he
      cases h3 : Base64.encode (k.take keyLength) with
      | none => simp [h3] at he
      | some x =>
        simp only [h3, Enc.done.injEq] at he
        obtain ⟨s', hd, _, _, hpl, hkk⟩ := (derive_iff cr pw s k hpne hsne2).1 h2
        rw [Base64.decode_encode salt s hsne h1] at hd
        obtain rfl := Option.some.inj hd
        have hkl := hk _ _ _ hkk
        have htk : k.take keyLength = k := by
          apply List.take_of_length_le
          rw [hkl]; exact Nat.le_refl _
        rw [htk] at h3
        have hkne : k ≠ [] := by rintro rfl; cases hkl
        have hst : Stored (stripNewlines h) [49] (stripNewlines s) (stripNewlines x) := by
          refine ⟨?_, by decide, strip_clean h1, strip_clean h3⟩
          rw [← he]
          simp only [strip_append]
          simp [stripNewlines]
        have hds : Base64.decode (stripNewlines s) = some salt :=
          Base64.decode_rfc salt _ hsne (by rw [strip_filter]; exact Base64.encode_rfc salt s h1)
        have hdx : Base64.decode (stripNewlines x) = some k :=
          Base64.decode_rfc k _ hkne (by rw [strip_filter]; exact Base64.encode_rfc k x h3)
        have hssne : stripNewlines s ≠ [] := by
          intro h
          rw [h] at hds
          simp [Base64.decode, Base64.count] at hds
        have hxne : stripNewlines x ≠ [] := by
          intro h
          rw [h] at hdx
          simp [Base64.decode, Base64.count] at hdx
        by_cases hp' : pw' = []
        · subst hp'
          simp [check]
        · rw [check_stored cr _ pw' [49] _ _ hp' hst, if_neg hxne]
          simp only [List.head?_cons, if_neg hssne]
          rw [checkOpenssl_iff cr _ _ pw' hp' hssne, ho, hkk]
          simp only [true_and, ne_eq, hp', not_false_eq_true]
          unfold KeyMatch
          rw [hds, hdx]
          constructor
          · rintro ⟨raw, s', k', hr, _, hs', _, _, _, hk', ht⟩
            obtain rfl := Option.some.inj hr
            obtain rfl := Option.some.inj hs'
            rw [hk']
            have hk'l := hk _ _ _ hk'
            rw [List.take_of_length_le (by omega), List.take_of_length_le (by omega)] at ht
            rw [ht]
          · intro hh
            exact ⟨k, salt, k, rfl, by omega, rfl, by omega, by omega, hl, hh, rfl⟩

/-- A build with OpenSSL, with a function in place of the key function which is of use for examples only -/
def exCrypt : Crypt := { openssl := true, kdf := fun p _ => some ((p ++ List.replicate 256 0).take 256) }

example : ∀ p s k, exCrypt.kdf p s = some k → k.length = 256 := by
  intro p s k h
  obtain rfl := Option.some.inj h
  rw [List.length_take, List.length_append, List.length_replicate]
  omega

/-- What is stored for `pw` with this function matches `pw`, and not `px`. -/
example : (match encrypt exCrypt (List.replicate 32 7) [112, 119] with
    | .done h => (check exCrypt (stripNewlines h) [112, 119], check exCrypt (stripNewlines h) [112, 120])
    | _ => (.abort, .abort)) = (.yes, .no) := by
  decide +kernel

end Verif.Passwd
