import Verif.Config.Spec
import Verif.AclFile.Parts
import Verif.ArrayDef.Texts
/-! # Spaces, comments and names -/
namespace Verif.Config
open AclFile (Out bind_ok newLine spacesComments) 
open Verif.Config.Spec

theorem blank_iff (c : UInt8) : Parse.isSpaces c = true ↔ Blank [c] := by
  rw [AclFile.isSpaces_iff]; simp [Blank, or_assoc]

theorem inline_iff (c : UInt8) : Parse.isSpaceTab c = true ↔ Inline [c] := by
  simp [Parse.isSpaceTab, Inline]

theorem newline_iff (c : UInt8) : Parse.isNewline c = true ↔ Newline c := by
  rw [AclFile.isNewline_iff]; rfl

theorem name_iff (c : UInt8) : Parse.isNameChar c = true ↔ NameChar c := by
  simp [Parse.isNameChar, Parse.isLetter, Parse.isDigit, NameChar]
  simp only [or_assoc]

/-- Nothing more, or something else than a space. -/
def NoBlank (b : Bytes) : Prop := ∀ c, b.head? = some c → ¬ Blank [c]

theorem blank_all {b : Bytes} : Blank b ↔ ∀ c ∈ b, Parse.isSpaces c = true :=
  ⟨fun h c hc => (blank_iff c).mpr fun d hd => by simp at hd; rw [hd]; exact h c hc, fun h c hc => (blank_iff c).mp (h c hc) c (by simp)⟩

theorem inline_all {b : Bytes} : Inline b ↔ ∀ c ∈ b, Parse.isSpaceTab c = true :=
  ⟨fun h c hc => (inline_iff c).mpr fun d hd => by simp at hd; rw [hd]; exact h c hc, fun h c hc => (inline_iff c).mp (h c hc) c (by simp)⟩

theorem blank_cons {c : UInt8} {b : Bytes} (h1 : Blank [c]) (h2 : Blank b) : Blank (c :: b) := by
  intro d hd
  rcases List.mem_cons.mp hd with rfl | hd
  · exact h1 _ (by simp)
  · exact h2 d hd

theorem blank_inline {b : Bytes} (h : Inline b) : Blank b := fun c hc => by rcases h c hc with h | h <;> simp [h]

theorem ig_eq (b : Bytes) : Parse.ignoreSpaces b = b.dropWhile Parse.isSpaces := ArrayDef.ig_eq b

theorem ig_head (b : Bytes) : NoBlank (Parse.ignoreSpaces b) := by
  intro c hc hb
  rw [ig_eq] at hc
  have := List.head?_dropWhile_not Parse.isSpaces b
  rw [hc] at this
  simp at this
  rw [(blank_iff c).mpr hb] at this
  cases this

theorem ig_split (b : Bytes) : ∃ sp, b = sp ++ Parse.ignoreSpaces b ∧ Blank sp :=
  ⟨b.takeWhile Parse.isSpaces, by rw [ig_eq, List.takeWhile_append_dropWhile], blank_all.mpr fun c hc => by
    have := List.all_takeWhile (p := Parse.isSpaces) (l := b)
    rw [List.all_eq_true] at this
    exact this c hc⟩

theorem ig_of {sp r : Bytes} (h1 : Blank sp) (h2 : NoBlank r) : Parse.ignoreSpaces (sp ++ r) = r := by
  rw [ig_eq, List.dropWhile_append_of_pos (blank_all.mp h1)]
  cases r with
  | nil => rfl
  | cons c t =>
    rw [List.dropWhile_cons_of_neg]
    intro h
    exact h2 c rfl ((blank_iff c).mp h)

theorem ig_skip {sp r : Bytes} (h1 : Blank sp) : Parse.ignoreSpaces (sp ++ r) = Parse.ignoreSpaces r := by
  rw [ig_eq, ig_eq, List.dropWhile_append_of_pos (blank_all.mp h1)]

theorem ig_self {r : Bytes} (h : NoBlank r) : Parse.ignoreSpaces r = r := ig_of (sp := []) (by simp [Blank]) h

theorem ig_suffix (b : Bytes) : Parse.ignoreSpaces b <:+ b := by
  obtain ⟨sp, h, _⟩ := ig_split b
  exact ⟨sp, h.symm⟩

theorem ig_nil {b : Bytes} : Parse.ignoreSpaces b = [] ↔ Blank b := by
  constructor
  · intro h
    obtain ⟨sp, h1, h2⟩ := ig_split b
    rw [h, List.append_nil] at h1
    rw [h1]; exact h2
  · intro h
    have := ig_of (r := []) h (by intro c hc; cases hc)
    rwa [List.append_nil] at this

theorem letters_split (b : Bytes) : ∃ n r, Parse.matchLetters Parse.isNameChar b = (n, r) ∧ b = n ++ r ∧ (∀ c ∈ n, NameChar c) ∧ ∀ c, r.head? = some c → ¬ NameChar c := by
  refine ⟨b.takeWhile Parse.isNameChar, b.dropWhile Parse.isNameChar, Discern.drop_peek _ _, List.takeWhile_append_dropWhile.symm, ?_, ?_⟩
  · intro c hc
    have := List.all_takeWhile (p := Parse.isNameChar) (l := b)
    rw [List.all_eq_true] at this
    exact (name_iff c).mp (this c hc)
  · intro c hc hn
    have := List.head?_dropWhile_not Parse.isNameChar b
    rw [hc] at this
    simp at this
    rw [(name_iff c).mpr hn] at this
    cases this

theorem letters_of {n r : Bytes} (h1 : ∀ c ∈ n, NameChar c) (h2 : ∀ c, r.head? = some c → ¬ NameChar c) : Parse.matchLetters Parse.isNameChar (n ++ r) = (n, r) := by
  rw [Discern.drop_peek, List.takeWhile_append_of_pos fun c hc => (name_iff c).mpr (h1 c hc), List.dropWhile_append_of_pos fun c hc => (name_iff c).mpr (h1 c hc)]
  cases r with
  | nil => simp
  | cons c t =>
    have hc : ¬ Parse.isNameChar c = true := fun h => h2 c rfl ((name_iff c).mp h)
    rw [List.takeWhile_cons_of_neg hc, List.dropWhile_cons_of_neg hc, List.append_nil]

theorem name_not_blank : ∀ c : UInt8, NameChar c → ¬ Blank [c] := by
  intro c h hb
  have h1 := (name_iff c).mpr h
  have h2 := (blank_iff c).mpr hb
  revert c
  intro c h hb h1 h2
  have : ∀ c : UInt8, Parse.isNameChar c = true → Parse.isSpaces c = true → False := all256 (by decide +kernel)
  exact this c h1 h2

theorem name_front {n r : Bytes} (h : Name n) : NoBlank (n ++ r) := by
  obtain ⟨h1, h2⟩ := h
  cases n with
  | nil => exact absurd rfl h1
  | cons c t => intro d hd; simp at hd; rw [← hd]; exact name_not_blank c (h2 c (by simp))

/-- After a name there are spaces or the end character. -/
theorem after_name {s r : Bytes} {e : UInt8} (hs : Blank s) (he : ¬ NameChar e) : ∀ c, (s ++ e :: r).head? = some c → ¬ NameChar c := by
  intro c hc hn
  cases s with
  | nil => simp at hc; rw [← hc] at hn; exact he hn
  | cons d t =>
    simp at hc
    subst hc
    exact name_not_blank d hn fun x hx => by simp at hx; rw [hx]; exact hs d (by simp)

theorem end_front {r : Bytes} {e : UInt8} (he : ¬ Blank [e]) : NoBlank (e :: r) := by intro c hc; simp at hc; rw [← hc]; exact he

theorem extractName_some {e : UInt8} (he : ¬ NameChar e) (hb : ¬ Blank [e]) (b n r : Bytes) : extractName e b = .ok (some n, r) ↔ NameText e n b r := by
  constructor
  · intro h
    unfold extractName at h
    simp only at h
    obtain ⟨sp, h1, h2⟩ := ig_split b
    split at h
    · simp at h
    · obtain ⟨m, q, h3, h4, h5, h6⟩ := letters_split (Parse.ignoreSpaces b)
      rw [h3] at h
      simp only at h
      split at h
      · simp at h
      · rename_i hm
        obtain ⟨sp2, h7, h8⟩ := ig_split q
        split at h
        · cases h
        · rename_i c t hq
          split at h
          · rename_i hce
            simp only [Out.ok.injEq, Prod.mk.injEq, Option.some.injEq] at h
            obtain ⟨rfl, rfl⟩ := h
            subst hce
            rw [hq] at h7
            exact ⟨sp, sp2, by rw [← h7, ← h4]; exact h1, h2, ⟨hm, h5⟩, h8⟩
          · cases h
  · rintro ⟨s1, s2, rfl, h1, h2, h3⟩
    unfold extractName
    simp only
    rw [ig_of h1 (name_front h2), letters_of h2.2 (after_name h3 he)]
    simp only
    rw [if_neg (by simp [h2.1]), if_neg h2.1, ig_of h3 (end_front hb)]
    simp

theorem extractName_none {e : UInt8} (b r : Bytes) : extractName e b = .ok (none, r) ↔ r = Parse.ignoreSpaces b ∧ ∀ c, r.head? = some c → ¬ NameChar c := by
  unfold extractName
  simp only
  split
  · rename_i h
    constructor
    · intro h'; cases h'; exact ⟨h.symm, by simp⟩
    · rintro ⟨rfl, _⟩; rw [h]
  · rename_i hne
    obtain ⟨m, q, h3, h4, h5, h6⟩ := letters_split (Parse.ignoreSpaces b)
    rw [h3]
    simp only
    split
    · rename_i hm
      subst hm
      rw [List.nil_append] at h4
      constructor
      · intro h'; simp only [Out.ok.injEq, Prod.mk.injEq, true_and] at h'; subst h'; exact ⟨h4.symm, h6⟩
      · rintro ⟨rfl, _⟩; rw [h4]
    · rename_i hm
      constructor
      · intro h'
        split at h'
        · cases h'
        · split at h'
          · cases h'
          · cases h'
      · rintro ⟨rfl, h⟩
        cases m with
        | nil => exact absurd rfl hm
        | cons c t => exact absurd (h5 c (by simp)) (h c (by rw [h4]; rfl))

theorem extractName_safe (e : UInt8) (b : Bytes) : extractName e b ≠ .abort := by
  unfold extractName
  simp only
  repeat' split
  all_goals simp

theorem namePart_some (b n t : Bytes) (q : Bool) : namePart b = .ok (some (n, q, t)) ↔ NameText (if q then 91 else 93) n b t := by
  have hce : ∀ q : Bool, ¬ NameChar (if q then 91 else 93) ∧ ¬ Blank [(if q then 91 else 93 : UInt8)] := by
    intro q
    cases q <;> exact ⟨by rw [← name_iff]; decide, by rw [← blank_iff]; decide⟩
  constructor
  · intro h
    unfold namePart at h
    simp only at h
    obtain ⟨sp, h1, h2⟩ := ig_split b
    split at h
    · simp at h
    · obtain ⟨m, r, h3, h4, h5, h6⟩ := letters_split (Parse.ignoreSpaces b)
      rw [h3] at h
      simp only at h
      obtain ⟨sp2, h7, h8⟩ := ig_split r
      split at h
      · cases h
      · rename_i c u hq
        split at h
        · cases h
        · rename_i hc
          split at h
          · cases h
          · rename_i hm
            simp only [Out.ok.injEq, Option.some.injEq, Prod.mk.injEq] at h
            obtain ⟨rfl, rfl, rfl⟩ := h
            rw [hq] at h7
            refine ⟨sp, sp2, ?_, h2, ⟨hm, h5⟩, h8⟩
            have : (if decide (c = 91) = true then (91 : UInt8) else 93) = c := by
              by_cases h91 : c = 91
              · simp [h91]
              · by_cases h93 : c = 93
                · simp [h93]
                · exact absurd ⟨h93, h91⟩ hc
            rw [this, ← h7, ← h4]; exact h1
  · rintro ⟨s1, s2, rfl, h1, h2, h3⟩
    unfold namePart
    simp only
    rw [ig_of h1 (name_front h2), letters_of h2.2 (after_name h3 (hce q).1)]
    simp only
    rw [if_neg (by simp [h2.1]), ig_of h3 (end_front (hce q).2)]
    simp only
    rw [if_neg (by cases q <;> simp), if_neg h2.1]
    cases q <;> simp

theorem namePart_none (b : Bytes) : namePart b = .ok none ↔ Blank b := by
  rw [← ig_nil]
  unfold namePart
  simp only
  split
  · rename_i h; simp [h]
  · rename_i h
    constructor
    · intro h'
      split at h'
      · cases h'
      · split at h'
        · cases h'
        · split at h'
          · cases h'
          · simp at h'
    · intro h'; exact absurd h' h

theorem blockName_some (b n r : Bytes) (m : Option Bytes) : blockName b = .ok (some (n, m), r) ↔ BlockText n m b r := by
  unfold blockName
  constructor
  · intro h
    obtain ⟨x, h1, h2⟩ := bind_ok.mp h
    cases x with
    | none => simp at h2
    | some x =>
      obtain ⟨n', q, t⟩ := x
      have hx := (namePart_some b n' t q).mp h1
      cases q with
      | false =>
        simp only [Out.ok.injEq, Prod.mk.injEq, Option.some.injEq] at h2
        obtain ⟨⟨rfl, rfl⟩, rfl⟩ := h2
        exact hx
      | true =>
        simp only at h2
        obtain ⟨y, h3, h4⟩ := bind_ok.mp h2
        cases y with
        | none => simp at h4
        | some y =>
          obtain ⟨m', q2, u⟩ := y
          have hy := (namePart_some t m' u q2).mp h3
          cases q2 with
          | false =>
            simp only at h4
            obtain ⟨sp, h7, h8⟩ := ig_split u
            split at h4
            · cases h4
            · rename_i c v hu
              split at h4
              · rename_i hc
                simp only [Out.ok.injEq, Prod.mk.injEq, Option.some.injEq] at h4
                obtain ⟨⟨rfl, rfl⟩, rfl⟩ := h4
                subst hc
                rw [hu] at h7
                exact ⟨t, u, hx, hy, sp, h7, h8⟩
              · cases h4
          | true =>
            simp only at h4
            obtain ⟨z, _, h6⟩ := bind_ok.mp h4
            cases h6
  · intro h
    cases m with
    | none =>
      rw [(namePart_some b n r false).mpr h]
      rfl
    | some m =>
      obtain ⟨t, u, h1, h2, sp, rfl, h4⟩ := h
      rw [(namePart_some b n t true).mpr h1]
      simp only [Out.bind]
      rw [(namePart_some t m _ false).mpr h2]
      simp only
      rw [ig_of h4 (end_front (by rw [← blank_iff]; decide))]
      simp

theorem blockName_none (b r : Bytes) : blockName b = .ok (none, r) ↔ Blank b ∧ r = [] := by
  unfold blockName
  constructor
  · intro h
    obtain ⟨x, h1, h2⟩ := bind_ok.mp h
    cases x with
    | none =>
      simp only [Out.ok.injEq, Prod.mk.injEq, true_and] at h2
      exact ⟨(namePart_none b).mp h1, h2.symm⟩
    | some x =>
      obtain ⟨n', q, t⟩ := x
      cases q with
      | false => simp at h2
      | true =>
        simp only at h2
        obtain ⟨y, h3, h4⟩ := bind_ok.mp h2
        cases y with
        | none => simp at h4
        | some y =>
          obtain ⟨m', q2, u⟩ := y
          cases q2 with
          | false =>
            simp only at h4
            split at h4
            · cases h4
            · split at h4
              · simp at h4
              · cases h4
          | true =>
            simp only at h4
            obtain ⟨z, _, h6⟩ := bind_ok.mp h4
            cases h6
  · rintro ⟨h, rfl⟩
    rw [(namePart_none b).mpr h]
    rfl

/-! ## Comments -/

theorem skips_blank {sp r : Bytes} (h : Blank sp) : Skips (sp ++ r) r := by
  induction sp with
  | nil => exact .done r
  | cons c t ih => exact .space (fun d hd => by simp at hd; rw [hd]; exact h c (by simp)) (ih fun d hd => h d (by simp [hd]))

theorem skips_trans {a b c : Bytes} (h1 : Skips a b) (h2 : Skips b c) : Skips a c := by
  induction h1 with
  | done _ => exact h2
  | space hb _ ih => exact .space hb (ih h2)
  | comment hl he _ ih => exact .comment hl he (ih h2)

/-- A comment and what is skipped with it. -/
theorem comment_skips (t : Bytes) : ∃ l u sp, t = l ++ u ∧ (∀ c ∈ l, ¬ Newline c) ∧ LineEnd u ∧ u = sp ++ Parse.ignoreSpaces u ∧ Blank sp ∧ Parse.comment t = Parse.ignoreSpaces u := by
  obtain ⟨sp, h1, h2⟩ := ig_split (t.dropWhile fun c => !Parse.isNewline c)
  refine ⟨t.takeWhile fun c => !Parse.isNewline c, t.dropWhile fun c => !Parse.isNewline c, sp, List.takeWhile_append_dropWhile.symm, ?_, ?_, h1, h2, ?_⟩
  · intro c hc hn
    have := List.all_takeWhile (p := fun c => !Parse.isNewline c) (l := t)
    rw [List.all_eq_true] at this
    have := this c hc
    rw [(newline_iff c).mpr hn] at this
    cases this
  · intro c hc
    have := List.head?_dropWhile_not (fun c => !Parse.isNewline c) t
    rw [hc] at this
    simp at this
    exact (newline_iff c).mp this
  · unfold Parse.comment
    split
    · rename_i h; subst h; rfl
    · rfl

theorem comment_of {l t : Bytes} (hl : ∀ c ∈ l, ¬ Newline c) (ht : LineEnd t) : Parse.comment (l ++ t) = Parse.ignoreSpaces t := by
  unfold Parse.comment
  have hd : (l ++ t).dropWhile (fun c => !Parse.isNewline c) = t := by
    rw [List.dropWhile_append_of_pos fun c hc => by
      cases hn : Parse.isNewline c with
      | false => rfl
      | true => exact absurd ((newline_iff c).mp hn) (hl c hc)]
    cases t with
    | nil => rfl
    | cons c t => rw [List.dropWhile_cons_of_neg (by simp [(newline_iff c).mpr (ht c rfl)])]
  split
  · rename_i h
    obtain ⟨rfl, rfl⟩ := List.append_eq_nil_iff.mp h
    rfl
  · rw [hd]

/-- The start of something: not a space and not a comment. -/
def Start (b : Bytes) : Prop := ∀ c, b.head? = some c → ¬ Blank [c] ∧ c ≠ 35

theorem comments_skip : ∀ (k : Nat) (b : Bytes), b.length < k → Skips b (spacesComments k b) ∧ Start (spacesComments k b) ∧ spacesComments k b <:+ b := by
  intro k
  induction k with
  | zero => intro b h; omega
  | succ k ih =>
    intro b h
    rw [spacesComments]
    obtain ⟨sp, h1, h2⟩ := ig_split b
    have hh := ig_head b
    have hsuf := ig_suffix b
    cases hb : Parse.ignoreSpaces b with
    | nil =>
      rw [hb, List.append_nil] at h1
      simp only
      refine ⟨?_, (by intro c hc; cases hc), List.nil_suffix⟩
      have := skips_blank (r := []) h2
      rw [List.append_nil, ← h1] at this
      exact this
    | cons c t =>
      rw [hb] at h1 hh hsuf
      simp only
      split
      · rename_i hc
        subst hc
        obtain ⟨l, u, sp2, g1, g2, g3, g4, g5, g6⟩ := comment_skips t
        have hcm : Parse.comment (35 :: t) = Parse.ignoreSpaces u := by
          rw [g1, show (35 :: (l ++ u) : Bytes) = (35 :: l) ++ u from rfl]
          refine comment_of ?_ g3
          intro d hd
          rcases List.mem_cons.mp hd with rfl | hd
          · simp [Newline]
          · exact g2 d hd
        rw [hcm]
        have hlu : (Parse.ignoreSpaces u).length ≤ t.length := by
          have h3 := (ig_suffix u).length_le
          rw [g1]; simp; omega
        have hlen : (Parse.ignoreSpaces u).length < k := by
          have h4 := hsuf.length_le
          simp at h4; omega
        obtain ⟨i1, i2, i3⟩ := ih (Parse.ignoreSpaces u) hlen
        refine ⟨?_, i2, ?_⟩
        · rw [h1]
          refine skips_trans (skips_blank h2) ?_
          rw [g1]
          refine .comment g2 g3 ?_
          rw [g4]
          rw [← g4]
          exact skips_trans (by have := skips_blank (r := Parse.ignoreSpaces u) g5; rw [← g4] at this; exact this) i1
        · refine i3.trans ((ig_suffix u).trans ?_)
          refine List.IsSuffix.trans (l₂ := t) ⟨l, g1.symm⟩ ?_
          exact (List.suffix_cons _ _).trans hsuf
      · rename_i hc
        rw [ig_self hh]
        refine ⟨?_, ?_, hsuf⟩
        · rw [h1]; exact skips_blank h2
        · intro d hd
          simp at hd
          subst hd
          exact ⟨hh c rfl, hc⟩

theorem spacesComments_ig (k : Nat) (b : Bytes) : spacesComments (k + 1) (Parse.ignoreSpaces b) = spacesComments (k + 1) b := by
  rw [spacesComments, spacesComments, ig_self (ig_head b)]

theorem comments_of {s r : Bytes} (h : Skips s r) : ∀ k, s.length < k → Start r → spacesComments k s = r := by
  induction h with
  | done r =>
    intro k hk hr
    cases k with
    | zero => omega
    | succ k =>
      rw [spacesComments, ig_self fun c hc => (hr c hc).1]
      cases r with
      | nil => rfl
      | cons c t =>
        simp only
        rw [if_neg (hr c rfl).2, ig_self fun c hc => (hr c hc).1]
  | @space c t r hb _ ih =>
    intro k hk hr
    cases k with
    | zero => omega
    | succ k =>
      have := ih (k + 1) (by simp at hk; omega) hr
      rw [← spacesComments_ig] at this ⊢
      rw [show (c :: t : Bytes) = [c] ++ t from rfl, ig_skip hb]
      exact this
  | @comment l t r hl he _ ih =>
    intro k hk hr
    cases k with
    | zero => omega
    | succ k =>
      rw [spacesComments, ig_self (by intro c hc; simp at hc; subst hc; rw [← blank_iff]; decide)]
      simp only
      rw [if_pos trivial, show (35 :: (l ++ t) : Bytes) = (35 :: l) ++ t from rfl, comment_of (by
        intro d hd
        rcases List.mem_cons.mp hd with rfl | hd
        · simp [Newline]
        · exact hl d hd) he]
      cases k with
      | zero => simp at hk
      | succ k =>
        rw [spacesComments_ig]
        exact ih (k + 1) (by simp at hk; omega) hr

end Verif.Config
