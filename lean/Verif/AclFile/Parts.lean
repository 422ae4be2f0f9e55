import Verif.AclFile.Lines
/-! # The parts of a line -/
namespace Verif.AclFile
open Acl Topic AclFile.Spec

/-! ## What a text says -/

/-- The text says this. -/
abbrev S (b : Bytes) (is : List Item) : Prop := Says false (lines b) is

theorem skip_nil : Skip [] := Or.inl (by simp [Blank])

theorem isItem_first {l : Bytes} {i : Item} (h : IsItem false l i) : ∃ s0 c t, l = s0 ++ c :: t ∧ Blank s0 ∧ Letter c := by
  have key : ∀ {a : UInt8} {w x s0 t : Bytes}, 65 ≤ a ∧ a ≤ 90 → Word (a :: w) x → Blank s0 → l = s0 ++ (x ++ t) → ∃ s0 c t, l = s0 ++ c :: t ∧ Blank s0 ∧ Letter c := by
    intro a w x s0 t ha hw hb he
    obtain ⟨c, u, rfl, hc⟩ := word_cons hw
    exact ⟨s0, c, u ++ t, he, hb, sameLetter_letter a ha c hc⟩
  cases i with
  | topic f => obtain ⟨s0, w, s1, h1, h2, h3, _⟩ := h; exact key (by decide) h3 h2 h1
  | dflt a => obtain ⟨s0, w, s1, x, s2, h1, h2, h3, _⟩ := h; exact key (by decide) h3 h2 h1
  | user u a => obtain ⟨s0, w, s1, s2, x, s3, h1, h2, h3, _⟩ := h; exact key (by decide) h3 h2 h1

theorem not_skip {l s0 t : Bytes} {c : UInt8} (h : l = s0 ++ c :: t) (hb : Blank s0) (hc : Letter c) : ¬ Skip l := by
  intro hs
  subst h
  rcases hs with hs | ⟨s, u, he, hs⟩
  · exact letter_not_blank c hc (hs c (by simp))
  · -- the first character which is not a blank
    have hd : ∀ (a b : Bytes) (x y : UInt8) (u v : Bytes), Blank a → Blank b → ¬ (x = 32 ∨ x = 9) → ¬ (y = 32 ∨ y = 9) → a ++ x :: u = b ++ y :: v → x = y := by
      intro a
      induction a with
      | nil =>
        intro b x y u v _ hb hx _ he
        cases b with
        | nil => simp at he; exact he.1
        | cons d b => simp at he; exact absurd (hb d (by simp)) (by rw [← he.1]; exact hx)
      | cons d a ih =>
        intro b x y u v ha hb hx hy he
        cases b with
        | nil => simp at he; exact absurd (ha d (by simp)) (by rw [he.1]; exact hy)
        | cons e b =>
          simp at he
          exact ih b x y u v (fun z hz => ha z (by simp [hz])) (fun z hz => hb z (by simp [hz])) hx hy he.2
    have := hd s0 s c 35 t u hb hs (letter_not_blank c hc) (by decide) he
    exact (letter_not_space c hc).2 this

theorem item_not_skip {l : Bytes} {i : Item} (h : IsItem false l i) : ¬ Skip l := by
  obtain ⟨s0, c, t, h1, h2, h3⟩ := isItem_first h
  exact not_skip h1 h2 h3

theorem says_skip {l : Bytes} {ls : List Bytes} {is : List Item} (h : Skip l) : Says false (l :: ls) is ↔ Says false ls is := by
  rw [Says]
  constructor
  · rintro (⟨_, h1⟩ | ⟨i, t, _, h1, _⟩)
    · exact h1
    · exact absurd h (item_not_skip h1)
  · intro h1; exact Or.inl ⟨h, h1⟩

theorem says_item {l : Bytes} {ls : List Bytes} {is : List Item} (h : ¬ Skip l) : Says false (l :: ls) is ↔ ∃ i t, is = i :: t ∧ IsItem false l i ∧ Says false ls t := by
  rw [Says]
  constructor
  · rintro (⟨h1, _⟩ | h1)
    · exact absurd h1 h
    · exact h1
  · exact Or.inr

/-- Blanks at the start of a line mean nothing. -/
theorem skip_blank {c : UInt8} (hc : c = 32 ∨ c = 9) (l : Bytes) : Skip (c :: l) ↔ Skip l := by
  constructor
  · rintro (h | ⟨s, t, h, hs⟩)
    · exact Or.inl fun x hx => h x (by simp [hx])
    · cases s with
      | nil => simp at h; rcases hc with rfl | rfl <;> simp at h
      | cons d s =>
        simp at h
        exact Or.inr ⟨s, t, h.2, fun x hx => hs x (by simp [hx])⟩
  · rintro (h | ⟨s, t, h, hs⟩)
    · refine Or.inl fun x hx => ?_
      rcases List.mem_cons.mp hx with rfl | hx
      · exact hc
      · exact h x hx
    · refine Or.inr ⟨c :: s, t, by simp [h], fun x hx => ?_⟩
      rcases List.mem_cons.mp hx with rfl | hx
      · exact hc
      · exact hs x hx

theorem blank_front {c : UInt8} (hc : c = 32 ∨ c = 9) {l s0 w t : Bytes} (hw : ∃ d u, w = d :: u ∧ Letter d) (h : c :: l = s0 ++ (w ++ t)) (hs : Blank s0) : ∃ s, l = s ++ (w ++ t) ∧ Blank s := by
  cases s0 with
  | nil =>
    obtain ⟨d, u, rfl, hd⟩ := hw
    simp at h
    rw [← h.1] at hd
    exact absurd hc (letter_not_blank c hd)
  | cons d s =>
    simp at h
    exact ⟨s, h.2, fun x hx => hs x (by simp [hx])⟩

theorem blank_cons {c : UInt8} (hc : c = 32 ∨ c = 9) {s : Bytes} (h : Blank s) : Blank (c :: s) := by
  intro x hx
  rcases List.mem_cons.mp hx with rfl | hx
  · exact hc
  · exact h x hx

theorem word_starts {a : UInt8} {w x : Bytes} (ha : 65 ≤ a ∧ a ≤ 90) (h : Word (a :: w) x) : ∃ d u, x = d :: u ∧ Letter d := by
  obtain ⟨c, u, rfl, hc⟩ := word_cons h
  exact ⟨c, u, rfl, sameLetter_letter a ha c hc⟩

theorem item_blank {c : UInt8} (hc : c = 32 ∨ c = 9) (l : Bytes) (i : Item) : IsItem false (c :: l) i ↔ IsItem false l i := by
  cases i with
  | topic f =>
    constructor
    · rintro ⟨s0, w, s1, h1, h2, h3, h4⟩
      obtain ⟨s, e1, e2⟩ := blank_front hc (word_starts (by decide) h3) h1 h2
      exact ⟨s, w, s1, e1, e2, h3, h4⟩
    · rintro ⟨s0, w, s1, h1, h2, h3, h4⟩
      exact ⟨c :: s0, w, s1, by simp [h1], blank_cons hc h2, h3, h4⟩
  | dflt a =>
    constructor
    · rintro ⟨s0, w, s1, x, s2, h1, h2, h3, h4⟩
      obtain ⟨s, e1, e2⟩ := blank_front hc (word_starts (by decide) h3) h1 h2
      exact ⟨s, w, s1, x, s2, e1, e2, h3, h4⟩
    · rintro ⟨s0, w, s1, x, s2, h1, h2, h3, h4⟩
      exact ⟨c :: s0, w, s1, x, s2, by simp [h1], blank_cons hc h2, h3, h4⟩
  | user u a =>
    constructor
    · rintro ⟨s0, w, s1, s2, x, s3, h1, h2, h3, h4⟩
      obtain ⟨s, e1, e2⟩ := blank_front hc (word_starts (by decide) h3) h1 h2
      exact ⟨s, w, s1, s2, x, s3, e1, e2, h3, h4⟩
    · rintro ⟨s0, w, s1, s2, x, s3, h1, h2, h3, h4⟩
      exact ⟨c :: s0, w, s1, s2, x, s3, by simp [h1], blank_cons hc h2, h3, h4⟩

theorem says_blank {c : UInt8} (hc : c = 32 ∨ c = 9) (l : Bytes) (ls : List Bytes) (is : List Item) : Says false ((c :: l) :: ls) is ↔ Says false (l :: ls) is := by
  rw [Says, Says, skip_blank hc]
  simp only [item_blank hc]

theorem s_nil (is : List Item) : S [] is ↔ is = [] := by
  show Says false [[]] is ↔ _
  rw [says_skip skip_nil, Says]

/-- Spaces and empty lines mean nothing. -/
theorem s_spaces (b : Bytes) (is : List Item) : S (b.dropWhile Parse.isSpaces) is ↔ S b is := by
  induction b with
  | nil => rfl
  | cons c t ih =>
    by_cases hc : Parse.isSpaces c = true
    · rw [List.dropWhile_cons_of_pos hc, ih]
      rcases (isSpaces_iff c).mp hc with h | h
      · obtain ⟨l, ls, ht⟩ := lines_ne t
        have hn : ¬ (c = 10 ∨ c = 13) := by rcases h with rfl | rfl <;> decide
        show Says false (lines t) is ↔ Says false (lines (c :: t)) is
        rw [lines_char hn ht, says_blank h, ht]
      · show Says false (lines t) is ↔ Says false (lines (c :: t)) is
        rw [lines_newline h, says_skip skip_nil]
    · rw [List.dropWhile_cons_of_neg hc]

/-- What follows the first line. -/
theorem drop_line (b l : Bytes) (ls : List Bytes) (h : lines b = l :: ls) (is : List Item) : b = l ++ (b.dropWhile fun c => !Parse.isNewline c) ∧ (S (b.dropWhile fun c => !Parse.isNewline c) is ↔ Says false ls is) := by
  induction b generalizing l with
  | nil =>
    simp [lines] at h
    obtain ⟨rfl, rfl⟩ := h
    refine ⟨rfl, ?_⟩
    rw [List.dropWhile_nil, s_nil, Says]
  | cons c t ih =>
    by_cases hc : c = 10 ∨ c = 13
    · have hn := (isNewline_iff c).mpr hc
      rw [lines_newline hc] at h
      cases h
      rw [List.dropWhile_cons_of_neg (by simp [hn])]
      refine ⟨rfl, ?_⟩
      show Says false (lines (c :: t)) is ↔ _
      rw [lines_newline hc, says_skip skip_nil]
    · have hn : ¬ Parse.isNewline c = true := fun hx => hc ((isNewline_iff c).mp hx)
      obtain ⟨l', ls', ht⟩ := lines_ne t
      rw [lines_char hc ht] at h
      cases h
      rw [List.dropWhile_cons_of_pos (by simp [hn])]
      obtain ⟨h1, h2⟩ := ih l' ht
      exact ⟨by rw [List.cons_append, ← h1], h2⟩

theorem s_comment (t : Bytes) (is : List Item) : S (Parse.comment (35 :: t)) is ↔ S (35 :: t) is := by
  rw [Parse.comment, if_neg (by simp), Discern.ignoreSpaces_eq, s_spaces]
  obtain ⟨l, ls, ht⟩ := lines_ne t
  have h := lines_char (c := 35) (by decide) ht
  rw [(drop_line _ _ _ h is).2]
  show _ ↔ Says false (lines (35 :: t)) is
  rw [h]
  exact (says_skip (Or.inr ⟨[], l, rfl, by simp [Blank]⟩)).symm

/-! ## Spaces and comments -/

theorem suffix_dropWhile (p : UInt8 → Bool) (b : Bytes) : b.dropWhile p <:+ b := ⟨b.takeWhile p, List.takeWhile_append_dropWhile⟩

theorem comment_suffix (c : UInt8) (hc : c = 35) (t : Bytes) : Parse.comment (c :: t) <:+ t := by
  subst hc
  rw [Parse.comment, if_neg (by simp), Discern.ignoreSpaces_eq, List.dropWhile_cons_of_pos (by decide)]
  exact (suffix_dropWhile _ _).trans (suffix_dropWhile _ _)

theorem dropWhile_head {p : UInt8 → Bool} {b t : Bytes} {c : UInt8} (h : b.dropWhile p = c :: t) : p c = false := by
  induction b with
  | nil => simp at h
  | cons d u ih =>
    by_cases hd : p d = true
    · rw [List.dropWhile_cons_of_pos hd] at h; exact ih h
    · rw [List.dropWhile_cons_of_neg hd] at h; cases h; simpa using hd

theorem spacesComments_spec : ∀ (k : Nat) (b : Bytes), b.length < k → (∀ is, S (spacesComments k b) is ↔ S b is) ∧ spacesComments k b <:+ b ∧ (∀ c t, spacesComments k b = c :: t → Parse.isSpaces c = false ∧ c ≠ 35) := by
  intro k
  induction k with
  | zero => intro b h; omega
  | succ k ih =>
    intro b h
    rw [spacesComments, Discern.ignoreSpaces_eq]
    cases hd : b.dropWhile Parse.isSpaces with
    | nil =>
      refine ⟨fun is => ?_, List.nil_suffix, by simp⟩
      show S [] is ↔ _
      rw [← s_spaces b, hd]
    | cons c t =>
      have hsuf := suffix_dropWhile Parse.isSpaces b
      rw [hd] at hsuf
      have hc := dropWhile_head hd
      simp only
      by_cases h35 : c = 35
      · rw [if_pos h35]
        have hcs := comment_suffix c h35 t
        have hlen := hcs.length_le
        have hl := hsuf.length_le
        simp at hl
        obtain ⟨h1, h2, h3⟩ := ih (Parse.comment (c :: t)) (by omega)
        refine ⟨fun is => ?_, h2.trans (hcs.trans ((List.suffix_cons c t).trans hsuf)), h3⟩
        rw [h1, h35, s_comment, ← h35, ← hd, s_spaces]
      · rw [if_neg h35, Discern.ignoreSpaces_eq, List.dropWhile_cons_of_neg (by simp [hc])]
        refine ⟨fun is => ?_, hsuf, ?_⟩
        · rw [← hd, s_spaces]
        · intro c' t' he
          cases he
          exact ⟨hc, h35⟩

/-! ## Spaces which are required -/

theorem takeWhile_same {b : Bytes} (p : UInt8 → Bool) (h : (b.dropWhile p).length = b.length) : b.takeWhile p = [] := by
  have := Discern.takeWhile_length_dropWhile p b
  exact List.eq_nil_of_length_eq_zero (by omega)

theorem requireSpace_ok {b r : Bytes} (h : requireSpace b = .ok r) : ∃ s, b = s ++ r ∧ Blank s ∧ s ≠ [] ∧ ∀ c t, r = c :: t → Parse.isSpaces c = false := by
  unfold requireSpace at h
  rw [Discern.ignoreSpaces_eq] at h
  simp only at h
  split at h
  · cases h
  · rename_i hn
    rw [not_or] at hn
    cases h
    refine ⟨b.takeWhile Parse.isSpaces, List.takeWhile_append_dropWhile.symm, ?_, ?_, fun c t he => dropWhile_head he⟩
    · intro c hc
      have h1 := Discern.mem_takeWhile hc
      rcases (isSpaces_iff c).mp h1 with h | h
      · exact h
      · exfalso
        apply hn.2
        exact List.any_eq_true.mpr ⟨c, hc, (isNewline_iff c).mpr h⟩
    · intro he
      apply hn.1
      have := Discern.takeWhile_length_dropWhile Parse.isSpaces b
      rw [he] at this
      simpa using this

theorem requireSpace_of {s r : Bytes} (hs : Blank s) (hne : s ≠ []) (hr : ∀ c t, r = c :: t → Parse.isSpaces c = false) : requireSpace (s ++ r) = .ok r := by
  have hsp : ∀ c ∈ s, Parse.isSpaces c = true := fun c hc => (isSpaces_iff c).mpr (Or.inl (hs c hc))
  have htr : r.takeWhile Parse.isSpaces = [] := by
    cases r with
    | nil => rfl
    | cons c t => rw [List.takeWhile_cons_of_neg (by simp [hr c t rfl])]
  have hdr : r.dropWhile Parse.isSpaces = r := by
    cases r with
    | nil => rfl
    | cons c t => rw [List.dropWhile_cons_of_neg (by simp [hr c t rfl])]
  have ht : (s ++ r).takeWhile Parse.isSpaces = s := by rw [List.takeWhile_append_of_pos hsp, htr, List.append_nil]
  have hd : (s ++ r).dropWhile Parse.isSpaces = r := by rw [List.dropWhile_append_of_pos hsp, hdr]
  unfold requireSpace newLine
  rw [Discern.ignoreSpaces_eq, hd, ht]
  simp only
  rw [if_neg]
  rw [not_or]
  refine ⟨?_, ?_⟩
  · have := List.length_pos_iff.mpr hne
    simp; omega
  · intro ha
    obtain ⟨c, hc, hn⟩ := List.any_eq_true.mp ha
    exact blank_not_newline hs c hc ((isNewline_iff c).mp hn)

/-- After a value: the rest of the line is blank. -/
theorem requireNewline_iff {b l : Bytes} {ls : List Bytes} (hb : lines b = l :: ls) : (Blank l → ∃ r, requireNewline b = .ok r) ∧ ∀ r, requireNewline b = .ok r → Blank l ∧ r <:+ b ∧ ∀ is, S r is ↔ Says false ls is := by
  have hls : Blank l → ∀ is, S (b.dropWhile Parse.isSpaces) is ↔ Says false ls is := by
    intro hl is
    rw [s_spaces]
    show Says false (lines b) is ↔ _
    rw [hb, says_skip (Or.inl hl)]
  -- the first line is in the spaces, or not
  have hsplit : (Blank l ∧ (b.dropWhile Parse.isSpaces = [] ∨ newLine b = true)) ∨ (¬ Blank l ∧ b.dropWhile Parse.isSpaces ≠ [] ∧ newLine b = false) := by
    clear hls
    unfold newLine
    induction b generalizing l with
    | nil => simp [lines] at hb; left; rw [hb.1]; simp [Blank]
    | cons c t ih =>
      by_cases hc : c = 10 ∨ c = 13
      · rw [lines_newline hc] at hb
        cases hb
        left
        refine ⟨by simp [Blank], Or.inr ?_⟩
        rw [List.takeWhile_cons_of_pos ((isSpaces_iff c).mpr (Or.inr hc))]
        simp [(isNewline_iff c).mpr hc]
      · obtain ⟨l', ls', ht⟩ := lines_ne t
        rw [lines_char hc ht] at hb
        cases hb
        by_cases hs : c = 32 ∨ c = 9
        · have hsp := (isSpaces_iff c).mpr (Or.inl hs)
          rw [List.takeWhile_cons_of_pos hsp, List.dropWhile_cons_of_pos hsp]
          have hnn : Parse.isNewline c = false := by
            cases hx : Parse.isNewline c with
            | false => rfl
            | true => exact absurd ((isNewline_iff c).mp hx) hc
          simp only [List.any_cons, hnn, Bool.false_or]
          rcases ih ht with ⟨h1, h2⟩ | ⟨h1, h2⟩
          · exact Or.inl ⟨blank_cons hs h1, h2⟩
          · exact Or.inr ⟨fun h => h1 fun x hx => h x (by simp [hx]), h2⟩
        · have hsp : ¬ Parse.isSpaces c = true := fun hx => by
            rcases (isSpaces_iff c).mp hx with h | h
            · exact hs h
            · exact hc h
          rw [List.takeWhile_cons_of_neg hsp, List.dropWhile_cons_of_neg hsp]
          exact Or.inr ⟨fun h => hs (h c (by simp)), by simp, rfl⟩
  unfold requireNewline
  rw [Discern.ignoreSpaces_eq]
  simp only
  rcases hsplit with ⟨h1, h2⟩ | ⟨h1, h2, h3⟩
  · have hok : (if b.dropWhile Parse.isSpaces = [] then Out.ok (b.dropWhile Parse.isSpaces) else if (b.dropWhile Parse.isSpaces).length = b.length then .err else if newLine b = true then .ok (b.dropWhile Parse.isSpaces) else .err) = .ok (b.dropWhile Parse.isSpaces) := by
      by_cases he : b.dropWhile Parse.isSpaces = []
      · rw [if_pos he]
      · rw [if_neg he]
        have hnl := h2.resolve_left he
        rw [if_neg, if_pos hnl]
        intro hlen
        have := takeWhile_same _ hlen
        unfold newLine at hnl
        rw [this] at hnl
        simp at hnl
    rw [hok]
    refine ⟨fun _ => ⟨_, rfl⟩, ?_⟩
    intro r hr
    cases hr
    exact ⟨h1, suffix_dropWhile _ _, hls h1⟩
  · refine ⟨fun h => absurd h h1, ?_⟩
    intro r hr
    rw [if_neg h2] at hr
    rw [h3] at hr
    simp at hr

/-! ## Actions -/

theorem action_ok {b r : Bytes} {a : Action} : action b = .ok (a, r) ↔ ∃ x, b = x ++ r ∧ Word (actionName a) x := by
  have hd := fun r => matchCase_iff (caps_action .deny) b r
  have hr := fun r => matchCase_iff (caps_action .ro) b r
  have hw := fun r => matchCase_iff (caps_action .rw) b r
  change ∀ r, matchCase wDeny b = some r ↔ _ at hd
  change ∀ r, matchCase wRead b = some r ↔ _ at hr
  change ∀ r, matchCase wWrite b = some r ↔ _ at hw
  have ex : ∀ {a1 a2 : Action} {x1 x2 r1 r2 : Bytes}, Word (actionName a1) x1 → Word (actionName a2) x2 → b = x1 ++ r1 → b = x2 ++ r2 → a1 = a2 := by
    intro a1 a2 x1 x2 r1 r2 h1 h2 e1 e2
    have he := e1.symm.trans e2
    cases a1 <;> cases a2 <;> first | rfl | (exfalso; have := word_first (by decide) (by decide) h1 h2 he; revert this; decide)
  unfold action
  cases h1 : matchCase wDeny b with
  | some q =>
    simp only
    obtain ⟨x, e, w⟩ := (hd q).mp h1
    constructor
    · intro h; cases h; exact ⟨x, e, w⟩
    · rintro ⟨y, e', w'⟩
      have := ex w w' e e'
      subst this
      have h2 := (hd r).mpr ⟨y, e', w'⟩
      rw [h1] at h2; cases h2; rfl
  | none =>
    simp only
    cases h2 : matchCase wRead b with
    | some q =>
      simp only
      obtain ⟨x, e, w⟩ := (hr q).mp h2
      constructor
      · intro h; cases h; exact ⟨x, e, w⟩
      · rintro ⟨y, e', w'⟩
        have := ex w w' e e'
        subst this
        have h3 := (hr r).mpr ⟨y, e', w'⟩
        rw [h2] at h3; cases h3; rfl
    | none =>
      simp only
      cases h3 : matchCase wWrite b with
      | some q =>
        simp only
        obtain ⟨x, e, w⟩ := (hw q).mp h3
        constructor
        · intro h; cases h; exact ⟨x, e, w⟩
        · rintro ⟨y, e', w'⟩
          have := ex w w' e e'
          subst this
          have h4 := (hw r).mpr ⟨y, e', w'⟩
          rw [h3] at h4; cases h4; rfl
      | none =>
        simp only
        constructor
        · intro h; cases h
        · rintro ⟨y, e', w'⟩
          cases a with
          | deny => rw [(hd r).mpr ⟨y, e', w'⟩] at h1; cases h1
          | ro => rw [(hr r).mpr ⟨y, e', w'⟩] at h2; cases h2
          | rw => rw [(hw r).mpr ⟨y, e', w'⟩] at h3; cases h3

theorem bind_ok {α β : Type} {x : Out α} {f : α → Out β} {y : β} : x.bind f = .ok y ↔ ∃ a, x = .ok a ∧ f a = .ok y := by
  cases x <;> simp [Out.bind]

/-! ## DEFAULT -/

/-- What is after `DEFAULT` in its line. -/
def DefaultTail (l : Bytes) (a : Action) : Prop := ∃ s1 x s2, l = s1 ++ (x ++ s2) ∧ Blank s1 ∧ s1 ≠ [] ∧ Word (actionName a) x ∧ Blank s2

theorem action_word_front {a : Action} {x t : Bytes} (h : Word (actionName a) x) : ∀ c u, x ++ t = c :: u → Parse.isSpaces c = false := by
  intro c u he
  have : ∃ d v, x = d :: v ∧ Letter d := by cases a <;> exact word_starts (by decide) h
  obtain ⟨d, v, rfl, hd⟩ := this
  simp at he
  rw [← he.1]
  simpa using (letter_not_space d hd).1

theorem keywordDefault_spec {b l : Bytes} {ls : List Bytes} (hb : lines b = l :: ls) :
    (∀ a, DefaultTail l a → ∃ r, keywordDefault b = .ok (a, r)) ∧ ∀ a r, keywordDefault b = .ok (a, r) → DefaultTail l a ∧ r <:+ b ∧ ∀ is, S r is ↔ Says false ls is := by
  refine ⟨?_, ?_⟩
  · rintro a ⟨s1, x, s2, rfl, h1, h2, h3, h4⟩
    obtain ⟨b1, rfl, hb1⟩ := lines_split s1 b _ ls hb
    obtain ⟨b2, rfl, hb2⟩ := lines_split x b1 _ ls hb1
    obtain ⟨r, hr⟩ := (requireNewline_iff hb2).1 h4
    refine ⟨r, ?_⟩
    unfold keywordDefault
    rw [requireSpace_of h1 h2 (action_word_front h3)]
    simp only [Out.bind]
    rw [action_ok.mpr ⟨x, rfl, h3⟩]
    simp only [hr]
  · intro a r h
    unfold keywordDefault at h
    obtain ⟨b1, e1, h⟩ := bind_ok.mp h
    obtain ⟨⟨a', b2⟩, e2, h⟩ := bind_ok.mp h
    obtain ⟨b3, e3, h⟩ := bind_ok.mp h
    cases h
    obtain ⟨s, rfl, hs, hne, _⟩ := requireSpace_ok e1
    obtain ⟨x, rfl, hx⟩ := action_ok.mp e2
    obtain ⟨l2, ls2, h2⟩ := lines_ne b2
    have hx' := lines_append (fun c hc => letter_not_newline c (word_letters (caps_action _) hx c hc)) h2
    have hs' := lines_append (blank_not_newline hs) hx'
    rw [hs'] at hb
    cases hb
    obtain ⟨k1, k2, k3⟩ := (requireNewline_iff h2).2 r e3
    exact ⟨⟨s, x, l2, rfl, hs, hne, hx, k1⟩, k2.trans ((List.suffix_append _ _).trans (List.suffix_append _ _)), k3⟩

/-! ## USER -/

def UserTail (l u : Bytes) (a : Action) : Prop := ∃ s1 s2 x s3, l = s1 ++ (u ++ (s2 ++ (x ++ s3))) ∧ Blank s1 ∧ u ≠ [] ∧ (∀ c ∈ u, NameChar c) ∧ Blank s2 ∧ s2 ≠ [] ∧ Word (actionName a) x ∧ Blank s3

theorem ignoreTab_eq (b : Bytes) : Parse.ignore Parse.isSpaceTab b = b.dropWhile Parse.isSpaceTab := by
  fun_induction Parse.ignore Parse.isSpaceTab b with
  | case1 => rfl
  | case2 c h n t hc ih =>
    simp only [Bool.and_eq_true, beq_iff_eq] at hc
    rw [hc.1] at h
    exact absurd h (by decide)
  | case3 c h n t hc ih => rw [ih, List.dropWhile_cons_of_pos h]
  | case4 c h => rw [List.dropWhile_cons_of_pos h]; rfl
  | case5 c t h => rw [List.dropWhile_cons_of_neg (by simpa using h)]

theorem cstr_name {u : Bytes} (h : ∀ c ∈ u, NameChar c) : cstr u = u := Discern.cstr_eq fun h0 => (nameChar_not_space 0 (h 0 h0)).2 rfl

theorem keywordUser_spec {b l : Bytes} {ls : List Bytes} (hb : lines b = l :: ls) :
    (∀ u a, UserTail l u a → ∃ r, keywordUser b = .ok (⟨u, a⟩, r)) ∧ ∀ u a r, keywordUser b = .ok (⟨u, a⟩, r) → UserTail l u a ∧ r <:+ b ∧ ∀ is, S r is ↔ Says false ls is := by
  refine ⟨?_, ?_⟩
  · rintro u a ⟨s1, s2, x, s3, rfl, h1, h2, h3, h4, h5, h6, h7⟩
    obtain ⟨b1, rfl, hb1⟩ := lines_split s1 b _ ls hb
    obtain ⟨b2, rfl, hb2⟩ := lines_split u b1 _ ls hb1
    obtain ⟨b3, rfl, hb3⟩ := lines_split s2 b2 _ ls hb2
    obtain ⟨b4, rfl, hb4⟩ := lines_split x b3 _ ls hb3
    obtain ⟨r, hr⟩ := (requireNewline_iff hb4).1 h7
    refine ⟨r, ?_⟩
    have hd : (s1 ++ (u ++ (s2 ++ (x ++ b4)))).dropWhile Parse.isSpaceTab = u ++ (s2 ++ (x ++ b4)) := by
      rw [List.dropWhile_append_of_pos fun c hc => (isSpaceTab_iff c).mpr (h1 c hc)]
      cases u with
      | nil => exact absurd rfl h2
      | cons c u =>
        rw [List.cons_append, List.dropWhile_cons_of_neg]
        intro hc
        exact (nameChar_not_space c (h3 c (by simp))).1 ((isSpaces_iff c).mpr (Or.inl ((isSpaceTab_iff c).mp hc)))
    have hstop : ∀ v : Bytes, (s2 ++ v).takeWhile isUserChar = [] ∧ (s2 ++ v).dropWhile isUserChar = s2 ++ v := by
      intro v
      cases s2 with
      | nil => exact absurd rfl h5
      | cons c s2 =>
        have : ¬ isUserChar c = true := fun hc => (nameChar_not_space c ((isUserChar_iff c).mp hc)).1 ((isSpaces_iff c).mpr (Or.inl (h4 c (by simp))))
        rw [List.cons_append, List.takeWhile_cons_of_neg this, List.dropWhile_cons_of_neg this]
        exact ⟨rfl, rfl⟩
    have hml : Parse.matchLetters isUserChar (u ++ (s2 ++ (x ++ b4))) = (u, s2 ++ (x ++ b4)) := by
      rw [Discern.drop_peek, List.takeWhile_append_of_pos fun c hc => (isUserChar_iff c).mpr (h3 c hc), List.dropWhile_append_of_pos fun c hc => (isUserChar_iff c).mpr (h3 c hc), (hstop _).1, (hstop _).2, List.append_nil]
    unfold keywordUser
    rw [ignoreTab_eq, hd, hml]
    simp only
    rw [if_neg h2, requireSpace_of h4 h5 (action_word_front h6)]
    simp only [Out.bind]
    rw [action_ok.mpr ⟨x, rfl, h6⟩]
    simp only [hr, cstr_name h3]
    rw [if_neg h2]
  · intro u a r h
    unfold keywordUser at h
    rw [ignoreTab_eq, Discern.drop_peek] at h
    simp only at h
    have hsb : b = b.takeWhile Parse.isSpaceTab ++ b.dropWhile Parse.isSpaceTab := List.takeWhile_append_dropWhile.symm
    have hsb1 : Blank (b.takeWhile Parse.isSpaceTab) := fun c hc => (isSpaceTab_iff c).mp (Discern.mem_takeWhile hc)
    generalize b.takeWhile Parse.isSpaceTab = s1 at hsb hsb1
    generalize hb1e : b.dropWhile Parse.isSpaceTab = b1 at hsb h
    have hub : b1 = b1.takeWhile isUserChar ++ b1.dropWhile isUserChar := List.takeWhile_append_dropWhile.symm
    have hu1 : ∀ c ∈ b1.takeWhile isUserChar, NameChar c := fun c hc => (isUserChar_iff c).mp (Discern.mem_takeWhile hc)
    generalize b1.takeWhile isUserChar = u' at hub hu1 h
    generalize b1.dropWhile isUserChar = b2 at hub h
    split at h
    · cases h
    · rename_i hne
      obtain ⟨b3, e1, h⟩ := bind_ok.mp h
      obtain ⟨⟨a', b4⟩, e2, h⟩ := bind_ok.mp h
      obtain ⟨b5, e3, h⟩ := bind_ok.mp h
      rw [cstr_name hu1, if_neg hne] at h
      cases h
      clear hb1e
      subst hub
      subst hsb
      obtain ⟨s, rfl, hs, hsne, _⟩ := requireSpace_ok e1
      obtain ⟨x, rfl, hx⟩ := action_ok.mp e2
      obtain ⟨l2, ls2, h2⟩ := lines_ne b4
      have hx' := lines_append (fun c hc => letter_not_newline c (word_letters (caps_action _) hx c hc)) h2
      have hs' := lines_append (blank_not_newline hs) hx'
      have hu' := lines_append (fun c hc hn => (nameChar_not_space c (hu1 c hc)).1 ((isSpaces_iff c).mpr (Or.inr hn))) hs'
      have hf := lines_append (blank_not_newline hsb1) hu'
      rw [hf] at hb
      cases hb
      obtain ⟨k1, k2, k3⟩ := (requireNewline_iff h2).2 r e3
      refine ⟨⟨s1, s, x, l2, rfl, hsb1, hne, hu1, hs, hsne, hx, k1⟩, ?_, k3⟩
      exact k2.trans ((List.suffix_append _ _).trans ((List.suffix_append _ _).trans ((List.suffix_append _ _).trans (List.suffix_append _ _))))

end Verif.AclFile
