import Verif.Passwd.Spec
import Verif.AclFile.Lines
import Verif.AclFile.Parts
import Verif.Discern.Lemmas
import Verif.Startup.Lemmas
/-!
# Lines, pieces and entries of password files
-/
namespace Verif.Passwd
open Verif
open Verif.AclFile (lines_newline lines_char lines_append isNewline_iff isSpaces_iff)
open Verif.AclFile.Spec (lines)

theorem blank_iff (c : UInt8) : blank c = true ↔ c = 32 ∨ c = 9 := by simp [blank]

/-- The content of some lines -/
def contentOf (ls : List Bytes) : List Bytes := (ls.map (·.dropWhile blank)).filter (· ≠ [])

theorem content_def (b : Bytes) : content b = contentOf (lines b) := rfl

theorem contentOf_nil (ls : List Bytes) : contentOf ([] :: ls) = contentOf ls := by simp [contentOf]

theorem contentOf_cons (l : Bytes) (ls : List Bytes) :
    contentOf (l :: ls) = (if l.dropWhile blank = [] then [] else [l.dropWhile blank]) ++ contentOf ls := by
  by_cases h : l.dropWhile blank = [] <;> simp [contentOf, h]

theorem content_newline {c : UInt8} (hc : c = 10 ∨ c = 13) (t : Bytes) : content (c :: t) = content t := by
  rw [content_def, lines_newline hc, contentOf_nil]
  rfl

theorem content_spaces (b : Bytes) : content (b.dropWhile Parse.isSpaces) = content b := by
  induction b with
  | nil => rfl
  | cons c t ih =>
    by_cases hs : Parse.isSpaces c = true
    · rw [List.dropWhile_cons_of_pos hs, ih]
      rcases (isSpaces_iff c).1 hs with h | h
      · obtain ⟨l, ls, hl⟩ := AclFile.lines_ne t
        have hb : blank c = true := by
          rw [blank_iff]; exact h
        have hn : ¬ (c = 10 ∨ c = 13) := by
          rcases h with rfl | rfl <;> decide
        rw [content_def, content_def, lines_char hn hl, hl, contentOf_cons, contentOf_cons, List.dropWhile_cons_of_pos hb]
      · exact (content_newline h t).symm
    · rw [List.dropWhile_cons_of_neg hs]

theorem first_line (b : Bytes) : ∃ ls, lines b = (b.takeWhile fun c => !Parse.isNewline c) :: ls
    ∧ content (b.dropWhile fun c => !Parse.isNewline c) = contentOf ls := by
  induction b with
  | nil => exact ⟨[], rfl, by simp [content_def, lines, contentOf]⟩
  | cons c t ih =>
    by_cases hn : Parse.isNewline c = true
    · refine ⟨lines t, ?_, ?_⟩
      · rw [lines_newline ((isNewline_iff c).1 hn), List.takeWhile_cons_of_neg (by simp [hn])]
      · rw [List.dropWhile_cons_of_neg (by simp [hn]), content_newline ((isNewline_iff c).1 hn)]
        rfl
    · obtain ⟨ls, h1, h2⟩ := ih
      refine ⟨ls, ?_, ?_⟩
      · rw [lines_char (fun h => hn ((isNewline_iff c).2 h)) h1, List.takeWhile_cons_of_pos (by simp [hn])]
      · rw [List.dropWhile_cons_of_pos (by simp [hn]), h2]

theorem lineLoop_eq (n : Nat) : ∀ b : Bytes, b.length < n → (0 : UInt8) ∉ b → lineLoop n b = content b := by
  induction n with
  | zero => intro b h; omega
  | succ n ih =>
    intro b hl h0
    rw [lineLoop, Discern.ignoreSpaces_eq]
    have hlen : (b.dropWhile Parse.isSpaces).length ≤ b.length := (List.dropWhile_suffix _).length_le
    rw [← content_spaces b]
    have h0' : (0 : UInt8) ∉ b.dropWhile Parse.isSpaces := fun h => h0 ((List.dropWhile_suffix _).mem h)
    cases hd : b.dropWhile Parse.isSpaces with
    | nil => simp [content_def, lines, contentOf]
    | cons c t =>
      rw [hd] at h0' hlen
      have hsp : Parse.isSpaces c = false := by
        have := AclFile.dropWhile_head hd
        simpa using this
      have hb : blank c = false := by
        cases hb : blank c with
        | false => rfl
        | true =>
          have := (isSpaces_iff c).2 (.inl ((blank_iff c).1 hb))
          rw [hsp] at this; cases this
      have hnl : Parse.isNewline c = false := by
        cases hb : Parse.isNewline c with
        | false => rfl
        | true =>
          have := (isSpaces_iff c).2 (.inr ((isNewline_iff c).1 hb))
          rw [hsp] at this; cases this
      obtain ⟨ls, h1, h2⟩ := first_line (c :: t)
      dsimp only
      rw [content_def, h1, contentOf_cons, ← h2]
      have htk : (c :: t).takeWhile (fun c => !Parse.isNewline c) = c :: t.takeWhile fun c => !Parse.isNewline c :=
        List.takeWhile_cons_of_pos (by simp [hnl])
      have hdr : (c :: t.takeWhile fun c => !Parse.isNewline c).dropWhile blank = c :: t.takeWhile fun c => !Parse.isNewline c :=
        List.dropWhile_cons_of_neg (by simp [hb])
      rw [ih, Startup.cstr_id, htk, hdr, if_neg (by simp)]
      · rfl
      · intro h
        exact h0' ((List.takeWhile_prefix _).mem h)
      · rw [List.dropWhile_cons_of_pos (by simp [hnl])]
        have : (t.dropWhile fun c => !Parse.isNewline c).length ≤ t.length := (List.dropWhile_suffix _).length_le
        simp only [List.length_cons] at hlen
        omega
      · intro h
        exact h0' ((List.dropWhile_suffix _).mem h)

/-! ## Pieces -/

theorem pieces_ne (c : UInt8) (s : Bytes) : ∃ x xs, pieces c s = x :: xs := by
  cases s with
  | nil => exact ⟨_, _, rfl⟩
  | cons d t =>
    rw [pieces]
    split
    · exact ⟨_, _, rfl⟩
    · split <;> exact ⟨_, _, rfl⟩

theorem joined_pieces (c : UInt8) (s : Bytes) : joined c (pieces c s) = s := by
  induction s with
  | nil => rfl
  | cons d t ih =>
    obtain ⟨x, xs, h⟩ := pieces_ne c t
    rw [pieces]
    split
    · next hd =>
      rw [h] at ih ⊢
      rw [joined, List.nil_append, ih, hd]
    · rw [h] at ih ⊢
      dsimp only
      cases xs with
      | nil => rw [joined] at ih ⊢; rw [ih]
      | cons y ys => rw [joined] at ih ⊢; rw [List.cons_append, ih]

theorem pieces_clean (c : UInt8) (s : Bytes) : ∀ x ∈ pieces c s, c ∉ x := by
  induction s with
  | nil => intro x hx; rw [pieces, List.mem_singleton] at hx; rw [hx]; simp
  | cons d t ih =>
    obtain ⟨y, ys, h⟩ := pieces_ne c t
    rw [pieces]
    rw [h] at ih ⊢
    intro x hx
    split at hx
    · rcases List.mem_cons.1 hx with rfl | hx
      · simp
      · exact ih x hx
    · next hd =>
      dsimp only at hx
      rcases List.mem_cons.1 hx with rfl | hx
      · intro hc
        rcases List.mem_cons.1 hc with rfl | hc
        · exact hd rfl
        · exact ih y (List.mem_cons_self ..) hc
      · exact ih x (List.mem_cons_of_mem _ hx)

theorem pieces_one {c : UInt8} {x : Bytes} (h : c ∉ x) : pieces c x = [x] := by
  induction x with
  | nil => rfl
  | cons d t ih =>
    rw [pieces, if_neg (fun hc => h (by simp [hc])), ih (fun hc => h (List.mem_cons_of_mem _ hc))]

theorem pieces_more {c : UInt8} {x : Bytes} (h : c ∉ x) (t : Bytes) : pieces c (x ++ c :: t) = x :: pieces c t := by
  induction x with
  | nil => rw [List.nil_append, pieces, if_pos rfl]
  | cons d s ih =>
    rw [List.cons_append, pieces, if_neg (fun hc => h (by simp [hc])), ih (fun hc => h (List.mem_cons_of_mem _ hc))]

theorem pieces_joined {c : UInt8} : ∀ {l : List Bytes}, l ≠ [] → (∀ x ∈ l, c ∉ x) → pieces c (joined c l) = l := by
  intro l
  induction l with
  | nil => intro h; exact absurd rfl h
  | cons x xs ih =>
    intro _ h
    cases xs with
    | nil => exact pieces_one (h x (List.mem_cons_self ..))
    | cons y ys =>
      rw [joined, pieces_more (h x (List.mem_cons_self ..)), ih (by simp) (fun z hz => h z (List.mem_cons_of_mem _ hz))]

theorem split_iff (c : UInt8) (most : Nat) (s : Bytes) (l : List Bytes) :
    split c most s = some l ↔ (s = [] ∧ l = []) ∨ (s ≠ [] ∧ l.length ≤ most ∧ (∀ x ∈ l, c ∉ x) ∧ s = joined c l) := by
  unfold split
  by_cases hs : s = []
  · rw [if_pos hs, Option.some.injEq]
    constructor
    · intro h; exact .inl ⟨hs, h.symm⟩
    · rintro (⟨_, h⟩ | ⟨h, _⟩)
      · exact h.symm
      · exact absurd hs h
  · rw [if_neg hs]
    constructor
    · intro h
      split at h
      · cases h
      · next hm =>
        obtain rfl := Option.some.inj h
        exact .inr ⟨hs, by omega, pieces_clean c s, (joined_pieces c s).symm⟩
    · rintro (⟨h, _⟩ | ⟨_, hl, hx, hj⟩)
      · exact absurd h hs
      · have hne : l ≠ [] := by
          rintro rfl
          exact hs hj
        have := pieces_joined hne hx
        rw [hj, this, if_neg (by omega)]

/-! ## Users -/

theorem user_iff (line : Bytes) (u : User) : user line = some u ↔ Entry line u := by
  unfold user
  constructor
  · intro h
    split at h
    · next name perms hash hs =>
      rcases (split_iff _ _ _ _).1 hs with ⟨_, h'⟩ | ⟨_, _, hx, hj⟩
      · cases h'
      · split at h
        · cases h
        · next ps hp =>
          obtain rfl := Option.some.inj h
          refine ⟨perms, ?_, hx name (by simp), hx perms (by simp), hx hash (by simp), (split_iff _ _ _ _).1 hp⟩
          simpa [joined] using hj
    · cases h
  · rintro ⟨p, hl, h1, h2, h3, h4⟩
    have hs : split 58 3 line = some [u.name, p, u.hash] := by
      rw [split_iff]
      right
      refine ⟨?_, by simp, ?_, ?_⟩
      · rw [hl]; simp
      · intro x hx
        simp only [List.mem_cons, List.not_mem_nil, or_false] at hx
        rcases hx with rfl | rfl | rfl <;> assumption
      · simp [joined, hl]
    have hp : split 44 32 p = some u.permissions := (split_iff _ _ _ _).2 h4
    rw [hs]
    simp only [hp]

theorem entry_unique {l : Bytes} {u v : User} (h1 : Entry l u) (h2 : Entry l v) : u = v := by
  have a := (user_iff l u).2 h1
  have b := (user_iff l v).2 h2
  rw [a] at b
  exact Option.some.inj b

/-! ## Files made of lines -/

/-- A line which is read as it is written -/
def Plain (l : Bytes) : Prop := l ≠ [] ∧ (∀ c, l.head? = some c → blank c = false) ∧ Text l

theorem content_line {l : Bytes} (h : Plain l) (t : Bytes) : content (l ++ 10 :: t) = l :: content t := by
  obtain ⟨hne, hb, ht⟩ := h
  have hl : lines (l ++ 10 :: t) = l :: lines t := by
    have := AclFile.lines_append (x := l) (t := 10 :: t) (l := []) (ls := lines t) (fun c hc => by have := ht c hc; simp [this])
      (lines_newline (.inl rfl) t)
    simpa using this
  rw [content_def, hl, contentOf_cons]
  have : l.dropWhile blank = l := by
    cases l with
    | nil => exact absurd rfl hne
    | cons c t => exact List.dropWhile_cons_of_neg (by simp [hb c rfl])
  rw [this, if_neg hne]
  rfl

theorem content_asFile {ls : List Bytes} (h : ∀ l ∈ ls, Plain l) : content (asFile ls) = ls := by
  induction ls with
  | nil => simp [asFile, content_def, lines, contentOf]
  | cons l ls ih =>
    have : asFile (l :: ls) = l ++ 10 :: asFile ls := by simp [asFile]
    rw [this, content_line (h l (List.mem_cons_self ..)), ih fun x hx => h x (List.mem_cons_of_mem _ hx)]

theorem lines_text : ∀ {b : Bytes}, ∀ l ∈ lines b, ∀ c ∈ l, c ∈ b ∧ c ≠ 10 ∧ c ≠ 13 := by
  intro b
  induction b with
  | nil => intro l hl c hc; simp [lines] at hl; rw [hl] at hc; cases hc
  | cons d t ih =>
    intro l hl c hc
    by_cases hd : d = 10 ∨ d = 13
    · rw [lines_newline hd] at hl
      rcases List.mem_cons.1 hl with rfl | hl
      · cases hc
      · obtain ⟨h1, h2⟩ := ih l hl c hc
        exact ⟨List.mem_cons_of_mem _ h1, h2⟩
    · obtain ⟨k, ks, hk⟩ := AclFile.lines_ne t
      rw [lines_char hd hk] at hl
      rw [hk] at ih
      rcases List.mem_cons.1 hl with rfl | hl
      · rcases List.mem_cons.1 hc with rfl | hc
        · exact ⟨List.mem_cons_self .., fun h => hd (.inl h), fun h => hd (.inr h)⟩
        · obtain ⟨h1, h2⟩ := ih k (List.mem_cons_self ..) c hc
          exact ⟨List.mem_cons_of_mem _ h1, h2⟩
      · obtain ⟨h1, h2⟩ := ih l (List.mem_cons_of_mem _ hl) c hc
        exact ⟨List.mem_cons_of_mem _ h1, h2⟩

theorem content_plain {b : Bytes} (h0 : (0 : UInt8) ∉ b) : ∀ l ∈ content b, Plain l := by
  intro l hl
  unfold content at hl
  rw [List.mem_filter, List.mem_map] at hl
  obtain ⟨⟨k, hk, rfl⟩, hne⟩ := hl
  have hne' : k.dropWhile blank ≠ [] := by simpa using hne
  refine ⟨hne', ?_, ?_⟩
  · intro c hc
    cases hd : k.dropWhile blank with
    | nil => exact absurd hd hne'
    | cons e t =>
      have := AclFile.dropWhile_head hd
      rw [hd] at hc
      simp only [List.head?_cons, Option.some.injEq] at hc
      rw [← hc]
      simpa using this
  · intro c hc
    obtain ⟨h1, h2⟩ := lines_text k hk c ((List.dropWhile_suffix _).mem hc)
    exact ⟨fun h => h0 (h ▸ h1), h2⟩

end Verif.Passwd
