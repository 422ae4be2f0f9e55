import Verif.Startup.Spec
import Verif.AclFile.Parts
import Verif.Discern.Lemmas
import Verif.Http.LineExact
/-! # Lemmas about environment files, numbers and the environment -/
namespace Verif.Startup
open Verif
open Verif.AclFile.Spec (lines)
open Verif.AclFile (lines_ne lines_newline lines_char isNewline_iff isSpaces_iff isSpaceTab_iff)
open Verif.Cmdline (Pair withName getValue cmdExists takeWhile_mid)

/-! ## Lines -/

theorem blank_iff (c : UInt8) : blank c = true ↔ c = 32 ∨ c = 9 := by simp [blank]

theorem blank_eq : Parse.isSpaceTab = blank := by
  funext c
  rfl

theorem says_nil : lineSays [] = some [] := by simp [lineSays]

theorem says_blank {c : UInt8} (hc : c = 32 ∨ c = 9) (l : Bytes) : lineSays (c :: l) = lineSays l := by
  have : (c :: l).dropWhile blank = l.dropWhile blank := List.dropWhile_cons_of_pos ((blank_iff c).2 hc)
  unfold lineSays
  rw [this]

theorem linesSay_newline {c : UInt8} (hc : c = 10 ∨ c = 13) (t : Bytes) : linesSay (lines (c :: t)) = linesSay (lines t) := by
  rw [lines_newline hc, linesSay, says_nil]
  cases linesSay (lines t) <;> simp

theorem linesSay_spaces (b : Bytes) : linesSay (lines (b.dropWhile Parse.isSpaces)) = linesSay (lines b) := by
  induction b with
  | nil => rfl
  | cons c t ih =>
    by_cases hc : Parse.isSpaces c = true
    · rw [List.dropWhile_cons_of_pos hc, ih]
      rcases (isSpaces_iff c).1 hc with h | h
      · have hn : ¬ (c = 10 ∨ c = 13) := by rcases h with rfl | rfl <;> decide
        obtain ⟨l, ls, ht⟩ := lines_ne t
        rw [lines_char hn ht, ht, linesSay, linesSay, says_blank h]
      · rw [linesSay_newline h]
    · rw [List.dropWhile_cons_of_neg hc]

/-- The first line, and what remains -/
theorem first_line (b : Bytes) : ∃ ls, lines b = (b.takeWhile fun c => !Parse.isNewline c) :: ls
    ∧ linesSay (lines (b.dropWhile fun c => !Parse.isNewline c)) = linesSay ls := by
  induction b with
  | nil => exact ⟨[], rfl, by simp [lines, linesSay, says_nil]⟩
  | cons c t ih =>
    by_cases hc : c = 10 ∨ c = 13
    · have hn := (isNewline_iff c).mpr hc
      refine ⟨lines t, ?_, ?_⟩
      · rw [lines_newline hc, List.takeWhile_cons_of_neg (by simp [hn])]
      · rw [List.dropWhile_cons_of_neg (by simp [hn]), linesSay_newline hc]
    · have hn : ¬ Parse.isNewline c = true := fun hx => hc ((isNewline_iff c).mp hx)
      obtain ⟨ls, h1, h2⟩ := ih
      refine ⟨ls, ?_, ?_⟩
      · rw [lines_char hc h1, List.takeWhile_cons_of_pos (by simp [hn])]
      · rw [List.dropWhile_cons_of_pos (by simp [hn]), h2]

theorem says_comment (t : Bytes) : lineSays (35 :: t) = some [] := by
  have : (35 :: t).dropWhile blank = 35 :: t := List.dropWhile_cons_of_neg (by decide)
  unfold lineSays
  rw [this]
  simp

theorem linesSay_comment (t : Bytes) : linesSay (lines (Parse.comment (35 :: t))) = linesSay (lines (35 :: t)) := by
  unfold Parse.comment
  rw [if_neg (by simp), Discern.ignoreSpaces_eq, linesSay_spaces]
  obtain ⟨ls, h1, h2⟩ := first_line (35 :: t)
  rw [h2, h1, linesSay]
  have : (35 :: t : Bytes).takeWhile (fun c => !Parse.isNewline c) = 35 :: t.takeWhile (fun c => !Parse.isNewline c) :=
    List.takeWhile_cons_of_pos (by decide)
  rw [this, says_comment]
  cases linesSay ls <;> simp

theorem chop_eq (s : Bytes) (h : ∀ c ∈ s, Parse.isNewline c = false) : trim s = chop s := by
  have key : ∀ r : Bytes, (∀ c ∈ r, Parse.isNewline c = false) → r.dropWhile Parse.isSpaces = r.dropWhile blank := by
    intro r hr
    induction r with
    | nil => rfl
    | cons c t ih =>
      have hc := hr c (List.mem_cons_self ..)
      have : Parse.isSpaces c = blank c := by rw [← blank_eq]; simp [Parse.isSpaces, hc]
      rw [List.dropWhile_cons, List.dropWhile_cons, this, ih fun x hx => hr x (List.mem_cons_of_mem _ hx)]
  unfold trim chop
  rw [key _ (by simpa using h)]

theorem mem_takeWhile {p : UInt8 → Bool} {b : Bytes} {c : UInt8} (h : c ∈ b.takeWhile p) : p c = true ∧ c ∈ b :=
  ⟨by
    induction b with
    | nil => simp at h
    | cons x t ih =>
      rw [List.takeWhile_cons] at h
      split at h
      · rcases List.mem_cons.1 h with rfl | h
        · assumption
        · exact ih h
      · simp at h, List.takeWhile_subset _ h⟩

theorem cstr_id {s : Bytes} (h : (0 : UInt8) ∉ s) : Topic.cstr s = s := by
  unfold Topic.cstr
  induction s with
  | nil => rfl
  | cons c t ih =>
    have hc : c ≠ 0 := fun hx => h (by simp [hx])
    rw [List.takeWhile_cons_of_pos (by simpa using hc), ih fun hx => h (List.mem_cons_of_mem _ hx)]

theorem dropWhile_append_nil {p : UInt8 → Bool} (a r : Bytes) (hr : ∀ c t, r = c :: t → p c = false) :
    (a ++ r).dropWhile p = a.dropWhile p ++ r := by
  induction a with
  | nil =>
    cases r with
    | nil => rfl
    | cons c t => rw [List.nil_append, List.dropWhile_cons_of_neg (by simp [hr c t rfl])]; rfl
  | cons x a ih =>
    by_cases hx : p x = true
    · rw [List.cons_append, List.dropWhile_cons_of_pos hx, List.dropWhile_cons_of_pos hx, ih]
    · rw [List.cons_append, List.dropWhile_cons_of_neg hx, List.dropWhile_cons_of_neg hx]; rfl

/-- One line which is not empty and not a comment -/
theorem fileLine_eq (c : UInt8) (t : Bytes) (hs : Parse.isSpaces c = false) (h35 : c ≠ 35) (h0 : (0 : UInt8) ∉ c :: t) :
    fileLine (c :: t) = (lineSays ((c :: t).takeWhile fun c => !Parse.isNewline c)).bind fun l =>
      l.head?.map fun x => (x, (c :: t).dropWhile fun c => !Parse.isNewline c) := by
  have hsplit : (c :: t).takeWhile (fun c => !Parse.isNewline c) ++ (c :: t).dropWhile (fun c => !Parse.isNewline c) = c :: t :=
    List.takeWhile_append_dropWhile
  have hnl : ∀ x ∈ (c :: t).takeWhile (fun c => !Parse.isNewline c), Parse.isNewline x = false := by
    intro x hx
    simpa using (mem_takeWhile hx).1
  have hz : (0 : UInt8) ∉ (c :: t).takeWhile (fun c => !Parse.isNewline c) := fun hx => h0 (mem_takeWhile hx).2
  have hrest : ∀ x u, (c :: t).dropWhile (fun c => !Parse.isNewline c) = x :: u → blank x = false := by
    intro x u hx
    have := AclFile.dropWhile_head hx
    have hx' : x = 10 ∨ x = 13 := by
      apply (isNewline_iff x).1
      simpa using this
    rcases hx' with rfl | rfl <;> decide
  have hcn : Parse.isNewline c = false := by
    cases h : Parse.isNewline c with
    | false => rfl
    | true => simp [Parse.isSpaces, h] at hs
  have hcb : blank c = false := by
    rw [← blank_eq]
    cases h : Parse.isSpaceTab c with
    | false => rfl
    | true => simp [Parse.isSpaces, h] at hs
  have hhead : (c :: t).takeWhile (fun c => !Parse.isNewline c) = c :: t.takeWhile (fun c => !Parse.isNewline c) :=
    List.takeWhile_cons_of_pos (by simp [hcn])
  unfold fileLine
  rw [hhead] at hsplit hnl hz ⊢
  generalize hr : (c :: t).dropWhile (fun c => !Parse.isNewline c) = rest at *
  generalize hw : t.takeWhile (fun c => !Parse.isNewline c) = w at *
  have hdw : (c :: w).dropWhile blank = c :: w := List.dropWhile_cons_of_neg (by simp [hcb])
  simp only [cstr_id hz]
  unfold lineSays
  simp only [hdw, List.head?_cons, Option.some.injEq, h35, List.cons_ne_nil, or_self, if_false]
  by_cases h61 : (61 : UInt8) ∈ c :: w
  · by_cases hc61 : c = 61
    · subst hc61
      have : extractUntil (61 :: w) 61 = [] := by simp [extractUntil]
      simp only [this, if_true, or_true, Option.bind_some, List.head?_cons, Option.map_some, chop_eq _ hnl]
    · obtain ⟨v, u, he, hv⟩ := (Cmdline.equal_word (c :: w)).resolve_left (fun h => h h61)
      have hvne : v ≠ [] := by
        intro hn
        subst hn
        simp at he
        exact hc61 he.1
      have hex : extractUntil (c :: w) 61 = v := by
        unfold extractUntil
        rw [if_pos (by simpa using h61), he, (takeWhile_mid hv u).1]
      have hdrop : (c :: t).drop (v.length + 1) = u ++ rest := by
        rw [← hsplit, he]
        have : v ++ 61 :: u ++ rest = (v ++ [61]) ++ (u ++ rest) := by simp
        rw [this, List.drop_left' (by simp)]
      have hig : Parse.ignore Parse.isSpaceTab (u ++ rest) = u.dropWhile blank ++ rest := by
        rw [AclFile.ignoreTab_eq, blank_eq, dropWhile_append_nil u rest hrest]
      simp only [hex, hvne, if_false, hdrop, hig]
      have hne : ¬ ((61 : UInt8) ∉ c :: w ∨ c = 61) := by simp [h61, hc61]
      rw [if_neg hne, he, (takeWhile_mid hv u).2, (takeWhile_mid hv u).1]
      simp only [List.drop_one, List.tail_cons, List.length_append]
      by_cases hu : u.dropWhile blank = []
      · simp [hu]
      · have : ¬ ((u.dropWhile blank).length + rest.length ≤ rest.length) := by
          have : 0 < (u.dropWhile blank).length := List.length_pos_iff.2 hu
          omega
        have hsub : ∀ x ∈ u.dropWhile blank, x ∈ c :: w := by
          intro x hx
          rw [he]
          exact List.mem_append_right _ (List.mem_cons_of_mem _ ((List.dropWhile_suffix _).subset hx))
        have hzu : (0 : UInt8) ∉ u.dropWhile blank := fun hx => hz (hsub _ hx)
        simp only [this, hu, if_false, Nat.add_sub_cancel, List.take_left', cstr_id hzu, Option.bind_some, List.head?_cons,
          Option.map_some]
        rw [chop_eq v fun x hx => hnl x (by rw [he]; exact List.mem_append_left _ hx), chop_eq _ fun x hx => hnl x (hsub x hx)]
  · have : extractUntil (c :: w) 61 = [] := by
      unfold extractUntil
      rw [if_neg (by simpa using h61)]
    simp only [this, if_true, h61, not_false_eq_true, true_or, Option.bind_some, List.head?_cons, Option.map_some, chop_eq _ hnl]

/-- A line which is not empty and not a comment says one thing, or is wrong. -/
theorem lineSays_one (c : UInt8) (t : Bytes) (hb : blank c = false) (h35 : c ≠ 35) :
    lineSays (c :: t) = none ∨ ∃ x, lineSays (c :: t) = some [x] := by
  have : (c :: t).dropWhile blank = c :: t := List.dropWhile_cons_of_neg (by simp [hb])
  unfold lineSays
  simp only [this, List.head?_cons, Option.some.injEq, h35, List.cons_ne_nil, or_self, if_false]
  split
  · exact .inr ⟨_, rfl⟩
  · split
    · exact .inl rfl
    · exact .inr ⟨_, rfl⟩

theorem fileLoop_eq (n : Nat) (b : Bytes) (hn : b.length < n) (h0 : (0 : UInt8) ∉ b) : fileLoop n b = linesSay (lines b) := by
  induction n generalizing b with
  | zero => omega
  | succ n ih =>
    rw [fileLoop, ← linesSay_spaces b, Discern.ignoreSpaces_eq]
    have hlen := (List.dropWhile_suffix (l := b) Parse.isSpaces).length_le
    have hz : (0 : UInt8) ∉ b.dropWhile Parse.isSpaces := fun hx => h0 ((List.dropWhile_suffix _).subset hx)
    cases hd : b.dropWhile Parse.isSpaces with
    | nil => simp [lines, linesSay, says_nil]
    | cons c t =>
      rw [hd] at hlen hz
      have hs : Parse.isSpaces c = false := AclFile.dropWhile_head hd
      simp only
      by_cases h35 : c = 35
      · subst h35
        rw [if_pos rfl]
        have hsuf := AclFile.comment_suffix 35 rfl t
        have := hsuf.length_le
        simp only [List.length_cons] at hlen
        rw [ih _ (by omega) fun hx => hz (List.mem_cons_of_mem _ (hsuf.subset hx)), linesSay_comment]
      · rw [if_neg h35, fileLine_eq c t hs h35 hz]
        obtain ⟨ls, h1, h2⟩ := first_line (c :: t)
        have hcn : Parse.isNewline c = false := by
          cases h : Parse.isNewline c with
          | false => rfl
          | true => simp [Parse.isSpaces, h] at hs
        have hcb : blank c = false := by
          rw [← blank_eq]
          cases h : Parse.isSpaceTab c with
          | false => rfl
          | true => simp [Parse.isSpaces, h] at hs
        have hhead : (c :: t).takeWhile (fun c => !Parse.isNewline c) = c :: t.takeWhile (fun c => !Parse.isNewline c) :=
          List.takeWhile_cons_of_pos (by simp [hcn])
        rw [h1, linesSay, ← h2]
        rw [hhead]
        have hdw : (c :: t).dropWhile (fun c => !Parse.isNewline c) = t.dropWhile (fun c => !Parse.isNewline c) :=
          List.dropWhile_cons_of_pos (by simp [hcn])
        have hsuf : (t.dropWhile fun c => !Parse.isNewline c) <:+ t := List.dropWhile_suffix _
        have := hsuf.length_le
        simp only [List.length_cons] at hlen
        rcases lineSays_one c (t.takeWhile fun c => !Parse.isNewline c) hcb h35 with h | ⟨x, h⟩
        · rw [h]
          simp
        · rw [h, hdw]
          simp only [Option.bind_some, List.head?_cons, Option.map_some]
          rw [ih _ (by omega) fun hx => hz (List.mem_cons_of_mem _ (hsuf.subset hx))]
          cases linesSay (lines (t.dropWhile fun c => !Parse.isNewline c)) <;> simp

/-! ## The environment -/

theorem getenv_cons (n v : Bytes) (e : Env) (name : Bytes) :
    getenv ((n, v) :: e.filter (·.1 != n)) name = if n = name then some v else getenv e name := by
  unfold getenv
  rw [List.find?_cons]
  by_cases h : n = name
  · simp [h]
  · simp only [h, beq_eq_false_iff_ne.2 h, if_false]
    rw [List.find?_filter]
    congr 1
    apply congrFun
    congr 1
    funext x
    by_cases hx : x.1 = name
    · simp [hx]
      exact fun hc => h hc.symm
    · simp [hx]

theorem setenv_some {e e' : Env} {n v : Bytes} : setenv e n v = some e' ↔ NameOk n ∧ e' = (n, v) :: e.filter (·.1 != n) := by
  unfold setenv NameOk
  by_cases h : n = [] ∨ (61 : UInt8) ∈ n
  · rw [if_pos (by simpa using h)]
    constructor
    · simp
    · rintro ⟨⟨h1, h2⟩, _⟩
      rcases h with h | h
      · exact absurd h h1
      · exact absurd h h2
  · rw [if_neg (by simpa using h)]
    simp only [not_or] at h
    constructor
    · intro hx
      exact ⟨h, (Option.some.inj hx).symm⟩
    · rintro ⟨_, rfl⟩
      rfl

theorem lastValue_cons (x : Bytes × Bytes) (m : List (Bytes × Bytes)) (name : Bytes) :
    lastValue (x :: m) name = (lastValue m name).or (if x.1 = name then some x.2 else none) := by
  unfold lastValue
  by_cases h : x.1 = name
  · have hf : (x :: m).filter (·.1 == name) = x :: m.filter (·.1 == name) := by simp [h]
    rw [hf, if_pos h]
    cases hm : m.filter (·.1 == name) with
    | nil => simp
    | cons y t => rw [List.getLast?_cons_cons]; simp [List.getLast?_cons]
  · have hf : (x :: m).filter (·.1 == name) = m.filter (·.1 == name) := by simp [h]
    rw [hf, if_neg h, Option.or_none]

theorem setEach_get {e e' : Env} {m : List (Bytes × Bytes)} (h : setEach e m = some e') (name : Bytes) :
    getenv e' name = (lastValue m name).or (getenv e name) := by
  induction m generalizing e with
  | nil => simp [setEach] at h; subst h; simp [lastValue]
  | cons x t ih =>
    rw [setEach] at h
    cases hs : setenv e x.1 x.2 with
    | none => simp [hs] at h
    | some e1 =>
      simp only [hs] at h
      rw [ih h, (setenv_some.1 hs).2, getenv_cons, lastValue_cons]
      cases lastValue t name with
      | some v => simp
      | none => by_cases hx : x.1 = name <;> simp [hx]

theorem setEach_ok (e : Env) (m : List (Bytes × Bytes)) : (setEach e m).isSome = true ↔ ∀ x ∈ m, NameOk x.1 := by
  induction m generalizing e with
  | nil => simp [setEach]
  | cons x t ih =>
    rw [setEach]
    cases hs : setenv e x.1 x.2 with
    | none =>
      have : ¬ NameOk x.1 := fun hx => by
        have := (setenv_some (e := e) (v := x.2)).2 ⟨hx, rfl⟩
        rw [hs] at this
        simp at this
      simp only [Option.isSome_none, Bool.false_eq_true, false_iff]
      intro hx
      exact this (hx x (List.mem_cons_self ..))
    | some e1 =>
      simp only [ih, List.mem_cons, forall_eq_or_imp]
      exact ⟨fun h => ⟨(setenv_some.1 hs).1, h⟩, fun h => h.2⟩

/-! ## Numbers -/

theorem isSpace_iff (c : UInt8) : isSpace c = true ↔ White c := by simp [isSpace, White]

theorem isDigit_iff (c : UInt8) : Parse.isDigit c = true ↔ 48 ≤ c ∧ c ≤ 57 := by simp [Parse.isDigit]

theorem dropWhile_white (ws r : Bytes) (hw : ∀ c ∈ ws, White c) (hr : ∀ c t, r = c :: t → ¬ White c) : (ws ++ r).dropWhile isSpace = r := by
  rw [dropWhile_append_nil ws r fun c t h => by
    have := hr c t h
    rw [← isSpace_iff] at this
    simpa using this]
  have : ws.dropWhile isSpace = [] := by
    clear hr
    induction ws with
    | nil => rfl
    | cons c t ih =>
      rw [List.dropWhile_cons_of_pos ((isSpace_iff c).2 (hw c (List.mem_cons_self ..)))]
      exact ih fun x hx => hw x (List.mem_cons_of_mem _ hx)
  rw [this]
  rfl

theorem digit_not_white (c : UInt8) (h : 48 ≤ c ∧ c ≤ 57) : ¬ White c := by
  unfold White
  have h1 : 48 ≤ c.toNat := UInt8.le_iff_toNat_le.1 h.1
  rintro (rfl | ⟨_, h2⟩)
  · exact absurd h1 (by decide)
  · have : c.toNat ≤ 13 := UInt8.le_iff_toNat_le.1 h2
    omega

theorem digit_not_sign (c : UInt8) (h : 48 ≤ c ∧ c ≤ 57) : c ≠ 45 ∧ c ≠ 43 := by
  constructor
  · rintro rfl; exact absurd h.1 (by decide)
  · rintro rfl; exact absurd h.1 (by decide)

theorem sign_digits (ds : Bytes) (h : ∀ c ∈ ds, 48 ≤ c ∧ c ≤ 57) : sign ds = (false, ds) := by
  cases ds with
  | nil => rfl
  | cons c t =>
    have := digit_not_sign c (h c (List.mem_cons_self ..))
    unfold sign
    split
    · rename_i hx; exact absurd (List.cons.inj hx).1 this.1
    · rename_i hx; exact absurd (List.cons.inj hx).1 this.2
    · rfl

theorem sign_cases (s : Bytes) : (∃ t, s = 45 :: t ∧ sign s = (true, t)) ∨ (∃ t, s = 43 :: t ∧ sign s = (false, t)) ∨ sign s = (false, s) := by
  unfold sign
  split
  · exact .inl ⟨_, rfl, rfl⟩
  · exact .inr (.inl ⟨_, rfl, rfl⟩)
  · exact .inr (.inr rfl)

theorem readNumber_iff (s : Bytes) (n : Int) : readNumber s = some n ↔ Written s n := by
  unfold readNumber Written
  constructor
  · intro h
    simp only at h
    split at h
    · simp at h
    · rename_i hd
      simp only [Bool.or_eq_true, decide_eq_true_eq, not_or, Bool.not_eq_true, List.any_eq_false, Bool.not_eq_eq_eq_not, Bool.not_true,
        Bool.not_eq_false] at hd
      have hsplit : s.takeWhile isSpace ++ s.dropWhile isSpace = s := List.takeWhile_append_dropWhile
      have hws : ∀ c ∈ s.takeWhile isSpace, White c := fun c hc => (isSpace_iff c).1 (mem_takeWhile hc).1
      refine ⟨s.takeWhile isSpace, (sign (s.dropWhile isSpace)).2, hws, hd.1, fun c hc => (isDigit_iff c).1 (by simpa using hd.2 c hc), ?_⟩
      have h := Option.some.inj h
      rcases sign_cases (s.dropWhile isSpace) with ⟨t, h1, h2⟩ | ⟨t, h1, h2⟩ | h2
      · rw [h2] at h ⊢
        right; right
        rw [← h1, hsplit]
        exact ⟨rfl, h.symm⟩
      · rw [h2] at h ⊢
        right; left
        rw [← h1, hsplit]
        exact ⟨rfl, h.symm⟩
      · rw [h2] at h ⊢
        left
        rw [hsplit]
        exact ⟨rfl, h.symm⟩
  · rintro ⟨ws, ds, hw, hne, hd, h⟩
    have hany : ds.any (fun c => !Parse.isDigit c) = false := by
      rw [List.any_eq_false]
      intro c hc
      simp [(isDigit_iff c).2 (hd c hc)]
    rcases h with ⟨rfl, rfl⟩ | ⟨rfl, rfl⟩ | ⟨rfl, rfl⟩
    · rw [dropWhile_white ws ds hw fun c t hx => digit_not_white c (hd c (by simp [hx])), sign_digits ds hd]
      simp [hne, hany]
    · rw [dropWhile_white ws _ hw fun c t hx => by rw [← (List.cons.inj hx).1]; unfold White; decide]
      simp [sign, hne, hany]
    · rw [dropWhile_white ws _ hw fun c t hx => by rw [← (List.cons.inj hx).1]; unfold White; decide]
      simp [sign, hne, hany]

end Verif.Startup
