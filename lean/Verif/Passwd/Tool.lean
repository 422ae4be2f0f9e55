import Verif.Passwd.Plain
/-!
# The program which changes password files

`process_iff`: what is written. `others_unchanged`, `removed`, `updated`: what this means for authentication. `crash`: the files are not lost.
-/
namespace Verif.Passwd
open Verif

theorem removeDuplicates_eq (ps : List Bytes) : ∀ kept, (∀ k ∈ kept, k ∉ ps) → removeDuplicates kept ps = lastOnly ps := by
  induction ps with
  | nil => intro kept _; rfl
  | cons p ps ih =>
    intro kept hk
    rw [removeDuplicates, lastOnly]
    have h1 : kept.contains p = false := by
      cases h : kept.contains p with
      | false => rfl
      | true => exact absurd (List.mem_cons_self ..) (hk p (by simpa using h))
    have hk' : ∀ k ∈ kept, k ∉ ps := fun k h hh => hk k h (List.mem_cons_of_mem _ hh)
    by_cases hp : p ∈ ps
    · rw [if_pos hp, if_pos (by simp [hp]), ih kept hk']
    · rw [if_neg hp, if_neg (by rw [h1]; simp [hp]), ih]
      intro k h
      rcases List.mem_append.1 h with h | h
      · exact hk' k h
      · rw [List.mem_singleton.1 h]; exact hp

theorem lastOnly_mem (ps : List Bytes) (p : Bytes) : p ∈ lastOnly ps ↔ p ∈ ps := by
  induction ps with
  | nil => rfl
  | cons q ps ih =>
    rw [lastOnly]
    split
    · next h =>
      rw [ih, List.mem_cons]
      constructor
      · exact .inr
      · rintro (rfl | h')
        · exact h
        · exact h'
    · rw [List.mem_cons, List.mem_cons, ih]

theorem lastOnly_nodup (ps : List Bytes) : (lastOnly ps).Nodup := by
  induction ps with
  | nil => exact List.nodup_nil
  | cons q ps ih =>
    rw [lastOnly]
    split
    · exact ih
    · next h => exact List.nodup_cons.2 ⟨fun hh => h ((lastOnly_mem ps q).1 hh), ih⟩

theorem joinComma_eq (l : List Bytes) : joinComma l = joined 44 l := by
  induction l with
  | nil => rfl
  | cons x xs ih =>
    cases xs with
    | nil => rfl
    | cons y ys => rw [joinComma, joined, ih]

/-- The line of a user -/
def userLine (j : Job) (before : List Bytes) (hash : Bytes) : Bytes := j.name ++ 58 :: (joined 44 (newPermissions j before) ++ 58 :: hash)

theorem writeUser_eq (j : Job) (before : List Bytes) (hash : Option Bytes) : writeUser j j.name before hash = userLine j before (hash.getD []) := by
  unfold writeUser userLine newPermissions
  simp only [joinComma_eq, Bool.or_eq_true, decide_eq_true_eq]
  rw [removeDuplicates_eq _ [] (by simp)]
  simp

/-! ## What is written -/

/-- C127. The permissions of a user are those it had, when they are to be kept, and the new ones, each once. -/
theorem newPermissions_mem (j : Job) (before : List Bytes) (p : Bytes) : p ∈ newPermissions j before ↔
    p ≠ [] ∧ (p ∈ j.permissions ∨ (p ∈ before ∧ (j.append = true ∨ j.permissions = []))) := by
  unfold newPermissions
  rw [List.mem_filter, lastOnly_mem, List.mem_append]
  by_cases h : j.append = true ∨ j.permissions = []
  · simp [h, or_comm, and_comm]
  · simp [h, and_comm]

theorem newPermissions_nodup (j : Job) (before : List Bytes) : (newPermissions j before).Nodup := (lastOnly_nodup _).filter _

theorem processLines_other (j : Job) : ∀ (ls : List Bytes) (found : Bool), (∀ l ∈ ls, ∃ u, Entry l u ∧ u.name ≠ j.name) →
    processLines j found ls = some (asFile ls, found) := by
  intro ls
  induction ls with
  | nil => intro found _; rfl
  | cons l ls ih =>
    intro found h
    obtain ⟨u, hu, hn⟩ := h l (List.mem_cons_self ..)
    rw [processLines, (user_iff l u).2 hu]
    simp only [if_neg hn, ih found fun x hx => h x (List.mem_cons_of_mem _ hx)]
    simp [asFile]

theorem processLines_found (j : Job) : ∀ (ls : List Bytes) (out : Bytes) (f : Bool), processLines j true ls = some (out, f) →
    (∀ l ∈ ls, ∃ u, Entry l u ∧ u.name ≠ j.name) ∧ out = asFile ls ∧ f = true := by
  intro ls
  induction ls with
  | nil =>
    intro out f h
    simp only [processLines, Option.some.injEq, Prod.mk.injEq] at h
    exact ⟨by simp, h.1.symm, h.2.symm⟩
  | cons l ls ih =>
    intro out f h
    rw [processLines] at h
    cases hu : user l with
    | none => simp [hu] at h
    | some u =>
      simp only [hu] at h
      split at h
      · simp at h
      · next hn =>
        cases hp : processLines j true ls with
        | none => simp [hp] at h
        | some r =>
          obtain ⟨o, g⟩ := r
          simp only [hp, Option.some.injEq, Prod.mk.injEq] at h
          obtain ⟨h1, h2, h3⟩ := ih o g hp
          refine ⟨?_, ?_, h.2 ▸ h3⟩
          · intro x hx
            rcases List.mem_cons.1 hx with rfl | hx
            · exact ⟨u, (user_iff _ u).1 hu, hn⟩
            · exact h1 x hx
          · rw [← h.1, h2]; simp [asFile]

theorem processLines_not (j : Job) : ∀ (ls : List Bytes) (out : Bytes) (f : Bool), processLines j false ls = some (out, f) →
    ((∀ l ∈ ls, ∃ u, Entry l u ∧ u.name ≠ j.name) ∧ out = asFile ls ∧ f = false)
    ∨ (j.create = false ∧ f = true ∧ ∃ pre l post u, ls = pre ++ l :: post ∧ Entry l u ∧ u.name = j.name
      ∧ (∀ l ∈ pre ++ post, ∃ u, Entry l u ∧ u.name ≠ j.name)
      ∧ out = asFile (if j.remove = true then pre ++ post else pre ++ userLine j u.permissions (j.hash.getD u.hash) :: post)) := by
  intro ls
  induction ls with
  | nil =>
    intro out f h
    simp only [processLines, Option.some.injEq, Prod.mk.injEq] at h
    exact .inl ⟨by simp, h.1.symm, h.2.symm⟩
  | cons l ls ih =>
    intro out f h
    rw [processLines] at h
    cases hu : user l with
    | none => simp [hu] at h
    | some u =>
      simp only [hu] at h
      have he := (user_iff l u).1 hu
      split at h
      · next hn =>
        simp only [Bool.or_false] at h
        cases hc : j.create with
        | true => simp [hc] at h
        | false =>
          simp only [hc, Bool.false_eq_true, if_false] at h
          cases hp : processLines j true ls with
          | none => simp [hp] at h
          | some r =>
            obtain ⟨o, g⟩ := r
            simp only [hp] at h
            obtain ⟨h1, h2, h3⟩ := processLines_found j ls o g hp
            right
            refine ⟨rfl, ?_, [], l, ls, u, rfl, he, hn, h1, ?_⟩
            · split at h <;> (simp only [Option.some.injEq, Prod.mk.injEq] at h; rw [← h.2, h3])
            · cases hr : j.remove with
              | true =>
                simp only [hr, if_true, Option.some.injEq, Prod.mk.injEq] at h
                simp [← h.1, h2]
              | false =>
                simp only [hr, Bool.false_eq_true, if_false, Option.some.injEq, Prod.mk.injEq] at h
                rw [← h.1, h2, hn, writeUser_eq]
                have : (j.hash.or (some u.hash)).getD [] = j.hash.getD u.hash := by cases j.hash <;> rfl
                rw [this]
                simp [asFile]
      · next hn =>
        cases hp : processLines j false ls with
        | none => simp [hp] at h
        | some r =>
          obtain ⟨o, g⟩ := r
          simp only [hp, Option.some.injEq, Prod.mk.injEq] at h
          obtain ⟨rfl, rfl⟩ := h
          rcases ih o g hp with ⟨h1, h2, h3⟩ | ⟨h1, h2, pre, k, post, v, h3, h4, h5, h6, h7⟩
          · left
            refine ⟨?_, by rw [h2]; simp [asFile], h3⟩
            intro x hx
            rcases List.mem_cons.1 hx with rfl | hx
            · exact ⟨u, he, hn⟩
            · exact h1 x hx
          · right
            refine ⟨h1, h2, l :: pre, k, post, v, by rw [h3]; rfl, h4, h5, ?_, ?_⟩
            · intro x hx
              rcases List.mem_cons.1 hx with rfl | hx
              · exact ⟨u, he, hn⟩
              · exact h6 x hx
            · rw [h7]
              split <;> simp [asFile]

theorem processLines_mid (j : Job) (hc : j.create = false) (l : Bytes) (post : List Bytes) (u : User) (he : Entry l u) (hn : u.name = j.name)
    (hpost : ∀ l ∈ post, ∃ u, Entry l u ∧ u.name ≠ j.name) : ∀ pre, (∀ l ∈ pre, ∃ u, Entry l u ∧ u.name ≠ j.name) →
    processLines j false (pre ++ l :: post) =
      some (asFile (if j.remove = true then pre ++ post else pre ++ userLine j u.permissions (j.hash.getD u.hash) :: post), true) := by
  intro pre
  induction pre with
  | nil =>
    intro _
    simp only [List.nil_append]
    rw [processLines, (user_iff l u).2 he]
    simp only [if_pos hn, hc, Bool.or_self, Bool.false_eq_true, if_false, processLines_other j post true hpost]
    cases hr : j.remove with
    | true => simp
    | false =>
      simp only [Bool.false_eq_true, if_false]
      rw [hn, writeUser_eq]
      have : (j.hash.or (some u.hash)).getD [] = j.hash.getD u.hash := by cases j.hash <;> rfl
      rw [this]
      simp [asFile]
  | cons x pre ih =>
    intro h
    obtain ⟨v, hv, hvn⟩ := h x (List.mem_cons_self ..)
    rw [List.cons_append, processLines, (user_iff x v).2 hv]
    simp only [if_neg hvn, ih fun y hy => h y (List.mem_cons_of_mem _ hy)]
    split <;> simp [asFile]

theorem asFile_append (a b : List Bytes) : asFile (a ++ b) = asFile a ++ asFile b := by simp [asFile]

/-- C127. The program changes a file exactly in the way it has to: a new user is added at the end when there is no such user, and otherwise the one line
of the user is changed or removed, while all other lines are kept. In all other cases there is an error. -/
theorem process_iff (j : Job) (b out : Bytes) (h0 : (0 : UInt8) ∉ b) :
    process j b = some out ↔ ∃ after, Edited j (content b) after ∧ out = asFile after := by
  unfold process
  rw [fileLines_eq b h0]
  constructor
  · intro h
    cases hp : processLines j false (content b) with
    | none => simp [hp] at h
    | some r =>
      obtain ⟨o, f⟩ := r
      simp only [hp] at h
      rcases processLines_not j _ o f hp with ⟨h1, h2, h3⟩ | ⟨h1, h2, pre, l, post, u, h3, h4, h5, h6, h7⟩
      · subst h3
        cases hc : j.create with
        | false => simp [hc] at h
        | true =>
          simp only [hc, if_true, Option.some.injEq] at h
          refine ⟨_, .inl ⟨hc, h1, rfl⟩, ?_⟩
          rw [asFile_append, ← h, h2, writeUser_eq]
          simp [asFile, userLine]
      · subst h2
        simp only [h1, Bool.false_eq_true, if_false, Bool.not_true, Option.some.injEq] at h
        refine ⟨_, .inr ⟨h1, pre, l, post, u, h3, h4, h5, h6, rfl⟩, ?_⟩
        rw [← h, h7]
        rfl
  · rintro ⟨after, h | ⟨hc, pre, l, post, u, h3, h4, h5, h6, h7⟩, rfl⟩
    · obtain ⟨hc, h1, h2⟩ := h
      rw [processLines_other j _ false h1, h2]
      simp only [hc, if_true, asFile_append, writeUser_eq]
      simp [asFile, userLine]
    · rw [h3, processLines_mid j hc l post u h4 h5 (fun x hx => h6 x (List.mem_append.2 (.inr hx))) pre
        (fun x hx => h6 x (List.mem_append.2 (.inl hx)))]
      simp only [hc, Bool.false_eq_true, if_false, Bool.not_true]
      rw [h7]
      rfl

/-! ## Authentication after changes -/

theorem joined_mem {c d : UInt8} (hd : d ≠ c) : ∀ {l : List Bytes}, d ∈ joined c l → ∃ x ∈ l, d ∈ x := by
  intro l
  induction l with
  | nil => intro h; cases h
  | cons x xs ih =>
    intro h
    cases xs with
    | nil => exact ⟨x, by simp, h⟩
    | cons y ys =>
      rw [joined] at h
      rcases List.mem_append.1 h with h | h
      · exact ⟨x, by simp, h⟩
      · rcases List.mem_cons.1 h with h | h
        · exact absurd h hd
        · obtain ⟨z, hz, hdz⟩ := ih h
          exact ⟨z, List.mem_cons_of_mem _ hz, hdz⟩

theorem mem_joined {c d : UInt8} : ∀ {l : List Bytes} {x : Bytes}, x ∈ l → d ∈ x → d ∈ joined c l := by
  intro l
  induction l with
  | nil => intro x h; cases h
  | cons y ys ih =>
    intro x hx hd
    cases ys with
    | nil => rw [List.mem_singleton.1 hx] at hd; exact hd
    | cons z zs =>
      rw [joined]
      rcases List.mem_cons.1 hx with rfl | hx
      · exact List.mem_append.2 (.inl hd)
      · exact List.mem_append.2 (.inr (List.mem_cons_of_mem _ (ih hx hd)))

/-- What is in the permissions of a user of a file -/
theorem entry_text {l : Bytes} {u : User} (he : Entry l u) (ht : Text l) :
    (∀ p ∈ u.permissions, Text p ∧ (58 : UInt8) ∉ p ∧ (44 : UInt8) ∉ p) ∧ Text u.hash ∧ (58 : UInt8) ∉ u.hash := by
  obtain ⟨p, hl, h1, h2, h3, h4⟩ := he
  refine ⟨?_, ?_, h3⟩
  · intro q hq
    rcases h4 with ⟨_, h4⟩ | ⟨_, _, h5, h6⟩
    · rw [h4] at hq; cases hq
    · refine ⟨?_, ?_, h5 q hq⟩
      · intro c hc
        apply ht
        rw [hl, h6]
        exact List.mem_append.2 (.inr (List.mem_cons_of_mem _ (List.mem_append.2 (.inl (mem_joined hq hc)))))
      · intro hc
        exact h2 (by rw [h6]; exact mem_joined hq hc)
  · intro c hc
    apply ht
    rw [hl]
    exact List.mem_append.2 (.inr (List.mem_cons_of_mem _ (List.mem_append.2 (.inr (List.mem_cons_of_mem _ hc)))))

theorem valid_iff (s : Bytes) : validStr s = true ↔ (58 : UInt8) ∉ s ∧ (44 : UInt8) ∉ s := by simp [validStr]

/-- The new line is that of a user, and is read as it is written. -/
theorem userLine_ok {j : Job} (hj : jobOk j = true) (ht : JobText j) {before : List Bytes} {hash : Bytes}
    (hb : ∀ p ∈ before, Text p ∧ (58 : UInt8) ∉ p ∧ (44 : UInt8) ∉ p) (hh : Text hash ∧ (58 : UInt8) ∉ hash)
    (hc : (newPermissions j before).length ≤ 32) :
    Entry (userLine j before hash) ⟨j.name, newPermissions j before, hash⟩ ∧ Plain (userLine j before hash) := by
  unfold jobOk at hj
  simp only [Bool.and_eq_true, decide_eq_true_eq, List.all_eq_true, ne_eq] at hj
  obtain ⟨⟨⟨⟨hn, hps⟩, hnv⟩, _⟩, _⟩ := hj
  obtain ⟨ht1, ht2, ht3, _⟩ := ht
  have hall : ∀ p ∈ newPermissions j before, Text p ∧ (58 : UInt8) ∉ p ∧ (44 : UInt8) ∉ p := by
    intro p hp
    obtain ⟨_, h | h⟩ := (newPermissions_mem j before p).1 hp
    · exact ⟨ht3 p h, (valid_iff p).1 (hps p h)⟩
    · exact hb p h.1
  refine ⟨⟨joined 44 (newPermissions j before), rfl, ((valid_iff _).1 hnv).1, ?_, hh.2, ?_⟩, ?_, ?_, ?_⟩
  · intro h
    obtain ⟨x, hx, hd⟩ := joined_mem (by decide) h
    exact (hall x hx).2.1 hd
  · cases hl : newPermissions j before with
    | nil => exact .inl ⟨rfl, rfl⟩
    | cons x xs =>
      right
      have hx : x ≠ [] := ((newPermissions_mem j before x).1 (by rw [hl]; simp)).1
      refine ⟨?_, by rw [← hl]; exact hc, fun y hy => (hall y (by rw [hl]; exact hy)).2.2, rfl⟩
      cases xs with
      | nil => exact hx
      | cons y ys => rw [joined]; simp
  · unfold userLine; simp
  · intro c hc
    apply ht2
    unfold userLine at hc
    cases hnm : j.name with
    | nil => exact absurd hnm hn
    | cons d t => rw [hnm] at hc; exact hc
  · intro c hc
    unfold userLine at hc
    rcases List.mem_append.1 hc with h | h
    · exact ht1 c h
    · rcases List.mem_cons.1 h with rfl | h
      · decide
      · rcases List.mem_append.1 h with h | h
        · by_cases h44 : c = 44
          · subst h44; decide
          · obtain ⟨x, hx, hd⟩ := joined_mem h44 h
            exact (hall x hx).1 c hd
        · rcases List.mem_cons.1 h with rfl | h
          · decide
          · exact hh.1 c h

/-- No user gets more permissions than can be read. -/
def CountOk (j : Job) (b : Bytes) : Prop :=
  (newPermissions j []).length ≤ 32 ∧ ∀ l ∈ content b, ∀ u, Entry l u → (newPermissions j u.permissions).length ≤ 32

theorem authLines_skip (cr : Crypt) (n pw : Bytes) (perm : Option Bytes) {l : Bytes} {u : User} (he : Entry l u) (hn : u.name ≠ n) (post : List Bytes) :
    ∀ pre, authLines cr n pw perm (pre ++ l :: post) = authLines cr n pw perm (pre ++ post) := by
  intro pre
  induction pre with
  | nil => simp only [List.nil_append]; rw [authLines, (user_iff l u).2 he]; simp only [if_pos hn]
  | cons x xs ih =>
    rw [List.cons_append, List.cons_append, authLines, authLines]
    cases user x with
    | none => rfl
    | some v => simp only [ih]

theorem authLines_others (cr : Crypt) (n pw : Bytes) (perm : Option Bytes) (ls : List Bytes) (h : ∀ l ∈ ls, ∃ u, Entry l u ∧ u.name ≠ n)
    (rest : List Bytes) : authLines cr n pw perm (ls ++ rest) = authLines cr n pw perm rest := by
  induction ls with
  | nil => rfl
  | cons l ls ih =>
    obtain ⟨u, hu, hn⟩ := h l (List.mem_cons_self ..)
    rw [List.cons_append, authLines, (user_iff l u).2 hu]
    simp only [if_pos hn]
    exact ih fun x hx => h x (List.mem_cons_of_mem _ hx)

theorem authenticate_lines (cr : Crypt) (b n pw : Bytes) (perm : Option Bytes) (h0 : (0 : UInt8) ∉ b) (hl : b.length < 2 ^ 32) :
    authenticate cr (some b) n pw perm = if n = [] ∨ pw = [] then .no else authLines cr n pw perm (content b) := by
  unfold authenticate
  by_cases h : n = [] ∨ pw = []
  · rw [if_pos h, if_pos (by simpa using h)]
  · rw [if_neg h, if_neg (by simpa using h)]
    dsimp only
    rw [← fileLines_eq b h0]
    by_cases hb : b.length = 0
    · rw [if_pos (by simp [hb]), List.length_eq_zero_iff.1 hb]
      simp [fileLines, lineLoop, Parse.ignoreSpaces, Parse.ignore, authLines]
    · rw [if_neg (by simp only [Bool.or_eq_true, decide_eq_true_eq]; omega)]

theorem asFile_text {ls : List Bytes} (h : ∀ l ∈ ls, Plain l) : (0 : UInt8) ∉ asFile ls := by
  intro hc
  unfold asFile at hc
  rw [List.mem_flatMap] at hc
  obtain ⟨l, hl, hc⟩ := hc
  rcases List.mem_append.1 hc with hc | hc
  · exact ((h l hl).2.2 0 hc).1 rfl
  · exact absurd hc (by decide)

/-- The lines after a change, for authentication -/
theorem after_change {j : Job} {b out : Bytes} (hj : jobOk j = true) (ht : JobText j) (h0 : (0 : UInt8) ∉ b) (hc : CountOk j b)
    (hp : process j b = some out) :
    (0 : UInt8) ∉ out ∧ ((j.create = true ∧ (∀ l ∈ content b, ∃ u, Entry l u ∧ u.name ≠ j.name)
        ∧ ∃ l, content out = content b ++ [l] ∧ Entry l ⟨j.name, newPermissions j [], j.hash.getD []⟩)
      ∨ (j.create = false ∧ ∃ pre l post u, content b = pre ++ l :: post ∧ Entry l u ∧ u.name = j.name
        ∧ (∀ l ∈ pre ++ post, ∃ u, Entry l u ∧ u.name ≠ j.name)
        ∧ ((j.remove = true ∧ content out = pre ++ post)
          ∨ (j.remove = false ∧ ∃ l', content out = pre ++ l' :: post ∧ Entry l' ⟨j.name, newPermissions j u.permissions, j.hash.getD u.hash⟩)))) := by
  obtain ⟨after, he, rfl⟩ := (process_iff j b out h0).1 hp
  have hpl := content_plain h0
  rcases he with ⟨h1, h2, h3⟩ | ⟨h1, pre, l, post, u, h2, h3, h4, h5, h6⟩
  · have hash : Text (j.hash.getD []) ∧ (58 : UInt8) ∉ j.hash.getD [] := by
      cases hh : j.hash with
      | none =>
        refine ⟨?_, by simp⟩
        intro c hc
        exact absurd hc (by simp)
      | some h => exact ht.2.2.2 h hh
    obtain ⟨e1, e2⟩ := userLine_ok hj ht (before := []) (by simp) hash hc.1
    have hall : ∀ l ∈ after, Plain l := by
      rw [h3]
      intro l hl
      rcases List.mem_append.1 hl with hl | hl
      · exact hpl l hl
      · rw [List.mem_singleton.1 hl]; exact e2
    refine ⟨asFile_text hall, .inl ⟨h1, h2, _, ?_, e1⟩⟩
    rw [content_asFile hall, h3]
    rfl
  · have hlp : Plain l := hpl l (by rw [h2]; simp)
    obtain ⟨t1, t2⟩ := entry_text h3 hlp.2.2
    have hash : Text (j.hash.getD u.hash) ∧ (58 : UInt8) ∉ j.hash.getD u.hash := by
      cases hh : j.hash with
      | none => exact t2
      | some h => exact ht.2.2.2 h hh
    obtain ⟨e1, e2⟩ := userLine_ok hj ht t1 hash (hc.2 l (by rw [h2]; simp) u h3)
    have hall : ∀ l ∈ after, Plain l := by
      rw [h6]
      have hpp : ∀ l ∈ pre ++ post, Plain l := by
        intro x hx
        apply hpl
        rw [h2]
        rcases List.mem_append.1 hx with hx | hx
        · exact List.mem_append.2 (.inl hx)
        · exact List.mem_append.2 (.inr (List.mem_cons_of_mem _ hx))
      intro x hx
      split at hx
      · exact hpp x hx
      · rcases List.mem_append.1 hx with hx | hx
        · exact hpp x (List.mem_append.2 (.inl hx))
        · rcases List.mem_cons.1 hx with rfl | hx
          · exact e2
          · exact hpp x (List.mem_append.2 (.inr hx))
    refine ⟨asFile_text hall, .inr ⟨h1, pre, l, post, u, h2, h3, h4, h5, ?_⟩⟩
    rw [content_asFile hall, h6]
    cases hr : j.remove with
    | true => exact .inl ⟨rfl, by simp⟩
    | false => exact .inr ⟨rfl, _, by simp only [Bool.false_eq_true, if_false]; rfl, e1⟩

/-- C127. A change makes no difference for other users, whatever their passwords and permissions are. -/
theorem others_unchanged_partial (cr : Crypt) {j : Job} {b out : Bytes} (hj : jobOk j = true) (ht : JobText j) (h0 : (0 : UInt8) ∉ b) (hc : CountOk j b)
    (hp : process j b = some out) (hb : b.length < 2 ^ 32) (ho : out.length < 2 ^ 32) (n pw : Bytes) (perm : Option Bytes) (hn : n ≠ j.name) :
    authenticate cr (some out) n pw perm = authenticate cr (some b) n pw perm := by
  obtain ⟨ho0, h⟩ := after_change hj ht h0 hc hp
  rw [authenticate_lines cr b n pw perm h0 hb, authenticate_lines cr out n pw perm ho0 ho]
  congr 1
  rcases h with ⟨_, _, l, h1, h2⟩ | ⟨_, pre, l, post, u, h1, h2, h3, _, h4⟩
  · rw [h1, authLines_skip cr n pw perm h2 (fun h => hn h.symm) [] (content b), List.append_nil]
  · rw [h1, authLines_skip cr n pw perm h2 (fun h => hn (h.symm.trans h3)) post pre]
    rcases h4 with ⟨_, h4⟩ | ⟨_, l', h4, h5⟩
    · rw [h4]
    · rw [h4, authLines_skip cr n pw perm h5 (fun h => hn h.symm) post pre]

/-- C127. A user which has been removed does not get in. -/
theorem removed_partial (cr : Crypt) {j : Job} {b out : Bytes} (hj : jobOk j = true) (ht : JobText j) (h0 : (0 : UInt8) ∉ b) (hc : CountOk j b)
    (hp : process j b = some out) (hr : j.remove = true) (ho : out.length < 2 ^ 32) (pw : Bytes) (perm : Option Bytes) :
    authenticate cr (some out) j.name pw perm = .no := by
  obtain ⟨ho0, h⟩ := after_change hj ht h0 hc hp
  rw [authenticate_lines cr out _ pw perm ho0 ho]
  split
  · rfl
  · rcases h with ⟨h1, _⟩ | ⟨_, pre, l, post, u, _, _, _, h3, h4⟩
    · unfold jobOk at hj
      simp [hr, h1] at hj
    · rcases h4 with ⟨_, h4⟩ | ⟨h, _⟩
      · rw [h4]
        have := authLines_others cr j.name pw perm _ h3 []
        rw [List.append_nil] at this
        rw [this]
        rfl
      · rw [hr] at h; cases h

theorem auth_at (cr : Crypt) (n pw : Bytes) (perm : Option Bytes) {pre post : List Bytes} {l : Bytes} {u : User} (he : Entry l u) (hn : u.name = n)
    (hpre : ∀ x ∈ pre, ∃ v, Entry x v ∧ v.name ≠ n) :
    authLines cr n pw perm (pre ++ l :: post) = .yes ↔ check cr u.hash pw = .yes ∧ ∀ p, perm = some p → p ∈ u.permissions := by
  rw [authLines_others cr n pw perm pre hpre, authLines_iff]
  constructor
  · rintro ⟨pre', k, post', v, h1, h2, h3, h4, h5⟩
    cases pre' with
    | nil =>
      simp only [List.nil_append, List.cons.injEq] at h1
      obtain ⟨rfl, _⟩ := h1
      rw [entry_unique he h3]
      exact h5
    | cons x xs =>
      simp only [List.cons_append, List.cons.injEq] at h1
      obtain ⟨rfl, _⟩ := h1
      obtain ⟨w, hw, hwn⟩ := h2 l (List.mem_cons_self ..)
      rw [entry_unique hw he] at hwn
      exact absurd hn hwn
  · intro h
    exact ⟨[], l, post, u, rfl, by simp, he, hn, h⟩

/-- C127. A user which has been created or changed gets in exactly with a password which matches what has been stored, or what was there when nothing
new is stored, and with the permissions it has now. -/
theorem updated_partial (cr : Crypt) {j : Job} {b out : Bytes} (hj : jobOk j = true) (ht : JobText j) (h0 : (0 : UInt8) ∉ b) (hc : CountOk j b)
    (hp : process j b = some out) (hr : j.remove = false) (ho : out.length < 2 ^ 32) :
    ∃ u : User, ((j.create = true ∧ u = ⟨j.name, [], []⟩) ∨ (j.create = false ∧ u.name = j.name ∧ ∃ l ∈ content b, Entry l u))
      ∧ ∀ pw perm, authenticate cr (some out) j.name pw perm = .yes ↔
        check cr (j.hash.getD u.hash) pw = .yes ∧ ∀ p, perm = some p → p ∈ newPermissions j u.permissions := by
  obtain ⟨ho0, h⟩ := after_change hj ht h0 hc hp
  have hname : j.name ≠ [] := by
    unfold jobOk at hj
    simp only [Bool.and_eq_true, decide_eq_true_eq, ne_eq] at hj
    exact hj.1.1.1.1
  have hpw : ∀ x pw, check cr x pw = .yes → pw ≠ [] := by
    rintro x pw h rfl
    simp [check] at h
  rcases h with ⟨h1, h2, l, h3, h4⟩ | ⟨h1, pre, l, post, u, h2, h3, h4, h5, h6⟩
  · refine ⟨⟨j.name, [], []⟩, .inl ⟨h1, rfl⟩, ?_⟩
    intro pw perm
    rw [authenticate_lines cr out _ pw perm ho0 ho, h3]
    split
    · next h =>
      have h : pw = [] := h.resolve_left hname
      constructor
      · intro h; cases h
      · rintro ⟨hh, _⟩; exact absurd h (hpw _ _ hh)
    · exact auth_at cr j.name pw perm h4 rfl h2
  · rcases h6 with ⟨h, _⟩ | ⟨_, l', h6, h7⟩
    · rw [hr] at h; cases h
    · refine ⟨u, .inr ⟨h1, h4, l, by rw [h2]; simp, h3⟩, ?_⟩
      intro pw perm
      rw [authenticate_lines cr out _ pw perm ho0 ho, h6]
      split
      · next h =>
        have h : pw = [] := h.resolve_left hname
        constructor
        · intro h; cases h
        · rintro ⟨hh, _⟩; exact absurd h (hpw _ _ hh)
      · exact auth_at cr j.name pw perm h7 rfl fun x hx => h5 x (List.mem_append.2 (.inl hx))

/-! ## Examples, and what goes wrong -/

/-- The file `a:p:$0$$eA==` and `b::`, where the password of `a` is `x` and `b` is disabled -/
def exFile : Bytes := [97, 58, 112, 58, 36, 48, 36, 36, 101, 65, 61, 61, 10, 98, 58, 58, 10]

/-- Give `b` the password `x`, and the permission `q` -/
def exJob : Job := { name := [98], hash := some [36, 48, 36, 36, 101, 65, 61, 61], create := false, remove := false, append := true, permissions := [[113]] }

example : jobOk exJob = true := by decide

example : JobText exJob := by
  refine ⟨by unfold Text; decide, by intro c h; obtain rfl := Option.some.inj h; decide, by unfold Text; decide, ?_⟩
  intro h hh
  obtain rfl := Option.some.inj hh
  exact ⟨by unfold Text; decide, by decide⟩

example : process exJob exFile = some ([97, 58, 112, 58, 36, 48, 36, 36, 101, 65, 61, 61, 10] ++ [98, 58, 113, 58, 36, 48, 36, 36, 101, 65, 61, 61, 10]) := by
  decide

example : authenticate plainCrypt (some exFile) [97] [120] (some [112]) = .yes := by decide +kernel

example : authenticate plainCrypt (some exFile) [98] [120] none = .no := by decide +kernel

example : (process exJob exFile).map (fun b => authenticate plainCrypt (some b) [98] [120] (some [113])) = some .yes := by decide +kernel

/-- Give `a` 33 permissions -/
def manyJob : Job :=
  { name := [97], hash := none, create := false, remove := false, append := false, permissions := (List.range 33).map fun i => [UInt8.ofNat (65 + i)] }

/-- C127. The program writes more permissions than can be read again: then neither the user nor those on later lines get in. -/
theorem many_permissions : jobOk manyJob = true
    ∧ (process manyJob (exFile ++ [99, 58, 58, 36, 48, 36, 36, 101, 65, 61, 61, 10])).map (fun b =>
        (authenticate plainCrypt (some b) [97] [120] none, authenticate plainCrypt (some b) [99] [120] none, process exJob b)) = some (.no, .no, none)
    ∧ authenticate plainCrypt (some (exFile ++ [99, 58, 58, 36, 48, 36, 36, 101, 65, 61, 61, 10])) [99] [120] none = .yes := by
  decide +kernel

/-- Create a user with a line end in the name -/
def lineJob : Job := { name := [99, 10, 100], hash := some [], create := true, remove := false, append := false, permissions := [] }

/-- C127. A user can be created with a line end in its name; the program cannot read the file afterwards. -/
theorem line_in_name : jobOk lineJob = true ∧ (process lineJob exFile).map (process exJob) = some none := by decide +kernel

/-- Create the user ` a` -/
def blankJob : Job := { name := [32, 97], hash := some [36, 48, 36, 36, 101, 81, 61, 61], create := true, remove := false, append := false, permissions := [] }

/-- C127. A user can be created with a blank at the start of its name, which is not read again: then there are two users of the name without a blank,
of which the program can change none, and the new user does not get in. -/
theorem blank_in_name : jobOk blankJob = true
    ∧ (process blankJob exFile).map (fun b => (authenticate plainCrypt (some b) [32, 97] [121] none, process { exJob with name := [97] } b)) =
      some (.no, none) := by
  decide +kernel

/-! ## Crashes -/

/-- C128. At every moment the old or the new contents are in the file, or there is no file and the old contents have the name for old files. -/
theorem crash (old new : Bytes) (before : Option Bytes) (r1 r2 r3 : Bool) :
    ∀ g ∈ install ⟨some old, some new, before⟩ r1 r2 r3, g.file = some old ∨ g.file = some new ∨ (g.file = none ∧ g.old = some old) := by
  cases r1 <;> cases r2 <;> cases r3 <;> simp [install, moveFileOld, moveTempFile, moveOldFile]

/-- C128. In the end the new contents are in the file when nothing fails. When something fails the old contents are there, unless they could not be put
back. No other files remain, unless the old contents could not be put back. -/
theorem installed (old new : Bytes) (before : Option Bytes) (r1 r2 r3 : Bool) :
    (install ⟨some old, some new, before⟩ r1 r2 r3).getLast? = some
      (if r1 && r2 then ⟨some new, none, none⟩
      else if !r1 || r3 then ⟨some old, none, none⟩
      else ⟨none, none, some old⟩) := by
  cases r1 <;> cases r2 <;> cases r3 <;> simp [install, moveFileOld, moveTempFile, moveOldFile]

/-- C128. The full claim fails: there is a moment without a password file, also when nothing fails. Nobody gets in then. -/
theorem moment_without_file (cr : Crypt) (old new : Bytes) (before : Option Bytes) :
    ∃ g ∈ install ⟨some old, some new, before⟩ true true true, ∀ n pw perm, authenticate cr g.file n pw perm = .no := by
  refine ⟨⟨none, some new, some old⟩, by simp [install, moveFileOld, moveTempFile], ?_⟩
  intro n pw perm
  unfold authenticate
  split <;> rfl

/-- C128. A file which already has the name for old files is lost, also when nothing is changed. -/
theorem old_file_lost (old new precious : Bytes) :
    (install ⟨some old, some new, some precious⟩ false true true).getLast? = some ⟨some old, none, none⟩ := rfl

end Verif.Passwd
