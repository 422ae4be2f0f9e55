import Verif.Msgdb.Props
/-!
# C100: tidying and listing the message database

The walk through the files is done in slices of 150 ms. `walk_complete`: when its end is reported all files were looked at. `walk_ends_partial`: it ends, if each directory can be looked at in one slice.
`walk_never_ends`: otherwise it does not, and the same messages are sent again and again.
-/
namespace Verif.Msgdb
open Verif Msg

/-! ### The directories -/

theorem indexChars_eq : indexChars 256 48 = [48, 49, 50, 51, 52, 53, 54, 55, 56, 57, 97, 98, 99, 100, 101, 102] := by decide +kernel

theorem hexByte_index : ∀ b : UInt8, ∀ c ∈ hexByte b, c ∈ indexChars 256 48 := by
  rw [indexChars_eq]
  apply all256
  decide +kernel

theorem fileName_index (sha : Bytes → Bytes) (t : Bytes) : ∀ c ∈ fileName sha t, c ∈ indexChars 256 48 := by
  intro c hc
  obtain ⟨b, _, hb⟩ := List.mem_flatMap.1 hc
  exact hexByte_index b c hb

theorem mem_indexRec (w : Bytes) : ∀ (l : Nat) (pre : Bytes), w.length = l + 1 → (∀ c ∈ w, c ∈ indexChars 256 48) → pre ++ w.flatMap (fun c => [c, 47]) ∈ indexRec (l + 1) pre := by
  induction w with
  | nil => intro l pre h; cases h
  | cons a t ih =>
    intro l pre hl hc
    rw [List.flatMap_cons]
    cases l with
    | zero =>
      have : t = [] := List.length_eq_zero_iff.1 (by simpa using hl)
      subst this
      exact List.mem_map.2 ⟨a, hc a List.mem_cons_self, by simp⟩
    | succ l =>
      refine List.mem_flatMap.2 ⟨a, hc a List.mem_cons_self, ?_⟩
      have := ih l (pre ++ [a, 47]) (by simpa using hl) (fun c h => hc c (List.mem_cons_of_mem _ h))
      rwa [List.append_assoc] at this

theorem indexRec_pre (l : Nat) : ∀ (pre d : Bytes), d ∈ indexRec (l + 1) pre → ∃ c r, c ∈ indexChars 256 48 ∧ d = pre ++ [c, 47] ++ r := by
  induction l with
  | zero =>
    intro pre d hd
    obtain ⟨c, hc, rfl⟩ := List.mem_map.1 hd
    exact ⟨c, [], hc, by simp⟩
  | succ l ih =>
    intro pre d hd
    obtain ⟨c, hc, h⟩ := List.mem_flatMap.1 hd
    obtain ⟨c', r, _, h'⟩ := ih _ _ h
    exact ⟨c, [c', 47] ++ r, hc, by rw [h', List.append_assoc]⟩

theorem indexRec_nodup (l : Nat) : ∀ pre, (indexRec (l + 1) pre).Nodup := by
  induction l with
  | zero =>
    intro pre
    show ((indexChars 256 48).map (fun c => pre ++ [c, 47])).Nodup
    unfold List.Nodup
    rw [List.pairwise_map]
    have : (indexChars 256 48).Pairwise (fun a b => a ≠ b) := by rw [indexChars_eq]; decide
    refine this.imp ?_
    intro a b hab he
    have := List.append_cancel_left he
    injection this with h1
    exact hab h1
  | succ l ih =>
    intro pre
    show ((indexChars 256 48).flatMap (fun c => indexRec (l + 1) (pre ++ [c, 47]))).Nodup
    unfold List.Nodup
    rw [List.pairwise_flatMap]
    refine ⟨fun c _ => ih _, ?_⟩
    have : (indexChars 256 48).Pairwise (fun a b => a ≠ b) := by rw [indexChars_eq]; decide
    refine this.imp ?_
    intro a b hab x hx y hy he
    obtain ⟨c, r, _, h1⟩ := indexRec_pre l _ _ hx
    obtain ⟨c', r', _, h2⟩ := indexRec_pre l _ _ hy
    rw [he, h2] at h1
    simp only [List.append_assoc] at h1
    have := List.append_cancel_left h1
    injection this with h3
    exact hab h3.symm

/-- **C100.** The directory in which a message is kept is in the list of directories to walk through, and none is in it twice. -/
theorem index_covers (sha : Bytes → Bytes) (hs : ∀ t, (sha t).length = 32) (levels : Nat) (hl : levels ≤ 4) (t : Bytes) :
    (index levels).Nodup ∧ ∃ d ∈ index levels, pathOf levels (fileName sha t) = d ++ fileName sha t := by
  unfold index
  split
  · rename_i h0
    subst h0
    exact ⟨by simp, [], by simp, rfl⟩
  · rename_i h0
    obtain ⟨l, rfl⟩ : ∃ l, levels = l + 1 := ⟨levels - 1, by omega⟩
    refine ⟨indexRec_nodup l [], _, ?_, rfl⟩
    have hlen := (fileName_isName hs t).len
    have := mem_indexRec ((fileName sha t).take (l + 1)) l [] (by rw [List.length_take, hlen]; omega)
      (fun c hc => fileName_index sha t c (List.mem_of_mem_take hc))
    rwa [List.nil_append] at this

/-! ### The slices -/

theorem slice_done {α : Type} (del : α → Bool) (dirs : List (List α)) : ∀ b, (slice del b dirs).2 = none → (slice del b dirs).1 = dirs.flatten := by
  induction dirs with
  | nil => intro b _; cases b <;> rfl
  | cons d ds ih =>
    intro b h
    cases b with
    | zero => cases h
    | succ b =>
      unfold slice at h ⊢
      split at h
      · rename_i hd
        rw [if_pos hd]
        show d ++ _ = _
        rw [ih _ h]
        rfl
      · cases h

theorem slice_rest {α : Type} (del : α → Bool) (dirs : List (List α)) : ∀ b rest, (slice del b dirs).2 = some rest →
    (∀ x ∈ dirs.flatten, x ∈ (slice del b dirs).1 ∨ x ∈ rest.flatten) ∧ (∀ x ∈ (slice del b dirs).1, x ∈ dirs.flatten) ∧ (∀ x ∈ rest.flatten, x ∈ dirs.flatten) := by
  induction dirs with
  | nil => intro b rest h; cases b <;> cases h
  | cons d ds ih =>
    intro b rest h
    cases b with
    | zero =>
      obtain rfl := Option.some.inj h
      exact ⟨fun x hx => Or.inr hx, (fun x hx => by cases hx), fun x hx => hx⟩
    | succ b =>
      unfold slice at h ⊢
      split at h
      · rename_i hd
        rw [if_pos hd]
        obtain ⟨h1, h2, h3⟩ := ih _ rest h
        simp only [List.flatten_cons, List.mem_append]
        refine ⟨?_, ?_, fun x hx => Or.inr (h3 x hx)⟩
        · rintro x (hx | hx)
          · exact Or.inl (Or.inl hx)
          · exact (h1 x hx).elim (fun y => Or.inl (Or.inr y)) Or.inr
        · rintro x (hx | hx)
          · exact Or.inl hx
          · exact Or.inr (h2 x hx)
      · rename_i hd
        rw [if_neg hd]
        obtain rfl := Option.some.inj h
        simp only [List.flatten_cons, List.mem_append, List.mem_filter]
        refine ⟨?_, ?_, ?_⟩
        · rintro x (hx | hx)
          · rw [← List.take_append_drop (b + 1) d] at hx
            rcases List.mem_append.1 hx with h1 | h1
            · exact Or.inl h1
            · exact Or.inr (Or.inl (Or.inr h1))
          · exact Or.inr (Or.inr hx)
        · intro x hx
          exact Or.inl (List.mem_of_mem_take hx)
        · rintro x ((⟨hx, _⟩ | hx) | hx)
          · exact Or.inl (List.mem_of_mem_take hx)
          · exact Or.inl (List.mem_of_mem_drop hx)
          · exact Or.inr hx

theorem walk_cons {α : Type} (del : α → Bool) (b : Nat) (bs : List Nat) (dirs : List (List α)) :
    (∃ seen, slice del b dirs = (seen, none) ∧ walk del (b :: bs) dirs = (seen, none)) ∨
    (∃ seen rest, slice del b dirs = (seen, some rest) ∧ walk del (b :: bs) dirs = (seen ++ (walk del bs rest).1, (walk del bs rest).2)) := by
  cases h : slice del b dirs with
  | mk seen o =>
    cases o with
    | none => exact Or.inl ⟨seen, rfl, by simp only [walk, h]⟩
    | some rest => exact Or.inr ⟨seen, rest, rfl, by simp only [walk, h]⟩

/-- **C100.** When the end of a walk is reported, every entry of every directory has been looked at, and nothing else. It does not matter how the time was spent. -/
theorem walk_complete {α : Type} (del : α → Bool) (bs : List Nat) (dirs : List (List α)) (h : (walk del bs dirs).2 = none) :
    ∀ x, x ∈ (walk del bs dirs).1 ↔ ∃ d ∈ dirs, x ∈ d := by
  have key : ∀ bs dirs, (walk del bs dirs).2 = none → ∀ x, x ∈ (walk del bs dirs).1 ↔ x ∈ dirs.flatten := by
    intro bs
    induction bs with
    | nil => intro dirs h; cases h
    | cons b bs ih =>
      intro dirs h x
      rcases walk_cons del b bs dirs with ⟨seen, h1, h2⟩ | ⟨seen, rest, h1, h2⟩
      · have := slice_done del dirs b (by rw [h1])
        rw [h1] at this
        rw [h2]
        show x ∈ seen ↔ _
        rw [show seen = dirs.flatten from this]
      · obtain ⟨g1, g2, g3⟩ := slice_rest del dirs b rest (by rw [h1])
        rw [h1] at g1 g2
        rw [h2] at h ⊢
        show x ∈ seen ++ _ ↔ _
        rw [List.mem_append, ih rest h]
        exact ⟨fun hx => hx.elim (g2 x) (g3 x), fun hx => g1 x hx⟩
  intro x
  rw [key bs dirs h x, List.mem_flatten]

theorem slice_progress {α : Type} (del : α → Bool) (d : List α) (ds : List (List α)) (b : Nat) (hb : d.length < b) (rest : List (List α)) (h : (slice del b (d :: ds)).2 = some rest) :
    rest.length ≤ ds.length ∧ ∀ r ∈ rest, ∃ e ∈ ds, r.length ≤ e.length := by
  have key : ∀ (ds : List (List α)) b rest, (slice del b ds).2 = some rest → rest.length ≤ ds.length ∧ ∀ r ∈ rest, ∃ e ∈ ds, r.length ≤ e.length := by
    intro ds
    induction ds with
    | nil => intro b rest h; cases b <;> cases h
    | cons d ds ih =>
      intro b rest h
      cases b with
      | zero =>
        obtain rfl := Option.some.inj h
        exact ⟨Nat.le_refl _, fun r hr => ⟨r, hr, Nat.le_refl _⟩⟩
      | succ b =>
        unfold slice at h
        split at h
        · obtain ⟨h1, h2⟩ := ih _ rest h
          refine ⟨by simp only [List.length_cons]; omega, ?_⟩
          intro r hr
          obtain ⟨e, he, hl⟩ := h2 r hr
          exact ⟨e, List.mem_cons_of_mem _ he, hl⟩
        · obtain rfl := Option.some.inj h
          refine ⟨Nat.le_refl _, ?_⟩
          intro r hr
          rcases List.mem_cons.1 hr with h1 | h1
          · refine ⟨d, List.mem_cons_self, ?_⟩
            rw [h1, List.length_append]
            have h2 := List.length_filter_le (fun x => !del x) (d.take (b + 1))
            have h3 := congrArg List.length (List.take_append_drop (b + 1) d)
            rw [List.length_append] at h3
            omega
          · exact ⟨r, List.mem_cons_of_mem _ h1, Nat.le_refl _⟩
  cases b with
  | zero => omega
  | succ b =>
    unfold slice at h
    rw [if_pos (by omega)] at h
    exact key ds _ rest h

/-- **C100.** If each directory can be looked at in one slice, the walk ends after at most as many slices as there are directories. -/
theorem walk_ends_partial {α : Type} (del : α → Bool) (bs : List Nat) (dirs : List (List α)) (hb : ∀ b ∈ bs, ∀ d ∈ dirs, d.length < b) (hn : dirs.length ≤ bs.length) (h0 : bs ≠ []) :
    (walk del bs dirs).2 = none := by
  induction bs generalizing dirs with
  | nil => exact absurd rfl h0
  | cons b bs ih =>
    rcases walk_cons del b bs dirs with ⟨seen, h1, h2⟩ | ⟨seen, rest, h1, h2⟩
    · rw [h2]
    · rw [h2]
      cases dirs with
      | nil => cases b <;> cases h1
      | cons d ds =>
        obtain ⟨g1, g2⟩ := slice_progress del d ds b (hb b List.mem_cons_self d List.mem_cons_self) rest (by rw [h1])
        have hr : rest ≠ [] := by
          have hrest : ∀ (ds : List (List α)) b, (slice del b ds).2 ≠ some [] := by
            intro ds
            induction ds with
            | nil => intro b h; cases b <;> cases h
            | cons d ds ih =>
              intro b h
              cases b with
              | zero => cases h
              | succ b =>
                unfold slice at h
                split at h
                · exact ih _ h
                · cases h
          intro he
          exact hrest (d :: ds) b (by rw [h1, he])
        refine ih rest ?_ ?_ ?_
        · intro b' hb' r hr'
          obtain ⟨e, he, hle⟩ := g2 r hr'
          have := hb b' (List.mem_cons_of_mem _ hb') e (List.mem_cons_of_mem _ he)
          omega
        · simp only [List.length_cons] at hn
          omega
        · intro he
          subst he
          simp only [List.length_cons, List.length_nil] at hn
          cases rest with
          | nil => exact hr rfl
          | cons _ _ => simp only [List.length_cons] at g1; omega

/-- **C100** fails for large directories: if no slice is long enough for the first directory then, however many slices there are, the walk does not end, the files in other directories are never looked at, and
when listing the same messages are sent in every slice. -/
theorem walk_never_ends {α : Type} (del : α → Bool) (d : List α) (ds : List (List α)) (hd : ∀ x ∈ d, del x = false) (bs : List Nat) (hb : ∀ b ∈ bs, b ≤ d.length) :
    walk del bs (d :: ds) = (bs.flatMap (fun b => d.take b), some (d :: ds)) := by
  induction bs with
  | nil => rfl
  | cons b bs ih =>
    have hs : slice del b (d :: ds) = (d.take b, some (d :: ds)) := by
      cases b with
      | zero => rfl
      | succ b =>
        unfold slice
        rw [if_neg (by have := hb (b + 1) List.mem_cons_self; omega), List.filter_eq_self.2 (by
          intro x hx
          rw [hd x (List.mem_of_mem_take hx)]
          rfl), List.take_append_drop]
    unfold walk
    rw [hs, List.flatMap_cons]
    simp only [ih (fun b' hb' => hb b' (List.mem_cons_of_mem _ hb'))]

/-- A walk which ends may have looked at files twice. -/
example : walk (fun _ => false) [5, 7] [[1, 2], [3, 4, 5], [6]] = ([1, 2, 3, 4, 3, 4, 5, 6], none) := by decide
example : walk (fun _ => false) [3, 3, 3] [[1, 2, 3], [4]] = ([1, 2, 3, 1, 2, 3, 1, 2, 3], some [[1, 2, 3], [4]]) := by decide
example : ∀ b ∈ [5, 7], ∀ d ∈ [[1, 2], [3, 4, 5], [6]], List.length d < b := by decide

/-! ### What is done with each file -/

/-- **C100.** Listing sends each stored message which is old enough, and no other; nothing is changed. -/
theorem idx_sends (db : Db) (path : Bytes) (m : MsgMsg) (hm : Valid m) (hf : db.files.get path = some (content m)) (now : UInt64) (age : UInt32) :
    visit db .idx path now age = (db, if Old m now age then .msg m else .nothing) := by
  unfold visit
  rw [hf, readFile_content hm]
  show (if _ then _ else _) = _
  by_cases ho : Old m now age
  · rw [if_neg (by rw [old_iff]; exact fun x => x ho), if_pos ho]
    show (db, _) = _
    unfold get
    rw [hf, readFile_content hm]
  · rw [if_pos ((old_iff _ _ _).2 ho), if_neg ho]

/-- **C100.** Tidying removes a message if it is too old, and otherwise leaves everything as it is. -/
theorem tidy_removes (db : Db) (path : Bytes) (m : MsgMsg) (hm : Valid m) (hf : db.files.get path = some (content m)) (now : UInt64) (age : UInt32) :
    visit db .tidy path now age = (if Old m now age then { db with files := db.files.remove path } else db, .nothing) := by
  unfold visit
  rw [hf, readFile_content hm]
  show (if _ then _ else _) = _
  by_cases ho : Old m now age
  · rw [if_neg (by rw [old_iff]; exact fun x => x ho), if_pos ho]
  · rw [if_pos ((old_iff _ _ _).2 ho), if_neg ho]

/-- **C100.** The file of every message which is found by a GET has its bytes, so that both theorems above apply to it. -/
theorem stored_file (sha : Bytes → Bytes) (hs : ∀ t, (sha t).length = 32) (levels : Nat) (hl : levels ≤ 4) (h : List Op) (hv : ∀ o ∈ h, ValidOp o)
    (t : Bytes) (hinj : ∀ o ∈ h, ∀ t', o.topic = some t' → sha t' = sha t → t' = t) (m : MsgMsg) (hk : kept t h = some m) :
    Valid m ∧ (run sha ⟨levels, []⟩ h).files.get (pathOf (run sha ⟨levels, []⟩ h).levels (fileName sha t)) = some (content m) := by
  have hi := inv_run hs hl h hv
  obtain ⟨h1, _, h3⟩ := hi.complete t m hinj hk
  exact ⟨h1, (has_get hi.wf hi.placed (fileName_isName hs t)).2 h3⟩

example : Old (mk 1 5000000 [99] [5]) 10000000 2 ∧ ¬ Old (mk 1 9000000 [97] [2, 3]) 10000000 2 := by decide +kernel

end Verif.Msgdb
