import Verif.Udpstream.Model
/-!
# Lemmas about streams
-/
namespace Verif.Udpstream
open Verif

/-! ## Numbers -/

/-- The frames have the numbers which follow `c`. -/
def Num (c : Nat) (l : List Frame) : Prop := ∀ i f, l[i]? = some f → f.id = c + 1 + i

theorem Num.nil (c : Nat) : Num c [] := fun i f h => by simp at h

theorem Num.cons {c : Nat} {f : Frame} {l : List Frame} (hf : f.id = c + 1) (h : Num (c + 1) l) : Num c (f :: l) := by
  intro i g hg
  cases i with
  | zero => simp at hg; subst hg; omega
  | succ i => simp at hg; have := h i g hg; omega

theorem Num.append {c : Nat} {a b : List Frame} (ha : Num c a) (hb : Num (c + a.length) b) : Num c (a ++ b) := by
  intro i f hf
  by_cases h : i < a.length
  · rw [List.getElem?_append_left h] at hf
    exact ha i f hf
  · rw [List.getElem?_append_right (by omega)] at hf
    have := hb _ f hf
    omega

theorem markLast_length (l : List Frame) : (markLast l).length = l.length := by
  induction l with
  | nil => rfl
  | cons f r ih =>
    cases r with
    | nil => rfl
    | cons g r => simp only [markLast, List.length_cons] at ih ⊢; omega

theorem markLast_id (l : List Frame) : (markLast l).map (·.id) = l.map (·.id) := by
  induction l with
  | nil => rfl
  | cons f r ih =>
    cases r with
    | nil => rfl
    | cons g r => simp only [markLast, List.map_cons] at ih ⊢; rw [ih]

theorem markLast_data (l : List Frame) : (markLast l).map (·.data) = l.map (·.data) := by
  induction l with
  | nil => rfl
  | cons f r ih =>
    cases r with
    | nil => rfl
    | cons g r => simp only [markLast, List.map_cons] at ih ⊢; rw [ih]

theorem markLast_app (l : List Frame) : (markLast l).map (·.app) = l.map (·.app) := by
  induction l with
  | nil => rfl
  | cons f r ih =>
    cases r with
    | nil => rfl
    | cons g r => simp only [markLast, List.map_cons] at ih ⊢; rw [ih]

theorem markLast_boundary (l : List Frame) (h : ∀ f ∈ l, f.boundary = false) (hl : l ≠ []) :
    (markLast l).map (·.boundary) = List.replicate (l.length - 1) false ++ [true] := by
  induction l with
  | nil => exact absurd rfl hl
  | cons f r ih =>
    cases r with
    | nil => rfl
    | cons g r =>
      have := ih (fun x hx => h x (List.mem_cons_of_mem _ hx)) (by simp)
      simp only [markLast, List.map_cons] at this ⊢
      rw [this, h f (List.mem_cons_self ..)]
      simp [List.replicate_succ]

theorem num_iff (c : Nat) (l l' : List Frame) (h : l.map (·.id) = l'.map (·.id)) (hn : Num c l) : Num c l' := by
  intro i f hf
  have h1 : (l'.map (·.id))[i]? = some f.id := by simp [hf]
  rw [← h] at h1
  simp only [List.getElem?_map, Option.map_eq_some_iff] at h1
  obtain ⟨g, hg, hid⟩ := h1
  rw [← hid]; exact hn i g hg

theorem cutLoop_num (app : UInt64) (fuel c : Nat) (d : Bytes) : Num c (cutLoop app fuel c d) := by
  induction fuel generalizing c d with
  | zero => exact Num.nil c
  | succ n ih =>
    unfold cutLoop
    split
    · exact Num.cons rfl (ih _ _)
    · exact Num.nil c

theorem cutLoop_data (app : UInt64) (fuel c : Nat) (d : Bytes) (h : d.length ≤ fuel) : ((cutLoop app fuel c d).map (·.data)).flatten = d := by
  induction fuel generalizing c d with
  | zero =>
    have : d = [] := by cases d <;> simp_all
    subst this; rfl
  | succ n ih =>
    unfold cutLoop
    split
    · rename_i hp
      simp only [List.map_cons, List.flatten_cons]
      rw [ih]
      · exact List.take_append_drop _ _
      · rw [List.length_drop]
        split <;> omega
    · rename_i hp
      have : d = [] := by cases d <;> simp_all
      subst this; rfl

theorem cutLoop_app (app : UInt64) (fuel c : Nat) (d : Bytes) : ∀ f ∈ cutLoop app fuel c d, f.app = app ∧ f.boundary = false := by
  induction fuel generalizing c d with
  | zero => intro f hf; cases hf
  | succ n ih =>
    intro f hf
    unfold cutLoop at hf
    split at hf
    · cases hf with
      | head => exact ⟨rfl, rfl⟩
      | tail _ h => exact ih _ _ f h
    · cases hf

theorem cutLoop_ne (app : UInt64) (c : Nat) (d : Bytes) (h : d ≠ []) : cutLoop app d.length c d ≠ [] := by
  cases d with
  | nil => exact absurd rfl h
  | cons b r => simp [cutLoop]

/-- The frames of a message. -/
def framesOf (c : Nat) (m : Msg) : List Frame := markLast (cutLoop m.app m.data.length c m.data)

theorem framesOf_num (c : Nat) (m : Msg) : Num c (framesOf c m) :=
  num_iff c _ _ (markLast_id _).symm (cutLoop_num _ _ _ _)

theorem framesOf_data (c : Nat) (m : Msg) : ((framesOf c m).map (·.data)).flatten = m.data := by
  unfold framesOf
  rw [markLast_data, cutLoop_data _ _ _ _ (Nat.le_refl _)]

theorem framesOf_app (c : Nat) (m : Msg) : ∀ f ∈ framesOf c m, f.app = m.app := by
  intro f hf
  have h1 : f.app ∈ (framesOf c m).map (·.app) := List.mem_map_of_mem hf
  unfold framesOf at h1
  rw [markLast_app] at h1
  obtain ⟨g, hg, e⟩ := List.mem_map.mp h1
  rw [← e]
  exact (cutLoop_app _ _ _ _ g hg).1

theorem framesOf_ne (c : Nat) (m : Msg) (h : m.data ≠ []) : framesOf c m ≠ [] := by
  intro e
  have h1 := congrArg List.length e
  unfold framesOf at h1
  rw [markLast_length] at h1
  exact cutLoop_ne m.app c m.data h (List.length_eq_zero_iff.mp h1)

theorem framesOf_empty (c : Nat) (m : Msg) (h : m.data = []) : framesOf c m = [] := by
  unfold framesOf; rw [h]; rfl

theorem framesOf_boundary (c : Nat) (m : Msg) (h : m.data ≠ []) :
    (framesOf c m).map (·.boundary) = List.replicate ((framesOf c m).length - 1) false ++ [true] := by
  unfold framesOf
  rw [markLast_boundary _ (fun f hf => (cutLoop_app _ _ _ _ f hf).2) (cutLoop_ne _ _ _ h), markLast_length]

/-- The frames of all messages. -/
def allFrames : Nat → List Msg → List Frame
  | _, [] => []
  | c, m :: r => framesOf c m ++ allFrames (c + (framesOf c m).length) r

theorem allFrames_num (c : Nat) (l : List Msg) : Num c (allFrames c l) := by
  induction l generalizing c with
  | nil => exact Num.nil c
  | cons m r ih => exact (framesOf_num c m).append (ih _)

theorem allFrames_append (c : Nat) (a b : List Msg) : allFrames c (a ++ b) = allFrames c a ++ allFrames (c + (allFrames c a).length) b := by
  induction a generalizing c with
  | nil => rfl
  | cons m r ih =>
    simp only [List.cons_append, allFrames]
    rw [ih]
    simp only [List.append_assoc, List.length_append]
    rw [Nat.add_assoc]

/-- Messages which have data. -/
def nonEmpty (l : List Msg) : List Msg := l.filter (fun m => m.data != [])

theorem nonEmpty_append (a b : List Msg) : nonEmpty (a ++ b) = nonEmpty a ++ nonEmpty b := List.filter_append ..

/-- If there are frames, then the first ones are those of the first message which has data. -/
theorem allFrames_first (c : Nat) (l : List Msg) (h : allFrames c l ≠ []) :
    ∃ pre m post, l = pre ++ m :: post ∧ allFrames c pre = [] ∧ nonEmpty pre = [] ∧ m.data ≠ [] ∧
      allFrames c l = framesOf c m ++ allFrames (c + (framesOf c m).length) post := by
  induction l generalizing c with
  | nil => exact absurd rfl h
  | cons m r ih =>
    by_cases hm : m.data = []
    · have e := framesOf_empty c m hm
      have e2 : allFrames c (m :: r) = allFrames c r := by simp [allFrames, e]
      obtain ⟨pre, m', post, h1, h2, h3, h4, h5⟩ := ih c (by rw [← e2]; exact h)
      refine ⟨m :: pre, m', post, by rw [h1]; rfl, by simp [allFrames, e, h2], ?_, h4, by rw [e2, h5]⟩
      unfold nonEmpty at h3 ⊢
      rw [List.filter_cons_of_neg (by simp [hm])]
      exact h3
    · exact ⟨[], m, r, rfl, rfl, rfl, hm, rfl⟩

/-! ## The frame at its place -/

/-- The frame is the one with its number. -/
def At (F : List Frame) (f : Frame) : Prop := 1 ≤ f.id ∧ F[f.id - 1]? = some f

theorem At.append {F : List Frame} {f : Frame} (h : At F f) (G : List Frame) : At (F ++ G) f := by
  refine ⟨h.1, ?_⟩
  have hl : f.id - 1 < F.length := by
    have := h.2
    rw [List.getElem?_eq_some_iff] at this
    exact this.1
  rw [List.getElem?_append_left hl]
  exact h.2

theorem At.le {F : List Frame} {f : Frame} (h : At F f) : f.id ≤ F.length := by
  have := h.2
  rw [List.getElem?_eq_some_iff] at this
  have := this.1
  have := h.1
  omega

theorem At.of_mem {F : List Frame} (hn : Num 0 F) {f : Frame} (h : f ∈ F) : At F f := by
  obtain ⟨i, hi, e⟩ := List.mem_iff_getElem.mp h
  have h1 : F[i]? = some f := by rw [List.getElem?_eq_getElem hi, e]
  have h2 := hn i f h1
  refine ⟨by omega, ?_⟩
  rw [show f.id - 1 = i by omega]
  exact h1

/-! ## The receive buffer -/

/-- Sorted by number, without doubles. -/
def Sorted (l : List RFrame) : Prop := l.Pairwise (fun a b => a.frame.id < b.frame.id)

/-- The number is in the buffer. -/
def Has (l : List RFrame) (id : Nat) : Prop := ∃ x ∈ l, x.frame.id = id

theorem insertLoop_spec (f : RFrame) (max : Nat) (l : List RFrame) (hs : Sorted l) (hm : ∀ x ∈ l, max ≤ x.frame.id) :
    ∃ l', insertLoop f max l = some l' ∧ Sorted l' ∧ (∀ x ∈ l', x = f ∨ x ∈ l) ∧ (∀ x ∈ l, x ∈ l') ∧ Has l' f.frame.id := by
  induction l generalizing max with
  | nil => exact ⟨[f], rfl, List.pairwise_singleton .., fun x hx => Or.inl (List.mem_singleton.mp hx), (fun x hx => by cases hx), f, List.mem_singleton.mpr rfl, rfl⟩
  | cons n r ih =>
    unfold insertLoop
    by_cases h1 : n.frame.id = f.frame.id
    · rw [if_pos h1]
      exact ⟨_, rfl, hs, fun x hx => Or.inr hx, fun x hx => hx, n, List.mem_cons_self .., h1⟩
    rw [if_neg h1]
    by_cases h2 : f.frame.id < n.frame.id
    · rw [if_pos h2]
      refine ⟨_, rfl, ?_, ?_, fun x hx => List.mem_cons_of_mem _ hx, f, List.mem_cons_self .., rfl⟩
      · refine List.Pairwise.cons ?_ hs
        intro x hx
        cases hx with
        | head => exact h2
        | tail _ hx => exact Nat.lt_trans h2 (List.rel_of_pairwise_cons hs hx)
      · intro x hx
        cases hx with
        | head => exact Or.inl rfl
        | tail _ hx => exact Or.inr hx
    rw [if_neg h2]
    have h3 : ¬ n.frame.id < max := by have := hm n (List.mem_cons_self ..); omega
    rw [if_neg h3]
    obtain ⟨l', e, s, m1, m2, x, hx, hid⟩ := ih n.frame.id (List.Pairwise.of_cons hs) (fun x hx => Nat.le_of_lt (List.rel_of_pairwise_cons hs hx))
    rw [e]
    refine ⟨n :: l', rfl, ?_, ?_, ?_, x, List.mem_cons_of_mem _ hx, hid⟩
    · refine List.Pairwise.cons ?_ s
      intro y hy
      cases m1 y hy with
      | inl h => subst h; omega
      | inr h => exact List.rel_of_pairwise_cons hs h
    · intro y hy
      cases hy with
      | head => exact Or.inr (List.mem_cons_self ..)
      | tail _ hy =>
        cases m1 y hy with
        | inl h => exact Or.inl h
        | inr h => exact Or.inr (List.mem_cons_of_mem _ h)
    · intro y hy
      cases hy with
      | head => exact List.mem_cons_self ..
      | tail _ hy => exact List.mem_cons_of_mem _ (m2 y hy)

theorem insert_spec (f : RFrame) (l : List RFrame) (hs : Sorted l) :
    ∃ l', insert f l = some l' ∧ Sorted l' ∧ (∀ x ∈ l', x = f ∨ x ∈ l) ∧ (∀ x ∈ l, x ∈ l') ∧ Has l' f.frame.id := by
  unfold insert
  have base := insertLoop_spec f 0 l hs (fun x _ => Nat.zero_le _)
  rcases List.eq_nil_or_concat l with h | ⟨a, x, h⟩
  · subst h; exact base
  · rw [List.concat_eq_append] at h
    rw [h] at base hs ⊢
    rw [List.getLast?_append]
    simp only [List.getLast?_singleton, Option.some_or]
    by_cases h1 : f.frame.id > x.frame.id
    · rw [if_pos h1]
      refine ⟨_, rfl, ?_, ?_, fun y hy => List.mem_append_left _ hy, f, by simp, rfl⟩
      · refine List.pairwise_append.mpr ⟨hs, List.pairwise_singleton .., ?_⟩
        intro y hy z hz
        rw [List.mem_singleton] at hz
        subst hz
        rcases List.mem_append.mp hy with h2 | h2
        · have := (List.pairwise_append.mp hs).2.2 y h2 x (List.mem_singleton.mpr rfl)
          omega
        · rw [List.mem_singleton] at h2; subst h2; exact h1
      · intro y hy
        rcases List.mem_append.mp hy with h2 | h2
        · exact Or.inr h2
        · exact Or.inl (List.mem_singleton.mp h2)
    · rw [if_neg h1]; exact base

/-! ## Acknowledgements -/

theorem ackLoop_frames (prev first last : Nat) (l : List RFrame) : (ackLoop prev first last l).2.1.map (·.frame) = l.map (·.frame) := by
  induction l generalizing first last with
  | nil => rfl
  | cons n r ih =>
    unfold ackLoop
    split
    · simp only [List.map_cons]; rw [ih]
    · split
      · simp only [List.map_cons]; rw [ih]
      · split
        · rename_i h; rw [List.isEmpty_iff] at h; subst h
          split <;> rfl
        · simp only [List.map_cons]; rw [ih]

/-- What is acknowledged was received, if what came before was. -/
theorem ackLoop_sound (S : Nat → Prop) (prev first last : Nat) (l : List RFrame) (hs : Sorted l) (hp : S prev) (h1 : ∀ x ∈ l, 1 ≤ x.frame.id)
    (hl : ∀ x ∈ l, last < x.frame.id) (hS : ∀ x ∈ l, S x.frame.id)
    (hr : (first = 0 ∧ last = 0) ∨ (first ≠ 0 ∧ first ≤ last ∧ ∀ i, first ≤ i → i ≤ last → S i)) :
    ∀ p ∈ (ackLoop prev first last l).1, ∀ i, p.1 ≤ i → i ≤ p.2 → S i := by
  induction l generalizing first last with
  | nil => intro p hp; cases hp
  | cons n r ih =>
    have hn := hS n (List.mem_cons_self ..)
    have hn1 := h1 n (List.mem_cons_self ..)
    have hnl := hl n (List.mem_cons_self ..)
    have hlt : ∀ x ∈ r, n.frame.id < x.frame.id := fun x hx => List.rel_of_pairwise_cons hs hx
    have hs' := List.Pairwise.of_cons hs
    have h1' : ∀ x ∈ r, 1 ≤ x.frame.id := fun x hx => h1 x (List.mem_cons_of_mem _ hx)
    have hS' : ∀ x ∈ r, S x.frame.id := fun x hx => hS x (List.mem_cons_of_mem _ hx)
    have single : ∀ i, n.frame.id ≤ i → i ≤ n.frame.id → S i := by
      intro i a b
      have : i = n.frame.id := by omega
      subst this; exact hn
    have again := ih n.frame.id n.frame.id hs' h1' hlt hS' (Or.inr ⟨by omega, Nat.le_refl _, single⟩)
    unfold ackLoop
    split
    · intro p hpm i a b
      cases hpm with
      | head => have : i = prev := by simp only at a b; omega
                subst this; exact hp
      | tail _ h => exact again p h i a b
    · rename_i hA
      split
      · rename_i hB
        intro p hpm i a b
        cases hpm with
        | head =>
          rcases hr with ⟨e1, e2⟩ | ⟨e1, e2, e3⟩
          · exact absurd e2 hB.1
          · simp only [firstOf, if_neg e1] at a b
            exact e3 i a b
        | tail _ h => exact again p h i a b
      · rename_i hB
        -- the range up to this frame
        have range : ∀ i, firstOf first n.frame.id ≤ i → i ≤ n.frame.id → S i := by
          intro i a b
          rcases hr with ⟨e1, e2⟩ | ⟨e1, e2, e3⟩
          · rw [firstOf, if_pos e1] at a; exact single i a b
          · rw [firstOf, if_neg e1] at a
            by_cases hi : i ≤ last
            · exact e3 i a hi
            · have : i = n.frame.id := by omega
              subst this; exact hn
        split
        · split
          · intro p hpm i a b
            rw [List.mem_singleton] at hpm
            subst hpm
            exact range i a b
          · intro p hpm; cases hpm
        · refine ih _ _ hs' h1' hlt hS' (Or.inr ⟨?_, ?_, range⟩)
          · unfold firstOf; split
            · omega
            · assumption
          · unfold firstOf; split
            · exact Nat.le_refl _
            · rcases hr with ⟨e1, e2⟩ | ⟨e1, e2, e3⟩
              · exact absurd e1 (by assumption)
              · omega

theorem sendAcks_mem (adjust : Int) (w : Nat) (l : List (Nat × Nat)) : ∀ a ∈ (sendAcks adjust w l).2, (a.first, a.last) ∈ l := by
  induction l generalizing w with
  | nil => intro a ha; cases ha
  | cons p r ih =>
    intro a ha
    cases ha with
    | head => exact List.mem_cons_self ..
    | tail _ h => exact List.mem_cons_of_mem _ (ih _ a h)

/-! ## Looking for a message -/

/-- Frames which have been delivered are removed first. -/
theorem scan_skip (prev : Nat) (l : List RFrame) (hs : Sorted l) :
    ∃ old new, l = old ++ new ∧ (∀ x ∈ old, x.frame.id ≤ prev) ∧ (∀ x ∈ new, prev < x.frame.id) ∧ scan prev 0 0 l = scan prev 0 0 new := by
  induction l with
  | nil => exact ⟨[], [], rfl, (fun x h => by cases h), (fun x h => by cases h), rfl⟩
  | cons n r ih =>
    by_cases h : n.frame.id > prev
    · refine ⟨[], n :: r, rfl, (fun x h => by cases h), ?_, rfl⟩
      intro x hx
      cases hx with
      | head => exact h
      | tail _ hx => have := List.rel_of_pairwise_cons hs hx; omega
    · obtain ⟨old, new, e, h1, h2, h3⟩ := ih (List.Pairwise.of_cons hs)
      refine ⟨n :: old, new, by rw [e]; rfl, ?_, h2, ?_⟩
      · intro x hx
        cases hx with
        | head => omega
        | tail _ hx => exact h1 x hx
      · rw [← h3]
        show scan prev 0 0 (n :: r) = _
        rw [scan, if_neg h, if_neg (by simp)]

/-- If a message is found then it is made of the frames which follow, up to the first boundary. -/
theorem scan_new (F : List Frame) (prev count size : Nat) (l : List RFrame) (hs : Sorted l) (hat : ∀ x ∈ l, At F x.frame) (hlt : ∀ x ∈ l, prev + count < x.frame.id) :
    ∃ r, scan prev count size l = some (l, r) ∧
      ∀ n, r = some n → ∃ j, n = count + j + 1 ∧ (l.take (j + 1)).map (·.frame) = (F.drop (prev + count)).take (j + 1) ∧
        (((F.drop (prev + count)).take (j + 1)).map (·.boundary) = List.replicate j false ++ [true]) := by
  induction l generalizing count size with
  | nil => exact ⟨none, rfl, fun n h => nomatch h⟩
  | cons x r ih =>
    have h1 := hlt x (List.mem_cons_self ..)
    unfold scan
    rw [if_pos (by omega)]
    by_cases h2 : x.frame.id - prev > 1 + count
    · rw [if_pos h2]; exact ⟨none, rfl, fun n h => nomatch h⟩
    rw [if_neg h2]
    have hid : x.frame.id = prev + count + 1 := by omega
    have hx := (hat x (List.mem_cons_self ..)).2
    rw [hid, Nat.add_sub_cancel] at hx
    have hd : F.drop (prev + count) = x.frame :: F.drop (prev + count + 1) := by
      rw [List.getElem?_eq_some_iff] at hx
      obtain ⟨hlen, e⟩ := hx
      rw [List.drop_eq_getElem_cons hlen, e]
    by_cases h3 : x.frame.boundary = true
    · rw [if_pos h3]
      refine ⟨some (count + 1), rfl, ?_⟩
      intro n hn
      injection hn with hn
      refine ⟨0, by omega, ?_, ?_⟩
      · rw [hd]; rfl
      · rw [hd]; simp [h3]
    · rw [if_neg h3]
      obtain ⟨res, e, hres⟩ := ih (count + 1) (size + x.frame.data.length) (List.Pairwise.of_cons hs) (fun y hy => hat y (List.mem_cons_of_mem _ hy))
        (fun y hy => by have := List.rel_of_pairwise_cons hs hy; omega)
      rw [e]
      refine ⟨res, rfl, ?_⟩
      intro n hn
      obtain ⟨j, e1, e2, e3⟩ := hres n hn
      refine ⟨j + 1, by omega, ?_, ?_⟩
      · rw [hd, List.take_succ_cons, List.take_succ_cons, List.map_cons, e2]; rfl
      · rw [hd, List.take_succ_cons, List.map_cons]
        rw [show prev + (count + 1) = prev + count + 1 by omega] at e3
        rw [e3]
        have : x.frame.boundary = false := by simpa using h3
        rw [this]; simp [List.replicate_succ]

/-- If nothing is found although all frames are there, then no boundary follows. -/
theorem scan_none (F : List Frame) (prev count size : Nat) (l : List RFrame) (hs : Sorted l) (hat : ∀ x ∈ l, At F x.frame) (hlt : ∀ x ∈ l, prev + count < x.frame.id)
    (hall : ∀ i, prev + count < i → i ≤ F.length → Has l i) (b : List RFrame) (h : scan prev count size l = some (b, none)) :
    ∀ f ∈ F.drop (prev + count), f.boundary = false := by
  induction l generalizing count size b with
  | nil =>
    intro f hf
    have hlen : prev + count < F.length := by
      have := List.length_pos_of_mem hf
      rw [List.length_drop] at this
      omega
    obtain ⟨x, hx, _⟩ := hall (prev + count + 1) (by omega) (by omega)
    cases hx
  | cons x r ih =>
    have h1 := hlt x (List.mem_cons_self ..)
    have hle := (hat x (List.mem_cons_self ..)).le
    have hid : x.frame.id = prev + count + 1 := by
      obtain ⟨y, hy, e⟩ := hall (prev + count + 1) (by omega) (by omega)
      cases hy with
      | head => exact e
      | tail _ hy => have := List.rel_of_pairwise_cons hs hy; omega
    have hx := (hat x (List.mem_cons_self ..)).2
    rw [hid, Nat.add_sub_cancel] at hx
    have hd : F.drop (prev + count) = x.frame :: F.drop (prev + count + 1) := by
      rw [List.getElem?_eq_some_iff] at hx
      obtain ⟨hlen, e⟩ := hx
      rw [List.drop_eq_getElem_cons hlen, e]
    unfold scan at h
    rw [if_pos (by omega), if_neg (by omega)] at h
    by_cases h3 : x.frame.boundary = true
    · rw [if_pos h3] at h; injection h with h; injection h with _ h; cases h
    · rw [if_neg h3, Option.map_eq_some_iff] at h
      obtain ⟨⟨b', r'⟩, e, e2⟩ := h
      injection e2 with _ e2
      simp only at e2
      subst e2
      have := ih (count + 1) (size + x.frame.data.length) (List.Pairwise.of_cons hs) (fun y hy => hat y (List.mem_cons_of_mem _ hy))
        (fun y hy => by have := List.rel_of_pairwise_cons hs hy; omega)
        (by
          intro i hi hl
          obtain ⟨y, hy, e⟩ := hall i (by omega) hl
          cases hy with
          | head => omega
          | tail _ hy => exact ⟨y, hy, e⟩) b' e
      rw [hd]
      intro f hf
      cases hf with
      | head => simpa using h3
      | tail _ hf => exact this f (by rw [show prev + (count + 1) = prev + count + 1 by omega]; exact hf)

/-! ## The send buffer -/

theorem sendLoop_frames (now window missing sent : Nat) (l : List Entry) : (sendLoop now window missing sent l).1.map (·.frame) = l.map (·.frame) := by
  induction l generalizing missing sent with
  | nil => rfl
  | cons e r ih =>
    unfold sendLoop
    extract_lets missing' doSend
    split
    · split
      · rfl
      · simp only [List.map_cons]; rw [ih]
    · simp only [List.map_cons]; rw [ih]

theorem sendLoop_sent (now window missing sent : Nat) (l : List Entry) : ∀ f ∈ (sendLoop now window missing sent l).2.1, f ∈ l.map (·.frame) := by
  induction l generalizing missing sent with
  | nil => intro f hf; cases hf
  | cons e r ih =>
    intro f hf
    unfold sendLoop at hf
    extract_lets missing' doSend at hf
    split at hf
    · split at hf
      · rw [List.mem_singleton] at hf; subst hf; exact List.mem_cons_self ..
      · cases hf with
        | head => exact List.mem_cons_self ..
        | tail _ h => exact List.mem_cons_of_mem _ (ih _ _ f h)
    · exact List.mem_cons_of_mem _ (ih _ _ f hf)

theorem ackFrames_sent (a : Ack) (nag : Option Nat) (now : Nat) (l : List Entry) : ∀ f ∈ (ackFrames a nag now l).2, f ∈ l.map (·.frame) := by
  induction l with
  | nil => intro f hf; cases hf
  | cons e r ih =>
    intro f hf
    unfold ackFrames at hf
    split at hf
    · exact List.mem_cons_of_mem _ (ih f hf)
    · split at hf
      · cases hf with
        | head => exact List.mem_cons_self ..
        | tail _ h => exact List.mem_cons_of_mem _ (ih f h)
      · exact List.mem_cons_of_mem _ (ih f hf)

/-- Only what is acknowledged is taken out of the send buffer. -/
theorem ackFrames_frames (a : Ack) (nag : Option Nat) (now : Nat) (l : List Entry) :
    (ackFrames a nag now l).1.map (·.frame) = (l.map (·.frame)).filter (fun f => !(decide (f.id ≥ a.first ∧ f.id ≤ a.last))) := by
  induction l with
  | nil => rfl
  | cons e r ih =>
    unfold ackFrames
    split
    · rename_i h
      rw [ih, List.map_cons, List.filter_cons_of_neg (by simpa using h)]
    · rename_i h
      have hf : (fun f : Frame => !(decide (f.id ≥ a.first ∧ f.id ≤ a.last))) e.frame = true := by
        show (!(decide (e.frame.id ≥ a.first ∧ e.frame.id ≤ a.last))) = true
        rw [decide_eq_false h]; rfl
      split <;> (rw [List.map_cons, List.map_cons, ih]; exact (List.filter_cons_of_pos (p := fun f : Frame => !(decide (f.id ≥ a.first ∧ f.id ≤ a.last))) hf).symm)

end Verif.Udpstream
