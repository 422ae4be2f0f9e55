import Verif.ArrayDef.Nodes
import Verif.Condition.Accepted
/-! # Whole definitions -/
namespace Verif.ArrayDef
open ArrayTree Types ArrayTree.Spec ArrayDef.Spec
open Verif.Condition (Parsed)

theorem matchWord_some {w s r : Bytes} : Parse.matchWord w s = some r ↔ s = w ++ r := by
  unfold Parse.matchWord
  constructor
  · intro h
    split at h
    · rename_i hp
      obtain ⟨x, rfl⟩ := List.isPrefixOf_iff_prefix.mp hp
      cases h
      simp
    · cases h
  · rintro rfl
    rw [if_pos (List.isPrefixOf_iff_prefix.mpr ⟨r, rfl⟩)]
    simp

theorem matchWord_none {w s : Bytes} : Parse.matchWord w s = none ↔ ¬ w <+: s := by
  unfold Parse.matchWord
  rw [← List.isPrefixOf_iff_prefix]
  split <;> simp_all

theorem text_tail {N : Numbers} {t : Tree} {s s' r : Bytes} (h : Tail s s') (ht : Text N t s' r) : Text N t s r := by
  rcases h with rfl | rfl
  · exact ht
  · exact text_of_ig ht

theorem tail_text {N : Numbers} {t : Tree} {s s' r : Bytes} (h : Tail s s') (ht : Text N t s r) : Text N t s' r := by
  rcases h with rfl | rfl
  · exact ht
  · exact text_ig ht

theorem nogap : Gap [] := by intro c hc; cases hc
theorem noblank : Blank [] := by intro c hc; cases hc

/-! ## The equations -/

theorem tree_nil {F : Nat} {s : Bytes} (h : ig s = []) : tree (F + 1) s = .soft := by
  rw [tree.eq_def]; simp only; rw [show Parse.ignoreSpaces s = [] from h]

theorem tree_semi {F : Nat} {s t : Bytes} (h : ig s = 59 :: t) : tree (F + 1) s = .ok (.nil, t) := by
  rw [tree.eq_def]; simp only; rw [show Parse.ignoreSpaces s = 59 :: t from h]; simp

theorem tree_cons {F : Nat} {s t : Bytes} {c : UInt8} (h : ig s = c :: t) (hc : c ≠ 59) : tree (F + 1) s =
    match Parse.matchWord kwIf (ig s) with
    | some r => bind (arm F r) fun x => after F s.length x.2 (.cond x.1)
    | none =>
      match Parse.matchWord kwRewind (ig s) with
      | some r => bind (rewindCount r) fun x => after F s.length x.2 (.rewind x.1)
      | none => after F s.length (ig s) id := by
  rw [tree.eq_def]; simp only; rw [show Parse.ignoreSpaces s = c :: t from h, h]; simp only; rw [if_neg hc]
  cases Parse.matchWord kwIf (c :: t) with
  | some r => rfl
  | none =>
    cases Parse.matchWord kwRewind (c :: t) with
    | some r => rfl
    | none => rfl

/-- The four ways a definition can go on. -/
theorem tree_cases (s : Bytes) :
    (ig s = []) ∨ (∃ t, ig s = 59 :: t) ∨ (∃ u, ig s = wIf ++ u) ∨ (∃ u, ig s = wRewind ++ u) ∨
    (∃ c t, ig s = c :: t ∧ c ≠ 59 ∧ ¬ wIf <+: ig s ∧ ¬ wRewind <+: ig s) := by
  cases h : ig s with
  | nil => exact Or.inl rfl
  | cons c t =>
    by_cases hc : c = 59
    · subst hc; exact Or.inr (Or.inl ⟨t, rfl⟩)
    · by_cases h1 : wIf <+: (c :: t)
      · obtain ⟨u, hu⟩ := h1
        exact Or.inr (Or.inr (Or.inl ⟨u, hu.symm⟩))
      · by_cases h2 : wRewind <+: (c :: t)
        · obtain ⟨u, hu⟩ := h2
          exact Or.inr (Or.inr (Or.inr (Or.inl ⟨u, hu.symm⟩)))
        · exact Or.inr (Or.inr (Or.inr (Or.inr ⟨c, t, rfl, hc, h1, h2⟩)))

theorem tree_if {F : Nat} {s u : Bytes} (h : ig s = wIf ++ u) : tree (F + 1) s = bind (arm F u) fun x => after F s.length x.2 (.cond x.1) := by
  rw [tree_cons (c := 73) (t := 70 :: u) (by rw [h]; rfl) (by decide), show Parse.matchWord kwIf (ig s) = some u from matchWord_some.mpr h]

theorem tree_rewind {F : Nat} {s u : Bytes} (h : ig s = wRewind ++ u) : tree (F + 1) s = bind (rewindCount u) fun x => after F s.length x.2 (.rewind x.1) := by
  rw [tree_cons (c := 82) (t := [69, 87, 73, 78, 68] ++ u) (by rw [h]; rfl) (by decide),
    show Parse.matchWord kwIf (ig s) = none from matchWord_none.mpr (by rw [h]; rintro ⟨x, hx⟩; simp [wRewind, kwIf] at hx),
    show Parse.matchWord kwRewind (ig s) = some u from matchWord_some.mpr h]

theorem tree_plain {F : Nat} {s t : Bytes} {c : UInt8} (h : ig s = c :: t) (hc : c ≠ 59) (h1 : ¬ wIf <+: ig s) (h2 : ¬ wRewind <+: ig s) :
    tree (F + 1) s = after F s.length (ig s) id := by
  rw [tree_cons h hc, show Parse.matchWord kwIf (ig s) = none from matchWord_none.mpr h1, show Parse.matchWord kwRewind (ig s) = none from matchWord_none.mpr h2]

theorem after_eq (F start : Nat) (s : Bytes) (f : Tree → Tree) : after (F + 1) start s f =
    bind (node (s.length + 1) s) fun x =>
    if x.1 then .ok (f (withFields x.2.1 .nil), x.2.2)
    else if x.2.2.length = start then .soft
    else bind (tree F x.2.2) fun y => .ok (f (withFields x.2.1 y.1), y.2) := by
  rw [after]

theorem arm_eq (F : Nat) (s : Bytes) : arm (F + 1) s =
    bind (Condition.interpret s) fun c =>
    bind (tree F c.2) fun t =>
    bind (more F t.2) fun x => .ok (.arm c.1 t.1 x.1, x.2) := by
  rw [arm]

theorem more_elsif {F : Nat} {s u : Bytes} (h : ig s = wElsif ++ u) : more (F + 1) s = arm F u := by
  rw [more.eq_def]; simp only; rw [show Parse.matchWord kwElsif (Parse.ignoreSpaces s) = some u from matchWord_some.mpr h]

theorem more_else {F : Nat} {s u : Bytes} (h : ig s = wElse ++ u) : more (F + 1) s = bind (tree F u) fun t => .ok (.els t.1, t.2) := by
  rw [more.eq_def]; simp only
  rw [show Parse.matchWord kwElsif (Parse.ignoreSpaces s) = none from matchWord_none.mpr (by
      rw [show Parse.ignoreSpaces s = wElse ++ u from h]; rintro ⟨x, hx⟩; simp [wElse, kwElsif] at hx),
    show Parse.matchWord kwElse (Parse.ignoreSpaces s) = some u from matchWord_some.mpr h]

theorem more_none {F : Nat} {s : Bytes} (h1 : ¬ wElsif <+: ig s) (h2 : ¬ wElse <+: ig s) : more (F + 1) s = .ok (.none, ig s) := by
  rw [more.eq_def]; simp only
  rw [show Parse.matchWord kwElsif (Parse.ignoreSpaces s) = none from matchWord_none.mpr h1,
    show Parse.matchWord kwElse (Parse.ignoreSpaces s) = none from matchWord_none.mpr h2]

theorem more_cases (s : Bytes) : (∃ u, ig s = wElsif ++ u) ∨ (∃ u, ig s = wElse ++ u) ∨ (¬ wElsif <+: ig s ∧ ¬ wElse <+: ig s) := by
  by_cases h1 : wElsif <+: ig s
  · obtain ⟨u, hu⟩ := h1; exact Or.inl ⟨u, hu.symm⟩
  · by_cases h2 : wElse <+: ig s
    · obtain ⟨u, hu⟩ := h2; exact Or.inr (Or.inl ⟨u, hu.symm⟩)
    · exact Or.inr (Or.inr ⟨h1, h2⟩)

/-! ## What is accepted -/

def TreeSound (F : Nat) : Prop := ∀ s t r', tree F s = .ok (t, r') → ∃ r, Text Loose t s r ∧ Tail r r'

def ArmSound (F : Nat) : Prop := ∀ s bs r', arm F s = .ok (bs, r') →
  ∃ c t more v w r, bs = .arm c t more ∧ Condition.interpret s = .ok (c, v) ∧ Text Loose t v w ∧ Blocks Loose false more w r ∧ Tail r r'

def MoreSound (F : Nat) : Prop := ∀ s bs r', more F s = .ok (bs, r') → ∀ w, ig s = ig w → ∃ r, Blocks Loose false bs w r ∧ Tail r r'

theorem after_sound {F start : Nat} (hF : TreeSound F) {s r' : Bytes} {f : Tree → Tree} {t : Tree} (h : after (F + 1) start s f = .ok (t, r')) :
    ∃ t0 r, t = f t0 ∧ Text Loose t0 s r ∧ Tail r r' := by
  rw [after_eq, bind_ok] at h
  obtain ⟨⟨semi, fs, s3⟩, h1, h2⟩ := h
  obtain ⟨n1, n2⟩ := node_sound _ _ _ _ _ h1
  cases semi with
  | true =>
    rw [if_pos rfl] at h2
    cases h2
    obtain ⟨r, hr, h3⟩ := n1 rfl
    exact ⟨_, r, rfl, hr, Or.inr h3⟩
  | false =>
    simp only [Bool.false_eq_true, if_false] at h2
    by_cases hl : s3.length = start
    · rw [if_pos hl] at h2; cases h2
    · rw [if_neg hl, bind_ok] at h2
      obtain ⟨⟨t1, r1⟩, h3, h4⟩ := h2
      cases h4
      obtain ⟨r, hr, ht⟩ := hF _ _ _ h3
      exact ⟨_, r, rfl, (n2 rfl).2 _ _ hr, ht⟩

theorem tree_sound_succ {F : Nat} (hT : ∀ G, G < F → TreeSound G) (hA : ArmSound F) : TreeSound (F + 1) := by
  intro s t r' h
  have aft : ∀ {start u f t r'}, after F start u f = .ok (t, r') → ∃ t0 r, t = f t0 ∧ Text Loose t0 u r ∧ Tail r r' := by
    intro start u f t r' h
    cases F with
    | zero => rw [after] at h; cases h
    | succ F => exact after_sound (hT F (by omega)) h
  obtain ⟨sp, k1, k2, _⟩ := ig_split s
  rcases tree_cases s with h1 | ⟨x, h1⟩ | ⟨u, h1⟩ | ⟨u, h1⟩ | ⟨c, x, h1, h2, h3, h4⟩
  · rw [tree_nil h1] at h; cases h
  · rw [tree_semi h1] at h
    cases h
    exact ⟨r', text_semi_of h1, Or.inl rfl⟩
  · rw [tree_if h1, bind_ok] at h
    obtain ⟨⟨bs, r1⟩, h2, h3⟩ := h
    obtain ⟨c, t1, mo, v, w, r2, rfl, g1, g2, g3, g4⟩ := hA _ _ _ h2
    obtain ⟨t0, r, rfl, h5, h6⟩ := aft h3
    refine ⟨r, ⟨sp, wIf ++ u, r2, blank_gap k2, by rw [← h1]; exact k1, ?_, text_tail g4 h5⟩, h6⟩
    exact ⟨[], u, v, w, noblank, fun _ => rfl, rfl, g1, g2, g3⟩
  · rw [tree_rewind h1, bind_ok] at h
    obtain ⟨⟨n, r1⟩, h2, h3⟩ := h
    obtain ⟨sp', ds, rfl, g1, g2, g3, g4, _⟩ := (rewindCount_iff _ _ _).mp h2
    obtain ⟨t0, r, rfl, h5, h6⟩ := aft h3
    exact ⟨r, ⟨sp, sp', ds, r1, blank_gap k2, by rw [← h1]; exact k1, g1, g2, g3, g4, h5⟩, h6⟩
  · rw [tree_plain h1 h2 h3 h4] at h
    obtain ⟨t0, r, rfl, h5, h6⟩ := aft h
    exact ⟨r, text_of_ig h5, h6⟩

theorem arm_sound_succ {F : Nat} (hT : TreeSound F) (hM : MoreSound F) : ArmSound (F + 1) := by
  intro s bs r' h
  rw [arm_eq, bind_ok] at h
  obtain ⟨⟨c, v⟩, h1, h⟩ := h
  rw [bind_ok] at h
  obtain ⟨⟨t, w'⟩, h2, h⟩ := h
  rw [bind_ok] at h
  obtain ⟨⟨mo, r1⟩, h3, h⟩ := h
  cases h
  obtain ⟨w, g1, g2⟩ := hT _ _ _ h2
  obtain ⟨r, g3, g4⟩ := hM _ _ _ h3 w (tail_ig g2)
  exact ⟨c, t, mo, v, w, r, rfl, h1, g1, g3, g4⟩

theorem more_sound_succ {F : Nat} (hT : TreeSound F) (hA : ArmSound F) : MoreSound (F + 1) := by
  intro s bs r' h w hw
  obtain ⟨sp, k1, k2, _⟩ := ig_split w
  rcases more_cases s with ⟨u, h1⟩ | ⟨u, h1⟩ | ⟨h1, h2⟩
  · rw [more_elsif h1] at h
    obtain ⟨c, t1, mo, v, w1, r2, rfl, g1, g2, g3, g4⟩ := hA _ _ _ h
    exact ⟨r2, ⟨sp, u, v, w1, k2, by simp, by rw [← hw, h1] at k1; exact k1, g1, g2, g3⟩, g4⟩
  · rw [more_else h1, bind_ok] at h
    obtain ⟨⟨t, r1⟩, h2, h⟩ := h
    cases h
    obtain ⟨r, g1, g2⟩ := hT _ _ _ h2
    exact ⟨r, ⟨rfl, sp, u, k2, by rw [← hw, h1] at k1; exact k1, g1⟩, g2⟩
  · rw [more_none h1 h2] at h
    cases h
    exact ⟨w, ⟨rfl, rfl⟩, Or.inr hw⟩

theorem sound_all : ∀ F, TreeSound F ∧ ArmSound F ∧ MoreSound F := by
  intro F
  induction F using Nat.strongRecOn with
  | ind F ih =>
    cases F with
    | zero =>
      refine ⟨fun s t r' h => ?_, fun s t r' h => ?_, fun s t r' h => ?_⟩
      · rw [tree] at h; cases h
      · rw [arm] at h; cases h
      · rw [more] at h; cases h
    | succ F =>
      obtain ⟨h1, h2, h3⟩ := ih F (by omega)
      exact ⟨tree_sound_succ (fun G hG => (ih G (by omega)).1) h2, arm_sound_succ h1 h3, more_sound_succ h1 h2⟩

/-! ## What is read -/

def TreeComplete (n : Nat) : Prop := ∀ s t r F, s.length < n → Text Loose t s r → 2 * s.length + 2 ≤ F → ∃ r', tree F s = .ok (t, r') ∧ Tail r r'

theorem after_complete {start F : Nat} (hT : TreeComplete start) {s r : Bytes} {t : Tree} (f : Tree → Tree) (hl : s.length ≤ start) (h : Text Loose t s r)
    (hk : (keyword s = false ∧ 2 * s.length + 1 ≤ F) ∨ (s.length < start ∧ 2 * s.length + 3 ≤ F)) : ∃ r', after F start s f = .ok (f t, r') ∧ Tail r r' := by
  cases F with
  | zero => exfalso; omega
  | succ F =>
    obtain ⟨semi, fs, s3, h1, h2, h3⟩ := node_complete (s.length + 1) s r t h (Nat.le_refl _)
    cases semi with
    | true =>
      obtain ⟨rfl, rfl⟩ := h2 rfl
      exact ⟨ig r, by rw [after_eq, h1]; rfl, Or.inr rfl⟩
    | false =>
      obtain ⟨t', rfl, g1, g2, g3⟩ := h3 rfl
      have hs3 : s3.length < start ∧ 2 * s3.length + 2 ≤ F := by
        rcases g3 with g3 | g3
        · omega
        · rcases hk with ⟨hk, _⟩ | hk
          · rw [hk] at g3; cases g3
          · omega
      obtain ⟨r', q1, q2⟩ := hT s3 t' r F hs3.1 g1 hs3.2
      refine ⟨r', ?_, q2⟩
      rw [after_eq, h1]
      simp only [bind]
      rw [if_neg (by simp), if_neg (by omega), q1]

theorem more_complete {n : Nat} (hT : TreeComplete n) : ∀ F bs w w' r, w.length < n → ig w' = ig w → w'.length ≤ w.length → Blocks Loose false bs w r → (∃ t q, Text Loose t r q) →
    2 * w.length + 1 ≤ F → ∃ r', more F w' = .ok (bs, r') ∧ Tail r r' := by
  intro F
  induction F using Nat.strongRecOn with
  | ind F ih =>
    intro bs w w' r hn hw hwl hb hq hF
    cases F with
    | zero => exfalso; omega
    | succ F =>
      cases bs with
      | none =>
        obtain ⟨_, rfl⟩ := hb
        obtain ⟨t, q, hq⟩ := hq
        obtain ⟨c, x, hx, hc, _⟩ := text_head (text_ig hq)
        rw [more_none, hw]
        · exact ⟨ig w, rfl, Or.inr rfl⟩
        · rw [hw, hx]; rintro ⟨y, hy⟩; simp [wElsif] at hy; exact hc hy.1.symm
        · rw [hw, hx]; rintro ⟨y, hy⟩; simp [wElse] at hy; exact hc hy.1.symm
      | els t =>
        obtain ⟨_, sp, u, h1, rfl, h2⟩ := hb
        rw [ig_of h1 (by intro c hc; simp [wElse] at hc; subst hc; decide)] at hw
        have hl : u.length + 4 ≤ (sp ++ (wElse ++ u)).length := by simp [wElse]
        obtain ⟨r', g1, g2⟩ := hT u t r F (by omega) h2 (by omega)
        exact ⟨r', by rw [more_else hw, g1]; rfl, g2⟩
      | arm c t mo =>
        obtain ⟨sp, u, v, w1, h1, _, rfl, h2, h3, h4⟩ := hb
        simp only [Bool.false_eq_true, if_false] at hw hn hF hwl
        rw [ig_of h1 (by intro c hc; simp [wElsif] at hc; subst hc; decide)] at hw
        have hl : u.length + 5 ≤ (sp ++ (wElsif ++ u)).length := by simp [wElsif]
        rw [more_elsif hw]
        cases F with
        | zero => exfalso; omega
        | succ F =>
          have hv := interpret_length h2
          have hw1 := text_length Loose t v w1 h3
          obtain ⟨w1', g1, g2⟩ := hT v t w1 F (by omega) h3 (by omega)
          obtain ⟨r', g3, g4⟩ := ih F (by omega) mo w1 w1' r (by omega) (tail_ig g2) (tail_length g2) h4 hq (by omega)
          exact ⟨r', by rw [arm_eq, h2]; simp only [bind]; rw [g1]; simp only; rw [g3], g4⟩

theorem tree_complete : ∀ n, TreeComplete n := by
  intro n
  induction n with
  | zero => intro s t r F h; omega
  | succ n ih =>
    intro s t r F hn ht hF
    have hT : TreeComplete s.length := fun s' t' r' F' h => ih s' t' r' F' (by omega)
    cases F with
    | zero => exfalso; omega
    | succ F =>
      have hti := text_ig ht
      have hlen := ig_length s
      rcases tree_cases s with h1 | ⟨x, h1⟩ | ⟨u, h1⟩ | ⟨u, h1⟩ | ⟨c, x, h1, h2, h3, h4⟩
      · rw [h1] at hti
        obtain ⟨_, _, h, _⟩ := text_head hti
        cases h
      · rw [h1] at hti
        obtain ⟨rfl, rfl⟩ := text_semi hti
        exact ⟨x, tree_semi h1, Or.inl rfl⟩
      · have hu : u.length + 2 ≤ s.length := by rw [h1] at hlen; simp [wIf] at hlen; exact hlen
        obtain ⟨bs, rest, v, rfl, hb, hrest⟩ : ∃ bs rest v, t = .cond bs rest ∧ Blocks Loose true bs (wIf ++ u) v ∧ Text Loose rest v r := by
          rw [h1] at hti
          have h73 : ¬ ((73 : UInt8) ∈ blanks ∨ (73 : UInt8) = 44) := by decide
          cases t with
          | nil =>
            obtain ⟨g, hg, he⟩ := hti
            obtain ⟨_, hy⟩ := gap_nil_of_start (x := 70 :: u) hg h73 he
            simp at hy
          | field f rest =>
            obtain ⟨g, w, v, hg, he, hw, _⟩ := hti
            obtain ⟨_, hy⟩ := gap_nil_of_start (x := 70 :: u) hg h73 he
            obtain ⟨c, x, rfl, hc, _⟩ := field_head hw
            simp at hy
            rw [hy.1] at hc
            exact absurd hc (by decide)
          | rewind m rest =>
            obtain ⟨g, sp, ds, v, hg, he, _⟩ := hti
            obtain ⟨_, hy⟩ := gap_nil_of_start (x := 70 :: u) hg h73 he
            simp [wRewind] at hy
          | cond bs rest =>
            obtain ⟨g, y, v, hg, he, hb, hr⟩ := hti
            obtain ⟨_, hy⟩ := gap_nil_of_start (x := 70 :: u) hg h73 he
            subst hy
            exact ⟨bs, rest, v, rfl, hb, hr⟩
        cases bs with
        | none => exact absurd hb.1 (by simp)
        | els t => exact absurd hb.1 (by simp)
        | arm c t mo =>
          obtain ⟨sp, u', v1, w, _, hf, he, g1, g2, g3⟩ := hb
          rw [hf rfl] at he
          simp [wIf] at he
          subst he
          have hv := interpret_length g1
          have hw := text_length Loose t v1 w g2
          have hvv := blocks_length Loose false mo w v g3
          rw [tree_if h1]
          cases F with
          | zero => exfalso; omega
          | succ F =>
            obtain ⟨w', q1, q2⟩ := hT v1 t w F (by omega) g2 (by omega)
            obtain ⟨r1, q3, q4⟩ := more_complete hT F mo w w' v (by omega) (tail_ig q2) (tail_length q2) g3 ⟨_, _, hrest⟩ (by omega)
            have hr1 := tail_length q4
            obtain ⟨r', q5, q6⟩ := after_complete (F := F + 1) hT (.cond (.arm c t mo)) (by omega) (tail_text q4 hrest) (Or.inr (by omega))
            refine ⟨r', ?_, q6⟩
            rw [arm_eq, g1]; simp only [bind]; rw [q1]; simp only; rw [q3]; simp only; exact q5
      · have hu : u.length + 6 ≤ s.length := by rw [h1] at hlen; simp [wRewind] at hlen; exact hlen
        obtain ⟨n', rest, sp, ds, v, rfl, he, h2, h3, h4, h5, hrest⟩ : ∃ n rest sp ds v, t = .rewind n rest ∧ u = sp ++ (ds ++ v) ∧ Blank sp ∧ Plain ds n ∧ ds.length ≤ 12 ∧ n < 2 ^ 32 ∧ Text Loose rest v r := by
          rw [h1] at hti
          have h82 : ¬ ((82 : UInt8) ∈ blanks ∨ (82 : UInt8) = 44) := by decide
          cases t with
          | nil =>
            obtain ⟨g, hg, he⟩ := hti
            obtain ⟨_, hy⟩ := gap_nil_of_start (x := [69, 87, 73, 78, 68] ++ u) (c := 82) hg h82 (by simpa [wRewind] using he)
            simp at hy
          | field f rest =>
            obtain ⟨g, w, v, hg, he, hw, _⟩ := hti
            obtain ⟨_, hy⟩ := gap_nil_of_start (x := [69, 87, 73, 78, 68] ++ u) (c := 82) hg h82 (by simpa [wRewind] using he)
            obtain ⟨c, x, rfl, hc, _⟩ := field_head hw
            simp at hy
            rw [hy.1] at hc
            exact absurd hc (by decide)
          | rewind m rest =>
            obtain ⟨g, sp, ds, v, hg, he, hh⟩ := hti
            obtain ⟨_, hy⟩ := gap_nil_of_start (x := [69, 87, 73, 78, 68] ++ u) (c := 82) hg h82 (by simpa [wRewind] using he)
            simp [wRewind] at hy
            exact ⟨m, rest, sp, ds, v, rfl, hy.symm, hh⟩
          | cond bs rest =>
            obtain ⟨g, y, v, hg, he, hb, hr⟩ := hti
            obtain ⟨_, hy⟩ := gap_nil_of_start (x := [69, 87, 73, 78, 68] ++ u) (c := 82) hg h82 (by simpa [wRewind] using he)
            subst hy
            cases bs with
            | none => exact absurd hb.1 (by simp)
            | els t => exact absurd hb.1 (by simp)
            | arm c t mo =>
              obtain ⟨sp, _, _, _, _, hf, he, _⟩ := hb
              rw [hf rfl] at he
              simp [wIf] at he
        have hv : v.length ≤ u.length := by rw [he]; simp; omega
        have hcount : rewindCount u = .ok (n', v) := (rewindCount_iff _ _ _).mpr ⟨sp, ds, he, h2, h3, h4, h5, by
          obtain ⟨c, x, rfl, _, hc⟩ := text_head hrest
          intro d hd
          simp at hd
          rw [← hd]
          exact hc⟩
        obtain ⟨r', q5, q6⟩ := after_complete (F := F) hT (.rewind n') (by omega) hrest (Or.inr (by omega))
        exact ⟨r', by rw [tree_rewind h1, hcount]; exact q5, q6⟩
      · rw [tree_plain h1 h2 h3 h4]
        have hk : keyword (ig s) = false := by
          cases hk : keyword (ig s) with
          | false => rfl
          | true =>
            rcases keyword_text hti hk with h | h
            · exact absurd h h3
            · exact absurd h h4
        obtain ⟨r', q5, q6⟩ := after_complete (F := F) hT id hlen hti (Or.inl ⟨hk, by omega⟩)
        exact ⟨r', q5, q6⟩

/-! ## There are always enough steps -/

def TreeEnough (n : Nat) : Prop := ∀ s F, s.length < n → 2 * s.length + 2 ≤ F → tree F s ≠ .bug

theorem tree_length {F : Nat} {s r' : Bytes} {t : Tree} (h : tree F s = .ok (t, r')) : r'.length < s.length := by
  obtain ⟨r, h1, h2⟩ := (sound_all F).1 _ _ _ h
  have := text_length Loose t s r h1
  have := tail_length h2
  omega

theorem after_enough {start F : Nat} (hT : TreeEnough start) {s : Bytes} (f : Tree → Tree) (hl : s.length ≤ start) (hF : 2 * s.length + 1 ≤ F) (hF' : s.length < start → 2 * s.length + 3 ≤ F) :
    after F start s f ≠ .bug := by
  intro h
  cases F with
  | zero => omega
  | succ F =>
    rw [after_eq] at h
    rcases bind_bug h with h | ⟨⟨semi, fs, s3⟩, h1, h⟩
    · exact node_bug _ _ (Nat.le_refl _) h
    · obtain ⟨_, n2⟩ := node_sound _ _ _ _ _ h1
      cases semi with
      | true => rw [if_pos rfl] at h; cases h
      | false =>
        have hs3 := (n2 rfl).1
        simp only [Bool.false_eq_true, if_false] at h
        by_cases he : s3.length = start
        · rw [if_pos he] at h; cases h
        · rw [if_neg he] at h
          rcases bind_bug h with h | ⟨_, _, h⟩
          · refine hT s3 F (by omega) ?_ h
            by_cases hx : s.length < start
            · have := hF' hx; omega
            · omega
          · cases h

theorem arm_more_enough {n : Nat} (hT : TreeEnough n) : ∀ F s, (s.length < n → 2 * s.length + 4 ≤ F → arm F s ≠ .bug) ∧ (s.length < n → 2 * s.length + 1 ≤ F → more F s ≠ .bug) := by
  intro F
  induction F with
  | zero => intro s; exact ⟨fun _ h => by omega, fun _ h => by omega⟩
  | succ F ih =>
    intro s
    refine ⟨fun hn hF h => ?_, fun hn hF h => ?_⟩
    · rw [arm_eq] at h
      rcases bind_bug h with h | ⟨⟨c, v⟩, h1, h⟩
      · exact (Condition.interpret_sound s).1 h
      · have := interpret_length h1
        rcases bind_bug h with h | ⟨⟨t, w⟩, h2, h⟩
        · exact hT v F (by omega) (by omega) h
        · have := tree_length h2
          simp only at this
          rcases bind_bug h with h | ⟨_, _, h⟩
          · exact (ih w).2 (by omega) (by omega) h
          · cases h
    · have hlen := ig_length s
      rcases more_cases s with ⟨u, h1⟩ | ⟨u, h1⟩ | ⟨h1, h2⟩
      · rw [h1] at hlen
        simp [wElsif] at hlen
        rw [more_elsif h1] at h
        exact (ih u).1 (by omega) (by omega) h
      · rw [h1] at hlen
        simp [wElse] at hlen
        rw [more_else h1] at h
        rcases bind_bug h with h | ⟨_, _, h⟩
        · exact hT u F (by omega) (by omega) h
        · cases h
      · rw [more_none h1 h2] at h; cases h

theorem tree_enough : ∀ n, TreeEnough n := by
  intro n
  induction n with
  | zero => intro s F h; omega
  | succ n ih =>
    intro s F hn hF h
    have hT : TreeEnough s.length := fun s' F' h => ih s' F' (by omega)
    cases F with
    | zero => omega
    | succ F =>
      have hlen := ig_length s
      rcases tree_cases s with h1 | ⟨x, h1⟩ | ⟨u, h1⟩ | ⟨u, h1⟩ | ⟨c, x, h1, h2, h3, h4⟩
      · rw [tree_nil h1] at h; cases h
      · rw [tree_semi h1] at h; cases h
      · rw [h1] at hlen
        simp [wIf] at hlen
        rw [tree_if h1] at h
        rcases bind_bug h with h | ⟨⟨bs, r1⟩, h2, h⟩
        · exact (arm_more_enough hT F u).1 (by omega) (by omega) h
        · obtain ⟨c, t, mo, v, w, r, _, g1, g2, g3, g4⟩ := (sound_all F).2.1 _ _ _ h2
          have := interpret_length g1
          have := text_length Loose t v w g2
          have := blocks_length Loose false mo w r g3
          have := tail_length g4
          exact after_enough hT _ (by simp only; omega) (by simp only; omega) (by simp only; omega) h
      · rw [h1] at hlen
        simp [wRewind] at hlen
        rw [tree_rewind h1] at h
        rcases bind_bug h with h | ⟨⟨m, r1⟩, h2, h⟩
        · exact rewindCount_bug _ h
        · obtain ⟨sp, ds, he, _⟩ := (rewindCount_iff _ _ _).mp h2
          have := congrArg List.length he
          simp at this
          exact after_enough hT _ (by simp only; omega) (by simp only; omega) (by simp only; omega) h
      · rw [tree_plain h1 h2 h3 h4] at h
        exact after_enough hT _ hlen (by omega) (by omega) h

end Verif.ArrayDef
