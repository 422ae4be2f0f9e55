import Verif.AclFile.Parts
/-! # Blocks and files -/
namespace Verif.AclFile
open Acl Topic AclFile.Spec

/-! ## Items at the start of a text -/

def kw : Item → Bytes
  | .topic _ => sTopic
  | .dflt _ => sDefault
  | .user _ _ => sUser

def TopicTail (l f : Bytes) : Prop := ∃ s1, l = s1 ++ f ∧ Blank s1 ∧ s1 ≠ [] ∧ Filter f ∧ f.head? ≠ some 32 ∧ f.head? ≠ some 9

def Tail : Item → Bytes → Prop
  | .topic f, l => TopicTail l f
  | .dflt a, l => DefaultTail l a
  | .user u a, l => UserTail l u a

theorem caps_kw (i : Item) : Caps (kw i) := by
  cases i with
  | topic _ => exact caps_topic
  | dflt _ => exact caps_default
  | user _ _ => exact caps_user

theorem kw_front (i : Item) {x : Bytes} (h : Word (kw i) x) : ∃ d u, x = d :: u ∧ Letter d := by
  cases i <;> exact word_starts (by decide) h

theorem isItem_iff {l : Bytes} {i : Item} : IsItem false l i ↔ ∃ s0 x l1, l = s0 ++ (x ++ l1) ∧ Blank s0 ∧ Word (kw i) x ∧ Tail i l1 := by
  cases i with
  | topic f =>
    constructor
    · rintro ⟨s0, w, s1, h1, h2, h3, h4, h5, h6⟩; exact ⟨s0, w, s1 ++ f, h1, h2, h3, s1, rfl, h4, h5, h6⟩
    · rintro ⟨s0, w, _, h1, h2, h3, s1, rfl, h4, h5, h6⟩; exact ⟨s0, w, s1, h1, h2, h3, h4, h5, h6⟩
  | dflt a =>
    constructor
    · rintro ⟨s0, w, s1, x, s2, h1, h2, h3, h4, h5, h6, h7⟩; exact ⟨s0, w, _, h1, h2, h3, s1, x, s2, rfl, h4, h5, h6, h7⟩
    · rintro ⟨s0, w, _, h1, h2, h3, s1, x, s2, rfl, h4, h5, h6, h7⟩; exact ⟨s0, w, s1, x, s2, h1, h2, h3, h4, h5, h6, h7⟩
  | user u a =>
    constructor
    · rintro ⟨s0, w, s1, s2, x, s3, h1, h2, h3, h4, _, h5, h6, h7, h8, h9, h10⟩; exact ⟨s0, w, _, h1, h2, h3, s1, s2, x, s3, rfl, h4, h5, h6, h7, h8, h9, h10⟩
    · rintro ⟨s0, w, _, h1, h2, h3, s1, s2, x, s3, rfl, h4, h5, h6, h7, h8, h9, h10⟩; exact ⟨s0, w, s1, s2, x, s3, h1, h2, h3, h4, by simp, h5, h6, h7, h8, h9, h10⟩

/-- A text which starts with something that is neither a space nor a comment. -/
structure Front (b : Bytes) : Prop where
  ne : ∃ c t, b = c :: t ∧ Parse.isSpaces c = false ∧ c ≠ 35

theorem front_says {b l : Bytes} {ls : List Bytes} (hf : Front b) (hb : lines b = l :: ls) (is : List Item) : S b is ↔ ∃ i rest x r l1, is = i :: rest ∧ b = x ++ r ∧ Word (kw i) x ∧ lines r = l1 :: ls ∧ Tail i l1 ∧ Says false ls rest := by
  obtain ⟨c, t, rfl, hc, h35⟩ := hf.ne
  have hnn : ¬ (c = 10 ∨ c = 13) := fun h => by rw [(isSpaces_iff c).mpr (Or.inr h)] at hc; cases hc
  have hnb : ¬ (c = 32 ∨ c = 9) := fun h => by rw [(isSpaces_iff c).mpr (Or.inl h)] at hc; cases hc
  obtain ⟨l', ls', ht⟩ := lines_ne t
  have hl := lines_char hnn ht
  rw [hl] at hb
  cases hb
  have hsk : ¬ Skip (c :: l') := by
    rintro (h | ⟨s, u, he, hs⟩)
    · exact hnb (h c (by simp))
    · cases s with
      | nil => simp at he; exact h35 he.1
      | cons d s => simp at he; rw [← he.1] at hs; exact hnb (hs c (by simp))
  show Says false (lines (c :: t)) is ↔ _
  rw [hl, says_item hsk]
  constructor
  · rintro ⟨i, rest, e, hi, hs⟩
    obtain ⟨s0, x, l1, he, h0, hx, htail⟩ := isItem_iff.mp hi
    have : s0 = [] := by
      cases s0 with
      | nil => rfl
      | cons d s => simp at he; rw [← he.1] at h0; exact absurd (h0 c (by simp)) hnb
    subst this
    rw [List.nil_append] at he
    rw [he] at hl
    obtain ⟨r, hr1, hr2⟩ := lines_split x _ _ _ hl
    exact ⟨i, rest, x, r, l1, e, hr1, hx, hr2, htail, hs⟩
  · rintro ⟨i, rest, x, r, l1, e, hr1, hx, hr2, htail, hs⟩
    refine ⟨i, rest, e, isItem_iff.mpr ⟨[], x, l1, ?_, by simp [Blank], hx, htail⟩, hs⟩
    have := lines_append (fun c hc => letter_not_newline c (word_letters (caps_kw i) hx c hc)) hr2
    rw [← hr1, hl] at this
    rw [List.nil_append]
    exact (List.cons.inj this).1

theorem front_comments {b : Bytes} {c : UInt8} {t : Bytes} (h : spacesComments (b.length + 1) b = c :: t) : Front (c :: t) :=
  ⟨c, t, rfl, (spacesComments_spec _ b (by omega)).2.2 c t h⟩

/-- Only one keyword is at the start. -/
theorem word_same {i j : Item} {x y r q : Bytes} (hx : Word (kw i) x) (hy : Word (kw j) y) (h : x ++ r = y ++ q) : kw i = kw j ∧ x = y ∧ r = q := by
  have hk : kw i = kw j := by
    cases i <;> cases j <;> first | rfl | (exfalso; have := word_first (by decide) (by decide) hx hy h; revert this; decide)
  have hlen : x.length = y.length := by rw [word_length hx, word_length hy, hk]
  have := List.append_inj h hlen
  exact ⟨hk, this.1, this.2⟩

/-! ## The lines of a block -/

/-- No `TOPIC`, and at most one `DEFAULT`, none if it is set already. -/
def BodyOk : Bool → List Item → Prop
  | _, [] => True
  | set, .dflt _ :: t => set = false ∧ BodyOk true t
  | set, .user _ _ :: t => BodyOk set t
  | _, .topic _ :: _ => False

def applyAll (e : Entry) : List Item → Entry
  | [] => e
  | .dflt a :: t => applyAll { e with defaultAction := a } t
  | .user u a :: t => applyAll { e with users := e.users ++ [⟨u, a⟩] } t
  | .topic _ :: t => applyAll e t

theorem matchDefault {b r : Bytes} : matchCase wDefault b = some r ↔ ∃ x, b = x ++ r ∧ Word (kw (.dflt .deny)) x := matchCase_iff caps_default b r
theorem matchUser {b r : Bytes} : matchCase wUser b = some r ↔ ∃ x, b = x ++ r ∧ Word (kw (.user [] .deny)) x := matchCase_iff caps_user b r
theorem matchTopic {b r : Bytes} : matchCase wTopic b = some r ↔ ∃ x, b = x ++ r ∧ Word (kw (.topic [])) x := matchCase_iff caps_topic b r

theorem body_sound : ∀ (k : Nat) (e e' : Entry) (set : Bool) (b r : Bytes), body k e set b = .ok (e', r) → ∃ L, BodyOk set L ∧ e' = applyAll e L ∧ r <:+ b ∧ ∀ is, S r is → S b (L ++ is) := by
  intro k
  induction k with
  | zero => intro e e' set b r h; simp [body] at h
  | succ k ih =>
    intro e e' set b r h
    rw [body] at h
    split at h
    · rename_i hb
      cases h
      exact ⟨[], trivial, rfl, List.nil_suffix, fun is hs => by rw [hb]; exact hs⟩
    · obtain ⟨c1, c2, _⟩ := spacesComments_spec (b.length + 1) b (by omega)
      split at h
      · rename_i hsc
        cases h
        exact ⟨[], trivial, rfl, List.nil_suffix, fun is hs => by rw [← c1, hsc]; exact hs⟩
      · rename_i c t hsc
        have hf := front_comments hsc
        rw [hsc] at c1 c2
        obtain ⟨l, ls, hl⟩ := lines_ne (c :: t)
        have hfs := front_says hf hl
        split at h
        · rename_i q hm
          obtain ⟨x, hx, hw⟩ := matchDefault.mp hm
          split at h
          · cases h
          · rename_i hset
            obtain ⟨⟨a, q'⟩, h1, h2⟩ := bind_ok.mp h
            simp only at h2
            obtain ⟨l1, ls1, hq⟩ := lines_ne q
            obtain ⟨k1, k2, k3⟩ := (keywordDefault_spec hq).2 a q' h1
            have hls := lines_append (fun c hc => letter_not_newline c (word_letters caps_default hw c hc)) hq
            rw [← hx, hl] at hls
            have hls' : ls = ls1 := (List.cons.inj hls).2
            subst hls'
            obtain ⟨L, g1, g2, g3, g4⟩ := ih _ _ _ _ _ h2
            refine ⟨.dflt a :: L, ⟨by simpa using hset, g1⟩, g2, g3.trans (k2.trans ((show q <:+ c :: t from ⟨x, hx.symm⟩).trans c2)), fun is hs => ?_⟩
            rw [← c1, hfs]
            exact ⟨.dflt a, L ++ is, x, q, l1, rfl, hx, hw, hq, k1, (k3 _).mp (g4 is hs)⟩
        · split at h
          · rename_i q hm
            obtain ⟨x, hx, hw⟩ := matchUser.mp hm
            obtain ⟨⟨⟨u, a⟩, q'⟩, h1, h2⟩ := bind_ok.mp h
            simp only at h2
            obtain ⟨l1, ls1, hq⟩ := lines_ne q
            obtain ⟨k1, k2, k3⟩ := (keywordUser_spec hq).2 u a q' h1
            have hls := lines_append (fun c hc => letter_not_newline c (word_letters caps_user hw c hc)) hq
            rw [← hx, hl] at hls
            have hls' : ls = ls1 := (List.cons.inj hls).2
            subst hls'
            obtain ⟨L, g1, g2, g3, g4⟩ := ih _ _ _ _ _ h2
            refine ⟨.user u a :: L, g1, g2, g3.trans (k2.trans ((show q <:+ c :: t from ⟨x, hx.symm⟩).trans c2)), fun is hs => ?_⟩
            rw [← c1, hfs]
            exact ⟨.user u a, L ++ is, x, q, l1, rfl, hx, hw, hq, k1, (k3 _).mp (g4 is hs)⟩
          · split at h
            · cases h
              exact ⟨[], trivial, rfl, List.suffix_refl _, fun is hs => hs⟩
            · cases h

theorem kw_dflt (a : Action) : kw (.dflt a) = kw (.dflt .deny) := rfl

theorem body_complete : ∀ (k : Nat) (e : Entry) (set : Bool) (b : Bytes) (L is : List Item), b.length < k → BodyOk set L → (is = [] ∨ ∃ f t, is = .topic f :: t) → S b (L ++ is) →
    ∃ r, body k e set b = .ok (applyAll e L, r) ∧ r <:+ b ∧ S r is := by
  intro k
  induction k with
  | zero => intro e set b L is h; omega
  | succ k ih =>
    intro e set b L is hk hL his hS
    rw [body]
    by_cases hb : b = []
    · subst hb
      rw [if_pos rfl]
      obtain ⟨h1, h2⟩ := List.append_eq_nil_iff.mp ((s_nil _).mp hS)
      subst h1; subst h2
      exact ⟨[], rfl, List.suffix_refl _, (s_nil _).mpr rfl⟩
    · rw [if_neg hb]
      obtain ⟨c1, c2, _⟩ := spacesComments_spec (b.length + 1) b (by omega)
      cases hsc : spacesComments (b.length + 1) b with
      | nil =>
        rw [hsc] at c1
        obtain ⟨h1, h2⟩ := List.append_eq_nil_iff.mp ((s_nil _).mp ((c1 _).mpr hS))
        subst h1; subst h2
        exact ⟨[], rfl, List.nil_suffix, (s_nil _).mpr rfl⟩
      | cons c t =>
        simp only
        have hf := front_comments hsc
        rw [hsc] at c1 c2
        obtain ⟨l, ls, hl⟩ := lines_ne (c :: t)
        obtain ⟨i, rest, x, r, l1, he, hx, hw, hr, htail, hrest⟩ := (front_says hf hl _).mp ((c1 _).mpr hS)
        have hlen : r.length < (c :: t).length := by
          obtain ⟨d, u, rfl, _⟩ := kw_front i hw
          rw [hx]; simp; omega
        have hlen2 := c2.length_le
        cases i with
        | topic f =>
          have hLn : L = [] := by
            cases L with
            | nil => rfl
            | cons j L' =>
              simp at he
              rw [he.1] at hL
              exact absurd hL (by simp [BodyOk])
          subst hLn
          have hn1 : matchCase wDefault (c :: t) = none := by
            cases hm : matchCase wDefault (c :: t) with
            | none => rfl
            | some q =>
              obtain ⟨y, hy, hw'⟩ := matchDefault.mp hm
              have := (word_same hw hw' (hx.symm.trans hy)).1
              exact absurd this (by simp [kw, sTopic, sUser, sDefault])
          have hn2 : matchCase wUser (c :: t) = none := by
            cases hm : matchCase wUser (c :: t) with
            | none => rfl
            | some q =>
              obtain ⟨y, hy, hw'⟩ := matchUser.mp hm
              have := (word_same hw hw' (hx.symm.trans hy)).1
              exact absurd this (by simp [kw, sTopic, sUser, sDefault])
          have hn3 : matchCase wTopic (c :: t) = some r := matchTopic.mpr ⟨x, hx, hw⟩
          rw [hn1, hn2, hn3]
          exact ⟨b, rfl, List.suffix_refl _, hS⟩
        | dflt a =>
          have hLc : ∃ L', L = .dflt a :: L' ∧ rest = L' ++ is := by
            cases L with
            | nil =>
              rcases his with h | ⟨f, t', h⟩
              · rw [h] at he; simp at he
              · rw [h] at he; simp at he
            | cons j L' => simp at he; exact ⟨L', by rw [he.1], he.2.symm⟩
          obtain ⟨L', rfl, rfl⟩ := hLc
          have hm : matchCase wDefault (c :: t) = some r := matchDefault.mpr ⟨x, hx, hw⟩
          rw [hm]
          simp only
          rw [if_neg (by rw [hL.1]; simp)]
          obtain ⟨q, hq⟩ := (keywordDefault_spec hr).1 a htail
          obtain ⟨_, k2, k3⟩ := (keywordDefault_spec hr).2 a q hq
          rw [hq]
          simp only [Out.bind]
          have hq2 := k2.length_le
          obtain ⟨r', g1, g2, g3⟩ := ih { e with defaultAction := a } true q L' is (by omega) hL.2 his ((k3 _).mpr hrest)
          exact ⟨r', g1, g2.trans (k2.trans ((show r <:+ c :: t from ⟨x, hx.symm⟩).trans c2)), g3⟩
        | user u a =>
          have hLc : ∃ L', L = .user u a :: L' ∧ rest = L' ++ is := by
            cases L with
            | nil =>
              rcases his with h | ⟨f, t', h⟩
              · rw [h] at he; simp at he
              · rw [h] at he; simp at he
            | cons j L' => simp at he; exact ⟨L', by rw [he.1], he.2.symm⟩
          obtain ⟨L', rfl, rfl⟩ := hLc
          have hn1 : matchCase wDefault (c :: t) = none := by
            cases hm : matchCase wDefault (c :: t) with
            | none => rfl
            | some q =>
              obtain ⟨y, hy, hw'⟩ := matchDefault.mp hm
              have := (word_same hw hw' (hx.symm.trans hy)).1
              exact absurd this (by simp [kw, sTopic, sUser, sDefault])
          have hm : matchCase wUser (c :: t) = some r := matchUser.mpr ⟨x, hx, hw⟩
          rw [hn1, hm]
          simp only
          obtain ⟨q, hq⟩ := (keywordUser_spec hr).1 u a htail
          obtain ⟨_, k2, k3⟩ := (keywordUser_spec hr).2 u a q hq
          rw [hq]
          simp only [Out.bind]
          have hq2 := k2.length_le
          obtain ⟨r', g1, g2, g3⟩ := ih { e with users := e.users ++ [⟨u, a⟩] } set q L' is (by omega) hL his ((k3 _).mpr hrest)
          exact ⟨r', g1, g2.trans (k2.trans ((show r <:+ c :: t from ⟨x, hx.symm⟩).trans c2)), g3⟩

/-! ## What the blocks mean -/

theorem bodyOk_true (L : List Item) : BodyOk true L ↔ (∀ f, Item.topic f ∉ L) ∧ ∀ a, Item.dflt a ∉ L := by
  induction L with
  | nil => simp [BodyOk]
  | cons i t ih =>
    cases i with
    | topic f => simp [BodyOk]; intro h; exact absurd rfl (h f).1
    | dflt a => 
      constructor
      · rintro ⟨h, _⟩; cases h
      · rintro ⟨_, h⟩; exact absurd (by simp) (h a)
    | user u a => simp [BodyOk, ih]

theorem bodyOk_false (f : Bytes) (L : List Item) : BodyOk false L ↔ (⟨f, L⟩ : Block).Ok := by
  unfold Block.Ok
  simp only
  induction L with
  | nil => simp [BodyOk]
  | cons i t ih =>
    cases i with
    | topic g =>
      simp only [BodyOk, false_iff, not_and]
      intro h
      exact absurd (by simp) (h g)
    | dflt a =>
      simp only [BodyOk, true_and]
      rw [bodyOk_true]
      constructor
      · rintro ⟨h1, h2⟩
        refine ⟨fun g => by simp [h1 g], ?_⟩
        intro p q r x y he
        have hm : Item.dflt y ∈ t := by
          cases p with
          | nil => simp at he; rw [he.2]; simp
          | cons z p => simp at he; rw [he.2]; simp
        exact h2 y hm
      · rintro ⟨h1, h2⟩
        refine ⟨fun g hg => h1 g (by simp [hg]), fun y hy => ?_⟩
        obtain ⟨q, r, rfl⟩ := List.append_of_mem hy
        exact h2 [] q r a y rfl
    | user u a =>
      rw [BodyOk, ih]
      constructor
      · rintro ⟨h1, h2⟩
        refine ⟨fun g => by simp [h1 g], ?_⟩
        intro p q r x y he
        cases p with
        | nil => simp at he
        | cons z p => simp at he; exact h2 p q r x y he.2
      · rintro ⟨h1, h2⟩
        refine ⟨fun g hg => h1 g (by simp [hg]), ?_⟩
        intro p q r x y he
        exact h2 (.user u a :: p) q r x y (by rw [he]; rfl)

theorem applyAll_users (L : List Item) (f : Bytes) : ∀ e : Entry, (applyAll e L).users = e.users ++ (⟨f, L⟩ : Block).users ∧ (applyAll e L).tokens = e.tokens := by
  unfold Block.users
  induction L with
  | nil => intro e; simp [applyAll]
  | cons i t ih =>
    intro e
    cases i with
    | topic g => simp only [applyAll]; obtain ⟨h1, h2⟩ := ih e; exact ⟨by rw [h1]; simp, h2⟩
    | dflt a => simp only [applyAll]; obtain ⟨h1, h2⟩ := ih { e with defaultAction := a }; exact ⟨by rw [h1]; simp, h2⟩
    | user u a => simp only [applyAll]; obtain ⟨h1, h2⟩ := ih { e with users := e.users ++ [⟨u, a⟩] }; exact ⟨by rw [h1]; simp, h2⟩

theorem applyAll_keep (L : List Item) (h : ∀ a, Item.dflt a ∉ L) : ∀ e : Entry, (applyAll e L).defaultAction = e.defaultAction := by
  induction L with
  | nil => intro e; rfl
  | cons i t ih =>
    intro e
    have ht : ∀ a, Item.dflt a ∉ t := fun a ha => h a (by simp [ha])
    cases i with
    | topic g => exact ih ht e
    | dflt a => exact absurd (by simp) (h a)
    | user u a => simp only [applyAll]; rw [ih ht]

theorem applyAll_default (L : List Item) (h : BodyOk false L) : ∀ (a : Action) (e : Entry), Item.dflt a ∈ L → (applyAll e L).defaultAction = a := by
  induction L with
  | nil => intro a e ha; cases ha
  | cons i t ih =>
    intro a e ha
    cases i with
    | topic g => exact absurd h (by simp [BodyOk])
    | dflt x =>
      have hn := ((bodyOk_true t).mp h.2).2
      have : a = x := by
        rcases List.mem_cons.mp ha with h1 | h1
        · cases h1; rfl
        · exact absurd h1 (hn a)
      subst this
      simp only [applyAll]
      rw [applyAll_keep t hn]
    | user u x =>
      simp only [applyAll]
      refine ih h a _ ?_
      rcases List.mem_cons.mp ha with h1 | h1
      · cases h1
      · exact h1

/-- The entry of a block. -/
def ruleOf (f : Bytes) (L : List Item) : Entry := applyAll { defaultAction := .deny, users := [], tokens := tokenize f } L

theorem rule_iff {f : Bytes} {L : List Item} (hf : f ≠ []) (h0 : (0 : UInt8) ∉ f) (hL : BodyOk false L) (e : Entry) : (⟨f, L⟩ : Block).Rule e ↔ e = ruleOf f L := by
  obtain ⟨u1, u2⟩ := applyAll_users L f { defaultAction := .deny, users := [], tokens := tokenize f }
  simp only [List.nil_append] at u1 u2
  have hd : (∃ a, Item.dflt a ∈ L ∧ (ruleOf f L).defaultAction = a) ∨ ((∀ a, Item.dflt a ∉ L) ∧ (ruleOf f L).defaultAction = .deny) := by
    by_cases hx : ∃ a, Item.dflt a ∈ L
    · obtain ⟨a, ha⟩ := hx
      exact Or.inl ⟨a, ha, applyAll_default L hL a _ ha⟩
    · have hx' : ∀ a, Item.dflt a ∉ L := fun a ha => hx ⟨a, ha⟩
      exact Or.inr ⟨hx', applyAll_keep L hx' _⟩
  constructor
  · rintro ⟨h1, h2, h3⟩
    have ht := tokenize_unique f e.tokens hf h0 h1
    have hdef : e.defaultAction = (ruleOf f L).defaultAction := by
      rcases h3 with ⟨a, ha, hx⟩ | ⟨hn, hx⟩
      · rw [hx]; exact (applyAll_default L hL a _ ha).symm
      · rcases hd with ⟨a, ha, _⟩ | ⟨_, hy⟩
        · exact absurd ha (hn a)
        · rw [hx, hy]
    have hu : e.users = (ruleOf f L).users := by rw [h2]; exact u1.symm
    have htk : e.tokens = (ruleOf f L).tokens := by rw [← ht]; exact u2.symm
    cases e
    simp only at hdef hu htk
    rw [hdef, hu, htk]
  · rintro rfl
    refine ⟨?_, u1, hd⟩
    unfold ruleOf
    simp only
    rw [u2]
    exact tokenize_isLevels f hf h0

/-! ## Files -/

theorem topicTail {r l1 : Bytes} {ls : List Bytes} (hr : lines r = l1 :: ls) (h0 : (0 : UInt8) ∉ r) :
    (∀ f, TopicTail l1 f → ∃ b1, requireSpace r = .ok b1 ∧ (b1.takeWhile fun c => !Parse.isNewline c) = f ∧ f ≠ [] ∧ filterValidateName (cstr f) = true ∧ cstr f = f) ∧
    ∀ b1, requireSpace r = .ok b1 → (b1.takeWhile fun c => !Parse.isNewline c) ≠ [] → filterValidateName (cstr (b1.takeWhile fun c => !Parse.isNewline c)) = true →
      TopicTail l1 (b1.takeWhile fun c => !Parse.isNewline c) ∧ cstr (b1.takeWhile fun c => !Parse.isNewline c) = b1.takeWhile fun c => !Parse.isNewline c := by
  have hline : ∀ b l ls, lines b = l :: ls → (b.takeWhile fun c => !Parse.isNewline c) = l := by
    intro b l ls h
    have h1 := (drop_line b l ls h []).1
    have h2 : b = (b.takeWhile fun c => !Parse.isNewline c) ++ (b.dropWhile fun c => !Parse.isNewline c) := List.takeWhile_append_dropWhile.symm
    exact List.append_cancel_right (h2.symm.trans h1)
  refine ⟨?_, ?_⟩
  · rintro f ⟨s1, rfl, h1, h2, ⟨h3, h4⟩, h5, h6⟩
    obtain ⟨b1, rfl, hb1⟩ := lines_split s1 r _ ls hr
    have htw := hline b1 f ls hb1
    have hf0 : (0 : UInt8) ∉ f := by
      intro h
      rw [← htw] at h
      exact h0 (by simp [(List.takeWhile_prefix _).subset h])
    refine ⟨b1, requireSpace_of h1 h2 ?_, htw, h3, ?_, Discern.cstr_eq hf0⟩
    · intro c t hb
      rw [hb] at htw
      have hnc := line_chars b1 f ls hb1
      cases hcs : Parse.isSpaces c with
      | false => rfl
      | true =>
        exfalso
        rcases (isSpaces_iff c).mp hcs with h | h
        · have hn : ¬ Parse.isNewline c = true := fun hx => by
            rcases (isNewline_iff c).mp hx with rfl | rfl <;> rcases h with h | h <;> cases h
          rw [List.takeWhile_cons_of_pos (by simp [hn])] at htw
          rw [← htw] at h5 h6
          rcases h with rfl | rfl
          · exact h5 rfl
          · exact h6 rfl
        · rw [List.takeWhile_cons_of_neg (by simp [(isNewline_iff c).mpr h])] at htw
          exact h3 htw.symm
    · rw [Discern.cstr_eq hf0, filterValidateName_iff f hf0]
      exact h4
  · intro b1 hb1 hne hv
    obtain ⟨s, rfl, hs, hsne, hfront⟩ := requireSpace_ok hb1
    obtain ⟨f, ls1, hf⟩ := lines_ne b1
    have hl := lines_append (blank_not_newline hs) hf
    rw [hr] at hl
    cases hl
    have htw := hline b1 f ls hf
    rw [htw] at hne hv ⊢
    have hf0 : (0 : UInt8) ∉ f := by
      intro h
      rw [← htw] at h
      exact h0 (by simp [(List.takeWhile_prefix _).subset h])
    rw [Discern.cstr_eq hf0] at hv
    refine ⟨⟨s, rfl, hs, hsne, ⟨hne, (filterValidateName_iff f hf0).mp hv⟩, ?_, ?_⟩, Discern.cstr_eq hf0⟩
    · intro h
      cases b1 with
      | nil => simp at htw; exact hne htw
      | cons c t =>
        have hc := hfront c t rfl
        by_cases hn : Parse.isNewline c = true
        · rw [List.takeWhile_cons_of_neg (by simp [hn])] at htw; exact hne htw.symm
        · rw [List.takeWhile_cons_of_pos (by simp [hn])] at htw
          rw [← htw] at h
          simp at h
          rw [h] at hc
          exact absurd hc (by decide)
    · intro h
      cases b1 with
      | nil => simp at htw; exact hne htw
      | cons c t =>
        have hc := hfront c t rfl
        by_cases hn : Parse.isNewline c = true
        · rw [List.takeWhile_cons_of_neg (by simp [hn])] at htw; exact hne htw.symm
        · rw [List.takeWhile_cons_of_pos (by simp [hn])] at htw
          rw [← htw] at h
          simp at h
          rw [h] at hc
          exact absurd hc (by decide)

/-- The text after the topic. -/
theorem after_topic {r l1 b1 : Bytes} {ls : List Bytes} (hr : lines r = l1 :: ls) (hb1 : requireSpace r = .ok b1) (is : List Item) : (b1.dropWhile fun c => !Parse.isNewline c) <:+ r ∧ (S (b1.dropWhile fun c => !Parse.isNewline c) is ↔ Says false ls is) := by
  obtain ⟨s, rfl, hs, _, _⟩ := requireSpace_ok hb1
  obtain ⟨f, ls1, hf⟩ := lines_ne b1
  have hl := lines_append (blank_not_newline hs) hf
  rw [hr] at hl
  cases hl
  exact ⟨(suffix_dropWhile _ _).trans (List.suffix_append _ _), (drop_line b1 f ls hf is).2⟩

theorem suffix_nul {a b : Bytes} (h : a <:+ b) (h0 : (0 : UInt8) ∉ b) : (0 : UInt8) ∉ a := fun h1 => h0 (h.subset h1)

theorem rules_snoc : ∀ {bs : List Block} {es : List Entry} {b : Block} {e : Entry}, b.Rule e → Rules bs es → Rules (b :: bs) (e :: es) := fun h1 h2 => ⟨h1, h2⟩

theorem blocks_sound : ∀ (k : Nat) (acl acl' : List Entry) (b : Bytes), (0 : UInt8) ∉ b → blocks k acl b = .ok acl' → ∃ bs es, acl' = acl ++ es ∧ S b (items bs) ∧ (∀ x ∈ bs, x.Ok) ∧ Rules bs es := by
  intro k
  induction k with
  | zero => intro acl acl' b _ h; simp [blocks] at h
  | succ k ih =>
    intro acl acl' b h0 h
    obtain ⟨c1, c2, _⟩ := spacesComments_spec (b.length + 1) b (by omega)
    rw [blocks] at h
    split at h
    · rename_i hsc
      cases h
      rw [hsc] at c1
      exact ⟨[], [], by simp, (c1 _).mp ((s_nil _).mpr rfl), by simp, trivial⟩
    · rename_i c t hsc
      have hf := front_comments hsc
      rw [hsc] at c1 c2
      obtain ⟨l, ls, hl⟩ := lines_ne (c :: t)
      have hfs := front_says hf hl
      split at h
      · cases h
      · rename_i r hm
        obtain ⟨x, hx, hw⟩ := matchTopic.mp hm
        obtain ⟨b1, h1, h2⟩ := bind_ok.mp h
        simp only at h2
        split at h2
        · cases h2
        · rename_i hne
          split at h2
          · cases h2
          · rename_i hv
            have hrs : r <:+ c :: t := ⟨x, hx.symm⟩
            have hr0 := suffix_nul (hrs.trans c2) h0
            obtain ⟨l1, ls1, hr⟩ := lines_ne r
            have hls := lines_append (fun c hc => letter_not_newline c (word_letters caps_topic hw c hc)) hr
            rw [← hx, hl] at hls
            have hls' : ls = ls1 := (List.cons.inj hls).2
            subst hls'
            obtain ⟨ht1, ht2⟩ := (topicTail hr hr0).2 b1 h1 hne (by simpa using hv)
            rw [ht2, tokensClone_tokenize] at h2
            generalize hfdef : (b1.takeWhile fun c => !Parse.isNewline c) = f at *
            obtain ⟨⟨e, r'⟩, h3, h4⟩ := bind_ok.mp h2
            obtain ⟨L, g1, g2, g3, g4⟩ := body_sound _ _ _ _ _ _ h3
            have hat := fun is => after_topic hr h1 is
            have hr'0 : (0 : UInt8) ∉ r' := suffix_nul (g3.trans (hat []).1) hr0
            obtain ⟨bs, es, e1, e2, e3, e4⟩ := ih _ _ _ hr'0 h4
            have hf0 : (0 : UInt8) ∉ f := by
              obtain ⟨s1, hs1, _⟩ := ht1
              intro h
              have h5 := (drop_line r l1 ls hr []).1
              apply hr0
              rw [h5, hs1]
              simp [h]
            refine ⟨⟨f, L⟩ :: bs, e :: es, by rw [e1]; simp, ?_, ?_, ?_⟩
            · rw [← c1, hfs]
              exact ⟨.topic f, L ++ items bs, x, r, l1, rfl, hx, hw, hr, ht1, ((hat _).2).mp (g4 _ e2)⟩
            · intro y hy
              rcases List.mem_cons.mp hy with rfl | hy
              · exact (bodyOk_false f L).mp g1
              · exact e3 y hy
            · exact ⟨(rule_iff hne hf0 g1 e).mpr g2, e4⟩

theorem items_head (bs : List Block) : items bs = [] ∨ ∃ f t, items bs = .topic f :: t := by
  cases bs with
  | nil => exact Or.inl rfl
  | cons b t => exact Or.inr ⟨b.filter, _, rfl⟩

theorem blocks_complete : ∀ (k : Nat) (bs : List Block) (es acl : List Entry) (b : Bytes), b.length < k → (0 : UInt8) ∉ b → S b (items bs) → (∀ x ∈ bs, x.Ok) → Rules bs es → blocks k acl b = .ok (acl ++ es) := by
  intro k
  induction k with
  | zero => intro bs es acl b h; omega
  | succ k ih =>
    intro bs es acl b hk h0 hS hok hR
    obtain ⟨c1, c2, _⟩ := spacesComments_spec (b.length + 1) b (by omega)
    rw [blocks]
    cases hsc : spacesComments (b.length + 1) b with
    | nil =>
      rw [hsc] at c1
      have hn := (s_nil _).mp ((c1 _).mpr hS)
      cases bs with
      | nil =>
        cases es with
        | nil => simp
        | cons _ _ => exact absurd hR (by simp [Rules])
      | cons x t => simp [items] at hn
    | cons c t =>
      simp only
      have hf := front_comments hsc
      rw [hsc] at c1 c2
      obtain ⟨l, ls, hl⟩ := lines_ne (c :: t)
      obtain ⟨i, rest, x, r, l1, he, hx, hw, hr, htail, hrest⟩ := (front_says hf hl _).mp ((c1 _).mpr hS)
      cases bs with
      | nil => simp [items] at he
      | cons blk bs =>
        obtain ⟨f, L⟩ := blk
        simp only [items, List.cons.injEq] at he
        obtain ⟨rfl, rfl⟩ := he
        cases es with
        | nil => exact absurd hR (by simp [Rules])
        | cons e es =>
          have hm : matchCase wTopic (c :: t) = some r := matchTopic.mpr ⟨x, hx, hw⟩
          rw [hm]
          simp only
          have hrs : r <:+ c :: t := ⟨x, hx.symm⟩
          have hr0 := suffix_nul (hrs.trans c2) h0
          obtain ⟨b1, g1, g2, g3, g4, g5⟩ := (topicTail hr hr0).1 f htail
          rw [g1]
          simp only [Out.bind]
          rw [g2, if_neg g3, if_neg (by simp [g4]), g5, tokensClone_tokenize]
          have hat := fun is => after_topic hr g1 is
          have hL := (bodyOk_false f L).mpr (hok _ (by simp))
          obtain ⟨r', k1, k2, k3⟩ := body_complete (((b1.dropWhile fun c => !Parse.isNewline c).length) + 1) { defaultAction := .deny, users := [], tokens := tokenize f } false _ L (items bs) (by omega) hL (items_head bs) (((hat _).2).mpr hrest)
          rw [k1]
          simp only
          have hf0 : (0 : UInt8) ∉ f := by
            obtain ⟨s1, hs1, _⟩ := htail
            intro h
            have h5 := (drop_line r l1 ls hr []).1
            apply hr0
            rw [h5, hs1]
            simp [h]
          have hrule := (rule_iff g3 hf0 hL e).mp hR.1
          rw [show applyAll { defaultAction := .deny, users := [], tokens := tokenize f } L = e from hrule.symm]
          have hlen : r.length < (c :: t).length := by
            obtain ⟨d, u, rfl, _⟩ := kw_front (.topic f) hw
            rw [hx]; simp; omega
          have l1' := c2.length_le
          have l2 := k2.length_le
          have l3 := (hat []).1.length_le
          rw [ih bs es (acl ++ [e]) r' (by omega) (suffix_nul (k2.trans (hat []).1) hr0) k3 (fun y hy => hok y (by simp [hy])) hR.2]
          simp

end Verif.AclFile
