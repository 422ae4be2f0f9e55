import Verif.AclFile.Blocks
import Verif.Acl.Props
/-!
# C113: ACL files are read as they are written
-/
namespace Verif.AclFile
open Acl Topic AclFile.Spec

/-- **C113** A file without zero bytes is accepted exactly when it is written as the manual says (spaces after `USER` may be missing, see `user_without_space`), and the rules are the ones it says. -/
theorem file_read_partial (text : Bytes) (h0 : (0 : UInt8) ∉ text) (acl : List Entry) : readFile text = .ok acl ↔ Means false text acl := by
  unfold readFile
  constructor
  · intro h
    split at h
    · rename_i hb
      cases h
      exact ⟨[], by rw [hb]; exact (s_nil _).mpr rfl, by simp, trivial⟩
    · obtain ⟨bs, es, h1, h2, h3, h4⟩ := blocks_sound _ _ _ _ h0 h
      rw [List.nil_append] at h1
      subst h1
      exact ⟨bs, h2, h3, h4⟩
  · rintro ⟨bs, h1, h2, h3⟩
    split
    · rename_i hb
      subst hb
      have hn := (s_nil _).mp h1
      cases bs with
      | nil =>
        cases acl with
        | nil => rfl
        | cons _ _ => exact absurd h3 (by simp [Rules])
      | cons _ _ => simp [items] at hn
    · have := blocks_complete (text.length + 1) bs acl [] text (by omega) h0 h1 h2 h3
      rw [this, List.nil_append]

theorem isItem_loose {l : Bytes} {i : Item} (h : IsItem true l i) : IsItem false l i := by
  cases i with
  | topic f => exact h
  | dflt a => exact h
  | user u a =>
    obtain ⟨s0, w, s1, s2, x, s3, h1, h2, h3, h4, h5, h6⟩ := h
    exact ⟨s0, w, s1, s2, x, s3, h1, h2, h3, h4, by simp, h6⟩

theorem says_loose : ∀ (ls : List Bytes) (is : List Item), Says true ls is → Says false ls is := by
  intro ls
  induction ls with
  | nil => intro is h; exact h
  | cons l t ih =>
    intro is h
    rcases h with ⟨h1, h2⟩ | ⟨i, r, h1, h2, h3⟩
    · exact Or.inl ⟨h1, ih _ h2⟩
    · exact Or.inr ⟨i, r, h1, isItem_loose h2, ih _ h3⟩

/-- **C113** A file which is written exactly as the manual says is accepted, and its rules are the ones the broker has. -/
theorem file_accepted (text : Bytes) (h0 : (0 : UInt8) ∉ text) (acl : List Entry) (h : Means true text acl) : readFile text = .ok acl := by
  obtain ⟨bs, h1, h2⟩ := h
  exact (file_read_partial text h0 acl).mpr ⟨bs, says_loose _ _ h1, h2⟩

/-- **C113** A text has only one meaning. -/
theorem file_unambiguous (text : Bytes) (h0 : (0 : UInt8) ∉ text) (a b : List Entry) (ha : Means false text a) (hb : Means false text b) : a = b := by
  have h1 := (file_read_partial text h0 a).mpr ha
  have h2 := (file_read_partial text h0 b).mpr hb
  rw [h1] at h2
  exact Out.ok.inj h2

/-! ## No bytes stop the program -/

theorem bind_abort {α β : Type} {x : Out α} {f : α → Out β} (hx : x ≠ .abort) (hf : ∀ a, x = .ok a → f a ≠ .abort) : x.bind f ≠ .abort := by
  cases x with
  | ok a => exact hf a rfl
  | err => simp [Out.bind]
  | abort => exact absurd rfl hx

theorem requireSpace_safe (b : Bytes) : requireSpace b ≠ .abort := by
  unfold requireSpace; simp only; split <;> simp

theorem requireNewline_safe (b : Bytes) : requireNewline b ≠ .abort := by
  unfold requireNewline; simp only
  repeat' split
  all_goals simp

theorem action_safe (b : Bytes) : action b ≠ .abort := by
  unfold action
  repeat' split
  all_goals simp

theorem keywordDefault_safe (b : Bytes) : keywordDefault b ≠ .abort := by
  unfold keywordDefault
  refine bind_abort (requireSpace_safe _) fun _ _ => bind_abort (action_safe _) fun _ _ => bind_abort (requireNewline_safe _) fun _ _ => by simp

theorem keywordUser_safe (b : Bytes) : keywordUser b ≠ .abort := by
  unfold keywordUser
  simp only
  split
  · simp
  · rename_i hne
    refine bind_abort (requireSpace_safe _) fun _ _ => bind_abort (action_safe _) fun _ _ => bind_abort (requireNewline_safe _) fun _ _ => ?_
    split
    · rename_i hc
      exfalso
      obtain ⟨l1, ls, hl⟩ := lines_ne b
      rw [Discern.drop_peek] at hne hc
      revert hne hc
      simp only
      generalize Parse.ignore Parse.isSpaceTab b = q
      intro hne hc
      cases q with
      | nil => simp at hne
      | cons c t =>
        by_cases hu : isUserChar c = true
        · rw [List.takeWhile_cons_of_pos hu] at hc
          have : c ≠ 0 := by intro h; rw [h] at hu; exact absurd hu (by decide)
          simp [cstr, this] at hc
        · rw [List.takeWhile_cons_of_neg hu] at hne
          exact hne rfl
    · simp

theorem body_safe : ∀ (k : Nat) (e : Entry) (set : Bool) (b : Bytes), body k e set b ≠ .abort := by
  intro k
  induction k with
  | zero => intro e set b; simp [body]
  | succ k ih =>
    intro e set b
    rw [body]
    split
    · simp
    · split
      · simp
      · split
        · split
          · simp
          · exact bind_abort (keywordDefault_safe _) fun _ _ => ih _ _ _
        · split
          · exact bind_abort (keywordUser_safe _) fun _ _ => ih _ _ _
          · split <;> simp

theorem blocks_safe : ∀ (k : Nat) (acl : List Entry) (b : Bytes), blocks k acl b ≠ .abort := by
  intro k
  induction k with
  | zero => intro acl b; simp [blocks]
  | succ k ih =>
    intro acl b
    rw [blocks]
    split
    · simp
    · split
      · simp
      · refine bind_abort (requireSpace_safe _) fun _ _ => ?_
        simp only
        split
        · simp
        · split
          · simp
          · exact bind_abort (body_safe _ _ _ _) fun _ _ => ih _ _

/-- **C113** Whatever a file contains, reading it ends with rules or with an error. -/
theorem file_never_aborts (text : Bytes) : (∃ acl, readFile text = .ok acl) ∨ readFile text = .err := by
  have : readFile text ≠ .abort := by
    unfold readFile
    split
    · simp
    · exact blocks_safe _ _ _
  cases h : readFile text with
  | ok a => exact Or.inl ⟨a, rfl⟩
  | err => exact Or.inr rfl
  | abort => exact absurd h this

/-! ## Decisions -/

theorem mem_users {b : Block} {u : Bytes} {a : Action} : (⟨u, a⟩ : UserEntry) ∈ b.users ↔ Item.user u a ∈ b.lines := by
  unfold Block.users
  rw [List.mem_filterMap]
  constructor
  · rintro ⟨i, hi, he⟩
    cases i with
    | user v x => simp at he; rw [← he.1, ← he.2]; exact hi
    | topic _ => simp at he
    | dflt _ => simp at he
  · intro h; exact ⟨_, h, rfl⟩

theorem last_user : ∀ (L : List Item) (f u : Bytes) (a : Action), (∃ p q, L = p ++ Item.user u a :: q ∧ ∀ a', Item.user u a' ∉ q) → Acl.Spec.LastWith (fun x : UserEntry => x.username = u) (⟨f, L⟩ : Block).users ⟨u, a⟩ := by
  rintro L f u a ⟨p, q, rfl, h⟩
  refine ⟨(⟨f, p⟩ : Block).users, (⟨f, q⟩ : Block).users, by simp [Block.users], rfl, ?_⟩
  rintro ⟨v, x⟩ hm rfl
  exact h x (mem_users.mp hm)

theorem rule_says {b : Block} {e : Entry} (h : b.Rule e) (hok : b.Ok) {user : Option Bytes} {a : Action} (hs : Verdict b user a) : Acl.Spec.Prescribes e user a := by
  obtain ⟨_, h2, h3⟩ := h
  have hno : (∀ u a', user = some u → u ≠ [] → Item.user u a' ∉ b.lines) → e.defaultAction = a → Acl.Spec.Prescribes e user a := by
    intro hn hd
    subst hd
    cases user with
    | none => exact .anonymous
    | some u =>
      by_cases hu : u = []
      · subst hu; exact .anonymousEmpty
      · refine .noEntry hu ?_
        rintro ⟨v, x⟩ hm rfl
        rw [h2] at hm
        exact hn v x rfl hu (mem_users.mp hm)
  cases hs with
  | user hu hx =>
    have := last_user b.lines b.filter _ _ hx
    rw [show (⟨b.filter, b.lines⟩ : Block) = b from rfl, ← h2] at this
    exact .user hu this
  | dflt hn hd =>
    refine hno hn ?_
    rcases h3 with ⟨a', ha', he⟩ | ⟨hx, _⟩
    · rw [he]
      obtain ⟨p, q, hpq⟩ := List.append_of_mem ha'
      rw [hpq] at hd
      rcases List.mem_append.mp hd with hm | hm
      · obtain ⟨p1, p2, rfl⟩ := List.append_of_mem hm
        exact absurd hpq (by rw [List.append_assoc]; exact hok.2 p1 p2 q a a')
      · rcases List.mem_cons.mp hm with hm | hm
        · cases hm; rfl
        · obtain ⟨p1, p2, rfl⟩ := List.append_of_mem hm
          exact absurd hpq (hok.2 p p1 p2 a' a)
    · exact absurd hd (hx _)
  | none hn hx =>
    refine hno hn ?_
    rcases h3 with ⟨a', ha', _⟩ | ⟨_, he⟩
    · exact absurd ha' (hx a')
    · exact he

theorem says_exists (b : Block) (user : Option Bytes) : ∃ a, Verdict b user a := by
  have hno : (∀ u a', user = some u → u ≠ [] → Item.user u a' ∉ b.lines) → ∃ a, Verdict b user a := by
    intro hn
    by_cases hx : ∃ a, Item.dflt a ∈ b.lines
    · obtain ⟨a, ha⟩ := hx; exact ⟨a, .dflt hn ha⟩
    · exact ⟨.deny, .none hn fun a ha => hx ⟨a, ha⟩⟩
  cases user with
  | none => exact hno fun _ _ h => by cases h
  | some u =>
    by_cases hu : u = []
    · exact hno fun v _ h hv => by cases h; exact absurd hu hv
    · obtain ⟨f, L⟩ := b
      have hL : (∃ a p q, L = p ++ Item.user u a :: q ∧ ∀ a', Item.user u a' ∉ q) ∨ ∀ a', Item.user u a' ∉ L := by
        clear hno
        induction L with
        | nil => exact Or.inr (by simp)
        | cons i t ih =>
          rcases ih with ⟨a, p, q, rfl, h⟩ | h
          · exact Or.inl ⟨a, i :: p, q, rfl, h⟩
          · by_cases hi : ∃ a, i = .user u a
            · obtain ⟨a, rfl⟩ := hi
              exact Or.inl ⟨a, [], t, rfl, h⟩
            · refine Or.inr fun a' hm => ?_
              rcases List.mem_cons.mp hm with hm | hm
              · exact hi ⟨a', hm.symm⟩
              · exact h a' hm
      rcases hL with ⟨a, h⟩ | h
      · exact ⟨a, .user hu h⟩
      · exact hno fun v a' hv _ => by cases hv; exact h a'

theorem rules_mem : ∀ {bs : List Block} {es : List Entry}, Rules bs es → ∀ p b q, bs = p ++ b :: q → ∃ p' e q', es = p' ++ e :: q' ∧ b.Rule e ∧ Rules q q' := by
  intro bs
  induction bs with
  | nil => intro es _ p b q h; simp at h
  | cons x t ih =>
    intro es hR p b q h
    cases es with
    | nil => exact absurd hR (by simp [Rules])
    | cons e es =>
      cases p with
      | nil => simp at h; obtain ⟨rfl, rfl⟩ := h; exact ⟨[], e, es, rfl, hR⟩
      | cons y p =>
        simp at h
        obtain ⟨p', e', q', h1, h2⟩ := ih hR.2 p b q h.2
        exact ⟨e :: p', e', q', by rw [h1]; rfl, h2⟩

theorem rules_mem' : ∀ {bs : List Block} {es : List Entry}, Rules bs es → ∀ p e q, es = p ++ e :: q → ∃ p' b q', bs = p' ++ b :: q' ∧ b.Rule e ∧ Rules q' q := by
  intro bs
  induction bs with
  | nil =>
    intro es hR p e q h
    cases es with
    | nil => simp at h
    | cons _ _ => exact absurd hR (by simp [Rules])
  | cons x t ih =>
    intro es hR p e q h
    cases es with
    | nil => exact absurd hR (by simp [Rules])
    | cons e0 es =>
      cases p with
      | nil => simp at h; obtain ⟨rfl, rfl⟩ := h; exact ⟨[], x, t, rfl, hR⟩
      | cons y p =>
        simp at h
        obtain ⟨p', b', q', h1, h2⟩ := ih hR.2 p e q h.2
        exact ⟨x :: p', b', q', by rw [h1]; rfl, h2⟩

theorem levels_one {f : Bytes} {a b : List Bytes} (ha : Topic.Spec.IsLevels f a) (hb : Topic.Spec.IsLevels f b) : a = b := (Topic.IsLevels.eq_split ha).trans (Topic.IsLevels.eq_split hb).symm

theorem prescribes_one {e : Entry} {user : Option Bytes} {a b : Action} (ha : Acl.Spec.Prescribes e user a) (hb : Acl.Spec.Prescribes e user b) : a = b := by
  cases ha with
  | user hu h =>
    cases hb with
    | user _ h' => rw [lastWith_unique h h']
    | noEntry _ h' => exact absurd (lastWith_sat h).2 (h' _ (lastWith_sat h).1)
    | anonymousEmpty => exact absurd rfl hu
  | noEntry hu h =>
    cases hb with
    | user _ h' => exact absurd (lastWith_sat h').2 (h _ (lastWith_sat h').1)
    | noEntry _ _ => rfl
    | anonymousEmpty => rfl
  | anonymous => cases hb; rfl
  | anonymousEmpty =>
    cases hb with
    | user hu _ => exact absurd rfl hu
    | noEntry _ _ => rfl
    | anonymousEmpty => rfl

theorem granted_iff {bs : List Block} {acl : List Entry} (hok : ∀ b ∈ bs, b.Ok) (hR : Rules bs acl) (applies : List Bytes → Prop) (requested : Action) (user : Option Bytes) :
    Acl.Spec.Granted (fun e => applies e.tokens) acl requested user ↔ Allowed applies bs requested user := by
  constructor
  · rintro ⟨e, a, ⟨p, q, h1, h2, h3⟩, h4, h5⟩
    obtain ⟨p', b, q', g1, g2, g3⟩ := rules_mem' hR p e q h1
    have hb : b.Ok := hok b (by rw [g1]; simp)
    obtain ⟨a', ha'⟩ := says_exists b user
    have : a' = a := prescribes_one (rule_says g2 hb ha') h4
    subst this
    refine ⟨p', b, q', a', g1, ⟨e.tokens, g2.1, h2⟩, ?_, ha', h5⟩
    intro b' hb' ls hls hap
    obtain ⟨q1, q2, rfl⟩ := List.append_of_mem hb'
    obtain ⟨p'', e', q'', k1, k2, _⟩ := rules_mem g3 q1 b' q2 rfl
    rw [levels_one hls k2.1] at hap
    exact h3 e' (by rw [k1]; simp) hap
  · rintro ⟨p, b, q, a, h1, ⟨ls, h2, h3⟩, h4, h5, h6⟩
    obtain ⟨p', e, q', g1, g2, g3⟩ := rules_mem hR p b q h1
    have hb : b.Ok := hok b (by rw [h1]; simp)
    refine ⟨e, a, ⟨p', q', g1, ?_, ?_⟩, rule_says g2 hb h5, h6⟩
    · simp only; rw [← levels_one h2 g2.1]; exact h3
    · intro e' he' hap
      obtain ⟨q1, q2, rfl⟩ := List.append_of_mem he'
      obtain ⟨p'', b', q'', k1, k2, _⟩ := rules_mem' g3 q1 e' q2 rfl
      exact h4 b' (by rw [k1]; simp) e'.tokens k2.1 hap

theorem says_filter : ∀ (ls : List Bytes) (is : List Item) (f : Bytes), Says false ls is → Item.topic f ∈ is → Filter f := by
  intro ls
  induction ls with
  | nil => intro is f h hm; rw [show is = [] from h] at hm; cases hm
  | cons l t ih =>
    intro is f h hm
    rcases h with ⟨_, h2⟩ | ⟨i, r, rfl, h2, h3⟩
    · exact ih _ _ h2 hm
    · rcases List.mem_cons.mp hm with rfl | hm
      · obtain ⟨_, _, _, _, _, _, _, _, h, _⟩ := h2; exact h
      · exact ih _ _ h3 hm

theorem items_topic : ∀ (bs : List Block) (b : Block), b ∈ bs → Item.topic b.filter ∈ items bs := by
  intro bs
  induction bs with
  | nil => intro b h; cases h
  | cons x t ih =>
    intro b h
    rcases List.mem_cons.mp h with rfl | h
    · simp [items]
    · simp [items, ih b h]

/-- **C113** Publishing with the rules of a file: allowed exactly when the last block of the file with a filter which matches the topic says `WRITE` for the user. -/
theorem file_publish (text : Bytes) (h0 : (0 : UInt8) ∉ text) (acl : List Entry) (h : readFile text = .ok acl) :
    ∃ bs, Says false (lines text) (items bs) ∧ (∀ b ∈ bs, b.Ok) ∧
      ∀ (user : Option Bytes) (topic : List Bytes) (v5 disc : Bool), handlerPublish acl user topic v5 disc = .allow ↔ Allowed (fun ls => matchTokens ls topic = .match) bs .rw user := by
  obtain ⟨bs, h1, h2, h3⟩ := (file_read_partial text h0 acl).mp h
  refine ⟨bs, h1, h2, fun user topic v5 disc => ?_⟩
  rw [handlerPublish_allow_iff acl user topic v5 disc, granted_iff h2 h3 (fun ls => matchTokens ls topic = .match)]
  intro e he
  obtain ⟨p, q, rfl⟩ := List.append_of_mem he
  obtain ⟨p', b, q', k1, k2, _⟩ := rules_mem' h3 p e q rfl
  exact (says_filter _ _ b.filter h1 (items_topic bs b (by rw [k1]; simp))).2.2.2 _ k2.1

/-- **C113** Subscribing with the rules of a file: allowed exactly when the last block of the file with a filter which admits the subscription says `READ` or `WRITE` for the user. -/
theorem file_subscribe (text : Bytes) (h0 : (0 : UInt8) ∉ text) (acl : List Entry) (h : readFile text = .ok acl) :
    ∃ bs, Says false (lines text) (items bs) ∧ (∀ b ∈ bs, b.Ok) ∧
      ∀ (user : Option Bytes) (filters : List (List Bytes)) (i : Nat) (f : List Bytes), filters[i]? = some f →
        ((handlerSubscribe acl user filters)[i]? = some true ↔ Allowed (fun ls => matchTokensAcl ls f = true) bs .ro user) := by
  obtain ⟨bs, h1, h2, h3⟩ := (file_read_partial text h0 acl).mp h
  refine ⟨bs, h1, h2, fun user filters i f hf => ?_⟩
  rw [handlerSubscribe_iff acl user filters i f hf, granted_iff h2 h3 (fun ls => matchTokensAcl ls f = true)]

/-! ## Where reading differs from the manual -/

/-- `TOPIC a` and `USERbob WRITE`. -/
def noSpace : Bytes := [84, 79, 80, 73, 67, 32, 97, 10, 85, 83, 69, 82, 98, 111, 98, 32, 87, 82, 73, 84, 69, 10]

/-- **C113** The space after `USER` may be missing: `USERbob WRITE` gives a rule for `bob`. -/
theorem user_without_space : readFile noSpace = .ok [⟨.deny, [⟨[98, 111, 98], .rw⟩], [[97]]⟩] := by decide +kernel

/-- `TOPIC a`, a zero byte, `b` and then `DEFAULT WRITE`. -/
def withNul : Bytes := [84, 79, 80, 73, 67, 32, 97, 0, 98, 10, 68, 69, 70, 65, 85, 76, 84, 32, 87, 82, 73, 84, 69, 10]

/-- **C113** A zero byte ends the topic filter and the rest of the line is ignored. -/
theorem nul_cuts_filter : readFile withNul = .ok [⟨.rw, [], [[97]]⟩] := by decide +kernel

/-- `TOPIC a`, with a space at the end. -/
def spaceAtEnd : Bytes := [84, 79, 80, 73, 67, 32, 97, 32, 10]

/-- **C113** Spaces at the end of a `TOPIC` line belong to the filter, and it does not match the topic without them. -/
theorem space_in_filter : readFile spaceAtEnd = .ok [⟨.deny, [], [[97, 32]]⟩] ∧ matchTokens [[97, 32]] [[97]] = .mismatch := by decide +kernel

/-! ## Examples -/

/-- A comment, `TOPIC a/+`, `DEFAULT READ`, `user bob Write` and `Topic #`. -/
def sample : Bytes := [35, 32, 120, 10, 84, 79, 80, 73, 67, 32, 97, 47, 43, 13, 10, 32, 68, 69, 70, 65, 85, 76, 84, 9, 82, 69, 65, 68, 10, 10, 117, 115, 101, 114, 32, 98, 111, 98, 32, 87, 114, 105, 116, 101, 32, 10, 84, 111, 112, 105, 99, 32, 35]

example : readFile sample = .ok [⟨.ro, [⟨[98, 111, 98], .rw⟩], [[97], [43]]⟩, ⟨.deny, [], [[35]]⟩] := by decide +kernel
example : (0 : UInt8) ∉ sample := by decide
-- What follows from the theorems about it.
example : Means false sample [⟨.ro, [⟨[98, 111, 98], .rw⟩], [[97], [43]]⟩, ⟨.deny, [], [[35]]⟩] :=
  (file_read_partial sample (by decide) _).mp (by decide +kernel)
-- Two defaults, an action with something behind it, and text before the first topic.
example : readFile [84, 79, 80, 73, 67, 32, 97, 10, 68, 69, 70, 65, 85, 76, 84, 32, 82, 69, 65, 68, 10, 68, 69, 70, 65, 85, 76, 84, 32, 82, 69, 65, 68, 10] = .err := by decide +kernel
example : readFile [84, 79, 80, 73, 67, 32, 97, 10, 68, 69, 70, 65, 85, 76, 84, 32, 82, 69, 65, 68, 83] = .err := by decide +kernel
example : readFile [85, 83, 69, 82, 32, 98, 32, 82, 69, 65, 68] = .err := by decide +kernel
-- A file written strictly as in the manual: `TOPIC a` and `USER b READ`.
example : Means true [84, 79, 80, 73, 67, 32, 97, 10, 85, 83, 69, 82, 32, 98, 32, 82, 69, 65, 68] [⟨.deny, [⟨[98], .ro⟩], [[97]]⟩] := by
  refine ⟨[⟨[97], [.user [98] .ro]⟩], Or.inr ⟨_, _, rfl, ⟨[], sTopic, [32], rfl, by simp [Blank], by simp [sTopic, Word, SameLetter], by simp [Blank], by simp, ?_, by simp, by simp⟩, Or.inr ⟨_, _, rfl, ⟨[], sUser, [32], [32], actionName .ro, [], rfl, ?_⟩, rfl⟩⟩, ?_, ?_⟩
  · exact ⟨by simp, by simp, (filterValidateName_iff [97] (by decide)).mp (by decide +kernel) |>.2.1, (filterValidateName_iff [97] (by decide)).mp (by decide +kernel) |>.2.2⟩
  · refine ⟨by simp [Blank], by simp [sUser, Word, SameLetter], by simp [Blank], by simp, by simp, by simp [NameChar], by simp [Blank], by simp, by simp [actionName, Word, SameLetter], by simp [Blank]⟩
  · intro b hb
    simp at hb
    subst hb
    refine ⟨by simp, ?_⟩
    intro p q r a a' h
    cases p with
    | nil => simp at h
    | cons x p => cases p <;> simp at h
  · exact ⟨⟨⟨by simp, rfl, by simp⟩, rfl, Or.inr ⟨by simp, rfl⟩⟩, trivial⟩

end Verif.AclFile
