import Verif.Acl.Spec
import Verif.Topic.Props
/-!
# C03: access control is default-deny and last-match-wins
-/
namespace Verif.Acl
open Verif Topic Spec

theorem lastWith_cons {α : Type} {p : α → Prop} {a : α} {l : List α} {x : α} :
    LastWith p (a :: l) x ↔ LastWith p l x ∨ (x = a ∧ p a ∧ ∀ y ∈ l, ¬ p y) := by
  constructor
  · rintro ⟨pre, post, h1, h2, h3⟩
    cases pre with
    | nil =>
      simp only [List.nil_append, List.cons.injEq] at h1
      obtain ⟨rfl, rfl⟩ := h1
      exact Or.inr ⟨rfl, h2, h3⟩
    | cons b pre =>
      simp only [List.cons_append, List.cons.injEq] at h1
      exact Or.inl ⟨pre, post, h1.2, h2, h3⟩
  · rintro (⟨pre, post, h1, h2, h3⟩ | ⟨rfl, h2, h3⟩)
    · exact ⟨a :: pre, post, by simp [h1], h2, h3⟩
    · exact ⟨[], l, rfl, h2, h3⟩

theorem lastWith_nil {α : Type} {p : α → Prop} {x : α} : ¬ LastWith p [] x := by
  rintro ⟨pre, post, h, _⟩; simp at h

theorem lastWith_exists {α : Type} (p : α → Prop) (l : List α) :
    (∃ x, LastWith p l x) ∨ ∀ y ∈ l, ¬ p y := by
  induction l with
  | nil => right; simp
  | cons a l ih =>
    rcases ih with ⟨x, h⟩ | h
    · exact Or.inl ⟨x, lastWith_cons.mpr (Or.inl h)⟩
    · by_cases ha : p a
      · exact Or.inl ⟨a, lastWith_cons.mpr (Or.inr ⟨rfl, ha, h⟩)⟩
      · right; intro y hy
        rcases List.mem_cons.mp hy with rfl | hy
        · exact ha
        · exact h y hy

theorem lastWith_sat {α : Type} {p : α → Prop} {l : List α} {x : α} (h : LastWith p l x) :
    x ∈ l ∧ p x := by
  obtain ⟨pre, post, rfl, h2, _⟩ := h; exact ⟨by simp, h2⟩

theorem lastWith_unique {α : Type} {p : α → Prop} {l : List α} {x y : α}
    (hx : LastWith p l x) (hy : LastWith p l y) : x = y := by
  induction l with
  | nil => exact absurd hx lastWith_nil
  | cons a l ih =>
    rw [lastWith_cons] at hx hy
    rcases hx with hx | ⟨rfl, _, hx⟩ <;> rcases hy with hy | ⟨rfl, _, hy⟩
    · exact ih hx hy
    · exact absurd (lastWith_sat hx).2 (hy _ (lastWith_sat hx).1)
    · exact absurd (lastWith_sat hy).2 (hx _ (lastWith_sat hy).1)
    · rfl

theorem checkSingle_allow (a r : Action) : checkSingle a r = .allow ↔ Permits a r := by
  constructor
  · intro h
    cases a <;> cases r <;> first | constructor | (simp [checkSingle] at h)
  · intro h; cases h <;> rfl

theorem checkSingle_cases (a r : Action) (hr : r ≠ .deny) :
    checkSingle a r = .allow ∨ checkSingle a r = .deny := by
  cases a <;> cases r <;> simp_all [checkSingle]

theorem checkUsers_none (r : Action) (u : Bytes) (us : List UserEntry) (ret : Result)
    (h : ∀ x ∈ us, x.username ≠ u) : checkUsers r u ret us = ret := by
  induction us generalizing ret with
  | nil => rfl
  | cons x us ih =>
    rw [checkUsers, if_neg (h x (by simp))]
    exact ih _ (fun y hy => h y (by simp [hy]))

theorem checkUsers_last (r : Action) (u : Bytes) (us : List UserEntry) (ret : Result) (x : UserEntry)
    (h : LastWith (fun x => x.username = u) us x) : checkUsers r u ret us = checkSingle x.action r := by
  induction us generalizing ret with
  | nil => exact absurd h lastWith_nil
  | cons y us ih =>
    rw [checkUsers]
    rcases lastWith_cons.mp h with h | ⟨rfl, h1, h2⟩
    · exact ih _ h
    · rw [if_pos h1, checkUsers_none _ _ _ _ h2]

/-- The verdict of one matching rule. -/
def ruleVerdict (requested : Action) (username : Option Bytes) (e : Entry) : Result :=
  match username with
  | none => checkSingle e.defaultAction requested
  | some u => if u = [] then checkSingle e.defaultAction requested
      else checkUsers requested u (checkSingle e.defaultAction requested) e.users

theorem prescribes_exists (e : Entry) (user : Option Bytes) : ∃ a, Prescribes e user a := by
  cases user with
  | none => exact ⟨_, .anonymous⟩
  | some u =>
    by_cases hu : u = []
    · subst hu; exact ⟨_, .anonymousEmpty⟩
    · rcases lastWith_exists (fun x : UserEntry => x.username = u) e.users with ⟨x, h⟩ | h
      · exact ⟨_, .user hu h⟩
      · exact ⟨_, .noEntry hu h⟩

theorem ruleVerdict_eq {requested : Action} {user : Option Bytes} {e : Entry} {a : Action}
    (h : Prescribes e user a) : ruleVerdict requested user e = checkSingle a requested := by
  cases h with
  | user hu h => simp only [ruleVerdict, if_neg hu]; exact checkUsers_last _ _ _ _ _ h
  | noEntry hu h => simp only [ruleVerdict, if_neg hu]; exact checkUsers_none _ _ _ _ h
  | anonymous => rfl
  | anonymousEmpty => simp [ruleVerdict]

theorem checkLoop_eq (matchFn : List Bytes → List Bytes → Res) (topic : List Bytes) (requested : Action)
    (user : Option Bytes) (acl : List Entry) (ret : Result)
    (hna : ∀ e ∈ acl, matchFn e.tokens topic ≠ .abort) :
    (∀ e, LastWith (fun e => matchFn e.tokens topic = .match) acl e →
      checkLoop matchFn topic requested user ret acl = ruleVerdict requested user e) ∧
    ((∀ e ∈ acl, ¬ matchFn e.tokens topic = .match) →
      checkLoop matchFn topic requested user ret acl = ret) := by
  induction acl generalizing ret with
  | nil => exact ⟨fun e h => absurd h lastWith_nil, fun _ => rfl⟩
  | cons e es ih =>
    have hna' := fun x hx => hna x (List.mem_cons_of_mem _ hx)
    have he := hna e (by simp)
    cases hm : matchFn e.tokens topic with
    | abort => exact absurd hm he
    | mismatch =>
      simp only [checkLoop, hm]
      refine ⟨fun x hx => ?_, fun h => (ih ret hna').2 (fun x hx => h x (by simp [hx]))⟩
      rcases lastWith_cons.mp hx with hx | ⟨rfl, h, _⟩
      · exact (ih ret hna').1 x hx
      · rw [hm] at h; contradiction
    | «match» =>
      simp only [checkLoop, hm]
      refine ⟨fun x hx => ?_, fun h => absurd hm (h e (by simp))⟩
      rcases lastWith_cons.mp hx with hx | ⟨rfl, _, h⟩
      · exact (ih _ hna').1 x hx
      · rw [(ih _ hna').2 h]
        cases user <;> rfl

/-- **C03** For every rule list, topic, user and requested access level (read or
write), and every matcher which does not abort: access is allowed exactly when
the last rule that matches prescribes, for that user, an action that permits it. -/
theorem checkAccess_iff (matchFn : List Bytes → List Bytes → Res) (acl : List Entry)
    (topic : List Bytes) (requested : Action) (user : Option Bytes)
    (hna : ∀ e ∈ acl, matchFn e.tokens topic ≠ .abort) :
    checkAccess matchFn acl topic requested user = .allow ↔
      Granted (fun e => matchFn e.tokens topic = .match) acl requested user := by
  unfold checkAccess
  have hl := checkLoop_eq matchFn topic requested user acl .deny hna
  constructor
  · intro h
    rcases lastWith_exists (fun e : Entry => matchFn e.tokens topic = .match) acl with ⟨e, he⟩ | hn
    · rw [hl.1 e he] at h
      obtain ⟨a, ha⟩ := prescribes_exists e user
      rw [ruleVerdict_eq ha] at h
      exact ⟨e, a, he, ha, (checkSingle_allow _ _).mp h⟩
    · rw [hl.2 hn] at h; contradiction
  · rintro ⟨e, a, he, ha, hp⟩
    rw [hl.1 e he, ruleVerdict_eq ha]
    exact (checkSingle_allow _ _).mpr hp

/-- **C03** The check always ends in allow or deny. -/
theorem checkAccess_total (matchFn : List Bytes → List Bytes → Res) (acl : List Entry)
    (topic : List Bytes) (requested : Action) (user : Option Bytes) (hr : requested ≠ .deny)
    (hna : ∀ e ∈ acl, matchFn e.tokens topic ≠ .abort) :
    checkAccess matchFn acl topic requested user = .allow ∨
    checkAccess matchFn acl topic requested user = .deny := by
  unfold checkAccess
  have hl := checkLoop_eq matchFn topic requested user acl .deny hna
  rcases lastWith_exists (fun e : Entry => matchFn e.tokens topic = .match) acl with ⟨e, he⟩ | hn
  · rw [hl.1 e he]
    obtain ⟨a, ha⟩ := prescribes_exists e user
    rw [ruleVerdict_eq ha]
    exact checkSingle_cases _ _ hr
  · exact Or.inr (hl.2 hn)

/-- **C03** Default deny: if no rule matches, nobody gets access. -/
theorem checkAccess_default_deny (matchFn : List Bytes → List Bytes → Res) (acl : List Entry)
    (topic : List Bytes) (requested : Action) (user : Option Bytes)
    (h : ∀ e ∈ acl, matchFn e.tokens topic = .mismatch) :
    checkAccess matchFn acl topic requested user = .deny :=
  (checkLoop_eq matchFn topic requested user acl .deny (fun e he => by rw [h e he]; simp)).2
    (fun e he => by rw [h e he]; simp)

/-- **C03** The broker delivers a client's PUBLISH only if the last rule matching
the topic (rules come from accepted filters) prescribes WRITE for that user. -/
theorem handlerPublish_allow_iff (acl : List Entry) (user : Option Bytes) (topic : List Bytes)
    (v5 disc : Bool) (hacl : ∀ e ∈ acl, Topic.Spec.FilterLevelsOk e.tokens) :
    handlerPublish acl user topic v5 disc = .allow ↔
      Granted (fun e => matchTokens e.tokens topic = .match) acl .rw user := by
  have hna : ∀ e ∈ acl, matchTokens e.tokens topic ≠ .abort :=
    fun e he => matchTokens_ne_abort _ _ ((FLO_iff _).mpr (hacl e he))
  rw [← checkAccess_iff matchTokens acl topic .rw user hna]
  unfold handlerPublish
  rcases checkAccess_total matchTokens acl topic .rw user (by simp) hna with h | h
  · rw [h]; simp
  · rw [h]; simp; split <;> simp

/-- **C03** Each requested subscription is allowed exactly when the last rule
admitting it prescribes READ or WRITE for that user; the verdict of one filter
does not depend on the others. -/
theorem handlerSubscribe_iff (acl : List Entry) (user : Option Bytes) (filters : List (List Bytes))
    (i : Nat) (f : List Bytes) (hf : filters[i]? = some f) :
    (handlerSubscribe acl user filters)[i]? = some true ↔
      Granted (fun e => matchTokensAcl e.tokens f = true) acl .ro user := by
  have hna : ∀ e ∈ acl, matchFnAcl e.tokens f ≠ .abort := by
    intro e _; unfold matchFnAcl; split <;> simp
  have hp : (fun e : Entry => matchTokensAcl e.tokens f = true) =
      (fun e => matchFnAcl e.tokens f = .match) := by
    funext e; unfold matchFnAcl
    cases matchTokensAcl e.tokens f <;> simp
  rw [hp, ← checkAccess_iff matchFnAcl acl f .ro user hna]
  simp [handlerSubscribe, hf]

/-- After `push_allow_all` everyone may publish to every topic that does not
start with '$'. -/
theorem pushAllowAll_publish (acl : List Entry) (user : Option Bytes) (t : Bytes) (ts : List Bytes)
    (v5 disc : Bool) (hacl : ∀ e ∈ acl, Topic.Spec.FilterLevelsOk e.tokens)
    (hd : t.head? ≠ some 0x24) :
    handlerPublish (pushAllowAll acl) user (t :: ts) v5 disc = .allow := by
  rw [handlerPublish_allow_iff]
  · refine ⟨_, .rw, ⟨acl, [], rfl, ?_, by simp⟩, ?_, .writeRw⟩
    · show matchTokens [[hash]] (t :: ts) = .match
      simp [matchTokens, hd]
    · cases user with
      | none => exact .anonymous
      | some u =>
        by_cases hu : u = []
        · subst hu; exact .anonymousEmpty
        · exact .noEntry hu (by simp)
  · intro e he
    rcases List.mem_append.mp he with he | he
    · exact hacl e he
    · simp at he
      subst he
      rw [← FLO_iff]
      show FLO [[hash]]
      simp [FLO]; decide

-- A two-rule ACL in which the later rule overrides the earlier one for user "u".
example :
    let acl : List Entry :=
      [⟨.rw, [], [[0x23]]⟩, ⟨.ro, [⟨[0x75], .deny⟩], [[0x61], [0x2B]]⟩]
    handlerPublish acl (some [0x75]) [[0x61], [0x62]] true false = .deny ∧
    handlerPublish acl (some [0x75]) [[0x62]] true false = .allow ∧
    checkAccess matchTokens acl [[0x61], [0x62]] .ro none = .allow ∧
    checkAccess matchTokens acl [[0x61], [0x62]] .ro (some [0x75]) = .deny := by decide

end Verif.Acl
