import Verif.Discern.Props
/-! # C28: what definitions do -/
namespace Verif.Discern
open Verif Msg Spec

/-- What is done with the result of APPLY for a destination. -/
def applied {τ : Type} (applyFalse : Option (τ → Bytes → Call τ Unit)) (applyTrue : τ → Bytes → Call τ Unit) (r : Bool) (s : τ) (d : Bytes) : Call τ Unit :=
  if r then applyTrue s d else match applyFalse with
    | some f => f s d
    | none => .ret () s

/-- The callbacks are called for the effects, one after another, until one of them fails. -/
def applyAll {τ : Type} (f : Bool → τ → Bytes → Call τ Unit) : τ → List (Bool × Bytes) → Call τ Unit
  | s, [] => .ret () s
  | s, (r, d) :: es => match f r s d with
    | .ret () s => applyAll f s es
    | .err s => .err s
    | .abort => .abort

/-- The outcome when the callbacks are called for the effects and nothing else happens. -/
def outcome {τ : Type} (f : Bool → τ → Bytes → Call τ Unit) (s : τ) (E : List (Bool × Bytes) × Bool) : Out τ :=
  match applyAll f s E.1 with
  | .ret () s => if E.2 then .bail s else .done s
  | .err s => .err s
  | .abort => .abort

/-- The state of the callbacks for APPLY. -/
def Out.user {τ : Type} : Out (Bool × τ) → Out τ
  | .done s => .done s.2
  | .bail s => .bail s.2
  | .err s => .err s.2
  | .abort => .abort
  | .oob => .oob

theorem outcome_cons {τ : Type} (f : Bool → τ → Bytes → Call τ Unit) (s : τ) (r : Bool) (d : Bytes) (l : List (Bool × Bytes)) (b : Bool) :
    outcome f s ((r, d) :: l, b) = match f r s d with
      | .ret () s => outcome f s (l, b)
      | .err s => .err s
      | .abort => .abort := by
  unfold outcome
  dsimp only
  rw [applyAll]
  cases f r s d <;> rfl

/-- The callbacks for messages give the values of topic filters and tags. -/
structure Resolves (le : Bool) (nxt : UInt8) (m : MsgMsg) (T H : Bytes → Bool) : Prop where
  topic : ∀ f, f ≠ [] → (0 : UInt8) ∉ f → Topic.filterValidateName f = true → topicResolve nxt m f = some (truth (T f))
  tag : ∀ pr t, t ≠ [] → (0 : UInt8) ∉ t → ∃ i pr', tagResolve le m pr t = .ok (truth (H t), i, pr') ∧
    ∀ ix, i = some ix → ∀ t', t' ≠ [] → (0 : UInt8) ∉ t' → H t' = true → firstLast t' ∈ ix

theorem truth_and (b : Bool) : decide (truth b &&& 1 = 1) = b := by cases b <;> decide
theorem truth_ne (b : Bool) : (truth b ≠ 0) ↔ b = true := by cases b <;> decide

theorem execLoop_effects {τ : Type} {storage : Bytes} {le : Bool} {nxt : UInt8} {m : MsgMsg} {T H : Bytes → Bool}
    {aF : Option (τ → Bytes → Call τ Unit)} {aT : τ → Bytes → Call τ Unit} (hres : Resolves le nxt m T H) :
    ∀ (es : List Elem) (ws : List Word) (is : List Item) (as : List Action) (x : Exec (Bool × τ)), RepAll storage es ws →
      ExecRel storage (fun e v => v = truth (e.eval T H)) x is → is.length ≤ 63 →
      (x.index = [] ∨ ∀ t, t ≠ [] → (0 : UInt8) ∉ t → H t = true → firstLast t ∈ x.index) →
      ((ws = [] ∧ is = [] ∧ as = []) ∨ Spec.read is ws = some as) →
      (execLoop (helper le nxt m aF aT) storage x es).user = outcome (applied aF aT) x.cb.2 (effects T H as) := by
  intro es
  induction es with
  | nil =>
    intro ws is as x hr hx _ _ h
    cases ws with
    | cons _ _ => cases hr
    | nil =>
      rcases h with ⟨_, rfl, rfl⟩ | h
      · unfold execLoop
        rw [if_pos (by simpa using hx.wpos)]
        rfl
      · cases h
  | cons e es ih =>
    intro ws is as x hr hx hl hix h
    cases ws with
    | nil => cases hr
    | cons w ws =>
      obtain ⟨hr1, hr2⟩ := hr
      have hread : Spec.read is (w :: ws) = some as := by
        rcases h with ⟨h, _⟩ | h
        · cases h
        · exact h
      obtain ⟨is', as1, hs, hl', hrest⟩ := read_step hread
      obtain ⟨as2, has, hrest⟩ : ∃ as2, as = as1 ++ as2 ∧ ((ws = [] ∧ is' = [] ∧ as2 = []) ∨ Spec.read is' ws = some as2) := by
        rcases hrest with ⟨h1, h2, rfl⟩ | ⟨as2, h1, rfl⟩
        · exact ⟨[], by simp, Or.inl ⟨h1, h2, rfl⟩⟩
        · exact ⟨as2, rfl, Or.inr h1⟩
      have fin : ∀ {n : Next (Bool × τ)}, execStep (helper le nxt m aF aT) storage x e = n →
          ∀ x', n = .go x' → ExecRel storage (fun e v => v = truth (e.eval T H)) x' is' →
          (x'.index = [] ∨ ∀ t, t ≠ [] → (0 : UInt8) ∉ t → H t = true → firstLast t ∈ x'.index) →
          (execLoop (helper le nxt m aF aT) storage x (e :: es)).user = outcome (applied aF aT) x'.cb.2 (effects T H as2) := by
        intro n he x' hn hx' hix'
        unfold execLoop
        rw [he, hn]
        exact ih ws is' as2 x' hr2 hx' hl' hix' hrest
      cases w with
      | topic f =>
        cases hs
        have hr1' := hr1
        obtain ⟨_, _, _, hat, hf1, hf2⟩ := hr1'
        have hc : (helper le nxt m aF aT).topicFilter x.cb f = .ret (truth (T f)) x.cb := by
          show (match topicResolve nxt m f with | some r => Call.ret r x.cb | none => .abort) = _
          rw [hres.topic f hf1 hat.1 hf2]
        have he := exec_topic (cbs := helper le nxt m aF aT) hx (by omega) hr1
        rw [hc] at he
        obtain ⟨x', h1, h2, h3, h4⟩ := push_rel (x := { x with cb := x.cb }) (is := is) hx (by omega) (e := .topic f) (r := truth (T f)) rfl
        rw [fin he x' h1 h2 (by rw [h4]; exact hix), h3, has]
        rfl
      | tag t =>
        cases hs
        have hr1' := hr1
        obtain ⟨_, _, hat, ht1, _⟩ := hr1'
        have he := exec_tag (cbs := helper le nxt m aF aT) hx (by omega) hr1
        by_cases hi : x.index ≠ [] ∧ firstLast t ∉ x.index
        · rw [if_pos hi] at he
          have hH : H t = false := by
            rcases hix with h | h
            · exact absurd h hi.1
            · cases hh : H t
              · rfl
              · exact absurd (h t ht1 hat.1 hh) hi.2
          obtain ⟨x', h1, h2, h3, h4⟩ := push_rel hx (by omega) (e := .tag t) (r := 0) (by show 0 = truth (H t); rw [hH]; rfl)
          rw [fin he x' h1 h2 (by rw [h4]; exact hix), h3, has]
          rfl
        · rw [if_neg hi] at he
          obtain ⟨i, pr', ht, hsound⟩ := hres.tag x.cb.1 t ht1 hat.1
          have hc : (helper le nxt m aF aT).arrayTag x.cb t = .ret (truth (H t), i) (pr', x.cb.2) := by
            show (match tagResolve le m x.cb.1 t with | .ok (r, i, p) => Call.ret (r, i) (p, x.cb.2) | .bug | .oob => .abort | _ => .err x.cb) = _
            rw [ht]
          rw [hc] at he
          cases i with
          | none =>
            obtain ⟨x', h1, h2, h3, h4⟩ := push_rel (x := { x with cb := (pr', x.cb.2) }) (is := is) hx (by omega) (e := .tag t) (r := truth (H t)) rfl
            rw [fin he x' h1 h2 (by rw [h4]; exact hix), h3, has]
            rfl
          | some ix =>
            obtain ⟨x', h1, h2, h3, h4⟩ := push_rel (x := { x with cb := (pr', x.cb.2), index := ix }) (is := is) hx (by omega) (e := .tag t) (r := truth (H t)) rfl
            rw [fin he x' h1 h2 (by rw [h4]; exact Or.inr (hsound ix rfl)), h3, has]
            rfl
      | const b =>
        cases hs
        obtain ⟨x', h1, h2, h3, h4⟩ := push_rel hx (by omega) (e := .const b) (r := truth b) rfl
        rw [fin (exec_const hx (by omega) hr1) x' h1 h2 (by rw [h4]; exact hix), h3, has]
        rfl
      | dest d =>
        cases hs
        obtain ⟨x', h1, h2, h3, h4⟩ := exec_dest (cbs := helper le nxt m aF aT) hx (by omega) hr1
        rw [fin h1 x' rfl h2 (by rw [h4]; exact hix), h3, has]
        rfl
      | and =>
        match is, hs with
        | .expr b :: .expr a :: st, hs =>
          cases hs
          obtain ⟨x', h1, h2, h3, h4⟩ := two_rel (f := and_) (e := .and a b) hx (by
            rintro _ _ rfl rfl
            show truth _ = truth (_ && _)
            cases a.eval T H <;> cases b.eval T H <;> rfl)
          rw [fin (exec_and hx (by simp at hl; omega) hr1) x' h1 h2 (by rw [h4]; exact hix), h3, has]
          rfl
      | or =>
        match is, hs with
        | .expr b :: .expr a :: st, hs =>
          cases hs
          obtain ⟨x', h1, h2, h3, h4⟩ := two_rel (f := or_) (e := .or a b) hx (by
            rintro _ _ rfl rfl
            show truth _ = truth (_ || _)
            cases a.eval T H <;> cases b.eval T H <;> rfl)
          rw [fin (exec_or hx (by simp at hl; omega) hr1) x' h1 h2 (by rw [h4]; exact hix), h3, has]
          rfl
      | not =>
        match is, hs with
        | .expr a :: st, hs =>
          cases hs
          obtain ⟨x', h1, h2, h3, h4⟩ := exec_not (cbs := helper le nxt m aF aT) hx (by simp at hl; omega) hr1 (by
            rintro _ rfl
            show truth _ = truth (!_)
            cases a.eval T H <;> rfl)
          rw [fin h1 x' rfl h2 (by rw [h4]; exact hix), h3, has]
          rfl
      | apply =>
        match is, hs with
        | .dest d :: .expr a :: st, hs =>
          cases hs
          obtain ⟨v, hv, h1⟩ := exec_apply (cbs := helper le nxt m aF aT) hx (by simp at hl; omega) hr1
          subst hv
          rw [has]
          show _ = outcome _ _ ((a.eval T H, d) :: (effects T H as2).1, (effects T H as2).2)
          rw [outcome_cons]
          rw [truth_and] at h1
          have hc : (helper le nxt m aF aT).apply (a.eval T H) x.cb d = match applied aF aT (a.eval T H) x.cb.2 d with
              | .ret () s => .ret () (x.cb.1, s)
              | .err s => .err (x.cb.1, s)
              | .abort => .abort := by
            unfold Callbacks.apply applied
            cases a.eval T H with
            | true => rfl
            | false => cases aF with
              | none => rfl
              | some f => rfl
          rw [hc] at h1
          cases hf : applied aF aT (a.eval T H) x.cb.2 d with
          | ret u s =>
            rw [hf] at h1
            exact fin h1 _ rfl (drop_rel hx _) hix
          | err s =>
            rw [hf] at h1
            unfold execLoop
            rw [h1]
            rfl
          | abort =>
            rw [hf] at h1
            unfold execLoop
            rw [h1]
            rfl
      | pop =>
        match is, hs with
        | i :: st, hs =>
          cases hs
          rw [fin (exec_pop hx (by simp at hl; omega) hr1) _ rfl (drop_rel hx x.cb) hix, has]
          rfl
      | bail =>
        match is, hs with
        | .expr a :: st, hs =>
          cases hs
          obtain ⟨v, hv, h1⟩ := exec_bail (cbs := helper le nxt m aF aT) hx (by simp at hl; omega) hr1
          subst hv
          rw [has]
          show _ = outcome _ _ (if a.eval T H then ([], true) else effects T H as2)
          by_cases hb : a.eval T H = true
          · rw [if_pos ((truth_ne _).mpr hb)] at h1
            rw [if_pos hb]
            unfold execLoop
            rw [h1]
            rfl
          · rw [if_neg (fun h => hb ((truth_ne _).mp h))] at h1
            rw [if_neg hb]
            exact fin h1 { x with wpos := x.wpos - 1 } rfl (drop_rel hx x.cb) hix

theorem effects_append (T H : Bytes → Bool) (a b : List Action) :
    effects T H (a ++ b) = if (effects T H a).2 then effects T H a else ((effects T H a).1 ++ (effects T H b).1, (effects T H b).2) := by
  induction a with
  | nil => rfl
  | cons x a ih =>
    cases x with
    | apply e d =>
      rw [List.cons_append]
      show ((e.eval T H, d) :: (effects T H (a ++ b)).1, (effects T H (a ++ b)).2) = _
      rw [ih]
      show _ = if (effects T H a).2 = true then ((e.eval T H, d) :: (effects T H a).1, (effects T H a).2) else ((e.eval T H, d) :: (effects T H a).1 ++ (effects T H b).1, (effects T H b).2)
      split <;> rfl
    | bail e =>
      rw [List.cons_append]
      show (if e.eval T H then ([], true) else effects T H (a ++ b)) = _
      show _ = if (if e.eval T H then (([] : List (Bool × Bytes)), true) else effects T H a).2 then (if e.eval T H then ([], true) else effects T H a) else
        ((if e.eval T H then ([], true) else effects T H a).1 ++ (effects T H b).1, (effects T H b).2)
      cases e.eval T H with
      | true => rfl
      | false => exact ih

theorem outcome_append {τ : Type} (f : Bool → τ → Bytes → Call τ Unit) (l1 l2 : List (Bool × Bytes)) (b : Bool) : ∀ s,
    outcome f s (l1 ++ l2, b) = match outcome f s (l1, false) with
      | .done s => outcome f s (l2, b)
      | o => o := by
  induction l1 with
  | nil => intro s; rfl
  | cons x l1 ih =>
    intro s
    obtain ⟨r, d⟩ := x
    rw [List.cons_append, outcome_cons, outcome_cons]
    cases f r s d with
    | ret u s => exact ih s
    | err s => rfl
    | abort => rfl

/-- The elements of a definition are words with these actions. -/
def Has (p : Prog) (as : List Action) : Prop := ∃ ws, RepAll p.storage p.list ws ∧ actions ws = some as

theorem execute_effects {τ : Type} {le : Bool} {nxt : UInt8} {m : MsgMsg} {T H : Bytes → Bool} {aF : Option (τ → Bytes → Call τ Unit)}
    {aT : τ → Bytes → Call τ Unit} (hres : Resolves le nxt m T H) {p : Prog} {as : List Action} (hp : Has p as) (s : Bool × τ) :
    (execute (helper le nxt m aF aT) p s).user = outcome (applied aF aT) s.2 (effects T H as) := by
  obtain ⟨ws, h1, h2⟩ := hp
  unfold execute
  refine execLoop_effects hres p.list ws [] as _ h1 (init_rel _ _ s) (by simp) (Or.inl rfl) ?_
  unfold actions at h2
  split at h2
  · cases h2; exact Or.inl ⟨by assumption, rfl, rfl⟩
  · exact Or.inr h2

/-- A list of definitions with their actions. -/
def HasAll : List Prog → List (List Action) → Prop
  | [], [] => True
  | p :: ps, as :: ass => Has p as ∧ HasAll ps ass
  | _, _ => False

theorem executeAll_effects {τ : Type} {le : Bool} {nxt : UInt8} {m : MsgMsg} {T H : Bytes → Bool} {aF : Option (τ → Bytes → Call τ Unit)}
    {aT : τ → Bytes → Call τ Unit} (hres : Resolves le nxt m T H) : ∀ {ps : List Prog} {ass : List (List Action)}, HasAll ps ass → ∀ s : Bool × τ,
    (executeAll (helper le nxt m aF aT) ps s).user = outcome (applied aF aT) s.2 (effects T H ass.flatten) := by
  intro ps
  induction ps with
  | nil =>
    intro ass h s
    cases ass with
    | nil => rfl
    | cons _ _ => cases h
  | cons p ps ih =>
    intro ass h s
    cases ass with
    | nil => cases h
    | cons as ass =>
      have h1 := execute_effects (aF := aF) (aT := aT) hres h.1 s
      rw [List.flatten_cons, effects_append]
      have key : outcome (applied aF aT) s.2 (if (effects T H as).2 = true then effects T H as else
          ((effects T H as).1 ++ (effects T H ass.flatten).1, (effects T H ass.flatten).2)) =
          match outcome (applied aF aT) s.2 (effects T H as) with
          | .done s => outcome (applied aF aT) s (effects T H ass.flatten)
          | o => o := by
        obtain ⟨l, b⟩ := effects T H as
        dsimp only
        cases b with
        | false => rw [if_neg (by simp), outcome_append]
        | true =>
          rw [if_pos rfl]
          unfold outcome
          dsimp only
          cases applyAll (applied aF aT) s.2 l <;> rfl
      rw [key, ← h1]
      unfold executeAll
      cases he : execute (helper le nxt m aF aT) p s with
      | done s' => exact ih h.2 s'
      | bail s' => rfl
      | err s' => rfl
      | abort => rfl
      | oob => rfl

/-! ## Topics and tags of messages -/

/-- The topic of a message. -/
def topicOf (m : MsgMsg) : Bytes := m.body.take m.topicLength.toNat

theorem resolves_of {le : Bool} {nxt : UInt8} {m : MsgMsg} {vs : List Types.Value} (hm : m.topicLength.toNat ≤ m.body.length)
    (ht0 : (0 : UInt8) ∉ topicOf m) (hnxt : nxt ≠ 0x24 ∨ (topicOf m).getLast? ≠ some 0x2F)
    (hvs : (m.class_ ≠ 11 ∧ vs = []) ∨ (m.class_ = 11 ∧ Types.toArray le m = .ok vs)) (htag : ∀ v ∈ vs, (0 : UInt8) ∉ v.tag) :
    Resolves le nxt m (fun f => decide (Topic.matchStr f (topicOf m) = .match)) (fun t => vs.any fun v => v.tag = t) := by
  constructor
  · intro f h1 h2 h3
    unfold topicResolve
    rw [if_neg (by omega)]
    by_cases h0 : m.topicLength = 0
    · rw [if_pos h0]
      have : topicOf m = [] := by unfold topicOf; rw [h0]; rfl
      rw [this]
      have : Topic.matchStr f [] ≠ .match := by
        unfold Topic.matchStr
        rw [Topic.tokenize_nil]
        cases Topic.tokenize f <;> simp [Topic.matchTokens]
      rw [decide_eq_false this]
      rfl
    · rw [if_neg h0]
      have hne : topicOf m ≠ [] := by
        intro e
        have := congrArg List.length e
        unfold topicOf at this
        rw [List.length_take] at this
        simp only [List.length_nil] at this
        apply h0
        apply UInt16.toNat_inj.mp
        show _ = 0
        omega
      obtain ⟨k1, k2⟩ := Topic.matchLinear_eq_matchStr_partial nxt f _ h1 hne h2 ht0 h3 hnxt
      rw [← k1]
      unfold topicOf at k2 ⊢
      cases hl : Topic.matchLinear nxt (m.body.take m.topicLength.toNat) f with
      | mismatch => rfl
      | «match» => rfl
      | abort => exact absurd hl k2
  · intro pr t h1 h2
    unfold tagResolve
    rcases hvs with ⟨hc, rfl⟩ | ⟨hc, hv⟩
    · rw [if_pos hc]
      exact ⟨none, pr, rfl, by simp⟩
    · rw [if_neg (fun h => h hc), hv]
      have hany : (vs.any fun v => Types.isTag v t) = vs.any fun v => v.tag = t := by
        rw [Bool.eq_iff_iff, List.any_eq_true, List.any_eq_true]
        constructor
        · rintro ⟨v, hv, h⟩
          refine ⟨v, hv, ?_⟩
          unfold Types.isTag at h
          rw [show v.tag.takeWhile (· ≠ 0) = Topic.cstr v.tag from rfl, cstr_eq (htag v hv)] at h
          simpa using h
        · rintro ⟨v, hv, h⟩
          refine ⟨v, hv, ?_⟩
          unfold Types.isTag
          rw [show v.tag.takeWhile (· ≠ 0) = Topic.cstr v.tag from rfl, cstr_eq (htag v hv)]
          simpa using h
      refine ⟨if pr then none else some (indexOf vs), true, by rw [← hany]; rfl, ?_⟩
      intro ix hix t' ht1 ht2 hH
      split at hix
      · cases hix
      · cases hix
        obtain ⟨v, hv1, hv2⟩ := List.any_eq_true.mp hH
        have hv2 : v.tag = t' := by simpa using hv2
        unfold indexOf
        rw [List.mem_map]
        exact ⟨v, List.mem_filter.mpr ⟨hv1, by simpa [hv2] using ht1⟩, by rw [hv2]⟩

end Verif.Discern
