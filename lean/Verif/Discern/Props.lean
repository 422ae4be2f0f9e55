import Verif.Discern.Run
import Verif.Topic.Props
/-! # C27, C28 and C64: definitions of routes and methods -/
namespace Verif.Discern
open Verif Msg Spec

/-! ## C27: definitions which are accepted can be executed -/

theorem read_step {is : List Item} {w : Word} {ws : List Word} {as : List Action} (h : Spec.read is (w :: ws) = some as) :
    ∃ is' as1, step is w = some (is', as1) ∧ is'.length ≤ 63 ∧
      ((ws = [] ∧ is' = [] ∧ as = as1) ∨ ∃ as2, Spec.read is' ws = some as2 ∧ as = as1 ++ as2) := by
  unfold Spec.read at h
  split at h
  · cases h
  · rename_i is' as1 hs
    refine ⟨is', as1, hs, ?_⟩
    split at h
    · cases h
    · refine ⟨by omega, ?_⟩
      split at h
      · split at h
        · cases h
          exact Or.inl ⟨by assumption, by assumption, rfl⟩
        · cases h
      · cases hr : Spec.read is' ws with
        | none => rw [hr] at h; cases h
        | some as2 => rw [hr] at h; cases h; exact Or.inr ⟨as2, rfl, rfl⟩

/-- None of the callbacks aborts, when destinations are those with `D`. -/
structure Quiet {σ : Type} (cbs : Callbacks σ) (D : Bytes → Prop) : Prop where
  topic : ∀ s f, f ≠ [] → (0 : UInt8) ∉ f → Topic.filterValidateName f = true → cbs.topicFilter s f ≠ .abort
  tag : ∀ s t, cbs.arrayTag s t ≠ .abort
  apply : ∀ r s d, D d → cbs.apply r s d ≠ .abort

/-- All expressions and values. -/
abbrev AnyV : Expr → UInt32 → Prop := fun _ _ => True

theorem execLoop_safe {σ : Type} {storage : Bytes} {cbs : Callbacks σ} {D : Bytes → Prop} (hq : Quiet cbs D) :
    ∀ (es : List Elem) (ws : List Word) (is : List Item) (x : Exec σ), RepAll storage es ws → (∀ d, .dest d ∈ ws → D d) →
      (∀ d, .dest d ∈ is → D d) → ExecRel storage AnyV x is → is.length ≤ 63 → ((ws = [] ∧ is = []) ∨ ∃ as, Spec.read is ws = some as) →
      execLoop cbs storage x es ≠ .abort ∧ execLoop cbs storage x es ≠ .oob := by
  intro es
  induction es with
  | nil =>
    intro ws is x hr _ _ hx _ h
    cases ws with
    | cons _ _ => cases hr
    | nil =>
      rcases h with ⟨_, rfl⟩ | ⟨as, h⟩
      · unfold execLoop
        rw [if_pos (by simpa using hx.wpos)]
        exact ⟨by simp, by simp⟩
      · cases h
  | cons e es ih =>
    intro ws is x hr hd hdi hx hl h
    cases ws with
    | nil => cases hr
    | cons w ws =>
      obtain ⟨hr1, hr2⟩ := hr
      have hread : ∃ as, Spec.read is (w :: ws) = some as := by
        rcases h with ⟨h, _⟩ | h
        · cases h
        · exact h
      obtain ⟨as, hread⟩ := hread
      obtain ⟨is', as1, hs, hl', hrest⟩ := read_step hread
      have hdw : ∀ d, .dest d ∈ ws → D d := fun d hd' => hd d (by simp [hd'])
      have hgo : ∀ x', ExecRel storage AnyV x' is' → (∀ d, .dest d ∈ is' → D d) →
          execLoop cbs storage x' es ≠ .abort ∧ execLoop cbs storage x' es ≠ .oob := by
        intro x' hx' hdi'
        refine ih ws is' x' hr2 hdw hdi' hx' hl' ?_
        rcases hrest with ⟨h1, h2, _⟩ | ⟨as2, h1, _⟩
        · exact Or.inl ⟨h1, h2⟩
        · exact Or.inr ⟨as2, h1⟩
      have fin : ∀ (n : Next σ), (∃ x', n = .go x' ∧ ExecRel storage AnyV x' is' ∧ (∀ d, .dest d ∈ is' → D d)) ∨
          (∃ s, n = .stop (.err s)) ∨ (∃ s, n = .stop (.bail s)) → execStep cbs storage x e = n →
          execLoop cbs storage x (e :: es) ≠ .abort ∧ execLoop cbs storage x (e :: es) ≠ .oob := by
        intro n hn he
        unfold execLoop
        rw [he]
        rcases hn with ⟨x', rfl, h1, h2⟩ | ⟨s, rfl⟩ | ⟨s, rfl⟩
        · exact hgo x' h1 h2
        · exact ⟨by simp, by simp⟩
        · exact ⟨by simp, by simp⟩
      have hdx : ∀ {i : Expr} {is : List Item}, (∀ d, .dest d ∈ is → D d) → ∀ d, .dest d ∈ Item.expr i :: is → D d := by
        intro i is h d hd
        rcases List.mem_cons.mp hd with h' | h'
        · cases h'
        · exact h d h'
      cases w with
      | topic f =>
        cases hs
        have hr1' := hr1
        obtain ⟨_, _, _, hat, hf1, hf2⟩ := hr1'
        refine fin _ ?_ (exec_topic hx (by omega) hr1)
        have := hq.topic x.cb f hf1 hat.1 hf2
        cases hc : cbs.topicFilter x.cb f with
        | abort => exact absurd hc this
        | err s => exact Or.inr (Or.inl ⟨s, rfl⟩)
        | ret r s =>
          obtain ⟨x', h1, h2, _⟩ := push_rel (x := { x with cb := s }) (is := is) hx (by omega) (e := .topic f) (r := r) trivial
          exact Or.inl ⟨x', h1, h2, hdx hdi⟩
      | tag t =>
        cases hs
        refine fin _ ?_ (exec_tag hx (by omega) hr1)
        split
        · obtain ⟨x', h1, h2, _⟩ := push_rel hx (by omega) (e := .tag t) (r := 0) trivial
          exact Or.inl ⟨x', h1, h2, hdx hdi⟩
        · have := hq.tag x.cb t
          cases hc : cbs.arrayTag x.cb t with
          | abort => exact absurd hc this
          | err s => exact Or.inr (Or.inl ⟨s, rfl⟩)
          | ret r s =>
            obtain ⟨r, ix⟩ := r
            cases ix with
            | none =>
              obtain ⟨x', h1, h2, _⟩ := push_rel (x := { x with cb := s }) (is := is) hx (by omega) (e := .tag t) (r := r) trivial
              exact Or.inl ⟨x', h1, h2, hdx hdi⟩
            | some ix =>
              obtain ⟨x', h1, h2, _⟩ := push_rel (x := { x with cb := s, index := ix }) (is := is) hx (by omega) (e := .tag t) (r := r) trivial
              exact Or.inl ⟨x', h1, h2, hdx hdi⟩
      | const b =>
        cases hs
        refine fin _ ?_ (exec_const hx (by omega) hr1)
        obtain ⟨x', h1, h2, _⟩ := push_rel hx (by omega) (e := .const b) (r := truth b) trivial
        exact Or.inl ⟨x', h1, h2, hdx hdi⟩
      | dest d =>
        cases hs
        obtain ⟨x', h1, h2, _⟩ := exec_dest (cbs := cbs) hx (by omega) hr1
        refine fin _ (Or.inl ⟨x', rfl, h2, ?_⟩) h1
        intro d' hd'
        rcases List.mem_cons.mp hd' with h | h
        · cases h; exact hd d (by simp)
        · exact hdi d' h
      | and =>
        match is, hs with
        | .expr b :: .expr a :: st, hs =>
          cases hs
          refine fin _ ?_ (exec_and hx (by simp at hl; omega) hr1)
          obtain ⟨x', h1, h2, _⟩ := two_rel (f := and_) (e := .and a b) hx (fun _ _ _ _ => trivial)
          exact Or.inl ⟨x', h1, h2, hdx fun d hd => hdi d (by simp [hd])⟩
      | or =>
        match is, hs with
        | .expr b :: .expr a :: st, hs =>
          cases hs
          refine fin _ ?_ (exec_or hx (by simp at hl; omega) hr1)
          obtain ⟨x', h1, h2, _⟩ := two_rel (f := or_) (e := .or a b) hx (fun _ _ _ _ => trivial)
          exact Or.inl ⟨x', h1, h2, hdx fun d hd => hdi d (by simp [hd])⟩
      | not =>
        match is, hs with
        | .expr a :: st, hs =>
          cases hs
          obtain ⟨x', h1, h2, _⟩ := exec_not (cbs := cbs) hx (by simp at hl; omega) hr1 (fun _ _ => trivial)
          exact fin _ (Or.inl ⟨x', rfl, h2, hdx fun d hd => hdi d (by simp [hd])⟩) h1
      | apply =>
        match is, hs with
        | .dest d :: .expr a :: st, hs =>
          cases hs
          obtain ⟨v, _, h1⟩ := exec_apply (cbs := cbs) hx (by simp at hl; omega) hr1
          refine fin _ ?_ h1
          have := hq.apply (v &&& 1 = 1) x.cb d (hdi d (by simp))
          cases hc : cbs.apply (v &&& 1 = 1) x.cb d with
          | abort => exact absurd hc this
          | err s => exact Or.inr (Or.inl ⟨s, rfl⟩)
          | ret u s => exact Or.inl ⟨_, rfl, drop_rel hx s, fun d hd => hdi d (by simp at hd ⊢; exact Or.inr hd)⟩
      | pop =>
        match is, hs with
        | i :: st, hs =>
          cases hs
          exact fin _ (Or.inl ⟨_, rfl, drop_rel hx x.cb, fun d hd => hdi d (by simp [hd])⟩) (exec_pop hx (by simp at hl; omega) hr1)
      | bail =>
        match is, hs with
        | .expr a :: st, hs =>
          cases hs
          obtain ⟨v, _, h1⟩ := exec_bail (cbs := cbs) hx (by simp at hl; omega) hr1
          refine fin _ ?_ h1
          split
          · exact Or.inr (Or.inr ⟨_, rfl⟩)
          · exact Or.inl ⟨_, rfl, drop_rel hx x.cb, fun d hd => hdi d (by simp [hd])⟩

theorem init_rel {σ : Type} (storage : Bytes) (V : Expr → UInt32 → Prop) (s : σ) :
    ExecRel storage V ⟨List.replicate stackMax ⟨0, 0, 0⟩, 0, [], s⟩ [] :=
  ⟨[], List.replicate stackMax ⟨0, 0, 0⟩, rfl, rfl, by rw [List.length_replicate]; rfl, trivial⟩

theorem repAll_dest {p : Prog} : ∀ {es : List Elem} {ws : List Word} {d : Bytes}, RepAll p.storage es ws → .dest d ∈ ws →
    some d ∈ (es.filter fun e => e.type = .destination).map fun e => cstrAt p.storage e.val.dataPos := by
  intro es
  induction es with
  | nil => intro ws d h hd; cases ws with
    | nil => cases hd
    | cons _ _ => cases h
  | cons e es ih =>
    intro ws d h hd
    cases ws with
    | nil => cases h
    | cons w ws =>
      rcases List.mem_cons.mp hd with rfl | hd
      · obtain ⟨⟨h1, _, _, h4⟩, _⟩ := h
        rw [List.filter_cons_of_pos (by simp [h1])]
        simp [h4.cstrAt]
      · have := ih h.2 hd
        rw [List.filter_cons]
        split
        · rw [List.map_cons]; exact List.mem_cons_of_mem _ this
        · exact this

/-- **C27**, partial. A text which is shorter than 256 MB is accepted or refused, the parser does not abort and does not write outside of its list.

Missing from the full property: longer texts, with which the list of elements can overflow, see `parse_overflow`. -/
theorem parse_safe_partial (text : Bytes) (h : text.length < 2 ^ 28) : parse text ≠ .abort ∧ parse text ≠ .oob := by
  have hl := ignoreControl_length text
  unfold parse
  dsimp only
  split
  · exact ⟨by simp, by simp⟩
  · exact parseLoop_safe _ ⟨[], []⟩ [] _ [] trivial (by simp) (by simp; omega) (by simp; omega)

/-- **C27** A definition which was accepted can be executed with any callbacks: when none of the callbacks aborts, the
execution does not abort and does not access anything outside of its stack or of the definition. The only destinations which callbacks
are given are those found by `destinationNames`. -/
theorem execute_safe {σ : Type} (cbs : Callbacks σ) {text rest : Bytes} {p : Prog} (hp : parse text = .ok p rest)
    (hq : Quiet cbs fun d => some d ∈ destinationNames p) (s : σ) : execute cbs p s ≠ .abort ∧ execute cbs p s ≠ .oob := by
  obtain ⟨ws, as, h1, h2⟩ := parse_words hp
  unfold execute
  refine execLoop_safe hq p.list ws [] _ h1 (fun d hd => repAll_dest h1 hd) (by simp) (init_rel _ _ s) (by simp) ?_
  unfold actions at h2
  split at h2
  · exact Or.inl ⟨by assumption, rfl⟩
  · exact Or.inr ⟨as, h2⟩

/-- The same for a collection of definitions. -/
theorem executeAll_safe {σ : Type} (cbs : Callbacks σ) : ∀ (ps : List Prog), (∀ p ∈ ps, ∃ text rest, parse text = .ok p rest) →
    (Quiet cbs fun d => ∃ p ∈ ps, some d ∈ destinationNames p) → ∀ s, executeAll cbs ps s ≠ .abort ∧ executeAll cbs ps s ≠ .oob := by
  intro ps
  induction ps with
  | nil => intro _ _ s; exact ⟨by simp [executeAll], by simp [executeAll]⟩
  | cons p ps ih =>
    intro hp hq s
    obtain ⟨text, rest, hp1⟩ := hp p (by simp)
    have h1 := execute_safe cbs hp1 ⟨hq.topic, hq.tag, fun r s d hd => hq.apply r s d ⟨p, by simp, hd⟩⟩ s
    unfold executeAll
    cases he : execute cbs p s with
    | done s' =>
      exact ih (fun q hq' => hp q (by simp [hq'])) ⟨hq.topic, hq.tag, fun r s d ⟨q, hq1, hq2⟩ => hq.apply r s d ⟨q, by simp [hq1], hq2⟩⟩ s'
    | bail s' => exact ⟨by simp, by simp⟩
    | err s' => exact ⟨by simp, by simp⟩
    | abort => exact absurd he h1.1
    | oob => exact absurd he h1.2

/-- The callbacks for messages don't abort, for messages which are consistent and have values which can be unpacked or are refused (C60). -/
theorem helper_quiet {τ : Type} (le : Bool) (nxt : UInt8) (m : MsgMsg) (applyFalse : Option (τ → Bytes → Call τ Unit)) (applyTrue : τ → Bytes → Call τ Unit)
    (D : Bytes → Prop) (hm : m.topicLength.toNat ≤ m.body.length)
    (ha : m.class_ = 11 → Types.toArray le m = .soft ∨ ∃ vs, Types.toArray le m = .ok vs)
    (hf : ∀ f, applyFalse = some f → ∀ s d, D d → f s d ≠ .abort) (ht : ∀ s d, D d → applyTrue s d ≠ .abort) :
    Quiet (helper le nxt m applyFalse applyTrue) D := by
  constructor
  · intro s f h1 h2 h3
    show (match topicResolve nxt m f with | some r => Call.ret r s | none => .abort) ≠ .abort
    have : topicResolve nxt m f ≠ none := by
      unfold topicResolve
      rw [if_neg (by omega)]
      split
      · simp
      · rename_i h0
        have hne : m.body.take m.topicLength.toNat ≠ [] := by
          intro e
          have := congrArg List.length e
          rw [List.length_take] at this
          simp only [List.length_nil] at this
          apply h0
          apply UInt16.toNat_inj.mp
          show _ = 0
          omega
        have := Topic.matchLinear_no_abort nxt f _ h1 hne h2 h3
        split
        · simp
        · simp
        · rename_i h; exact absurd h this
    split
    · simp
    · rename_i h; exact absurd h this
  · intro s t
    show (match tagResolve le m s.1 t with | .ok (r, i, p) => Call.ret (r, i) (p, s.2) | .bug | .oob => .abort | _ => .err s) ≠ .abort
    unfold tagResolve
    by_cases hc : m.class_ = 11
    · rw [if_neg (fun h => h hc)]
      rcases ha hc with h | ⟨vs, h⟩ <;> rw [h] <;> simp [Res.bind]
    · rw [if_pos hc]
      simp
  · intro r s d hd
    unfold Callbacks.apply
    split
    · show (match applyTrue s.2 d with | .ret () t => Call.ret () (s.1, t) | .err t => .err (s.1, t) | .abort => .abort) ≠ .abort
      have := ht s.2 d hd
      split
      · simp
      · simp
      · rename_i h; exact absurd h this
    · cases applyFalse with
      | none => simp [helper]
      | some f =>
        show (match f s.2 d with | .ret () t => Call.ret () (s.1, t) | .err t => .err (s.1, t) | .abort => .abort) ≠ .abort
        have := hf f rfl s.2 d hd
        split
        · simp
        · simp
        · rename_i h; exact absurd h this

end Verif.Discern
