import Verif.Config.Settings
import Verif.ArrayDef.Props
import Verif.Discern.Props
/-! # The file -/
namespace Verif.Config
open AclFile (Out bind_ok)
open Verif.Config.Spec

/-! ## Texts of definitions -/

theorem finish_rest {p q : Discern.Prog} {r r' : Bytes} (h : Discern.finish p r = .ok q r') : r' = r := by
  unfold Discern.finish at h
  split at h
  · cases h; rfl
  · cases h

theorem parseLoop_rest : ∀ (n : Nat) (prog : Discern.Prog) (stack : List Discern.Cell) (b : Bytes) (p : Discern.Prog) (r : Bytes), Discern.parseLoop n prog stack b = .ok p r → r.length ≤ b.length := by
  intro n
  induction n with
  | zero => intro prog stack b p r h; cases h
  | succ n ih =>
    intro prog stack b p r h
    have hnil : (if stack = [] then Discern.finish prog [] else Discern.Parsed.fault .stackCount) = .ok p r → r.length ≤ b.length := by
      intro h
      split at h
      · rw [finish_rest h]; simp
      · cases h
    unfold Discern.parseLoop at h
    split at h
    · exact hnil h
    · cases hx : Discern.lex b with
      | eof => rw [hx] at h; exact hnil h
      | fault f => rw [hx] at h; cases h
      | comment r1 =>
        rw [hx] at h
        have := ih _ _ _ _ _ h
        have := Discern.lex_comment hx
        omega
      | elem q r1 =>
        rw [hx] at h
        dsimp only at h
        obtain ⟨_, hl, _⟩ := Discern.lex_elem hx
        split at h
        · cases h
        · split at h
          · cases h
          · split at h
            · cases h
            · cases h
            · split at h
              · rw [finish_rest h]; omega
              · have := ih _ _ _ _ _ h; omega

theorem parse_rest {b r : Bytes} {p : Discern.Prog} (h : Discern.parse b = .ok p r) : r.length ≤ b.length := by
  unfold Discern.parse at h
  dsimp only at h
  have hl := Discern.ignoreControl_length b
  split at h
  · cases h
  · have := parseLoop_rest _ _ _ _ _ _ h; omega

theorem interpret_rest {b r : Bytes} {t : ArrayTree.Tree} (h : ArrayDef.interpret b = .ok (t, r)) : r.length ≤ b.length := by
  rcases (ArrayDef.accepted_definition_partial t b r h).2 with h1 | ⟨r0, h1, rfl⟩
  · exact Nat.le_of_lt (ArrayDef.text_length _ _ _ _ h1)
  · have := ArrayDef.text_length _ _ _ _ h1
    have := (ig_suffix r0).length_le
    omega

theorem nameText_length {e : UInt8} {n s r : Bytes} (h : NameText e n s r) : r.length + 1 < s.length := by
  obtain ⟨s1, s2, rfl, _, ⟨hn, _⟩, _⟩ := h
  have := List.length_pos_iff.mpr hn
  simp; omega

theorem blockText_length {n : Bytes} {m : Option Bytes} {s r : Bytes} (h : BlockText n m s r) : r.length + 1 < s.length := by
  cases m with
  | none => exact nameText_length h
  | some m =>
    obtain ⟨t, u, h1, h2, s1, rfl, _⟩ := h
    have := nameText_length h1
    have := nameText_length h2
    simp at this
    omega

theorem settingsText_length : ∀ {ss : List (Bytes × Bytes)} {s r : Bytes}, SettingsText ss s r → r.length ≤ s.length
  | [], s, r, h => (skips_suffix h.1).length_le
  | x :: xs, s, r, h => by
    obtain ⟨u, w, h1, h2, h3⟩ := h
    have := (skips_suffix h1).length_le
    have := (settingText_suffix h2).2
    have := settingsText_length h3
    omega

/-! ## Texts -/

theorem text_ig {b : Bool} {s : Bytes} {is : List Item} : Text b (Parse.ignoreSpaces s) is ↔ Text b s is := by
  obtain ⟨sp, h1, h2⟩ := ig_split s
  constructor
  · intro h
    rw [h1]
    clear h1
    induction sp with
    | nil => exact h
    | cons c sp ih => exact .space (fun d hd => by simp at hd; exact h2 d (by simp [hd])) (ih fun d hd => h2 d (by simp [hd]))
  · intro h
    rw [h1] at h
    generalize hr : Parse.ignoreSpaces s = r at h
    clear h1
    induction sp with
    | nil => exact h
    | cons c sp ih =>
      have hc : Blank [c] := fun d hd => by simp at hd; exact h2 d (by simp [hd])
      refine ih (fun d hd => h2 d (by simp [hd])) ?_
      have hno : ∀ d : UInt8, d = 35 ∨ d = 123 ∨ d = 60 ∨ d = 40 ∨ d = 91 → ¬ Blank [d] := by
        rintro d hd
        rw [← blank_iff]
        rcases hd with rfl | rfl | rfl | rfl | rfl <;> decide
      generalize hx : c :: sp ++ r = x at h
      rw [List.cons_append] at hx
      cases h with
      | done => cases hx
      | space _ h => cases hx; exact h
      | comment => rw [List.cons.injEq] at hx; exact absurd hc (hno _ (by simp [hx.1]))
      | tree => cases hx; exact absurd hc (hno _ (by simp))
      | route => cases hx; exact absurd hc (hno _ (by simp))
      | method => cases hx; exact absurd hc (hno _ (by simp))
      | inst => cases hx; exact absurd hc (hno _ (by simp))
      | stray _ hd => rw [List.cons.injEq] at hx; exact absurd hc (hno _ (by rcases hd with h | h | h <;> simp [hx.1, h]))
      | strayEnd => cases hx; exact absurd hc (hno _ (by simp))

theorem text_head {b : Bool} {s : Bytes} {is : List Item} (h : Text b s is) : ∀ c, s.head? = some c → ¬ NameChar c := by
  have hno : ∀ d : UInt8, d = 35 ∨ d = 123 ∨ d = 60 ∨ d = 40 ∨ d = 91 → ¬ NameChar d := by
    rintro d hd
    rw [← name_iff]
    rcases hd with rfl | rfl | rfl | rfl | rfl <;> decide
  intro c hc
  cases h with
  | done => cases hc
  | space hb _ => cases hc; exact fun hn => name_not_blank _ hn hb
  | comment => cases hc; exact hno _ (by simp)
  | tree => cases hc; exact hno _ (by simp)
  | route => cases hc; exact hno _ (by simp)
  | method => cases hc; exact hno _ (by simp)
  | inst => cases hc; exact hno _ (by simp)
  | stray _ hd => cases hc; exact hno _ (by rcases hd with h | h | h <;> simp [h])
  | strayEnd => cases hc; exact hno _ (by simp)

/-! ## What has been read -/

/-- The configuration with more items. -/
def add (c : Conf) (is : List Item) : Conf := ⟨c.trees ++ trees is, c.routes ++ routes is, c.methods ++ methods is, c.insts ++ insts is⟩

/-- The configuration may have been read. -/
structure Once (c : Conf) : Prop where
  routesOnce : (c.routes.map (·.1)).Nodup
  methodsOnce : (c.methods.map (·.1)).Nodup
  instsOnce : (c.insts.map fun i => (i.main, i.sub)).Nodup
  settingsOk : ∀ i ∈ c.insts, SettingsOk i.settings

theorem add_nil (c : Conf) : add c [] = c := by simp [add, trees, routes, methods, insts]

theorem add_add (c : Conf) (a b : List Item) : add (add c a) b = add c (a ++ b) := by simp [add, trees, routes, methods, insts]

theorem once_left {c : Conf} {is : List Item} (h : Once (add c is)) : Once c := by
  obtain ⟨h1, h2, h3, h4⟩ := h
  simp only [add, List.map_append, List.nodup_append] at h1 h2 h3 h4
  exact ⟨h1.1, h2.1, h3.1, fun i hi => h4 i (List.mem_append_left _ hi)⟩

theorem nodup_snoc {α : Type} {l : List α} {a : α} : (l ++ [a]).Nodup ↔ l.Nodup ∧ a ∉ l := by
  rw [List.nodup_append]
  constructor
  · rintro ⟨h1, _, h3⟩; exact ⟨h1, fun h => h3 a h a (by simp) rfl⟩
  · rintro ⟨h1, h2⟩; exact ⟨h1, by simp, fun x hx y hy => by simp at hy; subst hy; rintro rfl; exact h2 hx⟩

theorem any_name {ps : List (Bytes × Discern.Prog)} {n : Bytes} : (ps.any fun p => decide (p.1 = n)) = true ↔ n ∈ ps.map (·.1) := by
  rw [List.any_eq_true, List.mem_map]
  constructor
  · rintro ⟨x, hx, h⟩; exact ⟨x, hx, by simpa using h⟩
  · rintro ⟨x, hx, h⟩; exact ⟨x, hx, by simpa using h⟩

theorem findInst_iff {is : List Inst} {n : Bytes} {m : Option Bytes} : (findInst is n m).isSome = true ↔ (n, m) ∈ is.map fun i => (i.main, i.sub) := by
  unfold findInst
  rw [List.find?_isSome, List.mem_map]
  constructor
  · rintro ⟨x, hx, h⟩; simp at h; exact ⟨x, hx, by rw [h.1, h.2]⟩
  · rintro ⟨x, hx, h⟩; cases h; exact ⟨x, hx, by simp⟩

/-! ## Definitions -/

theorem treeOut_ok {b r : Bytes} {t : ArrayTree.Tree} : treeOut b = .ok (t, r) ↔ ArrayDef.interpret b = .ok (t, r) := by
  unfold treeOut
  split <;> rename_i h <;> simp [h]

theorem stackOut_ok {b r : Bytes} {p : Discern.Prog} : stackOut b = .ok (p, r) ↔ Discern.parse b = .ok p r := by
  unfold stackOut
  split <;> rename_i h <;> simp [h]

theorem end_ok {e : UInt8} (h : e = 125 ∨ e = 62 ∨ e = 41) : ¬ NameChar e ∧ ¬ Blank [e] := by
  rw [← name_iff, ← blank_iff]
  rcases h with rfl | rfl | rfl <;> decide

/-- What one round reads. -/
def Read (c : Conf) (b : Bytes) (c' : Conf) (r : Bytes) : Prop :=
  ∃ is, c' = add c is ∧ Once c' ∧ r.length < b.length ∧ ∀ is', Text false r is' → Text false b (is ++ is')

theorem stray_read {c : Conf} (hc : Once c) {d : UInt8} (hd : d = 123 ∨ d = 60 ∨ d = 40) {b r : Bytes} (hb : b ≠ []) (h1 : r = Parse.ignoreSpaces b) (h2 : ∀ x, r.head? = some x → ¬ NameChar x) : Read c (d :: b) c r := by
  refine ⟨[], (add_nil c).symm, hc, ?_, fun is' h => ?_⟩
  · have := (ig_suffix b).length_le
    rw [h1]; simp; omega
  · obtain ⟨sp, e1, e2⟩ := ig_split b
    rw [← h1] at e1
    rw [e1]
    exact .stray rfl hd e2 (by rw [← e1]; exact hb) h2 h

theorem stackDef_sound {e : UInt8} (he : e = 62 ∨ e = 41) {ps ps' : List (Bytes × Discern.Prog)} {b r : Bytes} (h : stackDef e ps b = .ok (ps', r)) :
    (ps' = ps ∧ r = Parse.ignoreSpaces b ∧ ∀ c, r.head? = some c → ¬ NameChar c) ∨
    ∃ n u p, NameText e n b u ∧ Discern.parse u = .ok p r ∧ ps' = ps ++ [(n, p)] ∧ n ∉ ps.map (·.1) := by
  unfold stackDef at h
  obtain ⟨⟨o, u⟩, h1, h2⟩ := bind_ok.mp h
  cases o with
  | none =>
    simp only [Out.ok.injEq, Prod.mk.injEq] at h2
    obtain ⟨rfl, rfl⟩ := h2
    obtain ⟨e1, e2⟩ := (extractName_none _ _).mp h1
    exact Or.inl ⟨rfl, e1, e2⟩
  | some n =>
    simp only at h2
    split at h2
    · cases h2
    · rename_i hn
      obtain ⟨⟨p, r'⟩, h3, h4⟩ := bind_ok.mp h2
      simp only [Out.ok.injEq, Prod.mk.injEq] at h4
      obtain ⟨rfl, rfl⟩ := h4
      have hk := end_ok (e := e) (by rcases he with h | h <;> simp [h])
      exact Or.inr ⟨n, u, p, (extractName_some hk.1 hk.2 _ _ _).mp h1, stackOut_ok.mp h3, rfl, fun hm => hn (any_name.mpr hm)⟩

theorem stackDef_of {e : UInt8} (he : e = 62 ∨ e = 41) {ps : List (Bytes × Discern.Prog)} {n b u r : Bytes} {p : Discern.Prog} (h1 : NameText e n b u) (h2 : Discern.parse u = .ok p r) (h3 : n ∉ ps.map (·.1)) :
    stackDef e ps b = .ok (ps ++ [(n, p)], r) := by
  have hk := end_ok (e := e) (by rcases he with h | h <;> simp [h])
  unfold stackDef
  rw [(extractName_some hk.1 hk.2 _ _ _).mpr h1]
  simp only [Out.bind]
  rw [if_neg fun hm => h3 (any_name.mp hm), stackOut_ok.mpr h2]

theorem stackDef_stray {e : UInt8} {ps : List (Bytes × Discern.Prog)} {b r : Bytes} (h1 : r = Parse.ignoreSpaces b) (h2 : ∀ c, r.head? = some c → ¬ NameChar c) : stackDef e ps b = .ok (ps, r) := by
  unfold stackDef
  rw [(extractName_none _ _).mpr ⟨h1, h2⟩]
  rfl

theorem treeDef_stray {c : Conf} {b r : Bytes} (h1 : r = Parse.ignoreSpaces b) (h2 : ∀ c, r.head? = some c → ¬ NameChar c) : treeDef c b = .ok (c, r) := by
  unfold treeDef
  rw [(extractName_none _ _).mpr ⟨h1, h2⟩]
  rfl

/-! ## One round -/

theorem any_ig (c : Conf) (b : Bytes) : any c (Parse.ignoreSpaces b) = any c b := by
  unfold any
  rw [ig_self (ig_head b)]

theorem any_sound {c c' : Conf} {b r : Bytes} (hc : Once c) (hb : b ≠ []) (h : any c b = .ok (c', r)) : Read c b c' r := by
  suffices hs : Parse.ignoreSpaces b ≠ [] → Read c (Parse.ignoreSpaces b) c' r by
    by_cases hi : Parse.ignoreSpaces b = []
    · unfold any at h
      rw [hi] at h
      simp only [Out.ok.injEq, Prod.mk.injEq] at h
      obtain ⟨rfl, rfl⟩ := h
      exact ⟨[], (add_nil c).symm, hc, by simpa using List.length_pos_iff.mpr hb, fun is' ht => text_ig.mp (by rw [hi]; exact ht)⟩
    · obtain ⟨is, h1, h2, h3, h4⟩ := hs hi
      exact ⟨is, h1, h2, Nat.lt_of_lt_of_le h3 (ig_suffix b).length_le, fun is' ht => text_ig.mp (h4 is' ht)⟩
  intro hi
  unfold any at h
  cases hd : Parse.ignoreSpaces b with
  | nil => exact absurd hd hi
  | cons d t =>
    rw [hd] at h
    simp only at h
    split at h
    · cases h
    · rename_i ht
      split at h
      · rename_i h35
        subst h35
        simp only [Out.ok.injEq, Prod.mk.injEq] at h
        obtain ⟨rfl, rfl⟩ := h
        obtain ⟨l, u, sp, e1, e2, e3, e4, e5, e6⟩ := comment_skips t
        refine ⟨[], (add_nil c).symm, hc, ?_, fun is' hT => ?_⟩
        · have := Discern.comment_length t; simp; omega
        · rw [e6] at hT
          rw [e1]
          exact .comment e2 e3 (by rw [← e1]; exact ht) (text_ig.mp hT)
      · split at h
        · rename_i h123
          subst h123
          unfold treeDef at h
          obtain ⟨⟨o, u⟩, h1, h2⟩ := bind_ok.mp h
          cases o with
          | none =>
            simp only [Out.ok.injEq, Prod.mk.injEq] at h2
            obtain ⟨rfl, rfl⟩ := h2
            obtain ⟨e1, e2⟩ := (extractName_none _ _).mp h1
            exact stray_read hc (by simp) ht e1 e2
          | some n =>
            obtain ⟨⟨tr, r'⟩, h3, h4⟩ := bind_ok.mp h2
            simp only [Out.ok.injEq, Prod.mk.injEq] at h4
            obtain ⟨rfl, rfl⟩ := h4
            have hk := end_ok (e := 125) (by simp)
            have hn := (extractName_some hk.1 hk.2 _ _ _).mp h1
            refine ⟨[.tree n tr], by simp [add, trees, routes, methods, insts], ⟨hc.1, hc.2, hc.3, hc.4⟩, ?_, fun is' hT => .tree hn (treeOut_ok.mp h3) hT⟩
            have := nameText_length hn
            have := interpret_rest (treeOut_ok.mp h3)
            simp only at this
            simp; omega
        · split at h
          · rename_i h60
            subst h60
            obtain ⟨⟨ps, r'⟩, h1, h2⟩ := bind_ok.mp h
            simp only [Out.ok.injEq, Prod.mk.injEq] at h2
            obtain ⟨rfl, rfl⟩ := h2
            rcases stackDef_sound (by simp) h1 with ⟨rfl, e1, e2⟩ | ⟨n, u, p, e1, e2, rfl, e4⟩
            · exact stray_read hc (by simp) ht e1 e2
            · refine ⟨[.route n p], by simp [add, trees, routes, methods, insts], ⟨?_, hc.2, hc.3, hc.4⟩, ?_, fun is' hT => .route e1 e2 hT⟩
              · rw [List.map_append]; exact nodup_snoc.mpr ⟨hc.1, e4⟩
              · have := nameText_length e1
                have := parse_rest e2
                simp; omega
          · split at h
            · rename_i h40
              subst h40
              obtain ⟨⟨ps, r'⟩, h1, h2⟩ := bind_ok.mp h
              simp only [Out.ok.injEq, Prod.mk.injEq] at h2
              obtain ⟨rfl, rfl⟩ := h2
              rcases stackDef_sound (by simp) h1 with ⟨rfl, e1, e2⟩ | ⟨n, u, p, e1, e2, rfl, e4⟩
              · exact stray_read hc (by simp) ht e1 e2
              · refine ⟨[.method n p], by simp [add, trees, routes, methods, insts], ⟨hc.1, ?_, hc.3, hc.4⟩, ?_, fun is' hT => .method e1 e2 hT⟩
                · rw [List.map_append]; exact nodup_snoc.mpr ⟨hc.2, e4⟩
                · have := nameText_length e1
                  have := parse_rest e2
                  simp; omega
            · split at h
              · rename_i h91
                subst h91
                unfold block at h
                obtain ⟨⟨o, u⟩, h1, h2⟩ := bind_ok.mp h
                cases o with
                | none =>
                  simp only [Out.ok.injEq, Prod.mk.injEq] at h2
                  obtain ⟨rfl, rfl⟩ := h2
                  obtain ⟨e1, rfl⟩ := (blockName_none _ _).mp h1
                  refine ⟨[], (add_nil c).symm, hc, by simp, fun is' hT => ?_⟩
                  cases hT
                  exact .strayEnd rfl e1 ht
                | some x =>
                  obtain ⟨n, m⟩ := x
                  simp only at h2
                  split at h2
                  · cases h2
                  · rename_i hu
                    split at h2
                    · cases h2
                    · rename_i hf
                      obtain ⟨⟨ss, r'⟩, h3, h4⟩ := bind_ok.mp h2
                      simp only [Out.ok.injEq, Prod.mk.injEq] at h4
                      obtain ⟨rfl, rfl⟩ := h4
                      obtain ⟨new, e1, e2, e3, e4⟩ := settingsLoop_sound _ _ _ _ _ settingsOk_nil h3
                      rw [List.nil_append] at e1
                      subst e1
                      have hB := (blockName_some _ _ _ _).mp h1
                      refine ⟨[.inst ⟨n, m, ss⟩], by simp [add, trees, routes, methods, insts], ⟨hc.1, hc.2, ?_, ?_⟩, ?_, fun is' hT => .inst (i := ⟨n, m, ss⟩) hB hu e2 hT⟩
                      · simp only
                        rw [List.map_append]
                        exact nodup_snoc.mpr ⟨hc.3, fun hm => hf (findInst_iff.mpr hm)⟩
                      · intro i hi
                        simp only at hi
                        rcases List.mem_append.mp hi with hi | hi
                        · exact hc.4 i hi
                        · simp at hi; rw [hi]; exact e3
                      · have := blockText_length hB
                        have := settingsText_length e2
                        simp; omega
              · cases h

theorem loop_sound : ∀ (k : Nat) (c c' : Conf) (b : Bytes), Once c → loop k c b = .ok c' → ∃ is, Text false b is ∧ c' = add c is ∧ Once c' := by
  intro k
  induction k with
  | zero => intro c c' b _ h; cases h
  | succ k ih =>
    intro c c' b hc h
    rw [loop] at h
    split at h
    · rename_i hb
      cases h
      rw [hb]
      exact ⟨[], .done, (add_nil c).symm, hc⟩
    · rename_i hb
      obtain ⟨⟨c1, r⟩, h1, h2⟩ := bind_ok.mp h
      obtain ⟨is1, rfl, g2, _, g4⟩ := any_sound hc hb h1
      obtain ⟨is2, e1, e2, e3⟩ := ih _ _ _ g2 h2
      exact ⟨is1 ++ is2, g4 _ e1, by rw [e2, add_add], e3⟩

/-! ## The other way -/

theorem loop_ig {k : Nat} {c : Conf} {b : Bytes} (h : b.length < k) : loop k c (Parse.ignoreSpaces b) = loop k c b := by
  cases k with
  | zero => omega
  | succ k =>
    rw [loop, loop, any_ig]
    by_cases hb : b = []
    · subst hb; rfl
    · rw [if_neg hb]
      split
      · rename_i hi
        have : any c b = .ok (c, []) := by unfold any; rw [hi]
        rw [this]
        simp only [Out.bind]
        have := List.length_pos_iff.mpr hb
        cases k with
        | zero => omega
        | succ k => rw [loop, if_pos rfl]
      · rfl

theorem loop_step {k : Nat} {c c1 : Conf} {b r : Bytes} (hb : b ≠ []) (h : any c b = .ok (c1, r)) : loop (k + 1) c b = loop k c1 r := by
  rw [loop, if_neg hb, h]
  rfl

theorem any_of {c : Conf} {d : UInt8} {t : Bytes} (hd : ¬ Blank [d]) (ht : t ≠ []) : any c (d :: t) =
    if d = 35 then .ok (c, Parse.comment t)
    else if d = 123 then treeDef c t
    else if d = 60 then (stackDef 62 c.routes t).bind fun x => .ok ({ c with routes := x.1 }, x.2)
    else if d = 40 then (stackDef 41 c.methods t).bind fun x => .ok ({ c with methods := x.1 }, x.2)
    else if d = 91 then block c t
    else .err := by
  unfold any
  rw [ig_self (by intro x hx; simp at hx; rw [← hx]; exact hd)]
  simp only [if_neg ht]

theorem once_cons {c : Conf} {i : Item} {is : List Item} (h : Once (add c (i :: is))) : Once (add c [i]) ∧ Once (add (add c [i]) is) := by
  have : add c (i :: is) = add (add c [i]) is := by rw [add_add]; rfl
  rw [this] at h
  exact ⟨once_left h, h⟩

theorem loop_complete {s : Bytes} {is : List Item} (h : Text false s is) : ∀ (k : Nat) (c : Conf), s.length < k → Once (add c is) → loop k c s = .ok (add c is) := by
  induction h with
  | done =>
    intro k c hk hc
    cases k with
    | zero => simp at hk
    | succ k => rw [loop, if_pos rfl, add_nil]
  | @space x t is hb hT ih =>
    intro k c hk hc
    rw [← loop_ig hk, show (x :: t : Bytes) = [x] ++ t from rfl, ig_skip hb, loop_ig (by simp at hk; omega)]
    exact ih k c (by simp at hk; omega) hc
  | @comment l t is hl he hne hT ih =>
    intro k c hk hc
    cases k with
    | zero => simp at hk
    | succ k =>
      have hk' : t.length < k := by simp at hk; omega
      rw [loop_step (r := Parse.ignoreSpaces t) (c1 := c) (by simp), loop_ig hk']
      · exact ih k c hk' hc
      · rw [any_of (by rw [← blank_iff]; decide) hne, if_pos rfl, comment_of hl he]
  | @tree s u r n t is h1 h2 hT ih =>
    intro k c hk hc
    cases k with
    | zero => simp at hk
    | succ k =>
      have g1 := nameText_length h1
      have g2 := interpret_rest h2
      have hs : s ≠ [] := by rintro rfl; simp at g1
      obtain ⟨_, hc2⟩ := once_cons hc
      rw [loop_step (r := r) (c1 := add c [.tree n t]) (by simp), ih k _ (by simp at hk; omega) hc2, add_add]
      · rfl
      · rw [any_of (by rw [← blank_iff]; decide) hs, if_neg (by decide), if_pos rfl]
        unfold treeDef
        have hk := end_ok (e := 125) (by simp)
        rw [(extractName_some hk.1 hk.2 _ _ _).mpr h1]
        simp only [Out.bind]
        rw [treeOut_ok.mpr h2]
        simp [add, trees, routes, methods, insts]
  | @route s u r n p is h1 h2 hT ih =>
    intro k c hk hc
    cases k with
    | zero => simp at hk
    | succ k =>
      have g1 := nameText_length h1
      have g2 := parse_rest h2
      have hs : s ≠ [] := by rintro rfl; simp at g1
      obtain ⟨hc1, hc2⟩ := once_cons hc
      rw [loop_step (r := r) (c1 := add c [.route n p]) (by simp), ih k _ (by simp at hk; omega) hc2, add_add]
      · rfl
      · have hn : n ∉ c.routes.map (·.1) := by
          have := hc1.1
          simp only [add, routes, List.filterMap_cons, List.filterMap_nil, List.map_append] at this
          exact (nodup_snoc.mp this).2
        rw [any_of (by rw [← blank_iff]; decide) hs, if_neg (by decide), if_neg (by decide), if_pos rfl, stackDef_of (by simp) h1 h2 hn]
        simp [Out.bind, add, trees, routes, methods, insts]
  | @method s u r n p is h1 h2 hT ih =>
    intro k c hk hc
    cases k with
    | zero => simp at hk
    | succ k =>
      have g1 := nameText_length h1
      have g2 := parse_rest h2
      have hs : s ≠ [] := by rintro rfl; simp at g1
      obtain ⟨hc1, hc2⟩ := once_cons hc
      rw [loop_step (r := r) (c1 := add c [.method n p]) (by simp), ih k _ (by simp at hk; omega) hc2, add_add]
      · rfl
      · have hn : n ∉ c.methods.map (·.1) := by
          have := hc1.2
          simp only [add, methods, List.filterMap_cons, List.filterMap_nil, List.map_append] at this
          exact (nodup_snoc.mp this).2
        rw [any_of (by rw [← blank_iff]; decide) hs, if_neg (by decide), if_neg (by decide), if_neg (by decide), if_pos rfl, stackDef_of (by simp) h1 h2 hn]
        simp [Out.bind, add, trees, routes, methods, insts]
  | @inst s u r i is h1 hu h2 hT ih =>
    intro k c hk hc
    cases k with
    | zero => simp at hk
    | succ k =>
      have g1 := blockText_length h1
      have g2 := settingsText_length h2
      have hs : s ≠ [] := by rintro rfl; simp at g1
      obtain ⟨hc1, hc2⟩ := once_cons hc
      rw [loop_step (r := r) (c1 := add c [.inst i]) (by simp), ih k _ (by simp at hk; omega) hc2, add_add]
      · rfl
      · have hn : (findInst c.insts i.main i.sub).isSome ≠ true := by
          rw [Ne, findInst_iff]
          have := hc1.3
          simp only [add, insts, List.filterMap_cons, List.filterMap_nil, List.map_append] at this
          exact (nodup_snoc.mp this).2
        have hok : SettingsOk i.settings := hc1.4 i (by simp [add, insts])
        rw [any_of (by rw [← blank_iff]; decide) hs, if_neg (by decide), if_neg (by decide), if_neg (by decide), if_neg (by decide), if_pos rfl]
        unfold block
        rw [(blockName_some _ _ _ _).mpr h1]
        simp only [Out.bind]
        rw [if_neg hu, if_neg hn, settingsLoop_complete (u.length + 1) [] i.settings u r (by omega) h2 (by simpa using hok)]
        simp [add, trees, routes, methods, insts]
  | @stray d s t is _ hd hb hne hh hT ih =>
    intro k c hk hc
    cases k with
    | zero => simp at hk
    | succ k =>
      have hk' : t.length < k := by simp at hk; omega
      rw [loop_step (r := Parse.ignoreSpaces t) (c1 := c) (by simp), loop_ig hk']
      · exact ih k c hk' hc
      · have h1 : Parse.ignoreSpaces t = Parse.ignoreSpaces (s ++ t) := (ig_skip hb).symm
        have h2 : ∀ x, (Parse.ignoreSpaces t).head? = some x → ¬ NameChar x := text_head (text_ig.mpr hT)
        rcases hd with rfl | rfl | rfl
        · rw [any_of (by rw [← blank_iff]; decide) hne, if_neg (by decide), if_pos rfl, treeDef_stray h1 h2]
        · rw [any_of (by rw [← blank_iff]; decide) hne, if_neg (by decide), if_neg (by decide), if_pos rfl, stackDef_stray h1 h2]; rfl
        · rw [any_of (by rw [← blank_iff]; decide) hne, if_neg (by decide), if_neg (by decide), if_neg (by decide), if_pos rfl, stackDef_stray h1 h2]; rfl
  | @strayEnd s _ hb hne =>
    intro k c hk hc
    cases k with
    | zero => simp at hk
    | succ k =>
      have hk' : 0 < k := by simp at hk; omega
      rw [loop_step (r := []) (c1 := c) (by simp), add_nil]
      · cases k with
        | zero => omega
        | succ k => rw [loop, if_pos rfl]
      · rw [any_of (by rw [← blank_iff]; decide) hne, if_neg (by decide), if_neg (by decide), if_neg (by decide), if_neg (by decide), if_pos rfl]
        unfold block
        rw [(blockName_none _ _).mpr ⟨hb, rfl⟩]
        rfl

end Verif.Config
