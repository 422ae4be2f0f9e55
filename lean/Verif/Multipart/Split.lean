import Verif.Multipart.Spec
import Verif.Http.HeaderLemmas
/-!
# C133: multipart bodies are split at the boundaries
-/
namespace Verif.Multipart
open Verif Verif.HttpUtil Verif.Http Spec

/-! ## Search -/

theorem prefix_iff (s t : Bytes) : s.isPrefixOf t = true ↔ s <+: t := List.isPrefixOf_iff_prefix

theorem indexOf_some (s : Bytes) : ∀ (t : Bytes) (i : Nat), indexOf s t = some i ↔ i < t.length ∧ s <+: t.drop i ∧ ∀ j, j < i → ¬ s <+: t.drop j
  | [], i => by simp [indexOf]
  | c :: t, i => by
    unfold indexOf
    by_cases h : s.isPrefixOf (c :: t) = true
    · rw [if_pos h]
      have hp := (prefix_iff _ _).1 h
      constructor
      · intro e
        cases e
        exact ⟨by simp, hp, by omega⟩
      · rintro ⟨_, _, h3⟩
        cases i with
        | zero => rfl
        | succ i => exact absurd hp (h3 0 (by omega))
    · rw [if_neg h]
      have hn : ¬ s <+: c :: t := fun hh => h ((prefix_iff _ _).2 hh)
      cases i with
      | zero =>
        constructor
        · intro e
          cases hi : indexOf s t <;> rw [hi] at e <;> simp at e
        · rintro ⟨_, h2, _⟩
          exact absurd h2 hn
      | succ i =>
        have : (indexOf s t).map (· + 1) = some (i + 1) ↔ indexOf s t = some i := by
          cases indexOf s t <;> simp
        rw [this, indexOf_some s t i]
        constructor
        · rintro ⟨h1, h2, h3⟩
          refine ⟨by simpa using h1, h2, ?_⟩
          intro j hj
          cases j with
          | zero => exact hn
          | succ j => exact h3 j (by omega)
        · rintro ⟨h1, h2, h3⟩
          exact ⟨by simpa using h1, h2, fun j hj => h3 (j + 1) (by omega)⟩

theorem indexOf_none (s : Bytes) (h0 : s ≠ []) : ∀ t : Bytes, indexOf s t = none ↔ ∀ j, ¬ s <+: t.drop j
  | [] => by simp [indexOf, h0]
  | c :: t => by
    unfold indexOf
    by_cases h : s.isPrefixOf (c :: t) = true
    · rw [if_pos h]
      simp only [reduceCtorEq, false_iff]
      intro hh
      exact hh 0 ((prefix_iff _ _).1 h)
    · rw [if_neg h]
      have : (indexOf s t).map (· + 1) = none ↔ indexOf s t = none := by
        cases indexOf s t <;> simp
      rw [this, indexOf_none s h0 t]
      constructor
      · intro hh j
        cases j with
        | zero => exact fun hp => h ((prefix_iff _ _).2 hp)
        | succ j => exact hh j
      · intro hh j
        exact hh (j + 1)

theorem at_drop (s text : Bytes) (p i : Nat) : s <+: (text.drop p).drop i ↔ At s text (p + i) := by
  unfold At
  rw [List.drop_drop]

theorem at_lt (s text : Bytes) (h0 : s ≠ []) (i : Nat) (h : At s text i) : i + s.length ≤ text.length ∧ i < text.length := by
  have h1 := h.length_le
  have : 0 < s.length := List.length_pos_iff.2 h0
  rw [List.length_drop] at h1
  omega

theorem indexOf_first (s text : Bytes) (h0 : s ≠ []) (p l : Nat) : indexOf s (text.drop p) = some l ↔ First s text p (p + l) := by
  rw [indexOf_some]
  simp only [at_drop, First]
  constructor
  · rintro ⟨_, h2, h3⟩
    refine ⟨by omega, h2, fun j h4 h5 => ?_⟩
    have := h3 (j - p) (by omega)
    rwa [show p + (j - p) = j by omega] at this
  · rintro ⟨_, h2, h3⟩
    refine ⟨?_, h2, fun j hj => h3 _ (by omega) (by omega)⟩
    have := at_lt s text h0 _ h2
    rw [List.length_drop]
    omega

theorem indexOf_nowhere (s text : Bytes) (h0 : s ≠ []) (p : Nat) : indexOf s (text.drop p) = none ↔ Nowhere s text p := by
  rw [indexOf_none s h0]
  simp only [at_drop, Nowhere]
  constructor
  · intro h i hi
    have := h (i - p)
    rwa [show p + (i - p) = i by omega] at this
  · intro h j
    exact h _ (by omega)

theorem needleOf_eq (b : Bytes) : needleOf b = line b := rfl
theorem lastOf_eq (b : Bytes) : lastOf b = lastLine b := by
  show 45 :: 45 :: (b ++ [45, 45, 13, 10]) = (([45, 45] : Bytes) ++ b ++ [45, 45]) ++ [13, 10]
  simp
theorem line_ne (b : Bytes) : line b ≠ [] := by
  rw [← needleOf_eq]; simp [needleOf]
theorem lastLine_ne (b : Bytes) : lastLine b ≠ [] := by
  rw [← lastOf_eq]; simp [lastOf]
theorem line_length (b : Bytes) : (line b).length = b.length + 4 := by
  rw [← needleOf_eq]; simp [needleOf]
theorem lastLine_length (b : Bytes) : (lastLine b).length = b.length + 6 := by
  rw [← lastOf_eq]; simp [lastOf]

theorem endOf_iff (b text : Bytes) (p l : Nat) (isLast : Bool) : endOf (line b) (lastLine b) (text.drop p) = some (l, isLast) ↔
    (isLast = false ∧ First (line b) text p (p + l)) ∨ (isLast = true ∧ Nowhere (line b) text p ∧ First (lastLine b) text p (p + l)) := by
  unfold endOf
  cases h : indexOf (line b) (text.drop p) with
  | some k =>
    have hk := (indexOf_first _ _ (line_ne b) _ _).1 h
    constructor
    · intro e
      simp only [Option.some.injEq, Prod.mk.injEq] at e
      obtain ⟨rfl, rfl⟩ := e
      exact .inl ⟨rfl, hk⟩
    · rintro (⟨rfl, hf⟩ | ⟨_, hn, _⟩)
      · have := (indexOf_first _ _ (line_ne b) _ _).2 hf
        rw [h] at this
        cases this; rfl
      · exact absurd hk.2.1 (hn _ (by omega))
  | none =>
    have hn := (indexOf_nowhere _ _ (line_ne b) _).1 h
    constructor
    · intro e
      cases hl : indexOf (lastLine b) (text.drop p) with
      | none => rw [hl] at e; cases e
      | some k =>
        rw [hl] at e
        simp only [Option.map_some, Option.some.injEq, Prod.mk.injEq] at e
        obtain ⟨rfl, rfl⟩ := e
        exact .inr ⟨rfl, hn, (indexOf_first _ _ (lastLine_ne b) _ _).1 hl⟩
    · rintro (⟨_, hf⟩ | ⟨rfl, _, hf⟩)
      · exact absurd hf.2.1 (hn _ (by omega))
      · rw [(indexOf_first _ _ (lastLine_ne b) _ _).2 hf]; rfl

/-! ## Boundaries do not overlap -/

theorem at_get (s text : Bytes) (i k : Nat) (h : At s text i) (hk : k < s.length) : text[i + k]? = s[k]? := by
  obtain ⟨t, ht⟩ := h
  have : (text.drop i)[k]? = s[k]? := by rw [← ht, List.getElem?_append_left hk]
  rwa [List.getElem?_drop] at this

theorem line_get_last (b : Bytes) : (line b)[b.length + 3]? = some 10 := by
  rw [← needleOf_eq]
  unfold needleOf
  rw [show b.length + 3 = (b.length + 1) + 1 + 1 by omega, List.getElem?_cons_succ, List.getElem?_cons_succ, List.getElem?_append_right (by omega)]
  simp

theorem line_get_ne (b : Bytes) (hb : (10 : UInt8) ∉ b) (k : Nat) (hk : k < b.length + 3) : (line b)[k]? ≠ some 10 := by
  rw [← needleOf_eq]
  have hd : needleOf b = (45 :: 45 :: (b ++ [13])) ++ [10] := by simp [needleOf]
  rw [hd, List.getElem?_append_left (by simp; omega)]
  intro h
  have := List.mem_of_getElem? h
  simp at this
  exact hb this

/-- A boundary does not begin inside of another one. -/
theorem no_overlap (b text : Bytes) (hb : (10 : UInt8) ∉ b) (i j : Nat) (hi : At (line b) text i) (hj : At (line b) text j) (h1 : i < j) : i + (line b).length ≤ j := by
  apply Classical.byContradiction
  intro h2
  have hl := line_length b
  have e1 := at_get _ _ _ (b.length + 3) hi (by omega)
  have e2 := at_get _ _ _ (i + (b.length + 3) - j) hj (by omega)
  rw [line_get_last] at e1
  rw [show j + (i + (b.length + 3) - j) = i + (b.length + 3) by omega, e1] at e2
  exact line_get_ne b hb _ (by omega) e2.symm

theorem not_both (b text : Bytes) (i : Nat) (h1 : At (line b) text i) (h2 : At (lastLine b) text i) : False := by
  have e1 := at_get _ _ _ (b.length + 2) h1 (by rw [line_length]; omega)
  have e2 := at_get _ _ _ (b.length + 2) h2 (by rw [lastLine_length]; omega)
  have l1 : (line b)[b.length + 2]? = some 13 := by
    rw [← needleOf_eq]; unfold needleOf
    rw [List.getElem?_cons_succ, List.getElem?_cons_succ, List.getElem?_append_right (by omega)]; simp
  have l2 : (lastLine b)[b.length + 2]? = some 45 := by
    rw [← lastOf_eq]; unfold lastOf
    rw [List.getElem?_cons_succ, List.getElem?_cons_succ, List.getElem?_append_right (by omega)]; simp
  rw [l1] at e1
  rw [l2, e1] at e2
  cases e2

/-! ## The loop -/

/-- What a part is. -/
structure PartOf (sub : List Field → Nat → R (List Tree)) (b text : Bytes) (t : Tree) (e : Nat) : Prop where
  ends : Ends b text t.start e
  header : parsePart t.start (between text t.start e) = .ok (t.headers, t.headerLength)
  data : t.dataLength = dataLen (e - t.start) t.headerLength
  inside : sub t.headers (e - 2) = .ok t.parts

theorem node_start (h : List Field) (s n d : Nat) (ts : List Tree) : (Tree.node h s n d ts).start = s := rfl
theorem node_headerLength (h : List Field) (s n d : Nat) (ts : List Tree) : (Tree.node h s n d ts).headerLength = n := rfl
theorem node_dataLength (h : List Field) (s n d : Nat) (ts : List Tree) : (Tree.node h s n d ts).dataLength = d := rfl

theorem bind_ok {β γ : Type} {r : R β} {f : β → R γ} {c : γ} : r.bind f = .ok c ↔ ∃ b, r = .ok b ∧ f b = .ok c := by
  cases r <;> simp [R.bind]

theorem step_ok (sub : List Field → Nat → R (List Tree)) (b text : Bytes) (pos count : Nat) (h : At (line b) text pos) (r : Option (Tree × Bool)) :
    step sub (line b) (lastLine b) pos (text.drop pos) count = .ok r →
    ∃ t isLast e, r = some (t, isLast) ∧ t.start = pos + (line b).length ∧ PartOf sub b text t e ∧ (isLast = true ↔ Nowhere (line b) text (pos + (line b).length)) ∧ count < 1000 := by
  intro hs
  unfold step at hs
  split at hs
  · cases hs
  · rename_i hc
    split at hs
    · cases hs
    · rw [if_neg (fun hh => not_both b text pos h ((prefix_iff _ _).1 hh)), List.drop_drop] at hs
      split at hs
      · cases hs
      · rename_i l isLast he
        rw [bind_ok] at hs
        obtain ⟨⟨hd, n⟩, h1, h2⟩ := hs
        rw [bind_ok] at h2
        obtain ⟨ts, h3, h4⟩ := h2
        simp only [R.ok.injEq] at h4
        subst h4
        have hend := (endOf_iff b text _ l isLast).1 he
        have hpart : PartOf sub b text (.node hd (pos + (line b).length) n (dataLen l n) ts) (pos + (line b).length + l) := by
          constructor
          · simp only [Tree.start]
            rcases hend with ⟨_, hf⟩ | ⟨_, hn, hf⟩
            · exact .inl hf
            · exact .inr ⟨hn, hf⟩
          · simp only [Tree.start, Tree.headers, Tree.headerLength, between, Nat.add_sub_cancel_left]
            exact h1
          · rw [node_start, node_headerLength, node_dataLength, Nat.add_sub_cancel_left]
          · simp only [Tree.headers, Tree.parts]
            exact h3
        generalize dataLen l n = d at hpart ⊢
        refine ⟨.node hd (pos + (line b).length) n d ts, isLast, pos + (line b).length + l, rfl, rfl, hpart, ?_, by omega⟩
        rcases hend with ⟨rfl, hf⟩ | ⟨rfl, hn, hf⟩
        · simp only [Bool.false_eq_true, false_iff]
          exact fun hn => hn _ hf.1 hf.2.1
        · simp only [true_iff]
          exact hn

theorem loop_ok (sub : List Field → Nat → R (List Tree)) (b text : Bytes) :
    ∀ (rest : Bytes) (pos : Nat) (acc ts : List Tree), text.drop pos = rest → loop sub (line b) (lastLine b) pos rest acc = .ok ts →
      ∃ new, ts = acc ++ new ∧ (∀ t ∈ new, ∃ i e, pos ≤ i ∧ At (line b) text i ∧ t.start = i + (line b).length ∧ PartOf sub b text t e) ∧
        (new.map Tree.start).Pairwise (· < ·) ∧ ((10 : UInt8) ∉ b → ∀ i, pos ≤ i → At (line b) text i → ∃ t ∈ new, t.start = i + (line b).length) ∧
        (acc.length ≤ 1000 → ts.length ≤ 1000)
  | [], pos, acc, ts, hr, h => by
    simp only [loop, R.ok.injEq] at h
    refine ⟨[], by simp [h], by simp, by simp, ?_, by rw [h]; exact id⟩
    intro _ i hi ha
    have := at_lt _ _ (line_ne b) _ ha
    have hl : text.length ≤ pos := by
      have := congrArg List.length hr
      simp at this
      omega
    omega
  | c :: t, pos, acc, ts, hr, h => by
    have hr' : text.drop (pos + 1) = t := by
      rw [← List.drop_drop, hr]; rfl
    unfold loop at h
    by_cases hp : (line b).isPrefixOf (c :: t) = true
    · rw [if_pos hp] at h
      have hat : At (line b) text pos := by
        unfold At; rw [hr]; exact (prefix_iff _ _).1 hp
      rw [bind_ok] at h
      obtain ⟨r, h1, h2⟩ := h
      rw [← hr] at h1
      obtain ⟨tr, isLast, e, rfl, hst, hpart, hlast, hcount⟩ := step_ok sub b text pos _ hat r h1
      cases isLast with
      | true =>
        simp only [R.ok.injEq] at h2
        refine ⟨[tr], h2.symm, ?_, by simp, ?_, by rw [← h2]; intro _; simp; omega⟩
        · intro t' ht'
          rw [List.mem_singleton] at ht'
          subst ht'
          exact ⟨pos, e, Nat.le_refl _, hat, hst, hpart⟩
        · intro hb i hi hai
          refine ⟨tr, by simp, ?_⟩
          rw [hst]
          by_cases hii : i = pos
          · rw [hii]
          · have := no_overlap b text hb pos i hat hai (by omega)
            exact absurd hai (hlast.1 rfl i this)
      | false =>
        obtain ⟨new, hts, ha, hb', hc, hcnt⟩ := loop_ok sub b text t (pos + 1) _ ts hr' h2
        refine ⟨tr :: new, by rw [hts]; simp, ?_, ?_, ?_, fun _ => hcnt (by simp; omega)⟩
        · intro t' ht'
          rcases List.mem_cons.1 ht' with rfl | ht'
          · exact ⟨pos, e, Nat.le_refl _, hat, hst, hpart⟩
          · obtain ⟨i, e, hi, hh⟩ := ha t' ht'
            exact ⟨i, e, by omega, hh⟩
        · rw [List.map_cons, List.pairwise_cons]
          refine ⟨?_, hb'⟩
          intro x hx
          obtain ⟨t', ht', rfl⟩ := List.mem_map.1 hx
          obtain ⟨i, e, hi, _, hs, _⟩ := ha t' ht'
          rw [hst, hs]
          omega
        · intro hb i hi hai
          by_cases hii : i = pos
          · exact ⟨tr, by simp, by rw [hst, hii]⟩
          · obtain ⟨t', ht', hs⟩ := hc hb i (by omega) hai
            exact ⟨t', List.mem_cons_of_mem _ ht', hs⟩
    · rw [if_neg hp] at h
      obtain ⟨new, hts, ha, hb', hc, hcnt⟩ := loop_ok sub b text t (pos + 1) _ ts hr' h
      refine ⟨new, hts, ?_, hb', ?_, hcnt⟩
      · intro t' ht'
        obtain ⟨i, e, hi, hh⟩ := ha t' ht'
        exact ⟨i, e, by omega, hh⟩
      · intro hb i hi hai
        by_cases hii : i = pos
        · subst hii
          unfold At at hai
          rw [hr] at hai
          exact absurd ((prefix_iff _ _).2 hai) hp
        · exact hc hb i (by omega) hai

theorem onlySoft_ok {β : Type} {r : R β} {x : β} : onlySoft r = .ok x ↔ r = .ok x := by
  cases r <;> simp [onlySoft]

/-- **C133**. When a multipart body is accepted, there is one part for each boundary in the text, in the same order, and it holds exactly the text up to where the
next boundary is, or the last one. -/
theorem split_exact (fuel : Nat) (hs : List Field) (isGet : Bool) (text b : Bytes) (ts : List Tree) (h : process fuel hs isGet text = .ok ts)
    (hm : isMultipart hs = some true) (hbd : subvalueGet hs (str "content-type") (str "boundary") = some (some b)) (hb : (10 : UInt8) ∉ b) :
    (∀ i, At (line b) text i ↔ ∃ t ∈ ts, t.start = i + (line b).length) ∧ (ts.map Tree.start).Pairwise (· < ·) ∧ ts.length ≤ 1000 ∧
    ∀ t ∈ ts, ∃ e, Ends b text t.start e ∧ parsePart t.start (between text t.start e) = .ok (t.headers, t.headerLength) ∧
      t.dataLength = dataLen (e - t.start) t.headerLength := by
  cases fuel with
  | zero => cases h
  | succ fuel =>
    simp only [process, hm, hbd] at h
    split at h
    · cases h
    · split at h
      · cases h
      · rw [onlySoft_ok, needleOf_eq, lastOf_eq] at h
        obtain ⟨new, hts, h1, h2, h3, h4⟩ := loop_ok _ b text text 0 [] ts (by simp) h
        rw [List.nil_append] at hts
        subst hts
        refine ⟨fun i => ⟨h3 hb i (by omega), ?_⟩, h2, h4 (by simp), ?_⟩
        · rintro ⟨t, ht, hst⟩
          obtain ⟨j, e, _, hat, hs, _⟩ := h1 t ht
          have : i = j := by omega
          rw [this]
          exact hat
        · intro t ht
          obtain ⟨j, e, _, hat, hs, hp⟩ := h1 t ht
          exact ⟨e, hp.ends, hp.header, hp.data⟩

/-- Each part ends at a boundary, whatever the boundary is. -/
theorem split_ends (fuel : Nat) (hs : List Field) (isGet : Bool) (text b : Bytes) (ts : List Tree) (h : process fuel hs isGet text = .ok ts)
    (hm : isMultipart hs = some true) (hbd : subvalueGet hs (str "content-type") (str "boundary") = some (some b)) :
    ∀ t ∈ ts, ∃ e, Ends b text t.start e ∧ parsePart t.start (between text t.start e) = .ok (t.headers, t.headerLength) ∧
      t.dataLength = dataLen (e - t.start) t.headerLength := by
  cases fuel with
  | zero => cases h
  | succ fuel =>
    simp only [process, hm, hbd] at h
    split at h
    · cases h
    · split at h
      · cases h
      · rw [onlySoft_ok, needleOf_eq, lastOf_eq] at h
        obtain ⟨new, hts, h1, _⟩ := loop_ok _ b text text 0 [] ts (by simp) h
        rw [List.nil_append] at hts
        subst hts
        intro t ht
        obtain ⟨j, e, _, hat, hs, hp⟩ := h1 t ht
        exact ⟨e, hp.ends, hp.header, hp.data⟩

/-! ## Fields -/

theorem parsePart_len (start : Nat) (text : Bytes) (hs : List Field) (n : Nat) (h : parsePart start text = .ok (hs, n)) : n ≤ text.length := by
  have hl := headerFields_len (text.length + 1) [] text
  unfold parsePart at h
  split at h
  · cases h
  · split at h
    · rename_i h' n' he
      split at h
      · split at h
        · cases h
        · cases h
          rw [he] at hl
          exact hl
      · cases h
    · rename_i h' n' he
      cases h
      rw [he] at hl
      exact hl
    all_goals cases h

theorem ends_len (b text : Bytes) (start e : Nat) (h : Ends b text start e) : start ≤ e ∧ e + 2 ≤ text.length := by
  rcases h with h | ⟨_, h⟩
  · have := at_lt _ _ (line_ne b) _ h.2.1
    have := line_length b
    exact ⟨h.1, by omega⟩
  · have := at_lt _ _ (lastLine_ne b) _ h.2.1
    have := lastLine_length b
    exact ⟨h.1, by omega⟩

/-- The field of a part which has a name: the name, the data without a NUL at its beginning and the content type. -/
def fieldOf (data : Bytes) (t : Tree) : Option FormField :=
  match subvalueGet t.headers (str "content-disposition") (str "name") with
  | some (some name) => some ⟨name, valueSet ((data.drop (t.start + t.headerLength)).take t.dataLength),
      match headerGet t.headers (str "content-type") with | some (some f) => f.value | _ => []⟩
  | _ => none

theorem fields_ok (data : Bytes) : ∀ (ts : List Tree) (fs : List FormField), fields data ts = .ok fs →
    fs = ts.filterMap (fieldOf data) ∧ ∀ t ∈ ts, t.dataLength ≤ lengthMax
  | [], fs, h => by
    simp only [fields, R.ok.injEq] at h
    simp [← h]
  | .node hs start n d ps :: ts, fs, h => by
    unfold fields at h
    split at h
    · cases h
    · rename_i hd
      split at h
      · rename_i hn
        obtain ⟨h1, h2⟩ := fields_ok data ts fs h
        refine ⟨?_, ?_⟩
        · rw [List.filterMap_cons_none, h1]
          unfold fieldOf
          simp only [Tree.headers, hn]
        · intro t ht
          rcases List.mem_cons.1 ht with rfl | ht
          · exact Nat.le_of_not_lt hd
          · exact h2 t ht
      · rename_i name ct hn hc
        split at h
        · cases h
        · unfold R.map at h
          rw [bind_ok] at h
          obtain ⟨fs', hf, he⟩ := h
          obtain ⟨h1, h2⟩ := fields_ok data ts fs' hf
          cases he
          refine ⟨?_, ?_⟩
          · have hv : (if d > 0 then valueSet ((data.drop (start + n)).take d) else []) = valueSet ((data.drop (start + n)).take d) := by
              split
              · rfl
              · rename_i hz
                have : d = 0 := by omega
                subst this
                simp [valueSet]
            simp only [hv, h1]
            symm
            apply List.filterMap_cons_some
            simp only [fieldOf, Tree.headers, hn, hc, Tree.start, Tree.headerLength, Tree.dataLength]
            cases ct <;> rfl
          · intro t ht
            rcases List.mem_cons.1 ht with rfl | ht
            · exact Nat.le_of_not_lt hd
            · exact h2 t ht
      · cases h

/-- What the process tells of a part, and the length of the text. -/
theorem process_parts (fuel : Nat) (hs : List Field) (isGet : Bool) (text b : Bytes) (ts : List Tree) (h : process fuel hs isGet text = .ok ts)
    (hm : isMultipart hs = some true) (hbd : subvalueGet hs (str "content-type") (str "boundary") = some (some b)) : text.length ≤ lengthMax := by
  cases fuel with
  | zero => cases h
  | succ fuel =>
    simp only [process, hm, hbd] at h
    split at h
    · cases h
    · split at h
      · cases h
      · omega

theorem data_small (l n : Nat) (hn : n ≤ l) (hl : l ≤ lengthMax) (h : dataLen l n ≤ lengthMax) : n + dataLen l n + 2 = l := by
  unfold dataLen at h ⊢
  have : lengthMax = 2 ^ 32 - 1 := rfl
  omega

/-- **C133**. When a form is accepted, its fields are those of the parts which have a name, in the same order, and the value is exactly what is between the header
and the end of the line before the next boundary. A value which begins with NUL is lost. -/
theorem form_exact (hs : List Field) (isGet : Bool) (bodyEnd : Nat) (data b : Bytes) (fs : List FormField) (h : receiveForm hs isGet bodyEnd data = .ok fs)
    (hm : isMultipart hs = some true) (hbd : subvalueGet hs (str "content-type") (str "boundary") = some (some b)) :
    ∃ ts, process (bodyEnd + 1) hs isGet (data.take bodyEnd) = .ok ts ∧ fs = ts.filterMap (fieldOf data) ∧
      ∀ t ∈ ts, ∃ e, Ends b (data.take bodyEnd) t.start e ∧ t.start + t.headerLength + t.dataLength + 2 = e := by
  unfold receiveForm at h
  rw [bind_ok] at h
  obtain ⟨ts, h1, h2⟩ := h
  obtain ⟨h3, h4⟩ := fields_ok data ts fs h2
  refine ⟨ts, h1, h3, ?_⟩
  have h5 := split_ends _ hs isGet _ b ts h1 hm hbd
  have hlen := process_parts _ hs isGet _ b ts h1 hm hbd
  intro t ht
  obtain ⟨e, he, hp, hd⟩ := h5 t ht
  refine ⟨e, he, ?_⟩
  have hn := parsePart_len _ _ _ _ hp
  obtain ⟨e1, e2⟩ := ends_len _ _ _ _ he
  have hn' : t.headerLength ≤ e - t.start := by
    refine Nat.le_trans hn ?_
    unfold between
    rw [List.length_take]
    omega
  have := data_small (e - t.start) t.headerLength hn' (by omega) (by rw [← hd]; exact h4 t ht)
  rw [← hd] at this
  omega

theorem fields_nofault (data : Bytes) : ∀ ts : List Tree, (∀ t ∈ ts, t.dataLength ≤ lengthMax → t.start + t.headerLength + t.dataLength ≤ data.length) → fields data ts ≠ .fault
  | [], _ => by simp [fields]
  | .node hs start n d ps :: ts, h => by
    have ih := fields_nofault data ts (fun t ht => h t (List.mem_cons_of_mem _ ht))
    unfold fields
    split
    · simp
    · rename_i hd
      split
      · exact ih
      · have hin := h (.node hs start n d ps) (List.mem_cons_self ..) (Nat.le_of_not_lt hd)
        simp only [Tree.start, Tree.headerLength, Tree.dataLength] at hin
        rw [if_neg (Nat.not_lt.2 hin)]
        cases hf : fields data ts with
        | fault => exact absurd hf ih
        | _ => simp [R.map, R.bind]
      · simp

/-- **C133**. No value is taken from outside of the data, whatever the parts are, although the length which is stored for a short part is wrong. -/
theorem values_within (hs : List Field) (isGet : Bool) (bodyEnd : Nat) (data b : Bytes) (ts : List Tree) (h : process (bodyEnd + 1) hs isGet (data.take bodyEnd) = .ok ts)
    (hm : isMultipart hs = some true) (hbd : subvalueGet hs (str "content-type") (str "boundary") = some (some b)) :
    fields data ts ≠ .fault := by
  have h5 := split_ends _ hs isGet _ b ts h hm hbd
  have hlen := process_parts _ hs isGet _ b ts h hm hbd
  apply fields_nofault
  intro t ht hsmall
  obtain ⟨e, he, hp, hd⟩ := h5 t ht
  have hn := parsePart_len _ _ _ _ hp
  obtain ⟨e1, e2⟩ := ends_len _ _ _ _ he
  have hn' : t.headerLength ≤ e - t.start := by
    refine Nat.le_trans hn ?_
    unfold between
    rw [List.length_take]
    omega
  have := data_small (e - t.start) t.headerLength hn' (by omega) (by rw [← hd]; exact hsmall)
  rw [← hd] at this
  rw [List.length_take] at e2
  omega

/-- **C133**. A form is refused when a part begins after 64 kB, however short all of its headers are. -/
theorem late_refused (fuel : Nat) (hs : List Field) (isGet : Bool) (text b : Bytes) (i : Nat) (hm : isMultipart hs = some true)
    (hbd : subvalueGet hs (str "content-type") (str "boundary") = some (some b)) (hb : (10 : UInt8) ∉ b) (hat : At (line b) text i) (hi : 64 * 1024 < i + (line b).length) :
    ∀ ts, process fuel hs isGet text ≠ .ok ts := by
  intro ts h
  obtain ⟨h1, _, _, h5⟩ := split_exact _ hs isGet _ b ts h hm hbd hb
  obtain ⟨t, ht, hst⟩ := (h1 i).1 hat
  obtain ⟨e, _, hp, _⟩ := h5 t ht
  have hlim : limits.header = 65536 := rfl
  unfold parsePart at hp
  rw [if_pos (by omega)] at hp
  cases hp

end Verif.Multipart
