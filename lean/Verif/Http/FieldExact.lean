import Verif.Http.ItemLemmas
/-!
# The elements of a header line
-/
namespace Verif.Http
open Verif Verif.HttpUtil

theorem Item.text_nocr (i : Item) (h : ∀ c ∈ i.word, c ≠ 13) : ∀ c ∈ i.text, c ≠ 13 := by
  intro c hc
  unfold Item.text at hc
  rcases List.mem_append.1 hc with hc | hc
  · rw [List.eq_of_mem_replicate hc]; decide
  · exact h c hc

theorem Element.text_nocr (e : Element) (h : ∀ i ∈ e.items, ∀ c ∈ i.word, c ≠ 13) : ∀ c ∈ e.text, c ≠ 13 := by
  intro c hc
  unfold Element.text at hc
  rcases List.mem_append.1 hc with hc | hc
  · exact e.first.text_nocr (h _ (by simp [Element.items])) c hc
  · unfold moreText at hc
    rw [List.mem_flatMap] at hc
    obtain ⟨k, hk, hc⟩ := hc
    rw [List.mem_cons] at hc
    rcases hc with rfl | hc
    · decide
    · exact k.text_nocr (h k (by simp [Element.items, hk])) c hc

theorem elementsText_nocr (es : List Element) (h : ∀ e ∈ es, ∀ i ∈ e.items, ∀ c ∈ i.word, c ≠ 13) : ∀ c ∈ elementsText es, c ≠ 13 := by
  intro c hc
  unfold elementsText at hc
  rw [List.mem_flatMap] at hc
  obtain ⟨k, hk, hc⟩ := hc
  rw [List.mem_cons] at hc
  rcases hc with rfl | hc
  · decide
  · exact k.text_nocr (h k hk) c hc

theorem moreText_length : ∀ is : List Item, is.length ≤ (moreText is).length
  | [] => by simp [moreText]
  | i :: is => by
    have := moreText_length is
    simp only [moreText, List.flatMap_cons, List.cons_append, List.length_cons, List.length_append] at *
    omega

theorem Item.text_pos (i : Item) (h : i.key ≠ []) : 0 < i.text.length := by
  have := List.length_pos_iff.2 h
  simp only [Item.text, Item.word, List.length_append]
  omega

/-- The number of bytes taken after the value, if the line ends with it. -/
def endExtra : Element → List Element → Nat
  | e, [] => lastExtra e.first e.more
  | _, e :: es => endExtra e es

theorem whitespaceCheck_element (b : Bool) (e : Element) (R tail : Bytes) (hne : e.first.key ≠ [])
    (hs : ∀ c, e.first.key.head? = some c → c ≠ 32 ∧ c ≠ 9) (hcr : ∀ c ∈ e.text ++ R, c ≠ 13) :
    whitespaceCheck b (e.text ++ (R ++ 13 :: 10 :: tail)) = .ok (0, b || decide (e.first.space = 0)) := by
  have hl : e.text ++ (R ++ 13 :: 10 :: tail) = (e.text ++ R) ++ 13 :: 10 :: tail := by simp
  have hpos := e.first.text_pos hne
  unfold whitespaceCheck
  rw [hl, findCrlf_line _ _ hcr]
  simp only
  have hc : countWhsp (((e.text ++ R) ++ 13 :: 10 :: tail).take (e.text ++ R).length) = e.first.space := by
    rw [List.take_left' rfl]
    unfold countWhsp Element.text Item.text
    rw [List.append_assoc, List.append_assoc, takeWhile_stop _ _ _ (fun c hc => by rw [List.eq_of_mem_replicate hc]; rfl) fun c hc => ?_,
      List.length_replicate]
    rw [word_head _ _ hne] at hc
    simp [isLwsp, (hs c hc).1, (hs c hc).2]
  rw [hc]
  have hlt : e.first.space < (e.text ++ R).length := by
    have hw : e.first.word.length = e.first.text.length - e.first.space := by simp [Item.text]
    have : 0 < e.first.word.length := by
      unfold Item.word
      rw [List.length_append]
      have := List.length_pos_iff.2 hne
      omega
    simp only [List.length_append, Element.text]
    omega
  rw [if_neg (by omega)]
  have : (if e.first.space = 0 then ((0 : Nat), true) else (0, b)) = (0, b || decide (e.first.space = 0)) := by
    by_cases h : e.first.space = 0 <;> simp [h]
  rw [this]
  simp only [List.drop_zero]
  rw [findCrlf_line _ _ hcr]

theorem fieldLoop_elements (name : Bytes) (d : Option Def) (ha : (flagsOf d).angled = false) (tail : Bytes) (ht : Stop tail) (g : Element → Field) :
    ∀ (es : List Element) (e : Element) (b : Bool) (k : Nat) (acc : List Field) (fuel : Nat), es.length < fuel →
      (∀ el ∈ e :: es, ∀ i ∈ el.items, i.Ok (!(flagsOf d).noPairs) (flagsOf d).multiple) →
      ((flagsOf d).multiple = false → es = []) → ((flagsOf d).noPairs = true → ∀ el ∈ e :: es, el.more = []) →
      (∀ el ∈ e :: es, applyDef { name := name, definition := d, subs := el.items.map Item.stored } = some (g el)) →
      fieldLoop name d fuel b k acc (e.text ++ (elementsText es ++ 13 :: 10 :: tail)) =
        .ok (acc ++ (e :: es).map g, (e.text ++ elementsText es).length + endExtra e es)
  | es, e, b, k, acc, 0, hf, _, _, _, _ => by omega
  | es, e, b, k, acc, fuel + 1, hf, hok, hm, hnp, hg => by
    have hei := fun i hi => hok e (by simp) i hi
    have hfirst := hei e.first (by simp [Element.items])
    have hRcr : ∀ c ∈ elementsText es, c ≠ 13 :=
      elementsText_nocr es fun el hel i hi => (hok el (by simp [hel]) i hi).oneLine
    have hcr : ∀ c ∈ e.text ++ elementsText es, c ≠ 13 := by
      intro c hc
      rcases List.mem_append.1 hc with hc | hc
      · exact e.text_nocr (fun i hi => (hei i hi).oneLine) c hc
      · exact hRcr c hc
    have hpos : 0 < e.text.length := by
      have := e.first.text_pos hfirst.nonempty
      simp only [Element.text, List.length_append]
      omega
    rw [fieldLoop_succ]
    have hnil : e.text ++ (elementsText es ++ 13 :: 10 :: tail) ≠ [] := by
      intro h
      have := congrArg List.length h
      simp only [List.length_append, List.length_cons, List.length_nil] at this
      omega
    rw [if_neg hnil, whitespaceCheck_element b e (elementsText es) tail hfirst.nonempty
      (fun c hc => ⟨(hfirst.start c hc).1, (hfirst.start c hc).2.1⟩) hcr]
    simp only [R.bind, List.drop_zero]
    have hR : elementsText es = [] ∨ ((flagsOf d).multiple = true ∧ ∃ r, elementsText es = 44 :: r) := by
      cases es with
      | nil => exact .inl rfl
      | cons e' es' =>
        refine .inr ⟨?_, e'.text ++ elementsText es', by simp [elementsText]⟩
        cases h : (flagsOf d).multiple with
        | true => rfl
        | false => exact absurd (hm h) (by simp)
    have hl : e.text ++ (elementsText es ++ 13 :: 10 :: tail) =
        [] ++ (e.first.text ++ (moreText e.more ++ (elementsText es ++ 13 :: 10 :: tail))) := by
      simp [Element.text]
    have hsub := subvalues_items (flagsOf d) ha (elementsText es) tail hR hRcr (fun _ => ht) e.more e.first [] (b || decide (e.first.space = 0)) []
      ((e.text ++ (elementsText es ++ 13 :: 10 :: tail)).length + 1)
      (by
        have h1 := moreText_length e.more
        have h2 := e.first.text_pos hfirst.nonempty
        simp only [List.length_append, List.length_cons, Element.text]
        omega)
      (by by_cases hz : e.first.space = 0; · exact .inl (by simp [hz])
          · exact .inr (by omega))
      (fun i hi => hei i hi) (fun h => hnp h e (by simp)) (fun c hc => by simp at hc)
    rw [← hl] at hsub
    rw [hsub]
    simp only [R.softened, Bool.false_eq_true, if_false]
    have hlen : ([] : Bytes).length + (e.first.text ++ moreText e.more).length = e.text.length := by
      simp [Element.text]
    rw [hlen]
    unfold fieldRest
    rw [if_neg (by omega), List.nil_append]
    have hge := hg e (by simp)
    simp only [Element.items] at hge
    rw [hge]
    cases es with
    | nil =>
      simp [elementsText, endExtra]
    | cons e' es' =>
      have hRt : elementsText (e' :: es') = 44 :: (e'.text ++ elementsText es') := by simp [elementsText]
      have hne : elementsText (e' :: es') ≠ [] := by rw [hRt]; simp
      simp only [if_neg hne, Nat.add_zero, Nat.zero_add]
      rw [if_pos (by simp [hne])]
      have hd : (e.text ++ (elementsText (e' :: es') ++ 13 :: 10 :: tail)).drop e.text.length = elementsText (e' :: es') ++ 13 :: 10 :: tail :=
        List.drop_left' rfl
      have hcn : createNext (elementsText (e' :: es') ++ 13 :: 10 :: tail) = .ok 1 := by
        unfold createNext
        rw [findCrlf_line _ _ hRcr, hRt]
        rfl
      rw [hd, hcn]
      simp only [R.bind]
      have hd1 : (e.text ++ (elementsText (e' :: es') ++ 13 :: 10 :: tail)).drop (e.text.length + 1) = e'.text ++ (elementsText es' ++ 13 :: 10 :: tail) := by
        rw [← List.drop_drop, hd, hRt]
        simp
      rw [hd1, fieldLoop_elements name d ha tail ht g es' e' _ _ _ fuel (by simp only [List.length_cons] at hf; omega)
        (fun el hel => hok el (by simp only [List.mem_cons] at hel ⊢; exact .inr hel))
        (fun h => absurd (hm h) (by simp)) (fun h el hel => hnp h el (by simp only [List.mem_cons] at hel ⊢; exact .inr hel))
        (fun el hel => hg el (by simp only [List.mem_cons] at hel ⊢; exact .inr hel))]
      simp only [R.map, R.bind, hRt, List.length_append, List.length_cons, endExtra, List.map_cons, List.append_assoc, List.cons_append, List.nil_append]
      congr 2
      omega

end Verif.Http
