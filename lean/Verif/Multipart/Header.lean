import Verif.Multipart.Split
import Verif.Http.LineExact
import Verif.HttpUtil.Props
/-!
# Header lines with any values

The lemmas are those of `Verif.Http.LineExact`, for lines with values which are decoded.
-/
namespace Verif.Http
open Verif Verif.HttpUtil

/-- A line is read as one field for each element. -/
structure Reads (l : Line) (g : Element → Field) : Prop where
  name : l.name ≠ [] ∧ (∀ c ∈ l.name, c ≠ 58 ∧ c ≠ 13) ∧ ∀ c, l.name.head? = some c → c ≠ 32 ∧ c ≠ 9 ∧ c ≠ 59 ∧ c ≠ 44
  angled : (flagsOf (definitionGet l.name)).angled = false
  items : ∀ e ∈ l.elements, ∀ i ∈ e.items, i.Ok (!(flagsOf (definitionGet l.name)).noPairs) (flagsOf (definitionGet l.name)).multiple
  list : (flagsOf (definitionGet l.name)).multiple = false → l.more = []
  whole : (flagsOf (definitionGet l.name)).noPairs = true → ∀ e ∈ l.elements, e.more = []
  made : ∀ e ∈ l.elements, applyDef { name := lower l.name, definition := definitionGet l.name, subs := e.items.map Item.stored } = some (g e)

/-- The fields of a line. -/
def fieldsOf (l : Line × (Element → Field)) : List Field := { l.2 l.1.first with full := strip l.1.value } :: l.1.more.map l.2

theorem Reads.solid {l : Line} {g : Element → Field} (h : Reads l g) : ∃ c ∈ l.value, isLwsp c = false := by
  have hf := h.items l.first (by simp [Line.elements]) l.first.first (by simp [Element.items])
  cases hk : l.first.first.key with
  | nil => exact absurd hk hf.nonempty
  | cons c k =>
    refine ⟨c, ?_, ?_⟩
    · simp [Line.value, Element.text, Item.text, Item.word, hk]
    · have := hf.start c (by rw [hk]; rfl)
      simp [isLwsp, this.1, this.2.1]

theorem fieldParse_reads (l : Line) (g : Element → Field) (h : Reads l g) (tail : Bytes) (ht : Stop tail) (hmax : (l.text ++ tail).length ≤ lengthMax) :
    fieldParse (l.text ++ tail) = .ok (fieldsOf (l, g), l.name.length + 1 + l.value.length + endExtra l.first l.more) := by
  have hvcr : ∀ c ∈ l.value, c ≠ 13 := by
    intro c hc
    unfold Line.value at hc
    rcases List.mem_append.1 hc with hc | hc
    · exact l.first.text_nocr (fun i hi => (h.items l.first (by simp [Line.elements]) i hi).oneLine) c hc
    · exact elementsText_nocr l.more (fun e he i hi => (h.items e (by simp [Line.elements, he]) i hi).oneLine) c hc
  have hl : l.text ++ tail = (l.name ++ 58 :: l.value) ++ 13 :: 10 :: tail := by simp [Line.text]
  have hcr : ∀ c ∈ l.name ++ 58 :: l.value, c ≠ 13 := by
    intro c hc
    rcases List.mem_append.1 hc with hc | hc
    · exact (h.name.2.1 c hc).2
    · rw [List.mem_cons] at hc
      rcases hc with rfl | hc
      · decide
      · exact hvcr c hc
  unfold fieldParse
  rw [if_neg (by omega), hl, findCrlf_line _ _ hcr]
  have hlen : (l.name ++ 58 :: l.value).length = l.name.length + l.value.length + 1 := by simp; omega
  rw [hlen]
  simp only
  have htake : ((l.name ++ 58 :: l.value) ++ 13 :: 10 :: tail).take (l.name.length + l.value.length + 1) = l.name ++ 58 :: l.value := by
    rw [← hlen]; exact List.take_left' rfl
  rw [htake, strchr_at _ _ _ fun c hc => (h.name.2.1 c hc).1]
  simp only
  have hn : ((l.name ++ 58 :: l.value) ++ 13 :: 10 :: tail).take l.name.length = l.name := by
    rw [List.append_assoc]; exact List.take_left' rfl
  have hd : ((l.name ++ 58 :: l.value) ++ 13 :: 10 :: tail).drop (l.name.length + 1) = l.first.text ++ (elementsText l.more ++ 13 :: 10 :: tail) := by
    rw [show (l.name ++ 58 :: l.value) ++ 13 :: 10 :: tail = (l.name ++ [58]) ++ (l.value ++ 13 :: 10 :: tail) by simp,
      List.drop_left' (by simp)]
    simp [Line.value]
  rw [hn, hd, show l.name.map toLower = lower l.name from rfl, fieldLoop_elements _ _ h.angled tail ht g l.more l.first false 0 [] _ (by
      have := elementsText_length l.more
      simp only [List.length_append, List.length_cons, Line.value]
      omega)
    h.items h.list h.whole h.made]
  simp only [R.map, R.bind, List.nil_append, List.map_cons]
  have hfull : trimSet (((l.first.text ++ (elementsText l.more ++ 13 :: 10 :: tail)).take ((l.first.text ++ elementsText l.more).length + endExtra l.first l.more)).drop
      (countWhsp ((l.first.text ++ (elementsText l.more ++ 13 :: 10 :: tail)).take ((l.first.text ++ elementsText l.more).length + endExtra l.first l.more)))) =
      strip l.value := by
    have hv : l.value = l.first.text ++ elementsText l.more := rfl
    rw [← List.append_assoc, ← hv]
    rcases endExtra_cases l.more l.first with he | he
    · rw [he, Nat.add_zero, List.take_left' rfl, strip_eq]
    · rw [he, show l.value ++ 13 :: 10 :: tail = (l.value ++ [13, 10]) ++ tail by simp, List.take_left' (by simp)]
      exact strip_crlf _ h.solid
  rw [setFull, hfull]
  congr 2
  simp [Line.value]
  omega

/-- The lines of a header. -/
def readText (ls : List (Line × (Element → Field))) : Bytes := ls.flatMap fun l => l.1.text

theorem readText_stop (ls : List (Line × (Element → Field))) (hok : ∀ l ∈ ls, Reads l.1 l.2) (tail : Bytes) : Stop (readText ls ++ 13 :: 10 :: tail) := by
  cases ls with
  | nil => exact ⟨13, _, rfl, by decide, by decide, by decide, by decide⟩
  | cons l' ls =>
    obtain ⟨l, g⟩ := l'
    have h := (hok (l, g) (by simp)).name
    cases hn : l.name with
    | nil => exact absurd hn h.1
    | cons c n =>
      obtain ⟨h1, h2, h3, h4⟩ := h.2.2 c (by rw [hn]; rfl)
      have : ∃ t, readText ((l, g) :: ls) ++ 13 :: 10 :: tail = c :: t := by
        rw [readText, List.flatMap_cons, Line.text, hn]
        exact ⟨_, rfl⟩
      obtain ⟨t, ht⟩ := this
      exact ⟨c, t, ht, h3, h4, h1, h2⟩

theorem headerFields_reads (tail : Bytes) : ∀ (ls : List (Line × (Element → Field))) (fuel : Nat) (acc : List Field) (pos : Nat), ls.length < fuel → (∀ l ∈ ls, Reads l.1 l.2) →
    (readText ls ++ 13 :: 10 :: tail).length ≤ lengthMax →
    headerFields fuel acc pos (readText ls ++ 13 :: 10 :: tail) = (.ok, acc ++ ls.flatMap fieldsOf, pos + (readText ls).length + 2)
  | ls, 0, _, _, hf, _, _ => by omega
  | [], fuel + 1, acc, pos, _, _, _ => by
    show headerFields (fuel + 1) acc pos (13 :: 10 :: tail) = _
    rw [headerFields, show findCrlf (13 :: 10 :: tail) = some 0 from rfl]
    simp [readText]
  | (l, g) :: ls, fuel + 1, acc, pos, hf, hok, hmax => by
    have hl := hok (l, g) (by simp)
    have hls := fun x hx => hok x (List.mem_cons_of_mem (l, g) hx)
    have ht : readText ((l, g) :: ls) ++ 13 :: 10 :: tail = l.text ++ (readText ls ++ 13 :: 10 :: tail) := by simp [readText]
    rw [ht] at hmax ⊢
    have hp := fieldParse_reads l g hl (readText ls ++ 13 :: 10 :: tail) (readText_stop ls hls tail) hmax
    have hcr : ∀ c ∈ l.name ++ 58 :: l.value, c ≠ 13 := by
      intro c hc
      rcases List.mem_append.1 hc with hc | hc
      · exact (hl.name.2.1 c hc).2
      · rw [List.mem_cons] at hc
        rcases hc with rfl | hc
        · decide
        · unfold Line.value at hc
          rcases List.mem_append.1 hc with hc | hc
          · exact l.first.text_nocr (fun i hi => (hl.items l.first (by simp [Line.elements]) i hi).oneLine) c hc
          · exact elementsText_nocr l.more (fun e he i hi => (hl.items e (by simp [Line.elements, he]) i hi).oneLine) c hc
    have hlt : l.text ++ (readText ls ++ 13 :: 10 :: tail) = (l.name ++ 58 :: l.value) ++ 13 :: 10 :: (readText ls ++ 13 :: 10 :: tail) := by
      simp [Line.text]
    have hcrlf : findCrlf (l.text ++ (readText ls ++ 13 :: 10 :: tail)) = some (l.name.length + l.value.length + 1) := by
      rw [hlt, findCrlf_line _ _ hcr]
      simp
      omega
    rw [headerFields, hcrlf]
    simp only
    rw [hp]
    simp only
    have hn : (if l.name.length + 1 + l.value.length + endExtra l.first l.more = l.name.length + l.value.length + 1 then
        l.name.length + 1 + l.value.length + endExtra l.first l.more + 2 else l.name.length + 1 + l.value.length + endExtra l.first l.more) = l.text.length := by
      have : l.text.length = l.name.length + l.value.length + 3 := by simp [Line.text]; omega
      rcases endExtra_cases l.more l.first with he | he <;> rw [he] <;> split <;> omega
    rw [hn, List.drop_left' rfl, headerFields_reads tail ls fuel _ _ (by simp only [List.length_cons] at hf; omega) hls (by
      rw [List.length_append] at hmax; omega)]
    simp only [List.flatMap_cons, readText, List.length_append, List.append_assoc]
    congr 2
    omega

end Verif.Http
