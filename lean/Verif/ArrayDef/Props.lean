import Verif.ArrayDef.Trees
/-! # Properties of array definitions as texts (C110) -/
namespace Verif.ArrayDef
open ArrayTree Types ArrayTree.Spec ArrayDef.Spec
open Verif.Condition (Parsed)

/-! ## Decimal numbers are what the C library reads -/

theorem plain_loose {b : Bytes} {n : Nat} (h : Plain b n) (hn : n < 2 ^ 64) : Loose b n := by
  obtain ⟨h1, h2, rfl⟩ := h
  exact ⟨[], [], b, false, rfl, by simp, Or.inl ⟨rfl, rfl⟩, h1, h2, by rw [if_neg (by omega)]; rfl⟩

theorem field_loose {f : Field} {b : Bytes} (h : FieldText Plain f b) : FieldText Loose f b := by
  obtain ⟨a1, a2, a3, a4, rfl, h1, h2, h3, h4, h5⟩ := h
  refine ⟨a1, a2, a3, a4, rfl, ?_, h2, ?_, h4, h5⟩
  · unfold SizeText at h1 ⊢
    split
    · rename_i hz; rw [if_pos hz] at h1; exact h1
    · rename_i hz
      rw [if_neg hz] at h1
      split
      · rename_i hr; rw [hr] at h1; exact h1
      · rename_i hr
        rw [hr] at h1
        exact ⟨plain_loose h1.1 (Nat.lt_trans f.len.toNat_lt (by decide)), h1.2⟩
  · unfold CountText at h3 ⊢
    split
    · rename_i hr; rw [hr] at h3; exact h3
    · rename_i hr
      rw [hr] at h3
      rcases h3 with h | ⟨d, e1, e2, e3⟩
      · exact Or.inl h
      · exact Or.inr ⟨d, e1, plain_loose e2 (Nat.lt_trans f.count.toNat_lt (by decide)), e3⟩

mutual
theorem text_loose (t : Tree) (s r : Bytes) (h : Text Plain t s r) : Text Loose t s r := by
  cases t with
  | nil => exact h
  | field f rest =>
    obtain ⟨g, w, u, h1, h2, h3, h4, h5⟩ := h
    exact ⟨g, w, u, h1, h2, field_loose h3, h4, text_loose rest u r h5⟩
  | rewind n rest =>
    obtain ⟨g, sp, ds, u, h1, h2, h3, h4, h5, h6, h7⟩ := h
    exact ⟨g, sp, ds, u, h1, h2, h3, h4, h5, h6, text_loose rest u r h7⟩
  | cond bs rest =>
    obtain ⟨g, u, v, h1, h2, h3, h4⟩ := h
    exact ⟨g, u, v, h1, h2, blocks_loose true bs u v h3, text_loose rest v r h4⟩
theorem blocks_loose (first : Bool) (bs : Branches) (s r : Bytes) (h : Blocks Plain first bs s r) : Blocks Loose first bs s r := by
  cases bs with
  | none => exact h
  | els t =>
    obtain ⟨h1, sp, u, h2, h3, h4⟩ := h
    exact ⟨h1, sp, u, h2, h3, text_loose t u r h4⟩
  | arm c t more =>
    obtain ⟨sp, u, v, w, h1, h2, h3, h4, h5, h6⟩ := h
    exact ⟨sp, u, v, w, h1, h2, h3, h4, text_loose t v w h5, blocks_loose false more w r h6⟩
end

theorem field_ok {f : Field} {b : Bytes} (h : FieldText Loose f b) : FieldOk f := by
  obtain ⟨a1, a2, a3, a4, rfl, h1, h2, h3, h4, h5⟩ := h
  refine ⟨len_small h1, fun hz => ?_⟩
  unfold SizeText at h1
  rw [if_pos hz] at h1
  unfold CountText at h3
  split at h3
  · exact absurd hz h3.2.2.2
  · rename_i hr
    rcases h3 with h | ⟨d, _, _, _, h⟩
    · exact ⟨h1.2.2, h.2, hr⟩
    · exact ⟨h1.2.2, h hz, hr⟩

mutual
theorem text_fields (t : Tree) (s r : Bytes) (h : Text Loose t s r) : ∀ f ∈ fields t, FieldOk f := by
  cases t with
  | nil => intro f hf; simp [fields] at hf
  | field f rest =>
    obtain ⟨g, w, u, h1, h2, h3, h4, h5⟩ := h
    intro x hx
    simp only [fields, List.mem_cons] at hx
    rcases hx with rfl | hx
    · exact field_ok h3
    · exact text_fields rest u r h5 x hx
  | rewind n rest =>
    obtain ⟨g, sp, ds, u, h1, h2, h3, h4, h5, h6, h7⟩ := h
    intro x hx
    rw [fields] at hx
    exact text_fields rest u r h7 x hx
  | cond bs rest =>
    obtain ⟨g, u, v, h1, h2, h3, h4⟩ := h
    intro x hx
    rw [fields] at hx
    rcases List.mem_append.mp hx with hx | hx
    · exact blocks_fields true bs u v h3 x hx
    · exact text_fields rest v r h4 x hx
theorem blocks_fields (first : Bool) (bs : Branches) (s r : Bytes) (h : Blocks Loose first bs s r) : ∀ f ∈ fieldsOf bs, FieldOk f := by
  cases bs with
  | none => intro f hf; simp [fieldsOf] at hf
  | els t =>
    obtain ⟨h1, sp, u, h2, h3, h4⟩ := h
    intro x hx
    rw [fieldsOf] at hx
    exact text_fields t u r h4 x hx
  | arm c t more =>
    obtain ⟨sp, u, v, w, h1, h2, h3, h4, h5, h6⟩ := h
    intro x hx
    rw [fieldsOf] at hx
    rcases List.mem_append.mp hx with hx | hx
    · exact text_fields t v w h5 x hx
    · exact blocks_fields false more w r h6 x hx
end

/-! ## C110 -/

/-- **C110, partial.** A text which begins with an array definition, written as the manual says, is read as this definition. What follows it is left, maybe without the spaces before it.
Missing: fields of which the text has two characters (`host_refused`) or more than 65. -/
theorem definition_read_partial (t : Tree) (s r : Bytes) (h : Text Plain t s r) : interpret s = .ok (t, r) ∨ interpret s = .ok (t, Parse.ignoreSpaces r) := by
  obtain ⟨r', h1, h2⟩ := tree_complete (s.length + 1) s t r (4 * s.length + 4) (by omega) (text_loose t s r h) (by omega)
  rcases h2 with rfl | rfl
  · exact Or.inl h1
  · exact Or.inr h1

/-- **C110.** A text is at most one definition, and ends in one place but for spaces. -/
theorem definition_unique (t t' : Tree) (s r r' : Bytes) (h : Text Plain t s r) (h' : Text Plain t' s r') : t = t' ∧ Parse.ignoreSpaces r = Parse.ignoreSpaces r' := by
  have e : ∀ {t r}, Text Plain t s r → ∃ x, interpret s = .ok (t, x) ∧ Parse.ignoreSpaces x = Parse.ignoreSpaces r := by
    intro t r h
    rcases definition_read_partial t s r h with h | h
    · exact ⟨r, h, rfl⟩
    · exact ⟨_, h, ig_ig r⟩
  obtain ⟨x, h1, h2⟩ := e h
  obtain ⟨y, h3, h4⟩ := e h'
  rw [h1] at h3
  cases h3
  exact ⟨rfl, by rw [← h2, ← h4]⟩

/-- **C110, partial.** Everything which is accepted is an array definition, and the fields have lengths which are allowed. Missing: the numbers can be written in other ways than the manual says (`negative_length`), and `REWIND`
is not checked (`rewind_not_checked`). -/
theorem accepted_definition_partial (t : Tree) (s r : Bytes) (h : interpret s = .ok (t, r)) :
    (∀ f ∈ fields t, FieldOk f) ∧ (Text Loose t s r ∨ ∃ r0, Text Loose t s r0 ∧ r = Parse.ignoreSpaces r0) := by
  obtain ⟨r0, h1, h2⟩ := (sound_all _).1 _ _ _ h
  refine ⟨text_fields t s r0 h1, ?_⟩
  rcases h2 with rfl | rfl
  · exact Or.inl h1
  · exact Or.inr ⟨r0, h1, rfl⟩

/-- **C110.** No text makes the program abort: it is accepted or refused. -/
theorem definition_never_aborts (s : Bytes) : interpret s ≠ .bug := tree_enough (s.length + 1) s _ (by omega) (by omega)

theorem bind_not_bug {α β : Type} {m : Parsed α} {f : α → Parsed β} (h : m ≠ .bug) (hf : ∀ x, f x ≠ .bug) : bind m f ≠ .bug := by
  cases m with
  | ok x => exact hf x
  | soft => simp [bind]
  | bug => exact absurd rfl h

/-- **C110.** A configuration value which is a definition, with spaces and tabs after it, is accepted as this definition; no value makes the program abort. -/
theorem value_read_partial (t : Tree) (s r : Bytes) (h : Text Plain t s r) (hr : ∀ c ∈ r, c = 32 ∨ c = 9) : interpretRaw s = .ok t := by
  have hb : ∀ c : UInt8, c = 32 ∨ c = 9 → Parse.isSpaceTab c = true ∧ c ∈ blanks := all256 (by decide +kernel)
  have hd : r.dropWhile Parse.isSpaceTab = [] := by
    have := ((span_iff Parse.isSpaceTab r r []).mpr ⟨by simp, fun c hc => (hb c (hr c hc)).1, by simp⟩).2
    exact this
  have hi : Parse.ignoreSpaces r = [] := by
    have := ig_of (sp := r) (r := []) (fun c hc => (hb c (hr c hc)).2) (by simp)
    rw [List.append_nil] at this
    exact this
  unfold interpretRaw
  rcases definition_read_partial t s r h with h | h
  · rw [h]; simp only [bind]; rw [hd]; rfl
  · rw [h]; simp only [bind]; rw [hi]; rfl

theorem value_never_aborts (s : Bytes) : interpretRaw s ≠ .bug := by
  unfold interpretRaw
  refine bind_not_bug (definition_never_aborts s) fun x => ?_
  simp only
  split <;> simp

/-! ## Cases -/

deriving instance DecidableEq for ArrayTree.Tree, ArrayTree.Branches

/-- The texts ` ({a} == 1)` and ` be4s@2#b,REWIND1 blob{a};` and ` sep1 ;` and ` ustr;`, before which there are line feeds. -/
def condText : Bytes := [32, 40, 123, 97, 125, 32, 61, 61, 32, 49, 41]
def thenText : Bytes := [10, 32, 98, 101, 52, 115, 64, 50, 35, 98, 44, 82, 69, 87, 73, 78, 68, 49, 32, 98, 108, 111, 98, 123, 97, 125, 59]
def elseText : Bytes := [32, 115, 101, 112, 49, 32, 59]
def lastText : Bytes := [10, 32, 117, 115, 116, 114, 59]

/-- `be1#a, IF ({a} == 1) be4s@2#b,REWIND1 blob{a}; ELSE sep1 ; ustr;` with line feeds. -/
def sampleText : Bytes := [98, 101, 49, 35, 97] ++ (44 :: 32 :: (wIf ++ (condText ++ (thenText ++ (10 :: 32 :: (wElse ++ (elseText ++ lastText)))))))

def fA : Field := ⟨.be, false, [97], 1, none, 1, none⟩
def fB : Field := ⟨.be, true, [98], 4, none, 2, none⟩
def fC : Field := ⟨.blob, false, [], 0, some [97], 1, none⟩
def fD : Field := ⟨.sep, false, [], 1, none, 1, none⟩
def fE : Field := ⟨.ustr, false, [], 0, none, 1, none⟩
def sampleCond : List Condition.Carrier := [.val [123, 97, 125], .val [49], .op .eq]

def sampleTree : Tree := .field fA (.cond (.arm sampleCond (.field fB (.rewind 1 (.field fC .nil))) (.els (.field fD .nil))) (.field fE .nil))

example : interpret sampleText = .ok (sampleTree, []) := by decide +kernel

instance (b : Bytes) (n : Nat) : Decidable (Plain b n) := by unfold Plain; infer_instance
instance (b : Bytes) : Decidable (Name b) := by unfold Name; infer_instance
instance (b : Bytes) : Decidable (Gap b) := by unfold Gap; infer_instance
instance (b : Bytes) : Decidable (Blank b) := by unfold Blank; infer_instance

/-- The sample is written as the manual says. -/
theorem sample_text : Text Plain sampleTree sampleText [] := by
  have semi : ∀ r, Text Plain .nil (59 :: r) r := fun r => ⟨[], by decide, rfl⟩
  have fieldA : FieldText Plain fA [98, 101, 49, 35, 97] := ⟨[49], [], [], [35, 97], rfl, ⟨by decide, by decide, by decide⟩, Or.inl rfl, Or.inl ⟨rfl, rfl⟩, Or.inr ⟨rfl, by decide⟩, by decide, by decide, by decide⟩
  have fieldB : FieldText Plain fB [98, 101, 52, 115, 64, 50, 35, 98] := ⟨[52], [115], [64, 50], [35, 98], rfl, ⟨by decide, by decide, by decide⟩, ⟨Or.inl rfl, Or.inl rfl⟩,
    Or.inr ⟨[50], rfl, by decide, by decide, by decide⟩, Or.inr ⟨rfl, by decide⟩, by decide, by decide, by decide⟩
  have fieldC : FieldText Plain fC [98, 108, 111, 98, 123, 97, 125] := ⟨[123, 97, 125], [], [], [], rfl, ⟨rfl, by decide, rfl⟩, Or.inl rfl, Or.inl ⟨rfl, rfl⟩, Or.inl ⟨rfl, rfl⟩, by decide, by decide, by decide⟩
  have fieldD : FieldText Plain fD [115, 101, 112, 49] := ⟨[49], [], [], [], rfl, ⟨by decide, by decide, by decide⟩, Or.inl rfl, Or.inl ⟨rfl, rfl⟩, Or.inl ⟨rfl, rfl⟩, by decide, by decide, by decide⟩
  have fieldE : FieldText Plain fE [117, 115, 116, 114] := ⟨[], [], [], [], rfl, ⟨rfl, rfl, rfl⟩, Or.inl rfl, Or.inl ⟨rfl, rfl⟩, Or.inl ⟨rfl, rfl⟩, by decide, by decide, by decide⟩
  have last : Text Plain (.field fE .nil) lastText [] := ⟨[10, 32], _, [59], by decide, rfl, fieldE, ⟨[], [59], rfl, by decide, Or.inl ⟨[], Or.inr rfl⟩⟩, semi []⟩
  have els : Text Plain (.field fD .nil) (elseText ++ lastText) lastText :=
    ⟨[32], _, [32, 59] ++ lastText, by decide, rfl, fieldD, ⟨[32], 59 :: lastText, rfl, by decide, Or.inl ⟨lastText, Or.inr rfl⟩⟩, [32], by decide, rfl⟩
  have thn : ∀ r, Text Plain (.field fB (.rewind 1 (.field fC .nil))) (thenText ++ r) r := fun r =>
    ⟨[10, 32], _, 44 :: (wRewind ++ ([49] ++ (32 :: ([98, 108, 111, 98, 123, 97, 125] ++ 59 :: r)))), by decide, rfl, fieldB, ⟨[], _, rfl, by decide, Or.inl ⟨_, Or.inl rfl⟩⟩,
      [44], [], [49], _, by decide, rfl, by decide, by decide, by decide, by decide,
      [32], _, 59 :: r, by decide, rfl, fieldC, ⟨[], _, rfl, by decide, Or.inl ⟨r, Or.inr rfl⟩⟩, semi r⟩
  refine ⟨[], _, _, by decide, rfl, fieldA, ⟨[], _, rfl, by decide, Or.inl ⟨_, Or.inl rfl⟩⟩, [44, 32], _, lastText, by decide, rfl, ?_, last⟩
  exact ⟨[], _, _, _, by decide, fun _ => rfl, rfl, by decide +kernel, thn _, rfl, [10, 32], elseText ++ lastText, by decide, rfl, els⟩

example : interpretRaw sampleText = .ok sampleTree := value_read_partial sampleTree sampleText [] sample_text (by simp)

/-- Of a definition with data after it, the data are left. -/
example : interpret [117, 115, 116, 114, 59, 32, 120] = .ok (.field fE .nil, [120]) := by decide +kernel

/-- `h4;` is refused. The manual has `h` with a length from 1 to 8. -/
theorem host_refused : interpret [104, 52, 59] = .soft ∧ interpret [104, 52, 115, 59] = .ok (.field ⟨.h, true, [], 4, none, 1, none⟩ .nil, []) := by decide +kernel

/-- `be-18446744073709551612;` is accepted as `be4`. -/
theorem negative_length : interpret [98, 101, 45, 49, 56, 52, 52, 54, 55, 52, 52, 48, 55, 51, 55, 48, 57, 53, 53, 49, 54, 49, 50, 59] = .ok (.field ⟨.be, false, [], 4, none, 1, none⟩ .nil, []) := by decide +kernel

/-- A `REWIND` past the start is accepted, and reading fails later. The manual says that it is checked when the definition is read. -/
theorem rewind_not_checked : interpret [98, 101, 49, 44, 82, 69, 87, 73, 78, 68, 50, 32, 98, 101, 49, 59] = .ok (.field ⟨.be, false, [], 1, none, 1, none⟩ (.rewind 2 (.field ⟨.be, false, [], 1, none, 1, none⟩ .nil)), []) := by decide +kernel

/-- A line feed at the end of a configuration value is allowed or not, depending on commas before the semicolon. -/
theorem line_feed_after : interpretRaw [98, 101, 49, 59, 10] = .ok (.field ⟨.be, false, [], 1, none, 1, none⟩ .nil) ∧ interpretRaw [98, 101, 49, 44, 44, 59, 10] = .soft := by decide +kernel

/-- Texts which are no definitions: without semicolon, `ELSE` without `IF`, a length of 0, a sign for a type without. -/
example : interpret [98, 101, 52] = .soft ∧ interpret [98, 101, 52, 32, 69, 76, 83, 69, 59] = .soft ∧ interpret [98, 101, 48, 59] = .soft ∧ interpret [98, 108, 111, 98, 52, 115, 59] = .soft := by decide +kernel

end Verif.ArrayDef
