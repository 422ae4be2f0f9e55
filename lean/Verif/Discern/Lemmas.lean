import Verif.Discern.Model
import Verif.Discern.Spec
import Verif.Topic.Props
import Verif.Bits
/-! # The lexer and the storage of discern definitions -/
namespace Verif.Discern
open Verif Msg

/-! ## Parsing primitives -/

theorem ignore_eq (p : UInt8 → Bool) (hp : p 0x0a = true) (b : Bytes) : Parse.ignore p b = b.dropWhile p := by
  fun_induction Parse.ignore p b with
  | case1 => rfl
  | case2 c h n t hc ih =>
    simp only [Bool.and_eq_true, beq_iff_eq] at hc
    rw [ih, List.dropWhile_cons_of_pos h, hc.2, List.dropWhile_cons_of_pos hp]
  | case3 c h n t hc ih => rw [ih, List.dropWhile_cons_of_pos h]
  | case4 c h => rw [List.dropWhile_cons_of_pos h]; rfl
  | case5 c t h => rw [List.dropWhile_cons_of_neg (by simpa using h)]

theorem ignoreSpaces_eq (b : Bytes) : Parse.ignoreSpaces b = b.dropWhile Parse.isSpaces := ignore_eq _ (by decide) b

theorem ignoreSpaces_length (b : Bytes) : (Parse.ignoreSpaces b).length ≤ b.length := by
  rw [ignoreSpaces_eq]; exact (List.dropWhile_sublist _).length_le

theorem ignoreControl_length (b : Bytes) : (Parse.ignoreControl b).length ≤ b.length := by
  unfold Parse.ignoreControl
  rw [ignore_eq _ (by decide)]; exact (List.dropWhile_sublist _).length_le

theorem matchWord_some {w b rest : Bytes} (h : Parse.matchWord w b = some rest) : b = w ++ rest := by
  unfold Parse.matchWord at h
  split at h
  · rename_i hp
    obtain ⟨r, rfl⟩ := List.isPrefixOf_iff_prefix.mp hp
    simp only [List.drop_left, Option.some.injEq] at h
    rw [h]
  · cases h

theorem firstMatch_some {α : Type} {ws : List (Bytes × α)} {b rest : Bytes} {a : α} (h : firstMatch ws b = some (a, rest)) :
    ∃ w, (w, a) ∈ ws ∧ b = w ++ rest := by
  induction ws with
  | nil => cases h
  | cons x ws ih =>
    obtain ⟨w, a'⟩ := x
    unfold firstMatch at h
    split at h
    · rename_i r hr
      cases h
      exact ⟨w, by simp, matchWord_some hr⟩
    · obtain ⟨w', hw, hb⟩ := ih h
      exact ⟨w', by simp [hw], hb⟩

theorem comment_length (b : Bytes) : (Parse.comment b).length ≤ b.length := by
  unfold Parse.comment
  split
  · simp
  · exact Nat.le_trans (ignoreSpaces_length _) (List.dropWhile_sublist _).length_le

/-! ## The storage -/

/-- A string with its NUL is in the storage. -/
def StrAt (storage : Bytes) (pos : Nat) (d : Bytes) : Prop := (0 : UInt8) ∉ d ∧ ∃ more, storage.drop pos = d ++ 0 :: more

theorem StrAt.cstrAt {storage : Bytes} {pos : Nat} {d : Bytes} (h : StrAt storage pos d) : cstrAt storage pos = some d := by
  obtain ⟨h0, more, h⟩ := h
  unfold Discern.cstrAt
  rw [h, if_pos (by simp)]
  congr 1
  rw [List.takeWhile_append_of_pos (fun a ha => by simp; intro e; exact h0 (e ▸ ha))]
  simp

theorem StrAt.bytesAt {storage : Bytes} {pos : Nat} {d : Bytes} (h : StrAt storage pos d) : bytesAt storage pos d.length = some d := by
  obtain ⟨h0, more, h⟩ := h
  unfold Discern.bytesAt
  have hl := congrArg List.length h
  rw [List.length_drop, List.length_append, List.length_cons] at hl
  rw [if_pos (by omega), h, List.take_left]

theorem StrAt.append {storage : Bytes} {pos : Nat} {d : Bytes} (h : StrAt storage pos d) (more : Bytes) : StrAt (storage ++ more) pos d := by
  obtain ⟨h0, m, h⟩ := h
  have hl := congrArg List.length h
  rw [List.length_drop, List.length_append, List.length_cons] at hl
  refine ⟨h0, m ++ more, ?_⟩
  rw [List.drop_append_of_le_length (by omega), h]
  simp

theorem strAt_end (storage d : Bytes) (h : (0 : UInt8) ∉ d) : StrAt (storage ++ (d ++ [0])) storage.length d :=
  ⟨h, [], by rw [List.drop_left]⟩

/-! ## Words and elements -/

open Spec (Word)

/-- The element of the list is a word. -/
def Rep (storage : Bytes) (e : Elem) : Word → Prop
  | .topic f => e.type = .topicFilter ∧ e.op = .push ∧ e.val.dataSize = f.length + 1 ∧ StrAt storage e.val.dataPos f ∧
      f ≠ [] ∧ Topic.filterValidateName f = true
  | .tag t => e.type = .arrayTag ∧ e.op = .push ∧ StrAt storage e.val.dataPos t ∧ t ≠ [] ∧ e.val.value = firstLast t
  | .const b => e.type = .bool ∧ e.op = .push ∧ e.val.dataSize = 0 ∧ e.val.value = truth b
  | .dest d => e.type = .destination ∧ e.op = .push ∧ 0 < e.val.dataSize ∧ StrAt storage e.val.dataPos d
  | .and => e.type = .none ∧ e.op = .and
  | .or => e.type = .none ∧ e.op = .or
  | .not => e.type = .none ∧ e.op = .not
  | .apply => e.type = .none ∧ e.op = .apply
  | .pop => e.type = .none ∧ e.op = .pop
  | .bail => e.type = .none ∧ e.op = .bail

theorem Rep.append {storage : Bytes} {e : Elem} {w : Word} (h : Rep storage e w) (more : Bytes) : Rep (storage ++ more) e w := by
  cases w with
  | topic f => obtain ⟨h1, h2, h3, h4, h5⟩ := h; exact ⟨h1, h2, h3, h4.append more, h5⟩
  | tag f => obtain ⟨h1, h2, h3, h4⟩ := h; exact ⟨h1, h2, h3.append more, h4⟩
  | dest f => obtain ⟨h1, h2, h3, h4⟩ := h; exact ⟨h1, h2, h3, h4.append more⟩
  | const b => exact h
  | and => exact h
  | or => exact h
  | not => exact h
  | apply => exact h
  | pop => exact h
  | bail => exact h

/-- What the lexer finds is a word. -/
def IsWord (p : Push) : Word → Prop
  | .topic f => p = ⟨.topicFilter, .push, some f, 0⟩ ∧ f ≠ [] ∧ (0 : UInt8) ∉ f ∧ Topic.filterValidateName f = true
  | .tag t => p = ⟨.arrayTag, .push, some t, 0⟩ ∧ t ≠ [] ∧ (0 : UInt8) ∉ t
  | .const b => p = ⟨.bool, .push, none, truth b⟩
  | .dest d => p = ⟨.destination, .push, some d, 0⟩ ∧ d ≠ [] ∧ (0 : UInt8) ∉ d
  | .and => p = ⟨.none, .and, none, 0⟩
  | .or => p = ⟨.none, .or, none, 0⟩
  | .not => p = ⟨.none, .not, none, 0⟩
  | .apply => p = ⟨.none, .apply, none, 0⟩
  | .pop => p = ⟨.none, .pop, none, 0⟩
  | .bail => p = ⟨.none, .bail, none, 0⟩

theorem listPush_rep {storage : Bytes} {p : Push} {w : Word} (h : IsWord p w) :
    Rep (listPush storage p).2 (listPush storage p).1 w ∧ ∃ more, (listPush storage p).2 = storage ++ more := by
  cases w with
  | topic f =>
    obtain ⟨rfl, h1, h2, h3⟩ := h
    exact ⟨⟨rfl, rfl, rfl, strAt_end _ _ h2, h1, h3⟩, _, rfl⟩
  | tag f =>
    obtain ⟨rfl, h1, h2⟩ := h
    exact ⟨⟨rfl, rfl, strAt_end _ _ h2, h1, rfl⟩, _, rfl⟩
  | dest f =>
    obtain ⟨rfl, h1, h2⟩ := h
    exact ⟨⟨rfl, rfl, Nat.succ_pos _, strAt_end _ _ h2⟩, _, rfl⟩
  | const b => cases h; exact ⟨⟨rfl, rfl, rfl, rfl⟩, [], by simp [listPush]⟩
  | and => cases h; exact ⟨⟨rfl, rfl⟩, [], by simp [listPush]⟩
  | or => cases h; exact ⟨⟨rfl, rfl⟩, [], by simp [listPush]⟩
  | not => cases h; exact ⟨⟨rfl, rfl⟩, [], by simp [listPush]⟩
  | apply => cases h; exact ⟨⟨rfl, rfl⟩, [], by simp [listPush]⟩
  | pop => cases h; exact ⟨⟨rfl, rfl⟩, [], by simp [listPush]⟩
  | bail => cases h; exact ⟨⟨rfl, rfl⟩, [], by simp [listPush]⟩

/-! ## The lexer -/

theorem takeWhile_all {p : UInt8 → Bool} : ∀ {l : Bytes}, (∀ a ∈ l, p a = true) → l.takeWhile p = l
  | [], _ => rfl
  | a :: l, h => by
    rw [List.takeWhile_cons_of_pos (h a (by simp)), takeWhile_all fun x hx => h x (by simp [hx])]

theorem dropWhile_all {p : UInt8 → Bool} : ∀ {l : Bytes}, (∀ a ∈ l, p a = true) → l.dropWhile p = []
  | [], _ => rfl
  | a :: l, h => by
    rw [List.dropWhile_cons_of_pos (h a (by simp)), dropWhile_all fun x hx => h x (by simp [hx])]

theorem mem_takeWhile {p : UInt8 → Bool} {x : UInt8} : ∀ {l : Bytes}, x ∈ l.takeWhile p → p x = true
  | [], h => by cases h
  | a :: l, h => by
    rw [List.takeWhile_cons] at h
    split at h
    · rename_i ha
      rcases List.mem_cons.mp h with rfl | h
      · exact ha
      · exact mem_takeWhile h
    · cases h

theorem cstr_eq {d : Bytes} (h : (0 : UInt8) ∉ d) : Topic.cstr d = d := by
  unfold Topic.cstr
  apply takeWhile_all
  intro a ha
  simp
  intro e
  exact h (e ▸ ha)

/-- Length of the string of an element, with its NUL. -/
def Push.size (p : Push) : Nat := match p.data with
  | some d => d.length + 1
  | none => 0

theorem takeWhile_length_dropWhile (p : UInt8 → Bool) (b : Bytes) : (b.takeWhile p).length + (b.dropWhile p).length = b.length := by
  rw [← List.length_append, List.takeWhile_append_dropWhile]

theorem drop_peek (p : UInt8 → Bool) (b : Bytes) : Parse.matchLetters p b = (b.takeWhile p, b.dropWhile p) := by
  unfold Parse.matchLetters Parse.peek
  have h := List.takeWhile_append_dropWhile (p := p) (l := b)
  have e1 : b.take (b.takeWhile p).length = b.takeWhile p := by
    have := List.take_left' (l₁ := b.takeWhile p) (l₂ := b.dropWhile p) rfl
    rw [h] at this
    exact this
  have e2 : b.drop (b.takeWhile p).length = b.dropWhile p := by
    have := List.drop_left' (l₁ := b.takeWhile p) (l₂ := b.dropWhile p) rfl
    rw [h] at this
    exact this
  rw [e1, e2]

theorem takeWhile_nonul {p : UInt8 → Bool} (hp : p 0 = false) (b : Bytes) : (0 : UInt8) ∉ b.takeWhile p := by
  intro h
  have := mem_takeWhile h
  rw [hp] at this
  cases this

/-- Which characters a value has. -/
def valueChar : EType → UInt8 → Bool
  | .topicFilter => fun c => !Parse.isControlSigned c
  | .arrayTag => Parse.isTagChar
  | _ => Parse.isNameChar

theorem value_eq (t : EType) (b : Bytes) : value t b = (b.takeWhile (valueChar t), b.dropWhile (valueChar t)) := by
  cases t
  case topicFilter => rfl
  all_goals exact drop_peek _ _

theorem valueChar_zero (t : EType) : valueChar t 0 = false := by cases t <;> decide

theorem lexValue_elem {t : EType} (ht : t = .topicFilter ∨ t = .arrayTag ∨ t = .destination) {b : Bytes} {p : Push} {rest : Bytes}
    (h : lexValue t b = .elem p rest) :
    (∃ w, IsWord p w) ∧ p.size + rest.length ≤ b.length + 1 ∧ 2 ≤ p.size := by
  have hl := ignoreSpaces_length b
  unfold lexValue at h
  rw [value_eq] at h
  have k1 := takeWhile_nonul (valueChar_zero t) (Parse.ignoreSpaces b)
  have k2 := takeWhile_length_dropWhile (valueChar t) (Parse.ignoreSpaces b)
  generalize (Parse.ignoreSpaces b).takeWhile (valueChar t) = v at *
  generalize (Parse.ignoreSpaces b).dropWhile (valueChar t) = r at *
  unfold checkValue at h
  dsimp only at h
  rw [cstr_eq k1] at h
  split at h
  · cases h
  · split at h
    · cases h
    · split at h
      · cases h
      · split at h
        · cases h
        · rename_i h1 h2 h3 h4
          cases h
          have hv : 0 < v.length := List.length_pos_iff.mpr h1
          refine ⟨?_, by unfold Push.size; dsimp only; omega, by unfold Push.size; dsimp only; omega⟩
          rcases ht with rfl | rfl | rfl
          · exact ⟨.topic v, rfl, h1, k1, by simpa using h4⟩
          · exact ⟨.tag v, rfl, h1, k1⟩
          · exact ⟨.dest v, rfl, h1, k1⟩

theorem lex_elem {b : Bytes} {p : Push} {rest : Bytes} (h : lex b = .elem p rest) :
    (∃ w, IsWord p w) ∧ rest.length + 2 ≤ b.length ∧ p.size + rest.length ≤ b.length := by
  have hl := ignoreSpaces_length b
  unfold lex at h
  dsimp only at h
  split at h
  · cases h
  · split at h
    · cases h
    · split at h
      · rename_i v r hm
        split at h
        · cases h
        · cases h
          obtain ⟨w, hw, hb⟩ := firstMatch_some hm
          rw [hb, List.length_append] at hl
          simp only [List.mem_cons, List.not_mem_nil, or_false, Prod.mk.injEq] at hw
          rcases hw with ⟨rfl, rfl⟩ | ⟨rfl, rfl⟩
          · refine ⟨⟨.const true, rfl⟩, ?_, ?_⟩ <;> simp only [Push.size, List.length_cons] at * <;> omega
          · refine ⟨⟨.const false, rfl⟩, ?_, ?_⟩ <;> simp only [Push.size, List.length_cons] at * <;> omega
      · split at h
        · rename_i t r hm
          split at h
          · cases h
          · rename_i hsp
            obtain ⟨w, hw, hb⟩ := firstMatch_some hm
            rw [hb, List.length_append] at hl
            have ht : t = .topicFilter ∨ t = .arrayTag ∨ t = .destination := by
              simp only [valueKeywords, List.mem_cons, List.not_mem_nil, or_false, Prod.mk.injEq] at hw
              rcases hw with ⟨_, rfl⟩ | ⟨_, rfl⟩ | ⟨_, rfl⟩ | ⟨_, rfl⟩ <;> simp
            have hwl : 1 ≤ w.length := by
              simp only [valueKeywords, List.mem_cons, List.not_mem_nil, or_false, Prod.mk.injEq] at hw
              rcases hw with ⟨rfl, _⟩ | ⟨rfl, _⟩ | ⟨rfl, _⟩ | ⟨rfl, _⟩ <;> simp
            obtain ⟨h1, h2, h3⟩ := lexValue_elem ht h
            exact ⟨h1, by omega, by omega⟩
        · split at h
          · rename_i op r hm
            cases h
            obtain ⟨w, hw, hb⟩ := firstMatch_some hm
            rw [hb, List.length_append] at hl
            simp only [operators, List.mem_cons, List.not_mem_nil, or_false, Prod.mk.injEq] at hw
            rcases hw with ⟨rfl, rfl⟩ | ⟨rfl, rfl⟩ | ⟨rfl, rfl⟩ | ⟨rfl, rfl⟩ | ⟨rfl, rfl⟩ | ⟨rfl, rfl⟩
            · refine ⟨⟨.and, rfl⟩, ?_, ?_⟩ <;> simp only [Push.size, List.length_cons] at * <;> omega
            · refine ⟨⟨.or, rfl⟩, ?_, ?_⟩ <;> simp only [Push.size, List.length_cons, List.length_nil] at * <;> omega
            · refine ⟨⟨.not, rfl⟩, ?_, ?_⟩ <;> simp only [Push.size, List.length_cons] at * <;> omega
            · refine ⟨⟨.apply, rfl⟩, ?_, ?_⟩ <;> simp only [Push.size, List.length_cons] at * <;> omega
            · refine ⟨⟨.pop, rfl⟩, ?_, ?_⟩ <;> simp only [Push.size, List.length_cons] at * <;> omega
            · refine ⟨⟨.bail, rfl⟩, ?_, ?_⟩ <;> simp only [Push.size, List.length_cons] at * <;> omega
          · cases h

theorem lex_comment {b rest : Bytes} (h : lex b = .comment rest) : rest.length < b.length := by
  have hl := ignoreSpaces_length b
  unfold lex at h
  dsimp only at h
  split at h
  · cases h
  · split at h
    · rename_i r hm
      cases h
      have := comment_length r
      have hb := matchWord_some hm
      rw [hb, List.length_append] at hl
      simp only [List.length_cons, List.length_nil] at hl
      omega
    · split at h
      · split at h <;> cases h
      · split at h
        · split at h
          · cases h
          · rename_i t r hm _
            unfold lexValue checkValue at h
            split at h
            · cases h
            · split at h
              · cases h
              · split at h
                · cases h
                · split at h <;> cases h
        · split at h <;> cases h

end Verif.Discern
