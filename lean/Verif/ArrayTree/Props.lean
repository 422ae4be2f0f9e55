import Verif.ArrayTree.Stable
import Verif.Condition.Props
/-!
# C107–C109: array definitions
-/
namespace Verif.ArrayTree
open Verif Endian Msg Types Types.Spec Spec

/-- **C107, partial.** Data which are as a definition says are read: the array has the values which the specification gives, and the bytes used are those of the values. Missing: definitions which are not `Clean`. -/
theorem valid_data_read_partial (w : World) (t : Tree) (b : Bytes) (l : Parsed) (hc : Clean t) (hb : b.length < 2 ^ 29) (h : Run w b t [] l) :
    importBuffer w t b = .ok (l.reverse.map (·.1), l.bytes.length) := by
  obtain ⟨s, h1, h2⟩ := readTree_complete hb t ⟨[], 0⟩ [] l (clean_part hc) (rel_start _ _ _ _) h
  unfold importBuffer
  rw [h1]
  simp only [Res.bind]
  rw [h2.2.1, List.map_reverse, match_values h2.1, List.map_reverse]

/-- **C107, partial.** What is read is what the specification says: when reading succeeds, the data begin with values as the definition says, and these are in the array. Missing: definitions which are not `Clean`, and
counts which are not small. -/
theorem read_data_valid_partial (w : World) (t : Tree) (b : Bytes) (vs : List Value) (u : Nat) (hc : Clean t) (hf : Few t) (hb : b.length < 2 ^ 32) (h : importBuffer w t b = .ok (vs, u)) :
    ∃ l : Parsed, Run w b t [] l ∧ vs = l.reverse.map (·.1) ∧ u = l.bytes.length ∧ ∃ r, b = l.bytes ++ r := by
  unfold importBuffer at h
  obtain ⟨s, h1, h2⟩ := bind_eq_ok h
  cases h2
  obtain ⟨l, h3, h4⟩ := readTree_sound hb t ⟨[], 0⟩ s [] (clean_part hc) hf (rel_start _ _ _ _) h1
  refine ⟨l, h3, ?_, h4.2.1, h4.2.2⟩
  rw [List.map_reverse, match_values h4.1, List.map_reverse]

/-- **C108, partial.** No data make reading abort, or access memory outside of the data or of the memory which it has allocated. Missing: definitions which are not `Clean`, counts which are not small,
fields of type `msg`, and conditions which can be undefined (shifts and overflow of signed numbers). -/
theorem reading_safe_partial (w : World) (t : Tree) (b : Bytes) (hc : Clean t) (hf : Few t) (hm : ∀ f ∈ fields t, f.ty ≠ .msg)
    (he : ∀ c ∈ conds t, ∀ env, (∃ x, Condition.evaluate env c = .ok x) ∨ Condition.evaluate env c = .soft) (hb : b.length < 2 ^ 32) :
    importBuffer w t b ≠ .bug ∧ importBuffer w t b ≠ .oob :=
  fine_bind (readTree_fine hb t ⟨[], 0⟩ [] (clean_part hc) (fun f h => ⟨hf f h, hm f h⟩) he (rel_start _ _ _ _)) fun _ _ => fine_ok _

/-- **C109, partial.** When data arrive in parts: unless the answer is to wait for more, it is the one which is given when more data have arrived. Missing: fields of type `fixp` and `msg`. -/
theorem verdict_final_partial (w : World) (t : Tree) (b more : Bytes) (hf : ∀ f ∈ fields t, f.ty ≠ .fixp ∧ f.ty ≠ .msg) (hl : (b ++ more).length < 2 ^ 32) :
    importBuffer w t b = .incomplete ∨ importBuffer w t (b ++ more) = importBuffer w t b := by
  have h := readTree_waits w b more hl t ⟨[], 0⟩ (Nat.zero_le _) hf
  unfold importBuffer
  rcases h with h | ⟨h, _⟩
  · left; rw [h]; rfl
  · right; rw [h]

/-! ## A definition which meets the hypotheses -/

/-- `be1#n,blob{n}#x,REWIND1 IF ({n} == 2) be2s#y,sep1; ELSE ustr; ;` -/
def sample : Tree :=
  .field ⟨.be, false, [110], 1, none, 1, none⟩ <| .field ⟨.blob, false, [120], 0, some [110], 1, none⟩ <| .rewind 1 <|
  .cond (.arm [.val [123, 110, 125], .val [50], .op .eq] (.field ⟨.be, true, [121], 2, none, 1, none⟩ (.field ⟨.sep, false, [], 1, none, 1, none⟩ .nil)) (.els (.field ⟨.str, false, [], 0, none, 1, none⟩ .nil))) .nil

/-- The machine of the examples. -/
def machine : World := ⟨true, fun _ => 0, fun _ => 0⟩

theorem sample_clean : Clean sample where
  field := by
    intro f hf
    simp only [sample, fields, fieldsOf, List.append_nil, List.mem_cons, List.mem_append, List.not_mem_nil, or_false] at hf
    rcases hf with rfl | rfl | (rfl | rfl) | rfl <;> simp [FieldOk, longest]
  tags := by
    intro f hf name hn h0 hp
    simp only [sample, fields, fieldsOf, List.append_nil, List.mem_cons, List.mem_append, List.not_mem_nil, or_false] at hf
    have : name = [110] := by
      simp [sample, refs, refsOf, condNames] at hn
      exact hn
    subst this
    rcases hf with rfl | rfl | (rfl | rfl) | rfl <;> simp_all
  steps := by
    intro _ f hf
    simp only [sample, fields, fieldsOf, List.append_nil, List.mem_cons, List.mem_append, List.not_mem_nil, or_false] at hf
    rcases hf with rfl | rfl | (rfl | rfl) | rfl <;> simp

theorem sample_few : Few sample := by
  intro f hf
  simp only [sample, fields, fieldsOf, List.append_nil, List.mem_cons, List.mem_append, List.not_mem_nil, or_false] at hf
  rcases hf with rfl | rfl | (rfl | rfl) | rfl <;> simp

/-- With the data `02 ff fe ,` the integer -2 is read after the blob has been left again. -/
example : importBuffer machine sample [2, 0xff, 0xfe, 44, 9] =
    .ok ([⟨.h, 0, [110], 1, [2, 0, 0, 0, 0, 0, 0, 0], []⟩, ⟨.h, 1, [121], 1, [0xfe, 0xff, 0xff, 0xff, 0xff, 0xff, 0xff, 0xff], []⟩, ⟨.sep, 0, [], 1, [44], []⟩], 4) := by decide +kernel

example : importBuffer machine sample [1, 0x22, 0x5c, 0x22, 0x22] =
    .ok ([⟨.h, 0, [110], 1, [1, 0, 0, 0, 0, 0, 0, 0], []⟩, ⟨.str, 0, [], 1, [0x22], []⟩], 5) := by decide +kernel

example : importBuffer machine sample [3, 1] = .incomplete := by decide +kernel
example : importBuffer machine sample [0, 1] = .soft := by decide +kernel

/-- There are data for which the specification holds. -/
example : ∃ l : Parsed, Run machine [2, 0xff, 0xfe, 44, 9] sample [] l ∧ l.length = 3 := by
  obtain ⟨l, h1, h2, _⟩ := read_data_valid_partial machine sample [2, 0xff, 0xfe, 44, 9] _ _ sample_clean sample_few (by decide)
    (show importBuffer machine sample [2, 0xff, 0xfe, 44, 9] = .ok ([⟨.h, 0, [110], 1, [2, 0, 0, 0, 0, 0, 0, 0], []⟩, ⟨.h, 1, [121], 1, [0xfe, 0xff, 0xff, 0xff, 0xff, 0xff, 0xff, 0xff], []⟩, ⟨.sep, 0, [], 1, [44], []⟩], 4) by decide +kernel)
  refine ⟨l, h1, ?_⟩
  have := congrArg List.length h2
  simpa using this.symm

/-- The condition of the sample can always be evaluated. -/
example : CondOk [.val [123, 110, 125], .val [50], .op .eq] := by
  intro env
  have h1 : Condition.evaluateValue env [123, 110, 125] = (match env [110] with | none => .soft | some n => .ok n) := by
    unfold Condition.evaluateValue; rw [if_pos (by decide)]; rfl
  have h2 : Condition.evaluateValue env [50] = .ok ⟨2#64, false⟩ := by
    rw [Condition.evaluateValue, if_neg (by decide), if_neg (by decide), if_neg (by decide)]; decide
  unfold Condition.evaluate
  rw [Condition.evalLoop, h1]
  cases hn : env [110] with
  | none => exact Or.inr rfl
  | some n =>
    simp only
    rw [Condition.evalLoop, h2]
    simp only
    rw [Condition.evalLoop]
    simp only [Condition.evaluateOp, Condition.scan, Condition.compute]
    obtain ⟨bits, sg⟩ := n
    cases sg <;> simp [Condition.scan, Condition.Op.prio, Condition.canBeSigned, Condition.evalSigned, Condition.evalUnsigned, Condition.evalLoop]

/-! ## Where the code differs -/

def be1 (tag : Bytes) (rest : Tree) : Tree := .field ⟨.be, false, tag, 1, none, 1, none⟩ rest

/-- A tag which is the beginning of the name which is referred to matches as well: in `be1#ab,be1#a,blob{ab}` the length is that of `a`. -/
theorem prefix_tag : importBuffer machine (be1 [97, 98] (be1 [97] (.field ⟨.blob, false, [], 0, some [97, 98], 1, none⟩ .nil))) [1, 2, 65, 66] =
    .ok ([⟨.h, 0, [97, 98], 1, [1, 0, 0, 0, 0, 0, 0, 0], []⟩, ⟨.h, 0, [97], 1, [2, 0, 0, 0, 0, 0, 0, 0], []⟩, ⟨.blob, 0, [], 1, [65, 66], []⟩], 4) := by decide +kernel

/-- `REWIND` removes a number which was read as text but the position stays behind it: in `ustr,REWIND1 blob1` with `5;` the blob is `;`. -/
theorem rewind_number : importBuffer machine (.field ⟨.ustr, false, [], 0, none, 1, none⟩ (.rewind 1 (.field ⟨.blob, false, [], 1, none, 1, none⟩ .nil))) [53, 59] =
    .ok ([⟨.blob, 0, [], 1, [59], []⟩], 2) := by decide +kernel

/-- A field `nsep` does not end at SOH or STX, which the manual says. -/
theorem nsep_keeps_starts : importBuffer machine (.field ⟨.nsep, false, [], 0, none, 1, none⟩ .nil) [65, 1, 2, 66, 0] = .ok ([⟨.nsep, 0, [], 1, [65, 1, 2, 66], []⟩], 4) := by decide +kernel

/-- Four bytes make the program write outside of memory: in `be4#n,be8@{n}`, with n = 2²⁹, the product of length and count is 0 with 32 bits. -/
theorem count_overflow : importBuffer machine (.field ⟨.be, false, [110], 4, none, 1, none⟩ (.field ⟨.be, false, [], 8, none, 1, some [110]⟩ .nil)) [0x20, 0, 0, 0] = .oob := by
  have h1 : readField machine [0x20, 0, 0, 0] ⟨.be, false, [110], 4, none, 1, none⟩ ⟨[], 0⟩ = .ok ⟨[⟨⟨.h, 0, [110], 1, [0, 0, 0, 0x20, 0, 0, 0, 0], []⟩, 4⟩], 4⟩ := by decide +kernel
  have h2 : readField machine [0x20, 0, 0, 0] ⟨.be, false, [], 8, none, 1, some [110]⟩ ⟨[⟨⟨.h, 0, [110], 1, [0, 0, 0, 0x20, 0, 0, 0, 0], []⟩, 4⟩], 4⟩ = .oob := by
    have h3 : resolveRef machine [⟨⟨.h, 0, [110], 1, [0, 0, 0, 0x20, 0, 0, 0, 0], []⟩, 4⟩] (some [110]) 1 = .ok 0x20000000 := by decide +kernel
    have h4 : resolveRef machine [⟨⟨.h, 0, [110], 1, [0, 0, 0, 0x20, 0, 0, 0, 0], []⟩, 4⟩] none 8 = .ok 8 := rfl
    unfold readField
    rw [h4]
    simp only [Res.bind]
    rw [h3]
    simp only [Res.bind, importField]
    rw [if_neg (by decide), if_neg (by decide), if_neg (by decide), import_overflow _ _ _ _ _ _ (by decide) (by decide) (by decide) (by decide)]
  unfold importBuffer
  rw [readTree, h1]
  simp only [Res.bind]
  rw [readTree, h2]
  rfl

/-- Four bytes make the program abort: in `be4#n,blob1024@{n}`, with n = 2²². -/
theorem count_wraps : importBuffer machine (.field ⟨.be, false, [110], 4, none, 1, none⟩ (.field ⟨.blob, false, [], 1024, none, 1, some [110]⟩ .nil)) [0, 0x40, 0, 0] = .bug := by decide +kernel

/-- A header with size 0 and a right checksum, followed by anything, makes the program abort when a `msg` is read. -/
theorem msg_zero : importBuffer machine (.field ⟨.msg, false, [], 0, none, 1, none⟩ .nil) ([209, 187, 121, 199] ++ List.replicate 26 0) = .bug := by decide +kernel

/-- With no data, a `msg` is not waited for. -/
theorem msg_empty (w : World) : importBuffer w (.field ⟨.msg, false, [], 0, none, 1, none⟩ .nil) [] = .soft := rfl

/-- `16#` is read as the number 16 when nothing has arrived after it, and `16#1;` as a number of base 16. -/
theorem fixp_cut (w : World) : (∃ v, importBuffer w (.field ⟨.fixp, false, [], 0, none, 1, none⟩ .nil) [49, 54, 35] = .ok ([v], 2)) ∧
    (∃ v, importBuffer w (.field ⟨.fixp, false, [], 0, none, 1, none⟩ .nil) ([49, 54, 35] ++ [49, 59]) = .ok ([v], 4)) :=
  ⟨⟨_, rfl⟩, ⟨_, rfl⟩⟩

end Verif.ArrayTree
