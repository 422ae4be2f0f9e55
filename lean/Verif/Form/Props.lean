import Verif.Form.Lemmas

/-! # Forms which are sent are read as the same fields -/
namespace Verif.Form
open Verif Verif.HttpUtil Verif.Form.Spec

/-- C144. A form is read as its fields however it is written: with any characters replaced by `%` sequences in upper or lower case, with
`+` for spaces, and with or without `=` where there is no value. Values which begin with a NUL byte are excepted. -/
theorem form_read_partial (t : Bytes) (fs : List Field) (h : WritesForm t fs) (hk : ∀ f ∈ fs, Kept f) : parse t = .ok fs := by
  rw [parse_form t fs h]
  congr 1
  conv => rhs; rw [← List.map_id fs]
  apply List.map_congr_left
  intro f hf
  have := hk f hf
  unfold Kept at this
  simp [heard, this]

/-- `a%2fB=x+y&c` -/
example : WritesForm [97, 37, 50, 102, 66, 61, 120, 43, 121, 38, 99] [⟨[97, 47, 66], [120, 32, 121]⟩, ⟨[99], []⟩] := by
  have p : ∀ c : UInt8, c ∈ [97, 66, 120, 121, 99] → Plain c := by unfold Plain; decide
  refine .more [97, 37, 50, 102, 66, 61, 120, 43, 121] [99] _ _ ?_ (by simp) (.one _ _ (.bare _ _ (.plain _ _ _ (p _ (by simp)) .nil) (by simp)))
  refine .valued [97, 37, 50, 102, 66] [120, 43, 121] _ _ ?_ (by simp) ?_
  · exact .plain _ _ _ (p _ (by simp)) (.hex 50 102 2 15 _ _ rfl rfl (.plain _ _ _ (p _ (by simp)) .nil))
  · exact .plain _ _ _ (p _ (by simp)) (.plus _ _ (.plain _ _ _ (p _ (by simp)) .nil))

example : parse [97, 37, 50, 102, 66, 61, 120, 43, 121, 38, 99] = .ok [⟨[97, 47, 66], [120, 32, 121]⟩, ⟨[99], []⟩] := by decide +kernel

/-- The text which is sent for fields with names is a way to write these fields. -/
theorem form_sent (fs : List Field) (h : ∀ f ∈ fs, f.name ≠ []) : WritesForm (toForm fs) fs := toForm_writes fs h

/-- C144. Fields with names which are sent as a form are read as the same fields, in the same order, whatever bytes are in them. -/
theorem form_roundtrip_partial (fs : List Field) (h : ∀ f ∈ fs, f.name ≠ []) (hk : ∀ f ∈ fs, Kept f) : parse (toForm fs) = .ok fs :=
  form_read_partial _ fs (form_sent fs h) hk

example : (∀ f ∈ ([⟨[0, 38], [61, 37, 255]⟩, ⟨[32], []⟩] : List Field), f.name ≠ [] ∧ Kept f) := by unfold Kept; decide

/-- C144. The same goes for fields which are sent after the question mark of an address. -/
theorem query_roundtrip_partial (path : Bytes) (fs : List Field) (hp : 63 ∉ path) (h : ∀ f ∈ fs, f.name ≠ []) (hk : ∀ f ∈ fs, Kept f) :
    fromUri (path ++ 63 :: toForm fs) = .ok fs := by
  have hd : (path ++ 63 :: toForm fs).dropWhile (· ≠ 63) = 63 :: toForm fs := by
    clear h hk
    induction path with
    | nil => simp
    | cons c r ih =>
      simp only [List.mem_cons, not_or] at hp
      rw [List.cons_append, List.dropWhile_cons, if_pos (by simpa using Ne.symm hp.1)]
      exact ih hp.2
  unfold fromUri
  rw [hd]
  dsimp only
  by_cases hf : fs = []
  · subst hf; rfl
  · rw [if_neg (writesForm_nonempty _ fs (form_sent fs h) hf)]
    exact form_roundtrip_partial fs h hk

example : (63 : UInt8) ∉ ([47, 97] : Bytes) := by decide

/-- An address without a question mark has no fields. -/
theorem no_query (uri : Bytes) (h : 63 ∉ uri) : fromUri uri = .ok [] := by
  have hd : uri.dropWhile (· ≠ 63) = [] := by
    induction uri with
    | nil => rfl
    | cons c r ih =>
      simp only [List.mem_cons, not_or] at h
      rw [List.dropWhile_cons, if_pos (by simpa using Ne.symm h.1)]
      exact ih h.2
  unfold fromUri
  rw [hd]

example : (63 : UInt8) ∉ ([47, 97, 61, 98] : Bytes) := by decide

/-- White space before a form is ignored. -/
theorem leading_space (w t : Bytes) (h : ∀ c ∈ w, c ∈ ([32, 9, 13, 10] : Bytes)) : parse (w ++ t) = parse t := by
  have : (w ++ t).dropWhile isSpace = t.dropWhile isSpace := by
    induction w with
    | nil => rfl
    | cons c r ih =>
      have hc : isSpace c = true := by simpa [isSpace, or_assoc] using h c (by simp)
      rw [List.cons_append, List.dropWhile_cons, if_pos hc]
      exact ih fun x hx => h x (by simp [hx])
  unfold parse
  rw [this]

example : ∀ c ∈ ([32, 13, 10] : Bytes), c ∈ ([32, 9, 13, 10] : Bytes) := by decide

theorem loop_form_amp (t : Bytes) (fs acc : List Field) (h : WritesForm t fs) (hn : fs ≠ []) :
    loop (t ++ [38]) [] false acc = .ok (acc ++ fs.map heard) := by
  induction h generalizing acc with
  | empty => exact absurd rfl hn
  | one t f h =>
    cases h with
    | bare _ n ht hne =>
      rw [loop_writes t n _ _ _ _ ht (next_amp []) (by simp), List.nil_append, loop_amp, if_pos rfl, flush_name _ _ hne]; rfl
    | valued t u n v ht hne hu =>
      rw [List.append_assoc, List.cons_append, loop_writes t n _ _ _ _ ht (next_eq _) (by simp), List.nil_append, loop_eq _ _ _ hne,
        if_neg (by simp), loop_writes u v _ _ _ _ hu (next_amp []) (by simp), List.nil_append, loop_amp, if_pos rfl, flush_value]; rfl
  | more t u f fs h hf hu ih =>
    rw [List.append_assoc, List.cons_append, loop_field t (u ++ [38]) f acc h (by simp), ih _ hf]; simp

/-- A separator after the last field changes nothing. -/
theorem trailing_separator (t : Bytes) (fs : List Field) (h : WritesForm t fs) (hn : fs ≠ []) (hk : ∀ f ∈ fs, Kept f) :
    parse (t ++ [38]) = .ok fs := by
  rw [← form_read_partial t fs h hk, parse_form t fs h]
  have hx : Next (t ++ [38]) := by
    have := writesForm_next t fs h
    intro c u e
    cases t with
    | nil => exact next_amp [] c u e
    | cons d t => simp at e; rw [← e.1]; exact this d t rfl
  unfold parse
  rw [dropWhile_next _ hx, loop_form_amp t fs [] h hn]; rfl

example : parse [97, 61, 98, 38] = .ok [⟨[97], [98]⟩] := by decide +kernel

/-- An equals sign without name before the first field changes nothing. -/
theorem leading_equals (t : Bytes) (fs : List Field) (h : WritesForm t fs) (hn : fs ≠ []) (hk : ∀ f ∈ fs, Kept f) :
    parse (61 :: t) = .ok fs := by
  rw [← form_read_partial t fs h hk]
  unfold parse
  rw [dropWhile_next _ (next_eq t), dropWhile_next _ (writesForm_next t fs h)]
  conv => lhs; unfold loop
  simp [writesForm_nonempty t fs h hn, pushName, show isSpace 61 = false by decide]

example : parse [61, 97, 61, 98] = .ok [⟨[97], [98]⟩] := by decide +kernel

/-- A field which has a value and a name with a second `=` after it is refused. -/
theorem second_equals_refused (t u r n v : Bytes) (ht : Writes t n) (hn : n ≠ []) (hu : Writes u v) :
    parse (t ++ 61 :: u ++ 61 :: r) = .err := by
  have hnext : Next (t ++ 61 :: (u ++ 61 :: r)) := writes_next _ _ _ ht (next_eq _)
  unfold parse
  rw [List.append_assoc, List.cons_append, dropWhile_next _ hnext, loop_writes t n _ _ _ _ ht (next_eq _) (by simp), List.nil_append,
    loop_eq _ _ _ hn, if_neg (by simp), loop_writes u v _ _ _ _ hu (next_eq _) (by simp)]
  conv => lhs; unfold loop
  simp

example : parse [97, 61, 98, 61, 99] = .err := by decide +kernel

theorem loop_safe (l buf : Bytes) (target : Bool) (acc : List Field) : loop l buf target acc ≠ .bug ∧ loop l buf target acc ≠ .fault := by
  fun_induction loop l buf target acc <;> simp_all
  rename_i h hv
  have := strtoullRaw_two _ _ _ _ h
  omega

/-- C144. No text makes the program stop. -/
theorem parse_safe (l : Bytes) : parse l ≠ .bug ∧ parse l ≠ .fault := loop_safe _ _ _ _

/-! ## What is read is not longer than the text -/

/-- Number of bytes in the fields. -/
def total (fs : List Field) : Nat := (fs.map fun f => f.name.length + f.value.length).sum

theorem total_append (a b : List Field) : total (a ++ b) = total a + total b := by simp [total]

theorem total_push (acc : List Field) (buf : Bytes) : total (pushName acc buf) ≤ total acc + buf.length := by
  unfold pushName
  split
  · omega
  · rw [total_append]; simp [total]

theorem total_set (acc : List Field) (buf : Bytes) : total (setValue acc buf) ≤ total acc + buf.length := by
  unfold setValue
  split
  · omega
  · split
    · omega
    · rename_i f hf
      obtain ⟨l, rfl⟩ : ∃ l, acc = l ++ [f] := ⟨acc.dropLast, by
        obtain ⟨l, rfl⟩ := List.getLast?_eq_some_iff.mp hf; simp⟩
      rw [total_append, total_append]
      simp [total]
      omega

theorem total_flush (target : Bool) (acc : List Field) (buf : Bytes) : total (flush target acc buf) ≤ total acc + buf.length := by
  cases target with
  | true => exact total_set acc buf
  | false => exact total_push acc buf

theorem loop_total (l buf : Bytes) (target : Bool) (acc fs : List Field) (h : loop l buf target acc = .ok fs) :
    total fs ≤ total acc + buf.length + l.length := by
  fun_induction loop l buf target acc <;> grind [total_flush, total_push]

/-- C144. The fields which are read have no more bytes than the text. -/
theorem parse_total (l : Bytes) (fs : List Field) (h : parse l = .ok fs) : total fs ≤ l.length := by
  have := loop_total _ _ _ _ _ h
  have hd := (List.dropWhile_suffix (l := l) isSpace).length_le
  simp [total] at this hd ⊢
  omega

example : parse [97, 61, 98] = .ok [⟨[97], [98]⟩] := by decide +kernel

/-! ## Where fields change -/

/-- A value which begins with a NUL byte is lost. -/
theorem nul_lost : ∃ f : Field, f.name ≠ [] ∧ f.value = [0, 97] ∧ parse (toForm [f]) = .ok [{ f with value := [] }] :=
  ⟨⟨[110], [0, 97]⟩, by decide +kernel⟩

/-- For every field: what is lost is the value, and nothing else. -/
theorem nul_lost_always (fs : List Field) (h : ∀ f ∈ fs, f.name ≠ []) :
    parse (toForm fs) = .ok (fs.map fun f => { f with value := if f.value.head? = some 0 then [] else f.value }) :=
  parse_form _ fs (form_sent fs h)

/-- A value without name is read as a name. -/
theorem nameless_is_name (v : Bytes) (h : v ≠ []) : parse (toForm [⟨[], v⟩]) = .ok [⟨v, []⟩] := by
  have : toForm [⟨[], v⟩] = toForm [⟨v, []⟩] := by simp [toForm, fieldText, h]
  rw [this]
  exact form_roundtrip_partial [⟨v, []⟩] (by simpa using h) (by simp [Kept])

example : ([97] : Bytes) ≠ [] := by decide

/-- `a=b` and a line end: the first character of the line end becomes a part of the value. -/
theorem space_in_value : parse [97, 61, 98, 13, 10] = .ok [⟨[97], [98, 13]⟩] := by decide +kernel

/-- `%4&b`: a `%` sequence with one digit takes the separator. -/
theorem separator_taken : parse [97, 37, 52, 38, 98, 61, 99] = .ok [⟨[97, 4, 98], [99]⟩] := by decide +kernel

end Verif.Form
