import Verif.Config.Rest
/-!
# C114: configuration files are read as they are written
-/
namespace Verif.Config
open AclFile (Out bind_ok)
open Verif.Config.Spec

theorem valid_once {is : List Item} : Once (add ⟨[], [], [], []⟩ is) ↔ ((routes is).map (·.1)).Nodup ∧ ((methods is).map (·.1)).Nodup ∧ ((insts is).map fun i => (i.main, i.sub)).Nodup ∧ ∀ i ∈ insts is, SettingsOk i.settings := by
  constructor
  · rintro ⟨h1, h2, h3, h4⟩; exact ⟨by simpa [add] using h1, by simpa [add] using h2, by simpa [add] using h3, by simpa [add] using h4⟩
  · rintro ⟨h1, h2, h3, h4⟩; exact ⟨by simpa [add] using h1, by simpa [add] using h2, by simpa [add] using h3, by simpa [add] using h4⟩

theorem linked_iff {is : List Inst} : linked is = true ↔ ∀ i ∈ is, i.sub ≠ none → ∃ j ∈ is, j.main = i.main ∧ j.sub = none := by
  unfold linked
  rw [List.all_eq_true]
  constructor
  · intro h i hi hs
    have := h i hi
    cases hsub : i.sub with
    | none => exact absurd hsub hs
    | some m =>
      rw [hsub] at this
      simp only [Option.isNone_some, Bool.false_or] at this
      obtain ⟨j, hj, he⟩ := List.mem_map.mp (findInst_iff.mp this)
      simp only [Prod.mk.injEq] at he
      exact ⟨j, hj, he.1, he.2⟩
  · intro h i hi
    cases hsub : i.sub with
    | none => rfl
    | some m =>
      obtain ⟨j, hj, h1, h2⟩ := h i hi (by rw [hsub]; simp)
      simp only [Option.isNone_some, Bool.false_or]
      exact findInst_iff.mpr (List.mem_map.mpr ⟨j, hj, by rw [h1, h2]⟩)

/-- **C114, partial.** A file is accepted if and only if it is a configuration as described in the manual, except that stray characters are accepted (`stray_accepted`, `end_accepted`), and the program then has what is written: all array definitions, routes, methods and instances with their settings, in the order of the file. -/
theorem config_read_partial (s : Bytes) (c : Conf) : readConfig s = .ok c ↔ Means false s c := by
  unfold readConfig
  constructor
  · intro h
    obtain ⟨c', h1, h2⟩ := bind_ok.mp h
    split at h2
    · rename_i hl
      cases h2
      obtain ⟨is, e1, e2, e3⟩ := loop_sound _ _ _ _ ⟨by simp, by simp, by simp, by simp⟩ h1
      subst e2
      obtain ⟨v1, v2, v3, v4⟩ := valid_once.mp e3
      refine ⟨is, e1, ⟨v1, v2, v3, v4, ?_⟩, by simp [add]⟩
      have := linked_iff.mp hl
      simpa [add] using this
    · cases h2
  · rintro ⟨is, h1, h2, rfl⟩
    have h3 := loop_complete h1 (s.length + 1) ⟨[], [], [], []⟩ (by omega) (valid_once.mpr ⟨h2.1, h2.2, h2.3, h2.4⟩)
    have he : add ⟨[], [], [], []⟩ is = ⟨trees is, routes is, methods is, insts is⟩ := by simp [add]
    rw [he] at h3
    rw [h3]
    simp only [Out.bind]
    rw [if_pos (linked_iff.mpr h2.5)]

theorem text_loose {s : Bytes} {is : List Item} (h : Text true s is) : Text false s is := by
  induction h with
  | done => exact .done
  | space h _ ih => exact .space h ih
  | comment h1 h2 h3 _ ih => exact .comment h1 h2 h3 ih
  | tree h1 h2 _ ih => exact .tree h1 h2 ih
  | route h1 h2 _ ih => exact .route h1 h2 ih
  | method h1 h2 _ ih => exact .method h1 h2 ih
  | inst h1 h2 h3 _ ih => exact .inst h1 h2 h3 ih
  | stray h => cases h
  | strayEnd h => cases h

/-- A configuration as the manual describes it is accepted, and means what is written. -/
theorem config_accepted (s : Bytes) (c : Conf) (h : Means true s c) : readConfig s = .ok c := by
  obtain ⟨is, h1, h2⟩ := h
  exact (config_read_partial s c).mpr ⟨is, text_loose h1, h2⟩

/-- A file does not have two meanings. -/
theorem config_unambiguous (s : Bytes) (c c' : Conf) (h : Means false s c) (h' : Means false s c') : c = c' := by
  have h1 := (config_read_partial s c).mpr h
  have h2 := (config_read_partial s c').mpr h'
  rw [h1] at h2
  cases h2
  rfl

/-- While reading a file of less than 256 MB, the program only aborts if there is an empty name (see `empty_name_aborts`). -/
theorem config_aborts_partial (s : Bytes) (hl : s.length < 2 ^ 28) (h : readConfig s = .abort) : EmptyName s := by
  unfold readConfig at h
  rcases abort_iff.mp h with h | ⟨c, _, h⟩
  · exact loop_abort _ _ _ hl h
  · split at h <;> cases h

/-! ## Written files -/

theorem takeWhile_value {v : Bytes} (h : ∀ c ∈ v, c ≠ 0) : v.takeWhile (· ≠ 0) = v := Discern.takeWhile_all fun a ha => by simp [h a ha]

theorem write_settings : ∀ (ss : List (Bytes × Bytes)) (t : Bytes), (∀ x ∈ ss, Name x.1 ∧ Value x.2) → (∀ c, t.head? = some c → c = 91) →
    SettingsText ss (10 :: ((ss.map writeSetting).flatten ++ t)) t := by
  intro ss
  have h10 : Blank [10] := by rw [← blank_iff]; decide
  induction ss with
  | nil =>
    intro t _ ht
    refine ⟨.space h10 (.done _), fun c hc => ?_⟩
    rw [ht c hc, ← blank_iff, ← name_iff]
    decide
  | cons x xs ih =>
    intro t hx ht
    obtain ⟨hn, hv1, hv2, hv3, hv4⟩ := hx x (by simp)
    refine ⟨x.1 ++ (61 :: (x.2 ++ (10 :: ((xs.map writeSetting).flatten ++ t)))), 10 :: ((xs.map writeSetting).flatten ++ t), ?_, ?_, ih t (fun y hy => hx y (by simp [hy])) ht⟩
    · have : 10 :: (((x :: xs).map writeSetting).flatten ++ t) = 10 :: (x.1 ++ (61 :: (x.2 ++ (10 :: ((xs.map writeSetting).flatten ++ t))))) := by simp [writeSetting]
      rw [this]
      exact .space h10 (.done _)
    · refine ⟨[], [], x.2, [], by simp, hn, by simp [Blank], by simp [Inline], by simp [Inline], ?_, hv1, fun c hc => (hv2 c hc).1, hv3, hv4, (takeWhile_value fun c hc => (hv2 c hc).2).symm⟩
      intro c hc
      simp at hc
      exact Or.inl hc.symm

theorem write_text : ∀ (is : List Inst), (∀ i ∈ is, Writable i) → Text true (is.map writeInst).flatten (is.map .inst) ∧ ∀ c, (is.map writeInst).flatten.head? = some c → c = 91 := by
  intro is
  induction is with
  | nil => intro _; exact ⟨.done, by simp⟩
  | cons i is ih =>
    intro h
    obtain ⟨h1, h2, h3⟩ := h i (by simp)
    obtain ⟨g1, g2⟩ := ih fun j hj => h j (by simp [hj])
    refine ⟨?_, by intro c hc; simp [writeInst] at hc; exact hc.symm⟩
    generalize ht : (is.map writeInst).flatten = t at g1 g2
    rw [List.map_cons, List.map_cons, List.flatten_cons, ht]
    unfold writeInst
    rw [List.cons_append]
    refine .inst (u := 10 :: ((i.settings.map writeSetting).flatten ++ t)) ?_ (by simp) (write_settings _ _ h3 g2) g1
    cases hs : i.sub with
    | none => exact ⟨[], [], by simp, by simp [Blank], h1, by simp [Blank]⟩
    | some m => exact ⟨m ++ (93 :: 93 :: 10 :: ((i.settings.map writeSetting).flatten ++ t)), 93 :: 10 :: ((i.settings.map writeSetting).flatten ++ t), ⟨[], [], by simp, by simp [Blank], h1, by simp [Blank]⟩, ⟨[], [], by simp, by simp [Blank], h2 m hs, by simp [Blank]⟩, [], by simp, by simp [Blank]⟩

theorem insts_map (is : List Inst) : trees (is.map .inst) = [] ∧ routes (is.map .inst) = [] ∧ methods (is.map .inst) = [] ∧ insts (is.map .inst) = is := by
  induction is with
  | nil => exact ⟨rfl, rfl, rfl, rfl⟩
  | cons i is ih =>
    obtain ⟨h1, h2, h3, h4⟩ := ih
    unfold trees routes methods insts at *
    simp only [List.map_cons, List.filterMap_cons]
    exact ⟨h1, h2, h3, by rw [h4]⟩

/-- Instances which are written to a file are read from it. -/
theorem written_read (is : List Inst) (h : ∀ i ∈ is, Writable i) (h1 : (is.map fun i => (i.main, i.sub)).Nodup) (h2 : ∀ i ∈ is, SettingsOk i.settings)
    (h3 : ∀ i ∈ is, i.sub ≠ none → ∃ j ∈ is, j.main = i.main ∧ j.sub = none) : readConfig (is.map writeInst).flatten = .ok ⟨[], [], [], is⟩ := by
  obtain ⟨e1, e2, e3, e4⟩ := insts_map is
  refine config_accepted _ _ ⟨is.map .inst, (write_text is h).1, ⟨by rw [e2]; simp, by rw [e3]; simp, by rw [e4]; exact h1, by rw [e4]; exact h2, by rw [e4]; exact h3⟩, by rw [e1, e2, e3, e4]⟩

/-! ## Where the program does something else -/

/-- `[]` makes the program abort. -/
theorem empty_name_aborts : readConfig [91, 93, 10] = .abort := by rfl

/-- `{ <( [a]` and a newline: the stray characters are accepted, and the file has one instance. A name which is forgotten gives no error. -/
theorem stray_accepted : readConfig [123, 32, 60, 40, 32, 91, 97, 93, 10] = .ok ⟨[], [], [], [⟨[97], none, []⟩]⟩ ∧ ¬ ∃ c, Means true [123, 32, 60, 40, 32, 91, 97, 93, 10] c := by
  refine ⟨by rfl, ?_⟩
  rintro ⟨c, is, h, _⟩
  generalize hx : ([123, 32, 60, 40, 32, 91, 97, 93, 10] : Bytes) = x at h
  cases h with
  | done => cases hx
  | space hb => cases hx; rw [← blank_iff] at hb; exact absurd hb (by decide)
  | comment => cases hx
  | tree h1 =>
    cases hx
    have hk := end_ok (e := 125) (by simp)
    rw [← extractName_some hk.1 hk.2] at h1
    cases h1
  | route => cases hx
  | method => cases hx
  | inst => cases hx
  | stray h => cases h
  | strayEnd h => cases h

/-- A `[` with a space at the end of the file is accepted. -/
theorem end_accepted : readConfig [91, 32] = .ok ⟨[], [], [], []⟩ := by rfl

/-- `[a]` without newline at the end of the file is refused, as is `#` as the last character. -/
theorem end_refused : readConfig [91, 97, 93] = .err ∧ readConfig [91, 97, 93, 10, 35, 10, 35] = .ok ⟨[], [], [], [⟨[97], none, []⟩]⟩ ∧ readConfig [10, 35] = .err := ⟨rfl, rfl, rfl⟩

/-! ## Examples -/

/-- `[a]`, `x=1 2` and `y=#`; `[a[b]]` and `z=[`. -/
def sample : List Inst := [⟨[97], none, [([120], [49, 32, 50]), ([121], [35])]⟩, ⟨[97], some [98], [([122], [91])]⟩]

example : readConfig (sample.map writeInst).flatten = .ok ⟨[], [], [], sample⟩ := by rfl

example : readConfig (sample.map writeInst).flatten = .ok ⟨[], [], [], sample⟩ := by
  refine written_read sample ?_ (by decide) ?_ ?_
  · have hn : ∀ c : UInt8, c = 97 ∨ c = 98 ∨ c = 120 ∨ c = 121 ∨ c = 122 → Name [c] := by
      intro c hc
      refine ⟨by simp, fun d hd => ?_⟩
      simp at hd
      subst hd
      rw [← name_iff]
      rcases hc with rfl | rfl | rfl | rfl | rfl <;> decide
    intro i hi
    simp only [sample, List.mem_cons, List.not_mem_nil, or_false] at hi
    rcases hi with rfl | rfl
    · refine ⟨hn _ (by simp), by simp, fun x hx => ?_⟩
      simp only [List.mem_cons, List.not_mem_nil, or_false] at hx
      rcases hx with rfl | rfl
      · exact ⟨hn _ (by simp), by simp, by simp [Newline], by simp [Inline], by simp [Inline]⟩
      · exact ⟨hn _ (by simp), by simp, by simp [Newline], by simp [Inline], by simp [Inline]⟩
    · refine ⟨hn _ (by simp), fun m hm => by cases hm; exact hn _ (by simp), fun x hx => ?_⟩
      simp only [List.mem_cons, List.not_mem_nil, or_false] at hx
      rcases hx with rfl
      exact ⟨hn _ (by simp), by simp, by simp [Newline], by simp [Inline], by simp [Inline]⟩
  · intro i hi
    simp only [sample, List.mem_cons, List.not_mem_nil, or_false] at hi
    rcases hi with rfl | rfl <;> exact ⟨by decide, by decide, by decide⟩
  · intro i hi hs
    exact ⟨⟨[97], none, [([120], [49, 32, 50]), ([121], [35])]⟩, by simp [sample], by
      simp only [sample, List.mem_cons, List.not_mem_nil, or_false] at hi
      rcases hi with rfl | rfl <;> rfl, rfl⟩

/-- A comment, a definition of a route, an array definition, and then an instance with spaces and comments:
```
# c
<r> TRUE I a APPLY POP
{t} be4#x;
[ a ]
 # d
 x = 1
```
-/
def file : Bytes := [35, 32, 99, 10, 60, 114, 62, 32, 84, 82, 85, 69, 32, 73, 32, 97, 32, 65, 80, 80, 76, 89, 32, 80, 79, 80, 10, 123, 116, 125, 32, 98, 101, 52, 35, 120, 59, 10, 91, 32, 97, 32, 93, 10, 32, 35, 32, 100, 10, 32, 120, 32, 61, 32, 49, 32, 10]

example : ∃ c, readConfig file = .ok c ∧ c.insts = [⟨[97], none, [([120], [49])]⟩] ∧ c.trees.map (·.1) = [[116]] ∧ c.routes.map (·.1) = [[114]] ∧ c.methods.length = 0 := by
  have h : ((match readConfig file with | .ok c => decide (c.insts = [⟨[97], none, [([120], [49])]⟩] ∧ c.trees.map (·.1) = [[116]] ∧ c.routes.map (·.1) = [[114]] ∧ c.methods.length = 0) | _ => false) : Bool) = true := by decide +kernel
  split at h
  · rename_i c hc
    exact ⟨c, hc, by simpa using h⟩
  · cases h

example : EmptyName [91, 93, 10] := ⟨[], [], 93, [10], rfl, by simp [Blank], Or.inr rfl⟩

end Verif.Config
