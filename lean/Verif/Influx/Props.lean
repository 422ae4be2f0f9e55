import Verif.Influx.Model
import Verif.Influx.Spec
import Verif.Convert.Lemmas
/-!
# Properties of lines for InfluxDB
-/
namespace Verif.Influx
open Verif Types Types.Spec Spec
open Verif.Convert (Out Host)

/-! ## The module -/

/-- The array of a message never has the version which the query builder wants, so each array message aborts the program. -/
theorem array_aborts (e : Env) (c : Config) (m : Msg.MsgMsg) (vs : List Value) (hc : m.class_ = 11) (h : toArray e.host.le m = .ok vs) :
    process e c m = .bug := by
  unfold process
  rw [if_neg (by simp [hc]), h]
  rfl

/-- No message is ever sent. -/
theorem never_sent (e : Env) (c : Config) (m : Msg.MsgMsg) (l : Bytes) : process e c m ≠ .sent l := by
  unfold process
  split
  · simp
  · split
    · rename_i vs h
      have : line e c 0 vs = .bug := rfl
      rw [this]
      simp
    · simp
    · simp
    · simp

/-! ## Reading of lines -/

/-- A name of a tag or field which can be written in a line: a string, without quotes, backslashes, tabs and line breaks. -/
def Name (n : Bytes) : Prop := n ≠ [] ∧ ∀ c ∈ n, c ≠ 0 ∧ c ≠ 92 ∧ c ≠ 34 ∧ c ≠ 9 ∧ c ≠ 13 ∧ c ≠ 10

/-- A text which is a value without being a string. -/
def Plain (n : Bytes) : Prop := n ≠ [] ∧ ∀ c ∈ n, c ≠ 0 ∧ c ≠ 92 ∧ c ≠ 34 ∧ c ≠ 9 ∧ c ≠ 13 ∧ c ≠ 10 ∧ c ≠ 44 ∧ c ≠ 61 ∧ c ≠ 32

/-- The field which a value is: the first number, or the bytes as a string. -/
def FieldOf (e : Env) (v : Value) (f : Field) : Prop :=
  (v.ty ∈ [Ty.le, .be, .h, .ustr, .istr] ∧ ∃ x r, ints e.host.le v.data = x :: r ∧ f = .other (Convert.Spec.text (meaning (isSigned v.flags) x))) ∨
  (v.ty ∈ [Ty.blob, .sep, .str, .nsep, .stx, .hdlc] ∧ v.data ≠ [] ∧ (∀ c ∈ v.data, c ≠ 0 ∧ c ≠ 92) ∧ f = .string v.data)

theorem cstr_all (b : Bytes) (h : ∀ c ∈ b, c ≠ 0) : cstr b = b := by
  unfold cstr
  induction b with
  | nil => rfl
  | cons c t ih =>
    rw [List.takeWhile_cons, if_pos (by simpa using h c (by simp)), ih fun x hx => h x (by simp [hx])]

theorem name_cstr {n : Bytes} (h : Name n) : cstr n = n := cstr_all n fun c hc => (h.2 c hc).1

theorem readName_escape (n r : Bytes) (h : ∀ c ∈ n, c ≠ 0 ∧ c ≠ 92 ∧ c ≠ 34 ∧ c ≠ 9 ∧ c ≠ 13 ∧ c ≠ 10) :
    readName (n.flatMap (escapeChar false) ++ 61 :: r) = some (n, r) := by
  induction n with
  | nil => simp [readName]
  | cons c t ih =>
    have h1 := h c (by simp)
    have ih := ih fun x hx => h x (by simp [hx])
    rw [List.flatMap_cons, List.append_assoc]
    generalize t.flatMap (escapeChar false) ++ 61 :: r = w at ih
    unfold escapeChar
    by_cases h44 : c = 44
    · subst h44; simp [readName, ih]
    by_cases h61 : c = 61
    · subst h61; simp [readName, ih]
    by_cases h32 : c = 32
    · subst h32; simp [readName, ih]
    rw [if_neg (by simp_all)]
    rw [show [c] ++ w = c :: w from rfl]
    rw [readName.eq_def]
    split <;> simp_all

theorem readString_escape (n r : Bytes) (h : ∀ c ∈ n, c ≠ 92) :
    readString (n.flatMap (escapeChar true) ++ 34 :: r) = some (n, r) := by
  induction n with
  | nil => simp [readString]
  | cons c t ih =>
    have h1 := h c (by simp)
    have ih := ih fun x hx => h x (by simp [hx])
    rw [List.flatMap_cons, List.append_assoc]
    generalize t.flatMap (escapeChar true) ++ 34 :: r = w at ih
    unfold escapeChar
    by_cases h34 : c = 34
    · subst h34; simp [readString, ih]
    rw [if_neg (by simp_all)]
    rw [show [c] ++ w = c :: w from rfl]
    rw [readString.eq_def]
    split <;> simp_all

theorem plain_escape (n : Bytes) (h : Plain n) : escapeField false n = n := by
  unfold escapeField
  simp only [Bool.false_eq_true, if_false, List.nil_append, List.append_nil]
  have := h.2
  clear h
  induction n with
  | nil => rfl
  | cons c t ih =>
    rw [List.flatMap_cons, ih fun x hx => this x (by simp [hx])]
    have := this c (by simp)
    unfold escapeChar
    rw [if_neg (by simp_all)]
    rfl

/-- The rest of a line after a field. -/
def Rest (r : Bytes) : Prop := r = [] ∨ ∃ t, r = 44 :: t

theorem readOther_plain (n r : Bytes) (h : ∀ c ∈ n, c ≠ 44 ∧ c ≠ 32 ∧ c ≠ 10) (hr : Rest r) : readOther (n ++ r) = (n, r) := by
  induction n with
  | nil => rcases hr with rfl | ⟨t, rfl⟩ <;> simp [readOther]
  | cons c t ih =>
    have h1 := h c (by simp)
    rw [List.cons_append, readOther, if_neg (by simp [h1]), ih fun x hx => h x (by simp [hx])]

/-- A text which is read as a value. -/
def ReadsAs (t : Bytes) (f : Field) : Prop := ∀ r, Rest r → readValue (t ++ r) = some (f, r)

theorem plain_reads (n : Bytes) (h : Plain n) : ReadsAs n (.other n) := by
  intro r hr
  have := readOther_plain n r (fun c hc => by have := h.2 c hc; simp [this]) hr
  unfold readValue
  split
  · rename_i t ht
    obtain ⟨hn, h⟩ := h
    cases n with
    | nil => exact absurd rfl hn
    | cons c t =>
      have := h c (by simp)
      simp_all
  · rw [this, if_neg h.1]

theorem string_reads (b : Bytes) (h : ∀ c ∈ b, c ≠ 92) : ReadsAs (escapeField true b) (.string b) := by
  intro r _
  unfold escapeField
  simp only [if_true, List.singleton_append, List.cons_append, List.append_assoc, List.nil_append]
  simp only [readValue]
  rw [readString_escape b r h]
  rfl

theorem print_plain (s : Bool) (x : UInt64) : Plain (Convert.printNumber s x) := by
  have hd : ∀ n, ∀ c ∈ Http.decimal n, c ≠ 0 ∧ c ≠ 92 ∧ c ≠ 34 ∧ c ≠ 9 ∧ c ≠ 13 ∧ c ≠ 10 ∧ c ≠ 44 ∧ c ≠ 61 ∧ c ≠ 32 := by
    intro n c hc
    have := Http.decimal_digits n c hc
    refine ⟨?_, ?_, ?_, ?_, ?_, ?_, ?_, ?_, ?_⟩ <;> (rintro rfl; revert this; decide)
  unfold Convert.printNumber
  split
  · refine ⟨by simp, fun c hc => ?_⟩
    rw [List.mem_cons] at hc
    rcases hc with rfl | hc
    · decide
    · exact hd _ c hc
  · exact ⟨Http.decimal_ne _, hd _⟩

/-- What is appended for a value. -/
theorem valueText_reads (e : Env) (v : Value) (f : Field) (h : FieldOf e v f) :
    ∃ t, valueText e v true = .ok (some t) ∧ ReadsAs t f := by
  rcases h with ⟨ht, x, r, hx, rfl⟩ | ⟨ht, hn, hz, rfl⟩
  · refine ⟨Convert.printNumber (isSigned v.flags) x, ?_, ?_⟩
    · have h64 : Convert.is64 v.ty = true ∧ v.ty ≠ .fixp := by
        revert ht; cases v.ty <;> simp [Convert.is64]
      unfold valueText
      rw [if_neg h64.2, if_pos h64.1]
      have hl : 8 * 0 + 8 ≤ v.data.length := by
        by_cases hs : v.data.length < 8
        · rw [Convert.ints_short e.host.le v.data hs] at hx
          simp at hx
        · omega
      have : Convert.number e.host v 0 = some x := by
        rw [Convert.number_some _ _ _ hl, hx]; rfl
      unfold firstNumber
      rw [this]
      rfl
    · rw [← Convert.printNumber_text]
      exact plain_reads _ (print_plain _ _)
  · refine ⟨escapeField true v.data, ?_, string_reads _ fun c hc => (hz c hc).2⟩
    have hb : Convert.isBlob v.ty = true ∧ v.ty ≠ .fixp ∧ Convert.is64 v.ty = false ∧ v.ty ≠ .msg := by
      revert ht; cases v.ty <;> simp [Convert.is64, Convert.isBlob]
    have hd : Convert.dataOf e.host v = v.data := by
      unfold Convert.dataOf; rw [if_neg hb.2.2.2]
    unfold valueText
    rw [if_neg hb.2.1, if_neg (by simp [hb.2.2.1]), if_pos hb.1, hd, if_pos (by cases hv : v.data <;> simp_all)]
    rw [cstr_all]
    intro c hc
    unfold escapeField at hc
    simp only [if_true, List.mem_append, List.mem_singleton, List.mem_flatMap] at hc
    rcases hc with rfl | ⟨a, ha, hc⟩ | rfl
    · decide
    · have := (hz a ha).1
      unfold escapeChar at hc
      split at hc <;> simp at hc
      · rcases hc with rfl | rfl
        · decide
        · exact this
      · rw [hc]; exact this
    · decide

/-- Fields with commas between them. -/
def joined : Bool → List (Bytes × Bytes × Field) → Bytes
  | _, [] => []
  | first, (n, t, _) :: l => (if first then [] else [44]) ++ (escapeField false n ++ 61 :: (t ++ joined false l))

theorem joined_append (b : Bool) (l k : List (Bytes × Bytes × Field)) : joined b (l ++ k) = joined b l ++ joined (b && l.isEmpty) k := by
  induction l generalizing b with
  | nil => simp [joined]
  | cons x l ih =>
    obtain ⟨n, t, f⟩ := x
    simp [joined, ih]

theorem joined_rest (l : List (Bytes × Bytes × Field)) : Rest (joined false l) := by
  cases l with
  | nil => exact .inl rfl
  | cons x l => exact .inr ⟨_, rfl⟩

theorem read_joined (l : List (Bytes × Bytes × Field)) (hl : l ≠ []) (h : ∀ x ∈ l, Name x.1 ∧ ReadsAs x.2.1 x.2.2) :
    ∀ k, l.length ≤ k → readFields k (joined true l) = some (l.map fun x => (x.1, x.2.2)) := by
  induction l with
  | nil => exact absurd rfl hl
  | cons x l ih =>
    obtain ⟨n, t, f⟩ := x
    intro k hk
    obtain ⟨k, rfl⟩ : ∃ j, k = j + 1 := ⟨k - 1, by simp at hk; omega⟩
    have hx := h _ (List.mem_cons_self ..)
    simp only [joined, if_true, List.nil_append]
    have h1 : readName (escapeField false n ++ 61 :: (t ++ joined false l)) = some (n, t ++ joined false l) := by
      unfold escapeField
      simp only [Bool.false_eq_true, if_false, List.nil_append, List.append_nil]
      exact readName_escape n _ hx.1.2
    have h2 := hx.2 _ (joined_rest l)
    simp only at h2
    unfold readFields
    rw [h1]
    simp only
    rw [h2]
    cases l with
    | nil => simp [joined]
    | cons y l =>
      have := ih (by simp) (fun z hz => h z (by simp [hz])) k (by simp at hk ⊢; omega)
      obtain ⟨n', t', f'⟩ := y
      simp only [joined, if_true, List.nil_append, Bool.false_eq_true, if_false] at this ⊢
      simp only [List.singleton_append]
      rw [this]
      rfl

theorem joined_length (b : Bool) (l : List (Bytes × Bytes × Field)) : l.length ≤ (joined b l).length := by
  induction l generalizing b with
  | nil => simp
  | cons x l ih =>
    obtain ⟨n, t, f⟩ := x
    have := ih false
    simp [joined]
    omega

/-! ## What is before the fields -/

/-- A part of a line which has no space. -/
def Closed (p : Bytes) : Prop := ∀ r, splitSpace (p ++ r) = (splitSpace r).map fun (a, b) => (p ++ a, b)

theorem closed_nil : Closed [] := by
  intro r
  cases h : splitSpace r <;> simp [h]

theorem closed_append {p q : Bytes} (hp : Closed p) (hq : Closed q) : Closed (p ++ q) := by
  intro r
  rw [List.append_assoc, hp, hq]
  cases splitSpace r <;> simp

theorem closed_one (c : UInt8) (h : c ≠ 92) (h' : c ≠ 32) : Closed [c] := by
  intro r
  rw [show [c] ++ r = c :: r from rfl, splitSpace.eq_def]
  split <;> simp_all

theorem closed_two (c : UInt8) : Closed [92, c] := by
  intro r
  show splitSpace (92 :: c :: r) = _
  rw [splitSpace.eq_def]
  simp

theorem closed_all (p : Bytes) (h : ∀ c ∈ p, c ≠ 92 ∧ c ≠ 32) : Closed p := by
  induction p with
  | nil => exact closed_nil
  | cons c t ih =>
    have := h c (by simp)
    exact closed_append (closed_one c this.1 this.2) (ih fun x hx => h x (by simp [hx]))

theorem closed_escape (n : Bytes) (h : ∀ c ∈ n, c ≠ 92) : Closed (escapeField false n) := by
  unfold escapeField
  simp only [Bool.false_eq_true, if_false, List.nil_append, List.append_nil]
  induction n with
  | nil => exact closed_nil
  | cons c t ih =>
    rw [List.flatMap_cons]
    refine closed_append ?_ (ih fun x hx => h x (by simp [hx]))
    unfold escapeChar
    split
    · exact closed_two c
    · rename_i hc
      refine closed_one c (h c (by simp)) ?_
      rintro rfl
      exact hc (by simp)

theorem closed_quoted (n : Bytes) (h : ∀ c ∈ n, c ≠ 92 ∧ c ≠ 32) : Closed (escapeField true n) := by
  unfold escapeField
  simp only [if_true]
  refine closed_append (closed_one _ (by decide) (by decide)) (closed_append ?_ (closed_one _ (by decide) (by decide)))
  induction n with
  | nil => exact closed_nil
  | cons c t ih =>
    rw [List.flatMap_cons]
    refine closed_append ?_ (ih fun x hx => h x (by simp [hx]))
    unfold escapeChar
    split
    · exact closed_two c
    · exact closed_one c (h c (by simp)).1 (h c (by simp)).2

/-! ## The columns -/

theorem appendValue_reads (e : Env) (l : Bytes) (v : Value) (n : Bytes) (s : Bytes) (f : Field) (hn : Name n) (h : FieldOf e v f) :
    ∃ t, ReadsAs t f ∧ valueText e v true = .ok (some t) ∧ appendValue e l v n s true = .ok (l ++ (s ++ (escapeField false n ++ 61 :: t))) := by
  obtain ⟨t, h1, h2⟩ := valueText_reads e v f h
  refine ⟨t, h2, h1, ?_⟩
  unfold appendValue
  rw [name_cstr hn, if_neg hn.1, h1]
  simp [andThen]

theorem columns_eq (e : Env) (vs : List Value) (fs : List (Bytes × Field)) (cs : List (Bytes × Option Bytes)) :
    cs.map (fun x => x.2.getD x.1) = fs.map (·.1) →
    (∀ x ∈ cs.zip fs, Name x.2.1 ∧ ∃ v, getByTag vs x.1.1 = some v ∧ v.elements ≤ 1 ∧ FieldOf e v x.2.2) →
    ∀ first l, ∃ js, (js.map fun x => (x.1, x.2.2)) = fs ∧ (∀ x ∈ js, Name x.1 ∧ ReadsAs x.2.1 x.2.2) ∧
      (∀ x ∈ js, ∃ c ∈ cs, ∃ v, getByTag vs c.1 = some v ∧ FieldOf e v x.2.2 ∧ valueText e v true = .ok (some x.2.1)) ∧
      appendColumns e vs [44] true first cs l = .ok (l ++ joined first js) := by
  induction cs generalizing fs with
  | nil =>
    intro hm _ first l
    cases fs with
    | cons => simp at hm
    | nil => exact ⟨[], rfl, by simp, by simp, by simp [appendColumns, joined]⟩
  | cons c cs ih =>
    obtain ⟨tag, name⟩ := c
    intro hm hz first l
    cases fs with
    | nil => simp at hm
    | cons g fs =>
      obtain ⟨n, f⟩ := g
      simp only [List.map_cons, List.cons.injEq] at hm
      obtain ⟨hn, v, hv, he, hf⟩ := hz ((tag, name), (n, f)) (by simp)
      simp only at hn hv hf
      obtain ⟨t, ht, hvt, ha⟩ := appendValue_reads e l v n (if first then [] else [44]) f hn hf
      obtain ⟨js, hjs, hr, hw, hk⟩ := ih fs hm.2 (fun x hx => hz x (by simp [hx])) false (l ++ ((if first then [] else [44]) ++ (escapeField false n ++ 61 :: t)))
      refine ⟨(n, t, f) :: js, by simp [hjs], ?_, ?_, ?_⟩
      · intro x hx
        rw [List.mem_cons] at hx
        rcases hx with rfl | hx
        · exact ⟨hn, ht⟩
        · exact hr x hx
      · intro x hx
        rw [List.mem_cons] at hx
        rcases hx with rfl | hx
        · exact ⟨(tag, name), by simp, v, hv, hf, hvt⟩
        · obtain ⟨c, hc, h⟩ := hw x hx
          exact ⟨c, by simp [hc], h⟩
      · unfold appendColumns
        simp only [hv]
        rw [if_neg (by rw [gt_iff_lt, UInt32.lt_iff_toNat_lt]; rw [UInt32.le_iff_toNat_le] at he; omega), hm.1, ha]
        simp only [andThen]
        rw [hk]
        simp [joined]

theorem map_eq (cs : List (Bytes × Option Bytes)) (fs : List (Bytes × Bytes)) (h : cs = fs.map fun x => (x.1, some x.2))
    (hp : ∀ x ∈ fs, Plain x.2) : ∀ first l, appendMap [44] first cs l = l ++ joined first (fs.map fun x => (x.1, x.2, Field.other x.2)) := by
  subst h
  induction fs with
  | nil => intro first l; simp [appendMap, joined]
  | cons x fs ih =>
    intro first l
    obtain ⟨n, v⟩ := x
    have hv := hp (n, v) (by simp)
    have ih := ih fun x hx => hp x (by simp [hx])
    simp only [List.map_cons, appendMap]
    rw [ih]
    simp only [joined]
    have : (match some v with | some (c :: t) => 61 :: escapeField false (c :: t) | _ => ([] : Bytes)) = 61 :: v := by
      cases v with
      | nil => exact absurd rfl hv.1
      | cons c t => simp only; rw [plain_escape _ hv]
    have h2 : ∀ w : Bytes, l ++ ((if first = true then [] else [44]) ++ (escapeField false n ++ 61 :: v)) ++ w =
        l ++ ((if first = true then [] else [44]) ++ (escapeField false n ++ 61 :: (v ++ w))) := by intro w; simp
    rw [← h2, ← this]
    rfl

theorem map_closed (cs : List (Bytes × Option Bytes)) (h : ∀ x ∈ cs, (∀ c ∈ x.1, c ≠ 92) ∧ ∀ v, x.2 = some v → ∀ c ∈ v, c ≠ 92) :
    ∀ first l, Closed l → Closed (appendMap [44] first cs l) := by
  induction cs with
  | nil => intro first l hl; exact hl
  | cons x cs ih =>
    intro first l hl
    obtain ⟨n, v⟩ := x
    have hx := h (n, v) (by simp)
    refine ih (fun x hx => h x (by simp [hx])) _ _ (closed_append hl (closed_append ?_ (closed_append (closed_escape n hx.1) ?_)))
    · split
      · exact closed_nil
      · exact closed_one _ (by decide) (by decide)
    · split
      · rename_i c t hv
        exact closed_append (closed_one 61 (by decide) (by decide)) (closed_escape _ (hx.2 _ rfl))
      · exact closed_nil

theorem joined_closed (js : List (Bytes × Bytes × Field)) (h : ∀ x ∈ js, Name x.1 ∧ Closed x.2.1) : ∀ first, Closed (joined first js) := by
  induction js with
  | nil => intro _; exact closed_nil
  | cons x js ih =>
    intro first
    obtain ⟨n, t, f⟩ := x
    have hx := h (n, t, f) (by simp)
    refine closed_append ?_ (closed_append (closed_escape n fun c hc => (hx.1.2 c hc).2.1) ?_)
    · split
      · exact closed_nil
      · exact closed_one _ (by decide) (by decide)
    · exact closed_append (closed_one 61 (by decide) (by decide)) (closed_append hx.2 (ih (fun x hx => h x (by simp [hx])) false))

theorem valueText_closed (e : Env) (v : Value) (f : Field) (t : Bytes) (h : FieldOf e v f) (hs : ∀ b, f = .string b → ∀ c ∈ b, c ≠ 32)
    (ht : valueText e v true = .ok (some t)) : Closed t := by
  have h' := h
  rcases h with ⟨hty, x, r, hx, rfl⟩ | ⟨hty, hn, hz, rfl⟩
  · have h64 : Convert.is64 v.ty = true ∧ v.ty ≠ .fixp := by
      revert hty; cases v.ty <;> simp [Convert.is64]
    unfold valueText at ht
    rw [if_neg h64.2, if_pos h64.1] at ht
    unfold firstNumber at ht
    split at ht
    · simp [andThen] at ht
    · simp only [andThen, Out.ok.injEq, Option.some.injEq] at ht
      subst ht
      exact closed_all _ fun c hc => by have := (print_plain _ _).2 c hc; simp [this]
  · obtain ⟨t', h1, _⟩ := valueText_reads e v _ h'
    have hb : Convert.isBlob v.ty = true ∧ v.ty ≠ .fixp ∧ Convert.is64 v.ty = false ∧ v.ty ≠ .msg := by
      revert hty; cases v.ty <;> simp [Convert.is64, Convert.isBlob]
    have hd : Convert.dataOf e.host v = v.data := by
      unfold Convert.dataOf; rw [if_neg hb.2.2.2]
    unfold valueText at ht
    rw [if_neg hb.2.1, if_neg (by simp [hb.2.2.1]), if_pos hb.1, hd, if_pos (by cases hv : v.data <;> simp_all)] at ht
    rw [cstr_all] at ht
    · simp only [Out.ok.injEq, Option.some.injEq] at ht
      subst ht
      exact closed_quoted _ fun c hc => ⟨(hz c hc).2, hs _ rfl c hc⟩
    · intro c hc
      unfold escapeField at hc
      simp only [if_true, List.mem_append, List.mem_singleton, List.mem_flatMap] at hc
      rcases hc with rfl | ⟨a, ha, hc⟩ | rfl
      · decide
      · have := (hz a ha).1
        unfold escapeChar at hc
        split at hc <;> simp at hc
        · rcases hc with rfl | rfl
          · decide
          · exact this
        · rw [hc]; exact this
      · decide

/-- The columns of the configuration give these names and values. -/
def Columns (e : Env) (vs : List Value) (cs : List (Bytes × Option Bytes)) (fs : List (Bytes × Field)) : Prop :=
  cs ≠ [] ∧ cs.map (fun x => x.2.getD x.1) = fs.map (·.1) ∧
  ∀ x ∈ cs.zip fs, Name x.2.1 ∧ ∃ v, getByTag vs x.1.1 = some v ∧ v.elements ≤ 1 ∧ FieldOf e v x.2.2

/-- Would arrays have the right version, then the fields of a line would be the configured values of the array and the fixed fields. Both tags and fields must be configured. Missing:
backslashes, NUL characters and quotes in names, spaces in tags, fixed point numbers, empty values, and that the module uses the right version. -/
theorem fields_exact_partial (e : Env) (c : Config) (vs : List Value) (tags fields : List (Bytes × Field)) (fixed : List (Bytes × Bytes))
    (htable : ∀ b ∈ c.table, b ≠ 92 ∧ b ≠ 32)
    (htags : Columns e vs c.tags tags) (hspace : ∀ x ∈ tags, ∀ b, x.2 = .string b → ∀ d ∈ b, d ≠ 32)
    (hfixedTags : ∀ x ∈ c.fixedTags, (∀ b ∈ x.1, b ≠ 92) ∧ ∀ v, x.2 = some v → ∀ b ∈ v, b ≠ 92)
    (hfields : Columns e vs c.fields fields)
    (hfixed : c.fixedFields = fixed.map fun x => (x.1, some x.2)) (hplain : ∀ x ∈ fixed, Name x.1 ∧ Plain x.2) :
    ∃ l, line e c 7 vs = .ok l ∧ Spec.fields l = some (fields ++ fixed.map fun x => (x.1, .other x.2)) := by
  obtain ⟨ht0, ht1, ht2⟩ := htags
  obtain ⟨hf0, hf1, hf2⟩ := hfields
  obtain ⟨js, hj1, hj2, hj3, hj4⟩ := columns_eq e vs tags c.tags ht1 ht2 false c.table
  obtain ⟨ks, hk1, hk2, _, hk4⟩ := columns_eq e vs fields c.fields hf1 hf2 true (appendMap [44] false c.fixedTags (c.table ++ joined false js) ++ [32])
  have hempty : c.fields.isEmpty = false := by cases hc : c.fields <;> simp_all
  have hclosed : Closed (appendMap [44] false c.fixedTags (c.table ++ joined false js)) := by
    refine map_closed _ hfixedTags _ _ (closed_append (closed_all _ htable) (joined_closed _ ?_ _))
    intro x hx
    refine ⟨(hj2 x hx).1, ?_⟩
    obtain ⟨_, _, v, _, hfo, hvt⟩ := hj3 x hx
    refine valueText_closed e v x.2.2 x.2.1 hfo ?_ hvt
    have hm : (x.1, x.2.2) ∈ tags := by
      rw [← hj1]
      exact List.mem_map.mpr ⟨x, hx, rfl⟩
    exact hspace (x.1, x.2.2) hm
  have hks : ks ≠ [] := by
    rintro rfl
    cases hc : c.fields with
    | nil => exact hf0 hc
    | cons => rw [hc, ← hk1] at hf1; simp at hf1
  refine ⟨appendMap [44] false c.fixedTags (c.table ++ joined false js) ++ [32] ++ joined true ks ++
    joined false (fixed.map fun x => (x.1, x.2, Field.other x.2)), ?_, ?_⟩
  · unfold line appendArray
    rw [if_neg (by simp), if_pos ht0, hj4]
    simp only [andThen]
    rw [if_neg (by simp), if_pos hf0, hk4]
    simp only [andThen]
    rw [map_eq c.fixedFields fixed hfixed (fun x hx => (hplain x hx).2), hempty]
  · unfold Spec.fields
    rw [List.append_assoc, List.append_assoc, hclosed]
    have hj : joined true ks ++ joined false (fixed.map fun x => (x.1, x.2, Field.other x.2)) = joined true (ks ++ fixed.map fun x => (x.1, x.2, Field.other x.2)) := by
      rw [joined_append]
      cases ks with
      | nil => exact absurd rfl hks
      | cons => rfl
    rw [hj]
    simp only [List.singleton_append, splitSpace, Option.map_some]
    rw [read_joined]
    · simp [hk1]
    · simp [hks]
    · intro x hx
      rw [List.mem_append] at hx
      rcases hx with hx | hx
      · exact hk2 x hx
      · rw [List.mem_map] at hx
        obtain ⟨y, hy, rfl⟩ := hx
        exact ⟨(hplain y hy).1, plain_reads _ (hplain y hy).2⟩
    · exact joined_length _ _

/-- A configured value which is missing, or has several elements: no line. -/
theorem missing_no_line (e : Env) (c : Config) (vs : List Value) (tag : Bytes) (name : Option Bytes) (hc : c.tags.head? = some (tag, name))
    (h : ∀ v, getByTag vs tag = some v → v.elements > 1) : line e c 7 vs = .soft := by
  cases ht : c.tags with
  | nil => simp [ht] at hc
  | cons x r =>
    simp only [ht, List.head?_cons, Option.some.injEq] at hc
    subst hc
    unfold line appendArray
    rw [if_neg (by simp), ht, if_pos (by simp)]
    unfold appendColumns
    split
    · rfl
    · rename_i v hv
      rw [if_pos (h v hv)]
      rfl

/-! ## Examples and where lines are wrong -/

/-- Settings for examples. -/
def exampleEnv : Env := ⟨⟨true, fun _ => []⟩, fun _ => [48]⟩

/-- Table `t`, tag `a`, field `b` and `c` written as `d e`, fixed tag `f=g`, fixed field `h=1`. -/
def exampleConfig : Config := ⟨[116], [([97], none)], [([102], some [103])], [([98], none), ([99], some [100, 32, 101])], [([104], some [49])]⟩

/-- `a` is 5, `b` is `x "y",z` and `c` is -1. -/
def exampleValues : List Value :=
  [⟨.h, 0, [97], 1, [5, 0, 0, 0, 0, 0, 0, 0], []⟩, ⟨.str, 0, [98], 1, [120, 32, 34, 121, 34, 44, 122], []⟩, ⟨.h, 1, [99], 1, [255, 255, 255, 255, 255, 255, 255, 255], []⟩]

example : Columns exampleEnv exampleValues exampleConfig.tags [([97], .other [53])] ∧
    Columns exampleEnv exampleValues exampleConfig.fields [([98], .string [120, 32, 34, 121, 34, 44, 122]), ([100, 32, 101], .other [45, 49])] := by
  refine ⟨⟨by decide, by decide, ?_⟩, ⟨by decide, by decide, ?_⟩⟩
  · intro x hx
    simp [exampleConfig] at hx
    subst hx
    refine ⟨⟨by decide, by decide⟩, _, rfl, by decide, .inl ⟨by decide, 5, [], by decide +kernel, by decide +kernel⟩⟩
  · intro x hx
    simp [exampleConfig] at hx
    rcases hx with rfl | rfl
    · exact ⟨⟨by decide, by decide⟩, _, rfl, by decide, .inr ⟨by decide, by decide, by decide, rfl⟩⟩
    · exact ⟨⟨by decide, by decide⟩, _, rfl, by decide, .inl ⟨by decide, 18446744073709551615, [], by decide +kernel, by decide +kernel⟩⟩

/-- The line is `t,a=5,f=g b="x \"y\",z",d\ e=-1,h=1`. -/
example : line exampleEnv exampleConfig 7 exampleValues = .ok ([116, 44, 97, 61, 53, 44, 102, 61, 103, 32, 98, 61, 34, 120, 32, 92, 34, 121, 92, 34, 44, 122, 34, 44, 100, 92, 32, 101, 61, 45, 49, 44, 104, 61, 49]) := by
  decide +kernel

/-- The module aborts with it. -/
example : process exampleEnv exampleConfig (messageOf true exampleValues 5 []) = .bug := by decide +kernel

/-- Only fields `a` and `b`. -/
def ab : Config := ⟨[116], [([110], none)], [], [([97], none), ([98], none)], []⟩

/-- A number `n`, and strings `a` and `b`. -/
def nab (a b : Bytes) : List Value := [⟨.h, 0, [110], 1, [5, 0, 0, 0, 0, 0, 0, 0], []⟩, ⟨.str, 0, [97], 1, a, []⟩, ⟨.str, 0, [98], 1, b, []⟩]

/-- `t,n=5 a="x\",b=",c=1`. -/
def injected : Bytes := [116, 44, 110, 61, 53, 32, 97, 61, 34, 120, 92, 34, 44, 98, 61, 34, 44, 99, 61, 49]

/-- A backslash at the end of a string takes the quote away, and a NUL character ends the value and takes the last quote away. With the strings `x\` and `,c=1` with a NUL at the end, the
database stores a field `c` which is not in the configuration. -/
theorem backslash_injects : line exampleEnv ab 7 (nab [120, 92] [44, 99, 61, 49, 0]) = .ok injected ∧
    Spec.fields injected = some [([97], .string [120, 34, 44, 98, 61]), ([99], .other [49])] := by
  decide +kernel

/-- A NUL character alone makes a line which is not valid: `t,n=5 a="x,b="y"`. -/
theorem nul_truncates : line exampleEnv ab 7 (nab [120, 0] [121]) = .ok [116, 44, 110, 61, 53, 32, 97, 61, 34, 120, 44, 98, 61, 34, 121, 34] ∧
    Spec.fields [116, 44, 110, 61, 53, 32, 97, 61, 34, 120, 44, 98, 61, 34, 121, 34] = none := by
  decide +kernel

/-- An empty string makes a field without a value: `t,n=5 a,b="y"`. -/
theorem empty_invalid : line exampleEnv ab 7 (nab [] [121]) = .ok [116, 44, 110, 61, 53, 32, 97, 44, 98, 61, 34, 121, 34] ∧
    Spec.fields [116, 44, 110, 61, 53, 32, 97, 44, 98, 61, 34, 121, 34] = none := by
  decide +kernel

/-- Strings in tags are written with quotes, where a space still ends the tags: `t,a="x y" b="z"`. -/
theorem tag_space : line exampleEnv ⟨[116], [([97], none)], [], [([98], none)], []⟩ 7 (nab [120, 32, 121] [122]) =
      .ok [116, 44, 97, 61, 34, 120, 32, 121, 34, 32, 98, 61, 34, 122, 34] ∧
    Spec.fields [116, 44, 97, 61, 34, 120, 32, 121, 34, 32, 98, 61, 34, 122, 34] = none := by
  decide +kernel

/-- With fixed fields only, all values of the array are stored as fields, and the first fixed field has no comma before it: `t,n=5 n=5h=1`. -/
theorem fixed_joined : line exampleEnv ⟨[116], [([110], none)], [], [], [([104], some [49])]⟩ 7 [⟨.h, 0, [110], 1, [5, 0, 0, 0, 0, 0, 0, 0], []⟩] =
      .ok [116, 44, 110, 61, 53, 32, 110, 61, 53, 104, 61, 49] ∧
    Spec.fields [116, 44, 110, 61, 53, 32, 110, 61, 53, 104, 61, 49] = some [([110], .other [53, 104, 61, 49])] := by
  decide +kernel

end Verif.Influx
