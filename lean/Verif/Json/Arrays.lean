import Verif.Json.Lemmas
/-!
# C129: the arrays which JSON is made into
-/
namespace Verif.Json
open Verif Types Json Spec

/-! ## What is met, and where it lies -/

/-- Where an item comes from. -/
def Found (j : J) (d : Nat) : Item → Prop
  | .object ms => Inside j d (.obj ms)
  | .loose v => Loose j d v
  | .value v => Plain v ∧ ∃ ms k, Inside j d (.obj ms) ∧ (k, v) ∈ ms

theorem found_element {l : List J} {x : J} {d : Nat} {i : Item} (hx : x ∈ l) (h : Found x d i) : Found (.arr l) (d + 1) i := by
  cases i with
  | object ms => exact .element hx h
  | value v =>
    obtain ⟨hp, ms, k, hi, hm⟩ := h
    exact ⟨hp, ms, k, .element hx hi, hm⟩
  | loose v =>
    obtain ⟨hp, h⟩ := h
    rcases h with ⟨rfl, rfl⟩ | ⟨l', m, rfl, hi, hm⟩
    · exact ⟨hp, .inr ⟨l, 0, rfl, .here _, hx⟩⟩
    · exact ⟨hp, .inr ⟨l', m + 1, rfl, .element hx hi, hm⟩⟩

theorem found_member {ms : List (Bytes × J)} {k : Bytes} {x : J} {d : Nat} {i : Item} (hx : (k, x) ∈ ms) (hn : ¬ Plain x)
    (h : Found x d i) : Found (.obj ms) (d + 1) i := by
  cases i with
  | object ms => exact .member hx h
  | value v =>
    obtain ⟨hp, ms, k, hi, hm⟩ := h
    exact ⟨hp, ms, k, .member hx hi, hm⟩
  | loose v =>
    obtain ⟨hp, h⟩ := h
    rcases h with ⟨rfl, rfl⟩ | ⟨l', m, rfl, hi, hm⟩
    · exact absurd hp hn
    · exact ⟨hp, .inr ⟨l', m + 1, rfl, .member hx hi, hm⟩⟩

theorem not_plain {j : J} (h : isPlain j = false) : ¬ Plain j := by
  intro hp
  rw [← isPlain_iff, h] at hp
  cases hp

mutual
theorem walk_found (n : Nat) : (j : J) → ∀ p ∈ walk n j, ∃ d, p.1 = n + d ∧ Found j d p.2
  | .arr l => by
    intro p hp
    simp only [walk] at hp
    obtain ⟨x, hx, d, hd, hf⟩ := walkElements_found n l p hp
    exact ⟨d + 1, by omega, found_element hx hf⟩
  | .obj ms => by
    intro p hp
    simp only [walk, List.mem_append, List.mem_singleton] at hp
    rcases hp with hp | hp
    · obtain ⟨k, x, hx, h⟩ := walkMembers_found n ms p hp
      rcases h with ⟨hpl, rfl⟩ | ⟨hpl, d, hd, hf⟩
      · exact ⟨0, rfl, hpl, ms, k, .here _, hx⟩
      · exact ⟨d + 1, by omega, found_member hx hpl hf⟩
    · exact ⟨0, by rw [hp]; rfl, by rw [hp]; exact Inside.here _⟩
  | .null => by
    intro p hp
    simp only [walk, List.mem_singleton] at hp
    exact ⟨0, by rw [hp]; rfl, by rw [hp]; exact ⟨trivial, .inl ⟨rfl, rfl⟩⟩⟩
  | .bool b => by
    intro p hp
    simp only [walk, List.mem_singleton] at hp
    exact ⟨0, by rw [hp]; rfl, by rw [hp]; exact ⟨trivial, .inl ⟨rfl, rfl⟩⟩⟩
  | .int i => by
    intro p hp
    simp only [walk, List.mem_singleton] at hp
    exact ⟨0, by rw [hp]; rfl, by rw [hp]; exact ⟨trivial, .inl ⟨rfl, rfl⟩⟩⟩
  | .double d => by
    intro p hp
    simp only [walk, List.mem_singleton] at hp
    exact ⟨0, by rw [hp]; rfl, by rw [hp]; exact ⟨trivial, .inl ⟨rfl, rfl⟩⟩⟩
  | .str t => by
    intro p hp
    simp only [walk, List.mem_singleton] at hp
    exact ⟨0, by rw [hp]; rfl, by rw [hp]; exact ⟨trivial, .inl ⟨rfl, rfl⟩⟩⟩
theorem walkElements_found (n : Nat) : (l : List J) → ∀ p ∈ walkElements n l, ∃ x ∈ l, ∃ d, p.1 = n + 1 + d ∧ Found x d p.2
  | [] => by simp [walkElements]
  | j :: l => by
    intro p hp
    simp only [walkElements, List.mem_append] at hp
    rcases hp with hp | hp
    · exact ⟨j, by simp, walk_found (n + 1) j p hp⟩
    · obtain ⟨x, hx, h⟩ := walkElements_found n l p hp
      exact ⟨x, by simp [hx], h⟩
theorem walkMembers_found (n : Nat) : (ms : List (Bytes × J)) → ∀ p ∈ walkMembers n ms, ∃ k x, (k, x) ∈ ms ∧
    ((Plain x ∧ p = (n, .value x)) ∨ (¬ Plain x ∧ ∃ d, p.1 = n + 1 + d ∧ Found x d p.2))
  | [] => by simp [walkMembers]
  | (k, j) :: ms => by
    intro p hp
    simp only [walkMembers, List.mem_append] at hp
    rcases hp with hp | hp
    · cases h : isPlain j
      · rw [h] at hp
        exact ⟨k, j, by simp, .inr ⟨not_plain h, walk_found (n + 1) j p hp⟩⟩
      · rw [h] at hp
        simp only [if_true, List.mem_singleton] at hp
        exact ⟨k, j, by simp, .inl ⟨(isPlain_iff j).1 h, hp⟩⟩
    · obtain ⟨k', x, hx, h⟩ := walkMembers_found n ms p hp
      exact ⟨k', x, by simp [hx], h⟩
end

theorem mem_walkElements (n : Nat) (l : List J) (x : J) (p : Nat × Item) (hx : x ∈ l) (hp : p ∈ walk (n + 1) x) : p ∈ walkElements n l := by
  induction l with
  | nil => cases hx
  | cons j l ih =>
    simp only [walkElements, List.mem_append]
    rcases List.mem_cons.1 hx with rfl | hx
    · exact .inl hp
    · exact .inr (ih hx)

theorem mem_walkMembers (n : Nat) (ms : List (Bytes × J)) (k : Bytes) (x : J) (p : Nat × Item) (hx : (k, x) ∈ ms)
    (hp : p ∈ (if isPlain x then [(n, Item.value x)] else walk (n + 1) x)) : p ∈ walkMembers n ms := by
  induction ms with
  | nil => cases hx
  | cons j ms ih =>
    obtain ⟨k', j⟩ := j
    simp only [walkMembers, List.mem_append]
    rcases List.mem_cons.1 hx with h | hx
    · cases h
      exact .inl hp
    · exact .inr (ih hx)

theorem inside_plain {x o : J} {n : Nat} (h : Inside x n o) (hp : isPlain x = true) : o = x := by
  cases h with
  | here => rfl
  | element _ _ => cases hp
  | member _ _ => cases hp

/-- What lies inside of an array or an object inside of a tree is met. -/
theorem walk_inside {j o : J} {d : Nat} (h : Inside j d o) (ho : isPlain o = false) (n : Nat) :
    ∀ p ∈ walk (n + d) o, p ∈ walk n j := by
  induction h generalizing n with
  | here => exact fun p hp => hp
  | @element l x o m hx _ ih =>
    intro p hp
    simp only [walk]
    refine mem_walkElements n l x p hx (ih ho (n + 1) p ?_)
    rw [show n + 1 + m = n + (m + 1) by omega]; exact hp
  | @member ms k x o m hx hi ih =>
    intro p hp
    simp only [walk, List.mem_append]
    have hn : isPlain x = false := by
      cases hh : isPlain x
      · rfl
      · rw [inside_plain hi hh, hh] at ho; cases ho
    refine .inl (mem_walkMembers n ms k x p hx ?_)
    rw [hn]
    refine ih ho (n + 1) p ?_
    rw [show n + 1 + m = n + (m + 1) by omega]; exact hp

theorem walk_object {j : J} {d : Nat} {ms : List (Bytes × J)} (h : Inside j d (.obj ms)) : (d, .object ms) ∈ walk 0 j := by
  refine walk_inside h rfl 0 _ ?_
  simp [walk]

theorem walk_loose {j v : J} {d : Nat} (h : Loose j d v) : (d, .loose v) ∈ walk 0 j := by
  obtain ⟨hp, h⟩ := h
  have hw : ∀ n, walk n v = [(n, .loose v)] := by
    intro n
    cases v <;> first | rfl | exact absurd hp (by simp [Plain]) | simp only [walk]
  rcases h with ⟨rfl, rfl⟩ | ⟨l, m, rfl, hi, hm⟩
  · rw [hw]; simp
  · refine walk_inside hi rfl 0 _ ?_
    simp only [walk]
    refine mem_walkElements (0 + m) l v _ hm ?_
    rw [hw]; simp

theorem walk_value {j v : J} {d : Nat} {ms : List (Bytes × J)} {k : Bytes} (h : Inside j d (.obj ms)) (hm : (k, v) ∈ ms) (hp : Plain v) :
    (d, .value v) ∈ walk 0 j := by
  refine walk_inside h rfl 0 _ ?_
  simp only [walk, List.mem_append]
  refine .inl (mem_walkMembers (0 + d) ms k v _ hm ?_)
  rw [(isPlain_iff v).2 hp]
  simp

theorem mem_visible (max : Nat) (l : List (Nat × Item)) (i : Item) : i ∈ visible max l ↔ ∃ n, n ≤ max ∧ (n, i) ∈ l := by
  simp only [visible, List.mem_map, List.mem_filter]
  constructor
  · rintro ⟨⟨n, i⟩, ⟨h, hn⟩, rfl⟩
    exact ⟨n, by simpa using hn, h⟩
  · rintro ⟨n, hn, h⟩
    exact ⟨(n, i), ⟨h, by simpa using hn⟩, rfl⟩

/-! ## Feeding -/

/-- Items which do not end the walk. -/
def Good (e : Env) : Item → Prop
  | .value j => convertible e j = true
  | .loose _ => False
  | .object _ => True

/-- The object of an item. -/
def objectOf : Item → Option (List (Bytes × J))
  | .object ms => some ms
  | _ => none

theorem feed_good (e : Env) (l : List Item) (h : ∀ i ∈ l, Good e i) (s : List (List Value)) :
    feed e collect s l = (0, s ++ (l.filterMap objectOf).map (valuesOf e)) := by
  induction l generalizing s with
  | nil => simp [feed]
  | cons i l ih =>
    have hl := fun i hi => h i (List.mem_cons_of_mem _ hi)
    have hi := h i (by simp)
    cases i with
    | value j => simp only [feed, show convertible e j = true from hi, if_true, ih hl]; rfl
    | loose j => exact absurd hi id
    | object ms =>
      show feed e collect (s ++ [valuesOf e ms]) l = _
      rw [ih hl]
      simp [objectOf]

theorem feed_collect (e : Env) (l : List Item) (s : List (List Value)) : ∃ c as, feed e collect s l = (c, s ++ as) ∧
    (c = 0 ∨ c = PARSE_ERROR) ∧ (c = 0 ↔ ∀ i ∈ l, Good e i) ∧ as <+: (l.filterMap objectOf).map (valuesOf e) := by
  induction l generalizing s with
  | nil => exact ⟨0, [], by simp [feed], .inl rfl, by simp, List.prefix_refl _⟩
  | cons i l ih =>
    cases i with
    | value j =>
      cases hc : convertible e j
      · exact ⟨PARSE_ERROR, [], by simp [feed, hc], .inr rfl, by simp [PARSE_ERROR, Good, hc], List.nil_prefix⟩
      · obtain ⟨c, as, h1, h2, h3, h4⟩ := ih s
        refine ⟨c, as, by simp only [feed, hc, if_true, h1], h2, ?_, h4⟩
        rw [h3]; simp [Good, hc]
    | loose j => exact ⟨PARSE_ERROR, [], by simp [feed], .inr rfl, by simp [PARSE_ERROR, Good], List.nil_prefix⟩
    | object ms =>
      obtain ⟨c, as, h1, h2, h3, h4⟩ := ih (s ++ [valuesOf e ms])
      refine ⟨c, valuesOf e ms :: as, ?_, h2, ?_, ?_⟩
      · show feed e collect (s ++ [valuesOf e ms]) l = _
        rw [h1]; simp
      · rw [h3]; simp [Good]
      · simpa [objectOf] using h4

/-- A callback is given arrays one by one, until it fails. -/
def deliver {σ : Type} (cb : Callback σ) : σ → List (List Value) → Nat × σ
  | s, [] => (0, s)
  | s, a :: as => next (cb s a) fun s => deliver cb s as

theorem feed_deliver {σ : Type} (e : Env) (cb : Callback σ) (l : List Item) (s : σ) (t : List (List Value)) : ∃ c as,
    feed e collect t l = (c, t ++ as) ∧ feed e cb s l = next (deliver cb s as) fun s => (c, s) := by
  induction l generalizing s t with
  | nil => exact ⟨0, [], by simp [feed], rfl⟩
  | cons i l ih =>
    cases i with
    | value j =>
      cases hc : convertible e j
      · exact ⟨PARSE_ERROR, [], by simp [feed, hc], by simp [feed, hc, deliver, next]⟩
      · obtain ⟨c, as, h1, h2⟩ := ih s t
        exact ⟨c, as, by simp only [feed, hc, if_true, h1], by simp only [feed, hc, if_true, h2]⟩
    | loose j => exact ⟨PARSE_ERROR, [], by simp [feed], by simp [feed, deliver, next]⟩
    | object ms =>
      obtain ⟨c, as, h1, _⟩ := ih s (t ++ [valuesOf e ms])
      refine ⟨c, valuesOf e ms :: as, ?_, ?_⟩
      · show feed e collect (t ++ [valuesOf e ms]) l = _
        rw [h1]; simp
      · show next (cb s (valuesOf e ms)) (fun s => feed e cb s l) = next (next (cb s (valuesOf e ms)) fun s => deliver cb s as) _
        rw [next_next]
        congr 1
        funext s'
        obtain ⟨c', as', h1', h2'⟩ := ih s' (t ++ [valuesOf e ms])
        rw [h1] at h1'
        cases List.append_cancel_left (congrArg Prod.snd h1')
        cases congrArg Prod.fst h1'
        exact h2'

/-! ## The objects in order -/

mutual
theorem walk_objects (n : Nat) : (j : J) →
    (walk n j).filterMap (fun p => (objectOf p.2).map fun ms => (p.1, ms)) = objects n j
  | .arr l => by simp only [walk, objects]; exact walkElements_objects n l
  | .obj ms => by simp only [walk, objects, List.filterMap_append, walkMembers_objects n ms]; rfl
  | .null => by simp [walk, objects, objectOf]
  | .bool b => by simp [walk, objects, objectOf]
  | .int i => by simp [walk, objects, objectOf]
  | .double d => by simp [walk, objects, objectOf]
  | .str t => by simp [walk, objects, objectOf]
theorem walkElements_objects (n : Nat) : (l : List J) →
    (walkElements n l).filterMap (fun p => (objectOf p.2).map fun ms => (p.1, ms)) = objectsElements n l
  | [] => rfl
  | j :: l => by simp only [walkElements, objectsElements, List.filterMap_append, walk_objects (n + 1) j, walkElements_objects n l]
theorem walkMembers_objects (n : Nat) : (ms : List (Bytes × J)) →
    (walkMembers n ms).filterMap (fun p => (objectOf p.2).map fun ms => (p.1, ms)) = objectsMembers n ms
  | [] => rfl
  | (k, j) :: ms => by
    simp only [walkMembers, objectsMembers, List.filterMap_append, walkMembers_objects n ms]
    congr 1
    cases h : isPlain j
    · simp only [Bool.false_eq_true, if_false]; exact walk_objects (n + 1) j
    · cases j <;> first | (cases h; done) | simp [objects, objectOf]
end

theorem visible_objects (max : Nat) (l : List (Nat × Item)) : (visible max l).filterMap objectOf =
    ((l.filterMap fun p => (objectOf p.2).map fun ms => (p.1, ms)).filter fun p => p.1 ≤ max).map (·.2) := by
  induction l with
  | nil => rfl
  | cons p l ih =>
    obtain ⟨n, i⟩ := p
    unfold visible at *
    have hv : ∀ j, objectOf (.value j) = none := fun _ => rfl
    have hl : ∀ j, objectOf (.loose j) = none := fun _ => rfl
    have ho : ∀ ms, objectOf (.object ms) = some ms := fun _ => rfl
    by_cases h : n ≤ max <;> cases i <;> simp [h, hv, hl, ho, ih]

theorem within_eq (max : Nat) (j : J) : (visible max (walk 0 j)).filterMap objectOf = within max j := by
  rw [visible_objects, walk_objects]; rfl

/-! ## What arrays tell -/

theorem ofBytes_host (le : Bool) (x : UInt64) : hostInt le (hostBytes le x) = x := by
  cases le
  · exact Endian.of_be64 x
  · show UInt64.ofNat (Endian.ofBytes (Endian.be64 x).reverse.reverse) = x
    rw [List.reverse_reverse]; exact Endian.of_be64 x

theorem toI64_toU64 (i : Int) (h1 : -2 ^ 63 ≤ i) (h2 : i < 2 ^ 63) : toI64 (toU64 i) = i := by
  unfold toI64 toU64
  rw [UInt64.toNat_ofNat']
  have : ((i % 2 ^ 64).toNat : Int) = i % 2 ^ 64 := Int.toNat_of_nonneg (Int.emod_nonneg _ (by decide))
  split <;> omega

theorem getInt64_eq (i : Int) : getInt64 i = nearest i := by
  unfold getInt64 nearest
  split
  · omega
  · split <;> omega

theorem getInt64_range (i : Int) : -2 ^ 63 ≤ getInt64 i ∧ getInt64 i < 2 ^ 63 := by
  unfold getInt64
  split
  · omega
  · split <;> omega

theorem push_represents (e : Env) (k : Bytes) (j : J) (v : Value) (h : push e k j = some (some v)) : Represents e v k j := by
  cases j with
  | null => cases h; exact ⟨rfl, rfl, rfl, rfl⟩
  | bool b => cases h; exact ⟨rfl, rfl, rfl, hostBytes_length _ _, rfl, ofBytes_host _ _⟩
  | int i =>
    cases h
    refine ⟨rfl, rfl, rfl, hostBytes_length _ _, rfl, ?_⟩
    rw [ofBytes_host, toI64_toU64 _ (getInt64_range i).1 (getInt64_range i).2, getInt64_eq]
  | double d =>
    simp only [push] at h
    cases hf : e.fixp d with
    | none => rw [hf] at h; cases h
    | some x =>
      rw [hf] at h; cases h
      exact ⟨rfl, rfl, rfl, hostBytes_length _ _, by rw [ofBytes_host]; exact hf⟩
  | str s => cases h; exact ⟨rfl, rfl, rfl, rfl⟩
  | arr l => cases h
  | obj ms => cases h

theorem valuesOf_tells (e : Env) (ms : List (Bytes × J)) (h : ∀ k v, (k, v) ∈ ms → convertible e v = true) :
    Tells e (valuesOf e ms) (plainMembers ms) := by
  induction ms with
  | nil => exact .nil
  | cons p ms ih =>
    obtain ⟨k, j⟩ := p
    have ih := ih fun k v hm => h k v (List.mem_cons_of_mem _ hm)
    cases hp : isPlain j
    · have h1 : valuesOf e ((k, j) :: ms) = valuesOf e ms := by simp [valuesOf, push_deep e k j hp]
      have h2 : plainMembers ((k, j) :: ms) = plainMembers ms := by
        cases j <;> first | (cases hp; done) | rfl
      rw [h1, h2]; exact ih
    · obtain ⟨v, hv⟩ := push_plain e k j hp (h k j (by simp))
      have h1 : valuesOf e ((k, j) :: ms) = v :: valuesOf e ms := by simp [valuesOf, hv]
      have h2 : plainMembers ((k, j) :: ms) = (k, j) :: plainMembers ms := by
        cases j <;> first | (cases hp; done) | rfl
      rw [h1, h2]; exact .cons (push_represents e k j v hv) ih

theorem tellAll (e : Env) (os : List (List (Bytes × J))) (h : ∀ o ∈ os, ∀ k v, (k, v) ∈ o → convertible e v = true) :
    TellAll e (os.map (valuesOf e)) os := by
  induction os with
  | nil => exact .nil
  | cons o os ih => exact .cons (valuesOf_tells e o (h o (by simp))) (ih fun o ho => h o (List.mem_cons_of_mem _ ho))

theorem convertible_iff (e : Env) (j : J) : convertible e j = true ↔ ∀ d, j = .double d → e.fixp d ≠ none := by
  cases j <;> simp [convertible, Option.isSome_iff_ne_none]

theorem convertible_deep (e : Env) (j : J) (h : isPlain j = false) : convertible e j = true := by
  cases j <;> first | rfl | cases h

/-- All which is met is good. -/
theorem good_iff (e : Env) (max : Nat) (j : J) : (∀ i ∈ visible max (walk 0 j), Good e i) ↔
    (∀ n v, n ≤ max → ¬ Loose j n v) ∧
    ∀ n ms k d, n ≤ max → Inside j n (.obj ms) → (k, .double d) ∈ ms → e.fixp d ≠ none := by
  constructor
  · intro h
    refine ⟨fun n v hn hl => h _ ((mem_visible ..).2 ⟨n, hn, walk_loose hl⟩), fun n ms k d hn hi hm => ?_⟩
    exact (convertible_iff e _).1 (h _ ((mem_visible ..).2 ⟨n, hn, walk_value hi hm (v := .double d) trivial⟩)) d rfl
  · rintro ⟨h1, h2⟩ i hi
    obtain ⟨n, hn, hi⟩ := (mem_visible ..).1 hi
    obtain ⟨d, hd, hf⟩ := walk_found 0 j _ hi
    have hd : n = d := by simpa using hd
    subst hd
    cases i with
    | value v =>
      obtain ⟨_, ms, k, hin, hm⟩ := hf
      refine (convertible_iff e v).2 ?_
      rintro d rfl
      exact h2 n ms k d hn hin hm
    | loose v => exact h1 n v hn hf
    | object ms => trivial

/-! ## The properties -/

/-- The objects which count are those at most `max` levels down: going down to an element or to a member is a level. -/
theorem within_iff (max : Nat) (j : J) (o : List (Bytes × J)) : o ∈ within max j ↔ ∃ n, n ≤ max ∧ Inside j n (.obj o) := by
  rw [← within_eq, List.mem_filterMap]
  constructor
  · rintro ⟨i, hi, ho⟩
    obtain ⟨n, hn, hi⟩ := (mem_visible ..).1 hi
    obtain ⟨d, hd, hf⟩ := walk_found 0 j _ hi
    have hd : n = d := by simpa using hd
    subst hd
    cases i <;> simp [objectOf] at ho
    subst ho
    exact ⟨n, hn, hf⟩
  · rintro ⟨n, hn, hi⟩
    exact ⟨.object o, (mem_visible ..).2 ⟨n, hn, walk_object hi⟩, rfl⟩

/-- **C129**. JSON is accepted exactly when it is no longer than what the parser takes, the parser knows it, no value within the limit is loose
and every floating point number of an object within the limit has a fixed point number. -/
theorem accepted_iff (e : Env) (parse : Bytes → Parsed) (max : Nat) (s : List (List Value)) (data : Bytes) :
    (toArrays e parse max collect s data).1 = OK ↔ data.length < 2 ^ 31 ∧ ∃ j, parse data = .tree j ∧
      (∀ n v, n ≤ max → ¬ Loose j n v) ∧
      ∀ n ms k d, n ≤ max → Inside j n (.obj ms) → (k, .double d) ∈ ms → e.fixp d ≠ none := by
  unfold toArrays
  by_cases hl : data.length > 2 ^ 31 - 1
  · rw [if_pos hl]
    exact ⟨fun h => absurd (show PARSE_ERROR = OK from h) (by decide), fun h => absurd h.1 (by omega)⟩
  · rw [if_neg hl]
    cases hp : parse data with
    | incomplete => exact ⟨fun h => absurd (show PARSE_INCOMPLETE = OK from h) (by decide), fun ⟨_, j, h, _⟩ => by cases h⟩
    | error => exact ⟨fun h => absurd (show PARSE_ERROR = OK from h) (by decide), fun ⟨_, j, h, _⟩ => by cases h⟩
    | tree j =>
      simp only [recurse_eq]
      obtain ⟨c, as, h1, _, h3, _⟩ := feed_collect e (visible max (walk 0 j)) s
      rw [h1]
      show c = 0 ↔ _
      rw [h3, good_iff]
      constructor
      · exact fun h => ⟨by omega, j, rfl, h⟩
      · rintro ⟨_, j', hj, h⟩
        cases hj
        exact h

/-- **C129**. When JSON is accepted, there is one array for each object within the limit, in order, and an array tells what the
plain members of its object are, and no more. -/
theorem arrays_exact (e : Env) (parse : Bytes → Parsed) (max : Nat) (data : Bytes) (j : J) (as : List (List Value))
    (hp : parse data = .tree j) (h : toArrays e parse max collect [] data = (OK, as)) :
    TellAll e as (within max j) := by
  unfold toArrays at h
  split at h
  · cases h
  · rw [hp] at h
    simp only [recurse_eq] at h
    have hg : ∀ i ∈ visible max (walk 0 j), Good e i := by
      obtain ⟨c, as', h1, _, h3, _⟩ := feed_collect e (visible max (walk 0 j)) []
      rw [h1] at h
      exact h3.1 (congrArg Prod.fst h)
    rw [feed_good e _ hg, within_eq] at h
    have : as = (within max j).map (valuesOf e) := by
      have := congrArg Prod.snd h
      simpa using this.symm
    rw [this]
    refine tellAll e _ ?_
    intro o ho k v hm
    obtain ⟨n, hn, hi⟩ := (within_iff max j o).1 ho
    cases hpl : isPlain v
    · exact convertible_deep e v hpl
    · exact hg _ ((mem_visible ..).2 ⟨n, hn, walk_value hi hm ((isPlain_iff v).1 hpl)⟩)

/-- **C129**. Whatever is done with the arrays: they are handed over in the same order until one of them is refused, and what refused it is the result. If
none is refused, the result is that of the JSON itself. -/
theorem callback_exact {σ : Type} (e : Env) (parse : Bytes → Parsed) (max : Nat) (cb : Callback σ) (s : σ) (data : Bytes) :
    toArrays e parse max cb s data = next (deliver cb s (toArrays e parse max collect [] data).2)
      fun s => ((toArrays e parse max collect [] data).1, s) := by
  unfold toArrays
  by_cases hl : data.length > 2 ^ 31 - 1
  · simp only [hl, if_true]; rfl
  · simp only [hl, if_false]
    cases parse data with
    | incomplete => rfl
    | error => rfl
    | tree j =>
      simp only [recurse_eq]
      obtain ⟨c, as, h1, h2⟩ := feed_deliver e cb (visible max (walk 0 j)) s []
      rw [h1, h2]
      rfl

/-- What is handed over from what is met: the first of the objects, with values which could all be converted. -/
def Tidy (e : Env) (l : List Item) : Prop :=
  ∀ s, ∃ c os, feed e collect s l = (c, s ++ os.map (valuesOf e)) ∧ os <+: l.filterMap objectOf ∧
    (c = 0 → os = l.filterMap objectOf) ∧ ∀ o ∈ os, ∀ k v, (k, v) ∈ o → convertible e v = true

theorem tidy_append (e : Env) (a b : List Item) (ha : Tidy e a) (hb : Tidy e b) : Tidy e (a ++ b) := by
  intro s
  obtain ⟨c, os, h1, h2, h3, h4⟩ := ha s
  rw [feed_append, h1]
  cases c with
  | succ c => exact ⟨c + 1, os, rfl, by rw [List.filterMap_append]; exact h2.trans (List.prefix_append _ _), by simp, h4⟩
  | zero =>
    obtain ⟨c', os', h1', h2', h3', h4'⟩ := hb (s ++ os.map (valuesOf e))
    refine ⟨c', os ++ os', ?_, ?_, ?_, ?_⟩
    · show feed e collect (s ++ os.map (valuesOf e)) b = _
      rw [h1']; simp
    · rw [List.filterMap_append, h3 rfl]; exact (List.prefix_append_right_inj _).2 h2'
    · intro h
      rw [List.filterMap_append, h3 rfl, h3' h]
    · intro o ho
      rcases List.mem_append.1 ho with ho | ho
      · exact h4 o ho
      · exact h4' o ho

theorem tidy_nil (e : Env) : Tidy e [] := fun s => ⟨0, [], by simp [feed], List.prefix_refl _, fun _ => rfl, by simp⟩

theorem tidy_value (e : Env) (j : J) : Tidy e [.value j] := by
  intro s
  cases h : convertible e j
  · exact ⟨PARSE_ERROR, [], by simp [feed, h], List.nil_prefix, by simp [PARSE_ERROR], by simp⟩
  · exact ⟨0, [], by simp [feed, h], List.nil_prefix, by simp [objectOf], by simp⟩

theorem tidy_loose (e : Env) (max n : Nat) (j : J) : Tidy e (visible max [(n, .loose j)]) := by
  by_cases h : n ≤ max
  · have : visible max [(n, .loose j)] = [.loose j] := by simp [visible, h]
    rw [this]
    exact fun s => ⟨PARSE_ERROR, [], by simp [feed], List.nil_prefix, by simp [PARSE_ERROR], by simp⟩
  · have : visible max [(n, .loose j)] = [] := by simp [visible, h]
    rw [this]; exact tidy_nil e

theorem tidy_object (e : Env) (l : List Item) (ms : List (Bytes × J)) (hl : Tidy e l)
    (h : (∀ i ∈ l, Good e i) → ∀ k v, (k, v) ∈ ms → convertible e v = true) : Tidy e (l ++ [.object ms]) := by
  intro s
  obtain ⟨c, os, h1, h2, h3, h4⟩ := hl s
  rw [feed_append, h1]
  cases c with
  | succ c => exact ⟨c + 1, os, rfl, by rw [List.filterMap_append]; exact h2.trans (List.prefix_append _ _), by simp, h4⟩
  | zero =>
    have hg : ∀ i ∈ l, Good e i := by
      obtain ⟨c', as, h1', _, h3', _⟩ := feed_collect e l s
      rw [h1] at h1'
      exact h3'.1 (congrArg Prod.fst h1').symm
    refine ⟨0, os ++ [ms], ?_, ?_, ?_, ?_⟩
    · show feed e collect (s ++ os.map (valuesOf e)) [.object ms] = _
      simp [feed, collect]
    · rw [List.filterMap_append, h3 rfl]; exact List.prefix_refl _
    · intro _
      rw [List.filterMap_append, h3 rfl]; rfl
    · intro o ho
      rcases List.mem_append.1 ho with ho | ho
      · exact h4 o ho
      · rw [List.mem_singleton.1 ho]; exact h hg

theorem members_good (e : Env) (max n : Nat) (hn : n ≤ max) (ms : List (Bytes × J))
    (h : ∀ i ∈ visible max (walkMembers n ms), Good e i) (k : Bytes) (v : J) (hm : (k, v) ∈ ms) : convertible e v = true := by
  cases hp : isPlain v
  · exact convertible_deep e v hp
  · refine h (.value v) ((mem_visible ..).2 ⟨n, hn, mem_walkMembers n ms k v _ hm ?_⟩)
    rw [hp]; simp

mutual
theorem tidy_walk (e : Env) (max n : Nat) : (j : J) → Tidy e (visible max (walk n j))
  | .arr l => by simp only [walk]; exact tidy_walkElements e max n l
  | .obj ms => by
    simp only [walk]
    rw [visible_append]
    by_cases h : n ≤ max
    · have : visible max [(n, Item.object ms)] = [.object ms] := by simp [visible, h]
      rw [this]
      exact tidy_object e _ ms (tidy_walkMembers e max n ms) fun hg k v hm => members_good e max n h ms hg k v hm
    · have : visible max [(n, Item.object ms)] = [] := by simp [visible, h]
      rw [this, List.append_nil]; exact tidy_walkMembers e max n ms
  | .null => by simp only [walk]; exact tidy_loose e max n _
  | .bool b => by simp only [walk]; exact tidy_loose e max n _
  | .int i => by simp only [walk]; exact tidy_loose e max n _
  | .double d => by simp only [walk]; exact tidy_loose e max n _
  | .str t => by simp only [walk]; exact tidy_loose e max n _
theorem tidy_walkElements (e : Env) (max n : Nat) : (l : List J) → Tidy e (visible max (walkElements n l))
  | [] => by simp only [walkElements]; exact tidy_nil e
  | j :: l => by
    simp only [walkElements]
    rw [visible_append]
    exact tidy_append e _ _ (tidy_walk e max (n + 1) j) (tidy_walkElements e max n l)
theorem tidy_walkMembers (e : Env) (max n : Nat) : (ms : List (Bytes × J)) → Tidy e (visible max (walkMembers n ms))
  | [] => by simp only [walkMembers]; exact tidy_nil e
  | (k, j) :: ms => by
    simp only [walkMembers]
    rw [visible_append]
    refine tidy_append e _ _ ?_ (tidy_walkMembers e max n ms)
    cases hp : isPlain j
    · simp only [Bool.false_eq_true, if_false]; exact tidy_walk e max (n + 1) j
    · by_cases h : n ≤ max
      · have : visible max (if true = true then [(n, Item.value j)] else walk (n + 1) j) = [.value j] := by simp [visible, h]
        rw [this]; exact tidy_value e j
      · have : visible max (if true = true then [(n, Item.value j)] else walk (n + 1) j) = [] := by simp [visible, h]
        rw [this]; exact tidy_nil e
end

/-- **C129**. When JSON turns out to be wrong, arrays which came before what is wrong have been handed over: they are those of the first of
the objects within the limit, and they tell what these are. -/
theorem arrays_prefix (e : Env) (parse : Bytes → Parsed) (max : Nat) (data : Bytes) (j : J) (hp : parse data = .tree j) :
    ∃ os, os <+: within max j ∧ TellAll e (toArrays e parse max collect [] data).2 os := by
  unfold toArrays
  split
  · exact ⟨[], List.nil_prefix, .nil⟩
  · rw [hp]
    simp only [recurse_eq]
    obtain ⟨c, os, h1, h2, _, h4⟩ := tidy_walk e max 0 j []
    rw [h1]
    exact ⟨os, by rw [within_eq] at h2; exact h2, tellAll e os h4⟩

/-- A host. -/
def exEnv : Env := { le := true, fixp := fun d => if d = 0 then some 0 else none }

/-- `{"a": 1, "b": {"c": "x"}, "d": null}` -/
def exTree : J := .obj [([97], .int 1), ([98], .obj [([99], .str [120])]), ([100], .null)]

/-- The object inside comes first, and its parent tells nothing of it. -/
example : toArrays exEnv (fun _ => .tree exTree) 5 collect [] [] = (OK,
    [[{ ty := .str, flags := 0, tag := [99], elements := 1, data := [120] }],
     [{ ty := .h, flags := 1, tag := [97], elements := 1, data := [1, 0, 0, 0, 0, 0, 0, 0] },
      { ty := .vain, flags := 0, tag := [100], elements := 1, data := [] }]]) := by
  decide +kernel

/-- **C129**. What lies deeper than the limit is left out, and nobody is told. -/
theorem deep_left_out : ∃ j : J, (∃ n o, Inside j n (.obj o)) ∧
    ∀ parse : Bytes → Parsed, ∀ data, parse data = .tree j → data.length < 2 ^ 31 →
      toArrays exEnv parse 5 collect [] data = (OK, []) := by
  refine ⟨.arr [.arr [.arr [.arr [.arr [.arr [.obj [([97], .int 1)]]]]]]], ⟨6, [([97], .int 1)], ?_⟩, ?_⟩
  · repeat first | exact Inside.here _ | refine Inside.element (List.mem_singleton.2 rfl) ?_
  · intro parse data hp hl
    unfold toArrays
    rw [if_neg (by omega), hp]
    decide +kernel

/-- **C129**. An object with a list of numbers makes no array, and what follows it in the text neither. What is inside of earlier members has been handed over. -/
theorem list_refused : ∀ parse : Bytes → Parsed, ∀ data, data.length < 2 ^ 31 →
    parse data = .tree (.obj [([97], .obj []), ([98], .arr [.int 1, .int 2]), ([99], .int 3)]) →
    toArrays exEnv parse 5 collect [] data = (PARSE_ERROR, [[]]) := by
  intro parse data hl hp
  unfold toArrays
  rw [if_neg (by omega), hp]
  decide +kernel

/-- **C129**. A number which is larger than what a signed integer holds becomes another number, and nobody is told. -/
theorem large_changed : ∃ as, (∀ parse : Bytes → Parsed, ∀ data, data.length < 2 ^ 31 →
    parse data = .tree (.obj [([97], .int (2 ^ 64 - 1))]) → toArrays exEnv parse 5 collect [] data = (OK, as)) ∧
    ∃ v, as = [[v]] ∧ toI64 (hostInt true v.data) = 2 ^ 63 - 1 := by
  refine ⟨[[{ ty := .h, flags := 1, tag := [97], elements := 1, data := [255, 255, 255, 255, 255, 255, 255, 127] }]], ?_, _, rfl, by decide +kernel⟩
  intro parse data hl hp
  unfold toArrays
  rw [if_neg (by omega), hp]
  decide +kernel

end Verif.Json
