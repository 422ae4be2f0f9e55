import Verif.Msgdb.Spec
import Verif.Msg.Props
/-!
# Lemmas about paths, files and their contents
-/
namespace Verif.Msgdb
open Verif Msg Endian

/-! ## Names and paths -/

theorem hexByte_chars : ∀ b : UInt8, ∀ c ∈ hexByte b, c ≠ 47 ∧ c ≠ 46 := by
  apply all256
  decide +kernel

/-- What file names look like. -/
structure IsName (n : Bytes) : Prop where
  len : n.length = 64
  chars : ∀ c ∈ n, c ≠ 47 ∧ c ≠ 46

theorem flatMap_hex_length (l : Bytes) : (l.flatMap hexByte).length = 2 * l.length := by
  induction l with
  | nil => rfl
  | cons a t ih =>
    rw [List.flatMap_cons, List.length_append, ih, List.length_cons]
    have : (hexByte a).length = 2 := rfl
    omega

theorem fileName_isName {sha : Bytes → Bytes} (hs : ∀ t, (sha t).length = 32) (t : Bytes) : IsName (fileName sha t) := by
  constructor
  · unfold fileName
    rw [flatMap_hex_length, hs]
  · intro c hc
    unfold fileName at hc
    obtain ⟨b, _, hb⟩ := List.mem_flatMap.1 hc
    exact hexByte_chars b c hb

/-- The value of a digit. -/
def unhexDigit (c : UInt8) : UInt8 := if c < 97 then c - 48 else c - 87

theorem hexByte_inv : ∀ b : UInt8, (unhexDigit (hexDigit (b >>> 4)) <<< 4) ||| unhexDigit (hexDigit (b &&& 15)) = b := by
  apply all256
  decide +kernel

theorem flatMap_hex_inj {a b : Bytes} (h : a.flatMap hexByte = b.flatMap hexByte) : a = b := by
  induction a generalizing b with
  | nil =>
    cases b with
    | nil => rfl
    | cons x t => cases h
  | cons x t ih =>
    cases b with
    | nil => cases h
    | cons y u =>
      rw [List.flatMap_cons, List.flatMap_cons] at h
      have h' : hexDigit (x >>> 4) :: hexDigit (x &&& 15) :: t.flatMap hexByte = hexDigit (y >>> 4) :: hexDigit (y &&& 15) :: u.flatMap hexByte := h
      injection h' with h1 h2
      injection h2 with h2 h3
      have hx := hexByte_inv x
      rw [h1, h2, hexByte_inv y] at hx
      rw [← hx, ih h3]

theorem fileName_inj {sha : Bytes → Bytes} {a b : Bytes} (h : fileName sha a = fileName sha b) : sha a = sha b := flatMap_hex_inj h

theorem dirs_end (l : Bytes) : l.flatMap (fun c => [c, (47 : UInt8)]) = [] ∨ ∃ b, l.flatMap (fun c => [c, (47 : UInt8)]) = b ++ [47] := by
  induction l with
  | nil => exact Or.inl rfl
  | cons a t ih =>
    right
    rw [List.flatMap_cons]
    rcases ih with h | ⟨b, h⟩
    · exact ⟨[a], by rw [h]; rfl⟩
    · exact ⟨[a, 47] ++ b, by rw [h, List.append_assoc]⟩

theorem takeWhile_all {p : UInt8 → Bool} {l r : Bytes} (h : ∀ c ∈ l, p c = true) : (l ++ r).takeWhile p = l ++ r.takeWhile p := by
  induction l with
  | nil => rfl
  | cons a t ih =>
    rw [List.cons_append, List.takeWhile_cons_of_pos (h a List.mem_cons_self), ih (fun c hc => h c (List.mem_cons_of_mem _ hc)), List.cons_append]

theorem lastPart_pathOf (l : Nat) {n : Bytes} (h : IsName n) : lastPart (pathOf l n) = n := by
  unfold lastPart pathOf
  rw [List.reverse_append, takeWhile_all (by
    intro c hc
    have := (h.chars c (List.mem_reverse.1 hc)).1
    simpa using this)]
  have : (((n.take l).flatMap (fun c => [c, (47 : UInt8)])).reverse).takeWhile (fun c => c != 47) = [] := by
    rcases dirs_end (n.take l) with h1 | ⟨b, h1⟩
    · rw [h1]; rfl
    · rw [h1, List.reverse_append]
      rfl
  rw [this, List.append_nil, List.reverse_reverse]

theorem pathOf_head (l : Nat) {n : Bytes} (h : IsName n) : (pathOf l n).head? ≠ some 46 := by
  unfold pathOf
  cases n with
  | nil => exact absurd h.len (by decide)
  | cons a t =>
    have ha := (h.chars a List.mem_cons_self).2
    cases l with
    | zero => simpa using ha
    | succ l => simpa using ha

/-! ## Files -/

/-- Files as they are left by the server: every name once. -/
structure Wf (fs : Files) : Prop where
  once : fs.Pairwise (fun a b => lastPart a.1 ≠ lastPart b.1)
  paths : ∀ e ∈ fs, ∃ l n, l ≤ 4 ∧ IsName n ∧ e.1 = pathOf l n

/-- All files are where they are looked for. -/
def Placed (levels : Nat) (fs : Files) : Prop := ∀ e ∈ fs, e.1 = pathOf levels (lastPart e.1)

/-- There is a file with a name and contents. -/
def Has (fs : Files) (n c : Bytes) : Prop := ∃ p, (p, c) ∈ fs ∧ lastPart p = n

theorem Wf.inj {fs : Files} (h : fs.Pairwise (fun a b => lastPart a.1 ≠ lastPart b.1)) {a b : Bytes × Bytes} (ha : a ∈ fs) (hb : b ∈ fs) (hab : lastPart a.1 = lastPart b.1) : a = b := by
  induction fs with
  | nil => cases ha
  | cons c t ih =>
    have h' := List.pairwise_cons.1 h
    rcases List.mem_cons.1 ha with h1 | h1 <;> rcases List.mem_cons.1 hb with h2 | h2
    · rw [h1, h2]
    · subst h1; exact absurd hab (h'.1 b h2)
    · subst h2; exact absurd hab.symm (h'.1 a h1)
    · exact ih h'.2 h1 h2

theorem get_iff {fs : Files} (h : Wf fs) (p c : Bytes) : fs.get p = some c ↔ (p, c) ∈ fs := by
  unfold Files.get
  constructor
  · intro hg
    cases hf : fs.find? (fun e => e.1 == p) with
    | none => rw [hf] at hg; cases hg
    | some e =>
      rw [hf] at hg
      have h1 := List.find?_some hf
      have h2 := List.mem_of_find?_eq_some hf
      have h3 : e.2 = c := Option.some.inj hg
      have h4 : e.1 = p := by simpa using h1
      rw [← h3, ← h4]
      exact h2
  · intro hm
    cases hf : fs.find? (fun e => e.1 == p) with
    | none =>
      have := List.find?_eq_none.1 hf (p, c) hm
      simp at this
    | some e =>
      have h1 := List.find?_some hf
      have h2 := List.mem_of_find?_eq_some hf
      have h4 : e.1 = p := by simpa using h1
      have := Wf.inj h.once h2 hm (by rw [h4])
      rw [this]
      rfl

theorem has_get {fs : Files} (h : Wf fs) {L : Nat} (hp : Placed L fs) {n c : Bytes} (hn : IsName n) : fs.get (pathOf L n) = some c ↔ Has fs n c := by
  rw [get_iff h]
  constructor
  · intro hm
    exact ⟨_, hm, lastPart_pathOf L hn⟩
  · rintro ⟨p, hm, hl⟩
    have := hp _ hm
    rw [show lastPart (p, c).1 = n from hl] at this
    rw [← this]
    exact hm

theorem remove_wf {fs : Files} (h : Wf fs) (p : Bytes) : Wf (fs.remove p) :=
  ⟨List.Pairwise.sublist List.filter_sublist h.once, fun e he => h.paths e (List.mem_filter.1 he).1⟩

theorem remove_placed {L : Nat} {fs : Files} (h : Placed L fs) (p : Bytes) : Placed L (fs.remove p) :=
  fun e he => h e (List.mem_filter.1 he).1

theorem mem_remove {fs : Files} {p : Bytes} {e : Bytes × Bytes} : e ∈ fs.remove p ↔ e ∈ fs ∧ e.1 ≠ p := by
  unfold Files.remove
  rw [List.mem_filter]
  simp

theorem has_remove {fs : Files} {L : Nat} (hp : Placed L fs) {n : Bytes} (hn : IsName n) (n' c : Bytes) : Has (fs.remove (pathOf L n)) n' c ↔ n' ≠ n ∧ Has fs n' c := by
  constructor
  · rintro ⟨p, hm, hl⟩
    obtain ⟨h1, h2⟩ := mem_remove.1 hm
    refine ⟨?_, p, h1, hl⟩
    intro he
    have := hp _ h1
    rw [show lastPart (p, c).1 = n' from hl, he] at this
    exact h2 this
  · rintro ⟨hne, p, hm, hl⟩
    refine ⟨p, mem_remove.2 ⟨hm, ?_⟩, hl⟩
    intro he
    have : p = pathOf L n := he
    rw [this, lastPart_pathOf L hn] at hl
    exact hne hl.symm

/-- Removing a path which is not there. -/
theorem remove_absent {fs : Files} {p : Bytes} (h : ∀ c, (p, c) ∉ fs) : fs.remove p = fs := by
  unfold Files.remove
  rw [List.filter_eq_self]
  intro e he
  simp only [bne_iff_ne, ne_eq]
  intro hp
  exact h e.2 (by rw [← hp]; exact he)

theorem write_wf {fs : Files} {L : Nat} (h : Wf fs) (hp : Placed L fs) (hL : L ≤ 4) {n : Bytes} (hn : IsName n) (c : Bytes) : Wf (fs.write (pathOf L n) c) ∧ Placed L (fs.write (pathOf L n) c) := by
  refine ⟨⟨?_, ?_⟩, ?_⟩
  · refine List.pairwise_cons.2 ⟨?_, (remove_wf h _).once⟩
    intro e he
    obtain ⟨h1, h2⟩ := mem_remove.1 he
    rw [lastPart_pathOf L hn]
    intro hx
    have := hp e h1
    rw [← hx] at this
    exact h2 this
  · intro e he
    rcases List.mem_cons.1 he with h1 | h1
    · exact ⟨L, n, hL, hn, by rw [h1]⟩
    · exact (remove_wf h _).paths e h1
  · intro e he
    rcases List.mem_cons.1 he with h1 | h1
    · rw [h1]
      show pathOf L n = pathOf L (lastPart (pathOf L n))
      rw [lastPart_pathOf L hn]
    · exact remove_placed hp _ e h1

theorem has_write {fs : Files} {L : Nat} (hp : Placed L fs) {n : Bytes} (hn : IsName n) (c n' c' : Bytes) : Has (fs.write (pathOf L n) c) n' c' ↔ (n' = n ∧ c' = c) ∨ (n' ≠ n ∧ Has fs n' c') := by
  rw [← has_remove hp hn]
  constructor
  · rintro ⟨p, hm, hl⟩
    rcases List.mem_cons.1 hm with h1 | h1
    · left
      injection h1 with h1 h2
      rw [h1, lastPart_pathOf L hn] at hl
      exact ⟨hl.symm, h2⟩
    · exact Or.inr ⟨p, h1, hl⟩
  · rintro (⟨h1, h2⟩ | ⟨p, hm, hl⟩)
    · exact ⟨pathOf L n, by rw [h2]; exact List.mem_cons_self, by rw [h1]; exact lastPart_pathOf L hn⟩
    · exact ⟨p, List.mem_cons_of_mem _ hm, hl⟩

/-! ## Starting -/

theorem moveFile_keeps {fs : Files} (h : Wf fs) {l L : Nat} {n : Bytes} (hL : L ≤ 4) (hn : IsName n) :
    Wf (moveFile L fs (pathOf l n)) ∧ (∀ n' c, Has (moveFile L fs (pathOf l n)) n' c ↔ Has fs n' c) ∧
    (∀ e ∈ moveFile L fs (pathOf l n), e.1 = pathOf L n ∨ (e ∈ fs ∧ e.1 ≠ pathOf l n)) := by
  unfold moveFile
  rw [if_neg (pathOf_head l hn), lastPart_pathOf l hn, if_neg (by rw [hn.len]; omega)]
  split
  · rename_i he
    refine ⟨h, fun _ _ => Iff.rfl, ?_⟩
    intro e hm
    by_cases h1 : e.1 = pathOf l n
    · exact Or.inl (by rw [h1, he])
    · exact Or.inr ⟨hm, h1⟩
  · rename_i hne
    unfold Files.rename
    cases hg : fs.get (pathOf l n) with
    | none =>
      refine ⟨h, fun _ _ => Iff.rfl, ?_⟩
      intro e hm
      refine Or.inr ⟨hm, ?_⟩
      intro h1
      have := (get_iff h (pathOf l n) e.2).2 (by rw [← h1]; exact hm)
      rw [hg] at this
      cases this
    | some c =>
      have hc := (get_iff h _ _).1 hg
      have hother : ∀ e ∈ fs, e.1 ≠ pathOf l n → lastPart e.1 ≠ n := by
        intro e he h1 h2
        have := Wf.inj h.once he hc (by rw [h2]; exact (lastPart_pathOf l hn).symm)
        exact h1 (by rw [this])
      have hmem : ∀ e, e ∈ (fs.remove (pathOf l n)).remove (pathOf L n) ↔ e ∈ fs ∧ lastPart e.1 ≠ n := by
        intro e
        rw [mem_remove, mem_remove]
        constructor
        · rintro ⟨⟨h1, h2⟩, _⟩
          exact ⟨h1, hother e h1 h2⟩
        · rintro ⟨h1, h2⟩
          refine ⟨⟨h1, ?_⟩, ?_⟩
          · intro h3; rw [h3, lastPart_pathOf l hn] at h2; exact h2 rfl
          · intro h3; rw [h3, lastPart_pathOf L hn] at h2; exact h2 rfl
      refine ⟨⟨?_, ?_⟩, ?_, ?_⟩
      · refine List.pairwise_cons.2 ⟨?_, List.Pairwise.sublist (List.filter_sublist.trans List.filter_sublist) h.once⟩
        intro e he
        rw [lastPart_pathOf L hn]
        exact fun x => ((hmem e).1 he).2 x.symm
      · intro e he
        rcases List.mem_cons.1 he with h1 | h1
        · exact ⟨L, n, hL, hn, by rw [h1]⟩
        · exact h.paths e ((hmem e).1 h1).1
      · intro n' c'
        constructor
        · rintro ⟨p, hm, hl⟩
          rcases List.mem_cons.1 hm with h1 | h1
          · injection h1 with h1 h2
            rw [h1, lastPart_pathOf L hn] at hl
            exact ⟨_, by rw [h2]; exact hc, by rw [← hl]; exact lastPart_pathOf l hn⟩
          · exact ⟨p, ((hmem _).1 h1).1, hl⟩
        · rintro ⟨p, hm, hl⟩
          by_cases h1 : n' = n
          · have := Wf.inj h.once hm hc (by rw [show lastPart (p, c').1 = n' from hl, h1]; exact (lastPart_pathOf l hn).symm)
            injection this with h2 h3
            exact ⟨pathOf L n, by rw [h3]; exact List.mem_cons_self, by rw [h1]; exact lastPart_pathOf L hn⟩
          · exact ⟨p, List.mem_cons_of_mem _ ((hmem _).2 ⟨hm, by rw [show lastPart (p, c').1 = n' from hl]; exact h1⟩), hl⟩
      · intro e he
        rcases List.mem_cons.1 he with h1 | h1
        · exact Or.inl (by rw [h1])
        · have := (hmem e).1 h1
          refine Or.inr ⟨this.1, ?_⟩
          intro h3
          rw [h3, lastPart_pathOf l hn] at this
          exact this.2 rfl

theorem moves_keep {L : Nat} (hL : L ≤ 4) (ps : List Bytes) : ∀ {fs : Files}, Wf fs → (∀ p ∈ ps, ∃ l n, l ≤ 4 ∧ IsName n ∧ p = pathOf l n) →
    Wf (ps.foldl (moveFile L) fs) ∧ (∀ n c, Has (ps.foldl (moveFile L) fs) n c ↔ Has fs n c) ∧
    (∀ e ∈ ps.foldl (moveFile L) fs, e.1 = pathOf L (lastPart e.1) ∨ (e ∈ fs ∧ e.1 ∉ ps)) := by
  induction ps with
  | nil =>
    intro fs h _
    exact ⟨h, fun _ _ => Iff.rfl, fun e he => Or.inr ⟨he, List.not_mem_nil⟩⟩
  | cons p ps ih =>
    intro fs h hps
    obtain ⟨l, n, _, hn, hp⟩ := hps p List.mem_cons_self
    obtain ⟨h1, h2, h3⟩ := moveFile_keeps (l := l) h hL hn
    rw [← hp] at h1 h2 h3
    obtain ⟨g1, g2, g3⟩ := ih h1 (fun q hq => hps q (List.mem_cons_of_mem _ hq))
    refine ⟨g1, fun n' c => by rw [List.foldl_cons, g2, h2], ?_⟩
    intro e he
    rcases g3 e he with h4 | ⟨h4, h5⟩
    · exact Or.inl h4
    · rcases h3 e h4 with h6 | ⟨h6, h7⟩
      · left
        rw [h6, lastPart_pathOf L hn]
      · exact Or.inr ⟨h6, fun h8 => by
          rcases List.mem_cons.1 h8 with h9 | h9
          · exact h7 h9
          · exact h5 h9⟩

theorem restructure_keeps {L : Nat} (hL : L ≤ 4) {fs : Files} (h : Wf fs) :
    Wf (restructure L fs) ∧ Placed L (restructure L fs) ∧ ∀ n c, Has (restructure L fs) n c ↔ Has fs n c := by
  have hps : ∀ p ∈ fs.map (·.1), ∃ l n, l ≤ 4 ∧ IsName n ∧ p = pathOf l n := by
    intro p hp
    obtain ⟨e, he, rfl⟩ := List.mem_map.1 hp
    exact h.paths e he
  obtain ⟨h1, h2, h3⟩ := moves_keep hL (fs.map (·.1)) h hps
  refine ⟨h1, ?_, h2⟩
  intro e he
  rcases h3 e he with h4 | ⟨h4, h5⟩
  · exact h4
  · exact absurd (List.mem_map.2 ⟨e, h4, rfl⟩) h5

theorem restructureCut_keeps {L : Nat} (hL : L ≤ 4) (k : Nat) {fs : Files} (h : Wf fs) :
    Wf (restructureCut L k fs) ∧ ∀ n c, Has (restructureCut L k fs) n c ↔ Has fs n c := by
  have hps : ∀ p ∈ (fs.map (·.1)).take k, ∃ l n, l ≤ 4 ∧ IsName n ∧ p = pathOf l n := by
    intro p hp
    obtain ⟨e, he, rfl⟩ := List.mem_map.1 (List.mem_of_mem_take hp)
    exact h.paths e he
  obtain ⟨h1, h2, _⟩ := moves_keep hL _ h hps
  exact ⟨h1, h2⟩

theorem attempts_keep (as : List (Nat × Nat)) : ∀ {fs : Files}, Wf fs → (∀ a ∈ as, a.1 ≤ 4) →
    Wf (as.foldl (fun fs a => restructureCut a.1 a.2 fs) fs) ∧ ∀ n c, Has (as.foldl (fun fs a => restructureCut a.1 a.2 fs) fs) n c ↔ Has fs n c := by
  induction as with
  | nil => intro fs h _; exact ⟨h, fun _ _ => Iff.rfl⟩
  | cons a as ih =>
    intro fs h ha
    obtain ⟨h1, h2⟩ := restructureCut_keeps (ha a List.mem_cons_self) a.2 h
    obtain ⟨g1, g2⟩ := ih h1 (fun b hb => ha b (List.mem_cons_of_mem _ hb))
    exact ⟨g1, fun n c => by rw [List.foldl_cons, g2, h2]⟩

/-! ## Contents -/

/-- The bytes of a file with a message. -/
def content (m : MsgMsg) : Bytes := wireOf m.head (msgRest m)

theorem rest_length (m : MsgMsg) : (msgRest m).length = 12 + m.body.length := by
  simp only [msgRest, List.length_append, be64_length, be16_length, List.length_cons, List.length_nil]
  omega

theorem content_size {m : MsgMsg} (h : Valid m) : m.head.size.toNat = 18 + (msgRest m).length := by
  rw [rest_length, h.size]
  omega

theorem content_length {m : MsgMsg} (h : Valid m) : (content m).length = m.head.size.toNat := by
  unfold content
  rw [wireOf_length, content_size h]

theorem toNetwork_content {m : MsgMsg} (h : Valid m) : msgToNetwork m = .ok (content m) := toNetwork_eq' _ _ (content_size h)

theorem setType_low : ∀ tc : UInt8, setType tc 1 &&& 0x0f = 1 := by
  apply all256
  decide +kernel

theorem setType_high : ∀ tc : UInt8, (setType tc 1 &&& (0xf0 : UInt8)) >>> (4 : UInt8) = (tc &&& (0xf0 : UInt8)) >>> (4 : UInt8) := by
  apply all256
  decide +kernel

theorem asMsg_valid {m : MsgMsg} (h : Valid m) : Valid (asMsg m) := by
  refine ⟨h.size, h.topic, h.headType, ?_, ?_, h.utf8⟩
  · have : (asMsg m).type = 1 := setType_low _
    rw [this]
    decide
  · have : (asMsg m).class_ = m.class_ := setType_high _
    rw [this]
    exact h.cls

theorem checkHead_content {m : MsgMsg} (h : Valid m) (ho : Bool) : checkHead ho (content m) = .ok () := by
  have hl := content_length h
  have hlt := m.head.size.toNat_lt
  have hsz := h.size
  unfold checkHead
  rw [if_neg (by rw [hl, hsz]; simp only [headSize]; omega), if_neg (by rw [hl]; omega)]
  cases ho with
  | true => rfl
  | false =>
    have hg := getTargetSize_wire m.head (msgRest m) []
    rw [List.append_nil] at hg
    rw [if_neg (by simp), show getTargetSize (content m) = .ok m.head.size from hg]
    show (if _ then _ else _) = _
    rw [if_neg (by simpa using hl)]

theorem checkBody_content {m : MsgMsg} (h : Valid m) : checkBody (content m) = .ok m := by
  unfold checkBody
  rw [show headToHost (content m) = .ok (m.head, ⟨Crc32.crc32buf (msgRest m)⟩) from headToHost_wire m.head (msgRest m) (content_size h) (by rw [h.headType]; decide)]
  show (if _ then _ else _) = _
  rw [if_neg (by rw [h.headType]; decide), show (content m).drop headSize = msgRest m from wireOf_drop _ _, msgToHost_rest m h.size h.topic h.type h.cls h.utf8]
  show (if _ then _ else _) = _
  rw [if_neg (by have := h.topic; omega)]

theorem readFile_content {m : MsgMsg} (h : Valid m) (ho : Bool) (v : Option Bytes) :
    readFile ho v (some (content m)) = match v with
      | some t => if topicIs m t then .ok m else .soft
      | none => .ok m := by
  show (checkHead ho (content m)).bind (fun _ => (checkBody (content m)).bind _) = _
  rw [checkHead_content h, checkBody_content h]
  rfl

/-- A file which was not written to its end is refused. -/
theorem readFile_cut {m : MsgMsg} (h : Valid m) {k : Nat} (hk : k < (content m).length) (ho : Bool) (v : Option Bytes) : readFile ho v (some ((content m).take k)) = .soft := by
  have hlen : ((content m).take k).length = k := by rw [List.length_take]; omega
  show (checkHead ho ((content m).take k)).bind (fun _ => (checkBody ((content m).take k)).bind _) = _
  by_cases h18 : k < 18
  · have : checkHead ho ((content m).take k) = .soft := by
      unfold checkHead
      rw [if_pos (by rw [hlen]; exact h18)]
    rw [this]
    rfl
  · have hb : checkBody ((content m).take k) = .soft := by
      unfold checkBody
      have : headToHost ((content m).take k) = .soft := by
        have hat : at32 ((content m).take k) 4 = m.head.size := by
          have e : content m = be32 ⟨Crc32.crc32buf (headTail m.head (Crc32.crc32buf (msgRest m)))⟩ ++
              (be32 m.head.size ++ (be16 m.head.type ++ (be32 m.head.value ++ (be32 ⟨Crc32.crc32buf (msgRest m)⟩ ++ msgRest m)))) := by
            simp [content, wireOf, headTail]
          have h2 : at32 (content m) 4 = m.head.size := by
            rw [e]; exact at32_append (be32_length _) _ _
          rw [← h2]
          have e2 : ∀ i, i < 18 → ((content m).take k).getD i 0 = (content m).getD i 0 := by
            intro i hi
            rw [List.getD, List.getD, List.getElem?_take_of_lt (by omega)]
          simp only [at32, e2 4 (by omega), e2 (4 + 1) (by omega), e2 (4 + 2) (by omega), e2 (4 + 3) (by omega)]
        unfold headToHost
        rw [if_neg (by rw [hlen]; simp only [headSize]; omega)]
        show (if headValidate _ _ then _ else _) = _
        rw [if_neg]
        unfold headValidate
        rw [if_pos (by rw [hlen]; show (at32 ((content m).take k) 4).toNat ≠ k; rw [hat, ← content_length h]; omega)]
        simp
      rw [this]
    rw [hb]
    unfold checkHead
    split
    · rfl
    · split
      · rfl
      · split
        · rfl
        · split
          · split <;> rfl
          · rfl

end Verif.Msgdb
