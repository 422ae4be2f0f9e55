import Verif.Http.ChunkProps
/-!
# When the receiver of HTTP messages crashes
-/
namespace Verif.Http
open Verif Verif.HttpUtil Verif.HttpUtil.Spec

theorem LinkTarget.drop {l : Bytes} {n : Nat} (h : LinkTarget (l.drop n)) : LinkTarget l := by
  obtain ⟨a, m, v, h1, h2, h3⟩ := h
  refine ⟨l.take n ++ a, m, v, ?_, h2, h3⟩
  rw [List.append_assoc, List.append_assoc, ← List.append_assoc a, ← h1, List.take_append_drop]

theorem firstPos_cases (a b c : Option Nat) (e : Nat) : firstPos a b c e = firstPos a b none e ∨
    (c = some (firstPos a b c e) ∧ firstPos a b c e < firstPos a b none e) := by
  have h : firstPos a b c e = match c with | some c => if c < firstPos a b none e then c else firstPos a b none e | none => firstPos a b none e := rfl
  cases c with
  | none => exact .inl rfl
  | some c =>
    simp only at h
    by_cases hc : c < firstPos a b none e
    · rw [if_pos hc] at h
      exact .inr ⟨by rw [h], by rw [h]; exact hc⟩
    · rw [if_neg hc] at h
      exact .inl h

theorem firstPos_two (a b : Option Nat) (e : Nat) : firstPos a b none e = e ∨ some (firstPos a b none e) = a ∨ some (firstPos a b none e) = b := by
  unfold firstPos
  cases a <;> cases b <;> simp <;> omega

theorem sepAt_get (on : Bool) (line : Bytes) (c : UInt8) (i : Nat) (h : sepAt on line 0 c = some i) : line[i]? = some c := by
  unfold sepAt at h
  split at h
  · rw [List.drop_zero] at h
    simp only [Option.map_eq_some_iff, Nat.add_zero, exists_eq_right] at h
    unfold strchr at h
    rw [List.findIdx?_eq_some_iff_getElem] at h
    obtain ⟨h1, h2, -⟩ := h
    rw [List.getElem?_eq_getElem h1]
    simpa using h2
  · cases h

theorem subLine_bug (fl : Flags) (line : Bytes) (h : subLine fl line = .bug) : fl.angled = true ∧ 60 ∈ line := by
  unfold subLine at h
  simp only at h
  cases hq : quoteEnd fl line with
  | some q =>
    unfold quoteEnd at hq
    split at hq
    · rename_i hc
      rw [Bool.and_eq_true, beq_iff_eq] at hc
      exact ⟨hc.1, List.mem_of_mem_head? hc.2⟩
    · cases hq
  | none =>
    exfalso
    rw [hq] at h
    simp only [Option.getD_none] at h
    unfold subFrom at h
    split at h
    · cases h
    · split at h
      · cases h
      · split at h
        · cases h
        · rename_i h1 h2 h3
          simp only at h
          split at h
          · cases h
          · split at h
            · rename_i h4 h5
              rcases firstPos_cases (sepAt fl.multiple line 0 44) (sepAt (!fl.noPairs) line 0 59) (sepAt (!fl.noPairs) line 0 61) line.length with he | ⟨he, hlt⟩
              · rw [he] at h2 h3
                rcases firstPos_two (sepAt fl.multiple line 0 44) (sepAt (!fl.noPairs) line 0 59) line.length with h6 | h6 | h6
                · exact h2 h6
                · exact h3 (.inl h6)
                · exact h3 (.inr h6)
              · have hg := sepAt_get _ _ _ _ he
                generalize firstPos (sepAt fl.multiple line 0 44) (sepAt (!fl.noPairs) line 0 59) (sepAt (!fl.noPairs) line 0 61) line.length = k at *
                have hw : countWhsp (line.drop k) = 0 := by
                  have : line.drop k = 61 :: line.drop (k + 1) := by
                    obtain ⟨hk, hv⟩ := List.getElem?_eq_some_iff.1 hg
                    rw [List.drop_eq_getElem_cons hk, hv]
                  rw [this]
                  rfl
                omega
            · cases h

theorem subAt_bug (fl : Flags) (l : Bytes) (s : Nat) (h : subAt fl l s = .bug) : fl.angled = true ∧ 60 ∈ l := by
  unfold subAt at h
  split at h
  · cases h
  · simp only at h
    split at h
    · cases h
    · obtain ⟨h1, h2⟩ := subLine_bug _ _ (R.map_bug.1 h)
      exact ⟨h1, List.mem_of_mem_drop (List.mem_of_mem_take (List.mem_of_mem_drop h2))⟩

theorem subvalue_bug (fl : Flags) (b : Bool) (l : Bytes) (h : subvalue fl b l = .bug) : fl.angled = true ∧ 60 ∈ l := by
  unfold subvalue at h
  split at h
  · exact subAt_bug _ _ _ h
  · split at h
    · cases h
    · exact subAt_bug _ _ _ h

theorem subvalues_bug (fl : Flags) : ∀ (fuel : Nat) (b : Bool) (acc : List Sub) (l : Bytes), subvalues fl fuel b acc l = .bug → fl.angled = true ∧ 60 ∈ l
  | 0, _, _, _, h => by cases h
  | fuel + 1, b, acc, l, h => by
    rw [subvalues] at h
    cases hs : subvalue fl b l with
    | ok x =>
      obtain ⟨v, n⟩ := x
      rw [hs] at h
      simp only [Http.R.bind] at h
      cases hn : nextOf (l.drop n) with
      | missing => rw [hn] at h; cases h
      | comma k => rw [hn] at h; cases h
      | more c =>
        rw [hn] at h
        simp only at h
        split at h
        · cases h
        · obtain ⟨h1, h2⟩ := subvalues_bug fl fuel _ _ _ (R.map_bug.1 h)
          exact ⟨h1, List.mem_of_mem_drop h2⟩
    | bug => exact subvalue_bug _ _ _ hs
    | incomplete => rw [hs] at h; cases h
    | soft => rw [hs] at h; cases h
    | hard => rw [hs] at h; cases h
    | fault => rw [hs] at h; cases h

theorem fieldLoop_bug (name : Bytes) (d : Option Def) : ∀ (fuel : Nat) (b : Bool) (e : Nat) (acc : List Field) (l : Bytes),
    fieldLoop name d fuel b e acc l = .bug → (flagsOf d).angled = true ∧ 60 ∈ l
  | 0, _, _, _, _, h => by cases h
  | fuel + 1, b, e, acc, l, h => by
    rw [fieldLoop] at h
    split at h
    · cases h
    · cases hw : whitespaceCheck b l with
      | ok x =>
        obtain ⟨w, b'⟩ := x
        rw [hw] at h
        simp only [Http.R.bind] at h
        cases hs : subvalues (flagsOf d) (l.length + 1) b' [] (l.drop w) with
        | ok y =>
          obtain ⟨subs, n, more⟩ := y
          rw [hs] at h
          simp only [R.softened, Bool.false_eq_true, if_false] at h
          generalize (if n = 0 then e + 1 else e) = e' at h
          split at h
          · cases h
          · cases ha : applyDef { name := name, definition := d, subs := subs } with
            | none => rw [ha] at h; cases h
            | some f =>
              rw [ha] at h
              cases more with
              | false => cases h
              | true =>
                simp only [if_true] at h
                cases hc : createNext (l.drop (w + n)) with
                | ok k =>
                  rw [hc] at h
                  simp only at h
                  obtain ⟨h1, h2⟩ := fieldLoop_bug name d fuel _ _ _ _ (R.map_bug.1 h)
                  exact ⟨h1, List.mem_of_mem_drop h2⟩
                | bug => exact absurd hc (createNext_ret _).2.2
                | incomplete => rw [hc] at h; cases h
                | soft => rw [hc] at h; cases h
                | hard => rw [hc] at h; cases h
                | fault => rw [hc] at h; cases h
        | bug =>
          obtain ⟨h1, h2⟩ := subvalues_bug _ _ _ _ _ hs
          exact ⟨h1, List.mem_of_mem_drop h2⟩
        | incomplete => rw [hs] at h; simp [R.softened] at h
        | soft => rw [hs] at h; simp [R.softened] at h
        | hard => rw [hs] at h; simp [R.softened] at h
        | fault => rw [hs] at h; simp [R.softened] at h
      | bug => exact absurd hw (whitespaceCheck_ret _ _).2.2.1
      | incomplete => rw [hw] at h; cases h
      | soft => rw [hw] at h; cases h
      | hard => rw [hw] at h; cases h
      | fault => rw [hw] at h; cases h

theorem definitions_angled : ∀ d ∈ definitions, d.flags.angled = true → d.name = str "link" := by decide +kernel

theorem fieldParse_bug (l : Bytes) (h : fieldParse l = .bug) : LinkTarget l := by
  unfold fieldParse at h
  split at h
  · cases h
  · split at h
    · cases h
    · cases h
    · split at h
      · cases h
      · rename_i p hp1 hp colon hcol
        obtain ⟨h1, h2⟩ := fieldLoop_bug _ _ _ _ _ _ _ (R.map_bug.1 h)
        cases hd : definitionGet (l.take colon) with
        | none => rw [hd] at h1; cases h1
        | some d =>
          rw [hd] at h1
          rw [definitionGet_eq] at hd
          have hm := List.mem_of_find?_eq_some hd
          have he := List.find?_some hd
          rw [decide_eq_true_eq] at he
          unfold strchr at hcol
          rw [List.findIdx?_eq_some_iff_getElem] at hcol
          obtain ⟨hc1, hc2, -⟩ := hcol
          rw [List.length_take] at hc1
          have hcl : colon < l.length := by omega
          refine ⟨[], l.take colon, l.drop (colon + 1), ?_, ?_, h2⟩
          · rw [List.getElem_take] at hc2
            rw [List.nil_append]
            have : l.drop colon = 58 :: l.drop (colon + 1) := by
              rw [List.drop_eq_getElem_cons hcl]
              congr 1
              simpa using hc2
            rw [← this, List.take_append_drop]
          · rw [← he]
            exact definitions_angled d hm h1

theorem headerFields_bug : ∀ (fuel : Nat) (acc : List Field) (pos : Nat) (l : Bytes), (headerFields fuel acc pos l).1 = .bug → LinkTarget l
  | 0, _, _, _, h => by cases h
  | fuel + 1, acc, pos, l, h => by
    rw [headerFields] at h
    split at h
    · cases h
    · cases h
    · split at h
      · exact (headerFields_bug fuel _ _ _ h).drop
      · cases h
      · cases h
      · cases h
      · rename_i hf; exact fieldParse_bug l hf
      · cases h

/-! ## Definitions of the stored fields -/

/-- The fields have the definitions of their names. -/
def Defined (fs : List Field) : Prop := ∀ f ∈ fs, f.definition = definitionGet f.name

theorem applyDef_name (f g : Field) (h : applyDef f = some g) : g.name = f.name ∧ g.definition = f.definition := by
  have single : ∀ (fl : Flags) (f g : Field), parseSingle fl f = some g → g.name = f.name ∧ g.definition = f.definition := by
    intro fl f g h
    unfold parseSingle at h
    split at h
    · cases h
    · split at h
      · cases h
      · cases h; exact ⟨rfl, rfl⟩
  have first : ∀ (fl : Flags) (f g : Field), parseFirst fl f = some g → g.name = f.name ∧ g.definition = f.definition := by
    intro fl f g h
    unfold parseFirst at h
    split at h
    · cases h
    · split at h
      · cases h
      · simp only at h
        split at h
        · cases h
        · cases h; exact ⟨rfl, rfl⟩
  unfold applyDef at h
  split at h
  · cases h; exact ⟨rfl, rfl⟩
  · split at h
    · cases h; exact ⟨rfl, rfl⟩
    · exact single _ _ _ h
    · unfold parseUnsigned at h
      split at h
      · cases h
      · split at h
        · cases h
        · split at h
          · cases h
          · cases h; exact ⟨rfl, rfl⟩
    · unfold parseBase64 at h
      split at h
      · cases h
      · rename_i f' hf'
        have := single _ _ _ hf'
        split at h
        · cases h
        · cases h; exact this
    · exact first _ _ _ h
    · unfold parseContentType at h
      split at h
      · cases h
      · rename_i f' hf'
        have := first _ _ _ hf'
        obtain ⟨s, -, rfl⟩ := Option.map_eq_some_iff.1 h
        exact this
    · unfold parseContentDisposition at h
      split at h
      · cases h
      · rename_i f' hf'
        have := first _ _ _ hf'
        split at h
        · cases h; exact this
        · split at h
          · obtain ⟨s, -, rfl⟩ := Option.map_eq_some_iff.1 h
            exact this
          · cases h; exact this
    · unfold parseAltSvc at h
      obtain ⟨s, -, rfl⟩ := Option.map_eq_some_iff.1 h
      exact ⟨rfl, rfl⟩

theorem fieldLoop_names (name : Bytes) (d : Option Def) : ∀ (fuel : Nat) (b : Bool) (e : Nat) (acc : List Field) (l : Bytes) (fs : List Field) (n : Nat),
    fieldLoop name d fuel b e acc l = .ok (fs, n) → (∀ f ∈ acc, f.name = name ∧ f.definition = d) → ∀ f ∈ fs, f.name = name ∧ f.definition = d
  | 0, _, _, _, _, _, _, h, _ => by cases h
  | fuel + 1, b, e, acc, l, fs, n, h, hacc => by
    rw [fieldLoop] at h
    split at h
    · cases h
    · cases hw : whitespaceCheck b l with
      | ok x =>
        obtain ⟨w, b'⟩ := x
        rw [hw] at h
        simp only [Http.R.bind] at h
        cases hs : subvalues (flagsOf d) (l.length + 1) b' [] (l.drop w) with
        | ok y =>
          obtain ⟨subs, k, more⟩ := y
          rw [hs] at h
          simp only [R.softened, Bool.false_eq_true, if_false] at h
          generalize (if k = 0 then e + 1 else e) = e' at h
          split at h
          · cases h
          · cases ha : applyDef { name := name, definition := d, subs := subs } with
            | none => rw [ha] at h; cases h
            | some f =>
              rw [ha] at h
              have hacc' : ∀ g ∈ acc ++ [f], g.name = name ∧ g.definition = d := by
                intro g hg
                rcases List.mem_append.1 hg with hg | hg
                · exact hacc g hg
                · rw [List.mem_singleton.1 hg]; exact applyDef_name _ _ ha
              cases more with
              | false =>
                simp only [Bool.false_eq_true, if_false, R.ok.injEq, Prod.mk.injEq] at h
                rw [← h.1]; exact hacc'
              | true =>
                simp only [if_true] at h
                cases hc : createNext (l.drop (w + k)) with
                | ok j =>
                  rw [hc] at h
                  simp only at h
                  obtain ⟨⟨fs', m⟩, h1, h2⟩ := R.map_ok.1 h
                  simp only [Prod.mk.injEq] at h2
                  rw [← h2.1]
                  exact fieldLoop_names name d fuel _ _ _ _ _ _ h1 hacc'
                | bug => rw [hc] at h; cases h
                | incomplete => rw [hc] at h; cases h
                | soft => rw [hc] at h; cases h
                | hard => rw [hc] at h; cases h
                | fault => rw [hc] at h; cases h
        | bug => rw [hs] at h; simp [R.softened] at h
        | incomplete => rw [hs] at h; simp [R.softened] at h
        | soft => rw [hs] at h; simp [R.softened] at h
        | hard => rw [hs] at h; simp [R.softened] at h
        | fault => rw [hs] at h; simp [R.softened] at h
      | bug => rw [hw] at h; cases h
      | incomplete => rw [hw] at h; cases h
      | soft => rw [hw] at h; cases h
      | hard => rw [hw] at h; cases h
      | fault => rw [hw] at h; cases h

theorem definitionGet_lower (name : Bytes) : definitionGet (name.map toLower) = definitionGet name := by
  rw [definitionGet_eq, definitionGet_eq]
  have : lower (name.map toLower) = lower name := by
    unfold lower
    rw [List.map_map]
    apply List.map_congr_left
    intro c _
    exact toLower_toLower c
  rw [this]

theorem fieldParse_defined (l : Bytes) (fs : List Field) (n : Nat) (h : fieldParse l = .ok (fs, n)) : Defined fs := by
  unfold fieldParse at h
  split at h
  · cases h
  · split at h
    · cases h
    · cases h
    · split at h
      · cases h
      · rename_i p hp1 hp colon hcol
        obtain ⟨⟨fs', k⟩, h1, h2⟩ := R.map_ok.1 h
        simp only [Prod.mk.injEq] at h2
        have hn := fieldLoop_names _ _ _ _ _ _ _ _ _ h1 (fun f hf => by cases hf)
        have hd : Defined fs' := by
          intro f hf
          obtain ⟨e1, e2⟩ := hn f hf
          rw [e1, e2, definitionGet_lower]
        rw [← h2.1]
        cases fs' with
        | nil => exact fun f hf => by cases hf
        | cons g r =>
          intro f hf
          rcases List.mem_cons.1 hf with rfl | hf
          · exact hd g (by simp)
          · exact hd f (by simp [hf])

theorem headerFields_defined : ∀ (fuel : Nat) (acc : List Field) (pos : Nat) (l : Bytes), Defined acc → Defined (headerFields fuel acc pos l).2.1
  | 0, acc, _, _, h => by simpa [headerFields] using h
  | fuel + 1, acc, pos, l, h => by
    rw [headerFields]
    split
    · exact h
    · exact h
    · split
      · rename_i fs n hf
        refine headerFields_defined fuel _ _ _ ?_
        intro f hf'
        rcases List.mem_append.1 hf' with hf' | hf'
        · exact h f hf'
        · exact fieldParse_defined _ _ _ hf f hf'
      · exact h
      · exact h
      · exact h
      · exact h
      · exact h

theorem headerGet_defined (hs : List Field) (h : Defined hs) (n : String) (d : Def) (hd : definitionGet (str n) = some d)
    (hp : d.parser ≠ .none) : ∃ x, headerGet hs (str n) = some x := by
  unfold headerGet
  cases hf : hs.find? fun f => eqCase f.name (str n) with
  | none => exact ⟨_, rfl⟩
  | some f =>
    have hm := List.mem_of_find?_eq_some hf
    have he := List.find?_some hf
    unfold eqCase at he
    rw [beq_iff_eq] at he
    have : f.definition = some d := by
      rw [h f hm, ← definitionGet_lower, he, definitionGet_lower, hd]
    simp only [this, if_neg hp]
    exact ⟨_, rfl⟩

/-! ## The loop -/

theorem responseLine_nobug (l : Bytes) : responseLine l ≠ .bug := by
  intro h
  unfold responseLine at h
  split at h
  · cases h
  · cases h
  · rename_i p hp0 hc
    split at h
    · cases h
    · split at h
      · cases h
      · rename_i v n hv
        simp only at h
        split at h
        · cases h
        · rename_i code k hs
          split at h
          · cases h
          · split at h
            · rename_i hgt
              have hcl := findCrlf_len _ _ hc
              have h1 := versionAt_len _ _ _ hv
              rw [List.length_take] at h1
              have h2 := strtoullRaw_len _ _ _ _ hs
              rw [List.length_drop, List.length_take] at h2
              have h3 := countWhsp_crlf _ _ (findCrlf_drop l p (n + countWhsp (l.drop n) + k) hc (by omega))
              omega
            · cases h

theorem firstLine_nocrash (kind : Kind) (p : Part) (l : Bytes) : parseFirstLine kind p l ≠ .bug ∧ parseFirstLine kind p l ≠ .fault := by
  unfold parseFirstLine
  cases kind with
  | request =>
    obtain ⟨h1, -, h3⟩ := requestLine_ret l
    exact ⟨fun h => h3 (R.map_bug.1 h), fun h => h1 (R.map_fault.1 h)⟩
  | response => exact ⟨fun h => responseLine_nobug l (R.map_bug.1 h), fun h => (responseLine_ret l).1 (R.map_fault.1 h)⟩

theorem firstLine_keep (kind : Kind) (p p' : Part) (l : Bytes) (n : Nat) (h : parseFirstLine kind p l = .ok (p', n)) :
    p'.headers = p.headers ∧ p'.chunks = p.chunks ∧ p'.chunked = p.chunked := by
  unfold parseFirstLine at h
  cases kind with
  | request =>
    obtain ⟨⟨m, u, v, k⟩, -, h2⟩ := R.map_ok.1 h
    simp only [Prod.mk.injEq] at h2
    rw [← h2.1]
    exact ⟨rfl, rfl, rfl⟩
  | response =>
    obtain ⟨⟨v, c, k⟩, -, h2⟩ := R.map_ok.1 h
    simp only [Prod.mk.injEq] at h2
    rw [← h2.1]
    exact ⟨rfl, rfl, rfl⟩

/-- A chunk has been read from the data. -/
def Read (buf : Bytes) (c : Chunk) : Prop :=
  c.start ≤ buf.length ∧ ∃ a s b, buf = a ++ s ++ 13 :: 10 :: b ∧ strtoullRaw 16 s = some (c.length, s.length)

theorem chunkHeader_read (buf : Bytes) (pos : Nat) (c : Chunk) (n : Nat) (h : chunkHeader buf pos = .ok (c, n)) : Read buf c := by
  obtain ⟨-, h2, h3⟩ := chunkHeader_len _ _ _ _ h
  refine ⟨by omega, ?_⟩
  unfold chunkHeader at h
  by_cases hpos : pos ≥ buf.length
  · rw [if_pos hpos] at h; cases h
  rw [if_neg hpos] at h
  simp only at h
  generalize (if findCrlf (buf.drop pos) = some 0 then 2 else 0) = k at *
  rw [List.drop_drop] at h
  cases he : findCrlf (buf.drop (pos + k)) with
  | none => simp [he] at h
  | some e =>
    simp only [he] at h
    cases hs : strtoullRaw 16 ((buf.drop (pos + k)).take e) with
    | none => simp [hs] at h
    | some x =>
      obtain ⟨v, j⟩ := x
      simp only [hs] at h
      have hcl := findCrlf_len _ _ he
      obtain ⟨r, hr⟩ := findCrlf_at _ _ he
      split at h
      · cases h
      · split at h
        · cases h
        · rename_i hej
          split at h
          · cases h
          · simp only [R.ok.injEq, Prod.mk.injEq] at h
            obtain ⟨rfl, rfl⟩ := h
            refine ⟨buf.take (pos + k), (buf.drop (pos + k)).take e, r, ?_, ?_⟩
            · rw [List.append_assoc, ← hr, List.take_append_drop, List.take_append_drop]
            · rw [hs, List.length_take]
              congr 2
              omega

/-- What holds of the part all the time. -/
structure Kept (kind : Kind) (buf : Bytes) (p : Part) : Prop where
  headers : Defined p.headers
  chunks : ∀ c ∈ p.chunks, Read buf c
  method : kind = .request → p.chunked = true → p.method.isSome

/-- What holds of a result. -/
structure Fine (kind : Kind) (base : Nat) (buf : Bytes) (r : Res) : Prop where
  crash : r.ret = .bug ∨ r.ret = .fault → LinkTarget buf ∨ HugeLength base buf
  kept : r.ret = .incomplete → Kept kind buf r.part
  ok : r.ret = .ok → Defined r.part.headers ∧ (kind = .request → r.part.method.isSome)

theorem parseChunk_fine (base : Nat) (chunks : List Chunk) (buf : Bytes) (pos : Nat) (h : ∀ c ∈ chunks, Read buf c) :
    ((parseChunk base chunks buf pos).1 = .fault → HugeLength base buf) ∧ (parseChunk base chunks buf pos).1 ≠ .bug ∧
    (∀ c ∈ (parseChunk base chunks buf pos).2.1, Read buf c) ∧
    ((parseChunk base chunks buf pos).1 = .ok → ∃ c, (parseChunk base chunks buf pos).2.1.getLast? = some c ∧ c.length = 0) := by
  have hgo : ∀ prev, (chunkGo chunks buf pos prev).1 ≠ .fault ∧ (chunkGo chunks buf pos prev).1 ≠ .bug ∧ (∀ c ∈ (chunkGo chunks buf pos prev).2.1, Read buf c) ∧
      ((chunkGo chunks buf pos prev).1 = .ok → ∃ c, (chunkGo chunks buf pos prev).2.1.getLast? = some c ∧ c.length = 0) := by
    intro prev
    unfold chunkGo
    obtain ⟨h1, h2, h3⟩ := chunkHeader_ret buf (pos + prev)
    cases hc : chunkHeader buf (pos + prev) with
    | ok x =>
      obtain ⟨c, n⟩ := x
      have hr := chunkHeader_read _ _ _ _ hc
      simp only
      have hm : ∀ d ∈ chunks ++ [c], Read buf d := by
        intro d hd
        rcases List.mem_append.1 hd with hd | hd
        · exact h d hd
        · rw [List.mem_singleton.1 hd]; exact hr
      by_cases h0 : c.length = 0
      · rw [if_pos h0]
        exact ⟨by simp, by simp, hm, fun _ => ⟨c, by simp, h0⟩⟩
      · rw [if_neg h0]
        exact ⟨by simp, by simp, hm, fun h => by cases h⟩
    | incomplete => exact ⟨by simp, by simp, h, fun h => by cases h⟩
    | soft => exact ⟨by simp, by simp, h, fun h => by cases h⟩
    | hard => exact ⟨by simp, by simp, h, fun h => by cases h⟩
    | bug => exact absurd hc h2
    | fault => exact absurd hc h1
  rw [parseChunk_eq]
  cases hg : chunks.getLast? with
  | none =>
    obtain ⟨g1, g2, g3, g4⟩ := hgo 0
    exact ⟨fun h => absurd h g1, g2, g3, g4⟩
  | some c =>
    simp only
    by_cases hb : base + c.start + c.length ≥ 2 ^ 64
    · rw [if_pos hb]
      refine ⟨fun _ => ?_, by simp, h, fun h => by cases h⟩
      obtain ⟨hs, a, s, b, e1, e2⟩ := h c (List.mem_of_getLast? hg)
      exact ⟨a, s, b, c.length, e1, e2, by omega⟩
    · rw [if_neg hb]
      split
      · exact ⟨by simp, by simp, h, fun h => by cases h⟩
      · obtain ⟨g1, g2, g3, g4⟩ := hgo c.length
        exact ⟨fun h => absurd h g1, g2, g3, g4⟩

theorem parseChunked_fine (kind : Kind) (base : Nat) (p : Part) (buf : Bytes) (pos n : Nat) (h1 : Defined p.headers) (h2 : ∀ c ∈ p.chunks, Read buf c)
    (h3 : kind = .request → p.method.isSome) : Fine kind base buf (parseChunked base p buf pos n) := by
  unfold parseChunked
  simp only
  obtain ⟨g1, g2, g3, g4⟩ := parseChunk_fine base p.chunks buf (pos + n) h2
  rcases hx : parseChunk base p.chunks buf (pos + n) with ⟨r, cs, k⟩
  rw [hx] at g1 g2 g3 g4
  cases r with
  | ok =>
    obtain ⟨c, e1, e2⟩ := g4 rfl
    simp only at e1
    simp only [e1]
    rw [if_neg (by simp [e2])]
    exact ⟨fun h => (by rcases h with h | h <;> cases h), fun h => (by cases h), fun _ => ⟨h1, h3⟩⟩
  | incomplete => exact ⟨fun h => (by rcases h with h | h <;> cases h), fun _ => ⟨h1, g3, fun hk _ => h3 hk⟩, fun h => by cases h⟩
  | soft => exact ⟨fun h => (by rcases h with h | h <;> cases h), fun h => (by cases h), fun h => by cases h⟩
  | hard => exact ⟨fun h => (by rcases h with h | h <;> cases h), fun h => (by cases h), fun h => by cases h⟩
  | bug => exact absurd rfl g2
  | fault => exact ⟨fun _ => .inr (g1 rfl), fun h => (by cases h), fun h => by cases h⟩

theorem names_defined (hs : List Field) (h : Defined hs) : (∃ x, headerGet hs (str "content-type") = some x) ∧
    (∃ x, headerGet hs (str "connection") = some x) ∧ (∃ x, headerGet hs (str "content-length") = some x) ∧
    (∃ x, headerGet hs (str "transfer-encoding") = some x) := by
  refine ⟨headerGet_defined hs h "content-type" ⟨str "content-type", { trim := true }, .contentType⟩ (by decide +kernel) (by decide),
    headerGet_defined hs h "connection" ⟨str "connection", { multiple := true }, .single⟩ (by decide +kernel) (by decide),
    headerGet_defined hs h "content-length" ⟨str "content-length", { noPairs := true, trim := true }, .unsigned⟩ (by decide +kernel) (by decide),
    headerGet_defined hs h "transfer-encoding" ⟨str "transfer-encoding", { noPairs := true }, .single⟩ (by decide +kernel) (by decide)⟩

theorem afterHeader_fine (kind : Kind) (base : Nat) (p : Part) (buf : Bytes) (pos n : Nat) (h1 : Defined p.headers) (h2 : ∀ c ∈ p.chunks, Read buf c)
    (hch : p.chunked = false) : Fine kind base buf (afterHeader kind base p buf pos n) := by
  obtain ⟨⟨a, ha⟩, ⟨b, hb⟩, ⟨c, hc⟩, ⟨d, hd⟩⟩ := names_defined _ h1
  unfold afterHeader
  rw [ha, hb, hc, hd]
  clear ha hb hc hd
  simp only
  have hq : ∀ q : Part, q.headers = p.headers → q.chunks = p.chunks → q.chunked = false → (kind = .request → q.method.isSome) →
      Fine kind base buf
        (match c with
        | some f => { ret := .ok, part := { { q with connection := some (connectionOf b q.version) } with dataLength := f.unsigned },
                      target := (Part.top { q with connection := some (connectionOf b q.version) } + f.unsigned) % 2 ^ 64, parsed := n }
        | none =>
          if isChunked d = true then parseChunked base { q with connection := some (connectionOf b q.version) } buf pos n
          else if kind = .request ∨ q.code = 204 ∨ q.code = 101 then
            { ret := .ok, part := { { q with connection := some (connectionOf b q.version) } with dataLength := 0 },
              target := Part.top { q with connection := some (connectionOf b q.version) }, parsed := n }
          else { ret := .incomplete, part := { { q with connection := some (connectionOf b q.version) } with unknownLength := true }, parsed := n }) := by
    intro q e1 e2 e3 e4
    have hd' : Defined q.headers := by rw [e1]; exact h1
    cases c with
    | some f => exact ⟨fun h => (by rcases h with h | h <;> cases h), fun h => (by cases h), fun _ => ⟨hd', e4⟩⟩
    | none =>
      simp only
      split
      · exact parseChunked_fine kind base _ buf pos n hd' (by simp only; rw [e2]; exact h2) e4
      · split
        · exact ⟨fun h => (by rcases h with h | h <;> cases h), fun h => (by cases h), fun _ => ⟨hd', e4⟩⟩
        · exact ⟨fun h => (by rcases h with h | h <;> cases h), fun _ => ⟨hd', by simp only; rw [e2]; exact h2, fun _ hc => by simp only at hc; rw [e3] at hc; cases hc⟩,
            fun h => by cases h⟩
  cases kind with
  | response => exact hq p rfl rfl hch (fun h => by cases h)
  | request =>
    simp only
    cases hm : methodOf p.methodStr with
    | none => exact ⟨fun h => (by rcases h with h | h <;> cases h), fun h => (by cases h), fun h => by cases h⟩
    | some m => exact hq { p with method := some m, format := formatOf a } rfl rfl hch (fun _ => rfl)

theorem parseHeader_fine (lim : Limits) (kind : Kind) (base : Nat) (p : Part) (buf : Bytes) (pos n : Nat) (h1 : Defined p.headers)
    (h2 : ∀ c ∈ p.chunks, Read buf c) (hch : p.chunked = false) : Fine kind base buf (parseHeader lim kind base p buf pos n) := by
  unfold parseHeader
  have hk : Kept kind buf p := ⟨h1, h2, fun _ h => by rw [hch] at h; cases h⟩
  split
  · exact ⟨fun h => (by rcases h with h | h <;> cases h), fun _ => hk, fun h => by cases h⟩
  · split
    · exact ⟨fun h => (by rcases h with h | h <;> cases h), fun h => (by cases h), fun h => by cases h⟩
    · have hd := headerFields_defined (buf.length + 1) p.headers 0 (buf.drop (pos + n)) h1
      have hb := headerFields_bug (buf.length + 1) p.headers 0 (buf.drop (pos + n))
      have hf := (headerFields_nofault (buf.length + 1) p.headers 0 (buf.drop (pos + n)) (by rw [List.length_drop]; omega)).1
      generalize headerFields (buf.length + 1) p.headers 0 (buf.drop (pos + n)) = x at *
      obtain ⟨r, hs, k⟩ := x
      simp only at hd hb hf ⊢
      split
      · exact afterHeader_fine kind base _ buf pos _ hd h2 hch
      · rename_i hr
        refine ⟨fun h => ?_, fun _ => ⟨hd, h2, fun _ h => by simp only at h; rw [hch] at h; cases h⟩, fun h => absurd h hr⟩
        rcases h with h | h
        · exact .inl (hb h).drop
        · exact absurd h hf

theorem parse_fine (lim : Limits) (kind : Kind) (base : Nat) (p : Part) (buf : Bytes) (pos : Nat) (h : Kept kind buf p) :
    Fine kind base buf (parse lim kind base p buf pos) := by
  unfold parse
  by_cases hch : p.chunked = true
  · rw [if_pos hch]
    exact parseChunked_fine kind base p buf pos 0 h.headers h.chunks (fun hk => h.method hk hch)
  · rw [if_neg hch]
    have hch' : p.chunked = false := by simpa using hch
    split
    · obtain ⟨g1, g2⟩ := firstLine_nocrash kind p (buf.drop pos)
      cases hf : parseFirstLine kind p (buf.drop pos) with
      | ok x =>
        obtain ⟨p', n⟩ := x
        obtain ⟨e1, e2, e3⟩ := firstLine_keep _ _ _ _ _ hf
        exact parseHeader_fine lim kind base _ buf pos n (by simp only; rw [e1]; exact h.headers) (by simp only; rw [e2]; exact h.chunks) (by simp only; rw [e3, hch'])
      | incomplete =>
        refine ⟨fun h => ?_, fun _ => h, fun h => ?_⟩
        · simp only at h
          split at h <;> (rcases h with h | h <;> cases h)
        · simp only at h
          split at h <;> cases h
      | soft => exact ⟨fun h => (by rcases h with h | h <;> cases h), fun h => (by cases h), fun h => by cases h⟩
      | hard => exact ⟨fun h => (by rcases h with h | h <;> cases h), fun h => (by cases h), fun h => by cases h⟩
      | bug => exact absurd hf g1
      | fault => exact absurd hf g2
    · exact parseHeader_fine lim kind base p buf pos 0 h.headers h.chunks hch'

theorem run_fine (lim : Limits) (kind : Kind) (base : Nat) (buf : Bytes) : ∀ (n : Nat) (p : Part) (pos : Nat), Good p → pos ≤ buf.length →
    Kept kind buf p → buf.length - pos ≤ n →
    ((run lim kind base buf p pos).1 = .bug ∨ (run lim kind base buf p pos).1 = .fault → LinkTarget buf ∨ HugeLength base buf) ∧
    ((run lim kind base buf p pos).1 = .ok → Defined (run lim kind base buf p pos).2.1.headers ∧
      (kind = .request → (run lim kind base buf p pos).2.1.method.isSome)) := by
  intro n
  induction n using Nat.strongRecOn with
  | _ n ih =>
  intro p pos hg hp hk hn
  obtain ⟨a1, a2, a3⟩ := parse_len lim kind base p buf pos hp hg
  have hf := parse_fine lim kind base p buf pos hk
  rw [run_eq lim kind base buf p pos hg hp]
  by_cases hc : (parse lim kind base p buf pos).parsed ≠ 0 ∧ (parse lim kind base p buf pos).ret = .incomplete
  · rw [if_pos hc]
    exact ih (buf.length - (pos + (parse lim kind base p buf pos).parsed)) (by omega) _ _ a3 a1 (hf.kept hc.2) (Nat.le_refl _)
  · rw [if_neg hc]
    exact ⟨hf.crash, hf.ok⟩

/-- **C90** (partial). Whatever is received, and however it arrives, the receiver of HTTP messages crashes only if there is a target in angle brackets in a
link field or an enormous chunk length. -/
theorem http_crash_partial (lim : Limits) (kind : Kind) (base : Nat) (pieces : List Bytes) (hmax : pieces.flatten.length ≤ lengthMax)
    (h : receive lim kind base {} 0 [] pieces = .crash) : LinkTarget pieces.flatten ∨ HugeLength base pieces.flatten := by
  rcases http_pieces lim kind base pieces hmax with he | he
  · rw [he, targetSize_start] at h
    obtain ⟨h1, h2⟩ := run_fine (unlimited pieces.flatten) kind base pieces.flatten _ {} 0 good_empty (Nat.zero_le _)
      ⟨fun f hf => (by cases hf), fun c hc => (by cases hc), fun _ hc => (by cases hc)⟩ (Nat.le_refl _)
    rcases hr : run (unlimited pieces.flatten) kind base pieces.flatten {} 0 with ⟨r, p, t, k⟩
    rw [hr] at h h1 h2
    cases r with
    | bug => exact h1 (.inl rfl)
    | fault => exact h1 (.inr rfl)
    | ok =>
      exfalso
      obtain ⟨d1, d2⟩ := h2 rfl
      cases kind with
      | response => cases h
      | request =>
        obtain ⟨⟨a, ha⟩, -, ⟨c, hc⟩, ⟨d, hd⟩⟩ := names_defined _ d1
        simp only at d1 d2 ha hc hd
        obtain ⟨m, hm⟩ := Option.isSome_iff_exists.1 (d2 trivial)
        simp only [sizeOf] at h
        have : ∃ x, validate p = some x := by
          unfold validate
          rw [ha, hc, hd, hm]
          simp only
          split <;> exact ⟨_, rfl⟩
        obtain ⟨x, hx⟩ := this
        rw [hx] at h
        cases x <;> cases h
    | incomplete =>
      exfalso
      simp only [sizeOf] at h
      split at h <;> cases h
    | soft => cases h
    | hard => cases h
  · rw [he] at h; cases h

end Verif.Http
