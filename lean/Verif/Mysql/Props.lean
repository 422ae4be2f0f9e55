import Verif.Mysql.Spec

/-!
# Properties of the saving of messages
-/

namespace Verif.Mysql
open Verif

theorem commas_cons (x : Bytes) (r : List Bytes) : commas (x :: r) = x ++ r.flatMap fun y => str "," ++ y := by
  induction r generalizing x with
  | nil => simp [commas]
  | cons y r ih => rw [commas, ih]; · simp [List.append_assoc]
                   · simp

theorem listColumns_false (l : List Bytes) : listColumns false l = (l.map fun n => str "`" ++ n ++ str "`").flatMap fun y => str "," ++ y := by
  have h1 : str "`" = [96] := by decide +kernel
  have h2 : str "," = [44] := by decide +kernel
  induction l with
  | nil => rfl
  | cons n r ih => rw [listColumns, ih]; simp [h1, h2]

theorem listSpecial_eq (l : List (Bytes × Bytes)) : listSpecial l = ((l.map (·.1)).map fun n => str "`" ++ n ++ str "`").flatMap fun y => str "," ++ y := by
  have h1 : str "`" = [96] := by decide +kernel
  have h2 : str "," = [44] := by decide +kernel
  induction l with
  | nil => rfl
  | cons n r ih => obtain ⟨n, v⟩ := n; rw [listSpecial, ih]; simp [h1, h2]

theorem places_succ (i : Nat) (l : List Bytes) : places (i + 1) l.length = (l.map fun _ => str "?").flatMap fun y => str "," ++ y := by
  have h1 : str "?" = [63] := by decide +kernel
  have h2 : str "," = [44] := by decide +kernel
  induction l generalizing i with
  | nil => rfl
  | cons n r ih => rw [List.length_cons, places, ih]; simp [h1, h2]

theorem source_eq (c : Config) : source c = if c.tags = [] then c.columns else c.tags.map fun e => if e.2 = [] then e.1 else e.2 := by
  unfold source
  cases h : c.tags with
  | nil => simp
  | cons e r => simp

theorem config_cases (c : Config) (h : configOk c = true) : (c.columns ≠ [] ∧ c.tags = []) ∨ (c.columns = [] ∧ c.tags ≠ []) := by
  unfold configOk at h
  cases hc : c.columns <;> cases ht : c.tags <;> simp_all

/-- The statement is the expected one, with one place for each column, whatever columns are configured. -/
theorem statement_exact (c : Config) (h : configOk c = true) : createSql c = (statement c, (names c).length) := by
  have hs : source c ≠ [] := by
    rw [source_eq]
    rcases config_cases c h with ⟨h1, h2⟩ | ⟨h1, h2⟩
    · simp [h1, h2]
    · simp [h2]
  have hn : names c = source c ++ c.special.map (·.1) ++ (if c.timestamp then [str "timestamp"] else []) := by rw [source_eq]; rfl
  cases he : source c with
  | nil => exact absurd he hs
  | cons x r =>
    rw [he] at hn
    have hl : (names c).length = r.length + 1 + c.special.length + (if c.timestamp then 1 else 0) := by
      rw [hn]; cases c.timestamp <;> simp <;> omega
    have hp : places 0 (names c).length = commas ((names c).map fun _ => str "?") := by
      rw [hn]
      simp only [List.cons_append, List.map_cons, List.length_cons, commas_cons, places, places_succ]
      congr 1
      decide +kernel
    have hcol : listColumns true (x :: r) ++ listSpecial c.special ++ (if c.timestamp then str ",`timestamp`" else []) = commas ((names c).map fun n => str "`" ++ n ++ str "`") := by
      have h1 : str "`" = [96] := by decide +kernel
      rw [hn]
      simp only [List.cons_append, List.map_cons, commas_cons, listColumns, listColumns_false, listSpecial_eq, List.map_append, List.flatMap_append]
      cases c.timestamp with
      | false => simp [h1]
      | true =>
        have h2 : str ",`timestamp`" = str "," ++ (str "`" ++ str "timestamp" ++ str "`") := by decide +kernel
        simp [h1, h2]
    unfold createSql statement
    rw [he]
    simp only [List.length_cons]
    have hcount : (if c.timestamp = true then r.length + 1 + c.special.length + 1 else r.length + 1 + c.special.length) = (names c).length := by
      rw [hl]; cases c.timestamp <;> simp
    rw [hcount, hp, ← hcol]
    cases c.timestamp <;> simp [List.append_assoc]

/-- Two columns from tags, a fixed text and the time. -/
def tagged : Config := ⟨str "t", [], [(str "a", str "x"), (str "b", [])], [(str "host", str "h1")], [], true, false, false⟩

/-- Two columns in order, without separators. -/
def ordered : Config := ⟨str "t", [str "x", str "y"], [], [], [str "y"], false, true, false⟩

example : configOk tagged = true ∧ (createSql tagged).1 = str "REPLACE INTO `t` (`x`,`b`,`host`,`timestamp`) VALUES (?,?,?,?)" := by decide +kernel
example : configOk ordered = true ∧ (createSql ordered).1 = str "REPLACE INTO `t` (`x`,`y`) VALUES (?,?)" := by decide +kernel

theorem bindValue_some (c : Config) (v : Types.Value) (col : Bytes) (b : Bind) (h : bindValue c v col = some b) : Stored c col v b := by
  unfold bindValue at h
  split at h
  · rename_i hc
    cases h
    refine .bytes ?_
    rcases hc with hc | hc | hc
    · exact .inl hc
    · refine .inr (.inl ?_); cases ht : v.ty <;> simp_all [isBlob]
    · exact .inr (.inr (by simpa using hc))
  · rename_i hc
    split at h
    · rename_i h6
      cases h
      have he : (!Types.isSigned v.flags) = decide (v.flags &&& 1 ≠ 1) := by unfold Types.isSigned; rw [Bool.eq_iff_iff]; simp
      rw [he]
      refine .int (fun e => hc (.inl e)) ?_ (fun e => hc (.inr (.inr (by simpa using e))))
      cases ht : v.ty <;> simp_all [is64]
    · cases h

theorem bindValue_isSome (c : Config) (v : Types.Value) (col : Bytes) : (bindValue c v col).isSome = true ↔ Storable c col v := by
  unfold bindValue Storable
  by_cases h1 : v.elements > 1
  · simp [h1]
  by_cases h2 : col ∈ c.blob
  · simp [h2]
  cases ht : v.ty <;> simp [h1, h2, isBlob, is64]

theorem bindTags_some (c : Config) (vs : List Types.Value) (ts : List (Bytes × Bytes)) (b : List Bind) (h : bindTags c vs ts = some b) :
    b.length = ts.length ∧ ∀ e ∈ ts.zip b, ∃ v, Types.getByTag vs e.1.1 = some v ∧ Stored c e.1.2 v e.2 := by
  induction ts generalizing b with
  | nil => cases h; simp
  | cons t r ih =>
    obtain ⟨t, col⟩ := t
    unfold bindTags at h
    split at h
    · cases h
    · rename_i v hv
      split at h
      · cases h
      · rename_i x hx
        obtain ⟨b', h1, rfl⟩ := Option.map_eq_some_iff.1 h
        obtain ⟨i1, i2⟩ := ih b' h1
        refine ⟨by simp [i1], ?_⟩
        intro e he
        simp only [List.zip_cons_cons, List.mem_cons] at he
        rcases he with rfl | he
        · exact ⟨v, hv, bindValue_some c v col x hx⟩
        · exact i2 e he

theorem bindColumns_some (c : Config) (cols : List Bytes) (vs : List Types.Value) (b : List Bind) (h : bindColumns c cols vs = some b) :
    b.length = min cols.length (usable c vs).length ∧ ∀ e ∈ cols.zip ((usable c vs).zip b), Stored c e.1 e.2.1 e.2.2 := by
  induction vs generalizing cols b with
  | nil => unfold bindColumns at h; cases h; simp [usable]
  | cons v r ih =>
    unfold bindColumns at h
    split at h
    · rename_i hs
      have : usable c (v :: r) = usable c r := by simp [usable, hs]
      rw [this]; exact ih cols b h
    · rename_i hs
      have : usable c (v :: r) = v :: usable c r := by
        unfold usable; rw [List.filter_cons_of_pos]; cases h1 : c.strip <;> simp_all
      rw [this]
      split at h
      · cases h; simp
      · rename_i col cs
        split at h
        · cases h
        · rename_i x hx
          obtain ⟨b', h1, rfl⟩ := Option.map_eq_some_iff.1 h
          obtain ⟨i1, i2⟩ := ih cs b' h1
          refine ⟨by simp [i1], ?_⟩
          intro e he
          simp only [List.zip_cons_cons, List.mem_cons] at he
          rcases he with rfl | he
          · exact bindValue_some c v col x hx
          · exact i2 e he

theorem bindColumns_isSome (c : Config) (cols : List Bytes) (vs : List Types.Value) :
    (bindColumns c cols vs).isSome = true ↔ ∀ e ∈ cols.zip (usable c vs), Storable c e.1 e.2 := by
  induction vs generalizing cols with
  | nil => unfold bindColumns; simp [usable]
  | cons v r ih =>
    unfold bindColumns
    by_cases hs : c.strip = true ∧ v.ty = .sep
    · have : usable c (v :: r) = usable c r := by simp [usable, hs]
      rw [if_pos hs, this]; exact ih cols
    · have : usable c (v :: r) = v :: usable c r := by
        unfold usable; rw [List.filter_cons_of_pos]; cases h1 : c.strip <;> simp_all
      rw [if_neg hs, this]
      cases cols with
      | nil => simp
      | cons col cs =>
        have hb := bindValue_isSome c v col
        cases hv : bindValue c v col with
        | none =>
          rw [hv] at hb
          simp only [Option.isSome_none, Bool.false_eq_true, false_iff] at hb
          simp only [hv, Option.isSome_none, Bool.false_eq_true, false_iff]
          intro hx
          exact hb (hx (col, v) (by simp))
        | some x =>
          rw [hv] at hb
          have hb := hb.1 rfl
          simp only [hv, Option.isSome_map, ih cs, List.zip_cons_cons, List.mem_cons]
          constructor
          · rintro h e (rfl | he)
            · exact hb
            · exact h e he
          · exact fun h e he => h e (.inr he)

theorem tail_append (c : Config) (b : List Bind) :
    (if c.timestamp then (b ++ c.special.map fun e => Bind.bytes e.2) ++ [.now] else b ++ c.special.map fun e => Bind.bytes e.2) = b ++ tailRow c := by
  unfold tailRow; cases c.timestamp <;> simp

theorem tail_length (c : Config) : (tailRow c).length = c.special.length + (if c.timestamp then 1 else 0) := by
  unfold tailRow; cases c.timestamp <;> simp

theorem prepared_eq (c : Config) (h : configOk c = true) : (createSql c).2 = c.columns.length + c.tags.length + c.special.length + (if c.timestamp then 1 else 0) := by
  rw [statement_exact c h]
  unfold names
  rcases config_cases c h with ⟨h1, h2⟩ | ⟨h1, h2⟩
  · simp [h2]; cases c.timestamp <;> simp <;> omega
  · simp [h1, h2]; cases c.timestamp <;> simp <;> omega

theorem bindAll_eq (c : Config) (h : configOk c = true) (vs : List Types.Value) : bindAll c (createSql c).2 vs =
    match (if c.tags.length > 0 then bindTags c vs c.tags else bindColumns c c.columns vs) with
    | none => .err
    | some b => if b.length ≠ c.columns.length + c.tags.length then .abort else .ok (b ++ tailRow c) := by
  unfold bindAll
  rw [prepared_eq c h]
  simp only [ne_eq, not_true_eq_false, if_false]
  cases (if c.tags.length > 0 then bindTags c vs c.tags else bindColumns c c.columns vs) with
  | none => rfl
  | some b =>
    have ht := tail_append c b
    simp only
    rw [show (if c.timestamp = true then (b ++ List.map (fun x => match x with | (_, v) => Bind.bytes v) c.special) ++ [Bind.now] else b ++ List.map (fun x => match x with | (_, v) => Bind.bytes v) c.special) = b ++ tailRow c from ht]
    have hl := tail_length c
    have hlen : (b ++ tailRow c).length = b.length + (c.special.length + (if c.timestamp then 1 else 0)) := by rw [List.length_append, hl]
    by_cases hx : b.length = c.columns.length + c.tags.length
    · rw [if_neg (by omega), if_neg (by omega)]
    · rw [if_pos (by omega), if_pos (by omega)]

/-- With tags, each column gets the value with its tag, followed by the fixed texts and the time, and the number of values is that of the places. -/
theorem tagged_row (c : Config) (h : configOk c = true) (ht : c.tags ≠ []) (vs : List Types.Value) (b : List Bind) (hb : bindAll c (createSql c).2 vs = .ok b) :
    b.length = (names c).length ∧ ∃ l, b = l ++ tailRow c ∧ l.length = c.tags.length ∧ ∀ e ∈ c.tags.zip l, ∃ v, Types.getByTag vs e.1.1 = some v ∧ Stored c e.1.2 v e.2 := by
  have hlen : (names c).length = c.columns.length + c.tags.length + c.special.length + (if c.timestamp then 1 else 0) := by
    have := prepared_eq c h; rw [statement_exact c h] at this; exact this
  rw [bindAll_eq c h, if_pos (List.length_pos_iff.2 ht)] at hb
  split at hb
  · cases hb
  · rename_i l hl
    split at hb
    · cases hb
    · rename_i hn
      cases hb
      obtain ⟨h1, h2⟩ := bindTags_some c vs c.tags l hl
      refine ⟨?_, l, rfl, h1, h2⟩
      rw [List.length_append, tail_length, hlen]; omega

/-- Without tags, the columns get the values of the message in their order, of which separators may be left out, followed by the fixed texts and the time. -/
theorem ordered_row (c : Config) (h : configOk c = true) (ht : c.tags = []) (vs : List Types.Value) (b : List Bind) (hb : bindAll c (createSql c).2 vs = .ok b) :
    b.length = (names c).length ∧ ∃ l, b = l ++ tailRow c ∧ l.length = c.columns.length ∧ c.columns.length ≤ (usable c vs).length ∧
      ∀ e ∈ c.columns.zip ((usable c vs).zip l), Stored c e.1 e.2.1 e.2.2 := by
  have hlen : (names c).length = c.columns.length + c.tags.length + c.special.length + (if c.timestamp then 1 else 0) := by
    have := prepared_eq c h; rw [statement_exact c h] at this; exact this
  rw [bindAll_eq c h, if_neg (by simp [ht])] at hb
  split at hb
  · cases hb
  · rename_i l hl
    split at hb
    · cases hb
    · rename_i hn
      cases hb
      obtain ⟨h1, h2⟩ := bindColumns_some c c.columns vs l hl
      have ht' : c.tags.length = 0 := by simp [ht]
      refine ⟨?_, l, rfl, by omega, by omega, h2⟩
      rw [List.length_append, tail_length, hlen]; omega

/-- A value of a message. -/
def num (tag : String) (n : UInt8) : Types.Value := ⟨.h, 0, str tag, 1, [n, 0, 0, 0, 0, 0, 0, 0], []⟩

example : bindAll tagged (createSql tagged).2 [num "b" 3, num "c" 4, num "a" 5] =
    .ok [.int [5, 0, 0, 0, 0, 0, 0, 0] true, .int [3, 0, 0, 0, 0, 0, 0, 0] true, .bytes (str "h1"), .now] := by decide +kernel
example : bindAll ordered (createSql ordered).2 [num "" 3, ⟨.sep, 0, [], 1, [44], []⟩, num "" 4, num "" 5] =
    .ok [.int [3, 0, 0, 0, 0, 0, 0, 0] true, .bytes [4, 0, 0, 0, 0, 0, 0, 0]] := by decide +kernel

/-- The program aborts exactly if columns are used in order and the message has fewer values than there are columns, and all its values can be stored. -/
theorem abort_iff (c : Config) (h : configOk c = true) (vs : List Types.Value) : bindAll c (createSql c).2 vs = .abort ↔
    c.tags = [] ∧ (usable c vs).length < c.columns.length ∧ ∀ e ∈ c.columns.zip (usable c vs), Storable c e.1 e.2 := by
  rw [bindAll_eq c h]
  by_cases ht : c.tags = []
  · rw [if_neg (by simp [ht])]
    have ht' : c.tags.length = 0 := by simp [ht]
    have hs := bindColumns_isSome c c.columns vs
    cases hb : bindColumns c c.columns vs with
    | none => rw [hb] at hs; simp only [Option.isSome_none, Bool.false_eq_true, false_iff] at hs; exact ⟨fun h => (by cases h), fun h => absurd h.2.2 hs⟩
    | some b =>
      have := (bindColumns_some c c.columns vs b hb).1
      rw [hb] at hs
      have hs := hs.1 rfl
      simp only [ht, true_and]
      by_cases hl : (usable c vs).length < c.columns.length
      · rw [if_pos (by simp; omega)]; simp [hl]; exact fun a b d => hs (a, b) d
      · rw [if_neg (by simp; omega)]; simp [hl]
  · rw [if_pos (List.length_pos_iff.2 ht)]
    simp only [ht, false_and, iff_false]
    have hcol : c.columns.length = 0 := by
      rcases config_cases c h with ⟨-, h2⟩ | ⟨h1, -⟩
      · exact absurd h2 ht
      · simp [h1]
    cases hb : bindTags c vs c.tags with
    | none => simp
    | some b =>
      have := (bindTags_some c vs c.tags b hb).1
      simp only
      rw [if_neg (by omega)]; simp

/-- With tags, no message makes the program abort. -/
theorem tagged_safe (c : Config) (h : configOk c = true) (ht : c.tags ≠ []) (vs : List Types.Value) : bindAll c (createSql c).2 vs ≠ .abort :=
  fun e => ht ((abort_iff c h vs).1 e).1

/-- A message with one value aborts the program when there are two columns. -/
theorem short_message_aborts (w : World) (s : State) (hc : s.connected = true) (hw : w.prepares = true) (hs : s.buffer = [⟨1, some [num "" 3]⟩]) : event ordered w s = none := by
  unfold event
  simp only [hc, hw, hs]
  have : save ordered w ⟨1, some [num "" 3]⟩ = .abort := by
    unfold save
    have : bindAll ordered (createSql ordered).2 [num "" 3] = .abort := by decide +kernel
    simp [this]
  simp [processAll, this]

/-- A message is saved in this run. -/
def saves (c : Config) (w : World) (m : Message) : Bool := match save c w m with | .ok _ => true | _ => false

theorem processAll_some (c : Config) (w : World) (ms : List Message) (s s' : State) (h : processAll c w ms s = some s') :
    s'.buffer = s.buffer ++ (if c.drop then [] else ms.filter fun m => !saves c w m) ∧
    ∃ rows, s'.rows = s.rows ++ rows ∧ rows.map (·.1) = (ms.filter (saves c w)).map (·.id) ∧ ∀ r ∈ rows, ∃ m ∈ ms, m.id = r.1 ∧ save c w m = .ok r.2 := by
  induction ms generalizing s with
  | nil => cases h; simp
  | cons m r ih =>
    unfold processAll at h
    cases hs : save c w m with
    | abort => rw [hs] at h; cases h
    | err =>
      rw [hs] at h
      have hsv : saves c w m = false := by simp [saves, hs]
      obtain ⟨i1, rows, i2, i3, i4⟩ := ih _ h
      refine ⟨?_, rows, ?_, by simp [hsv, i3], fun x hx => by obtain ⟨m', h1, h2⟩ := i4 x hx; exact ⟨m', List.mem_cons_of_mem _ h1, h2⟩⟩
      · rw [i1]; cases c.drop <;> simp [hsv]
      · rw [i2]; cases c.drop <;> simp
    | ok b =>
      rw [hs] at h
      have hsv : saves c w m = true := by simp [saves, hs]
      obtain ⟨i1, rows, i2, i3, i4⟩ := ih _ h
      refine ⟨by rw [i1]; simp [hsv], (m.id, b) :: rows, by rw [i2]; simp, by simp [hsv, i3], ?_⟩
      intro x hx
      rcases List.mem_cons.1 hx with rfl | hx
      · exact ⟨m, by simp, rfl, hs⟩
      · obtain ⟨m', h1, h2⟩ := i4 x hx; exact ⟨m', List.mem_cons_of_mem _ h1, h2⟩

/-- A message is saved exactly when it is an array of which a row can be made, and the database accepts the row of this message. -/
theorem saved_iff (c : Config) (w : World) (m : Message) (b : List Bind) : save c w m = .ok b ↔ ∃ vs, m.values = some vs ∧ bindAll c (createSql c).2 vs = .ok b ∧ w.executes m.id = true := by
  unfold save
  cases m.values with
  | none => simp
  | some vs =>
    simp only [Option.some.injEq, exists_eq_left']
    cases bindAll c (createSql c).2 vs with
    | ok b' => by_cases h : w.executes m.id = true <;> simp [h]
    | err => simp
    | abort => simp

/-- When there is a connection and the statement is accepted, messages are saved in order, each once and with its own row, and those which are not saved are kept in order unless they are
to be dropped. Missing: without a connection, messages are lost. -/
theorem kept_partial (c : Config) (w : World) (s s' : State) (hc : s.connected = true ∨ w.connects = true) (hp : w.prepares = true) (h : event c w s = some s') :
    s'.buffer = (if c.drop then [] else s.buffer.filter fun m => !saves c w m) ∧
    ∃ rows, s'.rows = s.rows ++ rows ∧ rows.map (·.1) = (s.buffer.filter (saves c w)).map (·.id) ∧ ∀ r ∈ rows, ∃ m ∈ s.buffer, m.id = r.1 ∧ save c w m = .ok r.2 := by
  unfold event at h
  have : (!s.connected && !w.connects) = false := by rcases hc with h | h <;> simp [h]
  simp only [this, hp] at h
  have := processAll_some c w s.buffer _ s' h
  simpa using this

example : (event ordered ⟨true, true, fun i => i ≠ 2⟩ ⟨[⟨1, some [num "" 3, num "" 4]⟩, ⟨2, some [num "" 5, num "" 6]⟩, ⟨3, none⟩, ⟨4, some [num "" 7, num "" 8]⟩], [], false⟩).map
    (fun s => (s.buffer.map (·.id), s.rows.map (·.1))) = some ([2, 3], [1, 4]) := by decide +kernel

/-- When the server cannot be connected to, all messages in the buffer are lost. -/
theorem lost_without_server (c : Config) (w : World) (s : State) (h1 : s.connected = false) (h2 : w.connects = false) : event c w s = some { s with buffer := [] } := by
  simp [event, h1, h2]

/-- When the server goes away or does not accept the statement, all messages in the buffer are lost. -/
theorem lost_without_statement (c : Config) (w : World) (s : State) (h1 : s.connected = true ∨ w.connects = true) (h2 : w.prepares = false) :
    event c w s = some ⟨[], s.rows, false⟩ := by
  unfold event
  have : (!s.connected && !w.connects) = false := by rcases h1 with h | h <;> simp [h]
  simp [this, h2]

/-- Messages in the buffer are not changed by those which arrive. -/
theorem poll_kept (m : Message) (s : State) : (poll m s).buffer = s.buffer ++ [m] ∧ (poll m s).rows = s.rows := ⟨rfl, rfl⟩

/-- A value which cannot be stored keeps its message from being saved, whatever the database does, and the message is tried again and again. -/
theorem fixp_never_saved (w : World) (x : Types.Value) (h1 : x.ty = .fixp) (h2 : ¬ x.elements > 1) (n : Nat) (s : State) (hc : s.connected = true) (hp : w.prepares = true)
    (hs : s.buffer = [⟨n, some [x, num "" 1]⟩]) : event ordered w s = some s := by
  have hb : bindAll ordered (createSql ordered).2 [x, num "" 1] = .err := by
    rw [bindAll_eq ordered (by decide +kernel)]
    have : bindColumns ordered ordered.columns [x, num "" 1] = none := by
      have hcb : ordered.blob.contains (str "x") = false := by decide +kernel
      have hv : bindValue ordered x (str "x") = none := by
        unfold bindValue; rw [if_neg (by simp [h1, isBlob]; exact ⟨by simpa using h2, by simpa using hcb⟩)]; simp [h1, is64]
      unfold bindColumns
      simp [h1, ordered]
      have := hv; unfold ordered at this; simp [this]
    rw [if_neg (by decide), this]
  have hsv : save ordered w ⟨n, some [x, num "" 1]⟩ = .err := by unfold save; simp [hb]
  unfold event
  have hd : ordered.drop = false := rfl
  obtain ⟨b, r, k⟩ := s
  simp only at hc hs
  subst hc hs
  simp [hp, processAll, hsv, hd]

/-- With columns in order, the columns which are to be stored as bytes are among the columns, and their values are stored as bytes. -/
theorem blob_columns (c : Config) (h : configOk c = true) (ht : c.tags = []) (n : Bytes) (hn : n ∈ c.blob) : n ∈ c.columns ∧ ∀ v, bindValue c v n = some (.bytes v.data) := by
  constructor
  · unfold configOk at h
    rw [if_neg (by simp [ht])] at h
    split at h
    · cases h
    · simp only [blobOk, List.all_eq_true] at h
      have := h n hn
      simpa [ht] using this
  · intro v; unfold bindValue; rw [if_pos (by simp [hn])]

/-- With tags, a column which is to be stored as bytes is refused, and when the tag is given instead, it is not stored as bytes. -/
theorem blob_column_of_tag : let c := fun b => (⟨str "t", [], [(str "a", str "x")], [], [b], false, false, false⟩ : Config)
    configOk (c (str "x")) = false ∧ configOk (c (str "a")) = true ∧
    bindAll (c (str "a")) (createSql (c (str "a"))).2 [num "a" 5] = .ok [.int [5, 0, 0, 0, 0, 0, 0, 0] true] := by decide +kernel

end Verif.Mysql
