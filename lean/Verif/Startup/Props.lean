import Verif.Startup.Lemmas
/-!
# Where the global configuration comes from

`file_exact`: environment files. `startup_iff`: a program starts exactly when the sources can be understood, and the configuration comes from the
command line, the environment file, the environment and the defaults, in this order. `inherited`: child processes get the same configuration.
-/
namespace Verif.Startup
open Verif
open Verif.AclFile.Spec (lines)
open Verif.Cmdline (Pair Rule withName getValue cmdExists exists_iff subvalue_eq)

/-! ## Environment files -/

/-- C124. An environment file without NUL is read by lines. -/
theorem file_exact (b : Bytes) (h0 : (0 : UInt8) ∉ b) : parseFile b = linesSay (lines b) :=
  fileLoop_eq _ b (Nat.lt_succ_self _) h0

/-- `# c`, ` A = x y `, an empty line, `B` -/
example : parseFile [35, 32, 99, 10, 32, 65, 32, 61, 32, 120, 32, 121, 32, 10, 13, 10, 66] = some [([65], [120, 32, 121]), ([66], [49])] := by
  decide

/-- `A=` is an error. -/
example : parseFile [65, 61, 32, 10, 66] = none := by decide

/-- C124. A line `name=value` gives the variable, whatever is in the value, also equal signs. -/
theorem file_line (n v : Bytes) (hn : n ≠ []) (hb : n.head? ≠ some 35) (hn61 : (61 : UInt8) ∉ n) (hv : v ≠ [])
    (hnc : ∀ c ∈ n, c ≠ 0 ∧ c ≠ 10 ∧ c ≠ 13 ∧ c ≠ 32 ∧ c ≠ 9) (hvc : ∀ c ∈ v, c ≠ 0 ∧ c ≠ 10 ∧ c ≠ 13 ∧ c ≠ 32 ∧ c ≠ 9) :
    parseFile (n ++ 61 :: v) = some [(n, v)] := by
  have h0 : (0 : UInt8) ∉ n ++ 61 :: v := by
    simp only [List.mem_append, List.mem_cons, not_or]
    exact ⟨fun h => (hnc 0 h).1 rfl, by decide, fun h => (hvc 0 h).1 rfl⟩
  rw [file_exact _ h0]
  have hl : lines (n ++ 61 :: v) = [n ++ 61 :: v] := by
    have : ∀ x : Bytes, (∀ c ∈ x, ¬ (c = 10 ∨ c = 13)) → lines x = [x] := by
      intro x hx
      have := AclFile.lines_append (x := x) hx (t := []) (l := []) (ls := []) (by simp [lines])
      simpa using this
    apply this
    intro c hc
    rcases List.mem_append.1 hc with h | h
    · have := hnc c h; simp [this]
    · rcases List.mem_cons.1 h with rfl | h
      · decide
      · have := hvc c h; simp [this]
  have nb : ∀ x : Bytes, (∀ c ∈ x, c ≠ 0 ∧ c ≠ 10 ∧ c ≠ 13 ∧ c ≠ 32 ∧ c ≠ 9) → ∀ y, x ≠ [] → (x ++ y).dropWhile blank = x ++ y := by
    intro x hx y hne
    cases x with
    | nil => exact absurd rfl hne
    | cons c t =>
      have := hx c (List.mem_cons_self ..)
      rw [List.cons_append, List.dropWhile_cons_of_neg]
      simp [blank, this]
  have ch : ∀ x : Bytes, (∀ c ∈ x, c ≠ 0 ∧ c ≠ 10 ∧ c ≠ 13 ∧ c ≠ 32 ∧ c ≠ 9) → x ≠ [] → chop x = x := by
    intro x hx hne
    unfold chop
    have := nb x.reverse (fun c hc => hx c (by simpa using hc)) [] (by simpa using hne)
    rw [List.append_nil] at this
    rw [this, List.reverse_reverse]
  have hvd := nb v hvc [] hv
  rw [List.append_nil] at hvd
  have hhead : (n ++ 61 :: v).head? = n.head? := by
    cases n with
    | nil => exact absurd rfl hn
    | cons c t => rfl
  have h61 : n.head? ≠ some 61 := by
    cases n with
    | nil => simp
    | cons c t =>
      intro h
      simp at h
      exact hn61 (by simp [h])
  have hs : lineSays (n ++ 61 :: v) = some [(n, v)] := by
    unfold lineSays
    simp only [nb n hnc _ hn]
    rw [if_neg (by rw [hhead]; simp [hb, hn])]
    rw [if_neg (by rw [hhead]; simp [h61])]
    rw [(Cmdline.takeWhile_mid hn61 v).1, (Cmdline.takeWhile_mid hn61 v).2, List.drop_one, List.tail_cons, hvd, if_neg hv, ch n hnc hn, ch v hvc hv]
  rw [hl, linesSay, hs, linesSay]
  rfl

example : parseFile ([65] ++ 61 :: [98, 61, 99]) = some [([65], [98, 61, 99])] := by decide

/-! ## The command line -/

theorem says_eq (cmd : List Pair) (key : Bytes) : (getValue cmd [] key 0).1 = says cmd key := by
  unfold getValue says
  rw [subvalue_eq, List.head?_eq_getElem?]
  congr 1
  funext p
  rw [List.head?_eq_getElem?]

theorem exists_eq (cmd : List Pair) (key : Bytes) : cmdExists cmd key 0 = true ↔ withName cmd key ≠ [] := by
  rw [exists_iff, decide_eq_true_eq, List.length_pos_iff]

theorem says_nothing (key : Bytes) : says [] key = none := rfl

/-! ## Numbers -/

theorem readUnsigned_iff (v : Bytes) (n : Nat) : readUnsigned v = some n ↔ VariableNumber v n := by
  unfold readUnsigned VariableNumber
  by_cases hv : v = []
  · rw [if_pos hv]
    constructor
    · intro h; exact .inl ⟨hv, (Option.some.inj h).symm⟩
    · rintro (⟨_, rfl⟩ | ⟨i, ⟨ws, ds, _, hne, _, h⟩, _⟩)
      · rfl
      · subst hv
        rcases h with ⟨h, _⟩ | ⟨h, _⟩ | ⟨h, _⟩ <;> simp at h
        exact absurd h.2 hne
  · rw [if_neg hv]
    have key : ∀ i : Int, ((i % 2 ^ 64).toNat = n ↔ (n : Int) = i % 2 ^ 64) := by intro i; omega
    constructor
    · intro h
      cases hr : readNumber v with
      | none => simp [hr] at h
      | some i =>
        simp only [hr] at h
        split at h
        · simp at h
        · rename_i hb
          refine .inr ⟨i, (readNumber_iff v i).1 hr, by omega, ?_⟩
          exact (key i).1 (Option.some.inj h)
    · rintro (⟨h, _⟩ | ⟨i, hw, hb, hn⟩)
      · exact absurd h hv
      · rw [(readNumber_iff v i).2 hw]
        simp only
        rw [if_neg (by omega), (key i).2 hn]

theorem envNumber_iff (e : Env) (var : Bytes) (initial n : Nat) :
    envNumber e var initial = some n ↔ (∃ v, getenv e var = some v ∧ VariableNumber v n) ∨ (getenv e var = none ∧ n = initial) := by
  unfold envNumber
  cases getenv e var with
  | none => simp [eq_comm]
  | some v => simp [readUnsigned_iff]

theorem convertInteger_iff (v : Bytes) (most : Nat) (hm : most < 2 ^ 63 - 1) (n : Nat) :
    (∃ i, convertInteger v = some i ∧ ¬ (i < 0 ∨ i > most) ∧ i.toNat = n) ↔ (v = [] ∧ n = 0) ∨ (Written v n ∧ n ≤ most) := by
  unfold convertInteger
  by_cases hv : v = []
  · rw [if_pos hv]
    constructor
    · rintro ⟨i, h, _, h2⟩
      have := Option.some.inj h
      subst this
      exact .inl ⟨hv, h2.symm⟩
    · rintro (⟨_, rfl⟩ | ⟨⟨ws, ds, _, hne, _, h⟩, _⟩)
      · exact ⟨0, rfl, by omega, rfl⟩
      · subst hv
        rcases h with ⟨h, _⟩ | ⟨h, _⟩ | ⟨h, _⟩ <;> simp at h
        exact absurd h.2 hne
  · rw [if_neg hv]
    have clamp : ∀ i : Int, ¬ (clampLong i < 0 ∨ clampLong i > most) → clampLong i = i := by
      intro i h
      unfold clampLong at h ⊢
      repeat' split
      all_goals (repeat' split at h)
      all_goals omega
    have clamp2 : ∀ k : Nat, k ≤ most → clampLong k = k := by
      intro k h
      unfold clampLong
      repeat' split
      all_goals omega
    constructor
    · rintro ⟨i, h, h1, h2⟩
      rw [Option.map_eq_some_iff] at h
      obtain ⟨a, ha, rfl⟩ := h
      have hc := clamp a h1
      rw [hc] at h1 h2
      have : a = (n : Int) := by omega
      subst this
      exact .inr ⟨(readNumber_iff v _).1 ha, by omega⟩
    · rintro (⟨h, _⟩ | ⟨h, hl⟩)
      · exact absurd h hv
      · refine ⟨clampLong n, by rw [(readNumber_iff v _).2 h]; rfl, ?_, ?_⟩
        · rw [clamp2 n hl]; omega
        · rw [clamp2 n hl]; omega

theorem cmdNumber_iff (cmd : List Pair) (key : Bytes) (all : Bool) (most before n : Nat) (hm : most < 2 ^ 63 - 1) :
    cmdNumber cmd key all most before = some n ↔
      (∃ v, says cmd key = some v ∧ OptionNumber all most v n) ∨ (says cmd key = none ∧ n = before) := by
  unfold cmdNumber
  rw [says_eq]
  cases says cmd key with
  | none => simp [eq_comm]
  | some v =>
    simp only [Option.some.injEq, reduceCtorEq, false_and, or_false, exists_eq_left']
    unfold OptionNumber
    by_cases ha : all = true ∧ v = [97, 108, 108]
    · rw [if_pos (by simp [ha])]
      simp only [ha, and_self, not_true_eq_false, false_and, or_false, true_and, Option.some.injEq]
      exact ⟨fun h => h.symm, fun h => h.symm⟩
    · rw [if_neg (by simpa using ha)]
      have hor : (all = true ∧ v = [97, 108, 108] ∧ n = levelAll) ↔ False := by
        constructor
        · rintro ⟨h1, h2, _⟩; exact ha ⟨h1, h2⟩
        · exact False.elim
      rw [hor, false_or]
      simp only [ha, not_false_eq_true, true_and]
      rw [← convertInteger_iff v most hm n]
      cases convertInteger v with
      | none => simp
      | some i =>
        simp only [Option.some.injEq, exists_eq_left']
        by_cases hb : i < 0 ∨ i > most
        · rw [if_pos (by simpa using hb)]
          simp [hb]
        · rw [if_neg (by simpa using hb)]
          simp [hb]

theorem number_iff (cmd : List Pair) (e : Env) (key var : Bytes) (all : Bool) (most initial n : Nat) (hm : most < 2 ^ 63 - 1) :
    (∃ k, envNumber e var initial = some k ∧ cmdNumber cmd key all most k = some n) ↔ NumberFrom cmd (getenv e) key var all most initial n := by
  unfold NumberFrom
  constructor
  · rintro ⟨k, h1, h2⟩
    rw [envNumber_iff] at h1
    rw [cmdNumber_iff _ _ _ _ _ _ hm] at h2
    constructor
    · intro v hv
      rcases h1 with ⟨w, hw, hk⟩ | ⟨hn, _⟩
      · rw [hv] at hw
        obtain rfl := Option.some.inj hw
        exact ⟨k, hk⟩
      · rw [hv] at hn; simp at hn
    · rcases h2 with h2 | ⟨h2, rfl⟩
      · exact .inl h2
      · rcases h1 with h1 | h1
        · exact .inr (.inl ⟨h2, h1⟩)
        · exact .inr (.inr ⟨h2, h1⟩)
  · rintro ⟨h1, h2⟩
    have hk : ∃ k, envNumber e var initial = some k := by
      cases hg : getenv e var with
      | none => exact ⟨initial, (envNumber_iff ..).2 (.inr ⟨hg, rfl⟩)⟩
      | some v =>
        obtain ⟨k, hk⟩ := h1 v hg
        exact ⟨k, (envNumber_iff ..).2 (.inl ⟨v, hg, hk⟩)⟩
    rcases h2 with h2 | ⟨h2, h3⟩ | ⟨h2, h3⟩
    · obtain ⟨k, hk⟩ := hk
      exact ⟨k, hk, (cmdNumber_iff _ _ _ _ _ _ hm).2 (.inl h2)⟩
    · exact ⟨n, (envNumber_iff ..).2 (.inl h3), (cmdNumber_iff _ _ _ _ _ _ hm).2 (.inr ⟨h2, rfl⟩)⟩
    · exact ⟨n, (envNumber_iff ..).2 (.inr h3), (cmdNumber_iff _ _ _ _ _ _ hm).2 (.inr ⟨h2, rfl⟩)⟩

/-! ## Flags and the run directory -/

theorem no_iff (v : Bytes) : (v.map lower != [110, 111] && v.map lower != [48]) = true ↔ ¬ No v := by
  unfold No
  have h48 : v.map lower = [48] ↔ v = [48] := by
    constructor
    · intro h
      cases v with
      | nil => simp at h
      | cons c t =>
        simp only [List.map_cons, List.cons.injEq, List.map_eq_nil_iff] at h
        have : ∀ c : UInt8, lower c = 48 → c = 48 := all256 (by unfold lower; decide +kernel)
        rw [this c h.1, h.2]
    · rintro rfl; decide
  simp only [Bool.and_eq_true, bne_iff_ne, ne_eq, h48, not_or]

theorem flag_iff (cmd : List Pair) (e : Env) (key var : Bytes) (b : Bool) :
    b = cmdFlag cmd key (envYes e var) ↔ FlagFrom cmd (getenv e) key var b := by
  unfold FlagFrom cmdFlag
  have he : envYes e var = true ↔ ∃ v, getenv e var = some v ∧ ¬ No v := by
    unfold envYes
    cases getenv e var with
    | none => simp
    | some v => simp only [no_iff, Option.some.injEq, exists_eq_left']
  rw [← he, ← exists_eq]
  cases b <;> cases cmdExists cmd key 0 <;> cases envYes e var <;> decide

theorem run_iff (os : Os) (cmd : List Pair) (e : Env) (r : Bytes) : r = runDirectory os cmd e ↔ RunFrom os cmd (getenv e) r := by
  unfold runDirectory RunFrom
  rw [says_eq]
  cases says cmd kRun with
  | some v => simp [eq_comm]
  | none =>
    cases getenv e eRun with
    | none => simp
    | some v => simp [eq_comm]

theorem configure_iff (os : Os) (cmd : List Pair) (e : Env) (c : Config) :
    configure os cmd e = some c ↔ ConfigFrom os cmd (getenv e) c := by
  unfold ConfigFrom
  rw [← number_iff cmd e kDebug eDebug true levelAll 0 c.debug (by decide), ← number_iff cmd e kExit eExit true levelAll 0 c.onExit (by decide)]
  simp only [← number_iff cmd e kStart eStart false 10000 0 _ (by decide), ← number_iff cmd e kLimit eLimit false 1000000 1000 _ (by decide)]
  rw [← flag_iff, ← flag_iff, ← flag_iff, ← run_iff, ← exists_eq]
  unfold configure
  constructor
  · intro h
    cases h1 : envNumber e eDebug 0 with
    | none => simp [h1] at h
    | some d0 =>
    cases h2 : envNumber e eExit 0 with
    | none => simp [h1, h2] at h
    | some x0 =>
    cases h3 : envNumber e eStart 0 with
    | none => simp [h1, h2, h3] at h
    | some s0 =>
    cases h4 : envNumber e eLimit 1000 with
    | none => simp [h1, h2, h3, h4] at h
    | some l0 =>
    simp only [h1, h2, h3, h4] at h
    cases h5 : cmdNumber cmd kDebug true levelAll d0 with
    | none => simp [h5] at h
    | some d =>
    cases h6 : cmdNumber cmd kExit true levelAll x0 with
    | none => simp [h5, h6] at h
    | some x =>
    cases h7 : cmdNumber cmd kStart false 10000 s0 with
    | none => simp [h5, h6, h7] at h
    | some s =>
    cases h8 : cmdNumber cmd kLimit false 1000000 l0 with
    | none => simp [h5, h6, h7, h8] at h
    | some l =>
    simp only [h5, h6, h7, h8] at h
    split at h
    · simp at h
    · rename_i hb
      simp only [Bool.or_eq_true, decide_eq_true_eq, not_or] at hb
      obtain rfl := Option.some.inj h
      refine ⟨⟨d0, rfl, h5⟩, by show d < 2 ^ 32; omega, ⟨x0, rfl, h6⟩, by show x < 2 ^ 32; omega, ⟨s, ⟨s0, rfl, h7⟩, rfl⟩, ⟨l, ⟨l0, rfl, h8⟩, rfl⟩,
        rfl, rfl, rfl, ?_, rfl⟩
      simp [cmdFlag]
  · rintro ⟨⟨d0, h1, h5⟩, hd, ⟨x0, h2, h6⟩, hx, ⟨s, ⟨s0, h3, h7⟩, hs⟩, ⟨l, ⟨l0, h4, h8⟩, hl⟩, hw, hr, ht, hj, hrun⟩
    simp only [h1, h2, h3, h4, h5, h6, h7, h8]
    rw [if_neg (by simp only [Bool.or_eq_true, decide_eq_true_eq]; omega)]
    have hj' : c.json = cmdFlag cmd kJson false := by
      unfold cmdFlag
      rw [Bool.false_or]
      cases hc : c.json <;> cases he : cmdExists cmd kJson 0 <;> simp_all
    rw [Option.some.injEq, ← hs, ← hl, ← hw, ← hr, ← ht, ← hj', ← hrun]

/-! ## The start of a program -/

theorem socket_iff (os : Os) (cmd : List Pair) : socketOk os cmd = true ↔ SocketSays os cmd := by
  unfold socketOk SocketSays
  by_cases h : withName cmd kSocket = []
  · have : cmdExists cmd kSocket 0 = false := by
      cases hc : cmdExists cmd kSocket 0 with
      | false => rfl
      | true => exact absurd h ((exists_eq cmd kSocket).1 hc)
    simp [h, this]
  · rw [if_pos ((exists_eq cmd kSocket).2 h), says_eq]
    have h1 : (getValue cmd [] kSocket 1).1 = ((withName cmd kSocket)[1]?).bind (·.values.head?) := by
      unfold getValue
      rw [subvalue_eq]
      congr 1
      funext p
      rw [List.head?_eq_getElem?]
    rw [h1]
    cases ((withName cmd kSocket)[1]?).bind (·.values.head?) <;> simp [h]

theorem fileVars_iff (os : Os) (ht : TextFiles os) (cmd : List Pair) (m : List (Bytes × Bytes)) :
    fileVars os cmd = some m ↔ FileSays os cmd m := by
  unfold fileVars FileSays
  rw [says_eq]
  cases says cmd kFile with
  | none => simp [eq_comm]
  | some f =>
    simp only [readFile, reduceCtorEq, false_and, false_or, Option.some.injEq]
    cases hf : os.file f with
    | none =>
      simp only [reduceCtorEq, false_iff, not_exists]
      rintro g b ⟨rfl, h, _⟩
      rw [hf] at h
      simp at h
    | some b =>
      simp only
      constructor
      · intro h
        split at h
        · simp at h
        · rw [file_exact b (ht f b hf)] at h
          exact ⟨f, b, rfl, hf, by omega, h⟩
      · rintro ⟨g, b', rfl, h, hl, hm⟩
        rw [hf] at h
        obtain rfl := Option.some.inj h
        rw [if_neg (by omega), file_exact b (ht f b hf), hm]

theorem exported_names (c : Config) : ∀ x ∈ exported c, NameOk x.1 := by
  intro x hx
  simp only [exported, List.mem_cons, List.not_mem_nil, or_false] at hx
  unfold NameOk
  rcases hx with rfl | rfl | rfl | rfl | rfl | rfl | rfl | rfl <;> (dsimp only; exact ⟨by decide, by decide⟩)

/-- C125. A program starts with a configuration exactly when the log socket and the environment file are fine and all sources of the configuration
can be understood, and the configuration comes from them: the command line first, then the environment file, then the environment, then the
defaults. -/
theorem startup_iff (os : Os) (ht : TextFiles os) (cmd : List Pair) (env : Env) (c : Config) :
    (startup os cmd env).map (·.1) = some c ↔
      SocketSays os cmd ∧ ∃ m, FileSays os cmd m ∧ (∀ x ∈ m, NameOk x.1) ∧ ConfigFrom os cmd (after m env) c := by
  unfold startup
  rw [← socket_iff]
  cases hs : socketOk os cmd with
  | false => simp
  | true =>
    simp only [Bool.not_true, Bool.false_eq_true, if_false, true_and]
    simp only [← fileVars_iff os ht]
    cases hm : fileVars os cmd with
    | none => simp
    | some m =>
      simp only [Option.some.injEq, exists_eq_left']
      rw [← setEach_ok env m]
      cases he : setEach env m with
      | none => simp
      | some e =>
        have hlook : after m env = getenv e := by
          funext name
          rw [after, setEach_get he]
        simp only [Option.isSome_some, true_and, hlook, ← configure_iff]
        cases hc : configure os cmd e with
        | none => simp
        | some c' =>
          simp only [Option.map_map]
          obtain ⟨e', he'⟩ := Option.isSome_iff_exists.1 ((setEach_ok e (exported c')).2 (exported_names c'))
          rw [he']
          simp

theorem startup_parts {os : Os} {cmd : List Pair} {env e' : Env} {c : Config} (h : startup os cmd env = some (c, e')) :
    socketOk os cmd = true ∧ ∃ m e, fileVars os cmd = some m ∧ setEach env m = some e ∧ configure os cmd e = some c
      ∧ setEach e (exported c) = some e' := by
  unfold startup at h
  cases hs : socketOk os cmd with
  | false => simp [hs] at h
  | true =>
    simp only [hs, Bool.not_true, Bool.false_eq_true, if_false] at h
    cases hm : fileVars os cmd with
    | none => simp [hm] at h
    | some m =>
      simp only [hm] at h
      cases he : setEach env m with
      | none => simp [he] at h
      | some e =>
        simp only [he] at h
        cases hc : configure os cmd e with
        | none => simp [hc] at h
        | some c' =>
          simp only [hc, Option.map_eq_some_iff, Prod.mk.injEq] at h
          obtain ⟨a, ha, rfl, rfl⟩ := h
          exact ⟨rfl, m, e, rfl, he, hc, ha⟩

theorem lastValue_none {m : List (Bytes × Bytes)} {name : Bytes} (h : ∀ x ∈ m, x.1 ≠ name) : lastValue m name = none := by
  unfold lastValue
  have : m.filter (·.1 == name) = [] := by
    rw [List.filter_eq_nil_iff]
    intro x hx
    simpa using h x hx
  rw [this]
  rfl

/-- C124. Other variables have the last value given to them in the environment file, or the value they had. -/
theorem file_in_environment {os : Os} (ht : TextFiles os) {cmd : List Pair} {env e' : Env} {c : Config} (h : startup os cmd env = some (c, e')) :
    ∃ m, FileSays os cmd m ∧ ∀ name, name ∉ exportedNames → getenv e' name = (lastValue m name).or (getenv env name) := by
  obtain ⟨_, m, e, hm, he, _, hx⟩ := startup_parts h
  refine ⟨m, (fileVars_iff os ht cmd m).1 hm, ?_⟩
  intro name hn
  rw [setEach_get hx, lastValue_none, setEach_get he]
  · rfl
  · intro x hxm hc
    apply hn
    rw [← hc]
    simp only [exported, List.mem_cons, List.not_mem_nil, or_false] at hxm
    unfold exportedNames
    rcases hxm with rfl | rfl | rfl | rfl | rfl | rfl | rfl | rfl <;> (dsimp only; decide)

/-! ## Child processes -/

theorem readUnsigned_decimal (n : Nat) (h : n < 2 ^ 64) : readUnsigned (Http.decimal n) = some n := by
  rw [readUnsigned_iff]
  refine .inr ⟨n, ⟨[], Http.decimal n, by simp, Http.decimal_ne n, Http.decimal_digits n, .inl ⟨rfl, ?_⟩⟩, by omega, by omega⟩
  have : digitsValue (Http.decimal n) = n := Http.decimal_value n
  rw [this]

theorem envYes_bit (e : Env) (var : Bytes) (b : Bool) (h : getenv e var = some (bit b)) : envYes e var = b := by
  unfold envYes
  rw [h]
  cases b <;> decide

/-- C125. A child process without arguments, started with the environment of its parent, has the configuration of the parent, except that
output in JSON is not inherited. -/
theorem inherited {os : Os} {cmd : List Pair} {env e' : Env} {c : Config} (h : startup os cmd env = some (c, e')) :
    ∃ e'', startup os [] e' = some ({ c with json := false }, e'') ∧ ∀ name, getenv e'' name = getenv e' name := by
  obtain ⟨_, m, e, _, _, hc, hx⟩ := startup_parts h
  have hcf := (configure_iff os cmd e c).1 hc
  obtain ⟨_, hd, _, hxx, ⟨s, _, hs⟩, ⟨l, _, hl⟩, _⟩ := hcf
  have hget := setEach_get hx
  have g : ∀ name v, lastValue (exported c) name = some v → getenv e' name = some v := by
    intro name v hv
    rw [hget, hv]
    rfl
  have hconf : configure os [] e' = some { c with json := false } := by
    unfold configure
    have n1 : envNumber e' eDebug 0 = some c.debug := by
      unfold envNumber; rw [g eDebug (Http.decimal c.debug) rfl]; exact readUnsigned_decimal _ (by omega)
    have n2 : envNumber e' eExit 0 = some c.onExit := by
      unfold envNumber; rw [g eExit (Http.decimal c.onExit) rfl]; exact readUnsigned_decimal _ (by omega)
    have n3 : envNumber e' eStart 0 = some c.start := by
      unfold envNumber; rw [g eStart (Http.decimal c.start) rfl]; exact readUnsigned_decimal _ (by omega)
    have n4 : envNumber e' eLimit 1000 = some c.limit := by
      unfold envNumber; rw [g eLimit (Http.decimal c.limit) rfl]; exact readUnsigned_decimal _ (by omega)
    have m1 : ∀ key all most before, cmdNumber [] key all most before = some before := fun _ _ _ _ => rfl
    have f1 : ∀ key b, cmdFlag [] key b = b := fun key b => by simp [cmdFlag, cmdExists]
    have r1 : runDirectory os [] e' = c.run := by
      unfold runDirectory
      rw [g eRun c.run rfl]
      rfl
    simp only [n1, n2, n3, n4, m1, f1, r1, envYes_bit e' eWatchdog c.noWatchdog (g _ _ rfl), envYes_bit e' eRestart c.noRestart (g _ _ rfl),
      envYes_bit e' eLevels c.levels (g _ _ rfl)]
    rw [if_neg (by simp only [Bool.or_eq_true, decide_eq_true_eq]; omega)]
    have h1 : c.start % 2 ^ 32 = c.start := by rw [hs]; omega
    have h2 : c.limit % 2 ^ 32 = c.limit := by rw [hl]; omega
    rw [h1, h2]
  have hexp : exported { c with json := false } = exported c := rfl
  obtain ⟨e'', he''⟩ := Option.isSome_iff_exists.1 ((setEach_ok e' (exported c)).2 (exported_names c))
  refine ⟨e'', ?_, ?_⟩
  · unfold startup
    rw [show socketOk os [] = true from rfl, show fileVars os [] = some [] from rfl]
    simp only [Bool.not_true, Bool.false_eq_true, if_false, setEach, hconf, hexp, he'', Option.map_some]
  · intro name
    rw [setEach_get he'', hget]
    cases lastValue (exported c) name <;> simp

/-! ## Limits, and what is misread -/

theorem number_bounded {cmd : List Pair} {look : Bytes → Option Bytes} {key var v : Bytes} {all : Bool} {most initial n : Nat}
    (hm : levelAll ≤ most ∨ all = false) (h : NumberFrom cmd look key var all most initial n) (hv : says cmd key = some v) : n ≤ most := by
  obtain ⟨_, h | h | h⟩ := h
  · obtain ⟨_, _, h⟩ := h
    rcases h with ⟨ha, _, hn⟩ | ⟨_, _, hn⟩ | ⟨_, _, hn⟩
    · rcases hm with hm | hm
      · omega
      · rw [ha] at hm; exact absurd hm (by decide)
    · omega
    · exact hn
  · rw [hv] at h; exact absurd h.1 (by simp)
  · rw [hv] at h; exact absurd h.1 (by simp)

/-- C125. Numbers given on the command line are within the limits. -/
theorem options_bounded_partial {os : Os} {cmd : List Pair} {env e' : Env} {c : Config} (h : startup os cmd env = some (c, e')) :
    ((says cmd kDebug).isSome → c.debug ≤ 511) ∧ ((says cmd kExit).isSome → c.onExit ≤ 511)
      ∧ ((says cmd kStart).isSome → c.start ≤ 10000) ∧ ((says cmd kLimit).isSome → c.limit ≤ 1000000) := by
  obtain ⟨_, m, e, _, _, hc, _⟩ := startup_parts h
  obtain ⟨hd, _, hx, _, ⟨s, hs, hs'⟩, ⟨l, hl, hl'⟩, _⟩ := (configure_iff os cmd e c).1 hc
  refine ⟨?_, ?_, ?_, ?_⟩ <;> intro hh <;> obtain ⟨v, hv⟩ := Option.isSome_iff_exists.1 hh
  · exact number_bounded (.inl (by decide)) hd hv
  · exact number_bounded (.inl (by decide)) hx hv
  · have := number_bounded (.inr rfl) hs hv
    omega
  · have := number_bounded (.inr rfl) hl hv
    omega

/-- An operating system with one file, `f`, with the text `A = x` and `RRR_START_INTERVAL = 7`, where the run directory is `/r` -/
def exOs : Os :=
  { file := fun n => if n = [102] then some ([65, 32, 61, 32, 120] ++ 10 :: eStart ++ [32, 61, 32, 55]) else some [], connect := fun _ => true, runDir := [47, 114] }

/-- `--environment-file f --debuglevel all --json` -/
def exCmd : List Pair :=
  [{ rule := { short := 0, long := kFile }, values := [[102]] }, { rule := { short := 0, long := kDebug }, values := [[97, 108, 108]] },
    { rule := { short := 0, long := kJson }, values := [] }]

/-- The command line, the environment file, the environment and the defaults are all used. -/
example : (startup exOs exCmd [(eExit, [51]), (eStart, [53]), (eWatchdog, [121, 101, 115])]).map (·.1) =
    some { debug := 511, onExit := 3, start := 7, noWatchdog := true, noRestart := false, levels := false, limit := 1000, json := true, run := [47, 114] } := by
  decide

/-- The variable from the environment file is there. -/
example : ((startup exOs exCmd []).map fun x => getenv x.2 [65]) = some (some [120]) := by decide

example : TextFiles exOs := by
  intro f b h
  unfold exOs at h
  dsimp only at h
  split at h <;> (obtain rfl := Option.some.inj h; decide)

/-- What a program has as configuration when there are no arguments, and one variable -/
def only (var value : Bytes) : Option Config := (startup exOs [] [(var, value)]).map (·.1)

/-- What a program has as configuration when there is one argument, and no variables -/
def onlyArg (key value : Bytes) : Option Config :=
  (startup exOs [{ rule := { short := 0, long := key }, values := [value] }] []).map (·.1)

/-- C125. The full claim fails: the limits do not hold for the environment. A start interval of 20000, a warning limit of 1000001 and a debug level of 512
are refused as arguments and accepted as variables. -/
theorem environment_unlimited :
    onlyArg kStart [50, 48, 48, 48, 48] = none ∧ (only eStart [50, 48, 48, 48, 48]).map (·.start) = some 20000
      ∧ onlyArg kLimit [49, 48, 48, 48, 48, 48, 49] = none ∧ (only eLimit [49, 48, 48, 48, 48, 48, 49]).map (·.limit) = some 1000001
      ∧ onlyArg kDebug [53, 49, 50] = none ∧ (only eDebug [53, 49, 50]).map (·.debug) = some 512 := by
  decide

/-- C125. Large and negative numbers in the environment become other numbers: 4294967296 is no limit at all, and -1 is the largest number. -/
theorem environment_cut :
    (only eLimit [52, 50, 57, 52, 57, 54, 55, 50, 57, 54]).map (·.limit) = some 0 ∧ (only eStart [45, 49]).map (·.start) = some 4294967295
      ∧ only eDebug [45, 49] = none := by
  decide

/-- C125. `all` is understood as debug level on the command line only. -/
theorem environment_all : (onlyArg kDebug [97, 108, 108]).map (·.debug) = some 511 ∧ only eDebug [97, 108, 108] = none := by decide

/-- C125. All words but `no` and 0 mean yes in the environment, also `false`, `off`, and no word at all. -/
theorem environment_false :
    (only eWatchdog [102, 97, 108, 115, 101]).map (·.noWatchdog) = some true ∧ (only eWatchdog [111, 102, 102]).map (·.noWatchdog) = some true
      ∧ (only eWatchdog []).map (·.noWatchdog) = some true ∧ (only eWatchdog [78, 111]).map (·.noWatchdog) = some false := by
  decide

/-- C125. An argument cannot undo a variable which says yes: flags have no values. -/
theorem flags_only_set {os : Os} {cmd : List Pair} {env e' : Env} {c : Config} (h : startup os cmd env = some (c, e')) (hf : says cmd kFile = none)
    {v : Bytes} (hv : getenv env eWatchdog = some v) (hy : ¬ No v) : c.noWatchdog = true := by
  obtain ⟨_, m, e, hm, he, hc, _⟩ := startup_parts h
  unfold fileVars at hm
  rw [says_eq, hf] at hm
  obtain rfl := Option.some.inj hm
  obtain rfl := Option.some.inj he
  obtain ⟨_, _, _, _, _, _, hw, _⟩ := (configure_iff os cmd env c).1 hc
  exact hw.2 (.inr ⟨v, hv, hy⟩)

theorem chop_mem {c : UInt8} (hc : blank c = false) : ∀ {s : Bytes}, c ∈ s → c ∈ chop s := by
  have h : ∀ r : Bytes, c ∈ r → c ∈ r.dropWhile blank := by
    intro r
    induction r with
    | nil => exact fun h => h
    | cons d t ih =>
      intro hm
      rw [List.dropWhile_cons]
      split
      · next hb =>
        rcases List.mem_cons.1 hm with rfl | hm
        · rw [hc] at hb; exact absurd hb (by decide)
        · exact ih hm
      · exact hm
  intro s hs
  unfold chop
  rw [List.mem_reverse]
  exact h _ (by simpa using hs)

theorem linesSay_mem : ∀ {ls : List Bytes} {m : List (Bytes × Bytes)}, linesSay ls = some m → ∀ l ∈ ls, ∃ a, lineSays l = some a ∧ ∀ x ∈ a, x ∈ m := by
  intro ls
  induction ls with
  | nil => intro m _ l hl; cases hl
  | cons k ks ih =>
    intro m h l hl
    rw [linesSay] at h
    cases hk : lineSays k with
    | none => simp [hk] at h
    | some a =>
      cases hks : linesSay ks with
      | none => simp [hk, hks] at h
      | some b =>
        simp only [hk, hks, Option.some.injEq] at h
        subst h
        rcases List.mem_cons.1 hl with rfl | hl
        · exact ⟨a, hk, fun x hx => List.mem_append.2 (.inl hx)⟩
        · obtain ⟨a', h1, h2⟩ := ih hks l hl
          exact ⟨a', h1, fun x hx => List.mem_append.2 (.inr (h2 x hx))⟩

/-- C124. A line which begins with an equal sign is not a comment nor skipped: no program starts with such a file. -/
theorem nameless_line {os : Os} {cmd : List Pair} {env : Env} {f b : Bytes} (hf : says cmd kFile = some f) (hb : os.file f = some b)
    (h0 : (0 : UInt8) ∉ b) {l : Bytes} (hl : l ∈ lines b) (h61 : (l.dropWhile blank).head? = some 61) : startup os cmd env = none := by
  cases h : startup os cmd env with
  | none => rfl
  | some r =>
    exfalso
    obtain ⟨_, m, e, hm, he, _⟩ := startup_parts (c := r.1) (e' := r.2) h
    unfold fileVars at hm
    rw [says_eq, hf] at hm
    dsimp only at hm
    unfold readFile at hm
    rw [hb] at hm
    dsimp only at hm
    split at hm
    · cases hm
    · rw [file_exact b h0] at hm
      obtain ⟨a, ha, hx⟩ := linesSay_mem hm l hl
      have hne : l.dropWhile blank ≠ [] := by intro h; rw [h] at h61; cases h61
      unfold lineSays at ha
      simp only at ha
      rw [if_neg (by rw [h61]; simp [hne]), if_pos (.inr h61)] at ha
      obtain rfl := Option.some.inj ha
      have hok := (setEach_ok env m).1 (by rw [he]; rfl) _ (hx _ (List.mem_singleton.2 rfl))
      apply hok.2
      apply chop_mem (by decide)
      cases ht : l.dropWhile blank with
      | nil => exact absurd ht hne
      | cons c t =>
        rw [ht] at h61
        simp only [List.head?_cons, Option.some.injEq] at h61
        rw [h61]
        exact List.mem_cons_self ..

/-- `=x` is read as a name. -/
example : parseFile [61, 120] = some [([61, 120], [49])] := by decide

/-- C124. A variable cannot be given an empty value, and one such line makes the whole file unusable. -/
theorem empty_value : parseFile [65, 61] = none ∧ parseFile ([66, 61, 49] ++ 10 :: [65, 61]) = none := by decide

/-- C124. Quotes and comments after a value are part of the value, and names keep inner spaces. -/
theorem quotes_kept : parseFile [65, 61, 34, 120, 34, 32, 35, 32, 99] = some [([65], [34, 120, 34, 32, 35, 32, 99])] ∧ parseFile [101, 120, 112, 111, 114, 116, 32, 65, 61, 49] = some [([101, 120, 112, 111, 114, 116, 32, 65], [49])] := by decide

end Verif.Startup
