import Verif.Msgdb.Lemmas
/-!
# C99: the message database

`get_sound`: what is answered was stored last under that very topic; for every hash function. `get_finds_partial`: what was stored is found, if hashes differ and there are no zero bytes. Both for every
history, which may contain failures while writing, restarts with other directory levels, and tidying.
-/
namespace Verif.Msgdb
open Verif Msg

theorem latest_append (t : Bytes) (h : List Op) (o : Op) : latest t (h ++ [o]) = match o with
    | .request m cut => if m.topic = t then (if Stores m cut then some (asMsg m) else if Ends m then none else latest t h) else latest t h
    | _ => latest t h := by
  unfold latest
  rw [List.foldl_append]
  rfl

theorem kept_append (t : Bytes) (h : List Op) (o : Op) : kept t (h ++ [o]) = match o with
    | .request m cut => if m.topic = t then (if Stores m cut then some (asMsg m) else if Ends m then none else kept t h) else kept t h
    | .visit .tidy _ now age => (kept t h).filter (fun m => ¬ Old m now age)
    | _ => kept t h := by
  unfold kept
  rw [List.foldl_append]
  rfl

theorem run_append (sha : Bytes → Bytes) (db : Db) (h : List Op) (o : Op) : run sha db (h ++ [o]) = (step sha (run sha db h) o).1 := by
  unfold run
  rw [List.foldl_append]
  rfl

theorem old_iff (m : MsgMsg) (now : UInt64) (age : UInt32) : ttlOk m now (age.toUInt64 * 1000 * 1000) = true ↔ ¬ Old m now age := by
  rw [ttlOk_iff]
  unfold Old
  have : (age.toUInt64 * 1000 * 1000).toNat = age.toNat * 1000000 := by
    have := age.toNat_lt
    rw [UInt64.toNat_mul, UInt64.toNat_mul, UInt32.toNat_toUInt64]
    show age.toNat * 1000 % 2 ^ 64 * 1000 % 2 ^ 64 = _
    omega
  rw [this]
  omega

/-- What the files say, in terms of the history. -/
structure Inv (sha : Bytes → Bytes) (h : List Op) (db : Db) : Prop where
  levels : db.levels ≤ 4
  wf : Wf db.files
  placed : Placed db.levels db.files
  sound : ∀ n c, Has db.files n c → (∃ m, Valid m ∧ c = content m ∧ fileName sha m.topic = n ∧ latest m.topic h = some m) ∨ (∃ m k, Valid m ∧ k < (content m).length ∧ c = (content m).take k)
  complete : ∀ t m, (∀ o ∈ h, ∀ t', o.topic = some t' → sha t' = sha t → t' = t) → kept t h = some m → Valid m ∧ m.topic = t ∧ Has db.files (fileName sha t) (content m)

theorem topic_empty {m : MsgMsg} (hv : Valid m) : m.topicLength.toNat = 0 ↔ m.topic = [] := by
  have : m.topic.length = m.topicLength.toNat := (consistent_data ⟨hv.size, hv.topic⟩).2.2.2
  rw [← this]
  exact List.length_eq_zero_iff

/-- Events which leave the files as they are and do not change what is known. -/
theorem inv_same {sha : Bytes → Bytes} {h : List Op} {db : Db} (hi : Inv sha h db) {o : Op} (hl : ∀ t, latest t (h ++ [o]) = latest t h)
    (hk : ∀ t m, kept t (h ++ [o]) = some m → kept t h = some m) : Inv sha (h ++ [o]) db := by
  refine ⟨hi.levels, hi.wf, hi.placed, ?_, ?_⟩
  · intro n c hc
    rcases hi.sound n c hc with ⟨m, h1, h2, h3, h4⟩ | h1
    · exact Or.inl ⟨m, h1, h2, h3, by rw [hl]; exact h4⟩
    · exact Or.inr h1
  · intro t m hinj hkm
    exact hi.complete t m (fun o' ho' => hinj o' (List.mem_append.2 (Or.inl ho'))) (hk t m hkm)

theorem inv_put {sha : Bytes → Bytes} (hs : ∀ t, (sha t).length = 32) {h : List Op} {db : Db} (hi : Inv sha h db) {m : MsgMsg} {cut : Option Nat} (hv : Valid m) (ht : m.topic ≠ []) (h4 : m.type = 4) :
    Inv sha (h ++ [.request m cut]) (put db m (fileName sha m.topic) cut).1 := by
  have hav := asMsg_valid hv
  have htop : (asMsg m).topic = m.topic := rfl
  have hlat : ∀ t, latest t (h ++ [.request m cut]) = if m.topic = t then (if Stores m cut then some (asMsg m) else none) else latest t h := by
    intro t
    rw [latest_append]
    simp only [if_pos (show Ends m from ⟨ht, Or.inl h4⟩)]
  have hkep : ∀ t, kept t (h ++ [.request m cut]) = if m.topic = t then (if Stores m cut then some (asMsg m) else none) else kept t h := by
    intro t
    rw [kept_append]
    simp only [if_pos (show Ends m from ⟨ht, Or.inl h4⟩)]
  have hn := fileName_isName hs m.topic
  -- the bytes in the file afterwards
  obtain ⟨c, hfs, hc⟩ : ∃ c, (put db m (fileName sha m.topic) cut).1 = { db with files := db.files.write (pathOf db.levels (fileName sha m.topic)) c } ∧
      ((Stores m cut ∧ c = content (asMsg m)) ∨ (¬ Stores m cut ∧ ∃ k, k < (content (asMsg m)).length ∧ c = (content (asMsg m)).take k)) := by
    unfold put
    rw [toNetwork_content hav]
    cases cut with
    | none => exact ⟨_, rfl, Or.inl ⟨⟨ht, h4, by simp⟩, rfl⟩⟩
    | some k =>
      refine ⟨_, rfl, ?_⟩
      have hcl : (content (asMsg m)).length = m.head.size.toNat := content_length hav
      by_cases hk : m.head.size.toNat ≤ k
      · refine Or.inl ⟨⟨ht, h4, ?_⟩, List.take_of_length_le (by rw [hcl]; exact hk)⟩
        intro k' he
        rw [← Option.some.inj he]
        exact hk
      · refine Or.inr ⟨fun hst => hk (hst.2.2 k rfl), k, ?_, rfl⟩
        rw [hcl]
        omega
  rw [hfs]
  obtain ⟨w1, w2⟩ := write_wf hi.wf hi.placed hi.levels hn c
  refine ⟨hi.levels, w1, w2, ?_, ?_⟩
  · intro n c' hc'
    rcases (has_write hi.placed hn c n c').1 hc' with ⟨h1, h2⟩ | ⟨h1, h2⟩
    · rcases hc with ⟨g1, g2⟩ | ⟨_, k, g2, g3⟩
      · exact Or.inl ⟨asMsg m, hav, by rw [h2, g2], h1.symm, by rw [hlat, if_pos htop.symm, if_pos g1]⟩
      · exact Or.inr ⟨asMsg m, k, hav, g2, by rw [h2, g3]⟩
    · rcases hi.sound n c' h2 with ⟨x, x1, x2, x3, x4⟩ | h3
      · refine Or.inl ⟨x, x1, x2, x3, ?_⟩
        rw [hlat, if_neg]
        · exact x4
        · intro he
          rw [← he] at x3
          exact h1 x3.symm
      · exact Or.inr h3
  · intro t x hinj hkx
    rw [hkep] at hkx
    split at hkx
    · rename_i he
      split at hkx
      · rename_i hst
        obtain rfl := Option.some.inj hkx
        rcases hc with ⟨_, g2⟩ | ⟨g1, _⟩
        · exact ⟨hav, he, (has_write hi.placed hn c _ _).2 (Or.inl ⟨by rw [he], g2.symm⟩)⟩
        · exact absurd hst g1
      · cases hkx
    · rename_i he
      obtain ⟨g1, g2, g3⟩ := hi.complete t x (fun o' ho' => hinj o' (List.mem_append.2 (Or.inl ho'))) hkx
      refine ⟨g1, g2, (has_write hi.placed hn c _ _).2 (Or.inr ⟨?_, g3⟩)⟩
      intro hne
      exact he (hinj (.request m cut) (by simp) m.topic rfl (fileName_inj hne).symm)

theorem inv_del {sha : Bytes → Bytes} (hs : ∀ t, (sha t).length = 32) {h : List Op} {db : Db} (hi : Inv sha h db) {m : MsgMsg} {cut : Option Nat} (ht : m.topic ≠ []) (h5 : m.type = 5) :
    Inv sha (h ++ [.request m cut]) { db with files := db.files.remove (pathOf db.levels (fileName sha m.topic)) } := by
  have hst : ¬ Stores m cut := by
    rintro ⟨_, h4, _⟩
    rw [h5] at h4
    exact absurd h4 (by decide)
  have hlat : ∀ t, latest t (h ++ [.request m cut]) = if m.topic = t then none else latest t h := by
    intro t
    rw [latest_append]
    simp only [if_neg hst, if_pos (show Ends m from ⟨ht, Or.inr h5⟩)]
  have hkep : ∀ t, kept t (h ++ [.request m cut]) = if m.topic = t then none else kept t h := by
    intro t
    rw [kept_append]
    simp only [if_neg hst, if_pos (show Ends m from ⟨ht, Or.inr h5⟩)]
  have hn := fileName_isName hs m.topic
  refine ⟨hi.levels, remove_wf hi.wf _, remove_placed hi.placed _, ?_, ?_⟩
  · intro n c hc
    obtain ⟨h1, h2⟩ := (has_remove hi.placed hn n c).1 hc
    rcases hi.sound n c h2 with ⟨x, x1, x2, x3, x4⟩ | h3
    · refine Or.inl ⟨x, x1, x2, x3, ?_⟩
      rw [hlat, if_neg]
      · exact x4
      · intro he
        rw [← he] at x3
        exact h1 x3.symm
    · exact Or.inr h3
  · intro t x hinj hkx
    rw [hkep] at hkx
    split at hkx
    · cases hkx
    · rename_i he
      obtain ⟨g1, g2, g3⟩ := hi.complete t x (fun o' ho' => hinj o' (List.mem_append.2 (Or.inl ho'))) hkx
      refine ⟨g1, g2, (has_remove hi.placed hn _ _).2 ⟨?_, g3⟩⟩
      intro hne
      exact he (hinj (.request m cut) (by simp) m.topic rfl (fileName_inj hne).symm)

/-- What a look at a file does: nothing, or the file is removed, but not if it has a message which is young. -/
theorem visit_cases (db : Db) (w : Walk) (path : Bytes) (now : UInt64) (age : UInt32) :
    (visit db w path now age).1 = db ∨ ((visit db w path now age).1 = { db with files := db.files.remove path } ∧
      ∀ m, readFile true none (db.files.get path) = .ok m → w = .tidy ∧ Old m now age) := by
  unfold visit
  split
  · rename_i m hm
    split
    · exact Or.inl rfl
    · rename_i ho
      cases w with
      | idx => exact Or.inl rfl
      | tidy =>
        refine Or.inr ⟨rfl, ?_⟩
        intro m' hm'
        rw [hm] at hm'
        cases hm'
        refine ⟨rfl, ?_⟩
        rw [old_iff] at ho
        exact Classical.not_not.1 ho
  · exact Or.inl rfl
  · rename_i hm _
    exact Or.inr ⟨rfl, fun m hm' => absurd hm' (hm m)⟩

theorem inv_visit {sha : Bytes → Bytes} (hs : ∀ t, (sha t).length = 32) {h : List Op} {db : Db} (hi : Inv sha h db) (w : Walk) (path : Bytes) (now : UInt64) (age : UInt32) :
    Inv sha (h ++ [.visit w path now age]) (visit db w path now age).1 := by
  have hl : ∀ t, latest t (h ++ [.visit w path now age]) = latest t h := fun t => latest_append _ _ _
  have hk : ∀ t m, kept t (h ++ [.visit w path now age]) = some m → kept t h = some m ∧ (w = .tidy → ¬ Old m now age) := by
    intro t m hm
    rw [kept_append] at hm
    cases w with
    | idx => exact ⟨hm, fun x => by cases x⟩
    | tidy =>
      have hm' : (kept t h).filter (fun m => ¬ Old m now age) = some m := hm
      rw [Option.filter_eq_some_iff] at hm'
      exact ⟨hm'.1, fun _ => by simpa using hm'.2⟩
  have hsame := inv_same hi hl (fun t m hm => (hk t m hm).1)
  rcases visit_cases db w path now age with h1 | ⟨h1, h2⟩
  · rw [h1]; exact hsame
  · rw [h1]
    refine ⟨hi.levels, remove_wf hi.wf _, remove_placed hi.placed _, ?_, ?_⟩
    · rintro n c ⟨p, hp, hl⟩
      exact hsame.sound n c ⟨p, (mem_remove.1 hp).1, hl⟩
    · intro t m hinj hkm
      obtain ⟨g1, g2, p, hp, hpl⟩ := hsame.complete t m hinj hkm
      refine ⟨g1, g2, p, mem_remove.2 ⟨hp, ?_⟩, hpl⟩
      intro he
      have hget := (get_iff hi.wf p _).2 hp
      rw [show p = path from he] at hget
      have hr := readFile_content g1 true none
      rw [hget] at h2
      obtain ⟨h3, h4⟩ := h2 m hr
      exact (hk t m hkm).2 h3 h4

theorem inv_step {sha : Bytes → Bytes} (hs : ∀ t, (sha t).length = 32) {h : List Op} {db : Db} (hi : Inv sha h db) {o : Op} (ho : ValidOp o) : Inv sha (h ++ [o]) (step sha db o).1 := by
  cases o with
  | visit w path now age => exact inv_visit hs hi w path now age
  | restart attempts levels =>
    obtain ⟨a1, a2⟩ := attempts_keep attempts hi.wf ho.2
    obtain ⟨b1, b2, b3⟩ := restructure_keeps ho.1 a1
    have hhas : ∀ n c, Has (restructure levels (attempts.foldl (fun fs a => restructureCut a.1 a.2 fs) db.files)) n c ↔ Has db.files n c := fun n c => by rw [b3, a2]
    refine ⟨ho.1, b1, b2, ?_, ?_⟩
    · intro n c hc
      have := hi.sound n c ((hhas n c).1 hc)
      simp only [latest_append]
      exact this
    · intro t m hinj hkm
      obtain ⟨g1, g2, g3⟩ := hi.complete t m (fun o' ho' => hinj o' (List.mem_append.2 (Or.inl ho'))) (by rw [kept_append] at hkm; exact hkm)
      exact ⟨g1, g2, (hhas _ _).2 g3⟩
  | request m cut =>
    have hv : Valid m := ho
    show Inv sha _ (request sha db m cut).1
    unfold request
    have hnot : ¬ (m.topic ≠ [] ∧ (m.type = 4 ∨ m.type = 5)) → Inv sha (h ++ [.request m cut]) db := by
      intro hno
      have hst : ¬ Stores m cut := fun hx => hno ⟨hx.1, Or.inl hx.2.1⟩
      refine inv_same hi ?_ ?_
      · intro t
        rw [latest_append]
        simp only [if_neg hst, if_neg (show ¬ Ends m from hno), ite_self]
      · intro t x hx
        rw [kept_append] at hx
        simp only [if_neg hst, if_neg (show ¬ Ends m from hno), ite_self] at hx
        exact hx
    split
    · rename_i h0
      exact hnot (fun x => x.1 ((topic_empty hv).1 h0))
    · rename_i h0
      have ht : m.topic ≠ [] := fun x => h0 ((topic_empty hv).2 x)
      split
      · rename_i h4
        exact inv_put hs hi hv ht h4
      · rename_i h4
        split
        · rename_i h5
          exact inv_del hs hi ht h5
        · rename_i h5
          have := hnot (fun x => x.2.elim h4 h5)
          split <;> exact this

theorem inv_run {sha : Bytes → Bytes} (hs : ∀ t, (sha t).length = 32) {levels : Nat} (hl : levels ≤ 4) (h : List Op) (hv : ∀ o ∈ h, ValidOp o) : Inv sha h (run sha ⟨levels, []⟩ h) := by
  have key : ∀ n (h : List Op), h.length = n → (∀ o ∈ h, ValidOp o) → Inv sha h (run sha ⟨levels, []⟩ h) := by
    intro n
    induction n with
    | zero =>
      intro h hn _
      rw [List.length_eq_zero_iff.1 hn]
      refine ⟨hl, ⟨List.Pairwise.nil, by simp [run]⟩, (by intro e he; cases he), ?_, ?_⟩
      · rintro n c ⟨p, hp, _⟩; cases hp
      · intro t m _ hk; cases hk
    | succ n ih =>
      intro h hn hv
      rcases List.eq_nil_or_concat h with h0 | ⟨h', o, h0⟩
      · rw [h0] at hn; cases hn
      · rw [List.concat_eq_append] at h0
        subst h0
        rw [run_append]
        exact inv_step hs (ih h' (by simpa using hn) (fun o ho => hv o (List.mem_append.2 (Or.inl ho)))) (hv o (by simp))
  exact key _ h rfl hv

theorem strlen_eq {t : Bytes} (h : (0 : UInt8) ∉ t) : strlen t = t.length := by
  unfold strlen
  rw [show t.takeWhile (fun c => c != 0) = t from by
    have := takeWhile_all (p := fun c => c != 0) (l := t) (r := []) (by
      intro c hc
      simp only [bne_iff_ne, ne_eq]
      rintro rfl
      exact h hc)
    simpa using this]

theorem topicIs_iff {m : MsgMsg} (hv : Valid m) {t : Bytes} (h : (0 : UInt8) ∉ t) : topicIs m t = true ↔ m.topic = t := by
  have hl : m.topic.length = m.topicLength.toNat := (consistent_data ⟨hv.size, hv.topic⟩).2.2.2
  unfold topicIs
  rw [strlen_eq h]
  simp only [Bool.and_eq_true, beq_iff_eq]
  constructor
  · rintro ⟨h1, h2⟩
    rw [h2, h1, List.take_length]
  · intro h1
    have : m.topicLength.toNat = t.length := by rw [← hl, h1]
    exact ⟨this, by rw [this, List.take_length]; exact h1⟩

/-- What a GET does. -/
theorem request_get {sha : Bytes → Bytes} {db : Db} {g : MsgMsg} (hg : Valid g) (h3 : g.type = 3) (ht : g.topic ≠ []) (cut : Option Nat) :
    step sha db (.request g cut) = (db, get db (pathOf db.levels (fileName sha g.topic)) (some g.topic)) := by
  show request sha db g cut = _
  unfold request
  rw [if_neg (fun x => ht ((topic_empty hg).1 x)), if_neg (by rw [h3]; decide), if_neg (by rw [h3]; decide), if_pos h3]

/-- **C99.** The answer to a GET is either the message which was stored last under exactly that topic and has been neither replaced nor deleted since, or a negative one. This holds for every history, also
if writing files was cut off at any byte, the server was started again with other directory levels, and for any hash function. Nothing is changed. -/
theorem get_sound (sha : Bytes → Bytes) (hs : ∀ t, (sha t).length = 32) (levels : Nat) (hl : levels ≤ 4) (h : List Op) (hv : ∀ o ∈ h, ValidOp o)
    (g : MsgMsg) (hg : Valid g) (h3 : g.type = 3) (ht : g.topic ≠ []) (hz : (0 : UInt8) ∉ g.topic) (cut : Option Nat) :
    (step sha (run sha ⟨levels, []⟩ h) (.request g cut)).1 = run sha ⟨levels, []⟩ h ∧
    ((step sha (run sha ⟨levels, []⟩ h) (.request g cut)).2 = .nack ∨
      ∃ m, (step sha (run sha ⟨levels, []⟩ h) (.request g cut)).2 = .msg m ∧ latest g.topic h = some m ∧ m.topic = g.topic) := by
  have hi := inv_run hs hl h hv
  generalize run sha ⟨levels, []⟩ h = db at hi
  rw [request_get hg h3 ht]
  refine ⟨rfl, ?_⟩
  have hn := fileName_isName hs g.topic
  show get db _ _ = .nack ∨ ∃ m, get db _ _ = .msg m ∧ _
  unfold get
  cases hc : db.files.get (pathOf db.levels (fileName sha g.topic)) with
  | none => exact Or.inl rfl
  | some c =>
    rcases hi.sound _ c ((has_get hi.wf hi.placed hn).1 hc) with ⟨m, h1, h2, _, h4⟩ | ⟨m, k, h1, h2, h5⟩
    · rw [h2, readFile_content h1]
      show (match (if topicIs m g.topic then Res.ok m else .soft) with | .ok m => Ans.msg m | .oob => .oob | _ => .nack) = .nack ∨ _
      by_cases htp : topicIs m g.topic = true
      · rw [if_pos htp]
        have := (topicIs_iff h1 hz).1 htp
        refine Or.inr ⟨m, by simp only [if_pos htp], ?_, this⟩
        rw [← this]
        exact h4
      · rw [if_neg htp]
        exact Or.inl rfl
    · rw [h5, readFile_cut h1 h2]
      exact Or.inl rfl

/-- **C99.** If no other topic in the history has the same hash, what was stored is found until it is replaced, deleted, or was too old when tidying. -/
theorem get_finds_partial (sha : Bytes → Bytes) (hs : ∀ t, (sha t).length = 32) (levels : Nat) (hl : levels ≤ 4) (h : List Op) (hv : ∀ o ∈ h, ValidOp o)
    (g : MsgMsg) (hg : Valid g) (h3 : g.type = 3) (ht : g.topic ≠ []) (hz : (0 : UInt8) ∉ g.topic) (hinj : ∀ o ∈ h, ∀ t, o.topic = some t → sha t = sha g.topic → t = g.topic) (cut : Option Nat)
    (m : MsgMsg) (hk : kept g.topic h = some m) :
    (step sha (run sha ⟨levels, []⟩ h) (.request g cut)).2 = .msg m := by
  have hi := inv_run hs hl h hv
  generalize run sha ⟨levels, []⟩ h = db at hi
  rw [request_get hg h3 ht]
  obtain ⟨h1, h2, h4⟩ := hi.complete g.topic m hinj hk
  show get db _ _ = _
  unfold get
  rw [(has_get hi.wf hi.placed (fileName_isName hs g.topic)).2 h4, readFile_content h1]
  show (match (if topicIs m g.topic then Res.ok m else .soft) with | .ok m => Ans.msg m | .oob => .oob | _ => .nack) = _
  rw [if_pos ((topicIs_iff h1 hz).2 h2)]

/-- **C99.** PUT and DEL with a topic are acknowledged when they have been carried out, in every state. -/
theorem put_del_answers (sha : Bytes → Bytes) (db : Db) (m : MsgMsg) (hm : Valid m) (ht : m.topic ≠ []) (hty : m.type = 4 ∨ m.type = 5) : (step sha db (.request m none)).2 = .ack := by
  show (request sha db m none).2 = _
  unfold request
  rw [if_neg (fun x => ht ((topic_empty hm).1 x))]
  rcases hty with h4 | h5
  · rw [if_pos h4]
    unfold put
    rw [toNetwork_content (asMsg_valid hm)]
  · rw [if_neg (by rw [h5]; decide), if_pos h5]

/-- **C99.** A PUT is acknowledged only if the message was stored, all of it. -/
theorem acked_is_stored (sha : Bytes → Bytes) (db : Db) (m : MsgMsg) (cut : Option Nat) (hm : Valid m) (h4 : m.type = 4) (h : (step sha db (.request m cut)).2 = .ack) : Stores m cut := by
  change (request sha db m cut).2 = _ at h
  unfold request at h
  by_cases ht : m.topicLength.toNat = 0
  · rw [if_pos ht] at h; cases h
  rw [if_neg ht, if_pos h4] at h
  unfold put at h
  rw [toNetwork_content (asMsg_valid hm)] at h
  cases cut with
  | none => exact ⟨fun x => ht ((topic_empty hm).2 x), h4, fun k hk => by cases hk⟩
  | some k => cases h

/-- Beside `acked_is_stored`: a PUT which is carried out, and one which is cut off. -/
example : (step (fun _ => List.replicate 32 0) ⟨1, []⟩ (.request { head := ⟨31, 2, 0⟩, timestamp := 1, typeAndClass := 4 + 16, version := 0, topicLength := 1, body := [97] } none)).2 = .ack ∧
    (step (fun _ => List.replicate 32 0) ⟨1, []⟩ (.request { head := ⟨31, 2, 0⟩, timestamp := 1, typeAndClass := 4 + 16, version := 0, topicLength := 1, body := [97] } (some 30))).2 = .closed := by
  decide +kernel

/-- **C99.** What is received from clients is valid. -/
theorem received_valid (b : Bytes) (m : MsgMsg) (n : Nat) (h : receive b = .ok (.msg m, n)) : Valid m := by
  unfold receive at h
  obtain ⟨sz, hg, h⟩ := bind_eq_ok h
  split at h
  · cases h
  split at h
  · cases h
  split at h
  · cases h
  obtain ⟨r, h1, he⟩ := map_eq_ok h
  clear h
  injection he with he1 he2
  subst he1 he2
  unfold toHost at h1
  obtain ⟨⟨hd, dc⟩, hh, h2⟩ := bind_eq_ok h1
  obtain ⟨rest, hc, h⟩ := bind_eq_ok h2
  clear h1 h2
  split at h
  · rename_i hty
    obtain ⟨m', hm, he⟩ := map_eq_ok h
    injection he with he
    subst he
    unfold msgToHost at hm
    split at hm
    · cases hm
    rename_i h30
    split at hm
    · cases hm
    rename_i hsz
    unfold msgValidate at hm
    split at hm
    · cases hm
    split at hm
    · cases hm
    rename_i htop
    dsimp only at hm
    split at hm
    · rename_i hall
      injection hm with hm
      subst hm
      simp only [Bool.and_eq_true, Bool.or_eq_true, beq_iff_eq, decide_eq_true_eq] at hall
      have hty' : hd.type = 2 := by simpa using hty
      refine ⟨?_, ?_, hty', hall.1.2, hall.1.1, hall.2⟩
      · show hd.size.toNat = 30 + (rest.drop 12).length
        rw [List.length_drop]
        simp only [headSize, msgMinSize, ne_eq, Classical.not_not] at h30 hsz
        omega
      · show (Endian.at16 rest 10).toNat ≤ (rest.drop 12).length
        have : ¬ (Endian.at16 rest 10).toNat > (rest.drop 12).length := htop
        omega
    · cases hm
  · exfalso
    split at h
    · cases h
    split at h
    · obtain ⟨_, _, he⟩ := map_eq_ok h; cases he
    split at h
    · obtain ⟨_, _, he⟩ := map_eq_ok h; cases he
    split at h
    · obtain ⟨_, _, he⟩ := map_eq_ok h; cases he
    · cases h

/-! ### What fails -/

theorem strlen_lt {t : Bytes} (h : (0 : UInt8) ∈ t) : strlen t < t.length := by
  unfold strlen
  induction t with
  | nil => cases h
  | cons a r ih =>
    by_cases ha : a = 0
    · subst ha; simp
    · rw [List.takeWhile_cons_of_pos (by simpa using ha), List.length_cons, List.length_cons]
      have := ih (by rcases List.mem_cons.1 h with h1 | h1; exact absurd h1.symm ha; exact h1)
      omega

/-- After a PUT the file has the message. -/
theorem put_get {sha : Bytes → Bytes} (hs : ∀ t, (sha t).length = 32) {levels : Nat} (hl : levels ≤ 4) {h : List Op} (hv : ∀ o ∈ h, ValidOp o) {m : MsgMsg} (hm : Valid m) (h4 : m.type = 4) (ht : m.topic ≠ [])
    {n : Bytes} (hn : n = fileName sha m.topic) :
    (run sha ⟨levels, []⟩ (h ++ [.request m none])).files.get (pathOf (run sha ⟨levels, []⟩ (h ++ [.request m none])).levels n) = some (content (asMsg m)) := by
  have hi := inv_run hs hl h hv
  rw [run_append]
  show (request sha _ m none).1.files.get (pathOf (request sha _ m none).1.levels n) = _
  generalize run sha ⟨levels, []⟩ h = db at hi
  unfold request
  rw [if_neg (fun x => ht ((topic_empty hm).1 x)), if_pos h4]
  unfold put
  rw [toNetwork_content (asMsg_valid hm)]
  have hnn := fileName_isName hs m.topic
  obtain ⟨w1, w2⟩ := write_wf hi.wf hi.placed hi.levels hnn (content (asMsg m))
  rw [hn]
  exact (has_get w1 w2 hnn).2 ((has_write hi.placed hnn _ _ _).2 (Or.inl ⟨rfl, rfl⟩))

/-- **C99** fails for topics with a zero byte: a PUT is acknowledged, but a GET for the same topic is refused, whatever the history and the hash function. -/
theorem zero_in_topic_lost (sha : Bytes → Bytes) (hs : ∀ t, (sha t).length = 32) (levels : Nat) (hl : levels ≤ 4) (h : List Op) (hv : ∀ o ∈ h, ValidOp o)
    (m g : MsgMsg) (hm : Valid m) (h4 : m.type = 4) (hg : Valid g) (h3 : g.type = 3) (ht : g.topic = m.topic) (hz : (0 : UInt8) ∈ m.topic) (cut : Option Nat) :
    (step sha (run sha ⟨levels, []⟩ h) (.request m none)).2 = .ack ∧ (step sha (run sha ⟨levels, []⟩ (h ++ [.request m none])) (.request g cut)).2 = .nack := by
  have hne : m.topic ≠ [] := by intro h0; rw [h0] at hz; cases hz
  refine ⟨put_del_answers sha _ m hm hne (Or.inl h4), ?_⟩
  have hp := put_get hs hl hv hm h4 hne (n := fileName sha g.topic) (by rw [ht])
  rw [request_get hg h3 (by rw [ht]; exact hne)]
  show get _ _ _ = _
  unfold get
  rw [hp, readFile_content (asMsg_valid hm)]
  show (match (if topicIs (asMsg m) g.topic then Res.ok _ else .soft) with | .ok m => Ans.msg m | .oob => .oob | _ => .nack) = _
  have hno : topicIs (asMsg m) g.topic = false := by
    have h1 : m.topic.length = m.topicLength.toNat := (consistent_data ⟨hm.size, hm.topic⟩).2.2.2
    have h2 := strlen_lt hz
    unfold topicIs
    rw [ht]
    have : ((asMsg m).topicLength.toNat == strlen m.topic) = false := by
      show (m.topicLength.toNat == strlen m.topic) = false
      simp only [beq_eq_false_iff_ne, ne_eq]
      omega
    rw [this]
    rfl
  rw [hno]
  rfl

/-- A PUT which is cut off loses the message stored before: neither the old nor the new message is found afterwards. -/
theorem cut_put_loses_old (sha : Bytes → Bytes) (hs : ∀ t, (sha t).length = 32) (levels : Nat) (hl : levels ≤ 4) (h : List Op) (hv : ∀ o ∈ h, ValidOp o)
    (m g : MsgMsg) (hm : Valid m) (h4 : m.type = 4) (hg : Valid g) (h3 : g.type = 3) (ht : g.topic = m.topic) (hne : m.topic ≠ []) (hz : (0 : UInt8) ∉ m.topic) (k : Nat) (hk : k < m.head.size.toNat) (cut : Option Nat) :
    (step sha (run sha ⟨levels, []⟩ (h ++ [.request m (some k)])) (.request g cut)).2 = .nack := by
  rcases (get_sound sha hs levels hl (h ++ [.request m (some k)]) (by
      intro o ho
      rcases List.mem_append.1 ho with h1 | h1
      · exact hv o h1
      · rw [List.mem_singleton.1 h1]; exact hm) g hg h3 (by rw [ht]; exact hne) (by rw [ht]; exact hz) cut).2 with h1 | ⟨x, _, h2, _⟩
  · exact h1
  · rw [latest_append] at h2
    have hst : ¬ Stores m (some k) := by
      rintro ⟨_, _, h5⟩
      have := h5 k rfl
      omega
    simp only [if_pos ht.symm, if_neg hst, if_pos (show Ends m from ⟨hne, Or.inl h4⟩)] at h2
    cases h2

/-- If the hashes of two topics are the same, a message under one replaces that under the other. -/
theorem collision_loses (sha : Bytes → Bytes) (hs : ∀ t, (sha t).length = 32) (levels : Nat) (hl : levels ≤ 4) (h : List Op) (hv : ∀ o ∈ h, ValidOp o)
    (m g : MsgMsg) (hm : Valid m) (h4 : m.type = 4) (hg : Valid g) (h3 : g.type = 3) (hsame : sha g.topic = sha m.topic) (hd : g.topic ≠ m.topic) (hne : m.topic ≠ []) (hne' : g.topic ≠ []) (hz : (0 : UInt8) ∉ g.topic) (cut : Option Nat) :
    (step sha (run sha ⟨levels, []⟩ (h ++ [.request m none])) (.request g cut)).2 = .nack := by
  have hp := put_get hs hl hv hm h4 hne (n := fileName sha g.topic) (by unfold fileName; rw [hsame])
  rw [request_get hg h3 hne']
  show get _ _ _ = _
  unfold get
  rw [hp, readFile_content (asMsg_valid hm)]
  show (match (if topicIs (asMsg m) g.topic then Res.ok _ else .soft) with | .ok m => Ans.msg m | .oob => .oob | _ => .nack) = _
  rw [if_neg (fun x => hd ((topicIs_iff (asMsg_valid hm) hz).1 x).symm)]

/-! ### Examples -/

/-- A function which is good enough as a hash of short topics. -/
def toyHash (t : Bytes) : Bytes := (t ++ List.replicate 32 7).take 32

theorem toyHash_length (t : Bytes) : (toyHash t).length = 32 := by
  unfold toyHash
  rw [List.length_take, List.length_append, List.length_replicate]
  omega

/-- A message with class 1. -/
def mk (type : UInt8) (stamp : UInt64) (topic data : Bytes) : MsgMsg :=
  (newWithData type 1 stamp topic data).getD ⟨⟨0, 0, 0⟩, 0, 0, 0, 0, []⟩

/-- Two topics, an overwritten message, a deleted one, a PUT which is cut off, tidying and two restarts. -/
def exHistory : List Op :=
  [.request (mk 4 5000000 [97] [1]) none, .request (mk 4 9000000 [97] [2, 3]) none, .request (mk 4 5000000 [98] [4]) none, .request (mk 4 5000000 [99] [5]) none, .restart [(2, 1)] 1,
   .request (mk 5 0 [98] []) none, .visit .tidy (pathOf 1 (fileName toyHash [97])) 10000000 2, .visit .tidy (pathOf 1 (fileName toyHash [99])) 10000000 2, .request (mk 4 5000000 [100] [6]) none,
   .request (mk 4 5000000 [100] [7]) (some 10), .restart [] 3]

def exDb : Db := run toyHash ⟨0, []⟩ exHistory

example : (step toyHash exDb (.request (mk 3 0 [97] []) none)).2 = .msg (mk 1 9000000 [97] [2, 3]) := by decide +kernel
example : (step toyHash exDb (.request (mk 3 0 [98] []) none)).2 = .nack := by decide +kernel
example : (step toyHash exDb (.request (mk 3 0 [99] []) none)).2 = .nack := by decide +kernel
example : (step toyHash exDb (.request (mk 3 0 [100] []) none)).2 = .nack := by decide +kernel
example : kept [97] exHistory = some (mk 1 9000000 [97] [2, 3]) ∧ latest [98] exHistory = none ∧ latest [100] exHistory = none := by decide +kernel
example : kept [99] exHistory = none ∧ latest [99] exHistory = some (mk 1 5000000 [99] [5]) := by decide +kernel
example : Valid (mk 4 9000000 [97] [2, 3]) ∧ (mk 3 0 [97] []).type = 3 ∧ (mk 4 9000000 [97] [2, 3]).topic ≠ [] :=
  ⟨⟨by decide +kernel, by decide +kernel, by decide +kernel, by decide +kernel, by decide +kernel, by decide +kernel⟩, by decide +kernel, by decide +kernel⟩
/-- A topic with a zero byte is valid for the receiver. -/
example : Valid (mk 4 1 [97, 0, 98] [2]) ∧ (0 : UInt8) ∈ (mk 4 1 [97, 0, 98] [2]).topic :=
  ⟨⟨by decide +kernel, by decide +kernel, by decide +kernel, by decide +kernel, by decide +kernel, by decide +kernel⟩, by decide +kernel⟩

end Verif.Msgdb
