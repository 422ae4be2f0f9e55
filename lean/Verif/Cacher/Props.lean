import Verif.Cacher.Spec
/-!
# C98: the cacher answers with the latest message

`request_answered_partial`: for every history. `zero_in_topic_removes` and `zero_in_topic_answers` show what happens with zero bytes in topics.
-/
namespace Verif.Cacher
open Verif

theorem ttlOk_iff (m : Msg) (now ttl : Nat) : ttlOk m now ttl = true ↔ Fresh m now ttl := by
  unfold ttlOk Fresh
  split
  · simp; omega
  · split
    · simp; omega
    · simp; omega

theorem cstr_of_noZero {t : Bytes} (h : (0 : UInt8) ∉ t) : cstr t = t := by
  unfold cstr
  induction t with
  | nil => rfl
  | cons a r ih =>
    simp only [List.mem_cons, not_or] at h
    rw [List.takeWhile_cons_of_pos (by simpa using fun he => h.1 he.symm), ih h.2]

theorem topicEquals_iff {m : Msg} {t : Bytes} (h : (0 : UInt8) ∉ t) : topicEquals m t = true ↔ m.topic = t := by
  unfold topicEquals
  rw [cstr_of_noZero h]
  simp

/-- Each topic once. -/
def Unique (cache : List Msg) : Prop := cache.Pairwise (fun a b => a.topic ≠ b.topic)

theorem Unique.inj {cache : List Msg} (h : Unique cache) {a b : Msg} (ha : a ∈ cache) (hb : b ∈ cache) (hab : a.topic = b.topic) : a = b := by
  induction cache with
  | nil => cases ha
  | cons c t ih =>
    have h' := List.pairwise_cons.1 h
    rcases List.mem_cons.1 ha with h1 | h1 <;> rcases List.mem_cons.1 hb with h2 | h2
    · rw [h1, h2]
    · subst h1; exact absurd hab (h'.1 b h2)
    · subst h2; exact absurd hab.symm (h'.1 a h1)
    · exact ih h'.2 h1 h2

theorem tidyLoop_eq (now ttl : Nat) (cache : List Msg) : tidyLoop now ttl cache = cache.filter (fun e => ttlOk e now ttl) := by
  induction cache with
  | nil => rfl
  | cons a t ih =>
    unfold tidyLoop
    split
    · rename_i h; rw [List.filter_cons_of_pos (by exact h), ih]
    · rename_i h; rw [List.filter_cons_of_neg (by exact h), ih]

theorem getLoop_none {now ttl : Nat} {t : Bytes} {cache : List Msg} (h : (getLoop now ttl t cache).1 = none) : ∀ e ∈ cache, topicEquals e t = true → ttlOk e now ttl = false := by
  induction cache with
  | nil => intro e he; cases he
  | cons a r ih =>
    unfold getLoop at h
    intro e he
    split at h
    · split at h
      · cases h
      · rename_i h1
        rcases List.mem_cons.1 he with h2 | h2
        · subst h2; intro h3; exact absurd h3 h1
        · exact ih h e h2
    · rename_i h1
      rcases List.mem_cons.1 he with h2 | h2
      · subst h2; intro _; simpa using h1
      · exact ih h e h2

theorem getLoop_some {now ttl : Nat} {t : Bytes} {cache : List Msg} {m : Msg} (h : (getLoop now ttl t cache).1 = some m) : m ∈ cache ∧ topicEquals m t = true ∧ ttlOk m now ttl = true := by
  induction cache with
  | nil => cases h
  | cons a r ih =>
    unfold getLoop at h
    split at h
    · split at h
      · obtain rfl := Option.some.inj h
        exact ⟨List.mem_cons_self, by assumption, by assumption⟩
      · have := ih h; exact ⟨List.mem_cons_of_mem _ this.1, this.2⟩
    · have := ih h; exact ⟨List.mem_cons_of_mem _ this.1, this.2⟩

/-- The search only removes what is too old. -/
theorem getLoop_cache (now ttl : Nat) (t : Bytes) (cache : List Msg) :
    (getLoop now ttl t cache).2.Sublist cache ∧ ∀ e ∈ cache, ttlOk e now ttl = true → e ∈ (getLoop now ttl t cache).2 := by
  induction cache with
  | nil => exact ⟨List.Sublist.refl _, by simp⟩
  | cons a r ih =>
    unfold getLoop
    split
    · split
      · exact ⟨List.Sublist.refl _, fun e he _ => he⟩
      · refine ⟨ih.1.cons_cons a, ?_⟩
        intro e he ho
        rcases List.mem_cons.1 he with h | h
        · subst h; exact List.mem_cons_self
        · exact List.mem_cons_of_mem _ (ih.2 e h ho)
    · rename_i h1
      refine ⟨ih.1.cons a, ?_⟩
      intro e he ho
      rcases List.mem_cons.1 he with h | h
      · subst h; exact absurd ho h1
      · exact ih.2 e h ho

theorem dropLoop_mem {t : Bytes} (hz : (0 : UInt8) ∉ t) {cache : List Msg} (hu : Unique cache) (e : Msg) : e ∈ dropLoop t cache ↔ e ∈ cache ∧ e.topic ≠ t := by
  induction cache with
  | nil => simp [dropLoop]
  | cons a r ih =>
    have h' := List.pairwise_cons.1 hu
    unfold dropLoop
    split
    · rename_i h
      rw [topicEquals_iff hz] at h
      constructor
      · intro he
        refine ⟨List.mem_cons_of_mem _ he, ?_⟩
        have := h'.1 e he
        rw [h] at this
        exact fun x => this x.symm
      · rintro ⟨h1, h2⟩
        rcases List.mem_cons.1 h1 with h3 | h3
        · subst h3; exact absurd h h2
        · exact h3
    · rename_i h
      rw [topicEquals_iff hz] at h
      rw [List.mem_cons, ih h'.2, List.mem_cons]
      constructor
      · rintro (h1 | ⟨h1, h2⟩)
        · subst h1; exact ⟨Or.inl rfl, h⟩
        · exact ⟨Or.inr h1, h2⟩
      · rintro ⟨h1 | h1, h2⟩
        · exact Or.inl h1
        · exact Or.inr ⟨h1, h2⟩

theorem dropLoop_sublist (t : Bytes) (cache : List Msg) : (dropLoop t cache).Sublist cache := by
  induction cache with
  | nil => exact List.Sublist.refl _
  | cons a r ih =>
    unfold dropLoop
    split
    · exact List.sublist_cons_self _ _
    · exact ih.cons_cons a

/-- The cache agrees with a history up to a time. -/
structure Agrees (c : Config) (h : List Ev) (now : Nat) (cache : List Msg) : Prop where
  unique : Unique cache
  known : ∀ e ∈ cache, latest c e.topic h = some e
  kept : ∀ t m, latest c t h = some m → m ∈ cache ∨ ¬ Fresh m now c.memoryTtl

theorem latest_append (c : Config) (t : Bytes) (h : List Ev) (e : Ev) :
    latest c t (h ++ [e]) = match updates c e with
      | some m => if m.topic = t then (if deletes c m then none else some m) else latest c t h
      | none => latest c t h := by
  unfold latest
  rw [List.foldl_append]
  rfl

theorem updates_msg (c : Config) (now : Nat) (m : Msg) (dbOk : Bool) : updates c (.msg now m dbOk) =
    if (c.ttl = 0 ∨ Fresh m now c.ttl) ∧ m.topic ≠ [] ∧ ¬ (c.requestTag = true ∧ m.request = true) ∧ c.noUpdate = false ∧ dbOk = true then some m else none := rfl

theorem latest_topic {c : Config} {t : Bytes} {h : List Ev} {m : Msg} (hl : latest c t h = some m) : m.topic = t := by
  have key : ∀ n (h : List Ev), h.length = n → latest c t h = some m → m.topic = t := by
    intro n
    induction n with
    | zero =>
      intro h hn hl
      rw [List.length_eq_zero_iff.1 hn] at hl
      cases hl
    | succ n ih =>
      intro h hn hl
      rcases List.eq_nil_or_concat h with h0 | ⟨h', e, h0⟩
      · rw [h0] at hl; cases hl
      · subst h0
        rw [List.concat_eq_append, latest_append] at hl
        have hn' : h'.length = n := by simpa using hn
        split at hl
        · split at hl
          · split at hl
            · cases hl
            · rename_i h1 _
              obtain rfl := Option.some.inj hl
              exact h1
          · exact ih h' hn' hl
        · exact ih h' hn' hl
  exact key _ h rfl hl

theorem fresh_mono {m : Msg} {a b ttl : Nat} (h : a ≤ b) (hf : ¬ Fresh m a ttl) : ¬ Fresh m b ttl := by
  unfold Fresh at *
  omega

/-- Removing only what is too old. -/
theorem agrees_sub {c : Config} {h : List Ev} {now now' : Nat} {cache cache' : List Msg} (ha : Agrees c h now cache) (hle : now ≤ now') (hs : cache'.Sublist cache)
    (hk : ∀ e ∈ cache, ttlOk e now' c.memoryTtl = true → e ∈ cache') : Agrees c h now' cache' := by
  refine ⟨List.Pairwise.sublist hs ha.unique, fun e he => ha.known e (hs.subset he), ?_⟩
  intro t m hm
  rcases ha.kept t m hm with h1 | h1
  · by_cases hf : Fresh m now' c.memoryTtl
    · exact Or.inl (hk m h1 ((ttlOk_iff _ _ _).2 hf))
    · exact Or.inr hf
  · exact Or.inr (fresh_mono hle h1)

theorem agrees_same {c : Config} {h : List Ev} {e : Ev} {now : Nat} {cache : List Msg} (ha : Agrees c h now cache) (hu : updates c e = none) : Agrees c (h ++ [e]) now cache := by
  have : ∀ t, latest c t (h ++ [e]) = latest c t h := by
    intro t
    rw [latest_append, hu]
  exact ⟨ha.unique, fun x hx => by rw [this]; exact ha.known x hx, fun t m hm => ha.kept t m (by rw [← this]; exact hm)⟩

theorem agrees_step {c : Config} (hm : 0 < c.memoryTtl) {h : List Ev} {now : Nat} {cache : List Msg} (ha : Agrees c h now cache) {e : Ev} (hle : now ≤ e.time) (hz : NoZero e) :
    Agrees c (h ++ [e]) e.time (step c cache e).1 := by
  have hkeep : Agrees c h e.time cache := agrees_sub ha hle (List.Sublist.refl _) (fun x hx _ => hx)
  cases e with
  | tidy t =>
    have : updates c (.tidy t) = none := rfl
    simp only [step, if_pos hm]
    rw [tidyLoop_eq]
    exact agrees_same (agrees_sub ha hle List.filter_sublist (fun x hx ho => List.mem_filter.2 ⟨hx, ho⟩)) this
  | msg t m dbOk =>
    simp only [step, process]
    split
    · rename_i h1
      simp only [Bool.and_eq_true, decide_eq_true_eq, Bool.not_eq_true'] at h1
      refine agrees_same hkeep ?_
      rw [updates_msg]
      rw [if_neg]
      rintro ⟨h2 | h2, _⟩
      · omega
      · rw [(ttlOk_iff _ _ _).2 h2] at h1
        cases h1.2
    · rename_i h1
      split
      · rename_i h2
        refine agrees_same hkeep ?_
        rw [updates_msg]
        rw [if_neg]
        rintro ⟨_, h3, _⟩
        exact h3 (List.length_eq_zero_iff.1 h2)
      · rename_i h2
        split
        · rename_i h3
          simp only [Bool.and_eq_true] at h3
          have hu : updates c (.msg t m dbOk) = none := by
            rw [updates_msg]
            rw [if_neg]
            rintro ⟨_, _, h4, _⟩
            exact h4 h3
          have hg := getLoop_cache t c.memoryTtl m.topic cache
          have hag := agrees_same (agrees_sub ha hle hg.1 hg.2) hu
          have hlk : lookup c cache t m.topic = getLoop t c.memoryTtl m.topic cache := if_pos hm
          rw [hlk]
          cases hg2 : getLoop t c.memoryTtl m.topic cache with
          | mk o cache' =>
            rw [hg2] at hag
            cases o <;> exact hag
        · rename_i h3
          simp only [Bool.and_eq_true] at h3
          split
          · rename_i h4
            refine agrees_same hkeep ?_
            rw [updates_msg]
            rw [if_neg]
            rintro ⟨_, _, _, h5, _⟩
            rw [h4] at h5
            cases h5
          · rename_i h4
            split
            · rename_i h5
              refine agrees_same hkeep ?_
              rw [updates_msg]
              rw [if_neg]
              rintro ⟨_, _, _, _, h6⟩
              rw [h6] at h5
              cases h5
            · rename_i h5
              have hu : updates c (.msg t m dbOk) = some m := by
                rw [updates_msg]
                rw [if_pos]
                refine ⟨?_, ?_, h3, by simpa using h4, by simpa using h5⟩
                · by_cases h6 : c.ttl = 0
                  · exact Or.inl h6
                  · refine Or.inr ((ttlOk_iff _ _ _).1 ?_)
                    simp only [Bool.and_eq_true, decide_eq_true_eq, Bool.not_eq_true', not_and, Bool.not_eq_false] at h1
                    exact h1 (by omega)
                · intro h6; exact h2 (by rw [h6]; rfl)
              show Agrees c _ _ (saved c cache m)
              rw [show saved c cache m = save cache m (isDelete c m) from if_pos hm]
              have hd : isDelete c m = true ↔ deletes c m := by
                unfold isDelete deletes
                simp only [Bool.and_eq_true, List.isEmpty_iff]
                exact And.comm
              have hl : ∀ t', latest c t' (h ++ [.msg t m dbOk]) = if m.topic = t' then (if deletes c m then none else some m) else latest c t' h := by
                intro t'
                rw [latest_append, hu]
              have hmem := dropLoop_mem (t := m.topic) hz ha.unique
              have hun : Unique (dropLoop m.topic cache) := List.Pairwise.sublist (dropLoop_sublist _ _) ha.unique
              unfold save
              split
              · rename_i h6
                refine ⟨hun, ?_, ?_⟩
                · intro e he
                  obtain ⟨h7, h8⟩ := (hmem e).1 he
                  rw [hl, if_neg (fun x => h8 x.symm)]
                  exact ha.known e h7
                · intro t' m' hm'
                  rw [hl] at hm'
                  split at hm'
                  · rw [if_pos (hd.1 h6)] at hm'; cases hm'
                  · rename_i h7
                    rcases hkeep.kept t' m' hm' with h8 | h8
                    · refine Or.inl ((hmem m').2 ⟨h8, ?_⟩)
                      rw [latest_topic hm']
                      exact fun x => h7 x.symm
                    · exact Or.inr h8
              · rename_i h6
                have h6' : ¬ deletes c m := fun x => h6 (hd.2 x)
                refine ⟨?_, ?_, ?_⟩
                · refine List.pairwise_append.2 ⟨hun, by simp, ?_⟩
                  intro a haa b hb
                  simp only [List.mem_singleton] at hb
                  subst hb
                  exact ((hmem a).1 haa).2
                · intro e he
                  rcases List.mem_append.1 he with h7 | h7
                  · obtain ⟨h8, h9⟩ := (hmem e).1 h7
                    rw [hl, if_neg (fun x => h9 x.symm)]
                    exact ha.known e h8
                  · simp only [List.mem_singleton] at h7
                    subst h7
                    rw [hl, if_pos rfl, if_neg h6']
                · intro t' m' hm'
                  rw [hl] at hm'
                  split at hm'
                  · try rw [if_neg h6'] at hm'
                    obtain rfl := Option.some.inj hm'
                    exact Or.inl (by simp)
                  · rename_i h7
                    rcases hkeep.kept t' m' hm' with h8 | h8
                    · refine Or.inl (List.mem_append.2 (Or.inl ((hmem m').2 ⟨h8, ?_⟩)))
                      rw [latest_topic hm']
                      exact fun x => h7 x.symm
                    · exact Or.inr h8

theorem agrees_run {c : Config} (hm : 0 < c.memoryTtl) (es : List Ev) : ∀ {h : List Ev} {now : Nat} {cache : List Msg}, Agrees c h now cache → (∀ e ∈ es, now ≤ e.time) → Ordered es →
    (∀ e ∈ es, NoZero e) → ∃ now', (now' = now ∨ ∃ e ∈ es, now' = e.time) ∧ Agrees c (h ++ es) now' (run c cache es) := by
  induction es with
  | nil => intro h now cache ha _ _ _; exact ⟨now, Or.inl rfl, by rw [List.append_nil]; exact ha⟩
  | cons e es ih =>
    intro h now cache ha hle ho hz
    have ho' := List.pairwise_cons.1 ho
    have h1 := agrees_step hm ha (hle e List.mem_cons_self) (hz e List.mem_cons_self)
    obtain ⟨now', h2, h3⟩ := ih h1 (fun x hx => ho'.1 x hx) ho'.2 (fun x hx => hz x (List.mem_cons_of_mem _ hx))
    rw [List.append_assoc] at h3
    refine ⟨now', ?_, h3⟩
    rcases h2 with h2 | ⟨x, hx, h2⟩
    · exact Or.inr ⟨e, List.mem_cons_self, h2⟩
    · exact Or.inr ⟨x, List.mem_cons_of_mem _ hx, h2⟩

/-- **C98.** A request for a topic is answered from memory with the last message with exactly that topic, if there is one which has not been deleted and is younger than the limit. Otherwise, and only
then, the database is asked. -/
theorem request_answered_partial (c : Config) (hm : 0 < c.memoryTtl) (h : List Ev) (now : Nat) (m : Msg) (dbOk : Bool) (ho : Ordered (h ++ [.msg now m dbOk])) (hz : ∀ e ∈ h ++ [Ev.msg now m dbOk], NoZero e)
    (hreq : c.requestTag = true ∧ m.request = true) (ht : m.topic ≠ []) (hf : c.ttl = 0 ∨ Fresh m now c.ttl) :
    (step c (run c [] h) (.msg now m dbOk)).2 =
      match latest c m.topic h with
      | some x => if Fresh x now c.memoryTtl then .found x :: (if c.memoryConsume = false ∧ c.forwardRequests = true then [.forward .requests m] else [])
          else .dbGet m.topic :: (if c.forwardRequests = true then [.forward .requests m] else [])
      | none => .dbGet m.topic :: (if c.forwardRequests = true then [.forward .requests m] else []) := by
  have ho' := List.pairwise_append.1 ho
  have h0 : Agrees c [] 0 [] := ⟨List.Pairwise.nil, by simp, by intro t m hm; cases hm⟩
  obtain ⟨now', h1, h2⟩ := agrees_run hm h h0 (fun _ _ => Nat.zero_le _) ho'.1 (fun e he => hz e (List.mem_append.2 (Or.inl he)))
  rw [List.nil_append] at h2
  have hle : now' ≤ now := by
    rcases h1 with h1 | ⟨e, he, h1⟩
    · omega
    · rw [h1]; exact ho'.2.2 e he _ List.mem_cons_self
  have hzm : (0 : UInt8) ∉ m.topic := hz (.msg now m dbOk) (by simp)
  generalize run c [] h = cache at h2
  simp only [step, process]
  rw [if_neg (by
    simp only [Bool.and_eq_true, decide_eq_true_eq, Bool.not_eq_true', not_and, Bool.not_eq_false]
    intro h3
    rcases hf with h4 | h4
    · omega
    · exact (ttlOk_iff _ _ _).2 h4), if_neg (by intro h3; exact ht (List.length_eq_zero_iff.1 h3)), if_pos (by simp [hreq.1, hreq.2]), show lookup c cache now m.topic = getLoop now c.memoryTtl m.topic cache from if_pos hm]
  have hfw : ∀ b : Bool, forwardIf b .requests m = if b = true then [.forward .requests m] else [] := fun _ => rfl
  cases hg : getLoop now c.memoryTtl m.topic cache with
  | mk o cache' =>
    cases o with
    | some x =>
      obtain ⟨g1, g2, g3⟩ := getLoop_some (now := now) (ttl := c.memoryTtl) (t := m.topic) (cache := cache) (m := x) (by rw [hg])
      rw [topicEquals_iff hzm] at g2
      have := h2.known x g1
      rw [g2] at this
      rw [this]
      simp only [if_pos ((ttlOk_iff _ _ _).1 g3), hfw]
      congr 1
      cases c.memoryConsume <;> cases c.forwardRequests <;> rfl
    | none =>
      have gn := getLoop_none (now := now) (ttl := c.memoryTtl) (t := m.topic) (cache := cache) (by rw [hg])
      simp only [cstr_of_noZero hzm, hfw]
      cases hl : latest c m.topic h with
      | none => rfl
      | some x =>
        have hnf : ¬ Fresh x now c.memoryTtl := by
          intro hfr
          rcases h2.kept _ _ hl with h3 | h3
          · have := gn x h3 ((topicEquals_iff hzm).2 (latest_topic hl))
            rw [(ttlOk_iff _ _ _).2 hfr] at this
            cases this
          · exact fresh_mono hle h3 hfr
        simp only [if_neg hnf]

/-- **C98.** Memory holds at most one message for each topic, whatever the history. -/
theorem one_per_topic_partial (c : Config) (hm : 0 < c.memoryTtl) (h : List Ev) (ho : Ordered h) (hz : ∀ e ∈ h, NoZero e) : ((run c [] h).map Msg.topic).Nodup := by
  have h0 : Agrees c [] 0 [] := ⟨List.Pairwise.nil, by simp, by intro t m hm; cases hm⟩
  obtain ⟨_, _, h2⟩ := agrees_run hm h h0 (fun _ _ => Nat.zero_le _) ho hz
  unfold List.Nodup
  rw [List.pairwise_map]
  exact h2.unique

/-- **C98.** A message which is not a request and is not too old is stored, or deleted if it is empty and that is the setting, exactly if it updates; it is then forwarded as data. Otherwise it is
forwarded with the others, if that is the setting. -/
theorem other_messages (c : Config) (cache : List Msg) (now : Nat) (m : Msg) (dbOk : Bool) (hreq : ¬ (c.requestTag = true ∧ m.request = true)) (hf : c.ttl = 0 ∨ Fresh m now c.ttl) :
    (step c cache (.msg now m dbOk)).2 =
      if m.topic = [] ∨ c.noUpdate = true then (if c.forwardOther = true then [.forward .other m] else [])
      else if dbOk = true then (if deletes c m then Out.dbDelete m else .dbPut m) :: (if c.forwardData = true then [.forward .data m] else [])
      else [] := by
  simp only [step, process]
  rw [if_neg (by
    simp only [Bool.and_eq_true, decide_eq_true_eq, Bool.not_eq_true', not_and, Bool.not_eq_false]
    intro h3
    rcases hf with h4 | h4
    · omega
    · exact (ttlOk_iff _ _ _).2 h4)]
  by_cases ht : m.topic = []
  · rw [if_pos (by rw [ht]; rfl), if_pos (Or.inl ht)]
    rfl
  · rw [if_neg (fun x => ht (List.length_eq_zero_iff.1 x)), if_neg (by simpa using hreq)]
    by_cases hn : c.noUpdate = true
    · rw [if_pos hn, if_pos (Or.inr hn)]
      rfl
    · have hc : ¬ (m.topic = [] ∨ c.noUpdate = true) := fun x => x.elim ht hn
      rw [if_neg hn]
      rw [if_neg hc]
      cases dbOk with
      | false => rfl
      | true =>
        have hd : isDelete c m = true ↔ deletes c m := by
          unfold isDelete deletes
          simp only [Bool.and_eq_true, List.isEmpty_iff]
          exact And.comm
        simp only [Bool.not_true, Bool.false_eq_true, if_false, if_true, forwardIf, hd]

/-- **C98.** A message which is too old has no effect. -/
theorem too_old (c : Config) (cache : List Msg) (now : Nat) (m : Msg) (dbOk : Bool) (h0 : 0 < c.ttl) (hf : ¬ Fresh m now c.ttl) : step c cache (.msg now m dbOk) = (cache, []) := by
  simp only [step, process]
  rw [if_pos]
  simp only [Bool.and_eq_true, decide_eq_true_eq, Bool.not_eq_true']
  refine ⟨h0, ?_⟩
  cases h : ttlOk m now c.ttl with
  | false => rfl
  | true => exact absurd ((ttlOk_iff _ _ _).1 h) hf

/-! ### Examples -/

def conf : Config := { memoryTtl := 100, ttl := 1000, forwardRequests := true, emptyIsDelete := true }
def hist : List Ev :=
  [.msg 10 ⟨[97], 10, [1], false⟩ true, .msg 11 ⟨[98], 11, [2], false⟩ true, .msg 12 ⟨[97], 12, [3], false⟩ true, .msg 13 ⟨[98], 13, [], false⟩ true, .tidy 14]

/-- The latest message, one which was deleted, and one which is too old for memory. -/
example : (step conf (run conf [] hist) (.msg 20 ⟨[97], 20, [], true⟩ true)).2 = [.found ⟨[97], 12, [3], false⟩, .forward .requests ⟨[97], 20, [], true⟩] := by decide
example : (step conf (run conf [] hist) (.msg 20 ⟨[98], 20, [], true⟩ true)).2 = [.dbGet [98], .forward .requests ⟨[98], 20, [], true⟩] := by decide
example : (step conf (run conf [] hist) (.msg 113 ⟨[97], 113, [], true⟩ true)).2 = [.dbGet [97], .forward .requests ⟨[97], 113, [], true⟩] := by decide
example : latest conf [97] hist = some ⟨[97], 12, [3], false⟩ ∧ latest conf [98] hist = none := by decide

/-! ### Zero bytes in topics -/

/-- A message whose topic is `a`, zero, `b` removes the one with topic `a` from memory, and is not found under its own topic. -/
theorem zero_in_topic_removes :
    (step conf (run conf [] [.msg 10 ⟨[97], 10, [1], false⟩ true, .msg 11 ⟨[97, 0, 98], 11, [2], false⟩ true]) (.msg 12 ⟨[97], 12, [], true⟩ true)).2 = [.dbGet [97], .forward .requests ⟨[97], 12, [], true⟩] := by
  decide

/-- A request for `a`, zero, `b` is answered with the message with topic `a`. -/
theorem zero_in_topic_answers :
    (step conf (run conf [] [.msg 10 ⟨[97], 10, [1], false⟩ true]) (.msg 12 ⟨[97, 0, 98], 12, [], true⟩ true)).2 = [.found ⟨[97], 10, [1], false⟩, .forward .requests ⟨[97, 0, 98], 12, [], true⟩] := by
  decide

end Verif.Cacher
