import Verif.Stats.Lemmas

/-!
# C140: the tree holds the last values, and drops those which are not heard of
-/
namespace Verif.Stats
open Verif Spec

mutual
/-- No two branches below the same one have equal names. -/
def Uniq : Branch → Prop
  | .mk _ _ _ kids => UniqAll kids
def UniqAll : List Branch → Prop
  | [] => True
  | k :: ks => (∀ x ∈ ks, x.name ≠ k.name) ∧ Uniq k ∧ UniqAll ks
end

theorem update_names (l : Bytes) (f : Branch → Branch × Bool) (new : Branch) (hf : ∀ b, (f b).1.name = b.name) (hn : new.name = l) (ks : List Branch) :
    ∀ x ∈ (update l f new ks).1, x.name = l ∨ ∃ k ∈ ks, k.name = x.name := by
  induction ks with
  | nil =>
    intro x hx
    simp only [update, List.mem_singleton] at hx
    left; rw [hx, hf, hn]
  | cons k ks ih =>
    intro x hx
    unfold update at hx
    split at hx
    · rcases List.mem_cons.mp hx with rfl | h
      · right; exact ⟨k, by simp, (hf k).symm⟩
      · right; exact ⟨x, List.mem_cons_of_mem _ h, rfl⟩
    · rcases List.mem_cons.mp hx with rfl | h
      · right; exact ⟨x, by simp, rfl⟩
      · rcases ih x h with h' | ⟨y, hy, e⟩
        · exact .inl h'
        · right; exact ⟨y, List.mem_cons_of_mem _ hy, e⟩

theorem update_uniq (l : Bytes) (f : Branch → Branch × Bool) (new : Branch) (hf : ∀ b, (f b).1.name = b.name) (hn : new.name = l)
    (hu : ∀ b, Uniq b → Uniq (f b).1) (hnew : Uniq new) (ks : List Branch) (h : UniqAll ks) : UniqAll (update l f new ks).1 := by
  induction ks with
  | nil => exact ⟨fun x hx => (List.not_mem_nil hx).elim, hu new hnew, trivial⟩
  | cons k ks ih =>
    obtain ⟨h1, h2, h3⟩ := h
    unfold update
    split
    · exact ⟨fun x hx => by rw [hf]; exact h1 x hx, hu k h2, h3⟩
    · next hk =>
      refine ⟨fun x hx => ?_, h2, ih h3⟩
      rcases update_names l f new hf hn ks x hx with e | ⟨y, hy, e⟩
      · rw [e]; exact fun h => hk h.symm
      · rw [← e]; exact h1 y hy

theorem insertAux_uniq (fuel now : Nat) (v : Bytes) : ∀ (path : Bytes) (b : Branch), Uniq b → Uniq (insertAux fuel now v path b).1 := by
  induction fuel with
  | zero => exact fun _ b h => h
  | succ n ih =>
    intro path b h
    rcases b with ⟨nm, s, val, kids⟩
    unfold insertAux
    split
    · exact h
    · split
      · exact h
      · exact update_uniq _ _ (.mk (firstLevel path).1 now none []) (insertAux_name n now v _) rfl (ih _) trivial kids h

theorem purge_name (min : Nat) (b : Branch) : (purge min b).name = b.name := by cases b; simp [purge, Branch.name]
theorem purge_seen (min : Nat) (b : Branch) : (purge min b).seen = b.seen := by cases b; simp [purge, Branch.seen]
theorem purge_value (min : Nat) (b : Branch) : (purge min b).value = b.value := by cases b; simp [purge, Branch.value]
theorem purge_kids (min : Nat) (b : Branch) : (purge min b).kids = purgeAll min b.kids := by cases b; simp [purge, Branch.kids]
theorem uniq_kids (b : Branch) : Uniq b = UniqAll b.kids := by cases b; simp [Uniq, Branch.kids]

theorem purgeAll_mem (min : Nat) (ks : List Branch) : ∀ x ∈ purgeAll min ks, ∃ k ∈ ks, k.name = x.name := by
  induction ks with
  | nil => intro x hx; simp [purgeAll] at hx
  | cons k ks ih =>
    intro x hx
    unfold purgeAll at hx
    split at hx
    · obtain ⟨y, hy, e⟩ := ih x hx
      exact ⟨y, List.mem_cons_of_mem _ hy, e⟩
    · rcases List.mem_cons.mp hx with rfl | h
      · exact ⟨k, by simp, (purge_name min k).symm⟩
      · obtain ⟨y, hy, e⟩ := ih x h
        exact ⟨y, List.mem_cons_of_mem _ hy, e⟩

theorem purgeAll_find (min : Nat) (l : Bytes) (ks : List Branch) (h : UniqAll ks) :
    (purgeAll min ks).find? (·.name = l) = match ks.find? (·.name = l) with
      | none => none
      | some k => if k.seen < min then none else some (purge min k) := by
  induction ks with
  | nil => simp [purgeAll]
  | cons k ks ih =>
    obtain ⟨h1, h2, h3⟩ := h
    unfold purgeAll
    by_cases hk : k.name = l
    · rw [List.find?_cons_of_pos (by simp [hk])]
      simp only
      split
      · rw [List.find?_eq_none]
        intro x hx
        obtain ⟨y, hy, e⟩ := purgeAll_mem min ks x hx
        have := h1 y hy
        rw [e, hk] at this
        simpa using this
      · rw [List.find?_cons_of_pos (by simp [purge_name, hk])]
    · rw [List.find?_cons_of_neg (by simp [hk])]
      split
      · exact ih h3
      · rw [List.find?_cons_of_neg (by simp [purge_name, hk])]
        exact ih h3

mutual
theorem purge_uniq (min : Nat) : ∀ b : Branch, Uniq b → Uniq (purge min b)
  | .mk n s v kids => fun h => by unfold purge; exact purgeAll_uniq min kids h
theorem purgeAll_uniq (min : Nat) : ∀ ks : List Branch, UniqAll ks → UniqAll (purgeAll min ks)
  | [] => fun _ => by simp [purgeAll, UniqAll]
  | k :: ks => fun h => by
    unfold purgeAll
    split
    · exact purgeAll_uniq min ks h.2.2
    · refine ⟨fun x hx => ?_, purge_uniq min k h.2.1, purgeAll_uniq min ks h.2.2⟩
      obtain ⟨y, hy, e⟩ := purgeAll_mem min ks x hx
      rw [← e, purge_name]
      exact h.1 y hy
end

theorem uniq_find {l : Bytes} {ks : List Branch} {k : Branch} (h : UniqAll ks) (hf : ks.find? (·.name = l) = some k) : Uniq k := by
  induction ks with
  | nil => simp at hf
  | cons x ks ih =>
    by_cases hx : x.name = l
    · rw [List.find?_cons_of_pos (by simp [hx])] at hf
      cases hf
      exact h.2.1
    · rw [List.find?_cons_of_neg (by simp [hx])] at hf
      exact ih h.2.2 hf

/-- Nothing is removed where all on the way have been seen. -/
theorem purge_keeps (min : Nat) : ∀ (ls : List Bytes) (b : Branch), Uniq b → (∀ p s, p <+: ls → p ≠ [] → seenAt p b = some s → min ≤ s) → valueAt ls (purge min b) = valueAt ls b := by
  intro ls
  induction ls with
  | nil => intro b _ _; exact purge_value min b
  | cons l ls ih =>
    intro b hu h
    rw [uniq_kids] at hu
    simp only [valueAt, purge_kids, purgeAll_find min l b.kids hu]
    cases hf : b.kids.find? (·.name = l) with
    | none => rfl
    | some k =>
      have hs : min ≤ k.seen := h [l] k.seen (by simp) (by simp) (by simp [seenAt, hf])
      simp only
      rw [if_neg (by omega)]
      simp only
      apply ih k (uniq_find hu hf)
      intro p s hp hne he
      exact h (l :: p) s (List.cons_prefix_cons.mpr ⟨rfl, hp⟩) (by simp) (by simp only [seenAt, hf]; exact he)

/-- What has not been seen is removed. -/
theorem purge_removes (min : Nat) : ∀ (ls : List Bytes) (b : Branch) (s : Nat), Uniq b → ls ≠ [] → seenAt ls b = some s → s < min → valueAt ls (purge min b) = none := by
  intro ls
  induction ls with
  | nil => intro b s _ h; exact absurd rfl h
  | cons l ls ih =>
    intro b s hu _ hs hlt
    rw [uniq_kids] at hu
    simp only [valueAt, purge_kids, purgeAll_find min l b.kids hu]
    simp only [seenAt] at hs
    cases hf : b.kids.find? (·.name = l) with
    | none => rfl
    | some k =>
      rw [hf] at hs
      simp only at hs ⊢
      by_cases hk : k.seen < min
      · rw [if_pos hk]
      · rw [if_neg hk]
        simp only
        cases ls with
        | nil =>
          simp only [seenAt, Option.some.injEq] at hs
          omega
        | cons x ls => exact ih k s (uniq_find hu hf) (by simp) hs hlt

theorem purge_seenAt (min : Nat) : ∀ (ls : List Bytes) (b : Branch) (s : Nat), Uniq b → seenAt ls (purge min b) = some s → seenAt ls b = some s := by
  intro ls
  induction ls with
  | nil => intro b s _ h; simpa [seenAt, purge_seen] using h
  | cons l ls ih =>
    intro b s hu h
    rw [uniq_kids] at hu
    simp only [seenAt, purge_kids, purgeAll_find min l b.kids hu] at h ⊢
    cases hf : b.kids.find? (·.name = l) with
    | none => rw [hf] at h; cases h
    | some k =>
      rw [hf] at h
      simp only at h ⊢
      by_cases hk : k.seen < min
      · rw [if_pos hk] at h; cases h
      · rw [if_neg hk] at h
        exact ih k s (uniq_find hu hf) h

theorem valueAt_of_unseen : ∀ (ls : List Bytes) (b : Branch), seenAt ls b = none → valueAt ls b = none := by
  intro ls
  induction ls with
  | nil => intro b h; cases h
  | cons l ls ih =>
    intro b h
    simp only [seenAt, valueAt] at h ⊢
    cases hf : b.kids.find? (·.name = l) with
    | none => rfl
    | some k => rw [hf] at h; exact ih k h

/-- The tree and the store are the same. -/
structure Same (now : Nat) (t : Branch) (s : Store) : Prop where
  uniq : Uniq t
  value : ∀ ls, valueAt ls t = s.value ls
  seen : ∀ ls n, ls ≠ [] → seenAt ls t = some n → n = s.touched ls
  mono : ∀ ls ms, ls <+: ms → s.touched ms ≤ s.touched ls
  past : ∀ ls, s.touched ls ≤ now

theorem same_insert {now now' : Nat} {t : Branch} {s : Store} (h : Same now t s) (hn : now ≤ now') (path v : Bytes) : Same now' (insert now' path v t).1 (s.insert now' path v) := by
  unfold insert Store.insert
  split
  · exact ⟨h.uniq, h.value, h.seen, h.mono, fun ls => Nat.le_trans (h.past ls) hn⟩
  · next hlen =>
    obtain ⟨_, hv, hs⟩ := insertAux_spec (path.length + 1) now' v path t (by omega)
    refine ⟨insertAux_uniq _ _ _ _ _ h.uniq, fun ls => ?_, fun ls n hne he => ?_, fun ls ms hp => ?_, fun ls => ?_⟩
    · rw [hv ls, h.value ls]
      have : Accepted path ↔ path.getLast? ≠ some slash := ⟨fun a => a.2, fun a => ⟨by omega, a⟩⟩
      simp only [this]
    · rw [hs ls] at he
      simp only
      split at he
      · next hp => rw [if_pos hp]; cases he; rfl
      · next hp => rw [if_neg hp]; exact h.seen ls n hne he
    · simp only
      by_cases hm : ms <+: levels path
      · rw [if_pos hm, if_pos (hp.trans hm)]; exact Nat.le_refl _
      · rw [if_neg hm]
        split
        · exact Nat.le_trans (h.past ms) hn
        · exact h.mono ls ms hp
    · simp only
      split
      · exact Nat.le_refl _
      · exact Nat.le_trans (h.past ls) hn

theorem same_purge {now : Nat} {t : Branch} {s : Store} (h : Same now t s) (min : Nat) : Same now (purge min t) (s.purge min) := by
  refine ⟨purge_uniq min t h.uniq, fun ls => ?_, fun ls n hne he => ?_, h.mono, h.past⟩
  · show valueAt ls (purge min t) = if ls ≠ [] ∧ s.touched ls < min then none else s.value ls
    split
    · next hx =>
      cases hs : seenAt ls t with
      | none =>
        have : seenAt ls (purge min t) = none := by
          cases hp : seenAt ls (purge min t) with
          | none => rfl
          | some n => rw [purge_seenAt min ls t n h.uniq hp] at hs; cases hs
        exact valueAt_of_unseen ls _ this
      | some n =>
        apply purge_removes min ls t n h.uniq hx.1 hs
        rw [h.seen ls n hx.1 hs]; exact hx.2
    · next hx =>
      rw [← h.value ls]
      apply purge_keeps min ls t h.uniq
      intro p n hp hne hs
      rw [h.seen p n hne hs]
      have h1 : ls ≠ [] := by
        intro e; subst e
        exact hne (List.prefix_nil.mp hp)
      have h2 : min ≤ s.touched ls := by
        apply Classical.byContradiction
        intro hlt
        exact hx ⟨h1, by omega⟩
      exact Nat.le_trans h2 (h.mono p ls hp)
  · exact h.seen ls n hne (purge_seenAt min ls t n h.uniq he)

/-- For all which may happen to a tree, in any number and order and with any paths, as long as the time does not go back: at each place is the value which was last put there, unless nothing was put there
or below since the time of a later cleanup. -/
theorem tree_is_store (start : Nat) (ops : List Op) (hf : Forward start ops) (ls : List Bytes) : valueAt ls (run start ops) = (store ops).value ls := by
  have key : ∀ (ops : List Op) (now : Nat) (t : Branch) (s : Store), Forward now ops → Same now t s → ∃ now', Same now' (ops.foldl step t) (ops.foldl Store.step s) := by
    intro ops
    induction ops with
    | nil => exact fun now t s _ h => ⟨now, h⟩
    | cons o ops ih =>
      intro now t s hf h
      cases o with
      | insert n p v => exact ih n _ _ hf.2 (same_insert h hf.1 p v)
      | purge m => exact ih now _ _ hf (same_purge h m)
  obtain ⟨now', h⟩ := key ops start (empty start) {} hf ⟨trivial, fun ls => (by cases ls <;> rfl), fun ls n hne he => (by
      cases ls with
      | nil => exact absurd rfl hne
      | cons l ls => cases he), fun ls ms _ => Nat.le_refl _, fun ls => Nat.zero_le _⟩
  exact h.value ls

/-- Whether a path is taken does not depend on the tree. -/
theorem insert_accepts_iff (now : Nat) (path v : Bytes) (t : Branch) : (insert now path v t).2 = true ↔ Accepted path := by
  unfold insert
  split
  · next h => constructor
              · intro h'; cases h'
              · intro h'; exact absurd h'.1 (by omega)
  · next h =>
    rw [(insertAux_spec (path.length + 1) now v path t (by omega)).1]
    exact ⟨fun a => ⟨by omega, a⟩, fun a => a.2⟩

mutual
theorem hasLeaf_sound (name : Bytes) : ∀ t : Branch, hasLeaf name t = true → ∃ b, Below b t ∧ b.kids = [] ∧ b.name = name
  | .mk n s v [] => fun h => by
    simp only [hasLeaf, decide_eq_true_eq] at h
    exact ⟨_, .self, rfl, h⟩
  | .mk n s v (k :: ks) => fun h => by
    simp only [hasLeaf, Bool.or_eq_true] at h
    rcases h with h | h
    · obtain ⟨b, hb, h'⟩ := hasLeaf_sound name k h
      exact ⟨b, .kid (by simp [Branch.kids]) hb, h'⟩
    · obtain ⟨x, hx, b, hb, h'⟩ := anyLeaf_sound name ks h
      exact ⟨b, .kid (k := x) (by simp [Branch.kids, hx]) hb, h'⟩
theorem anyLeaf_sound (name : Bytes) : ∀ ks : List Branch, anyLeaf name ks = true → ∃ k ∈ ks, ∃ b, Below b k ∧ b.kids = [] ∧ b.name = name
  | [] => fun h => by simp [anyLeaf] at h
  | k :: ks => fun h => by
    simp only [anyLeaf, Bool.or_eq_true] at h
    rcases h with h | h
    · obtain ⟨b, hb⟩ := hasLeaf_sound name k h
      exact ⟨k, by simp, b, hb⟩
    · obtain ⟨x, hx, hb⟩ := anyLeaf_sound name ks h
      exact ⟨x, List.mem_cons_of_mem _ hx, hb⟩
end

theorem anyLeaf_of_mem (name : Bytes) (ks : List Branch) (k : Branch) (hk : k ∈ ks) (h : hasLeaf name k = true) : anyLeaf name ks = true := by
  induction ks with
  | nil => cases hk
  | cons x ks ih =>
    rcases List.mem_cons.mp hk with rfl | hk
    · simp [anyLeaf, h]
    · simp [anyLeaf, ih hk]

/-- A leaf is found, wherever it is, exactly if there is one. -/
theorem hasLeaf_iff (name : Bytes) (t : Branch) : hasLeaf name t = true ↔ ∃ b, Below b t ∧ b.kids = [] ∧ b.name = name := by
  refine ⟨hasLeaf_sound name t, ?_⟩
  rintro ⟨b, hb, h0, hn⟩
  induction hb with
  | self =>
    rcases b with ⟨n, s, v, kids⟩
    simp only [Branch.kids] at h0
    subst h0
    simpa [hasLeaf, Branch.name] using hn
  | @kid t k hk _ ih =>
    rcases t with ⟨n, s, v, kids⟩
    have := anyLeaf_of_mem name kids k hk ih
    cases kids with
    | nil => cases hk
    | cons x xs => simpa [hasLeaf, anyLeaf] using this

def str (s : String) : Bytes := s.toUTF8.toList

/-- A value is put at two paths which name the same place, with cleanups in between. -/
def history : List Op := [.insert 10 (str "/a/b") [1], .insert 12 (str "a//b") [2], .insert 13 (str "a/c") [3], .purge 12, .insert 15 (str "x/") [4], .purge 13]

example : Forward 5 history ∧ levels (str "a//b") = [str "a", str "b"] ∧ (store history).value [str "a", str "b"] = none ∧ (store history).value [str "a", str "c"] = some [3] ∧
    (store (history.take 4)).value [str "a", str "b"] = some [2] := by
  refine ⟨?_, ?_⟩
  · simp [history, Forward]
  · decide +kernel

/-- A value stays for good if something is put below it, even if it is never heard of again. -/
theorem stale_value_stays : valueAt [str "aa"] (run 0 [.insert 1 (str "aa") [1], .insert 100 (str "aa/b") [2], .purge 99]) = some [1] := by
  rw [tree_is_store _ _ (by simp [Forward])]; decide +kernel

/-- When the time goes back, a value which is new is removed. -/
theorem fresh_value_lost : valueAt [str "a", str "b"] (run 0 [.insert 100 (str "a/b") [1], .insert 50 (str "a/c") [2], .purge 60]) = none := by decide +kernel

/-- A path which is refused leaves an empty branch, which then is a leaf. -/
theorem refused_leaves_branch : (insert 1 (str "ab/") [1] (empty 0)).2 = false ∧ hasLeaf (str "ab") (insert 1 (str "ab/") [1] (empty 0)).1 = true ∧ hasLeaf (str "ab") (empty 0) = false := by
  decide +kernel

example : hasLeaf (str "b") (run 0 history) = false ∧ hasLeaf (str "c") (run 0 history) = true := by decide +kernel

/-- Before anything is put in the tree, its root is a leaf. -/
theorem root_is_leaf (now : Nat) : hasLeaf (str "rrr") (empty now) = true := by
  unfold empty hasLeaf str; simp

end Verif.Stats
