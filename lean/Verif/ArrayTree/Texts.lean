import Verif.ArrayTree.Fields
import Verif.Hdlc.Props
/-!
# The fields whose end is found in the data
-/
namespace Verif.ArrayTree
open Verif Endian Msg Types Types.Spec Spec

/-! ## Fixed point numbers -/

theorem fixpLength_iff (b : Bytes) (m : Nat) :
    fixpLength b = some m ↔ ∃ pre sign ds neg r, b = pre ++ (sign ++ ds) ++ r ∧ m = (pre ++ (sign ++ ds)).length ∧ Sign true sign neg ∧
      (pre = prefix16 ∨ pre = prefix10 ∨ (pre = [] ∧ (3 < b.length → b.take 3 ≠ prefix16 ∧ b.take 3 ≠ prefix10))) ∧
      ds ≠ [] ∧ ds.head? ≠ some 46 ∧ ds.count 46 ≤ 1 ∧ (∀ d ∈ ds, d = 46 ∨ d ∈ (if pre = prefix16 then hexDigits else digits)) ∧
      (∀ c, r.head? = some c → c ≠ 46 ∧ c ∉ (if pre = prefix16 then hexDigits else digits)) := by
  have h1016 : prefix10 ≠ prefix16 := by decide
  have hn16 : ([] : Bytes) ≠ prefix16 := by decide
  constructor
  · intro e
    unfold fixpLength at e
    split at e
    · rename_i h
      simp only [Bool.and_eq_true, decide_eq_true_eq, beq_iff_eq] at h
      obtain ⟨k, hk, rfl⟩ := Option.map_eq_some_iff.mp e
      obtain ⟨sign, ds, neg, r, h1, rfl, h3, h4, h5, h6, h7, h8⟩ := (fixpNumber_iff _ _ _).mp hk
      refine ⟨prefix16, sign, ds, neg, r, ?_, by simp [prefix16]; omega, h3, Or.inl rfl, h4, h5, h6, by rw [if_pos rfl]; exact h7, by rw [if_pos rfl]; exact h8⟩
      rw [← List.take_append_drop 3 b, h.2, h1]
      simp [prefix16]
    · rename_i h16
      split at e
      · rename_i h
        simp only [Bool.and_eq_true, decide_eq_true_eq, beq_iff_eq] at h
        obtain ⟨k, hk, rfl⟩ := Option.map_eq_some_iff.mp e
        obtain ⟨sign, ds, neg, r, h1, rfl, h3, h4, h5, h6, h7, h8⟩ := (fixpNumber_iff _ _ _).mp hk
        refine ⟨prefix10, sign, ds, neg, r, ?_, by simp [prefix10]; omega, h3, Or.inr (Or.inl rfl), h4, h5, h6, by rw [if_neg h1016]; exact h7, by rw [if_neg h1016]; exact h8⟩
        rw [← List.take_append_drop 3 b, h.2, h1]
        simp [prefix10]
      · rename_i h10
        obtain ⟨sign, ds, neg, r, h1, rfl, h3, h4, h5, h6, h7, h8⟩ := (fixpNumber_iff _ _ _).mp e
        refine ⟨[], sign, ds, neg, r, h1, by simp, h3, Or.inr (Or.inr ⟨rfl, ?_⟩), h4, h5, h6, by rw [if_neg hn16]; exact h7, by rw [if_neg hn16]; exact h8⟩
        intro hl
        simp only [Bool.and_eq_true, decide_eq_true_eq, beq_iff_eq, not_and] at h16 h10
        exact ⟨h16 hl, h10 hl⟩
  · rintro ⟨pre, sign, ds, neg, r, rfl, rfl, h3, hp, h4, h5, h6, h7, h8⟩
    have hlen : 1 ≤ ds.length := by cases ds with
      | nil => exact absurd rfl h4
      | cons _ _ => simp
    unfold fixpLength
    rcases hp with rfl | rfl | ⟨rfl, hp⟩
    · rw [if_pos rfl] at h7 h8
      rw [if_pos]
      · have : fixpNumber true ((prefix16 ++ (sign ++ ds) ++ r).drop 3) = some (sign.length + ds.length) :=
          (fixpNumber_iff _ _ _).mpr ⟨sign, ds, neg, r, by simp [prefix16], rfl, h3, h4, h5, h6, h7, h8⟩
        rw [this]; simp [prefix16]; omega
      · simp [prefix16]; omega
    · rw [if_neg h1016] at h7 h8
      rw [if_neg, if_pos]
      · have : fixpNumber false ((prefix10 ++ (sign ++ ds) ++ r).drop 3) = some (sign.length + ds.length) :=
          (fixpNumber_iff _ _ _).mpr ⟨sign, ds, neg, r, by simp [prefix10], rfl, h3, h4, h5, h6, h7, h8⟩
        rw [this]; simp [prefix10]; omega
      · simp [prefix10]; omega
      · simp [prefix10]
    · rw [if_neg hn16] at h7 h8
      rw [if_neg, if_neg]
      · have : fixpNumber false ([] ++ (sign ++ ds) ++ r) = some (sign.length + ds.length) :=
          (fixpNumber_iff _ _ _).mpr ⟨sign, ds, neg, r, rfl, rfl, h3, h4, h5, h6, h7, h8⟩
        rw [this]; simp
      · intro h
        simp only [Bool.and_eq_true, decide_eq_true_eq, beq_iff_eq] at h
        exact (hp h.1).2 h.2
      · intro h
        simp only [Bool.and_eq_true, decide_eq_true_eq, beq_iff_eq] at h
        exact (hp h.1).1 h.2

theorem importFixp_iff (w : World) (b : Bytes) (x : UInt64) (u : Nat) :
    importFixp w b = .ok (x, u) ↔ ∃ p r, b = p ++ r ∧ u = p.length ∧ x = w.fixp p ∧ FixpText p r := by
  unfold importFixp
  constructor
  · intro e
    split at e
    · cases e
    · rename_i n hn
      split at e
      · cases e
      · rename_i hne
        cases e
        obtain ⟨pre, sign, ds, neg, r, h1, h2, h3, h4, h5, h6, h7, h8, h9⟩ := (fixpLength_iff _ _).mp hn
        have ht : b.take u = pre ++ (sign ++ ds) := by rw [h1, h2]; exact List.take_left
        rw [ht]
        refine ⟨_, r, h1, h2, rfl, ?_⟩
        cases r with
        | nil => exact absurd (by rw [h1, h2]; simp) hne
        | cons c t =>
          exact ⟨pre, sign, ds, neg, c, t, rfl, rfl, h3, by rw [← h1]; exact h4, h5, h6, h7, h8, h9 c rfl⟩
  · rintro ⟨p, r, rfl, rfl, rfl, pre, sign, ds, neg, c, t, rfl, rfl, h3, h4, h5, h6, h7, h8, h9⟩
    rw [(fixpLength_iff _ _).mpr ⟨pre, sign, ds, neg, c :: t, rfl, rfl, h3, h4, h5, h6, h7, h8, fun c' hc => by cases hc; exact h9⟩]
    simp only
    rw [if_neg (by simp), List.take_left]

/-! ## Text without separators -/

theorem importNsep_iff (b d : Bytes) (u : Nat) :
    importNsep b = .ok (d, u) ↔ ∃ p r, b = p ++ r ∧ u = p.length ∧ d = p ∧ p ≠ [] ∧ (∀ c ∈ p, c ∉ ends) ∧ ∃ c t, r = c :: t ∧ c ∈ ends := by
  unfold importNsep
  constructor
  · intro e
    simp only at e
    split at e
    · cases e
    · rename_i hl
      split at e
      · cases e
      · rename_i hne
        cases e
        refine ⟨_, b.dropWhile (fun c => !isEnd c), List.takeWhile_append_dropWhile.symm, rfl, rfl, hne, ?_, ?_⟩
        · intro c hc
          have := mem_takeWhile hc
          rw [end_chars] at this
          simpa using this
        · cases hd : b.dropWhile (fun c => !isEnd c) with
          | nil =>
            have := List.takeWhile_append_dropWhile (p := fun c => !isEnd c) (l := b)
            rw [hd, List.append_nil] at this
            exact absurd (by rw [this]) hl
          | cons c t =>
            refine ⟨c, t, rfl, ?_⟩
            have := List.head?_dropWhile_not (fun c => !isEnd c) b
            rw [hd] at this
            simp only [List.head?_cons] at this
            rw [end_chars] at this
            simpa using this
  · rintro ⟨p, r, rfl, rfl, rfl, hne, hp, c, t, rfl, hc⟩
    have : (d ++ c :: t).takeWhile (fun c => !isEnd c) = d := by
      refine takeWhile_exact _ _ _ ?_ ?_
      · intro x hx; rw [end_chars]; simpa using hp x hx
      · intro x hx; cases hx; rw [end_chars]; simpa using hc
    simp only [this]
    rw [if_neg (by simp), if_neg hne]

/-! ## Strings -/

theorem strText_unescape {body d : Bytes} (h : StrText body d) : strUnescape false body = d := by
  induction h with
  | nil => rfl
  | char c h1 h2 _ ih => simp [strUnescape, h2, ih]
  | esc c _ ih => simp [strUnescape, ih]

theorem strText_scan {body d : Bytes} (h : StrText body d) (r : Bytes) : strScan false (body ++ 0x22 :: r) = some body.length := by
  induction h with
  | nil => rfl
  | char c h1 h2 _ ih =>
    rw [List.cons_append, strScan, if_neg (by simpa using h1), Bool.not_false, Bool.true_and, beq_eq_false_iff_ne.mpr h2, ih]
    rfl
  | esc c _ ih => simp [strScan, ih]

theorem strScan_text (b : Bytes) (k : Nat) (h : strScan false b = some k) : ∃ body d r, b = body ++ 0x22 :: r ∧ k = body.length ∧ StrText body d := by
  induction hn : b.length using Nat.strongRecOn generalizing b k with
  | ind n ih =>
    match b with
    | [] => cases h
    | c :: t =>
      rw [strScan] at h
      split at h
      · rename_i hc
        simp only [Bool.not_false, Bool.true_and, beq_iff_eq] at hc
        cases h
        exact ⟨[], [], t, by rw [hc]; rfl, rfl, .nil⟩
      · rename_i hc
        simp only [Bool.not_false, Bool.true_and, beq_iff_eq] at hc
        simp only [Bool.not_false, Bool.true_and] at h
        by_cases he : c = 0x5c
        · subst he
          match t with
          | [] => cases h
          | x :: t =>
            simp only [BEq.rfl, strScan, Bool.not_true, Bool.false_and, Bool.false_eq_true, if_false, Option.map_map] at h
            obtain ⟨j, hj, rfl⟩ := Option.map_eq_some_iff.mp h
            obtain ⟨body, d, r, rfl, rfl, hb⟩ := ih t.length (by simp only [List.length_cons] at hn; omega) t j hj rfl
            exact ⟨_, _, r, rfl, by simp, .esc x hb⟩
        · rw [beq_eq_false_iff_ne.mpr he] at h
          obtain ⟨j, hj, rfl⟩ := Option.map_eq_some_iff.mp h
          obtain ⟨body, d, r, rfl, rfl, hb⟩ := ih t.length (by simp only [List.length_cons] at hn; omega) t j hj rfl
          exact ⟨_, _, r, rfl, by simp, .char c hc he hb⟩

theorem strImport_iff (b d : Bytes) (u : Nat) (hb : b.length < 2 ^ 32) :
    strImport b = .ok (d, u) ↔ ∃ p r body, b = p ++ r ∧ u = p.length ∧ p = 0x22 :: (body ++ [0x22]) ∧ StrText body d := by
  unfold strImport
  rw [Nat.mod_eq_of_lt hb, List.take_length]
  constructor
  · intro e
    obtain ⟨n, hn, e⟩ := bind_eq_ok e
    split at e
    · cases e
    · cases e
      unfold strImportLength at hn
      cases b with
      | nil => cases hn
      | cons c t =>
        simp only at hn
        split at hn
        · cases hn
        · rename_i hc
          split at hn
          · cases hn
          · rename_i k hk
            cases hn
            obtain ⟨body, d, r, rfl, rfl, hx⟩ := strScan_text _ _ hk
            refine ⟨0x22 :: (body ++ [0x22]), r, body, ?_, by simp, rfl, ?_⟩
            · have : c = 0x22 := Classical.byContradiction hc
              rw [this]; simp
            · rw [show ((c :: (body ++ 0x22 :: r)).drop 1).take (body.length + 2 - 2) = body by simp]
              rw [strText_unescape hx]; exact hx
  · rintro ⟨p, r, body, rfl, rfl, rfl, hx⟩
    have : strImportLength (0x22 :: (body ++ [0x22]) ++ r) = .ok (body.length + 2) := by
      simp only [List.cons_append, List.append_assoc, strImportLength, List.nil_append]
      rw [strText_scan hx r]; simp
    rw [this]
    simp only [Res.bind]
    rw [if_neg (by simp; omega)]
    have ht : ((0x22 :: (body ++ [0x22]) ++ r : Bytes).drop 1).take (body.length + 2 - 2) = body := by simp
    rw [ht, strText_unescape hx]; simp

/-! ## Messages -/

theorem getTargetSize_append (p r : Bytes) (h : headSize ≤ p.length) : getTargetSize (p ++ r) = getTargetSize p := by
  unfold getTargetSize
  have h18 : headSize = 18 := rfl
  rw [if_neg (by simp only [List.length_append]; omega), if_neg (show ¬ p.length < headSize by omega)]
  have hat : ∀ k, k + 4 ≤ 18 → at32 (p ++ r) k = at32 p k := by
    intro k hk
    have hg : ∀ j, j < 18 → (p ++ r).getD j 0 = p.getD j 0 := by
      intro j hj
      simp only [List.getD_eq_getElem?_getD]
      rw [List.getElem?_append_left (by omega)]
    unfold at32
    rw [hg k (by omega), hg (k + 1) (by omega), hg (k + 2) (by omega), hg (k + 3) (by omega)]
  have e1 : ((p ++ r).drop 4).take 14 = (p.drop 4).take 14 := by
    rw [List.drop_append_of_le_length (by omega), List.take_append_of_le_length (by simp only [List.length_drop]; omega)]
  rw [e1, hat 0 (by omega), hat 4 (by omega)]

theorem msgSingle_size {p : Bytes} {m : MsgMsg} {k : Nat} (h : msgSingle p = .ok (m, k)) : ∃ n, getTargetSize p = .ok n ∧ k = n.toNat ∧ 30 ≤ n.toNat ∧ n.toNat ≤ p.length := by
  unfold msgSingle at h
  split at h
  · rename_i n hn
    split at h
    · cases h
    · rename_i hl
      simp only at h
      split at h
      · cases h
      · obtain ⟨rest, h1, h⟩ := bind_eq_ok h
        obtain ⟨m', h2, h⟩ := bind_eq_ok h
        cases h
        refine ⟨n, hn, rfl, ?_, by omega⟩
        have h18 : headSize = 18 := rfl
        have hr : rest.length = n.toNat - 18 ∧ 18 ≤ n.toNat := by
          unfold checkData at h1
          rw [List.length_take] at h1
          split at h1
          · cases h1
          · split at h1
            · cases h1
            · split at h1
              · cases h1
              · cases h1
                simp only [List.length_drop, List.length_take]
                omega
        unfold msgToHost at h2
        split at h2
        · cases h2
        · rename_i hm
          have h30 : msgMinSize = 30 := rfl
          omega
  · cases h
  · cases h
  · cases h

theorem importMsg_iff (b : Bytes) (ms : List MsgMsg) (u : Nat) :
    (importMsg b = .ok (ms, u) ∧ u ≠ 0) ↔ ∃ p r m, b = p ++ r ∧ u = p.length ∧ ms = [m] ∧ msgSingle p = .ok (m, p.length) := by
  have h18 : headSize = 18 := rfl
  have h30 : msgMinSize = 30 := rfl
  unfold importMsg
  constructor
  · rintro ⟨e, hu⟩
    split at e
    · cases e
    split at e
    · cases e
    split at e
    · rename_i n hn
      split at e
      · cases e
      rename_i hl
      obtain ⟨ms', hm, e⟩ := bind_eq_ok e
      cases e
      have hlen : (b.take n.toNat).length = n.toNat := by rw [List.length_take]; omega
      have hne : b.take n.toNat ≠ [] := by intro h; rw [h] at hlen; exact hu hlen.symm
      obtain ⟨k, hk⟩ : ∃ k, n.toNat = k + 1 := ⟨n.toNat - 1, by omega⟩
      have hm' : msgsUnpack (k + 1) (b.take n.toNat) = .ok ms := by rw [← hk]; exact hm
      rw [msgsUnpack, if_neg hne] at hm'
      obtain ⟨⟨m, j⟩, h1, hm'⟩ := bind_eq_ok hm'
      obtain ⟨n', g1, g2, g3, g4⟩ := msgSingle_size h1
      have hsame : n' = n := by
        have := getTargetSize_append (b.take n.toNat) (b.drop n.toNat) (by omega)
        rw [List.take_append_drop, hn, g1] at this
        cases this; rfl
      subst hsame
      subst g2
      have hdrop : (b.take n'.toNat).drop n'.toNat = [] := List.drop_eq_nil_of_le (by omega)
      simp only [hdrop] at hm'
      have hnil : msgsUnpack k [] = .ok [] := by cases k <;> rfl
      rw [hnil] at hm'
      cases hm'
      exact ⟨b.take n'.toNat, b.drop n'.toNat, m, (List.take_append_drop _ _).symm, hlen.symm, rfl, by rw [hlen]; exact h1⟩
    · cases e
    · cases e
    · cases e
  · rintro ⟨p, r, m, rfl, rfl, rfl, h1⟩
    obtain ⟨n, g1, g2, g3, g4⟩ := msgSingle_size h1
    refine ⟨?_, by omega⟩
    have hne : p ≠ [] := by intro h; rw [h] at g4; simp at g4; omega
    rw [if_neg (by simp [hne]), if_neg (by simp only [List.length_append]; omega), getTargetSize_append _ _ (by omega), g1]
    simp only
    rw [if_neg (by simp only [List.length_append]; omega), ← g2, List.take_left]
    obtain ⟨k, hk⟩ : ∃ k, p.length = k + 1 := ⟨p.length - 1, by omega⟩
    have hnil : msgsUnpack k [] = .ok [] := by cases k <;> rfl
    have : msgsUnpack p.length p = .ok [m] := by
      rw [hk, msgsUnpack, if_neg hne, h1]
      simp only [Res.bind, List.drop_length]
      rw [hnil]
    rw [this]; rfl

/-! ## HDLC frames -/

theorem frameText_encodes {body d : Bytes} (h : FrameText body d) : Hdlc.Encodes body d := by
  induction h with
  | nil => exact .nil
  | char c h1 h2 _ ih => exact .plain h1 h2 ih
  | @esc c b d _ ih =>
    have := Hdlc.Encodes.escaped (c := c ^^^ 0x20) ih
    rwa [Hdlc.xor_xor] at this

theorem hdlc_body (b : Bytes) : ∀ (acc d rest : Bytes) (esc : Bool), acc.length ≤ 4095 → acc ≠ [] ∨ esc = true →
    (∃ s, Hdlc.parseFrame ⟨if esc then .escape else .frame, acc⟩ b = (.ok, s, rest) ∧ s.result = d) →
    if esc then ∃ c body e, b = c :: (body ++ 0x7e :: rest) ∧ FrameText body e ∧ d = acc ++ (c ^^^ 0x20) :: e ∧ d.length ≤ 4095
    else ∃ body e, b = body ++ 0x7e :: rest ∧ FrameText body e ∧ d = acc ++ e ∧ d.length ≤ 4095 := by
  induction b with
  | nil => intro acc d rest esc _ _ h; obtain ⟨s, h, _⟩ := h; simp [Hdlc.parseFrame] at h
  | cons c b ih =>
    intro acc d rest esc hl ha h
    obtain ⟨s, h, hs⟩ := h
    rw [Hdlc.parseFrame] at h
    have hfull : ∀ f, Hdlc.full ⟨f, acc⟩ = decide (acc.length = 4095) := by
      intro f; unfold Hdlc.full; rw [Hdlc.max_eq]
    cases esc with
    | true =>
      simp only [if_true] at h ⊢
      split at h
      · cases h
      · rename_i hf
        rw [hfull] at hf
        simp only [decide_eq_true_eq] at hf
        have := ih (acc ++ [c ^^^ 0x20]) d rest false (by simp; omega) (by simp) ⟨s, h, hs⟩
        simp only [Bool.false_eq_true, if_false] at this
        obtain ⟨body, e, h1, h2, h3, h4⟩ := this
        exact ⟨c, body, e, by rw [h1], h2, by rw [h3]; simp, h4⟩
    | false =>
      simp only [Bool.false_eq_true, if_false] at h ⊢
      split at h
      · rename_i hc
        have := ih acc d rest true hl (Or.inr rfl) ⟨s, h, hs⟩
        simp only [if_true] at this
        obtain ⟨x, body, e, h1, h2, h3, h4⟩ := this
        exact ⟨0x7d :: x :: body, (x ^^^ 0x20) :: e, by rw [hc, h1]; rfl, .esc x h2, h3, h4⟩
      · rename_i hc
        split at h
        · rename_i hf
          split at h
          · rename_i hz
            rcases ha with ha | ha
            · exact absurd (List.length_eq_zero_iff.mp hz) ha
            · cases ha
          · rw [Prod.mk.injEq, Prod.mk.injEq] at h
            obtain ⟨_, h2, h3⟩ := h
            refine ⟨[], [], by rw [hf, h3]; rfl, .nil, ?_, ?_⟩
            · rw [← hs, ← h2]; simp
            · rw [← hs, ← h2]; exact hl
        · rename_i hf
          split at h
          · cases h
          · rename_i hfl
            rw [hfull] at hfl
            simp only [decide_eq_true_eq] at hfl
            have := ih (acc ++ [c]) d rest false (by simp; omega) (by simp) ⟨s, h, hs⟩
            simp only [Bool.false_eq_true, if_false] at this
            obtain ⟨body, e, h1, h2, h3, h4⟩ := this
            exact ⟨c :: body, c :: e, by rw [h1]; rfl, .char c hf hc h2, by rw [h3]; simp, h4⟩

theorem hdlc_start (b : Bytes) : ∀ (d rest : Bytes), (∃ s, Hdlc.parseFrame ⟨.frame, []⟩ b = (.ok, s, rest) ∧ s.result = d) →
    ∃ n body, b = List.replicate n 0x7e ++ (body ++ 0x7e :: rest) ∧ FrameText body d ∧ d ≠ [] ∧ d.length ≤ 4095 := by
  induction b with
  | nil => intro d rest h; obtain ⟨s, h, _⟩ := h; simp [Hdlc.parseFrame] at h
  | cons c b ih =>
    intro d rest h
    obtain ⟨s, h, hs⟩ := h
    rw [Hdlc.parseFrame] at h
    simp only at h
    split at h
    · rename_i hc
      have := hdlc_body b [] d rest true (by simp) (Or.inr rfl) ⟨s, h, hs⟩
      simp only [if_true] at this
      obtain ⟨x, body, e, h1, h2, h3, h4⟩ := this
      refine ⟨0, 0x7d :: x :: body, by rw [hc, h1]; rfl, by rw [h3]; exact .esc x h2, by rw [h3]; simp, h4⟩
    · rename_i hc
      split at h
      · rename_i hf
        simp only [List.length_nil, if_true] at h
        obtain ⟨n, body, h1, h2⟩ := ih d rest ⟨s, h, hs⟩
        exact ⟨n + 1, body, by rw [hf, h1]; rfl, h2⟩
      · rename_i hf
        split at h
        · cases h
        · have := hdlc_body b [c] d rest false (by simp) (Or.inl (by simp)) ⟨s, h, hs⟩
          simp only [Bool.false_eq_true, if_false] at this
          obtain ⟨body, e, h1, h2, h3, h4⟩ := this
          exact ⟨0, c :: body, by rw [h1]; rfl, by rw [h3]; exact .char c hf hc h2, by rw [h3]; simp, h4⟩

theorem hdlc_idle (b : Bytes) : ∀ (d rest : Bytes), (∃ s, Hdlc.parseFrame Hdlc.init b = (.ok, s, rest) ∧ s.result = d) →
    ∃ junk b', b = junk ++ 0x7e :: b' ∧ 0x7e ∉ junk ∧ ∃ s, Hdlc.parseFrame ⟨.frame, []⟩ b' = (.ok, s, rest) ∧ s.result = d := by
  induction b with
  | nil => intro d rest h; obtain ⟨s, h, _⟩ := h; simp [Hdlc.parseFrame] at h
  | cons c b ih =>
    intro d rest h
    obtain ⟨s, h, hs⟩ := h
    rw [Hdlc.init, Hdlc.parseFrame] at h
    simp only at h
    split at h
    · rename_i hc
      exact ⟨[], b, by rw [hc]; rfl, by simp, s, h, hs⟩
    · rename_i hc
      obtain ⟨junk, b', h1, h2, h3⟩ := ih d rest ⟨s, h, hs⟩
      refine ⟨c :: junk, b', by rw [h1]; rfl, ?_, h3⟩
      intro hm
      cases hm with
      | head => exact hc rfl
      | tail _ hm => exact h2 hm

theorem importHdlc_iff (b d : Bytes) (u : Nat) :
    importHdlc b = .ok (d, u) ↔ ∃ p r, b = p ++ r ∧ u = p.length ∧ Frame p d := by
  unfold importHdlc
  constructor
  · intro e
    split at e
    · rename_i s rest hs
      cases e
      obtain ⟨junk, b', h1, h2, h3⟩ := hdlc_idle b _ rest ⟨s, hs, rfl⟩
      obtain ⟨n, body, h4, h5, h6, h7⟩ := hdlc_start b' _ rest h3
      have hb : b = (junk ++ (List.replicate (n + 1) 0x7e ++ (body ++ [0x7e]))) ++ rest := by
        rw [h1, h4]; simp [List.replicate_succ]
      refine ⟨_, rest, hb, ?_, junk, n, body, rfl, h2, h5, h6, ?_⟩
      · rw [hb]; simp only [List.length_append]; omega
      · rw [Hdlc.max_eq]; omega
    · cases e
    · cases e
  · rintro ⟨p, r, rfl, rfl, junk, n, body, rfl, h2, h3, h4, h5⟩
    rw [Hdlc.max_eq] at h5
    have := Hdlc.parse_frame junk body d r n h2 (frameText_encodes h3) h4 (by omega)
    have e : junk ++ (List.replicate (n + 1) 0x7e ++ (body ++ [0x7e])) ++ r = junk ++ 0x7e :: (List.replicate n 0x7e ++ (body ++ 0x7e :: r)) := by
      simp [List.replicate_succ]
    rw [e, this]
    simp only
    rw [← e]
    simp
    omega

end Verif.ArrayTree
