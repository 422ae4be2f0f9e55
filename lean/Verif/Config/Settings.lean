import Verif.Config.Names
/-! # Settings -/
namespace Verif.Config
open AclFile (Out bind_ok newLine spacesComments)
open Verif.Config.Spec

/-! ## Values -/

theorem drop_reverse (t : Bytes) : ∃ s3, t = (t.reverse.dropWhile Parse.isSpaceTab).reverse ++ s3 ∧ Inline s3 ∧ ∀ c, (t.reverse.dropWhile Parse.isSpaceTab).reverse.getLast? = some c → ¬ Inline [c] := by
  refine ⟨(t.reverse.takeWhile Parse.isSpaceTab).reverse, ?_, ?_, ?_⟩
  · rw [← List.reverse_append, List.takeWhile_append_dropWhile, List.reverse_reverse]
  · refine inline_all.mpr fun c hc => ?_
    have := List.all_takeWhile (p := Parse.isSpaceTab) (l := t.reverse)
    rw [List.all_eq_true] at this
    exact this c (by simpa using hc)
  · intro c hc hi
    rw [List.getLast?_reverse] at hc
    have := List.head?_dropWhile_not Parse.isSpaceTab t.reverse
    rw [hc] at this
    simp at this
    rw [(inline_iff c).mpr hi] at this
    cases this

theorem trim_split {v : Bytes} (hv : v ≠ []) (hf : ∀ c, v.head? = some c → ¬ Inline [c]) :
    ∃ s3, v = trim v ++ s3 ∧ Inline s3 ∧ trim v ≠ [] ∧ (trim v).head? = v.head? ∧ ∀ c, (trim v).getLast? = some c → ¬ Inline [c] := by
  cases v with
  | nil => exact absurd rfl hv
  | cons c t =>
    obtain ⟨s3, h1, h2, h3⟩ := drop_reverse t
    refine ⟨s3, ?_, h2, by simp [trim], rfl, ?_⟩
    · show c :: t = (c :: _) ++ s3
      rw [List.cons_append, ← h1]
    · intro d hd
      unfold trim at hd
      simp only at hd
      revert hd h3
      generalize (t.reverse.dropWhile Parse.isSpaceTab).reverse = q
      intro h3 hd
      cases q with
      | nil => simp at hd; rw [← hd]; exact hf c rfl
      | cons x q => rw [List.getLast?_cons_cons] at hd; exact h3 d hd

theorem trim_of {v s3 : Bytes} (hv : v ≠ []) (hs : Inline s3) (hl : ∀ c, v.getLast? = some c → ¬ Inline [c]) : trim (v ++ s3) = v := by
  cases v with
  | nil => exact absurd rfl hv
  | cons c t =>
    show c :: ((t ++ s3).reverse.dropWhile Parse.isSpaceTab).reverse = c :: t
    congr 1
    rw [List.reverse_append, List.dropWhile_append_of_pos fun d hd => inline_all.mp hs d (by simpa using hd)]
    have : t.reverse.dropWhile Parse.isSpaceTab = t.reverse := by
      cases ht : t.reverse with
      | nil => rfl
      | cons x q =>
        rw [List.dropWhile_cons_of_neg]
        intro hx
        have hlast : t.getLast? = some x := by rw [← List.head?_reverse, ht]; rfl
        have : (c :: t).getLast? = some x := by
          cases t with
          | nil => simp at ht
          | cons y t => rw [List.getLast?_cons_cons]; exact hlast
        exact hl x this ((inline_iff x).mp hx)
    rw [this, List.reverse_reverse]

/-! ## One setting -/

theorem newLine_split (b : Bytes) : newLine b = false → ∃ sp, b = sp ++ Parse.ignoreSpaces b ∧ Inline sp := by
  intro h
  unfold newLine at h
  refine ⟨b.takeWhile Parse.isSpaces, by rw [ig_eq, List.takeWhile_append_dropWhile], inline_all.mpr fun c hc => ?_⟩
  rw [List.any_eq_false] at h
  have h1 := h c hc
  have h2 := List.all_takeWhile (p := Parse.isSpaces) (l := b)
  rw [List.all_eq_true] at h2
  have h3 := h2 c hc
  unfold Parse.isSpaces at h3
  simp [h1] at h3
  exact h3

theorem newLine_of {sp r : Bytes} (h1 : Inline sp) (h2 : NoBlank r) : newLine (sp ++ r) = false := by
  unfold newLine
  rw [List.takeWhile_append_of_pos (blank_all.mp (blank_inline h1))]
  have : r.takeWhile Parse.isSpaces = [] := by
    cases r with
    | nil => rfl
    | cons c t => rw [List.takeWhile_cons_of_neg]; intro h; exact h2 c rfl ((blank_iff c).mp h)
  rw [this, List.append_nil, List.any_eq_false]
  intro c hc hn
  have : ∀ c : UInt8, Parse.isSpaceTab c = true → Parse.isNewline c = true → False := all256 (by decide +kernel)
  exact this c (inline_all.mp h1 c hc) hn

theorem newline_blank {c : UInt8} (h : Newline c) : Blank [c] := by
  intro d hd
  simp at hd
  subst hd
  rcases h with h | h <;> simp [h]

theorem setting_some (b n v r : Bytes) : setting b = .ok (some (n, v), r) ↔ ∃ u, Skips b u ∧ SettingText n v u r := by
  have h61 : ¬ NameChar 61 := by rw [← name_iff]; decide
  have b61 : ¬ Blank [61] := by rw [← blank_iff]; decide
  constructor
  · intro h
    unfold setting at h
    obtain ⟨c1, c2, c3⟩ := comments_skip (b.length + 1) b (by omega)
    split at h
    · simp at h
    · rename_i c t hsc
      rw [hsc] at c1 c2 c3
      obtain ⟨⟨o, q⟩, h1, h2⟩ := bind_ok.mp h
      simp only at h2
      cases o with
      | none => simp at h2
      | some n' =>
        simp only at h2
        split at h2
        · cases h2
        · rename_i hne
          split at h2
          · cases h2
          · rename_i hnl
            simp only [Out.ok.injEq, Prod.mk.injEq, Option.some.injEq] at h2
            obtain ⟨⟨rfl, hv⟩, hr⟩ := h2
            obtain ⟨s1', s1, e1, e2, e3, e4⟩ := (extractName_some h61 b61 _ _ _).mp h1
            obtain rfl : s1' = [] := by
              cases s1' with
              | nil => rfl
              | cons d s1' =>
                rw [List.cons_append, List.cons.injEq] at e1
                refine absurd (fun x hx => ?_) (c2 c rfl).1
                simp at hx
                rw [hx, e1.1]
                exact e2 d (by simp)
            rw [List.nil_append] at e1
            obtain ⟨sp, f1, f2⟩ := newLine_split q (by simpa using hnl)
            have hh := ig_head q
            generalize hg : Parse.ignoreSpaces q = w at hne hv hr f1 hh
            have hwsplit : w = (w.takeWhile fun c => !Parse.isNewline c) ++ (w.dropWhile fun c => !Parse.isNewline c) := List.takeWhile_append_dropWhile.symm
            have htw : ∀ c ∈ w.takeWhile (fun c => !Parse.isNewline c), ¬ Newline c := by
              intro d hd hn
              have := List.all_takeWhile (p := fun c => !Parse.isNewline c) (l := w)
              rw [List.all_eq_true] at this
              have := this d hd
              rw [(newline_iff d).mpr hn] at this
              cases this
            have hhead : (w.takeWhile fun c => !Parse.isNewline c).head? = w.head? := by
              cases w with
              | nil => rfl
              | cons d w =>
                rw [List.takeWhile_cons_of_pos]
                · rfl
                · cases hn : Parse.isNewline d with
                  | false => rfl
                  | true => exact absurd (newline_blank ((newline_iff d).mp hn)) (hh d rfl)
            have hwne : (w.takeWhile fun c => !Parse.isNewline c) ≠ [] := by
              intro hz
              rw [hz] at hhead
              cases w with
              | nil => exact hne rfl
              | cons d w => simp at hhead
            have hfront : ∀ c, (w.takeWhile fun c => !Parse.isNewline c).head? = some c → ¬ Inline [c] := by
              intro d hd hi
              rw [hhead] at hd
              exact hh d hd (blank_inline hi)
            obtain ⟨s3, g1, g2, g3, g4, g5⟩ := trim_split hwne hfront
            subst hv
            refine ⟨_, c1, s1, sp, trim (w.takeWhile fun c => !Parse.isNewline c), s3, ?_, e3, e4, f2, g2, ?_, g3, ?_, ?_, g5, rfl⟩
            · rw [e1, f1]
              congr 3
              rw [← hr]
              calc sp ++ w = sp ++ ((w.takeWhile fun c => !Parse.isNewline c) ++ (w.dropWhile fun c => !Parse.isNewline c)) := by rw [← hwsplit]
                _ = _ := by rw [← List.append_assoc (trim _), ← g1]
            · intro d hd
              have := List.head?_dropWhile_not (fun c => !Parse.isNewline c) w
              rw [← hr] at hd
              rw [hd] at this
              simp at this
              exact (newline_iff d).mp this
            · intro d hd
              refine htw d ?_
              rw [g1]
              simp [hd]
            · intro d hd
              rw [g4] at hd
              exact hfront d hd
  · rintro ⟨u, hu, s1, s2, w, s3, rfl, h2, h3, h4, h5, h6, h7, h8, h9, h10, rfl⟩
    unfold setting
    have hst : Start (n ++ (s1 ++ (61 :: (s2 ++ (w ++ (s3 ++ r)))))) := by
      intro c hc
      refine ⟨name_front h2 c hc, ?_⟩
      obtain ⟨hn1, hn2⟩ := h2
      cases n with
      | nil => exact absurd rfl hn1
      | cons d n =>
        simp at hc
        subst hc
        rintro rfl
        have := (name_iff 35).mpr (hn2 35 (by simp))
        exact absurd this (by decide)
    rw [comments_of hu (b.length + 1) (by omega) hst]
    have hnm : extractName 61 (n ++ (s1 ++ (61 :: (s2 ++ (w ++ (s3 ++ r)))))) = .ok (some n, s2 ++ (w ++ (s3 ++ r))) :=
      (extractName_some h61 b61 _ _ _).mpr ⟨[], s1, rfl, by simp [Blank], h2, h3⟩
    cases hcons : n ++ (s1 ++ (61 :: (s2 ++ (w ++ (s3 ++ r))))) with
    | nil => simp at hcons
    | cons c t =>
      simp only
      rw [← hcons, hnm]
      simp only [Out.bind]
      have hfr : NoBlank (w ++ (s3 ++ r)) := by
        intro d hd hb
        cases w with
        | nil => exact h7 rfl
        | cons x w =>
          simp at hd
          subst hd
          have hi := h9 x rfl
          have hn := h8 x (by simp)
          have hx := hb x (by simp)
          rcases hx with hx | hx | hx | hx
          · exact hi fun y hy => by simp at hy; rw [hy]; exact Or.inl hx
          · exact hi fun y hy => by simp at hy; rw [hy]; exact Or.inr hx
          · exact hn (Or.inl hx)
          · exact hn (Or.inr hx)
      rw [ig_of (blank_inline h4) hfr, if_neg (by simp [h7]), newLine_of h4 hfr]
      simp only [Bool.false_eq_true, if_false]
      have hnl : ∀ c ∈ w ++ s3, (!Parse.isNewline c) = true := by
        intro c hc
        cases hn : Parse.isNewline c with
        | false => rfl
        | true =>
          rcases List.mem_append.mp hc with hc | hc
          · exact absurd ((newline_iff c).mp hn) (h8 c hc)
          · have : ∀ c : UInt8, Parse.isSpaceTab c = true → Parse.isNewline c = true → False := all256 (by decide +kernel)
            exact absurd hn fun hn => this c (inline_all.mp h5 c hc) hn
      have hr1 : r.takeWhile (fun c => !Parse.isNewline c) = [] ∧ r.dropWhile (fun c => !Parse.isNewline c) = r := by
        cases r with
        | nil => exact ⟨rfl, rfl⟩
        | cons d r =>
          have := (newline_iff d).mpr (h6 d rfl)
          exact ⟨List.takeWhile_cons_of_neg (by simp [this]), List.dropWhile_cons_of_neg (by simp [this])⟩
      have ht : (w ++ (s3 ++ r)).takeWhile (fun c => !Parse.isNewline c) = w ++ s3 := by
        rw [← List.append_assoc, List.takeWhile_append_of_pos hnl, hr1.1, List.append_nil]
      have hd : (w ++ (s3 ++ r)).dropWhile (fun c => !Parse.isNewline c) = r := by
        rw [← List.append_assoc, List.dropWhile_append_of_pos hnl, hr1.2]
      rw [ht, hd, trim_of h7 h5 h10]
      rfl

theorem setting_none (b r : Bytes) : setting b = .ok (none, r) ↔ Skips b r ∧ ∀ c, r.head? = some c → ¬ Blank [c] ∧ c ≠ 35 ∧ ¬ NameChar c := by
  obtain ⟨c1, c2, c3⟩ := comments_skip (b.length + 1) b (by omega)
  constructor
  · intro h
    unfold setting at h
    split at h
    · rename_i hsc
      simp only [Out.ok.injEq, Prod.mk.injEq, true_and] at h
      subst h
      rw [hsc] at c1
      exact ⟨c1, by simp⟩
    · rename_i c t hsc
      rw [hsc] at c1 c2
      obtain ⟨⟨o, q⟩, h1, h2⟩ := bind_ok.mp h
      simp only at h2
      cases o with
      | some n' =>
        simp only at h2
        split at h2
        · cases h2
        · split at h2
          · cases h2
          · simp at h2
      | none =>
        simp only [Out.ok.injEq, Prod.mk.injEq, true_and] at h2
        subst h2
        obtain ⟨e1, e2⟩ := (extractName_none _ _).mp h1
        rw [ig_self fun d hd => (c2 d hd).1] at e1
        subst e1
        exact ⟨c1, fun d hd => ⟨(c2 d hd).1, (c2 d hd).2, e2 d hd⟩⟩
  · rintro ⟨h1, h2⟩
    unfold setting
    rw [comments_of h1 (b.length + 1) (by omega) fun c hc => ⟨(h2 c hc).1, (h2 c hc).2.1⟩]
    cases r with
    | nil => rfl
    | cons c t =>
      simp only
      rw [(extractName_none (e := 61) (c :: t) (c :: t)).mpr ⟨(ig_self fun d hd => (h2 d hd).1).symm, fun d hd => (h2 d hd).2.2⟩]
      rfl

theorem setting_safe (b : Bytes) : setting b ≠ .abort := by
  unfold setting
  split
  · simp
  · rename_i c t _
    cases h : extractName 61 (c :: t) with
    | abort => exact absurd h (extractName_safe _ _)
    | err => simp [Out.bind]
    | ok x =>
      obtain ⟨o, q⟩ := x
      cases o with
      | none => simp [Out.bind]
      | some n => simp only [Out.bind]; repeat' split
                  all_goals simp

/-! ## All settings of an instance -/

theorem skips_suffix {s r : Bytes} (h : Skips s r) : r <:+ s := by
  induction h with
  | done _ => exact List.suffix_refl _
  | space _ _ ih => exact ih.trans (List.suffix_cons _ _)
  | comment _ _ _ ih => exact ih.trans ((List.suffix_append _ _).trans (List.suffix_cons _ _))

theorem settingText_suffix {n v s r : Bytes} (h : SettingText n v s r) : r <:+ s ∧ r.length < s.length := by
  obtain ⟨s1, s2, w, s3, rfl, h2, _⟩ := h
  refine ⟨⟨n ++ (s1 ++ (61 :: (s2 ++ (w ++ s3)))), by simp⟩, ?_⟩
  simp; omega

theorem skips_ig {s r : Bytes} (h : Skips s r) (hr : NoBlank r) : Skips (Parse.ignoreSpaces s) r := by
  induction h with
  | done r => rw [ig_self hr]; exact .done r
  | @space c t r hb _ ih => rw [show (c :: t : Bytes) = [c] ++ t from rfl, ig_skip hb]; exact ih hr
  | @comment l t r hl he hs _ =>
    rw [ig_self (by intro c hc; simp at hc; subst hc; rw [← blank_iff]; decide)]
    exact .comment hl he hs

theorem settings_ig {ss : List (Bytes × Bytes)} {s r : Bytes} : SettingsText ss (Parse.ignoreSpaces s) r ↔ SettingsText ss s r := by
  obtain ⟨sp, h1, h2⟩ := ig_split s
  have hsk : Skips s (Parse.ignoreSpaces s) := by
    have := skips_blank (r := Parse.ignoreSpaces s) h2
    rw [← h1] at this; exact this
  cases ss with
  | nil =>
    constructor
    · rintro ⟨h, h'⟩; exact ⟨skips_trans hsk h, h'⟩
    · rintro ⟨h, h'⟩; exact ⟨skips_ig h fun c hc => (h' c hc).1, h'⟩
  | cons x xs =>
    constructor
    · rintro ⟨u, w, h, h'⟩; exact ⟨u, w, skips_trans hsk h, h'⟩
    · rintro ⟨u, w, h, h', h''⟩
      refine ⟨u, w, skips_ig h ?_, h', h''⟩
      obtain ⟨_, _, _, _, rfl, hn, _⟩ := h'
      exact name_front hn

/-- What may be added to settings. -/
def Fits (old new : List (Bytes × Bytes)) : Prop := SettingsOk old → SettingsOk (old ++ new)

theorem addSetting_iff {ss ss' : List (Bytes × Bytes)} {n v : Bytes} (h : SettingsOk ss) : addSetting ss n v = some ss' ↔ ss' = ss ++ [(n, v)] ∧ SettingsOk ss' := by
  obtain ⟨h1, h2, h3⟩ := h
  unfold addSetting
  constructor
  · intro h
    split at h
    · cases h
    · rename_i hn
      split at h
      · cases h
      · rename_i hl
        split at h
        · cases h
        · rename_i hlen
          cases h
          refine ⟨rfl, ?_, ?_, ?_⟩
          · rw [List.map_append, List.nodup_append]
            refine ⟨h1, by simp, ?_⟩
            intro a ha b hb
            simp at hb
            subst hb
            rintro rfl
            apply hn
            rw [List.any_eq_true]
            rw [List.mem_map] at ha
            obtain ⟨x, hx, he⟩ := ha
            exact ⟨x, hx, by simp [he]⟩
          · simp [maxSettings] at hl ⊢; omega
          · intro s hs
            rcases List.mem_append.mp hs with hs | hs
            · exact h3 s hs
            · simp at hs; subst hs; simp [maxName] at hlen ⊢; omega
  · rintro ⟨rfl, g1, g2, g3⟩
    rw [if_neg, if_neg, if_neg]
    · have := g3 (n, v) (by simp)
      simp [maxName] at this ⊢; omega
    · simp [maxSettings] at g2 ⊢; omega
    · intro ha
      rw [List.any_eq_true] at ha
      obtain ⟨x, hx, he⟩ := ha
      simp at he
      rw [List.map_append, List.nodup_append] at g1
      exact g1.2.2 x.1 (List.mem_map.mpr ⟨x, hx, rfl⟩) n (by simp) he

theorem settingsOk_nil : SettingsOk [] := ⟨by simp, by simp, by simp⟩

theorem settingsOk_append {a b : List (Bytes × Bytes)} (h : SettingsOk (a ++ b)) : SettingsOk a := by
  obtain ⟨h1, h2, h3⟩ := h
  refine ⟨?_, ?_, fun s hs => h3 s (by simp [hs])⟩
  · rw [List.map_append, List.nodup_append] at h1; exact h1.1
  · simp at h2; omega

theorem settingsLoop_sound : ∀ (k : Nat) (ss ss' : List (Bytes × Bytes)) (b r : Bytes), SettingsOk ss → settingsLoop k ss b = .ok (ss', r) → ∃ new, ss' = ss ++ new ∧ SettingsText new b r ∧ SettingsOk ss' ∧ r <:+ b := by
  intro k
  induction k with
  | zero => intro ss ss' b r _ h; simp [settingsLoop] at h
  | succ k ih =>
    intro ss ss' b r hok h
    rw [settingsLoop] at h
    obtain ⟨⟨o, q⟩, h1, h2⟩ := bind_ok.mp h
    simp only at h2
    cases o with
    | none =>
      simp only [Out.ok.injEq, Prod.mk.injEq] at h2
      obtain ⟨rfl, rfl⟩ := h2
      have := (setting_none _ _).mp h1
      exact ⟨[], by simp, this, hok, skips_suffix this.1⟩
    | some x =>
      obtain ⟨n, v⟩ := x
      simp only at h2
      split at h2
      · cases h2
      · rename_i ss2 hadd
        obtain ⟨rfl, hok2⟩ := (addSetting_iff hok).mp hadd
        obtain ⟨u, hu1, hu2⟩ := (setting_some _ _ _ _).mp h1
        have hsuf := (settingText_suffix hu2).1.trans (skips_suffix hu1)
        obtain ⟨new, g1, g2, g3, g4⟩ := ih _ _ _ _ hok2 h2
        exact ⟨(n, v) :: new, by rw [g1]; simp, ⟨u, q, hu1, hu2, settings_ig.mp g2⟩, g3, g4.trans ((ig_suffix q).trans hsuf)⟩

theorem settingsLoop_complete : ∀ (k : Nat) (ss new : List (Bytes × Bytes)) (b r : Bytes), b.length < k → SettingsText new b r → SettingsOk (ss ++ new) → settingsLoop k ss b = .ok (ss ++ new, r) := by
  intro k
  induction k with
  | zero => intro ss new b r h; omega
  | succ k ih =>
    intro ss new b r hk hT hok
    rw [settingsLoop]
    cases new with
    | nil =>
      rw [(setting_none b r).mpr hT]
      simp [Out.bind]
    | cons x xs =>
      obtain ⟨n, v⟩ := x
      obtain ⟨u, w, h1, h2, h3⟩ := hT
      rw [(setting_some b n v w).mpr ⟨u, h1, h2⟩]
      simp only [Out.bind]
      have hok1 : SettingsOk (ss ++ [(n, v)]) := settingsOk_append (b := xs) (by simpa using hok)
      rw [(addSetting_iff (settingsOk_append hok1)).mpr ⟨rfl, hok1⟩]
      simp only
      have hl := (settingText_suffix h2).2
      have hs := skips_suffix h1
      have hig := (ig_suffix w).length_le
      have hsl := hs.length_le
      rw [ih (ss ++ [(n, v)]) xs (Parse.ignoreSpaces w) r (by omega) (settings_ig.mpr h3) (by simpa using hok)]
      simp

theorem settingsLoop_safe : ∀ (k : Nat) (ss : List (Bytes × Bytes)) (b : Bytes), settingsLoop k ss b ≠ .abort := by
  intro k
  induction k with
  | zero => intro ss b; simp [settingsLoop]
  | succ k ih =>
    intro ss b
    rw [settingsLoop]
    cases h : setting b with
    | abort => exact absurd h (setting_safe _)
    | err => simp [Out.bind]
    | ok x =>
      obtain ⟨o, q⟩ := x
      cases o with
      | none => simp [Out.bind]
      | some y =>
        simp only [Out.bind]
        split
        · simp
        · exact ih _ _

end Verif.Config
