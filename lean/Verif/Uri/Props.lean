import Verif.Uri.Lemmas

/-!
# C141: URIs
-/
namespace Verif.Uri
open Verif Verif.HttpUtil Spec

theorem hostPort_complete (allowSlash : Bool) (next : UInt8) (h : Bytes) (hh : HostName h) (port : Option Bytes) (hp : ∀ d, port = some d → PortText d) (e : Bytes)
    (he : e = [] ∨ (allowSlash = true ∧ e.head? = some 47)) (hn : port = none → e = [] → next ≠ 58) (force : Bool) (hf : force = true → port ≠ none) :
    hostPort allowSlash force next (h ++ portText port ++ e) = .ok (some h, (port.map number).getD 0, e) := by
  obtain ⟨h1, h2, h3⟩ := hh
  have hrest : portText port ++ e = [] ∨ (portText port ++ e).head? = some 58 ∨ (allowSlash = true ∧ (portText port ++ e).head? = some 47) := by
    cases port with
    | none => rcases he with he | he
              · exact .inl (by simp [portText, he])
              · exact .inr (.inr (by simpa [portText] using he))
    | some d => exact .inr (.inl rfl)
  unfold hostPort
  rw [if_neg (by simp [h1]), List.append_assoc, scanHost_complete allowSlash _ hrest h 0 h2 (fun _ => h3)]
  simp only [if_neg h1]
  cases port with
  | none =>
    have hff : force = false := by
      cases force with
      | false => rfl
      | true => exact absurd rfl (hf rfl)
    subst hff
    cases e with
    | nil => simp [portText, hn rfl rfl]
    | cons c r =>
      simp only [List.head?_cons, Option.some.injEq, reduceCtorEq, false_or] at he
      obtain ⟨_, rfl⟩ := he
      simp [portText]
  | some d =>
    have hd := hp d rfl
    simp only [portText, List.cons_append]
    rw [if_pos trivial, port_complete d e hd (by
      intro c hc
      rcases he with rfl | ⟨_, he⟩
      · cases hc
      · rw [he] at hc; cases hc; decide)]
    simp only
    rw [if_neg (by have := hd.2.2; omega), List.drop_left]
    rfl

theorem validChar_colon_slash : validChar 58 = true ∧ validChar 47 = true := by decide

theorem validHost' : ∀ c : UInt8, isAlnum c = true ∨ c = 46 ∨ c = 45 → validChar c = true := all256 (by unfold isAlnum validChar; decide +kernel)
theorem validDigit' : ∀ c : UInt8, 48 ≤ c ∧ c ≤ 57 → validChar c = true := all256 (by unfold validChar; decide +kernel)

theorem lower_of_prefix (p name rest : Bytes) (h : p.map toLower = name) : startsWith (p ++ rest) name = true := by
  unfold startsWith
  rw [← h, List.length_map, List.take_left]
  simp

theorem lower_letter' : ∀ c : UInt8, (toLower c ∈ [104, 116, 112, 115, 119] → c ≠ 58 ∧ c ≠ 47 ∧ validChar c = true) := all256 (by unfold toLower validChar; decide +kernel)

theorem letters {p : Bytes} (h : ∀ c ∈ p.map toLower, c ∈ [104, 116, 112, 115, 119]) : 58 ∉ p ∧ p.head? ≠ some 47 ∧ ∀ c ∈ p, validChar c = true := by
  have key : ∀ c ∈ p, c ≠ 58 ∧ c ≠ 47 ∧ validChar c = true := fun c hc => lower_letter' c (h _ (List.mem_map_of_mem hc))
  refine ⟨fun hm => (key _ hm).1 rfl, fun hh => ?_, fun c hc => (key c hc).2.2⟩
  exact (key 47 (List.mem_of_mem_head? hh)).2.1 rfl

/-- The protocols whose URIs are read, in any mixture of upper and lower case: http, https and ws. -/
theorem protocolOf_known (p rest name : Bytes) (hp : p.map toLower = name) (hn : name = http ∨ name = https ∨ name = ws) (hr : rest.head? = some 58) :
    protocolOf (p ++ rest) = some name := by
  unfold protocolOf
  rcases hn with rfl | rfl | rfl
  · rw [if_neg, if_pos (lower_of_prefix p _ rest hp)]
    unfold startsWith
    cases rest with
    | nil => cases hr
    | cons c r =>
      cases hr
      have hl : p.length = 4 := by have := congrArg List.length hp; simpa [http] using this
      rw [show https.length = p.length + 1 by rw [hl]; rfl, List.take_append, List.take_of_length_le (by omega), Nat.add_sub_cancel_left]
      simp only [List.take_succ_cons, List.take_zero, List.map_append, hp]
      decide
  · rw [if_pos (lower_of_prefix p _ rest hp)]
  · have hl : p.length = 2 := by have := congrArg List.length hp; simpa [ws] using this
    match p, hl with
    | [a, b], _ =>
      simp only [List.map_cons, List.map_nil, ws, List.cons.injEq, and_true] at hp
      rw [if_neg, if_neg, if_pos (lower_of_prefix [a, b] ws rest (by simp [ws, hp]))]
      all_goals
        unfold startsWith
        simp [http, https, hp.1]

/-- Every URI of a host with an optional port and endpoint is read as its parts, for the protocols http, https and ws. The port is that of the protocol if none is given. What is in memory after the text must not
be a colon if the text ends with the name of the host. -/
theorem uri_parts_partial (next : UInt8) (p name h : Bytes) (port : Option Bytes) (e : Bytes) (hp : p.map toLower = name) (hn : name = http ∨ name = https ∨ name = ws) (hh : HostName h)
    (hport : ∀ d, port = some d → PortText d) (he : Endpoint e) (hnext : port = none → e = [] → next ≠ 58) :
    parse next (p ++ separator ++ (h ++ portText port ++ e)) = .ok { protocol := some name, host := some h, port := (port.map number).getD (if name = https then 443 else 80), endpoint := e } := by
  have hlet : ∀ c ∈ p.map toLower, c ∈ ([104, 116, 112, 115, 119] : Bytes) := by
    rw [hp]; rcases hn with rfl | rfl | rfl <;> decide
  obtain ⟨hl1, hl2, hl3⟩ := letters hlet
  have hne : p ≠ [] := by
    rintro rfl
    simp only [List.map_nil] at hp
    subst hp
    revert hn; decide
  have hvalid : (p ++ separator ++ (h ++ portText port ++ e)).all validChar = true := by
    rw [List.all_eq_true]
    intro c hc
    simp only [List.mem_append] at hc
    rcases hc with (hc | hc) | (hc | hc) | hc
    · exact hl3 c hc
    · revert c; decide
    · exact validHost' c (hh.2.1 c hc)
    · cases port with
      | none => cases hc
      | some d =>
        rcases List.mem_cons.mp hc with rfl | hc
        · decide
        · exact validDigit' c ((hport d rfl).1 c hc)
    · exact (he.2 c hc).2
  have hsplit : splitProtocol (p ++ separator ++ (h ++ portText port ++ e)) = .ok (some name, h ++ portText port ++ e) := by
    have hsep : splitSeparator (p ++ separator ++ (h ++ portText port ++ e)) = .ok (some name, h ++ portText port ++ e) := by
      unfold splitSeparator
      rw [separator_found p _ hl1]
      simp only
      rw [if_neg (by simpa using hne)]
      rw [List.append_assoc, protocolOf_known p _ name hp hn (by rfl)]
      simp only
      rw [← List.append_assoc, show p.length + 3 = (p ++ separator).length by simp [separator], List.drop_left]
    unfold splitProtocol
    rcases search_total (p ++ separator ++ (h ++ portText port ++ e)) slashes (by decide) with hs | ⟨q, n, hs⟩
    · rw [hs]; exact hsep
    · rw [hs]
      simp only
      rw [if_neg]
      · exact hsep
      · rintro rfl
        refine slashes_first _ ?_ n hs
        cases p with
        | nil => exact absurd rfl hne
        | cons a b => simpa using hl2
  unfold parse
  rw [if_neg (by rw [hvalid]; decide), hsplit]
  simp only
  rw [hostPort_complete true next h hh port hport e (he.1.imp id fun h => ⟨rfl, h⟩) hnext false (by simp)]
  simp only
  rw [if_pos (List.all_eq_true.mpr fun c hc => (he.2 c hc).1)]
  cases port with
  | none => rcases hn with rfl | rfl | rfl <;> rfl
  | some d =>
    have hd := (hport d rfl).2.2
    simp only [Option.map_some, Option.getD_some]
    rw [if_neg (by omega)]

def str (s : String) : Bytes := s.toUTF8.toList

example : str "HTTP://example.org:8080/a?b=c" = str "HTTP" ++ separator ++ (str "example.org" ++ portText (some (str "8080")) ++ str "/a?b=c") ∧ (str "HTTP").map toLower = http ∧
    HostName (str "example.org") ∧ PortText (str "8080") ∧ Endpoint (str "/a?b=c") ∧ number (str "8080") = 8080 := by
  unfold HostName PortText Endpoint; decide +kernel

/-- What is accepted is made of its parts: with no byte missing, added or out of place. -/
theorem uri_exact (next : UInt8) (l : Bytes) (u : Uri) (h : parse next l = .ok u) : (∀ c ∈ l, validChar c = true) ∧ (∀ c ∈ u.endpoint, endpointChar c = true) ∧
    ((u.protocol = none ∧ u.host = none ∧ u.port = 0 ∧ (l = u.endpoint ∨ l = slashes ++ u.endpoint)) ∨
      ∃ p name port, u.protocol = some name ∧ l = p ++ separator ++ (u.host.getD [] ++ portText port ++ u.endpoint) ∧ p ≠ [] ∧ (∀ h, u.host = some h → HostName h) ∧ (∀ d, port = some d → PortText d) ∧
        u.port = (port.map number).getD (defaultPort name) ∧ (u.endpoint = [] ∨ u.endpoint.head? = some 47 ∨ port ≠ none)) := by
  unfold parse at h
  split at h
  · cases h
  · next hv =>
    have hv' : ∀ c ∈ l, validChar c = true := List.all_eq_true.mp (by simpa using hv)
    have key : ∀ {o rest}, splitProtocol l = .ok (o, rest) → (o = none ∧ (l = rest ∨ l = slashes ++ rest)) ∨
        (∃ name p, o = some name ∧ p ≠ [] ∧ (rest = [] ∨ l = p ++ separator ++ rest)) := by
      intro o rest hs
      have sep : splitSeparator l = .ok (o, rest) → (o = none ∧ (l = rest ∨ l = slashes ++ rest)) ∨
          (∃ name p, o = some name ∧ p ≠ [] ∧ (rest = [] ∨ l = p ++ separator ++ rest)) := by
        intro hs
        unfold splitSeparator at hs
        split at hs
        · cases hs
        · cases hs
        · cases hs; exact .inl ⟨rfl, .inl rfl⟩
        · next p n he =>
          split at hs
          · cases hs
          · next hp =>
            split at hs
            · cases hs
            · next name _ =>
              cases hs
              right
              have hl : l ≠ [] := by
                rintro rfl
                revert he
                have : strcasestr [] separator = .err := by decide
                rw [this]; intro h; cases h
              refine ⟨name, l.take p, rfl, ?_, separator_sound l p n he⟩
              intro h0
              rcases List.take_eq_nil_iff.mp h0 with h | h
              · exact hp h
              · exact hl h
      unfold splitProtocol at hs
      split at hs
      · cases hs
      · cases hs
      · exact sep hs
      · next p n he =>
        split at hs
        · next hp =>
          subst hp
          obtain ⟨rfl, e⟩ := slashes_found l n he
          cases hs
          exact .inl ⟨rfl, .inr e⟩
        · exact sep hs
    split at h
    · cases h
    · cases h
    · cases h
    · next rest hs =>
      split at h
      · next he =>
        cases h
        refine ⟨hv', List.all_eq_true.mp he, .inl ⟨rfl, rfl, rfl, ?_⟩⟩
        rcases key hs with ⟨_, h⟩ | ⟨_, _, h, _⟩
        · exact h
        · cases h
      · cases h
    · next name rest hs =>
      rcases key hs with ⟨h', _⟩ | ⟨name', p, h', hp, hr⟩
      · cases h'
      · cases h'
        split at h
        · cases h
        · cases h
        · cases h
        · next host port e hh =>
          split at h
          · next he =>
            cases h
            refine ⟨hv', List.all_eq_true.mp he, .inr ?_⟩
            unfold hostPort at hh
            split at hh
            · cases hh
            · next hne =>
              have hl := hr.resolve_left hne
              cases hsc : scanHost true 0 rest with
              | none => rw [hsc] at hh; cases hh
              | some x =>
                obtain ⟨hn, tail⟩ := x
                rw [hsc] at hh
                obtain ⟨e1, e2, e3, e4⟩ := scanHost_sound true rest 0 hn tail hsc
                have hhost : (if hn = [] then none else some hn : Option Bytes).getD [] = hn ∧ ∀ h, (if hn = [] then none else some hn : Option Bytes) = some h → HostName h := by
                  by_cases h0 : hn = []
                  · simp [h0]
                  · simp only [if_neg h0, Option.getD_some, Option.some.injEq, true_and]
                    rintro h rfl
                    exact ⟨h0, e2, e3 rfl⟩
                simp only at hh
                split at hh
                · split at hh
                  · cases hh
                  · simp only [Bool.false_eq_true, if_false, Out.ok.injEq, Prod.mk.injEq] at hh
                    obtain ⟨rfl, rfl, rfl⟩ := hh
                    refine ⟨p, name, none, rfl, ?_, hp, hhost.2, by simp, by simp, .inl rfl⟩
                    rw [hl, e1, hhost.1]; simp [portText]
                · next c r =>
                  split at hh
                  · next hc =>
                    subst hc
                    split at hh
                    · cases hh
                    · next v n hv =>
                      split at hh
                      · cases hh
                      · next hb =>
                        simp only [Out.ok.injEq, Prod.mk.injEq] at hh
                        obtain ⟨rfl, rfl, rfl⟩ := hh
                        obtain ⟨d, hd, hvd, hr', hdl⟩ := port_sound r v n hv hb
                        refine ⟨p, name, some d, rfl, ?_, hp, hhost.2, by rintro _ ⟨⟩; exact hd, ?_, .inr (.inr (by simp))⟩
                        · rw [hl, e1, hhost.1]
                          simp only [portText, List.append_assoc, List.cons_append]
                          rw [← hr']
                        · simp only [Option.map_some, Option.getD_some]
                          rw [if_neg (by omega), hvd]
                  · next hc =>
                    simp only [Bool.false_eq_true, if_false, Out.ok.injEq, Prod.mk.injEq] at hh
                    obtain ⟨rfl, rfl, rfl⟩ := hh
                    refine ⟨p, name, none, rfl, ?_, hp, hhost.2, by simp, by simp, .inr (.inl ?_)⟩
                    · rw [hl, e1, hhost.1]; simp [portText]
                    · rcases e4 with h | h | h
                      · cases h
                      · simp only [List.head?_cons, Option.some.injEq] at h; exact absurd h hc
                      · exact h.2
          · cases h

/-- Nothing is written or read outside of the text except for the one byte after it, and the program does not abort unless that byte is a colon. -/
theorem uri_safe_partial (next : UInt8) (l : Bytes) : parse next l ≠ .fault ∧ (parse next l = .bug → next = 58) := by
  have hs : ∀ l, splitProtocol l ≠ .bug ∧ splitProtocol l ≠ .fault := by
    intro l
    have hsep : splitSeparator l ≠ .bug ∧ splitSeparator l ≠ .fault := by
      unfold splitSeparator
      rcases search_total l separator (by decide) with h | ⟨p, n, h⟩
      · rw [h]; exact ⟨by simp, by simp⟩
      · rw [h]
        simp only
        split
        · exact ⟨by simp, by simp⟩
        · split <;> exact ⟨by simp, by simp⟩
    unfold splitProtocol
    rcases search_total l slashes (by decide) with h | ⟨p, n, h⟩
    · rw [h]; exact hsep
    · rw [h]
      simp only
      split
      · exact ⟨by simp, by simp⟩
      · exact hsep
  have hh : ∀ l, hostPort true false next l ≠ .fault ∧ (hostPort true false next l = .bug → next = 58) := by
    intro l
    unfold hostPort
    split
    · exact ⟨by simp, by simp⟩
    · split
      · exact ⟨by simp, by simp⟩
      · simp only
        split
        · split
          · next h => exact ⟨by simp, fun _ => h⟩
          · exact ⟨by simp, by simp⟩
        · split
          · split
            · exact ⟨by simp, by simp⟩
            · split <;> exact ⟨by simp, by simp⟩
          · exact ⟨by simp, by simp⟩
  unfold parse
  split
  · exact ⟨by simp, by simp⟩
  · split
    · next h => exact absurd h (hs l).1
    · next h => exact absurd h (hs l).2
    · exact ⟨by simp, by simp⟩
    · split <;> exact ⟨by simp, by simp⟩
    · split
      · next h => exact ⟨by simp, fun _ => (hh _).2 h⟩
      · next h => exact absurd h (hh _).1
      · exact ⟨by simp, by simp⟩
      · split <;> exact ⟨by simp, by simp⟩

/-! ## Hosts of alternative services -/

theorem hostPort_forced (next : UInt8) (d : Bytes) (hd : PortText d) : hostPort false true next (58 :: d) = .ok (none, number d, []) := by
  unfold hostPort
  have h := scanHost_complete false (58 :: d) (.inr (.inl rfl)) [] 0 (by simp) (by simp)
  rw [List.nil_append] at h
  rw [if_neg (by simp), h]
  simp only [if_true]
  have hp := port_complete d [] hd (by simp)
  rw [List.append_nil] at hp
  rw [hp]
  simp only
  rw [if_neg (by have := hd.2.2; omega), List.drop_length]

/-- The value of an alternative service is accepted exactly if it is an optional host, a colon and a port, and is read as these. -/
theorem hostParse_iff (next : UInt8) (l : Bytes) (u : Uri) : hostParse next l = .ok u ↔
    ∃ d, PortText d ∧ l = u.host.getD [] ++ 58 :: d ∧ (∀ h, u.host = some h → HostName h) ∧ u = { host := u.host, port := number d } := by
  constructor
  · intro h
    unfold hostParse at h
    split at h
    · cases h
    · split at h
      · cases h
      · cases h
      · cases h
      · split at h
        · cases h
        · cases h
        · cases h
        · split at h
          · cases h
          · cases h
          · cases h
          · next host port e hh =>
            split at h
            · cases h
            · split at h
              · cases h
              · next hp he =>
                simp only [ne_eq, Classical.not_not] at he
                subst he
                cases h
                unfold hostPort at hh
                split at hh
                · cases hh
                · cases hsc : scanHost false 0 l with
                  | none => rw [hsc] at hh; cases hh
                  | some x =>
                    obtain ⟨hn, tail⟩ := x
                    rw [hsc] at hh
                    obtain ⟨e1, e2, e3, e4⟩ := scanHost_sound false l 0 hn tail hsc
                    simp only at hh
                    split at hh
                    · split at hh
                      · cases hh
                      · cases hh
                    · next c r =>
                      split at hh
                      · next hc =>
                        subst hc
                        split at hh
                        · cases hh
                        · next v n hv =>
                          split at hh
                          · cases hh
                          · next hb =>
                            simp only [Out.ok.injEq, Prod.mk.injEq] at hh
                            obtain ⟨rfl, rfl, h0⟩ := hh
                            obtain ⟨d, hd, hvd, hr, _⟩ := port_sound r v n hv hb
                            rw [h0, List.append_nil] at hr
                            subst hr
                            refine ⟨r, hd, ?_, ?_, by simp [hvd]⟩
                            · rw [e1]
                              by_cases h0 : hn = [] <;> simp [h0]
                            · intro h hh
                              by_cases h0 : hn = []
                              · simp [h0] at hh
                              · simp only [if_neg h0, Option.some.injEq] at hh
                                subst hh
                                exact ⟨h0, e2, e3 rfl⟩
                      · cases hh
  · rintro ⟨d, hd, rfl, hh, hu⟩
    have hne : d ≠ [] := by
      rintro rfl
      exact absurd hd.2.2.1 (by decide)
    have hhost : ∀ c ∈ u.host.getD [], isAlnum c = true ∨ c = 46 ∨ c = 45 := by
      intro c hc
      cases h : u.host with
      | none => rw [h] at hc; cases hc
      | some x => rw [h] at hc; exact (hh x h).2.1 c hc
    have hslash : ∀ c ∈ u.host.getD [] ++ 58 :: d, c ≠ 47 ∧ validChar c = true := by
      intro c hc
      rcases List.mem_append.mp hc with hc | hc
      · have := hhost c hc
        exact ⟨by rintro rfl; revert this; decide, validHost' c this⟩
      · rcases List.mem_cons.mp hc with rfl | hc
        · decide
        · have := hd.1 c hc
          exact ⟨by rintro rfl; revert this; decide, validDigit' c this⟩
    have hget : ∀ i, i < (u.host.getD [] ++ 58 :: d).length → (u.host.getD [] ++ 58 :: d).getD i 0 ∈ u.host.getD [] ++ 58 :: d := by
      intro i hi
      rw [List.getD_eq_getElem?_getD, List.getElem?_eq_getElem hi]
      exact List.getElem_mem hi
    have hlast : ∀ c, (u.host.getD [] ++ 58 :: d).getD ((u.host.getD [] ++ 58 :: d).length - 1) 0 = c → c ≠ 58 ∧ c ≠ 47 := by
      intro c hc
      obtain ⟨d', x, rfl⟩ : ∃ d' x, d = d' ++ [x] := ⟨d.dropLast, d.getLast hne, (List.dropLast_concat_getLast hne).symm⟩
      rw [show u.host.getD [] ++ 58 :: (d' ++ [x]) = (u.host.getD [] ++ 58 :: d') ++ [x] by simp, List.length_append, List.length_singleton, Nat.add_sub_cancel,
        List.getD_eq_getElem?_getD, List.getElem?_append_right (Nat.le_refl _), Nat.sub_self] at hc
      have hx := hd.1 x (by simp)
      have hc : x = c := by simpa using hc
      subst hc
      exact ⟨by rintro rfl; revert hx; decide, by rintro rfl; revert hx; decide⟩
    have hnone : ∀ needle, (needle = separator ∨ needle = slashes) → strcasestr (u.host.getD [] ++ 58 :: d) needle = .err := by
      intro needle hneedle
      have hnn : needle ≠ [] := by rcases hneedle with rfl | rfl <;> decide
      rcases (strcasestr_partial (u.host.getD [] ++ 58 :: d) needle hnn).1 with h | ⟨p, n, _, hc⟩
      · exact h
      · exfalso
        rcases hc with ⟨_, hl, ho⟩ | ⟨hn, h0, he, _, ho⟩
        · have hi : needle.length - 1 < needle.length := by rcases hneedle with rfl | rfl <;> decide
          have := ho (needle.length - 1) hi
          rw [show needle.getD (needle.length - 1) 0 = 47 by rcases hneedle with rfl | rfl <;> rfl] at this
          exact (hslash _ (hget _ (by omega))).1 (same_slash.mp this)
        · have hi : n - 1 < (needle.take n).length := by rw [List.length_take]; omega
          have := ho (n - 1) hi
          rw [show p + (n - 1) = (u.host.getD [] ++ 58 :: d).length - 1 by omega] at this
          have hl := hlast _ rfl
          have hch : (needle.take n).getD (n - 1) 0 = 58 ∨ (needle.take n).getD (n - 1) 0 = 47 := by
            rcases hneedle with rfl | rfl
            · have : n = 1 ∨ n = 2 := by simp only [separator, List.length_cons, List.length_nil] at hn; omega
              rcases this with rfl | rfl <;> decide
            · have : n = 1 := by simp only [slashes, List.length_cons, List.length_nil] at hn; omega
              subst this; decide
          rcases hch with h | h
          · rw [h] at this; exact hl.1 (same_colon.mp this)
          · rw [h] at this; exact hl.2 (same_slash.mp this)
    have hp : hostPort false true next (u.host.getD [] ++ 58 :: d) = .ok (u.host, number d, []) := by
      cases h : u.host with
      | none => exact hostPort_forced next d hd
      | some x =>
        have := hostPort_complete false next x (hh x h) (some d) (by rintro _ ⟨⟩; exact hd) [] (.inl rfl) (by simp) true (by simp)
        simpa [portText] using this
    unfold hostParse
    rw [if_neg (by rw [List.all_eq_true.mpr fun c hc => (hslash c hc).2]; decide), hnone _ (.inl rfl), hnone _ (.inr rfl)]
    simp only [hp]
    rw [if_neg (by have := hd.2.2; omega), if_neg (by simp), ← hu]

/-! ## Where the code differs -/

/-- Encrypted websockets are taken for plain ones: the names of both begin with `ws`. -/
theorem wss_is_plain (next : UInt8) : parse next (str "wss://example.org/") = .ok { protocol := some ws, host := some (str "example.org"), port := 80, endpoint := str "/" } ∧
    tls { protocol := some ws, host := some (str "example.org"), port := 80, endpoint := str "/" } = false := by
  refine ⟨?_, by decide⟩
  revert next; exact all256 (by decide +kernel)

/-- No URI of any kind is taken for one of encrypted websockets. -/
theorem never_wss (next : UInt8) (l : Bytes) (u : Uri) (h : parse next l = .ok u) : u.protocol ≠ some wss := by
  have hp : ∀ l, protocolOf l ≠ some wss := by
    intro l
    unfold protocolOf
    split
    · decide
    · split
      · decide
      · split
        · decide
        · next h =>
          rw [if_neg]
          · decide
          · intro h'
            apply h
            unfold startsWith at h' ⊢
            simp only [wss, ws, List.length_cons, List.length_nil, beq_iff_eq] at h' ⊢
            match l, h' with
            | [], h' => cases h'
            | [a], h' => simp at h'
            | [a, b], h' => simp at h'
            | a :: b :: c :: r, h' => simpa using ⟨(List.cons.inj h').1, (List.cons.inj (List.cons.inj h').2).1⟩
  have hs : ∀ {o rest}, splitProtocol l = .ok (o, rest) → o ≠ some wss := by
    intro o rest h
    have sep : splitSeparator l = .ok (o, rest) → o ≠ some wss := by
      intro h
      unfold splitSeparator at h
      split at h
      · cases h
      · cases h
      · cases h; simp
      · split at h
        · cases h
        · split at h
          · cases h
          · next name hn => cases h; rw [← hn]; exact hp l
    unfold splitProtocol at h
    split at h
    · cases h
    · cases h
    · exact sep h
    · split at h
      · cases h; simp
      · exact sep h
  unfold parse at h
  split at h
  · cases h
  · split at h
    · cases h
    · cases h
    · cases h
    · split at h
      · cases h; simp
      · cases h
    · next hsp =>
      split at h
      · cases h
      · cases h
      · cases h
      · split at h
        · cases h; exact hs hsp
        · cases h

/-- The byte after the text decides whether the program aborts. -/
theorem reads_beyond : parse 58 (str "http://ab") = .bug ∧ parse 0 (str "http://ab") = .ok { protocol := some http, host := some (str "ab"), port := 80, endpoint := [] } := by decide +kernel

/-- Other protocols are taken for the known ones by how they begin, a host may be missing, and a host after two slashes is taken for a path. -/
theorem wrong_accepted : parse 0 (str "httpx://ab/") = .ok { protocol := some http, host := some (str "ab"), port := 80, endpoint := str "/" } ∧
    parse 0 (str "http:///a") = .ok { protocol := some http, host := none, port := 80, endpoint := str "/a" } ∧
    parse 0 (str "//ab.de/c") = .ok { endpoint := str "ab.de/c" } := by decide +kernel

/-- Valid paths are refused if they end with a colon or have a URI in their query, and valid URIs if a query follows the host. -/
theorem right_refused : parse 0 (str "/a:") = .err ∧ parse 0 (str "/a?b=http://c/") = .err ∧ parse 0 (str "http://ab?c") = .err ∧ parse 0 (str "/a?b=c") = .ok { endpoint := str "/a?b=c" } := by
  decide +kernel

end Verif.Uri
