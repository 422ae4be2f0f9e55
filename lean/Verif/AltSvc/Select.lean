import Verif.AltSvc.Props

namespace Verif.AltSvc
open Verif Spec

/-! ## Selection -/

theorem long_bit (l : List UInt32) (h : ∀ f ∈ l, f = long ∨ f = short) : ∀ s : UInt32, s = 0 ∨ s = 1 ∨ s = 2 ∨ s = 3 →
    ((l.foldl (· ||| ·) s &&& long ≠ 0 ↔ s &&& long ≠ 0 ∨ long ∈ l) ∧ (l.foldl (· ||| ·) s &&& short ≠ 0 ↔ s &&& short ≠ 0 ∨ short ∈ l)) := by
  induction l with
  | nil => intro s _; simp
  | cons f l ih =>
    intro s hs
    have hf := h f (by simp)
    have ih := ih (fun x hx => h x (List.mem_cons_of_mem _ hx)) (s ||| f) (by
      rcases hs with rfl | rfl | rfl | rfl <;> rcases hf with rfl | rfl <;> decide)
    rw [List.foldl_cons, ih.1, ih.2, List.mem_cons, List.mem_cons]
    rcases hf with rfl | rfl
    · have h1 : (s ||| long) &&& long ≠ 0 := by rcases hs with rfl | rfl | rfl | rfl <;> decide
      have h2 : (s ||| long) &&& short = s &&& short := by rcases hs with rfl | rfl | rfl | rfl <;> decide
      have h3 : ¬ short = long := by decide
      simp [h1, h2, h3]
    · have h1 : (s ||| short) &&& short ≠ 0 := by rcases hs with rfl | rfl | rfl | rfl <;> decide
      have h2 : (s ||| short) &&& long = s &&& long := by rcases hs with rfl | rfl | rfl | rfl <;> decide
      have h3 : ¬ long = short := by decide
      simp [h1, h2, h3]

/-- When a service is avoided, after any requests: when the last second has a connection to it, and the last fifth of a second has not. -/
theorem avoided_iff (l : List Try) (hb : Backward l) (now : Nat) (hn : ∀ t ∈ l, t.time ≤ now) (s : Bytes) (n : UInt64) (a : Bytes) (ha : addrMake s n = some a) :
    (flagsOf now a (tries l).1 &&& long ≠ 0 ∧ flagsOf now a (tries l).1 &&& short = 0) ↔
      (∃ c ∈ (tries l).2, c.server = s ∧ c.number = n ∧ now ≤ c.time + 1000000) ∧ ∀ c ∈ (tries l).2, c.server = s → c.number = n → now > c.time + 200000 := by
  have key := tries_flags l hb now hn s n a ha
  have hb' : ∀ f ∈ flagList a (fresh now (tries l).1), f = long ∨ f = short := by
    intro f hf
    obtain ⟨c, _, _, _, h⟩ := (key f).mp hf
    rcases h with h | h
    · exact .inl h.1
    · exact .inr h.1
  obtain ⟨hl, hs⟩ := long_bit _ hb' 0 (.inl rfl)
  rw [flagsOf_eq, hl]
  have hs' : (List.foldl (· ||| ·) 0 (flagList a (fresh now (tries l).1)) &&& short = 0) ↔ ¬ short ∈ flagList a (fresh now (tries l).1) := by
    rw [← Classical.not_not (a := _ = (0 : UInt32)), ← Ne, hs]
    simp
  rw [hs', key, key]
  have h1 : ¬ (0 : UInt32) &&& long ≠ 0 := by decide
  have h2 : ¬ long = short := by decide
  have h3 : ¬ short = long := by decide
  have hp : longPeriod = 1000000 := rfl
  have hq : shortPeriod = 200000 := rfl
  simp only [h1, h2, h3, false_or, true_and, false_and, or_false, hp, hq]
  constructor
  · rintro ⟨hx, hy⟩
    refine ⟨hx, fun c hc e1 e2 => ?_⟩
    apply Classical.byContradiction
    intro h
    exact hy ⟨c, hc, e1, e2, by omega⟩
  · rintro ⟨hx, hy⟩
    refine ⟨hx, ?_⟩
    rintro ⟨c, hc, e1, e2, h⟩
    have := hy c hc e1 e2
    omega

theorem consider_cases (now : Nat) (c : Client) (force : Nat) (o cur : Choice) (s : Service) (r : Choice) (h : consider now c force o cur s = some r) :
    (Usable now c force o s ∧ cur.transport ≤ s.transport ∧ cur.app ≤ s.app ∧ r = choice o s) ∨ (¬ (Usable now c force o s ∧ cur.transport ≤ s.transport ∧ cur.app ≤ s.app) ∧ r = cur) := by
  unfold consider at h
  split at h
  · next h1 => cases h; exact .inr ⟨fun u => (by rw [u.1.has] at h1; cases h1), rfl⟩
  · next h1 =>
    split at h
    · next h2 => cases h; exact .inr ⟨fun u => u.1.forced.elim h2.1 h2.2, rfl⟩
    · next h2 =>
      split at h
      · next h3 => cases h; exact .inr ⟨fun u => (by omega), rfl⟩
      · next h3 =>
        split at h
        · next h4 => cases h; exact .inr ⟨fun u => h4 u.1.port, rfl⟩
        · next h4 =>
          split at h
          · next h5 => cases h; exact .inr ⟨fun u => h5 u.1.server, rfl⟩
          · next h5 =>
            split at h
            · cases h
            · next a ha =>
              simp only at h
              split at h
              · next h6 =>
                cases h
                exact .inr ⟨fun u => u.1.free a ha ⟨h6.1, by simpa using h6.2⟩, rfl⟩
              · next h6 =>
                cases h
                refine .inl ⟨⟨by simpa using h1, ?_, by simpa using h4, by simpa using h5, ?_⟩, by omega, by omega, rfl⟩
                · by_cases h0 : force = 0
                  · exact .inl h0
                  · right
                    apply Classical.byContradiction
                    intro hne
                    exact h2 ⟨h0, hne⟩
                · intro b hb
                  rw [ha] at hb
                  cases hb
                  intro hx
                  exact h6 ⟨hx.1, by simpa using hx.2⟩

theorem selectFrom_spec (now : Nat) (c : Client) (force : Nat) (o : Choice) (l : List Service) : ∀ (cur r : Choice), selectFrom now c force o cur l = some r →
    (r = cur ∨ ∃ s ∈ l, Usable now c force o s ∧ r = choice o s) ∧ cur.transport ≤ r.transport ∧ cur.app ≤ r.app ∧
    ∀ s ∈ l, Usable now c force o s → r.transport ≤ s.transport → r.app ≤ s.app → s.transport = r.transport ∧ s.app = r.app := by
  induction l with
  | nil =>
    intro cur r h
    simp only [selectFrom, Option.some.injEq] at h
    subst h
    exact ⟨.inl rfl, Nat.le_refl _, Nat.le_refl _, fun s hs => by cases hs⟩
  | cons x l ih =>
    intro cur r h
    unfold selectFrom at h
    cases hx : consider now c force o cur x with
    | none => rw [hx] at h; cases h
    | some y =>
      rw [hx] at h
      obtain ⟨h1, h2, h3, h4⟩ := ih y r h
      rcases consider_cases now c force o cur x y hx with ⟨hu, ht, ha, rfl⟩ | ⟨hu, rfl⟩
      · simp only [choice] at h2 h3
        refine ⟨.inr ?_, by omega, by omega, ?_⟩
        · rcases h1 with rfl | ⟨s, hs, h⟩
          · exact ⟨x, by simp, hu, rfl⟩
          · exact ⟨s, List.mem_cons_of_mem _ hs, h⟩
        · intro s hs hsu h5 h6
          rcases List.mem_cons.mp hs with rfl | hs
          · omega
          · exact h4 s hs hsu h5 h6
      · refine ⟨?_, h2, h3, ?_⟩
        · rcases h1 with rfl | ⟨s, hs, h⟩
          · exact .inl rfl
          · exact .inr ⟨s, List.mem_cons_of_mem _ hs, h⟩
        · intro s hs hsu h5 h6
          rcases List.mem_cons.mp hs with rfl | hs
          · exact absurd ⟨hsu, by omega, by omega⟩ hu
          · exact h4 s hs hsu h5 h6

/-- For every list of services and every state of the client: what is used is the original or a service of the list which may be used, it is not less than the original in transport and version, and no service which
may be used is better. -/
theorem select_best (now : Nat) (c : Client) (force : Nat) (o : Choice) (l : List Service) (r : Choice) (h : select now c force o l = some r) :
    (r = o ∨ ∃ s ∈ l, Usable now c force o s ∧ r = choice o s) ∧ o.transport ≤ r.transport ∧ o.app ≤ r.app ∧
    ∀ s ∈ l, Usable now c force o s → r.transport ≤ s.transport → r.app ≤ s.app → s.transport = r.transport ∧ s.app = r.app :=
  selectFrom_spec now c force o l o r h

/-- The program does not abort if names of servers are not longer than 120 bytes. -/
theorem select_safe_partial (now : Nat) (c : Client) (force : Nat) (o : Choice) (l : List Service) (ho : o.server.length ≤ 120) (hl : ∀ s ∈ l, ∀ h, s.host = some h → h.length ≤ 120) :
    select now c force o l ≠ none := by
  have hc : ∀ cur s, s ∈ l → consider now c force o cur s ≠ none := by
    intro cur s hs
    have : (serverOf s o).length ≤ 120 := by
      unfold serverOf
      cases hh : s.host with
      | none => exact ho
      | some h =>
        simp only
        split
        · exact ho
        · exact hl s hs h hh
    unfold consider addrMake
    rw [if_pos (show (serverOf s o).length + 8 ≤ 128 by omega)]
    simp only
    repeat' split
    all_goals simp
  have key : ∀ (m : List Service) (cur : Choice), (∀ s ∈ m, s ∈ l) → selectFrom now c force o cur m ≠ none := by
    intro m
    induction m with
    | nil => intro cur _; simp [selectFrom]
    | cons x m ih =>
      intro cur hm
      unfold selectFrom
      cases hx : consider now c force o cur x with
      | none => exact absurd hx (hc cur x (hm x (by simp)))
      | some y => exact ih y fun s hs => hm s (List.mem_cons_of_mem _ hs)
  exact key l o fun s hs => hs

/-- A client with all transports, at rest. -/
def client : Client := ⟨fun t => decide (1 ≤ t ∧ t ≤ 3), fun _ => []⟩

/-- Services of a server as they are learned from its response. -/
def services : Option (List Service) := (learn 0 (Uri.str "ab.de") (matchNumber 80 1) (Uri.str "h2") (Uri.str ":443") []).bind
  (learn 0 (Uri.str "ab.de") (matchNumber 80 1) (Uri.str "h3") (Uri.str "c.ab.de:8443"))

example : services = some [⟨Uri.str "ab.de", matchNumber 80 1, none, 443, 2, 2⟩, ⟨Uri.str "ab.de", matchNumber 80 1, some (Uri.str "c.ab.de"), 8443, 3, 3⟩] ∧
    (services.bind fun l => select 0 client 0 ⟨1, 1, Uri.str "ab.de", 80⟩ l) = some ⟨3, 3, Uri.str "c.ab.de", 8443⟩ ∧
    (services.bind fun l => select 0 client 2 ⟨1, 1, Uri.str "ab.de", 80⟩ l) = some ⟨2, 2, Uri.str "ab.de", 443⟩ := by decide +kernel

/-- A server which tells about a service with a name of more than 120 letters makes the program abort at the next request. -/
theorem long_name_aborts : ∃ l, learn 0 (Uri.str "ab.de") (matchNumber 80 1) (Uri.str "h3") (List.replicate 121 97 ++ Uri.str ":443") [] = some l ∧
    select 0 client 0 ⟨1, 1, Uri.str "ab.de", 80⟩ l = none := by
  refine ⟨[⟨Uri.str "ab.de", matchNumber 80 1, some (List.replicate 121 97), 443, 3, 3⟩], ?_, ?_⟩ <;> decide +kernel

/-- Of two services of which none is better than the other, the first is used. With the services of HTTP, better transports have better versions. -/
theorem first_of_unordered (a b : Service) (now : Nat) (c : Client) (force : Nat) (o r : Choice) (ha : Usable now c force o a) (h1 : o.transport ≤ a.transport) (h2 : o.app ≤ a.app)
    (h3 : b.transport < a.transport ∨ b.app < a.app) (h : select now c force o [a, b] = some r) : r = choice o a := by
  unfold select selectFrom at h
  cases hx : consider now c force o o a with
  | none => rw [hx] at h; cases h
  | some y =>
    rw [hx] at h
    simp only at h
    rcases consider_cases now c force o o a y hx with ⟨_, _, _, rfl⟩ | ⟨hu, _⟩
    · unfold selectFrom at h
      cases hy : consider now c force o (choice o a) b with
      | none => rw [hy] at h; cases h
      | some z =>
        rw [hy] at h
        simp only [selectFrom, Option.some.injEq] at h
        subst h
        rcases consider_cases now c force o (choice o a) b z hy with ⟨_, ht, hap, _⟩ | ⟨_, rfl⟩
        · simp only [choice] at ht hap
          omega
        · rfl
    · exact absurd ⟨ha, h1, h2⟩ hu

/-! ## Services of servers -/

/-- Services which replace each other. -/
def sameKind (a b : Service) : Bool := a.matchNumber == b.matchNumber && a.transport == b.transport && a.app == b.app

theorem pushUnique_find (new x : Service) (l : List Service) : (pushUnique new l).find? (sameKind x) = if sameKind x new then some new else l.find? (sameKind x) := by
  induction l with
  | nil => unfold pushUnique; by_cases h : sameKind x new <;> simp [h]
  | cons s r ih =>
    unfold pushUnique
    have hk : sameKind s new = true ↔ (s.matchNumber = new.matchNumber ∧ s.transport = new.transport ∧ s.app = new.app) := by simp [sameKind, and_assoc]
    have hx : ∀ y, sameKind x y = true ↔ (x.matchNumber = y.matchNumber ∧ x.transport = y.transport ∧ x.app = y.app) := by intro y; simp [sameKind, and_assoc]
    have skip : ¬ sameKind s new = true → (s :: pushUnique new r).find? (sameKind x) = if sameKind x new then some new else (s :: r).find? (sameKind x) := by
      intro hs
      by_cases h : sameKind x s = true
      · rw [List.find?_cons_of_pos h, List.find?_cons_of_pos h, if_neg]
        intro h'
        have h1 := (hx s).mp h
        have h2 := (hx new).mp h'
        exact hs (hk.mpr ⟨by rw [← h1.1, h2.1], by rw [← h1.2.1, h2.2.1], by rw [← h1.2.2, h2.2.2]⟩)
      · rw [List.find?_cons_of_neg h, List.find?_cons_of_neg h]; exact ih
    split
    · next h => exact skip fun h' => h (hk.mp h').1.symm
    · next h1 =>
      split
      · next h => exact absurd rfl h
      · split
        · next h => exact skip fun h' => h (hk.mp h').2.1.symm
        · next h2 =>
          split
          · next h => exact skip fun h' => h (hk.mp h').2.2.symm
          · next h3 =>
            simp only [ne_eq, Classical.not_not] at h1 h2 h3
            have hsn : sameKind x s = sameKind x new := by simp [sameKind, h1, h2, h3]
            by_cases h : sameKind x new = true
            · rw [List.find?_cons_of_pos h, if_pos h]
            · rw [List.find?_cons_of_neg h, if_neg h, List.find?_cons_of_neg (by rw [hsn]; exact h)]

/-- The service of a server, port, version and protocol is the last one which the server has told about, if no other server has told about services of the same port and version, in all histories. -/
theorem last_service_partial (history : List Service) (x : Service) (h : ∀ s ∈ history, sameKind x s = true → s.matchString = x.matchString) :
    (history.foldl (fun l s => pushUnique s l) []).find? (fun s => sameKind x s && s.matchString == x.matchString) = history.reverse.find? (fun s => sameKind x s && s.matchString == x.matchString) := by
  have hfold : ∀ (hs : List Service), hs.foldl (fun l s => pushUnique s l) [] = hs.reverse.foldr pushUnique [] := by
    intro hs; rw [List.foldr_reverse]
  rw [hfold]
  have hm : ∀ s ∈ history.reverse, sameKind x s = true → s.matchString = x.matchString := fun s hs => h s (List.mem_reverse.mp hs)
  generalize history.reverse = m at hm
  have key : (m.foldr pushUnique []).find? (sameKind x) = m.find? (sameKind x) ∧ ∀ s ∈ m.foldr pushUnique [], s ∈ m := by
    clear hm
    induction m with
    | nil => exact ⟨rfl, fun s hs => hs⟩
    | cons y m ih =>
      refine ⟨?_, ?_⟩
      · rw [List.foldr_cons, pushUnique_find]
        by_cases h : sameKind x y = true
        · rw [if_pos h, List.find?_cons_of_pos h]
        · rw [if_neg h, List.find?_cons_of_neg h, ih.1]
      · intro s hs
        rw [List.foldr_cons] at hs
        have hp : ∀ (l : List Service), s ∈ pushUnique y l → s = y ∨ s ∈ l := by
          intro l
          induction l with
          | nil => intro h; exact .inl (by simpa [pushUnique] using h)
          | cons a l ih' =>
            intro h
            unfold pushUnique at h
            have hskip : s ∈ a :: pushUnique y l → s = y ∨ s ∈ a :: l := by
              intro h
              rcases List.mem_cons.mp h with h | h
              · exact .inr (by simp [h])
              · rcases ih' h with h | h
                · exact .inl h
                · exact .inr (List.mem_cons_of_mem _ h)
            repeat' split at h
            all_goals first
              | exact hskip h
              | (rcases List.mem_cons.mp h with h | h
                 · exact .inl h
                 · exact .inr (List.mem_cons_of_mem _ h))
        rcases hp _ hs with h | h
        · simp [h]
        · exact List.mem_cons_of_mem _ (ih.2 s h)
  have conv : ∀ n : List Service, (∀ s ∈ n, s ∈ m) → n.find? (fun s => sameKind x s && s.matchString == x.matchString) = n.find? (sameKind x) := by
    intro n hn
    induction n with
    | nil => rfl
    | cons y n ih =>
      have ih := ih fun s hs => hn s (List.mem_cons_of_mem _ hs)
      by_cases h : sameKind x y = true
      · have := hm y (hn y (by simp)) h
        rw [List.find?_cons_of_pos h, List.find?_cons_of_pos (by simp [h, this])]
      · rw [List.find?_cons_of_neg h, List.find?_cons_of_neg (by simp [h]), ih]
  rw [conv _ key.2, conv m (fun s hs => hs), key.1]

example : ∃ h : List Service, h.length = 3 ∧ (∀ s ∈ h, sameKind ⟨[97], 5, none, 443, 3, 3⟩ s = true → s.matchString = [97]) ∧
    (h.foldl (fun l s => pushUnique s l) []).find? (fun s => sameKind ⟨[97], 5, none, 443, 3, 3⟩ s && s.matchString == [97]) = some ⟨[97], 5, none, 444, 3, 3⟩ :=
  ⟨[⟨[97], 5, none, 443, 3, 3⟩, ⟨[98], 5, none, 443, 2, 2⟩, ⟨[97], 5, none, 444, 3, 3⟩], rfl, by decide +kernel, by decide +kernel⟩

/-- When another server tells about a service of the same protocol, that of the first server is forgotten. -/
theorem other_server_forgotten : let l := pushUnique ⟨[98], 5, none, 443, 3, 3⟩ (pushUnique ⟨[97], 5, none, 443, 3, 3⟩ [])
    l = [⟨[98], 5, none, 443, 3, 3⟩] := by decide

/-- The service which is told about is among those which are remembered. -/
theorem pushUnique_mem (new : Service) (l : List Service) : new ∈ pushUnique new l := by
  induction l with
  | nil => simp [pushUnique]
  | cons s r ih => unfold pushUnique; repeat' split
                   all_goals simp [ih]

/-- A server which tells about a service is remembered with the version of HTTP it told about: HTTP/2 goes over TLS, and HTTP/3 and its drafts 29 and 32 over QUIC. Other services are ignored. -/
theorem learned_protocol (next : UInt8) (m name value : Bytes) (n : UInt64) (l l' : List Service) (h : learn next m n name value l = some l') :
    (name = Uri.str "h2" → ∃ x ∈ l', x.matchString = m ∧ x.matchNumber = n ∧ x.transport = 2 ∧ x.app = 2) ∧
    (name = Uri.str "h3" ∨ name = Uri.str "h3-29" ∨ name = Uri.str "h3-32" → ∃ x ∈ l', x.matchString = m ∧ x.matchNumber = n ∧ x.transport = 3 ∧ x.app = 3) ∧
    (name ≠ Uri.str "h2" → name ≠ Uri.str "h3" → name ≠ Uri.str "h3-29" → name ≠ Uri.str "h3-32" → l' = l) := by
  have e2 : Uri.str "h2" = [104, 50] := by decide +kernel
  have e3 : Uri.str "h3" = [104, 51] := by decide +kernel
  have e4 : Uri.str "h3-29" = [104, 51, 45, 50, 57] := by decide +kernel
  have e5 : Uri.str "h3-32" = [104, 51, 45, 51, 50] := by decide +kernel
  rw [e2, e3, e4, e5]
  have key : ∀ t a, protocolOf name = some (t, a) → ∃ x ∈ l', x.matchString = m ∧ x.matchNumber = n ∧ x.transport = t ∧ x.app = a := by
    intro t a hp
    unfold learn at h
    simp only [hp] at h
    split at h
    · cases h; exact ⟨_, pushUnique_mem _ _, rfl, rfl, rfl, rfl⟩
    · cases h
  refine ⟨fun e => key 2 2 (by subst e; rfl), fun e => key 3 3 ?_, fun h1 h2 h3 h4 => ?_⟩
  · rcases e with e | e | e <;> subst e <;> rfl
  · unfold learn protocolOf at h
    simp [h1, h2, h3, h4] at h
    exact h.symm

end Verif.AltSvc
