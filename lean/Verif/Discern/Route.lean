import Verif.Discern.Text
import Verif.Types.Props
/-! # C28 and C64: the effects of definitions and the routing of messages -/
namespace Verif.Discern
open Verif Msg Spec

/-! ## C28 -/

/-- **C28**, partial. When definitions are written as a list of words each, with one word per line, and the specification reads them, then they are accepted, and executing them for a message
does exactly this: the destinations are applied in the order in which they are written, each one with the value which the
specification gives to its expression, until BAIL is used with an expression which is true (in any of the definitions). `T` is the answer of the matcher of the MQTT broker for the topic of
the message, and a tag is there if a value of the message has it.

Missing from the full property: topics and tags with NUL bytes, for which it is false (`index_wrong`), and topics which end in
'/' when the byte after them in memory is '$' (C02). Array messages which cannot be unpacked: tags fail. -/
theorem text_effects_partial {τ : Type} (le : Bool) (nxt : UInt8) (m : MsgMsg) (vs : List Types.Value) (aF : Option (τ → Bytes → Call τ Unit)) (aT : τ → Bytes → Call τ Unit)
    (hm : m.topicLength.toNat ≤ m.body.length)
    (ht0 : (0 : UInt8) ∉ topicOf m) (hnxt : nxt ≠ 0x24 ∨ (topicOf m).getLast? ≠ some 0x2F)
    (hvs : (m.class_ ≠ 11 ∧ vs = []) ∨ (m.class_ = 11 ∧ Types.toArray le m = .ok vs)) (htag : ∀ v ∈ vs, (0 : UInt8) ∉ v.tag)
    (defs : List (List Word × List Action))
    (hok : ∀ d ∈ defs, d.1 ≠ [] ∧ (∀ w ∈ d.1, WordOk w) ∧ (textOf d.1).length < 2 ^ 28 ∧ actions d.1 = some d.2) :
    ∃ ps : List Prog, (ps.map fun p => Parsed.ok p [0x0a]) = defs.map (fun d => parse (textOf d.1)) ∧
      ∀ (pr : Bool) (s : τ), (executeAll (helper le nxt m aF aT) ps (pr, s)).user = outcome (applied aF aT) s
        (effects (fun f => decide (Topic.matchStr f (topicOf m) = .match)) (fun t => vs.any fun v => v.tag = t) (defs.flatMap fun d => d.2)) := by
  have hres := resolves_of (le := le) (nxt := nxt) hm ht0 hnxt hvs htag
  have : ∃ ps : List Prog, (ps.map fun p => Parsed.ok p [0x0a]) = defs.map (fun d => parse (textOf d.1)) ∧ HasAll ps (defs.map fun d => d.2) := by
    clear hres
    induction defs with
    | nil => exact ⟨[], rfl, trivial⟩
    | cons d defs ih =>
      obtain ⟨ps, h1, h2⟩ := ih fun d hd => hok d (by simp [hd])
      obtain ⟨k1, k2, k3, k4⟩ := hok d (by simp)
      obtain ⟨p, j1, j2⟩ := (parse_text d.1 k2 k1 k3).1 d.2 k4
      exact ⟨p :: ps, by rw [List.map_cons, List.map_cons, h1, j1], j2, h2⟩
  obtain ⟨ps, h1, h2⟩ := this
  refine ⟨ps, h1, ?_⟩
  intro pr s
  rw [executeAll_effects hres h2 (pr, s), List.flatMap_def]

/-- **C28** Whatever the text of an accepted definition is, executing it has the effects of one list of actions, which is the same for all messages. -/
theorem accepted_effects_partial {text rest : Bytes} {p : Prog} (hp : parse text = .ok p rest) : ∃ as : List Action,
    ∀ (τ : Type) (le : Bool) (nxt : UInt8) (m : MsgMsg) (vs : List Types.Value) (aF : Option (τ → Bytes → Call τ Unit)) (aT : τ → Bytes → Call τ Unit),
      m.topicLength.toNat ≤ m.body.length → (0 : UInt8) ∉ topicOf m → (nxt ≠ 0x24 ∨ (topicOf m).getLast? ≠ some 0x2F) →
      ((m.class_ ≠ 11 ∧ vs = []) ∨ (m.class_ = 11 ∧ Types.toArray le m = .ok vs)) → (∀ v ∈ vs, (0 : UInt8) ∉ v.tag) →
      ∀ (pr : Bool) (s : τ), (execute (helper le nxt m aF aT) p (pr, s)).user = outcome (applied aF aT) s
        (effects (fun f => decide (Topic.matchStr f (topicOf m) = .match)) (fun t => vs.any fun v => v.tag = t) as) := by
  obtain ⟨ws, as, h1, h2⟩ := parse_words hp
  refine ⟨as, ?_⟩
  intro τ le nxt m vs aF aT hm ht0 hnxt hvs htag pr s
  exact execute_effects (resolves_of hm ht0 hnxt hvs htag) ⟨ws, h1, h2⟩ (pr, s)

theorem read_words (e : Expr) : ∀ (st : List Item) (rest : List Word), st.length + e.depth ≤ 63 →
    Spec.read st (e.words ++ rest) = Spec.read (.expr e :: st) rest := by
  have leaf : ∀ (e : Expr) (w : Word) (st st' : List Item) (rest : List Word), step st' w = some (.expr e :: st, []) → st.length + 1 ≤ 63 →
      Spec.read st' (w :: rest) = Spec.read (.expr e :: st) rest := by
    intro e w st st' rest hs hl
    rw [Spec.read, hs]
    dsimp only
    rw [if_neg (by simp; omega), if_neg (by simp)]
    cases Spec.read (.expr e :: st) rest <;> rfl
  induction e with
  | topic f => intro st rest h; exact leaf _ _ _ _ _ rfl h
  | tag t => intro st rest h; exact leaf _ _ _ _ _ rfl h
  | const b => intro st rest h; exact leaf _ _ _ _ _ rfl h
  | not e ih =>
    intro st rest h
    unfold Expr.depth at h
    have hd : 1 ≤ e.depth := by clear ih h; induction e <;> simp [Expr.depth] <;> omega
    rw [Expr.words, List.append_assoc, ih st _ h]
    exact leaf _ _ _ _ _ rfl (by omega)
  | and a b iha ihb =>
    intro st rest h
    unfold Expr.depth at h
    rw [Expr.words, List.append_assoc, List.append_assoc, iha st _ (by omega), ihb _ _ (by simp; omega)]
    exact leaf _ _ _ _ _ rfl (by omega)
  | or a b iha ihb =>
    intro st rest h
    unfold Expr.depth at h
    rw [Expr.words, List.append_assoc, List.append_assoc, iha st _ (by omega), ihb _ _ (by simp; omega)]
    exact leaf _ _ _ _ _ rfl (by omega)

/-- **C28** An expression which is written in postfix notation and applied to a destination is one action with this expression. -/
theorem actions_expression (e : Expr) (d : Bytes) (h : e.depth ≤ 62) :
    actions (e.words ++ [.dest d, .apply, .pop]) = some [.apply e d] := by
  unfold actions
  rw [if_neg (by simp), read_words e [] _ (by simp; omega)]
  rfl

-- ("a" or not tag "b") to "x": for a message with topic "a" and no tags
example : effects (fun f => f = [0x61]) (fun _ => false) [.apply (.or (.topic [0x61]) (.not (.tag [0x62]))) [0x78]] = ([(true, [0x78])], false) := by decide
example : parse (textOf ((Expr.or (.topic [0x61]) (.not (.tag [0x62]))).words ++ [.dest [0x78], .apply, .pop])) =
    .ok ⟨[⟨.topicFilter, .push, ⟨2, 0, 0x610061⟩⟩, ⟨.arrayTag, .push, ⟨2, 2, 0x620062⟩⟩, ⟨.none, .not, ⟨0, 0, 0⟩⟩, ⟨.none, .or, ⟨0, 0, 0⟩⟩,
      ⟨.destination, .push, ⟨2, 4, 0x780078⟩⟩, ⟨.none, .apply, ⟨0, 0, 0⟩⟩, ⟨.none, .pop, ⟨0, 0, 0⟩⟩], [0x61, 0, 0x62, 0, 0x78, 0]⟩ [0x0a] := by decide +kernel
-- two values are needed
example : parse (textOf [.const true, .and, .pop]) = .fault .stackCount := by decide +kernel

/-- The topic filter "æ" (UTF-8) is refused, although it is a valid filter: characters from 0x80 on are taken for control characters. -/
theorem utf8_filter_refused : Topic.filterValidateName [0xc3, 0xa6] = true ∧
    parse (textOf [.topic [0xc3, 0xa6], .dest [0x78], .apply, .pop]) = .fault .valueMissing := by decide +kernel

/-- A definition of only a comment is accepted and does nothing. -/
theorem comment_accepted : parse [0x23, 0x20, 0x78, 0x0a] = .ok ⟨[], []⟩ [] := by decide +kernel

/-- **C28** fails for tags with NUL bytes: the same expression, which is used twice in one definition, is first true and then false. The definition is
"H ab D x APPLY H ab D y APPLY POP POP" and the message has a value with tag "ab\0c". -/
theorem index_wrong : ∃ (ws : List Word) (p : Prog) (e : Expr) (m : MsgMsg), Consistent m ∧ m.class_ = 11 ∧
    (∃ vs, Types.toArray true m = .ok vs) ∧ parse (textOf ws) = .ok p [0x0a] ∧ actions ws = some [.apply e [0x78], .apply e [0x79]] ∧
    (execute (helper true 0 m (some fun s d => .ret () (s ++ [(false, d)])) (fun s d => .ret () (s ++ [(true, d)]))) p (false, ([] : List (Bool × Bytes)))).user =
      .done [(true, [0x78]), (false, [0x79])] := by
  refine ⟨[.tag [0x61, 0x62], .dest [0x78], .apply, .tag [0x61, 0x62], .dest [0x79], .apply, .pop, .pop],
    ⟨[⟨.arrayTag, .push, ⟨3, 0, 0x610062⟩⟩, ⟨.destination, .push, ⟨2, 3, 0x780078⟩⟩, ⟨.none, .apply, ⟨0, 0, 0⟩⟩, ⟨.arrayTag, .push, ⟨3, 5, 0x610062⟩⟩,
      ⟨.destination, .push, ⟨2, 8, 0x790079⟩⟩, ⟨.none, .apply, ⟨0, 0, 0⟩⟩, ⟨.none, .pop, ⟨0, 0, 0⟩⟩, ⟨.none, .pop, ⟨0, 0, 0⟩⟩],
      [0x61, 0x62, 0, 0x78, 0, 0x61, 0x62, 0, 0x79, 0]⟩, .tag [0x61, 0x62],
    Types.messageOf true [⟨.blob, 0, [0x61, 0x62, 0, 0x63], 1, [5], []⟩] 9 [0x74], ⟨by decide +kernel, by decide +kernel⟩, by decide +kernel,
    ⟨[⟨.blob, 0, [0x61, 0x62, 0, 0x63], 1, [5], []⟩], by decide +kernel⟩, by decide +kernel, rfl, ?_⟩
  decide +kernel

/-! ## C27: texts which are too long -/

theorem overflow_loop : ∀ (k n : Nat) (l : List Elem) (b : Bytes), l.length % 2 = 1 → l.length ≤ 178956967 → 178956968 < l.length + 2 * k →
    b = 0x0a :: textOf (List.replicate k [Word.const true, Word.pop]).flatten → b.length < n → parseLoop n ⟨l, []⟩ [boolCell 1] b = .oob := by
  intro k
  induction k with
  | zero => intro n l b h1 h2 h3 _ _; omega
  | succ k ih =>
    intro n l b h1 h2 h3 hb hn
    have he : textOf (List.replicate (k + 1) [Word.const true, Word.pop]).flatten =
        (Word.const true).text ++ (Word.pop.text ++ textOf (List.replicate k [Word.const true, Word.pop]).flatten) := rfl
    rw [he] at hb
    have hlen := congrArg List.length hb
    simp only [List.length_cons, List.length_append, show (Word.const true).text.length = 5 from rfl, show Word.pop.text.length = 4 from rfl] at hlen
    obtain ⟨n, rfl⟩ : ∃ j, n = j + 2 := ⟨n - 2, by omega⟩
    rw [parseLoop_word (n := n + 1) (w := .const true) (by rw [hb]; simp) (by rw [hb, lex_nl, lex_text (w := .const true) trivial]) (by unfold listFits; simp; omega) rfl]
    rw [show parseStep [boolCell 1] (listPush [] (pushOf (Word.const true))).1 = .ok [boolCell 1, boolCell 1] from rfl]
    dsimp only
    rw [if_neg (by simp)]
    by_cases hlast : l.length = 178956967
    · rw [parseLoop, if_neg (List.cons_ne_nil _ _), lex_nl, lex_text (w := .pop) trivial]
      dsimp only
      rw [if_pos (by unfold listFits elemSize; simp; omega)]
    · rw [parseLoop_word (n := n) (w := .pop) (List.cons_ne_nil _ _) (by rw [lex_nl, lex_text (w := .pop) trivial]) (by unfold listFits elemSize; simp; omega) rfl]
      rw [show parseStep [boolCell 1, boolCell 1] (listPush (listPush [] (pushOf (Word.const true))).2 (pushOf Word.pop)).1 = .ok [boolCell 1] from rfl]
      dsimp only
      rw [if_neg (by simp)]
      exact ih n _ _ (by simp; omega) (by simp; omega) (by simp; omega) rfl (by simp; omega)

theorem overflow_from (k : Nat) (hk : 89478485 ≤ k) : parse (textOf (Word.const true :: (List.replicate k [Word.const true, Word.pop]).flatten)) = .oob := by
  have hg : ∀ (b : Bytes), parse ((Word.const true).text ++ b) = parseLoop (b.length + 5 + 1) ⟨[], []⟩ [] ((Word.const true).text ++ b) := by
    intro b
    unfold parse
    have : Parse.ignoreControl ((Word.const true).text ++ b) = (Word.const true).text ++ b := by
      unfold Parse.ignoreControl
      rw [ignore_eq _ (by decide)]
      rfl
    rw [this]
    dsimp only
    rw [if_neg (by simp [Word.text])]
    rw [show ((Word.const true).text ++ b).length = b.length + 5 by simp [Word.text]]
  rw [show textOf (Word.const true :: (List.replicate k [Word.const true, Word.pop]).flatten) =
    (Word.const true).text ++ textOf (List.replicate k [Word.const true, Word.pop]).flatten from rfl, hg]
  rw [parseLoop_word (w := .const true) (by simp [Word.text]) (lex_text (w := .const true) trivial _) rfl rfl]
  rw [show parseStep [] (listPush [] (pushOf (Word.const true))).1 = .ok [boolCell 1] from rfl]
  dsimp only
  rw [if_neg (by simp)]
  exact overflow_loop k _ _ _ (by simp) (by simp) (by simp; omega) rfl (by simp)

/-- **C27** fails for texts of 805 MB and more: the number of bytes in the list of elements does not fit in 32 bits, and elements are written outside of the list. -/
theorem parse_overflow : ∃ text : Bytes, parse text = .oob := ⟨_, overflow_from _ (Nat.le_refl _)⟩

/-! ## C64: routing of messages -/

theorem applyAll_route (known : List Bytes) : ∀ (effs : List (Bool × Bytes)) (hops : List Bytes), hops.Nodup → (∀ x ∈ effs, x.2 ∈ known) →
    ∃ hops', applyAll (applied (some (routeFalse known)) (routeTrue known)) hops effs = .ret () hops' ∧ hops'.Nodup ∧
      ∀ d, d ∈ hops' ↔ LastTrue effs d ∨ (d ∈ hops ∧ ∀ x ∈ effs, x.2 ≠ d) := by
  intro effs
  induction effs with
  | nil =>
    intro hops hn _
    refine ⟨hops, rfl, hn, ?_⟩
    intro d
    constructor
    · exact fun h => Or.inr ⟨h, by simp⟩
    · rintro (⟨pre, post, h, _⟩ | ⟨h, _⟩)
      · cases pre <;> cases h
      · exact h
  | cons x effs ih =>
    intro hops hn hk
    obtain ⟨r, d⟩ := x
    have hd : d ∈ known := hk (r, d) (by simp)
    have hne : d ∉ hops.erase d := fun h => (List.Nodup.mem_erase_iff hn).mp h |>.1 rfl
    have last : ∀ d', LastTrue ((r, d) :: effs) d' ↔ LastTrue effs d' ∨ (r = true ∧ d' = d ∧ ∀ x ∈ effs, x.2 ≠ d') := by
      intro d'
      constructor
      · rintro ⟨pre, post, h, h2⟩
        cases pre with
        | nil => cases h; exact Or.inr ⟨rfl, rfl, h2⟩
        | cons y pre => cases h; exact Or.inl ⟨pre, post, rfl, h2⟩
      · rintro (⟨pre, post, h, h2⟩ | ⟨rfl, rfl, h2⟩)
        · exact ⟨(r, d) :: pre, post, by rw [h]; rfl, h2⟩
        · exact ⟨[], effs, rfl, h2⟩
    cases r with
    | true =>
      have hstep : applied (some (routeFalse known)) (routeTrue known) true hops d = .ret () (hops.erase d ++ [d]) := by
        show routeTrue known hops d = _
        unfold routeTrue
        rw [if_neg (by simpa using hd)]
        dsimp only
        rw [if_neg hne]
      obtain ⟨hops', h1, h2, h3⟩ := ih (hops.erase d ++ [d]) (by
        rw [List.nodup_append]
        refine ⟨hn.erase d, by simp, ?_⟩
        intro a ha b hb
        rw [List.mem_singleton] at hb
        rintro rfl
        exact hne (hb ▸ ha)) (fun x hx => hk x (by simp [hx]))
      refine ⟨hops', by rw [applyAll, hstep]; exact h1, h2, ?_⟩
      intro d'
      rw [h3, last, List.mem_append, List.mem_singleton, List.Nodup.mem_erase_iff hn]
      constructor
      · rintro (h | ⟨⟨h, h'⟩ | h, h2⟩)
        · exact Or.inl (Or.inl h)
        · refine Or.inr ⟨h', ?_⟩
          intro x hx
          rcases List.mem_cons.mp hx with rfl | hx
          · exact fun e => h e.symm
          · exact h2 x hx
        · exact Or.inl (Or.inr ⟨rfl, h, h2⟩)
      · rintro ((h | ⟨_, h, h2⟩) | ⟨h, h2⟩)
        · exact Or.inl h
        · exact Or.inr ⟨Or.inr h, h2⟩
        · exact Or.inr ⟨Or.inl ⟨fun e => h2 (true, d) (by simp) e.symm, h⟩, fun x hx => h2 x (by simp [hx])⟩
    | false =>
      have hstep : applied (some (routeFalse known)) (routeTrue known) false hops d = .ret () (hops.erase d) := by
        show routeFalse known hops d = _
        unfold routeFalse
        rw [if_pos hd]
      obtain ⟨hops', h1, h2, h3⟩ := ih (hops.erase d) (hn.erase d) (fun x hx => hk x (by simp [hx]))
      refine ⟨hops', by rw [applyAll, hstep]; exact h1, h2, ?_⟩
      intro d'
      rw [h3, last, List.Nodup.mem_erase_iff hn]
      constructor
      · rintro (h | ⟨⟨h, h'⟩, h2⟩)
        · exact Or.inl (Or.inl h)
        · refine Or.inr ⟨h', ?_⟩
          intro x hx
          rcases List.mem_cons.mp hx with rfl | hx
          · exact fun e => h e.symm
          · exact h2 x hx
      · rintro ((h | ⟨h, _⟩) | ⟨h, h2⟩)
        · exact Or.inl h
        · cases h
        · exact Or.inr ⟨⟨fun e => h2 (false, d) (by simp) e.symm, h⟩, fun x hx => h2 x (by simp [hx])⟩

theorem step_dest {is is' : List Item} {w : Word} {as : List Action} (h : step is w = some (is', as)) :
    (∀ e d, .apply e d ∈ as → .dest d ∈ is) ∧ (∀ d, .dest d ∈ is' → .dest d ∈ is ∨ w = .dest d) := by
  unfold step at h
  split at h <;> cases h <;> refine ⟨?_, ?_⟩ <;> simp_all

theorem read_dest : ∀ (ws : List Word) (is : List Item) (as : List Action), Spec.read is ws = some as → ∀ e d, .apply e d ∈ as →
    .dest d ∈ is ∨ .dest d ∈ ws := by
  intro ws
  induction ws with
  | nil => intro is as h; cases h
  | cons w ws ih =>
    intro is as h e d hd
    obtain ⟨is', as1, hs, _, hrest⟩ := read_step h
    obtain ⟨h1, h2⟩ := step_dest hs
    rcases hrest with ⟨_, _, rfl⟩ | ⟨as2, hr, rfl⟩
    · exact Or.inl (h1 e d hd)
    · rcases List.mem_append.mp hd with hd | hd
      · exact Or.inl (h1 e d hd)
      · rcases ih is' as2 hr e d hd with h | h
        · rcases h2 d h with h | h
          · exact Or.inl h
          · exact Or.inr (by simp [h])
        · exact Or.inr (by simp [h])

theorem effects_dest (T H : Bytes → Bool) : ∀ (as : List Action) (x : Bool × Bytes), x ∈ (effects T H as).1 → ∃ e, .apply e x.2 ∈ as := by
  intro as
  induction as with
  | nil => intro x h; cases h
  | cons a as ih =>
    intro x h
    cases a with
    | apply e d =>
      rcases List.mem_cons.mp h with rfl | h
      · exact ⟨e, by simp⟩
      · obtain ⟨e', h'⟩ := ih x h
        exact ⟨e', by simp [h']⟩
    | bail e =>
      unfold effects at h
      split at h
      · cases h
      · obtain ⟨e', h'⟩ := ih x h
        exact ⟨e', by simp [h']⟩

theorem has_dest {p : Prog} {as : List Action} (h : Has p as) {e : Expr} {d : Bytes} (hd : .apply e d ∈ as) : some d ∈ destinationNames p := by
  obtain ⟨ws, h1, h2⟩ := h
  unfold actions at h2
  split at h2
  · cases h2; cases hd
  · rcases read_dest ws [] as h2 e d hd with h | h
    · cases h
    · exact repAll_dest h1 h

/-- **C64** Routes of an instance, given as accepted texts of which all destinations exist, decide which instances may take a message: those for which the last use of APPLY had the result
true, or all readers if there is none. The routes have one list of actions, the same for all messages; the other conditions are those of C28. -/
theorem routing_partial (ps : List Prog) (known : List Bytes) (hne : ps ≠ []) (hp : ∀ p ∈ ps, ∃ text rest, parse text = .ok p rest)
    (hk : ∀ p ∈ ps, ∀ d, some d ∈ destinationNames p → d ∈ known) : ∃ as : List Action,
    ∀ (le : Bool) (nxt : UInt8) (m : MsgMsg) (vs : List Types.Value) (entry : List Bytes),
      m.topicLength.toNat ≤ m.body.length → (0 : UInt8) ∉ topicOf m → (nxt ≠ 0x24 ∨ (topicOf m).getLast? ≠ some 0x2F) →
      ((m.class_ ≠ 11 ∧ vs = []) ∨ (m.class_ = 11 ∧ Types.toArray le m = .ok vs)) → (∀ v ∈ vs, (0 : UInt8) ∉ v.tag) →
      ∀ effs, effs = (effects (fun f => decide (Topic.matchStr f (topicOf m) = .match)) (fun t => vs.any fun v => v.tag = t) as).1 →
      ∃ hops, postprocess le nxt known ps m entry = .done hops ∧
        ((∃ d, LastTrue effs d) → hops.Nodup ∧ ∀ i, nexthopOk hops i = true ↔ LastTrue effs i) ∧
        ((¬ ∃ d, LastTrue effs d) → hops = entry) := by
  have : ∃ ass, HasAll ps ass ∧ ∀ e d, .apply e d ∈ ass.flatten → d ∈ known := by
    clear hne
    induction ps with
    | nil => exact ⟨[], trivial, by simp⟩
    | cons p ps ih =>
      obtain ⟨ass, h1, h2⟩ := ih (fun q hq => hp q (by simp [hq])) (fun q hq => hk q (by simp [hq]))
      obtain ⟨text, rest, hp1⟩ := hp p (by simp)
      obtain ⟨ws, as, k1, k2⟩ := parse_words hp1
      refine ⟨as :: ass, ⟨⟨ws, k1, k2⟩, h1⟩, ?_⟩
      intro e d hd
      rw [List.flatten_cons] at hd
      rcases List.mem_append.mp hd with hd | hd
      · exact hk p (by simp) d (has_dest ⟨ws, k1, k2⟩ hd)
      · exact h2 e d hd
  obtain ⟨ass, hall, hdest⟩ := this
  refine ⟨ass.flatten, ?_⟩
  intro le nxt m vs entry hm ht0 hnxt hvs htag effs heffs
  have hres := resolves_of (le := le) (nxt := nxt) hm ht0 hnxt hvs htag
  have hrun := executeAll_effects (aF := some (routeFalse known)) (aT := routeTrue known) hres hall (false, [])
  obtain ⟨hops, h1, h2, h3⟩ := applyAll_route known effs [] (by simp) (by
    intro x hx
    rw [heffs] at hx
    obtain ⟨e, he⟩ := effects_dest _ _ _ x hx
    exact hdest e x.2 he)
  have hmem : ∀ d, d ∈ hops ↔ LastTrue effs d := by
    intro d
    rw [h3]
    simp
  have hout : ∃ pr, executeAll (helper le nxt m (some (routeFalse known)) (routeTrue known)) ps (false, []) = .done (pr, hops) ∨
      executeAll (helper le nxt m (some (routeFalse known)) (routeTrue known)) ps (false, []) = .bail (pr, hops) := by
    unfold outcome at hrun
    rw [← heffs, h1] at hrun
    dsimp only at hrun
    cases hx : executeAll (helper le nxt m (some (routeFalse known)) (routeTrue known)) ps (false, []) with
    | done s =>
      rw [hx] at hrun
      unfold Out.user at hrun
      dsimp only at hrun
      split at hrun
      · cases hrun
      · cases hrun; exact ⟨s.1, Or.inl rfl⟩
    | bail s =>
      rw [hx] at hrun
      unfold Out.user at hrun
      dsimp only at hrun
      split at hrun
      · cases hrun; exact ⟨s.1, Or.inr rfl⟩
      · cases hrun
    | err s => rw [hx] at hrun; unfold Out.user at hrun; dsimp only at hrun; split at hrun <;> cases hrun
    | abort => rw [hx] at hrun; unfold Out.user at hrun; dsimp only at hrun; split at hrun <;> cases hrun
    | oob => rw [hx] at hrun; unfold Out.user at hrun; dsimp only at hrun; split at hrun <;> cases hrun
  refine ⟨if hops = [] then entry else hops, ?_, ?_, ?_⟩
  · unfold postprocess
    rw [if_neg hne]
    obtain ⟨pr, h | h⟩ := hout <;> rw [h]
  · rintro ⟨d, hd⟩
    have hn : hops ≠ [] := by
      rintro rfl
      exact absurd ((hmem d).mpr hd) (by simp)
    rw [if_neg hn]
    refine ⟨h2, ?_⟩
    intro i
    unfold nexthopOk
    rw [decide_eq_true_iff, ← hmem i]
    simp [hn]
  · intro hno
    have hn : hops = [] := by
      cases hops with
      | nil => rfl
      | cons a l => exact absurd ⟨a, (hmem a).mp (by simp)⟩ hno
    rw [if_pos hn]

/-- **C27** Routing a message does not abort the program: the routes were accepted, their destinations exist, and the message is one which was accepted
(its topic is inside, and its values are unpacked or refused, see C60). Topics and tags may have any bytes. -/
theorem routing_safe (ps : List Prog) (known : List Bytes) (hp : ∀ p ∈ ps, ∃ text rest, parse text = .ok p rest)
    (hk : ∀ p ∈ ps, ∀ d, some d ∈ destinationNames p → d ∈ known) (le : Bool) (nxt : UInt8) (m : MsgMsg) (entry : List Bytes)
    (hm : m.topicLength.toNat ≤ m.body.length) (ha : m.class_ = 11 → Types.toArray le m = .soft ∨ ∃ vs, Types.toArray le m = .ok vs) :
    postprocess le nxt known ps m entry ≠ .abort ∧ postprocess le nxt known ps m entry ≠ .oob := by
  have hq := helper_quiet le nxt m (some (routeFalse known)) (routeTrue known) (fun d => ∃ p ∈ ps, some d ∈ destinationNames p) hm ha (by
    intro f hf s d ⟨p, h1, h2⟩
    cases hf
    unfold routeFalse
    rw [if_pos (hk p h1 d h2)]
    simp) (by
    intro s d ⟨p, h1, h2⟩
    unfold routeTrue
    rw [if_neg (by simpa using hk p h1 d h2)]
    dsimp only
    split <;> simp)
  have hs := executeAll_safe _ ps hp hq (false, [])
  unfold postprocess
  split
  · exact ⟨by simp, by simp⟩
  · split
    · exact ⟨by simp, by simp⟩
    · exact ⟨by simp, by simp⟩
    · exact ⟨by simp, by simp⟩
    · rename_i h; exact absurd h hs.1
    · rename_i h; exact absurd h hs.2

/-- Without routes, nothing is changed. -/
theorem no_routes (le : Bool) (nxt : UInt8) (known : List Bytes) (m : MsgMsg) (entry : List Bytes) : postprocess le nxt known [] m entry = .done entry := rfl

-- "T a D x APPLY D y APPLY POP T b D x APPLY POP" (two definitions) with topic "a": "y" only, because "x" is then set to false
example : ∃ p1 p2, parse (textOf [.topic [0x61], .dest [0x78], .apply, .dest [0x79], .apply, .pop]) = .ok p1 [0x0a] ∧
    parse (textOf [.topic [0x62], .dest [0x78], .apply, .pop]) = .ok p2 [0x0a] ∧
    ∃ m : MsgMsg, m.topicLength.toNat ≤ m.body.length ∧ topicOf m = [0x61] ∧ m.class_ ≠ 11 ∧
      (match postprocess true 0 [[0x78], [0x79]] [p1, p2] m [] with | .done h => h | _ => []) = [[0x79]] :=
  ⟨_, _, rfl, rfl, ⟨⟨32, 2, 0⟩, 0, 0, 7, 1, [0x61]⟩, by decide, by decide, by decide, by decide +kernel⟩

end Verif.Discern
