import Verif.Mqtt.Parse
/-!
# Properties closed under parser sequencing

`Safe`: never reads outside of the received data. `Mono`: once a result other than incomplete
has been reached, more received data does not change it. `Adv`: the position never decreases.
`NoBug`: never aborts the process.
-/
namespace Verif.Mqtt
open Verif

theorem bind_def {α β : Type} (p : P α) (f : α → P β) : (p >>= f) = P.bind p f := rfl
theorem pure_def {α : Type} (a : α) : (pure a : P α) = P.pure a := rfl

theorem bind_ok {α β : Type} {p : P α} {f : α → P β} {e : Env} {pos : Nat} {a : α} {pos' : Nat}
    (h : p e pos = .ok (a, pos')) : (p >>= f) e pos = f a e pos' := by
  simp only [bind_def, P.bind, h]

theorem bind_cases {α β : Type} {p : P α} {f : α → P β} {e : Env} {pos : Nat} {r : Res (β × Nat)}
    (h : (p >>= f) e pos = r) :
    (∃ a pos', p e pos = .ok (a, pos') ∧ f a e pos' = r) ∨
    (p e pos = .incomplete ∧ r = .incomplete) ∨ (p e pos = .soft ∧ r = .soft) ∨
    (p e pos = .bug ∧ r = .bug) ∨ (p e pos = .oob ∧ r = .oob) := by
  rw [bind_def, P.bind] at h
  cases hp : p e pos with
  | ok x => rw [hp] at h; exact Or.inl ⟨x.1, x.2, rfl, h⟩
  | incomplete => rw [hp] at h; exact Or.inr (Or.inl ⟨rfl, h.symm⟩)
  | soft => rw [hp] at h; exact Or.inr (Or.inr (Or.inl ⟨rfl, h.symm⟩))
  | bug => rw [hp] at h; exact Or.inr (Or.inr (Or.inr (Or.inl ⟨rfl, h.symm⟩)))
  | oob => rw [hp] at h; exact Or.inr (Or.inr (Or.inr (Or.inr ⟨rfl, h.symm⟩)))

theorem bind_eq_ok {α β : Type} {p : P α} {f : α → P β} {e : Env} {pos : Nat} {x : β × Nat}
    (h : (p >>= f) e pos = .ok x) : ∃ a pos', p e pos = .ok (a, pos') ∧ f a e pos' = .ok x := by
  rcases bind_cases h with h | ⟨_, h⟩ | ⟨_, h⟩ | ⟨_, h⟩ | ⟨_, h⟩
  · exact h
  all_goals cases h

/-- See the module comment. -/
structure Good {α : Type} (p : P α) : Prop where
  safe : ∀ e pos, p e pos ≠ .oob
  mono : ∀ b ext t pos r, p ⟨b, t⟩ pos = r → r ≠ .incomplete → p ⟨b ++ ext, t⟩ pos = r
  adv : ∀ e pos a pos', p e pos = .ok (a, pos') → pos ≤ pos'

def NoBug {α : Type} (p : P α) : Prop := ∀ e pos, p e pos ≠ .bug

theorem Good.bind {α β : Type} {p : P α} {f : α → P β} (hp : Good p) (hf : ∀ a, Good (f a)) :
    Good (p >>= f) := by
  refine ⟨?_, ?_, ?_⟩
  · intro e pos h
    rcases bind_cases h with ⟨a, pos', _, h2⟩ | ⟨_, h⟩ | ⟨_, h⟩ | ⟨_, h⟩ | ⟨h, _⟩
    · exact (hf a).safe _ _ h2
    · cases h
    · cases h
    · cases h
    · exact hp.safe _ _ h
  · intro b ext t pos r h hr
    rcases bind_cases h with ⟨a, pos', h1, h2⟩ | ⟨h1, h⟩ | ⟨h1, h⟩ | ⟨h1, h⟩ | ⟨h1, _⟩
    · rw [bind_ok (hp.mono b ext t pos _ h1 (by simp))]
      exact (hf a).mono b ext t pos' r h2 hr
    · exact absurd h hr
    · have := hp.mono b ext t pos _ h1 (by simp)
      simp only [bind_def, P.bind, this, h]
    · have := hp.mono b ext t pos _ h1 (by simp)
      simp only [bind_def, P.bind, this, h]
    · exact absurd h1 (hp.safe _ _)
  · intro e pos a pos' h
    obtain ⟨x, p1, h1, h2⟩ := bind_eq_ok h
    exact Nat.le_trans (hp.adv _ _ _ _ h1) ((hf x).adv _ _ _ _ h2)

theorem NoBug.bind {α β : Type} {p : P α} {f : α → P β} (hp : NoBug p) (hf : ∀ a, NoBug (f a)) :
    NoBug (p >>= f) := by
  intro e pos h
  rcases bind_cases h with ⟨a, pos', _, h2⟩ | ⟨_, h⟩ | ⟨_, h⟩ | ⟨h, _⟩ | ⟨_, h⟩
  · exact hf a _ _ h2
  · cases h
  · cases h
  · exact hp _ _ h
  · cases h

theorem Good.pure {α : Type} (a : α) : Good (pure a : P α) :=
  ⟨(by intro e pos h; cases h), (by intro b ext t pos r h _; exact h), (by intro e pos x pos' h; cases h; omega)⟩
theorem NoBug.pure {α : Type} (a : α) : NoBug (pure a : P α) := by intro e pos h; cases h

theorem good_soft {α : Type} : Good (soft : P α) :=
  ⟨(by intro e pos h; cases h), (by intro b ext t pos r h _; exact h), (by intro e pos x pos' h; cases h)⟩
theorem noBug_soft {α : Type} : NoBug (soft : P α) := by intro e pos h; cases h

theorem good_incomplete {α : Type} : Good (incomplete : P α) :=
  ⟨(by intro e pos h; cases h), (by intro b ext t pos r h _; exact h), (by intro e pos x pos' h; cases h)⟩
theorem noBug_incomplete {α : Type} : NoBug (incomplete : P α) := by intro e pos h; cases h

theorem good_bug {α : Type} : Good (bug : P α) :=
  ⟨(by intro e pos h; cases h), (by intro b ext t pos r h _; exact h), (by intro e pos x pos' h; cases h)⟩

theorem good_require (c : Bool) : Good (require c) := by
  unfold require; split
  · exact Good.pure ()
  · exact good_soft
theorem noBug_require (c : Bool) : NoBug (require c) := by
  unfold require; split
  · exact NoBug.pure ()
  · exact noBug_soft

theorem good_getPos : Good getPos :=
  ⟨(by intro e pos h; cases h), (by intro b ext t pos r h _; exact h), (by intro e pos x pos' h; cases h; omega)⟩
theorem noBug_getPos : NoBug getPos := by intro e pos h; cases h
theorem good_getTarget : Good getTarget :=
  ⟨(by intro e pos h; cases h), (by intro b ext t pos r h _; exact h), (by intro e pos x pos' h; cases h; omega)⟩
theorem noBug_getTarget : NoBug getTarget := by intro e pos h; cases h
theorem good_skip (n : Nat) : Good (skip n) :=
  ⟨(by intro e pos h; cases h), (by intro b ext t pos r h _; exact h), (by intro e pos x pos' h; cases h; omega)⟩
theorem noBug_skip (n : Nat) : NoBug (skip n) := by intro e pos h; cases h
theorem good_targetEnd : Good targetEnd :=
  ⟨(by intro e pos h; cases h), (by intro b ext t pos r h _; exact h), (by intro e pos x pos' h; cases h; omega)⟩
theorem noBug_targetEnd : NoBug targetEnd := by intro e pos h; cases h

theorem rd_of_lt {e : Env} {i : Nat} (h : i < e.buf.length) (pos : Nat) :
    rd i e pos = .ok (e.buf[i], pos) := by
  unfold rd; rw [List.getElem?_eq_getElem h]

theorem rd_append {b ext : Bytes} {i t : Nat} (h : i < b.length) (pos : Nat) :
    rd i ⟨b ++ ext, t⟩ pos = .ok (b[i], pos) := by
  unfold rd; simp only; rw [List.getElem?_append_left h, List.getElem?_eq_getElem h]

theorem copy_of_le {e : Env} {s n : Nat} (h : s + n ≤ e.buf.length) (pos : Nat) :
    copy s n e pos = .ok ((e.buf.drop s).take n, pos) := by
  unfold copy; rw [if_pos h]

theorem take_drop_append {b ext : Bytes} {s n : Nat} (h : s + n ≤ b.length) :
    ((b ++ ext).drop s).take n = (b.drop s).take n := by
  rw [List.drop_append_of_le_length (by omega), List.take_append_of_le_length (by rw [List.length_drop]; omega)]

theorem copy_append {b ext : Bytes} {s n t : Nat} (h : s + n ≤ b.length) (pos : Nat) :
    copy s n ⟨b ++ ext, t⟩ pos = .ok ((b.drop s).take n, pos) := by
  rw [copy_of_le (by simp only [List.length_append]; omega)]
  simp only [take_drop_append h]

theorem u8_eq (e : Env) (pos : Nat) :
    u8 e pos = if h : pos < e.buf.length then .ok (e.buf[pos], pos + 1) else .incomplete := by
  unfold u8
  simp only [bind_def, P.bind, prepare]
  split <;> rename_i h
  · split at h
    · cases h
    · cases h; rw [rd_of_lt (by omega), dif_pos (by omega)]
  all_goals (split at h <;> first | (cases h; done) | (rw [dif_neg (by omega)]))

theorem good_u8 : Good u8 := by
  refine ⟨?_, ?_, ?_⟩
  · intro e pos h; rw [u8_eq] at h; split at h <;> cases h
  · intro b ext t pos r h hr
    rw [u8_eq] at h ⊢
    simp only at h ⊢
    split at h
    · rename_i hp
      rw [dif_pos (by rw [List.length_append]; omega), List.getElem_append_left hp]; exact h
    · exact absurd h.symm hr
  · intro e pos a pos' h; rw [u8_eq] at h; split at h <;> cases h; omega
theorem noBug_u8 : NoBug u8 := by intro e pos h; rw [u8_eq] at h; split at h <;> cases h

theorem u16_eq (e : Env) (pos : Nat) :
    u16 e pos = if h : pos + 1 < e.buf.length then
      .ok (e.buf[pos].toNat * 256 + e.buf[pos + 1].toNat, pos + 2) else .incomplete := by
  by_cases h : pos + 1 < e.buf.length
  · rw [dif_pos h]
    unfold u16
    rw [bind_ok (a := pos) (pos' := pos + 2) (by unfold prepare; rw [if_neg (by omega)])]
    rw [bind_ok (rd_of_lt (by omega) _), bind_ok (rd_of_lt h _)]
    rfl
  · rw [dif_neg h]
    unfold u16
    simp only [bind_def, P.bind, prepare]
    rw [if_pos (by omega)]

theorem good_u16 : Good u16 := by
  refine ⟨?_, ?_, ?_⟩
  · intro e pos h; rw [u16_eq] at h; split at h <;> cases h
  · intro b ext t pos r h hr
    rw [u16_eq] at h ⊢
    simp only at h ⊢
    split at h
    · rename_i hp
      rw [dif_pos (by rw [List.length_append]; omega), List.getElem_append_left hp,
        List.getElem_append_left (by omega)]; exact h
    · exact absurd h.symm hr
  · intro e pos a pos' h; rw [u16_eq] at h; split at h <;> cases h; omega
theorem noBug_u16 : NoBug u16 := by intro e pos h; rw [u16_eq] at h; split at h <;> cases h

theorem good_packetId : Good packetId := by
  unfold packetId
  exact good_u16.bind fun _ => (good_require _).bind fun _ => Good.pure _
theorem noBug_packetId : NoBug packetId := by
  unfold packetId
  exact noBug_u16.bind fun _ => (noBug_require _).bind fun _ => NoBug.pure _

theorem prepare_rd (f : UInt8 → P α) : (do let s ← prepare 1; let c ← rd s; f c) = (u8 >>= f) := by
  funext e pos
  simp only [u8, bind_def, P.bind]
  split <;> simp_all

theorem varintLoop_succ (n r x : Nat) : varintLoop (n + 1) r x = (u8 >>= fun c =>
    if c.toNat &&& 0x80 ≠ 0 then varintLoop n (r + (c.toNat &&& 0x7f) * x) (x * 128)
    else pure (r + (c.toNat &&& 0x7f) * x)) := by
  rw [← prepare_rd]; rfl

theorem good_varintLoop : ∀ n r x, Good (varintLoop n r x)
  | 0, _, _ => good_soft
  | n + 1, r, x => by
    rw [varintLoop_succ]
    refine good_u8.bind fun c => ?_
    split
    · exact good_varintLoop _ _ _
    · exact Good.pure _
theorem noBug_varintLoop : ∀ n r x, NoBug (varintLoop n r x)
  | 0, _, _ => noBug_soft
  | n + 1, r, x => by
    rw [varintLoop_succ]
    refine noBug_u8.bind fun c => ?_
    split
    · exact noBug_varintLoop _ _ _
    · exact NoBug.pure _
theorem good_varint : Good varint := good_varintLoop _ _ _
theorem noBug_varint : NoBug varint := noBug_varintLoop _ _ _

theorem takeN_eq (n : Nat) (e : Env) (pos : Nat) :
    takeN n e pos = if pos + n ≤ e.buf.length then .ok ((e.buf.drop pos).take n, pos + n) else .incomplete := by
  unfold takeN
  by_cases h : pos + n ≤ e.buf.length
  · rw [bind_ok (a := pos) (pos' := pos + n) (by unfold prepare; rw [if_neg (by omega)]), if_pos h, copy_of_le h]
  · simp only [bind_def, P.bind, prepare]
    rw [if_pos (by omega), if_neg h]

theorem good_takeN (n : Nat) : Good (takeN n) := by
  refine ⟨?_, ?_, ?_⟩
  · intro e pos h; rw [takeN_eq] at h; split at h <;> cases h
  · intro b ext t pos r h hr
    rw [takeN_eq] at h ⊢
    simp only at h ⊢
    split at h
    · rename_i hp
      rw [if_pos (by rw [List.length_append]; omega), take_drop_append hp]; exact h
    · exact absurd h.symm hr
  · intro e pos a pos' h; rw [takeN_eq] at h; split at h <;> cases h; omega
theorem noBug_takeN (n : Nat) : NoBug (takeN n) := by
  intro e pos h; rw [takeN_eq] at h; split at h <;> cases h

theorem good_blob : Good blob := by
  unfold blob
  exact good_u16.bind fun _ => good_getPos.bind fun _ => good_getTarget.bind fun _ =>
    (good_require _).bind fun _ => good_takeN _
theorem noBug_blob : NoBug blob := by
  unfold blob
  exact noBug_u16.bind fun _ => noBug_getPos.bind fun _ => noBug_getTarget.bind fun _ =>
    (noBug_require _).bind fun _ => noBug_takeN _

theorem good_utf8 (m : Nat) : Good (utf8 m) := by
  unfold utf8
  exact good_blob.bind fun _ => (good_require _).bind fun _ => (good_require _).bind fun _ => Good.pure _
theorem noBug_utf8 (m : Nat) : NoBug (utf8 m) := by
  unfold utf8
  exact noBug_blob.bind fun _ => (noBug_require _).bind fun _ => (noBug_require _).bind fun _ => NoBug.pure _

/-- Big endian number formed by a list of bytes. -/
def beNat (b : Bytes) : Nat := b.foldl (fun a x => a * 256 + x.toNat) 0

theorem bigEndian_eq : ∀ (n s : Nat) (e : Env) (pos : Nat), s + n ≤ e.buf.length →
    bigEndian s n e pos = .ok (beNat ((e.buf.drop s).take n), pos)
  | 0, s, e, pos, _ => by simp [bigEndian, beNat]; rfl
  | n + 1, s, e, pos, h => by
    unfold bigEndian
    rw [bind_ok (bigEndian_eq n s e pos (by omega)), bind_ok (rd_of_lt (by omega) _)]
    have : ((e.buf.drop s).take (n + 1)) = ((e.buf.drop s).take n) ++ [e.buf[s + n]] := by
      rw [List.take_add_one, List.getElem?_drop, List.getElem?_eq_getElem (by omega)]; rfl
    rw [this]
    simp only [beNat, List.foldl_append, List.foldl_cons, List.foldl_nil]; rfl

theorem beInt_eq (n : Nat) : beInt n = (takeN n >>= fun b => pure (beNat b)) := by
  funext e pos
  unfold beInt
  by_cases h : pos + n ≤ e.buf.length
  · rw [bind_ok (a := pos) (pos' := pos + n) (by unfold prepare; rw [if_neg (by omega)]), bigEndian_eq _ _ _ _ h]
    rw [bind_ok (by rw [takeN_eq, if_pos h])]; rfl
  · simp only [bind_def, P.bind, prepare, takeN_eq]
    rw [if_pos (by omega), if_neg h]

theorem good_beInt (n : Nat) : Good (beInt n) := by
  rw [beInt_eq]; exact (good_takeN n).bind fun _ => Good.pure _
theorem noBug_beInt (n : Nat) : NoBug (beInt n) := by
  rw [beInt_eq]; exact (noBug_takeN n).bind fun _ => NoBug.pure _

theorem bind_assoc' {α β γ : Type} (p : P α) (f : α → P β) (g : β → P γ) :
    (p >>= f) >>= g = p >>= fun a => f a >>= g := by
  funext e pos
  simp only [bind_def, P.bind]
  cases p e pos <;> rfl

theorem good_propValue (t : PropType) : Good (propValue t) := by
  cases t
  · exact (good_beInt 1).bind fun _ => Good.pure _
  · exact (good_beInt 2).bind fun _ => Good.pure _
  · exact (good_beInt 4).bind fun _ => Good.pure _
  · exact good_varint.bind fun _ => Good.pure _
  · exact good_blob.bind fun _ => (good_skip _).bind fun _ => Good.pure _
  · exact (good_utf8 0).bind fun _ => Good.pure _
  · exact (good_utf8 0).bind fun _ => (good_utf8 0).bind fun _ => Good.pure _
theorem noBug_propValue (t : PropType) : NoBug (propValue t) := by
  cases t
  · exact (noBug_beInt 1).bind fun _ => NoBug.pure _
  · exact (noBug_beInt 2).bind fun _ => NoBug.pure _
  · exact (noBug_beInt 4).bind fun _ => NoBug.pure _
  · exact noBug_varint.bind fun _ => NoBug.pure _
  · exact noBug_blob.bind fun _ => (noBug_skip _).bind fun _ => NoBug.pure _
  · exact (noBug_utf8 0).bind fun _ => NoBug.pure _
  · exact (noBug_utf8 0).bind fun _ => (noBug_utf8 0).bind fun _ => NoBug.pure _

theorem good_propLoop (bodyEnd : Nat) : ∀ fuel acc, Good (propLoop bodyEnd fuel acc)
  | 0, acc => Good.pure acc
  | fuel + 1, acc => by
    unfold propLoop
    refine good_getPos.bind fun pos => ?_
    split
    · refine good_u8.bind fun id => ?_
      split
      · exact good_soft
      · exact (good_propValue _).bind fun _ => good_propLoop bodyEnd fuel _
    · exact Good.pure _
theorem noBug_propLoop (bodyEnd : Nat) : ∀ fuel acc, NoBug (propLoop bodyEnd fuel acc)
  | 0, acc => NoBug.pure acc
  | fuel + 1, acc => by
    unfold propLoop
    refine noBug_getPos.bind fun pos => ?_
    split
    · refine noBug_u8.bind fun id => ?_
      split
      · exact noBug_soft
      · exact (noBug_propValue _).bind fun _ => noBug_propLoop bodyEnd fuel _
    · exact NoBug.pure _

theorem good_properties : Good properties := by
  unfold properties
  exact good_varint.bind fun _ => good_getPos.bind fun _ => good_propLoop _ _ _
theorem noBug_properties : NoBug properties := by
  unfold properties
  exact noBug_varint.bind fun _ => noBug_getPos.bind fun _ => noBug_propLoop _ _ _

theorem good_propertiesIfV5 (v : Nat) : Good (propertiesIfV5 v) := by
  unfold propertiesIfV5; split
  · exact good_properties
  · exact Good.pure _
theorem noBug_propertiesIfV5 (v : Nat) : NoBug (propertiesIfV5 v) := by
  unfold propertiesIfV5; split
  · exact noBug_properties
  · exact NoBug.pure _

theorem good_endHeader : Good endHeader := by
  unfold endHeader
  exact good_getPos.bind fun _ => good_getTarget.bind fun _ => good_require _
theorem noBug_endHeader : NoBug endHeader := by
  unfold endHeader
  exact noBug_getPos.bind fun _ => noBug_getTarget.bind fun _ => noBug_require _
theorem good_verifyEnd : Good verifyEnd := by
  unfold verifyEnd
  exact good_targetEnd.bind fun _ => good_require _
theorem noBug_verifyEnd : NoBug verifyEnd := by
  unfold verifyEnd
  exact noBug_targetEnd.bind fun _ => noBug_require _

theorem good_checkReason (v : Nat) (c : Reason → Bool) (r : UInt8) : Good (checkReason v c r) := by
  unfold checkReason; split
  · exact good_soft
  · split
    · exact Good.pure _
    · exact good_soft
theorem noBug_checkReason (v : Nat) (c : Reason → Bool) (r : UInt8) : NoBug (checkReason v c r) := by
  unfold checkReason; split
  · exact noBug_soft
  · split
    · exact NoBug.pure _
    · exact noBug_soft

/-- Solve a `Good`/`NoBug` goal by walking through the code. -/
macro "good" : tactic => `(tactic| repeat' first
  | exact good_soft | exact noBug_soft | exact good_incomplete | exact noBug_incomplete
  | exact Good.pure _ | exact NoBug.pure _
  | exact good_require _ | exact noBug_require _ | exact good_getPos | exact noBug_getPos
  | exact good_getTarget | exact noBug_getTarget | exact good_skip _ | exact noBug_skip _
  | exact good_targetEnd | exact noBug_targetEnd | exact good_u8 | exact noBug_u8
  | exact good_u16 | exact noBug_u16 | exact good_packetId | exact noBug_packetId
  | exact good_varint | exact noBug_varint | exact good_takeN _ | exact noBug_takeN _
  | exact good_blob | exact noBug_blob | exact good_utf8 _ | exact noBug_utf8 _
  | exact good_properties | exact noBug_properties | exact good_propertiesIfV5 _
  | exact noBug_propertiesIfV5 _ | exact good_endHeader | exact noBug_endHeader
  | exact good_verifyEnd | exact noBug_verifyEnd | exact good_checkReason _ _ _
  | exact noBug_checkReason _ _ _
  | (refine Good.bind ?_ fun _ => ?_) | (refine NoBug.bind ?_ fun _ => ?_)
  | split)

theorem good_connectHeader : Good connectHeader := by
  unfold connectHeader; good
theorem noBug_connectHeader : NoBug connectHeader := by
  unfold connectHeader; good

theorem good_parseConnect : Good parseConnect := by
  unfold parseConnect connectWill connectString
  refine good_connectHeader.bind fun x => ?_
  good
theorem noBug_parseConnect : NoBug parseConnect := by
  unfold parseConnect connectWill connectString
  refine noBug_connectHeader.bind fun x => ?_
  good

theorem good_parseConnack (v : Nat) : Good (parseConnack v) := by unfold parseConnack; good
theorem noBug_parseConnack (v : Nat) : NoBug (parseConnack v) := by unfold parseConnack; good

theorem publishPayload_eq (e : Env) (pos : Nat) : publishPayload e pos =
    if e.target ≤ pos then .ok ([], pos)
    else if e.target ≤ e.buf.length then .ok ((e.buf.drop pos).take (e.target - pos), e.target)
    else .incomplete := by
  unfold publishPayload
  by_cases h : e.target ≤ pos
  · rw [if_pos h, if_pos (by omega)]
  · rw [if_neg h, if_neg (by omega)]
    by_cases h2 : e.target ≤ e.buf.length
    · rw [if_pos h2, if_pos h2, copy_of_le (by omega)]
    · rw [if_neg h2, if_neg h2]

theorem good_publishPayload : Good publishPayload := by
  refine ⟨?_, ?_, ?_⟩
  · intro e pos h; rw [publishPayload_eq] at h; split at h
    · cases h
    · split at h <;> cases h
  · intro b ext t pos r h hr
    rw [publishPayload_eq] at h ⊢
    simp only at h ⊢
    split at h
    · rename_i hc; rw [if_pos hc]; exact h
    · rename_i hc; rw [if_neg hc]
      split at h
      · rw [if_pos (by rw [List.length_append]; omega), take_drop_append (by omega)]; exact h
      · exact absurd h.symm hr
  · intro e pos a pos' h; rw [publishPayload_eq] at h
    split at h
    · cases h; omega
    · split at h <;> cases h; omega
theorem noBug_publishPayload : NoBug publishPayload := by
  intro e pos h; rw [publishPayload_eq] at h; split at h
  · cases h
  · split at h <;> cases h

theorem good_publishId (f : Nat) : Good (publishId f) := by unfold publishId; good
theorem noBug_publishId (f : Nat) : NoBug (publishId f) := by unfold publishId; good
theorem good_filterOptions (o : Bool) : Good (filterOptions o) := by unfold filterOptions; good
theorem noBug_filterOptions (o : Bool) : NoBug (filterOptions o) := by unfold filterOptions; good

theorem good_parsePublish (v f : Nat) : Good (parsePublish v f) := by
  unfold parsePublish; good
  · exact good_publishId f
  · exact good_publishPayload
theorem noBug_parsePublish (v f : Nat) : NoBug (parsePublish v f) := by
  unfold parsePublish; good
  · exact noBug_publishId f
  · exact noBug_publishPayload

theorem good_parseAck (v t : Nat) : Good (parseAck v t) := by unfold parseAck; good
theorem noBug_parseAck (v t : Nat) : NoBug (parseAck v t) := by unfold parseAck; good

theorem good_parseFilter (v : Nat) (o : Bool) : Good (parseFilter v o) := by
  unfold parseFilter; good
  · exact good_filterOptions o
  · exact good_bug

theorem good_filterLoop (v : Nat) (o : Bool) : ∀ fuel acc, Good (filterLoop v o fuel acc)
  | 0, acc => Good.pure acc
  | fuel + 1, acc => by
    unfold filterLoop
    refine good_targetEnd.bind fun e => ?_
    split
    · exact Good.pure _
    · refine (good_parseFilter v o).bind fun s => ?_
      split
      · exact good_soft
      · exact good_filterLoop v o fuel _

theorem good_parseSubUsub (v : Nat) (o : Bool) : Good (parseSubUsub v o) := by
  unfold parseSubUsub; good
  exact good_filterLoop _ _ _ _

theorem good_parsePing (p : Packet) : Good (parsePing p) := by unfold parsePing; good
theorem noBug_parsePing (p : Packet) : NoBug (parsePing p) := by unfold parsePing; good

theorem good_parseDisconnect (v : Nat) : Good (parseDisconnect v) := by unfold parseDisconnect; good
theorem noBug_parseDisconnect (v : Nat) : NoBug (parseDisconnect v) := by unfold parseDisconnect; good

end Verif.Mqtt
