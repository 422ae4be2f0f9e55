import Verif.Mqtt.Good
import Verif.Topic.Props
/-!
# Lemmas for memory safety, stability under more data, and absence of aborts
-/
namespace Verif.Mqtt
open Verif

/-- The acknowledgement loop reading each byte once. -/
def ackLoop' (v : Nat) (s : Bool) : Nat → Bytes → P Bytes
  | 0, acc => pure acc
  | n + 1, acc => do
    let a ← u8
    require (checkAck v s a)
    ackLoop' v s n (acc ++ [a])

theorem good_ackLoop' (v : Nat) (s : Bool) : ∀ n acc, Good (ackLoop' v s n acc)
  | 0, _ => Good.pure _
  | n + 1, acc => good_u8.bind fun _ => (good_require _).bind fun _ => good_ackLoop' v s n _
theorem noBug_ackLoop' (v : Nat) (s : Bool) : ∀ n acc, NoBug (ackLoop' v s n acc)
  | 0, _ => NoBug.pure _
  | n + 1, acc => noBug_u8.bind fun _ => (noBug_require _).bind fun _ => noBug_ackLoop' v s n _

theorem bind_congr_pos {α β : Type} {p q : P α} {f g : α → P β} {e : Env} {pos : Nat}
    (h1 : p e pos = q e pos) (h2 : ∀ a pos', q e pos = .ok (a, pos') → f a e pos' = g a e pos') :
    (p >>= f) e pos = (q >>= g) e pos := by
  simp only [bind_def, P.bind, h1]
  cases hq : q e pos with
  | ok x => exact h2 _ _ hq
  | _ => rfl

theorem require_ok {c : Bool} {e : Env} {pos pos' : Nat} {u : Unit} (h : require c e pos = .ok (u, pos')) :
    c = true ∧ pos' = pos := by
  unfold require at h
  split at h
  · rename_i hc; exact ⟨hc, by cases h; rfl⟩
  · cases h

theorem ackLoop_eq (v : Nat) (s : Bool) (ap : Nat) (e : Env) : ∀ n i acc,
    ackLoop v s ap i n acc e (ap + i) = ackLoop' v s n acc e (ap + i)
  | 0, _, _ => rfl
  | n + 1, i, acc => by
    unfold ackLoop ackLoop'
    by_cases h : ap + i < e.buf.length
    · rw [bind_ok (by rw [u8_eq, dif_pos h]), bind_ok (rd_of_lt h _)]
      rw [bind_ok (p := u8) (by rw [u8_eq, dif_pos h])]
      refine bind_congr_pos rfl fun u p' hp => ?_
      rw [(require_ok hp).2]
      exact ackLoop_eq v s ap e n (i + 1) _
    · simp only [bind_def, P.bind, u8_eq, dif_neg h]

theorem good_waitFull : Good waitFull := by
  refine ⟨?_, ?_, ?_⟩
  · intro e pos h; unfold waitFull at h; split at h <;> cases h
  · intro b ext t pos r h hr
    unfold waitFull at h ⊢
    simp only [List.length_append] at h ⊢
    split at h
    · rw [if_pos (by omega)]; exact h
    · exact absurd h.symm hr
  · intro e pos a pos' h; unfold waitFull at h; split at h <;> cases h; omega
theorem noBug_waitFull : NoBug waitFull := by
  intro e pos h; unfold waitFull at h; split at h <;> cases h

/-- The payload part of SUBACK and UNSUBACK with `ackLoop'`. -/
theorem acks_eq {β : Type} (v : Nat) (s : Bool) (g : Bytes → P β) :
    (getPos >>= fun pos => getTarget >>= fun target => require (decide (target - pos ≠ 0)) >>= fun _ =>
      waitFull >>= fun _ => ackLoop v s pos 0 (target - pos) [] >>= g) =
    (getPos >>= fun pos => getTarget >>= fun target => require (decide (target - pos ≠ 0)) >>= fun _ =>
      waitFull >>= fun _ => ackLoop' v s (target - pos) [] >>= g) := by
  funext e pos
  refine bind_congr_pos rfl fun a p1 h1 => ?_
  cases h1
  refine bind_congr_pos rfl fun t p1 h1 => ?_
  cases h1
  refine bind_congr_pos rfl fun _ p1 h1 => ?_
  obtain ⟨_, rfl⟩ := require_ok h1
  refine bind_congr_pos rfl fun _ p1 h1 => ?_
  have hw : ∀ q, waitFull e q = .ok ((), p1) → p1 = q := by
    intro q h; unfold waitFull at h; split at h <;> cases h; rfl
  have := hw _ h1
  subst this
  exact bind_congr_pos (ackLoop_eq v s p1 e _ 0 []) fun _ _ _ => rfl

theorem parseSubackUnsuback_eq (v : Nat) (s : Bool) : parseSubackUnsuback v s =
    (packetId >>= fun id => propertiesIfV5 v >>= fun props => endHeader >>= fun _ =>
      if (!s && decide (v < 5)) = true then verifyEnd >>= fun _ => pure (.unsuback id props [])
      else getPos >>= fun pos => getTarget >>= fun target => require (decide (target - pos ≠ 0)) >>= fun _ =>
        waitFull >>= fun _ => ackLoop' v s (target - pos) [] >>= fun acks => verifyEnd >>= fun _ =>
          pure (if s = true then .suback id props acks else .unsuback id props acks)) := by
  unfold parseSubackUnsuback
  simp only [acks_eq]

theorem good_parseSubackUnsuback (v : Nat) (s : Bool) : Good (parseSubackUnsuback v s) := by
  rw [parseSubackUnsuback_eq]; good
  · exact good_waitFull
  · exact good_ackLoop' _ _ _ _
theorem noBug_parseSubackUnsuback (v : Nat) (s : Bool) : NoBug (parseSubackUnsuback v s) := by
  rw [parseSubackUnsuback_eq]; good
  · exact noBug_waitFull
  · exact noBug_ackLoop' _ _ _ _

theorem good_parseBody (v : Option Nat) (ty flags : Nat) : Good (parseBody v ty flags) := by
  unfold parseBody
  repeat' split
  all_goals first
    | exact good_parseConnect | exact good_soft | exact good_incomplete | exact good_parseConnack _
    | exact good_parsePublish _ _ | exact good_parseAck _ _ | exact good_parseSubUsub _ _
    | exact good_parseSubackUnsuback _ _ | exact good_parsePing _ | exact good_parseDisconnect _

/-! ### Aborts -/

theorem NoBug.bind' {α β : Type} {p : P α} {f : α → P β} (hp : NoBug p)
    (hf : ∀ a, (∃ e pos pos', p e pos = .ok (a, pos')) → NoBug (f a)) : NoBug (p >>= f) := by
  intro e pos h
  rcases bind_cases h with ⟨a, pos', h1, h2⟩ | ⟨_, h⟩ | ⟨_, h⟩ | ⟨h, _⟩ | ⟨_, h⟩
  · exact hf a ⟨_, _, _, h1⟩ _ _ h2
  · cases h
  · cases h
  · exact hp _ _ h
  · cases h

theorem NoBug.require {β : Type} {c : Bool} {f : Unit → P β} (hf : c = true → NoBug (f ())) :
    NoBug (Mqtt.require c >>= f) := by
  refine (noBug_require c).bind' ?_
  rintro a ⟨e, pos, pos', h⟩
  exact hf (require_ok h).1

theorem utf8_length {m : Nat} {e : Env} {pos pos' : Nat} {s : Bytes} (h : utf8 m e pos = .ok (s, pos')) :
    m ≤ s.length ∧ utf8Ok s = true := by
  unfold utf8 at h
  obtain ⟨b, p1, _, h⟩ := bind_eq_ok h
  obtain ⟨_, p2, h1, h⟩ := bind_eq_ok h
  obtain ⟨_, p3, h2, h⟩ := bind_eq_ok h
  cases h
  exact ⟨of_decide_eq_true (require_ok h1).1, (require_ok h2).1⟩

theorem new_some {f : Bytes} {r ra n q : Nat} (h1 : n = 0) (h2 : ra = 0) (h3 : r ≤ 2)
    (h4 : Topic.filterValidateName f = true) (h5 : f ≠ []) :
    Subscription.new f r ra n q = some ⟨f, r, ra, n, q⟩ := by
  unfold Subscription.new
  rw [if_neg (by omega), if_neg (by rw [h4]; simp), if_neg h5]

/-- Only version 5 with options can abort. -/
theorem noBug_parseFilter (v : Nat) (o : Bool) (h : v < 5 ∨ o = false) : NoBug (parseFilter v o) := by
  unfold parseFilter
  refine (noBug_utf8 1).bind' ?_
  rintro f ⟨e, pos, pos', hf⟩
  refine NoBug.require fun hc => ?_
  refine (noBug_filterOptions o).bind' ?_
  rintro opt ⟨e2, q1, q2, ho⟩
  dsimp only
  refine NoBug.require fun _ => ?_
  refine NoBug.require fun _ => ?_
  refine NoBug.require fun hv => ?_
  refine NoBug.require fun hn => ?_
  have hne : f ≠ [] := by
    have := (utf8_length hf).1
    intro h0; rw [h0] at this; simp at this
  have key : flagBits opt.toNat 2 1 = 0 ∧ flagBits opt.toNat 3 1 = 0 ∧ flagBits opt.toNat 4 2 ≤ 2 := by
    rcases h with h | h
    · rw [if_neg (by omega)] at hv
      have hv := of_decide_eq_true hv
      exact ⟨hv.2.2, hv.2.1, by omega⟩
    · subst h
      simp only [filterOptions, Bool.false_eq_true, if_false] at ho
      cases ho; decide
  rw [new_some key.1 key.2.1 key.2.2 hn hne]
  exact NoBug.pure _

theorem noBug_filterLoop (v : Nat) (o : Bool) (h : v < 5 ∨ o = false) :
    ∀ fuel acc, NoBug (filterLoop v o fuel acc)
  | 0, acc => NoBug.pure acc
  | fuel + 1, acc => by
    unfold filterLoop
    refine noBug_targetEnd.bind fun e => ?_
    split
    · exact NoBug.pure _
    · refine (noBug_parseFilter v o h).bind fun s => ?_
      split
      · exact noBug_soft
      · exact noBug_filterLoop v o h fuel _

theorem noBug_parseSubUsub (v : Nat) (o : Bool) (h : v < 5 ∨ o = false) : NoBug (parseSubUsub v o) := by
  unfold parseSubUsub; good
  exact noBug_filterLoop _ _ h _ _

theorem noBug_parseBody (v : Option Nat) (ty flags : Nat) (h : ty ≠ 8 ∨ ∀ n, v = some n → n < 5) :
    NoBug (parseBody v ty flags) := by
  unfold parseBody
  repeat' split
  all_goals first
    | exact noBug_parseConnect | exact noBug_soft | exact noBug_incomplete | exact noBug_parseConnack _
    | exact noBug_parsePublish _ _ | exact noBug_parseAck _ _
    | exact noBug_parseSubackUnsuback _ _ | exact noBug_parsePing _ | exact noBug_parseDisconnect _
    | exact noBug_parseSubUsub _ _ (Or.inr rfl)
    | skip
  rename_i n _ _ _ h8
  rcases h with h | h
  · exact absurd h8 h
  · exact noBug_parseSubUsub _ _ (Or.inl (h n rfl))

/-! ### Fixed header -/

theorem fixedHeader_ne_oob (buf : Bytes) : fixedHeader buf ≠ .oob ∧ fixedHeader buf ≠ .bug := by
  unfold fixedHeader
  split
  · simp
  · cases buf with
    | nil => simp
    | cons t b =>
      dsimp only
      split
      · simp
      · split
        · simp
        · cases hv : varint ⟨t :: b, 0⟩ 1 with
          | bug => exact absurd hv (noBug_varint _ _)
          | oob => exact absurd hv (good_varint.safe _ _)
          | _ => simp [Res.bind]

theorem Res.bind_mono {α β : Type} {r r' : Res α} {f : α → Res β} {x : Res β} (h : r.bind f = x)
    (hx : x ≠ .incomplete) (h1 : r ≠ .incomplete → r' = r) : r'.bind f = x := by
  cases r with
  | incomplete => exact absurd h.symm hx
  | _ => rw [h1 (by simp)]; exact h

theorem fixedHeader_mono (b ext : Bytes) (r : Res Fixed) (h : fixedHeader b = r) (hr : r ≠ .incomplete) :
    fixedHeader (b ++ ext) = r := by
  unfold fixedHeader at h ⊢
  split at h
  · exact absurd h.symm hr
  · rename_i hl
    rw [if_neg (by rw [List.length_append]; omega)]
    cases b with
    | nil => simp at hl
    | cons t b =>
      dsimp only [List.cons_append] at h ⊢
      split at h
      · rw [if_pos ‹_›]; exact h
      · rw [if_neg ‹_›]
        split at h
        · rw [if_pos ‹_›]; exact h
        · rw [if_neg ‹_›]
          exact Res.bind_mono h hr fun hn => good_varint.mono _ ext 0 1 _ rfl hn

/-- Position and size of a fixed header. -/
theorem varintLoop_ok_bounds : ∀ n r x (e : Env) pos v pos', varintLoop n r x e pos = .ok (v, pos') →
    pos + 1 ≤ pos' ∧ pos' ≤ pos + n ∧ pos' ≤ e.buf.length
  | 0, _, _, _, _, _, _, h => by cases h
  | n + 1, r, x, e, pos, v, pos', h => by
    rw [varintLoop_succ] at h
    obtain ⟨c, p1, h1, h2⟩ := bind_eq_ok h
    rw [u8_eq] at h1
    split at h1
    · cases h1
      split at h2
      · have := varintLoop_ok_bounds n _ _ e _ v pos' h2
        omega
      · cases h2; omega
    · cases h1

end Verif.Mqtt
