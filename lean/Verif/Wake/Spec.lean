import Verif.Wake.Model
/-!
# What the wake-ups are to ensure
-/
namespace Verif.Wake
open Verif

/-- The lists of readers and of writers say the same, and name nobody twice (`rrr_message_broker_sender_add`, message_broker.c:1770-1790; that `__rrr_message_broker_friend_add` is not called twice for the same two is assumed). -/
structure Cfg.Sound (c : Cfg) : Prop where
  sym : ∀ s r, s ∈ c.senders r ↔ r ∈ c.listeners s
  nodup : ∀ s, (c.listeners s).Nodup
  nodup' : ∀ r, (c.senders r).Nodup

/-- Each buffer has one reader: a writer either has duplicated output or not more than one listener. -/
def Cfg.Private (c : Cfg) : Prop := ∀ s, c.dup s = true ∨ (c.listeners s).length ≤ 1

/-- How many messages wait for reader `r`. -/
def waiting (c : Cfg) (st : St) (r : Nat) : Nat := ((c.senders r).map (fun s => st.left s (c.key s r))).sum

/-- No instance from which `r` reads is inside of a write function: all it has stored has been notified. -/
def quiet (c : Cfg) (st : St) (r : Nat) : Prop := (∀ s ∈ c.senders r, st.wr s = 0) ∧ ∀ x ∈ st.todo, x.1 ≠ r

/-- Nothing will make reader `r` poll before a new notification comes: it is not in its handler, libevent has no reason to call this, and no timer is pending. -/
def asleep (st : St) (r : Nat) : Prop := (st.q r).h = .idle ∧ (st.q r).callable = false ∧ (st.q r).timer = false

/-- A write function does not fail after some of its entries have been stored. -/
def NoFail : Act → Prop
  | .fail _ => False
  | .over _ _ _ => False
  | _ => True

/-- The module of reader `r` does not pause. -/
def NoPause (r : Nat) : Act → Prop
  | .dispatch r' pause => r' = r → pause = false
  | _ => True

/-- A step of the thread of reader `r`. -/
def OfReader (r : Nat) : Act → Prop
  | .dispatch r' _ | .call r' | .give r' _ | .ret r' | .fin r' | .fire r' => r' = r
  | _ => False

end Verif.Wake
