import Verif.Cacher.Model
/-!
# What a cache is, in terms of its history
-/
namespace Verif.Cacher
open Verif

/-- The time of an event. -/
def Ev.time : Ev → Nat
  | .msg now _ _ => now
  | .tidy now => now

/-- A message is younger than a limit. -/
def Fresh (m : Msg) (now ttl : Nat) : Prop := now ≤ m.stamp + ttl

instance (m : Msg) (now ttl : Nat) : Decidable (Fresh m now ttl) := inferInstanceAs (Decidable (_ ≤ _))

/-- The event is a message which replaces what is known about its topic: it is not too old, is no request, has a topic, updates are allowed and the database took it. -/
def updates (c : Config) : Ev → Option Msg
  | .msg now m dbOk => if (c.ttl = 0 ∨ Fresh m now c.ttl) ∧ m.topic ≠ [] ∧ ¬ (c.requestTag = true ∧ m.request = true) ∧ c.noUpdate = false ∧ dbOk = true then some m else none
  | .tidy _ => none

/-- The message says that nothing is to be known about its topic. -/
def deletes (c : Config) (m : Msg) : Prop := c.emptyIsDelete = true ∧ m.data = []

instance (c : Config) (m : Msg) : Decidable (deletes c m) := inferInstanceAs (Decidable (_ ∧ _))

/-- The last message for a topic in a history, oldest event first; nothing if it was deleted since. -/
def latest (c : Config) (t : Bytes) (h : List Ev) : Option Msg :=
  h.foldl (fun acc e => match updates c e with
    | some m => if m.topic = t then (if deletes c m then none else some m) else acc
    | none => acc) none

/-- The clock does not go backwards. -/
def Ordered (h : List Ev) : Prop := h.Pairwise (fun a b => a.time ≤ b.time)

/-- No topic has a zero byte. -/
def NoZero : Ev → Prop
  | .msg _ m _ => (0 : UInt8) ∉ m.topic
  | .tidy _ => True

end Verif.Cacher
