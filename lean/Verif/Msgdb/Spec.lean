import Verif.Msgdb.Model
/-!
# What a message database is, in terms of its history

Nothing here mentions files, names or hashes.
-/
namespace Verif.Msgdb
open Verif Msg

/-- What a receiver lets through: the size is right, topic and data are inside of the message, type, class and topic are valid. -/
structure Valid (m : MsgMsg) : Prop where
  size : m.head.size.toNat = 30 + m.body.length
  topic : m.topicLength.toNat ≤ m.body.length
  headType : m.head.type = 2
  type : 1 ≤ m.type ∧ m.type ≤ 5
  cls : m.class_ = 1 ∨ m.class_ = 11
  utf8 : Utf8.validate m.topic = true

/-- The request stores its message. There must be a topic. If it is cut off then all bytes must have been written. -/
def Stores (m : MsgMsg) (cut : Option Nat) : Prop := m.topic ≠ [] ∧ m.type = 4 ∧ ∀ k, cut = some k → m.head.size.toNat ≤ k

/-- The request ends the life of what was stored before: it has a topic and is a PUT, complete or not, or a DEL. -/
def Ends (m : MsgMsg) : Prop := m.topic ≠ [] ∧ (m.type = 4 ∨ m.type = 5)

instance (m : MsgMsg) (cut : Option Nat) : Decidable (Stores m cut) := by
  unfold Stores
  cases cut with
  | none => exact decidable_of_iff (m.topic ≠ [] ∧ m.type = 4) (by simp)
  | some k => exact decidable_of_iff (m.topic ≠ [] ∧ m.type = 4 ∧ m.head.size.toNat ≤ k) (by simp)

instance (m : MsgMsg) : Decidable (Ends m) := inferInstanceAs (Decidable (_ ∧ _))

/-- A message is older than a number of seconds. -/
def Old (m : MsgMsg) (now : UInt64) (age : UInt32) : Prop := m.timestamp.toNat + age.toNat * 1000000 < now.toNat

instance (m : MsgMsg) (now : UInt64) (age : UInt32) : Decidable (Old m now age) := inferInstanceAs (Decidable (_ < _))

/-- The message which was last stored under a topic, unless there was another PUT or a DEL since. The history begins with the oldest event. -/
def latest (t : Bytes) (h : List Op) : Option MsgMsg :=
  h.foldl (fun acc o => match o with
    | .request m cut => if m.topic = t then (if Stores m cut then some (asMsg m) else if Ends m then none else acc) else acc
    | _ => acc) none

/-- The same, but a message which tidying may have found to be too old does not count. -/
def kept (t : Bytes) (h : List Op) : Option MsgMsg :=
  h.foldl (fun acc o => match o with
    | .request m cut => if m.topic = t then (if Stores m cut then some (asMsg m) else if Ends m then none else acc) else acc
    | .visit .tidy _ now age => acc.filter (fun m => ¬ Old m now age)
    | _ => acc) none

/-- All messages in a history are valid, and there are at most four directory levels. -/
def ValidOp : Op → Prop
  | .request m _ => Valid m
  | .visit _ _ _ _ => True
  | .restart attempts levels => levels ≤ 4 ∧ ∀ a ∈ attempts, a.1 ≤ 4

/-- The topic of a request. -/
def Op.topic : Op → Option Bytes
  | .request m _ => some m.topic
  | _ => none

end Verif.Msgdb
