import Verif.Chunk.Model
/-!
# What the bytes on a connection should be

The history is the list of events; only the type of events is used from the model.
-/
namespace Verif.Chunk.Spec

/-- The data given to be sent, in order. -/
def given : List Op → List Bytes
  | [] => []
  | .push _ d :: t => d :: given t
  | .finish :: t => given t
  | .write _ :: t => given t

/-- The bytes of one piece of data with its number. -/
def mark (i : Nat) (d : Bytes) : List (Nat × UInt8) := d.map fun x => (i, x)

/-- All bytes of data with their numbers, from number `i`. -/
def stream : Nat → List Bytes → List (Nat × UInt8)
  | _, [] => []
  | i, d :: t => mark i d ++ stream (i + 1) t

/-- The bytes which come from the data with a number. -/
def own (i : Nat) (w : List (Nat × UInt8)) : Bytes := (w.filter fun x => x.1 = i).map (·.2)

/-- No data are urgent. -/
def NoUrgent (ops : List Op) : Prop := ∀ d, Op.push true d ∉ ops

/-- Within one event the kernel takes everything until there is no room, and then nothing more: the answers are those which take any number of bytes up to `m`, one that takes some, and others which take nothing. -/
def Steady (m : Nat) (o : List Sys) : Prop := ∃ a n b, o = a ++ (.wrote n :: b) ∧ (∀ x ∈ a, ∃ k, x = .wrote k ∧ m ≤ k) ∧ ∀ x ∈ b, ∀ k, x = .wrote k → k = 0

/-- The kernel has room: there are at least `n` answers, each takes `m` bytes or more. -/
def Room (n m : Nat) (o : List Sys) : Prop := n ≤ o.length ∧ ∀ x ∈ o, ∃ k, x = .wrote k ∧ m ≤ k

/-- No answer is an error. -/
def NoError (o : List Sys) : Prop := ∀ x ∈ o, x ≠ .broken ∧ x ≠ .other

end Verif.Chunk.Spec
