import Verif.Channel.Model
/-!
# What is expected of the channel
-/
namespace Verif.Channel
open Verif

/-- The message of a write which has not returned yet but which has already been put in the channel. -/
def inFlight : Writer → List Bytes
  | .stored m => [m]
  | .notify m => [m]
  | _ => []

/-- The call put its message in the channel: it returned success, or it returned the error of the
notification. -/
def wasPut : Ret → Bool
  | .ok => true
  | .unnotified => true
  | _ => false

/-- The messages which have been put in the channel, in order. -/
def sent (s : State) : List Bytes :=
  (s.writes.filter (fun w => wasPut w.2)).map (·.1) ++ inFlight s.writer

/-- Every message given to write has at least one byte. -/
def NonEmpty (acts : List Act) : Prop := ∀ m, Act.write m ∈ acts → m ≠ []

/-- The number of messages in the channel. -/
def pending (s : State) : Nat := (sent s).length - s.delivered.length

/-- Neither process is inside a call. -/
def Quiet (s : State) : Prop := s.writer = .idle ∧ s.reader = .idle

/-- The writer calls write and runs alone until the call returns, the system gives the memory asked
for, and nothing fails. The number of steps is enough when all the blocks are to be cleaned up. -/
def soloWrite (msg : Bytes) : List Act :=
  Act.write msg :: List.replicate (slots + 5) (Act.writer true .given true true)

/-- The reader calls read and runs alone until the call returns, and nothing fails. -/
def soloRead : List Act := Act.read :: List.replicate 3 (Act.reader true true)

end Verif.Channel
