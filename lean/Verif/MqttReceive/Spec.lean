import Verif.MqttReceive.Model
import Verif.Utf8.Spec
/-!
# Specification for `Verif.MqttReceive`
-/
namespace Verif.MqttReceive.Spec
open Verif Verif.Msg Verif.MqttReceive

/-- A plain message with this timestamp, topic and data. -/
structure Plain (m : MsgMsg) (time : UInt64) (topic data : Bytes) : Prop where
  type : m.type = 1
  cls : m.class_ = 1
  time : m.timestamp = time
  topic : m.topic = topic
  data : m.data = data

/-- The bytes are a number of records with the definition, each at least one byte long, and the messages are made of these, one of
each in the order of the records; after them nothing remains or what remains is not a record. `stop`: there was an
internal error after the last one. -/
inductive Records (imp : Bytes → Import) : Bytes → List MsgMsg → Bool → Prop
  | nothing : Records imp [] [] false
  | bad (rest : Bytes) : rest ≠ [] → (imp rest = .soft ∨ imp rest = .incomplete) → Records imp rest [] false
  | hard (rest : Bytes) : rest ≠ [] → imp rest = .hard → Records imp rest [] true
  | record (n : Nat) (rest : Bytes) (m : MsgMsg) (l : List MsgMsg) (stop : Bool) : rest ≠ [] → 0 < n → imp rest = .ok n m →
      Records imp (rest.drop n) l stop → Records imp rest (m :: l) stop

/-- Topics as they come from a packet: valid UTF-8 without zero, the length of which is given by two bytes. -/
def TopicOk (t : Bytes) : Prop := Utf8.Spec.WellFormed t ∧ (0 : UInt8) ∉ t ∧ t.length ≤ 0xffff

end Verif.MqttReceive.Spec
