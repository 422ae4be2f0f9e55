import Verif.Types.Model
import Verif.Utf8.Spec
/-!
# What the properties of typed values mean

Independent of the code, except for the structures which hold values and messages.
-/
namespace Verif.Types.Spec
open Verif Verif.Types

/-- The number whose bytes are given, least significant byte first. -/
def valueLE : Bytes → Nat
  | [] => 0
  | b :: t => b.toNat + 256 * valueLE t

/-- The number whose bytes are given, most significant byte first. -/
def valueBE (b : Bytes) : Nat := valueLE b.reverse

/-- The two's complement number of `8 * n` bits whose bits are those of `v`. -/
def twos (n v : Nat) : Int := if v < 2 ^ (8 * n - 1) then (v : Int) else (v : Int) - 2 ^ (8 * n)

/-- The mathematical value of the bytes of an integer. -/
def value (big signed : Bool) (b : Bytes) : Int :=
  let v := if big then valueBE b else valueLE b
  if signed then twos b.length v else (v : Int)

/-- A 64 bit integer as a mathematical number. -/
def meaning (signed : Bool) (x : UInt64) : Int := if signed then x.toInt64.toInt else (x.toNat : Int)

/-- The 64 bit integers stored in memory on a host. -/
def ints (le : Bool) : Bytes → List UInt64
  | a :: b :: c :: d :: e :: f :: g :: h :: t =>
    UInt64.ofNat (if le then valueLE [a, b, c, d, e, f, g, h] else valueBE [a, b, c, d, e, f, g, h]) :: ints le t
  | _ => []

/-- A message which is as `rrr_msg_msg_new` makes it and which a receiver admits: its size is that of what it holds,
it has a type, class and control bits which exist, and a topic of UTF-8 characters. -/
structure GoodMsg (m : Msg.MsgMsg) : Prop where
  size : m.head.size.toNat = 30 + m.body.length
  topicInside : m.topicLength.toNat ≤ m.body.length
  headType : m.head.type = 2
  type : 1 ≤ m.type ∧ m.type ≤ 5
  class_ : m.class_ = 1 ∨ m.class_ = 11
  topicText : Utf8.Spec.WellFormed m.topic ∧ (0 : UInt8) ∉ m.topic

/-- Values which the program makes and stores in messages, by type. -/
def Content (v : Value) : Prop :=
  match v.ty with
  | .h | .fixp => v.data.length % 8 = 0 ∧ v.msgs = []
  | .blob | .sep | .nsep | .stx | .hdlc => v.data ≠ [] ∧ v.msgs = []
  | .str => v.msgs = []
  | .vain => v.data = [] ∧ v.msgs = []
  | .msg => v.data = [] ∧ (∀ m ∈ v.msgs, GoodMsg m) ∧ v.elements.toNat = v.msgs.length
  | .le | .be | .ustr | .istr | .err => False

/-- The number of bytes a value takes in an array message. -/
def packedSize (v : Value) : Nat :=
  14 + v.tag.length + (v.data.length + (v.msgs.map fun m => 30 + m.body.length).sum)

/-- Two values, each in the memory of a host with the given byte order, are the same. -/
def Same (le le' : Bool) (v v' : Value) : Prop :=
  v'.ty = v.ty ∧ v'.flags = v.flags ∧ v'.tag = v.tag ∧ v'.elements = v.elements ∧ v'.msgs = v.msgs ∧
  (if v.ty = .h ∨ v.ty = .fixp then v'.data.length = v.data.length ∧ ints le' v'.data = ints le v.data else v'.data = v.data)

end Verif.Types.Spec
