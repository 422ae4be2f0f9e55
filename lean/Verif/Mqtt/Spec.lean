import Verif.Mqtt.Packet
import Verif.Topic.Spec
/-!
# What the MQTT wire format and well-formed packets are

Written from the MQTT 3.1.1 and 5.0 texts, without reference to parsing or assembling code.
-/
namespace Verif.Mqtt.Spec
open Verif

/-- MQTT 5, 1.5.5: variable byte integer, least significant group of 7 bits first, the top bit
set on all bytes but the last. -/
def vint (n : Nat) : Bytes :=
  if n < 128 then [UInt8.ofNat n] else UInt8.ofNat (n % 128 + 128) :: vint (n / 128)
termination_by n
decreasing_by omega

/-- 1.5.4: UTF-8 string of at most 65535 bytes without U+0000. -/
def Text (s : Bytes) : Prop := (0 : UInt8) ∉ s ∧ Utf8.Spec.WellFormed s ∧ s.length ≤ 65535

/-- 4.7: topic name: not empty, no wildcard characters. -/
def TopicName (s : Bytes) : Prop := Text s ∧ s ≠ [] ∧ (0x23 : UInt8) ∉ s ∧ (0x2B : UInt8) ∉ s

/-- 4.7: topic filter: not empty, wildcards only as whole levels, "#" only last. -/
def TopicFilter (s : Bytes) : Prop :=
  Text s ∧ s ≠ [] ∧ ∀ ls, Topic.Spec.IsLevels s ls → Topic.Spec.FilterLevelsOk ls

/-- The value of a property fits the type the identifier has in table 2-4. -/
def PropOk (p : Property) : Prop :=
  match propType p.id, p.val with
  | some .one, .num n => n < 256
  | some .two, .num n => n < 65536
  | some .four, .num n => n < 4294967296
  | some .vint, .num n => n < 268435456
  | some .blob, .data b => b ≠ [] ∧ b.length ≤ 65535
  | some .utf8, .data b => b ≠ [] ∧ Text b
  | some .utf8x2, .pair a b => (a ≠ [] ∧ Text a) ∧ b ≠ [] ∧ Text b
  | _, _ => False

/-- Size of the value of a property. -/
def valSize (p : Property) : Nat :=
  match propType p.id, p.val with
  | some .one, _ => 1
  | some .two, _ => 2
  | some .four, _ => 4
  | some .vint, .num n => (vint n).length
  | _, .data b => 2 + b.length
  | _, .pair a b => 4 + a.length + b.length
  | _, _ => 0

/-- A list of properties is well-formed, and short enough for the program: there is room for
each identifier twice (`mqtt_assemble.c:209`). -/
def PropsOk (ps : List Property) : Prop :=
  (∀ p ∈ ps, PropOk p) ∧ (ps.map valSize).sum + 2 * ps.length ≤ 268435455

/-- Properties for protocol version `ver`: only version 5 has any. -/
def PropsFor (ver : Nat) (ps : List Property) : Prop := if ver = 5 then PropsOk ps else ps = []

/-- An identifier (2.2.1): not zero, 16 bits. -/
def PacketId (id : Nat) : Prop := 0 < id ∧ id < 65536

/-- Reason codes of CONNACK, table 3-1; in version 3 the return codes 0 to 5. -/
def ConnackReason (ver : Nat) (r : UInt8) : Prop :=
  if ver = 5 then r ∈ [0x00, 0x80, 0x81, 0x82, 0x83, 0x84, 0x85, 0x86, 0x87, 0x88, 0x89, 0x8A, 0x8C,
    0x90, 0x95, 0x97, 0x99, 0x9A, 0x9B, 0x9C, 0x9D, 0x9F]
  else r ∈ [0x00, 0x84, 0x85, 0x86, 0x87, 0x88]

/-- Reason codes of PUBACK and PUBREC (types 4, 5) and PUBREL and PUBCOMP (types 6, 7). -/
def AckReason (ty : Nat) (r : UInt8) : Prop :=
  if ty ≤ 5 then r ∈ [0x00, 0x10, 0x80, 0x83, 0x87, 0x90, 0x91, 0x97, 0x99] else r ∈ [0x00, 0x92]

/-- Reason codes of SUBACK (3.9.3). -/
def SubackReason (ver : Nat) (r : UInt8) : Prop :=
  if ver = 5 then r ∈ [0x00, 0x01, 0x02, 0x80, 0x83, 0x87, 0x8F, 0x91, 0x97, 0x9E, 0xA1, 0xA2]
  else r ∈ [0x00, 0x01, 0x02, 0x80]

/-- Reason codes of UNSUBACK (3.11.3). -/
def UnsubackReason (r : UInt8) : Prop := r ∈ [0x00, 0x11, 0x80, 0x83, 0x87, 0x8F, 0x91]

/-- Bits `shift`, ..., `shift + width - 1`. -/
def bits (f shift width : Nat) : Nat := f / 2 ^ shift % 2 ^ width

/-- CONNECT flags (3.1.2.3): reserved bit clear, will fields consistent, fields present
exactly when flagged; before version 5 no password without user name. -/
structure ConnectOk (ver : Nat) (flags : UInt8) (will : Option Will) (user pass : Option Bytes) : Prop where
  reserved : bits flags.toNat 0 1 = 0
  willQos : bits flags.toNat 3 2 ≤ 2
  noWill : bits flags.toNat 2 1 = 0 → bits flags.toNat 3 2 = 0 ∧ bits flags.toNat 5 1 = 0
  passUser : ver < 5 → bits flags.toNat 6 1 = 1 → bits flags.toNat 7 1 = 1
  will_iff : will.isSome ↔ bits flags.toNat 2 1 = 1
  user_iff : user.isSome ↔ bits flags.toNat 7 1 = 1
  pass_iff : pass.isSome ↔ bits flags.toNat 6 1 = 1
  will_ok : ∀ w, will = some w → PropsFor ver w.props ∧ TopicName w.topic ∧ w.msg ≠ [] ∧ w.msg.length ≤ 65535
  user_ok : ∀ s, user = some s → s ≠ [] ∧ Text s
  pass_ok : ∀ s, pass = some s → s ≠ [] ∧ Text s

/-- A subscription the program can have: the no-local and retain-as-published options are not
implemented and never set. -/
def SubOk (ver : Nat) (s : Subscription.Sub) : Prop :=
  TopicFilter s.filter ∧ s.qos ≤ 2 ∧ s.nl = 0 ∧ s.rap = 0 ∧ s.retain ≤ 2 ∧ (ver ≠ 5 → s.retain = 0)

/-- Well-formed packets for protocol version `ver` (3 is MQTT 3.1, 4 is 3.1.1, 5 is 5.0) which the
program can be asked to send. -/
def Sendable (ver : Nat) : Packet → Prop
  | .connect v flags ka ps cid will user pass =>
    v = ver ∧ ConnectOk ver flags will user pass ∧ ka < 65536 ∧ PropsFor ver ps ∧ Text cid
  | .connack flags reason ps => flags.toNat ≤ 1 ∧ ConnackReason ver reason ∧ PropsFor ver ps
  | .publish flags topic id ps _ =>
    flags < 16 ∧ bits flags 1 2 ≤ 2 ∧ (bits flags 1 2 = 0 → bits flags 3 1 = 0) ∧ TopicName topic ∧
    (if bits flags 1 2 = 0 then id = 0 else PacketId id) ∧ PropsFor ver ps
  | .ack ty id reason ps =>
    4 ≤ ty ∧ ty ≤ 7 ∧ PacketId id ∧ PropsFor ver ps ∧
    (if ver = 5 then AckReason ty reason else reason = 0)
  | .subscribe id ps ss =>
    PacketId id ∧ PropsFor ver ps ∧ ss ≠ [] ∧ (∀ s ∈ ss, SubOk ver s) ∧ (ss.map (·.filter)).Nodup ∧ ss.length ≤ 65536
  | .unsubscribe id ps ss =>
    PacketId id ∧ PropsFor ver ps ∧ ss ≠ [] ∧ (∀ s ∈ ss, SubOk ver s ∧ s.qos = 0 ∧ s.retain = 0) ∧
    (ss.map (·.filter)).Nodup ∧ ss.length ≤ 65536
  | .suback id ps acks => PacketId id ∧ PropsFor ver ps ∧ acks ≠ [] ∧ ∀ a ∈ acks, SubackReason ver a
  | .unsuback id ps acks =>
    PacketId id ∧ PropsFor ver ps ∧ (if ver = 5 then acks ≠ [] ∧ ∀ a ∈ acks, UnsubackReason a else acks = [])
  | .pingreq => True
  | .pingresp => True
  | .disconnect reason ps => ps = [] ∧ (ver ≠ 5 → reason = 0)

/-- The properties of a packet, including those of the will. -/
def allProps : Packet → List Property
  | .connect _ _ _ ps _ will _ _ => ps ++ (match will with | some w => w.props | none => [])
  | .connack _ _ ps => ps
  | .publish _ _ _ ps _ => ps
  | .ack _ _ _ ps => ps
  | .subscribe _ ps _ => ps
  | .unsubscribe _ ps _ => ps
  | .suback _ ps _ => ps
  | .unsuback _ ps _ => ps
  | .pingreq => []
  | .pingresp => []
  | .disconnect _ ps => ps

/-- Correlation Data (0x09) and Authentication Data (0x16), the binary data properties. -/
def IsBinary (p : Property) : Prop := p.id = 0x09 ∨ p.id = 0x16

end Verif.Mqtt.Spec

namespace Verif.Mqtt.Spec
open Verif

/-- What is before the first NUL byte, i.e. what the string is when used as C string. -/
def beforeNul (s : Bytes) : Bytes := s.takeWhile (· ≠ 0)

/-- A string of which the part before the first NUL byte is UTF-8. -/
def Str (s : Bytes) : Prop := Utf8.Spec.WellFormed (beforeNul s) ∧ s.length ≤ 65535

/-- A topic name as far as the first NUL byte. -/
def Name (s : Bytes) : Prop := Str s ∧ s ≠ [] ∧ (0x23 : UInt8) ∉ beforeNul s ∧ (0x2B : UInt8) ∉ beforeNul s

/-- What holds for a packet accepted by the parser, for protocol version `ver` (3, 4, 5). Compared to
what MQTT demands it is weaker in that strings may contain NUL bytes, that reason 0x92 is
accepted in PUBACK and PUBREC, and that the reason of DISCONNECT is free. -/
def Accepted (ver : Nat) : Packet → Prop
  | .connect v flags ka ps cid will user pass =>
    (v = 3 ∨ v = 4 ∨ v = 5) ∧ ka < 65536 ∧ Str cid ∧ (v < 5 → ps = []) ∧
    bits flags.toNat 0 1 = 0 ∧ bits flags.toNat 3 2 ≤ 2 ∧
    (bits flags.toNat 2 1 = 0 → bits flags.toNat 3 2 = 0 ∧ bits flags.toNat 5 1 = 0) ∧
    (v < 5 → bits flags.toNat 6 1 = 1 → bits flags.toNat 7 1 = 1) ∧
    (will.isSome ↔ bits flags.toNat 2 1 = 1) ∧ (user.isSome ↔ bits flags.toNat 7 1 = 1) ∧
    (pass.isSome ↔ bits flags.toNat 6 1 = 1) ∧
    (∀ w, will = some w → Name w.topic ∧ w.msg.length ≤ 65535 ∧ (v < 5 → w.props = [])) ∧
    (∀ s, user = some s → s ≠ [] ∧ Str s) ∧ (∀ s, pass = some s → s ≠ [] ∧ Str s)
  | .connack flags reason ps => flags.toNat ≤ 1 ∧ ConnackReason ver reason ∧ (ver < 5 → ps = [])
  | .publish flags topic id ps _ =>
    flags < 16 ∧ bits flags 1 2 ≤ 2 ∧ (bits flags 1 2 = 0 → bits flags 3 1 = 0) ∧ Name topic ∧
    (if bits flags 1 2 = 0 then id = 0 else PacketId id) ∧ (ver < 5 → ps = [])
  | .ack ty id reason ps =>
    4 ≤ ty ∧ ty ≤ 7 ∧ PacketId id ∧ (ver < 5 → ps = [] ∧ reason = 0) ∧ (AckReason ty reason ∨ reason = 0x92)
  | .subscribe id ps ss =>
    PacketId id ∧ (ver < 5 → ps = []) ∧ ss ≠ [] ∧ (∀ s ∈ ss, SubOk ver s) ∧ (ss.map (·.filter)).Nodup
  | .unsubscribe id ps ss =>
    PacketId id ∧ (ver < 5 → ps = []) ∧ ss ≠ [] ∧ (∀ s ∈ ss, SubOk ver s) ∧ (ss.map (·.filter)).Nodup
  | .suback id ps acks => PacketId id ∧ (ver < 5 → ps = []) ∧ acks ≠ [] ∧ ∀ a ∈ acks, SubackReason ver a
  | .unsuback id ps acks =>
    PacketId id ∧ (ver < 5 → ps = []) ∧ (if ver = 5 then acks ≠ [] ∧ ∀ a ∈ acks, UnsubackReason a else acks = [])
  | .pingreq => True
  | .pingresp => True
  | .disconnect reason ps => ver < 5 → reason = 0 ∧ ps = []

end Verif.Mqtt.Spec
