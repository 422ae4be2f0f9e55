import Verif.Subscription.Model
/-!
# MQTT packets: data, constants and tables

Models the packet structures of `src/lib/mqtt/mqtt_packet.h`, the tables of
`mqtt_packet.c:41-46, 233-300` and `mqtt_property.c:33-62`.
-/
namespace Verif.Mqtt
open Verif

/-- `mqtt_property.h:30-37`: how a property is encoded. -/
inductive PropType where
  | one | two | four | vint | blob | utf8 | utf8x2
deriving DecidableEq, Repr

/-- Value of a property: `INTERNAL_UINT32`, `INTERNAL_BLOB`, or a blob with a sibling. -/
inductive PropVal where
  | num (n : Nat) | data (b : Bytes) | pair (a b : Bytes)
deriving DecidableEq, Repr

/-- `mqtt_property.h struct rrr_mqtt_property` (identifier and value). -/
structure Property where
  id : UInt8
  val : PropVal
deriving DecidableEq, Repr

/-- `mqtt_property.c:33-62 property_definitions`. -/
def propTable : List (UInt8 × PropType) := [
  (0x01, .one), (0x02, .four), (0x03, .utf8), (0x08, .utf8), (0x09, .blob), (0x0B, .vint),
  (0x11, .four), (0x12, .utf8), (0x13, .two), (0x15, .utf8), (0x16, .blob), (0x17, .one),
  (0x18, .four), (0x19, .one), (0x1A, .utf8), (0x1C, .utf8), (0x1F, .utf8), (0x21, .two),
  (0x22, .two), (0x23, .two), (0x24, .one), (0x25, .one), (0x26, .utf8x2), (0x27, .four),
  (0x28, .one), (0x29, .one), (0x2A, .one)]

/-- `mqtt_property.c:64-72 rrr_mqtt_property_get_definition`. -/
def propType (id : UInt8) : Option PropType := propTable.lookup id

/-- `mqtt_packet.h struct rrr_mqtt_p_reason`. -/
structure Reason where
  v5 : UInt8
  v31 : Nat
  connack : Bool
  disconnect : Bool
  pubackPubrec : Bool
  pubrelPubcomp : Bool
  suback : Bool
  unsuback : Bool
deriving DecidableEq, Repr

/-- `mqtt_packet.c:252-300 rrr_mqtt_p_reason_map`; v3.1 reason 254 is `NO_CONNACK`, 255 is `NA`. -/
def reasonMap : List Reason := [
  ⟨0x00, 0, true, true, true, true, true, true⟩,
  ⟨0x84, 1, true, false, false, false, false, false⟩,
  ⟨0x85, 2, true, false, false, false, false, false⟩,
  ⟨0x86, 4, true, false, false, false, false, false⟩,
  ⟨0x87, 5, true, false, true, false, true, true⟩,
  ⟨0x88, 3, true, false, false, false, false, false⟩,
  ⟨0x01, 0, false, false, false, false, true, false⟩,
  ⟨0x02, 0, false, false, false, false, true, false⟩,
  ⟨0x04, 255, false, true, false, false, false, false⟩,
  ⟨0x10, 255, false, false, true, false, false, false⟩,
  ⟨0x11, 255, false, false, false, false, false, true⟩,
  ⟨0x80, 254, true, true, true, false, true, true⟩,
  ⟨0x81, 254, true, true, false, false, false, false⟩,
  ⟨0x82, 254, true, true, false, false, false, false⟩,
  ⟨0x83, 254, true, true, true, false, true, true⟩,
  ⟨0x89, 3, true, true, false, false, false, false⟩,
  ⟨0x8A, 254, true, false, false, false, false, false⟩,
  ⟨0x8B, 255, false, true, false, false, false, false⟩,
  ⟨0x8C, 254, true, false, false, false, false, false⟩,
  ⟨0x8D, 255, false, true, false, false, false, false⟩,
  ⟨0x8E, 255, false, true, false, false, false, false⟩,
  ⟨0x8F, 255, false, true, false, false, true, true⟩,
  ⟨0x90, 254, true, false, true, false, false, false⟩,
  ⟨0x91, 255, false, false, true, false, true, true⟩,
  ⟨0x92, 255, false, false, true, true, false, false⟩,
  ⟨0x93, 255, false, true, false, false, false, false⟩,
  ⟨0x94, 255, false, true, false, false, false, false⟩,
  ⟨0x95, 254, true, false, false, false, false, false⟩,
  ⟨0x96, 255, false, true, false, false, false, false⟩,
  ⟨0x97, 254, true, false, true, false, true, false⟩,
  ⟨0x98, 255, false, true, false, false, false, false⟩,
  ⟨0x99, 254, true, false, true, false, false, false⟩,
  ⟨0x9A, 254, true, false, false, false, false, false⟩,
  ⟨0x9B, 254, true, false, false, false, false, false⟩,
  ⟨0x9C, 3, true, false, false, false, false, false⟩,
  ⟨0x9D, 3, true, false, false, false, false, false⟩,
  ⟨0x9E, 255, false, false, false, false, true, false⟩,
  ⟨0x9F, 3, true, false, false, false, false, false⟩,
  ⟨0xA0, 255, false, true, false, false, false, false⟩,
  ⟨0xA1, 255, false, true, false, false, true, false⟩,
  ⟨0xA2, 255, false, true, false, false, true, false⟩]

/-- `mqtt_packet.c:448-463 rrr_mqtt_p_reason_get_v5`. -/
def reasonGetV5 (r : UInt8) : Option Reason := reasonMap.find? (fun x => x.v5 == r)

/-- `mqtt_packet.c:465-482 rrr_mqtt_p_reason_get_v31`: stops at the first entry whose v3.1
reason is above `RRR_MQTT_P_31_REASON_MAX` (5). -/
def reasonGetV31 (r : Nat) : Option Reason :=
  (reasonMap.takeWhile (fun x => x.v31 ≤ 5)).find? (fun x => x.v31 == r)

/-- `mqtt_packet.c:484-493 rrr_mqtt_p_translate_reason_from_v5`; `none` is `RRR_BUG`. -/
def translateFromV5 (r : UInt8) : Option Nat := (reasonGetV5 r).map (·.v31)

/-- `mqtt_packet.c:41-46 protocol_versions`. -/
def versionName (id : Nat) : Option Bytes :=
  if id = 3 then some [0x4d, 0x51, 0x49, 0x53, 0x44, 0x50]       -- MQISDP
  else if id = 4 ∨ id = 5 then some [0x4d, 0x51, 0x54, 0x54]     -- MQTT
  else none

/-- `mqtt_packet.c:233-250 rrr_mqtt_p_type_properties`: `has_reserved_flags` and `flags`,
as the flags required, if any. -/
def reservedFlags (ty : Nat) : Option Nat :=
  if ty = 3 then none else if ty = 6 ∨ ty = 8 ∨ ty = 10 then some 2 else some 0

/-- Will part of a CONNECT packet. -/
structure Will where
  props : List Property
  topic : Bytes
  msg : Bytes
deriving DecidableEq, Repr

/-- Contents of a packet. Strings are the full received bytes. A packet identifier which
is not present is 0. `ver` is the protocol version id. -/
inductive Packet where
  | connect (ver : Nat) (flags : UInt8) (keepAlive : Nat) (props : List Property) (clientId : Bytes)
      (will : Option Will) (user pass : Option Bytes)
  | connack (flags : UInt8) (reason : UInt8) (props : List Property)
  | publish (flags : Nat) (topic : Bytes) (id : Nat) (props : List Property) (payload : Bytes)
  | ack (ty : Nat) (id : Nat) (reason : UInt8) (props : List Property)
  | subscribe (id : Nat) (props : List Property) (subs : Subscription.Coll)
  | unsubscribe (id : Nat) (props : List Property) (subs : Subscription.Coll)
  | suback (id : Nat) (props : List Property) (acks : Bytes)
  | unsuback (id : Nat) (props : List Property) (acks : Bytes)
  | pingreq
  | pingresp
  | disconnect (reason : UInt8) (props : List Property)
deriving DecidableEq, Repr

/-- Packet type ids, `mqtt_packet.h`. -/
def Packet.ty : Packet → Nat
  | .connect .. => 1 | .connack .. => 2 | .publish .. => 3 | .ack t .. => t | .subscribe .. => 8
  | .suback .. => 9 | .unsubscribe .. => 10 | .unsuback .. => 11 | .pingreq => 12 | .pingresp => 13
  | .disconnect .. => 14

/-- Flag extraction, `mqtt_packet.h:265-271, 358-360`, `mqtt_subscription.h:41-45`. -/
def flagBits (f : Nat) (shift width : Nat) : Nat := (f >>> shift) % 2 ^ width

end Verif.Mqtt
