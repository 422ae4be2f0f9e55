import Verif.Mqtt.Parser
import Verif.Mqtt.Packet
/-!
# MQTT packet parsing: packet types

Models `src/lib/mqtt/mqtt_parse.c:500-1528`, one call of `rrr_mqtt_packet_parse` on a fresh
parse session. (Continuing a session which was incomplete is `Session.lean`.)

Simplifications: `rrr_length`/`rrr_biglength` differences of positions are exact numbers (the
positions involved are below 2^29); the leak of a property on an incomplete parse
(`mqtt_parse.c:796`) is not represented.
-/
namespace Verif.Mqtt
open Verif

/-- `mqtt_parse.c:505-512 __rrr_mqtt_parse_utf8_validate_callback`. -/
def utf8Cb (_ : Unit) (c : Nat) : Option Unit :=
  if c = 0 ∨ (0xD800 ≤ c ∧ c ≤ 0xDFFF) then none else some ()

/-- `mqtt_parse.c:514-535 __rrr_mqtt_parse_utf8_validate` without the minimum length. -/
def utf8Ok (s : Bytes) : Bool := (Utf8.validateAndIterate utf8Cb s ()).isSome

/-- `mqtt_parse.c:537-555 __rrr_mqtt_parse_utf8` -/
def utf8 (min : Nat) : P Bytes := do
  let s ← blob
  require (min ≤ s.length)                      -- L519-522
  require (utf8Ok s)                            -- L525-532
  pure s

/-- `mqtt_parse.c:561-597 __rrr_mqtt_parse_property_integer`: `n` big endian bytes. -/
def bigEndian (s : Nat) : Nat → P Nat
  | 0 => pure 0
  | n + 1 => do
    let hi ← bigEndian s n
    let b ← rd (s + n)
    pure (hi * 256 + b.toNat)

/-- Length check and integer, common part of L599-642. -/
def beInt (n : Nat) : P Nat := do
  let s ← prepare n
  bigEndian s n

/-- `mqtt_parse.c:599-745`: the property parsers by type. -/
def propValue : PropType → P PropVal
  | .one => do let n ← beInt 1; pure (.num n)  -- L599-612
  | .two => do let n ← beInt 2; pure (.num n)  -- L614-627
  | .four => do let n ← beInt 4; pure (.num n) -- L629-642
  | .vint => do let n ← varint; pure (.num n)                                -- L644-659
  | .blob => do                                                              -- L661-688
    let b ← blob
    skip b.length                               -- L683: the length is added a second time
    pure (.data b)
  | .utf8 => do let b ← utf8 0; pure (.data b)                               -- L690-709
  | .utf8x2 => do                                                            -- L711-735
    let a ← utf8 0
    let b ← utf8 0
    pure (.pair a b)

/-- `mqtt_parse.c:779-806`: the loop over properties. The first argument bounds the number
of rounds; every round advances by at least one byte. -/
def propLoop (bodyEnd : Nat) : Nat → List Property → P (List Property)
  | 0, acc => pure acc
  | fuel + 1, acc => do
    let pos ← getPos
    if pos < bodyEnd then
      let id ← u8                               -- L781
      match propType id with
      | none => soft                            -- L783-788
      | some t =>
        let v ← propValue t                     -- L796-800
        propLoop bodyEnd fuel (acc ++ [⟨id, v⟩])  -- L802
    else pure acc

/-- `mqtt_parse.c:747-813 __rrr_mqtt_parse_properties`. -/
def properties : P (List Property) := do
  let len ← varint                              -- L767
  let pos ← getPos
  propLoop (pos + len) len []

/-- `mqtt_parse.c:222-234 PARSE_PROPERTIES_IF_V5`. -/
def propertiesIfV5 (ver : Nat) : P (List Property) := if ver ≥ 5 then properties else pure []

/-- `mqtt_parse.c:328-337 PARSE_END_HEADER_BEGIN_PAYLOAD_AT_CHECKPOINT`, `:290-294`. -/
def endHeader : P Unit := do
  let pos ← getPos
  let target ← getTarget
  require (pos ≤ target)

/-- `mqtt_parse.c:296-308 PARSE_VERIFY_NO_PAYLOAD`, `PARSE_VERIFY_PAYLOAD_END`. -/
def verifyEnd : P Unit := do
  let e ← targetEnd
  require e

/-- `toupper` on ASCII in the C locale. -/
def toUpper (c : UInt8) : UInt8 := if 0x61 ≤ c ∧ c ≤ 0x7a then c - 0x20 else c

/-- `mqtt_parse.c:142-193 PARSE_SAVE_AND_CHECK_REASON_STRUCT`. -/
def checkReason (ver : Nat) (cls : Reason → Bool) (r : UInt8) : P UInt8 :=
  match (if ver ≥ 5 then reasonGetV5 r else reasonGetV31 r.toNat) with
  | none => soft
  | some x => if cls x then pure x.v5 else soft

/-- `mqtt_parse.c:844-895`: variable header of CONNECT. -/
def connectHeader : P (Nat × UInt8 × Nat × List Property) := do
  let nameLen ← u16                             -- L848-849
  require (nameLen ≤ 6)                         -- L851-854
  let raw ← takeN nameLen                       -- L856-860 (strncpy stops at a NUL)
  let ver ← u8                                  -- L862-863
  match versionName ver.toNat with
  | none => soft                                -- L865-870
  | some name =>
    require ((Topic.cstr raw).map toUpper = name)          -- L872-876
    let flags ← u8                              -- L883
    let f := flags.toNat
    require (flagBits f 0 1 = 0)                -- L885
    require (flagBits f 2 1 ≠ 0 ∨ (flagBits f 3 2 = 0 ∧ flagBits f 5 1 = 0))   -- L887-892
    require (ver.toNat ≥ 5 ∨ ¬ (flagBits f 6 1 = 1 ∧ flagBits f 7 1 = 0))     -- L894-899
    require (flagBits f 3 2 ≤ 2)                -- L901-904
    let keepAlive ← u16                         -- L906
    let props ← propertiesIfV5 ver.toNat        -- L907
    pure (ver.toNat, flags, keepAlive, props)

/-- `mqtt_parse.c:914-923`: will part of CONNECT. -/
def connectWill (ver : Nat) (flags : UInt8) : P (Option Will) :=
  if flagBits flags.toNat 2 1 ≠ 0 then do
    let props ← propertiesIfV5 ver
    let topic ← utf8 1
    require (Topic.validateName topic)
    let msg ← blob
    pure (some ⟨props, topic, msg⟩)
  else pure none

/-- `mqtt_parse.c:925-939`: an optional string of CONNECT. -/
def connectString (present : Bool) : P (Option Bytes) :=
  if present then do
    let e ← targetEnd
    require (!e)
    let s ← utf8 1
    pure (some s)
  else pure none

/-- `mqtt_parse.c:844-943 rrr_mqtt_parse_connect`. -/
def parseConnect : P Packet := do
  let (ver, flags, keepAlive, props) ← connectHeader
  endHeader                                     -- L909
  let clientId ← utf8 0                         -- L912
  let will ← connectWill ver flags
  let user ← connectString (flagBits flags.toNat 7 1 ≠ 0)
  let pass ← connectString (flagBits flags.toNat 6 1 ≠ 0)
  verifyEnd                                     -- L941
  pure (.connect ver flags keepAlive props clientId will user pass)

/-- `mqtt_parse.c:945-971 rrr_mqtt_parse_connack`. -/
def parseConnack (ver : Nat) : P Packet := do
  let flags ← u8
  require (flagBits flags.toNat 1 7 = 0)
  let r ← u8
  let reason ← checkReason ver (·.connack) r
  let props ← propertiesIfV5 ver
  endHeader
  verifyEnd
  pure (.connack flags reason props)

/-- `mqtt_parse.c:1019-1034`, including the move of the payload into the
packet (`mqtt_connection.c:744-760`). -/
def publishPayload : P Bytes := fun e pos =>
  if e.target - pos = 0 then .ok ([], pos)                       -- L1019 PARSE_CHECK_ZERO_PAYLOAD
  else if e.buf.length ≥ e.target then copy pos (e.target - pos) e e.target    -- L1029-1032
  else .incomplete                                               -- L1034

/-- `mqtt_parse.c:1013-1015` -/
def publishId (flags : Nat) : P Nat := if flagBits flags 1 2 > 0 then packetId else pure 0

/-- `mqtt_parse.c:973-1037 rrr_mqtt_parse_publish`. -/
def parsePublish (ver flags : Nat) : P Packet := do
  require (flagBits flags 1 2 ≤ 2)                               -- L990
  require (¬ (flagBits flags 1 2 = 0 ∧ flagBits flags 3 1 ≠ 0))  -- L992-995
  let topic ← utf8 1                                             -- L998
  require (Topic.validateName topic)                             -- L1000-1004
  let id ← publishId flags                                       -- L1013-1015
  let props ← propertiesIfV5 ver                                 -- L1017
  endHeader
  let payload ← publishPayload
  pure (.publish flags topic id props payload)

/-- `mqtt_parse.c:1040-1076 rrr_mqtt_parse_def_puback`. -/
def parseAck (ver ty : Nat) : P Packet := do
  let id ← packetId
  let e ← targetEnd
  if e then                                                      -- L1047
    endHeader
    verifyEnd
    pure (.ack ty id 0 [])
  else if ver ≥ 5 then
    let r ← u8                                                   -- L1050
    let reason ← checkReason ver (fun x => if ty ≤ 5 then x.pubackPubrec else x.pubrelPubcomp) r
    let props ← properties
    verifyEnd                                                    -- L1068-1071
    endHeader
    verifyEnd
    pure (.ack ty id reason props)
  else
    verifyEnd
    endHeader
    verifyEnd
    pure (.ack ty id 0 [])

/-- `mqtt_parse.c:1131-1133`: the options byte, present in SUBSCRIBE. -/
def filterOptions (hasOptions : Bool) : P UInt8 := if hasOptions then u8 else pure 0

/-- `mqtt_parse.c:1110-1167`: one topic filter of SUBSCRIBE or UNSUBSCRIBE. -/
def parseFilter (ver : Nat) (hasOptions : Bool) : P Subscription.Sub := do
  let filter ← utf8 1                                            -- L1112
  require (Topic.cstr filter = filter)                           -- L1119-1122
  let o ← filterOptions hasOptions                               -- L1131-1133
  let f := o.toNat
  require (flagBits f 0 2 ≤ 2)                                   -- L1140
  require (flagBits f 6 2 = 0)                                   -- L1141
  require (if ver ≥ 5 then flagBits f 4 2 ≤ 2                    -- L1143-1145
    else flagBits f 4 2 = 0 ∧ flagBits f 3 1 = 0 ∧ flagBits f 2 1 = 0)  -- L1146-1150
  require (Topic.filterValidateName filter)                      -- L1153-1157
  match Subscription.new filter (flagBits f 4 2) (flagBits f 3 1) (flagBits f 2 1) (flagBits f 0 2) with
  | none => bug                                                  -- mqtt_subscription.c:63-65
  | some s => pure s

/-- `mqtt_parse.c:1110-1170`: the loop over topic filters; the first argument bounds the
number of rounds (every round advances). -/
def filterLoop (ver : Nat) (hasOptions : Bool) : Nat → Subscription.Coll → P Subscription.Coll
  | 0, acc => pure acc
  | fuel + 1, acc => do
    let e ← targetEnd
    if e then pure acc
    else
      let s ← parseFilter ver hasOptions
      match Subscription.addUnique acc s true with               -- L1160
      | (.refused, _) => soft                                    -- L1168-1171
      | (_, acc') => filterLoop ver hasOptions fuel acc'

/-- `mqtt_parse.c:1078-1174 __rrr_mqtt_parse_subscribe_unsubscribe`. -/
def parseSubUsub (ver : Nat) (hasOptions : Bool) : P Packet := do
  let id ← packetId
  let props ← propertiesIfV5 ver
  endHeader
  let e ← targetEnd
  require (!e)                                                   -- L1090-1093
  let pos ← getPos
  let target ← getTarget
  let subs ← filterLoop ver hasOptions (target - pos) []
  verifyEnd
  pure (if hasOptions then .subscribe id props subs else .unsubscribe id props subs)

/-- `mqtt_parse.c:1255-1298`: check of one acknowledgement byte. -/
def checkAck (ver : Nat) (isSuback : Bool) (a : UInt8) : Bool :=
  let n := a.toNat
  if ver ≥ 5 then
    match reasonGetV5 a with
    | none => false
    | some x => if isSuback then x.suback else x.unsuback
  else
    decide (flagBits n 2 5 = 0) && !(decide (flagBits n 7 1 = 1) && decide (flagBits n 0 2 ≠ 0)) &&
    decide (flagBits n 0 2 ≤ 2) &&
    (match (if flagBits n 7 1 ≠ 0 then reasonGetV5 0x80 else reasonGetV5 (UInt8.ofNat (flagBits n 0 2))) with
    | none => false
    | some x => if isSuback then x.suback else x.unsuback)

/-- `mqtt_parse.c:1252-1299`: the loop over the acknowledgements; `ackPos` is `payload_pos`. -/
def ackLoop (ver : Nat) (isSuback : Bool) (ackPos i : Nat) : Nat → Bytes → P Bytes
  | 0, acc => pure acc
  | n + 1, acc => do
    let _ ← u8                                                   -- L1255 PARSE_U8(dummy)
    let a ← rd (ackPos + i)                                      -- acknowledgements[i]
    require (checkAck ver isSuback a)
    ackLoop ver isSuback ackPos (i + 1) n (acc ++ [a])

/-- `mqtt_parse.c:1235-1239`: incomplete until the whole packet is received. -/
def waitFull : P Unit := fun e pos => if e.buf.length ≥ e.target then .ok ((), pos) else .incomplete

/-- `mqtt_parse.c:1206-1304 __rrr_mqtt_parse_suback_unsuback`. -/
def parseSubackUnsuback (ver : Nat) (isSuback : Bool) : P Packet := do
  let noPayload := !isSuback && decide (ver < 5)                 -- L1322-1337
  let id ← packetId
  let props ← propertiesIfV5 ver
  endHeader
  if noPayload then
    verifyEnd
    pure (.unsuback id props [])
  else
    let pos ← getPos
    let target ← getTarget
    require (target - pos ≠ 0)                                   -- L1230-1233
    waitFull                                                     -- L1235-1239
    let acks ← ackLoop ver isSuback pos 0 (target - pos) []
    verifyEnd
    pure (if isSuback then .suback id props acks else .unsuback id props acks)

/-- `mqtt_parse.c:1339-1357`, `:343-352 PARSE_END_NO_HEADER`. -/
def parsePing (p : Packet) : P Packet := do
  verifyEnd
  endHeader
  pure p

/-- `mqtt_parse.c:1359-1392 rrr_mqtt_parse_disconnect`. `vpos` is `variable_header_pos`. -/
def parseDisconnect (ver : Nat) : P Packet := do
  let vpos ← getPos
  let target ← getTarget
  if ver < 5 then
    require (target - vpos = 0)
    pure (.disconnect 0 [])
  else if target - vpos = 0 then pure (.disconnect 0 [])
  else
    let r ← u8
    if target - vpos = 1 then pure (.disconnect r [])
    else
      let props ← properties
      endHeader
      verifyEnd
      pure (.disconnect r props)

/-- The `parse` column of `mqtt_packet.c:233-250`; packet types other than CONNECT
require the protocol version to be known (`mqtt_parse.c:87-90`), AUTH is refused (`:1394-1400`). -/
def parseBody (ver : Option Nat) (ty flags : Nat) : P Packet :=
  if ty = 1 then parseConnect
  else if ty = 15 then soft
  else match ver with
    | none => incomplete
    | some v =>
      if ty = 2 then parseConnack v
      else if ty = 3 then parsePublish v flags
      else if ty ≤ 7 then parseAck v ty
      else if ty = 8 then parseSubUsub v true
      else if ty = 9 then parseSubackUnsuback v true
      else if ty = 10 then parseSubUsub v false
      else if ty = 11 then parseSubackUnsuback v false
      else if ty = 12 then parsePing .pingreq
      else if ty = 13 then parsePing .pingresp
      else parseDisconnect v

/-- Fixed header: type, flags, position of the variable header and total packet size. -/
structure Fixed where
  ty : Nat
  flags : Nat
  vpos : Nat
  target : Nat
deriving DecidableEq, Repr

/-- `mqtt_parse.c:1451-1459`: the packet type has reserved flags and others are set. -/
def badFlags (ty flags : Nat) : Bool :=
  match reservedFlags ty with
  | some f => flags != f
  | none => false

/-- Return any result other than OK to the caller. -/
def Res.bind {α β : Type} (r : Res α) (f : α → Res β) : Res β :=
  match r with
  | .ok a => f a
  | .incomplete => .incomplete
  | .soft => .soft
  | .bug => .bug
  | .oob => .oob

/-- `mqtt_parse.c:1432-1492`: the fixed header. -/
def fixedHeader (buf : Bytes) : Res Fixed :=
  if buf.length < 2 then .incomplete                             -- L1432-1435
  else match buf with
  | [] => .incomplete
  | t :: _ =>
    if t.toNat / 16 = 0 then .soft                               -- L1440-1444
    else if badFlags (t.toNat / 16) (t.toNat % 16) then .soft    -- L1451-1459
    else (varint ⟨buf, 0⟩ 1).bind fun x =>                       -- L1463-1480
      .ok ⟨t.toNat / 16, t.toNat % 16, x.2, x.2 + x.1⟩           -- L1482-1486

/-- `mqtt_parse.c:1407-1528 rrr_mqtt_packet_parse` on a fresh session: the packet and its
total size. -/
def parsePacket (ver : Option Nat) (buf : Bytes) : Res (Packet × Nat) :=
  (fixedHeader buf).bind fun h =>
    (parseBody ver h.ty h.flags ⟨buf, h.target⟩ h.vpos).bind fun x => .ok (x.1, h.target)

end Verif.Mqtt
