import Verif.Mqtt.Packet
/-!
# Assembling and sending MQTT packets

Models `src/lib/mqtt/mqtt_payload_buf.c`, `mqtt_assemble.c`, `mqtt_property.c:552-608` and
the construction of the sent data in `mqtt_connection.c:865-1015`. The result of an assembler
is the data written; `none` is a process abort (`RRR_BUG`).

Simplifications: growth of the buffer (`mqtt_payload_buf.c:65-101`) and allocation failure are
not modelled. Integers in properties are stored as `uint32_t` and ONE and TWO byte
properties read through narrower pointers (`mqtt_assemble.c:142-146`), which is taken to
mean the low order bytes (little endian host). `[]` as client identifier is the NULL pointer.
-/
namespace Verif.Mqtt.Asm
open Verif

/-- `mqtt_payload_buf.c:147-164 put_raw`; `ensure` (L66-68) aborts when the size is 0. -/
def raw (b : Bytes) : Option Bytes := if b = [] then none else some b

/-- `mqtt_assemble.c:52-65 PUT_U8`, `PUT_U16`, `PUT_U32`. -/
def u8 (n : Nat) : Bytes := [UInt8.ofNat n]
def u16 (n : Nat) : Bytes := [UInt8.ofNat (n / 256), UInt8.ofNat n]
def u32 (n : Nat) : Bytes :=
  [UInt8.ofNat (n / 16777216), UInt8.ofNat (n / 65536), UInt8.ofNat (n / 256), UInt8.ofNat n]

/-- `mqtt_payload_buf.c:193-204`: the loop, first argument `4 - i`. -/
def vintLoop : Nat → Nat → Bytes
  | 0, _ => []
  | n + 1, v =>
    let c := v &&& 0x7f
    let v' := v >>> 7
    if v' = 0 then [UInt8.ofNat c] else UInt8.ofNat (c ||| 0x80) :: vintLoop n v'

/-- `mqtt_payload_buf.c:182-207 rrr_mqtt_payload_buf_put_variable_int`. -/
def vint (v : Nat) : Option Bytes := if v > 0xfffffff then none else some (vintLoop 4 v)

/-- `mqtt_connection.c:877-885`: the loop of the second encoder: bytes and how often
`length` was incremented. -/
def headerVintLoop : Nat → Nat → Bytes × Nat
  | 0, _ => ([], 0)
  | n + 1, v =>
    let c := v &&& 0x7F
    let v' := v >>> 7
    let (rest, len) := headerVintLoop n v'
    if v' > 0 then (UInt8.ofNat (c ||| 0x80) :: rest, len + 1) else (UInt8.ofNat c :: rest, len)

/-- `mqtt_connection.c:865-888 __rrr_mqtt_connection_create_variable_int` and the `memcpy`
of `variable_int_length` bytes (L985); `none` is `RRR_MQTT_INTERNAL_ERROR`. -/
def headerVint (v : Nat) : Option Bytes :=
  if v > 0xfffffff then none
  else
    let (b, len) := headerVintLoop 4 v
    some (b.take (1 + len))

/-- `mqtt_assemble.c:74-80 PUT_RAW_WITH_LENGTH` after the check that the size fits. -/
def rawLen (b : Bytes) : Option Bytes := do
  if b.length > 0xffff then none
  else
    let r ← raw b
    return u16 b.length ++ r

/-- `mqtt_assemble.c:126-188 __rrr_mqtt_assemble_put_properties_callback`. -/
def prop (p : Property) : Option Bytes :=
  match propType p.id, p.val with
  | some .one, .num n => some (p.id :: u8 n)
  | some .two, .num n => some (p.id :: u16 n)
  | some .four, .num n => some (p.id :: u32 n)
  | some .vint, .num n => do return p.id :: (← vint n)
  | some .blob, .data b => do return p.id :: (← rawLen b)
  | some .utf8, .data b => do return p.id :: (← rawLen b)
  | some .utf8x2, .pair a b => do return p.id :: ((← rawLen a) ++ (← rawLen b))
  | _, _ => none

/-- `mqtt_property.c:573-585`: number of bytes of a VINT. -/
def vintSize : Nat → Nat → Nat
  | 0, _ => 0
  | fuel + 1, v => if v >>> 7 = 0 then 1 else 1 + vintSize fuel (v >>> 7)

/-- `mqtt_property.c:565-604`: contribution of one property; `none` is `RRR_BUG`. -/
def propSize (p : Property) : Option Nat :=
  match propType p.id, p.val with
  | some .one, .num _ => some 1
  | some .two, .num _ => some 2
  | some .four, .num _ => some 4
  | some .vint, .num n => if n > 0xfffffff then none else some (vintSize 5 n)
  | some .blob, .data b => some (2 + b.length)
  | some .utf8, .data b => some (2 + b.length)
  | some .utf8x2, .pair a b => some (2 + a.length + (2 + b.length))
  | _, _ => none

/-- `mqtt_property.c:552-608 rrr_mqtt_property_collection_calculate_size`. -/
def propsSize : List Property → Option Nat
  | [] => some 0
  | p :: ps => do
    let a ← propSize p
    let b ← propsSize ps
    return a + b

/-- Concatenation of the assembled properties. -/
def propsBody : List Property → Option Bytes
  | [] => some []
  | p :: ps => do
    let a ← prop p
    let b ← propsBody ps
    return a ++ b

/-- `mqtt_assemble.c:190-230 __rrr_mqtt_assemble_put_properties`. -/
def props (ps : List Property) : Option Bytes := do
  let size ← propsSize ps
  let total := size + ps.length                       -- L207
  if total + ps.length > 0xfffffff then none           -- L209-212 (adds the count once more)
  else
    let len ← vint total                              -- L214
    let body ← propsBody ps                           -- L218
    if body.length ≠ total then none                  -- L226-228
    else return len ++ body

/-- `PUT_PROPERTIES` only for version 5. -/
def propsIfV5 (ver : Nat) (ps : List Property) : Option Bytes := if ver ≥ 5 then props ps else some []

/-- `mqtt_assemble.c:82-93 PUT_AND_VERIFY_RAW_WITH_LENGTH` for an optional field which is put when
its flag is set; a NULL pointer aborts. -/
def optString (present : Bool) (s : Option Bytes) : Option Bytes :=
  if present then
    match s with
    | none => none
    | some b => rawLen b
  else some []

/-- `mqtt_assemble.c:270-276`: the client identifier; `[]` is the NULL pointer. -/
def clientId (cid : Bytes) : Option Bytes := if cid = [] then some (u16 0) else rawLen cid

/-- `mqtt_assemble.c:278-292`: the will part. -/
def willPart (ver : Nat) (flags : UInt8) (will : Option Will) : Option Bytes :=
  if flagBits flags.toNat 2 1 ≠ 0 then
    match will with
    | none => none
    | some w => do
      let wp ← propsIfV5 ver w.props
      let t ← rawLen w.topic
      let m ← rawLen w.msg
      some (wp ++ t ++ m)
  else some []

/-- `mqtt_assemble.c:241-304 rrr_mqtt_assemble_connect`. -/
def connect (ver : Nat) (flags : UInt8) (keepAlive : Nat) (ps : List Property) (cid : Bytes)
    (will : Option Will) (user pass : Option Bytes) : Option Bytes := do
  let name ← versionName ver
  let n ← rawLen name
  let pr ← propsIfV5 ver ps
  let c ← clientId cid
  let w ← willPart ver flags will
  let us ← optString (flagBits flags.toNat 7 1 ≠ 0) user
  let pw ← optString (flagBits flags.toNat 6 1 ≠ 0) pass
  return n ++ u8 ver ++ [flags] ++ u16 keepAlive ++ pr ++ c ++ w ++ us ++ pw

/-- `mqtt_assemble.c:375-405 __rrr_mqtt_assemble_sub_usub_callback`. -/
def sub (ver : Nat) (hasOptions : Bool) (s : Subscription.Sub) : Option Bytes := do
  if s.nl > 0 ∨ s.rap > 0 ∨ s.retain > 2 ∨ s.qos > 2 then none
  else
    let flags := if ver ≥ 5 then s.qos + s.nl * 4 + s.rap * 8 + s.retain * 16 else s.qos
    let f ← rawLen s.filter
    return f ++ (if hasOptions then u8 flags else [])

/-- Concatenation over the subscriptions. -/
def subs (ver : Nat) (hasOptions : Bool) : List Subscription.Sub → Option Bytes
  | [] => some []
  | s :: ss => do
    let a ← sub ver hasOptions s
    let b ← subs ver hasOptions ss
    return a ++ b

/-- `mqtt_assemble.c:407-442 __rrr_mqtt_assemble_sub_usub`. -/
def subUsub (ver : Nat) (hasOptions : Bool) (id : Nat) (ps : List Property) (ss : List Subscription.Sub) :
    Option Bytes := do
  let pr ← propsIfV5 ver ps
  if ss = [] then none
  else
    let b ← subs ver hasOptions ss
    return u16 id ++ pr ++ b

/-- `mqtt_assemble.c:457-476`: one reason of SUBACK/UNSUBACK. -/
def ackByte (ver : Nat) (r : UInt8) : UInt8 := if ver < 5 ∧ r.toNat > 2 then 0x80 else r

/-- The assembler of each packet type, without payload. -/
def body (ver : Nat) : Packet → Option Bytes
  | .connect v flags ka ps cid will user pass => connect v flags ka ps cid will user pass
  | .connack flags reason ps =>                        -- L306-326
    if ver ≥ 5 then do
      let pr ← props ps
      return [flags, reason] ++ pr
    else
      match translateFromV5 reason with
      | none => none
      | some r => if r > 5 then none else some ([flags] ++ u8 r)
  | .publish flags topic id ps _ => do                 -- L328-351
    let t ← rawLen topic
    let pr ← propsIfV5 ver ps
    return t ++ (if flagBits flags 1 2 > 0 then u16 id else []) ++ pr
  | .ack _ id reason ps =>                             -- L354-367
    if ver ≥ 5 then do
      let pr ← props ps
      return u16 id ++ [reason] ++ pr
    else some (u16 id)
  | .subscribe id ps ss => subUsub ver true id ps ss
  | .unsubscribe id ps ss => subUsub ver false id ps ss
  | .suback id ps acks => do                           -- L478-506
    let pr ← propsIfV5 ver ps
    if acks = [] then none else return u16 id ++ pr ++ acks.map (ackByte ver)
  | .unsuback id ps acks =>                            -- L508-537
    if ver ≥ 5 then do
      let pr ← props ps
      if acks = [] then none else return u16 id ++ pr ++ acks.map (ackByte ver)
    else some (u16 id)
  | .pingreq => some []                                -- L539-549
  | .pingresp => some []
  | .disconnect reason _ => if ver ≥ 5 then some [reason, 0] else some []     -- L551-564

/-- Payload appended by the sender. -/
def payload : Packet → Bytes
  | .publish _ _ _ _ pl => pl
  | _ => []

/-- Type flags of the packet: those given for PUBLISH, the reserved ones otherwise. -/
def typeFlags : Packet → Nat
  | .publish flags .. => flags
  | p => (reservedFlags p.ty).getD 0

/-- `mqtt_connection.c:890-1008 __rrr_mqtt_conn_iterator_ctx_send_packet`: the data sent. -/
def packet (ver : Nat) (p : Packet) : Option Bytes := do
  let b ← body ver p
  let len ← headerVint (b.length + (payload p).length)
  return u8 (p.ty * 16 + typeFlags p) ++ len ++ b ++ payload p

end Verif.Mqtt.Asm
