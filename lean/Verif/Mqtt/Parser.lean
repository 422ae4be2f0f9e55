import Verif.Common
/-!
# MQTT packet parsing: the parser state and the `PARSE_*` macros

Models the macros of `src/lib/mqtt/mqtt_parse.c:51-352` and the helpers
`mqtt_parse.c:387-535`. The parse position `parse_state->end` is an offset into
the receive buffer. A read of buffer memory is a separate step from the check
which precedes it; a read outside of the received data gives the outcome `oob`, so
that memory safety is a theorem and not an assumption.

Not modelled: allocation failure (`RRR_MQTT_INTERNAL_ERROR`), log messages.
-/
namespace Verif.Mqtt
open Verif

/-- `mqtt_parse.h struct rrr_mqtt_parse_session`: `buf[0..buf_wpos)` and `target_size`. -/
structure Env where
  buf : Bytes
  target : Nat

/-- Result of a parse function: `RRR_MQTT_OK`, `RRR_MQTT_INCOMPLETE`,
`RRR_MQTT_SOFT_ERROR`/`RRR_MQTT_INTERNAL_ERROR` (the connection is closed), `RRR_BUG`
(the process aborts), or a read outside of the received data. -/
inductive Res (α : Type) where
  | ok (a : α) | incomplete | soft | bug | oob
deriving DecidableEq, Repr

/-- A piece of parsing code: position in, value and position out. -/
def P (α : Type) : Type := Env → Nat → Res (α × Nat)

namespace P

/-- Statement sequencing; every non-OK result is returned to the caller at once. -/
def bind {α β : Type} (p : P α) (f : α → P β) : P β := fun e pos =>
  match p e pos with
  | .ok (a, pos') => f a e pos'
  | .incomplete => .incomplete
  | .soft => .soft
  | .bug => .bug
  | .oob => .oob

/-- No code. -/
def pure {α : Type} (a : α) : P α := fun _ pos => .ok (a, pos)

instance : Monad P where
  pure := P.pure
  bind := P.bind

end P

/-- `return RRR_MQTT_SOFT_ERROR` -/
def soft {α : Type} : P α := fun _ _ => .soft
/-- `return RRR_MQTT_INCOMPLETE` -/
def incomplete {α : Type} : P α := fun _ _ => .incomplete
/-- `RRR_BUG(...)` -/
def bug {α : Type} : P α := fun _ _ => .bug

/-- Macro-level checks that end in `return RRR_MQTT_SOFT_ERROR` unless `c` holds. -/
def require (c : Bool) : P Unit := if c then P.pure () else soft

/-- The value of `parse_state->end`. -/
def getPos : P Nat := fun _ pos => .ok (pos, pos)

/-- `session->target_size`. -/
def getTarget : P Nat := fun e pos => .ok (e.target, pos)

/-- Advance without any check (`end = start + bytes_parsed`). -/
def skip (n : Nat) : P Unit := fun _ pos => .ok ((), pos + n)

/-- `mqtt_parse.c:117-124 PARSE_PREPARE_RAW`: advance by `n`, returning incomplete when
the new end is beyond the received data; the value is the old position (`start`). -/
def prepare (n : Nat) : P Nat := fun e pos =>
  if pos + n > e.buf.length then .incomplete else .ok (pos, pos + n)

/-- `*((uint8_t*) p)` -/
def rd (i : Nat) : P UInt8 := fun e pos =>
  match e.buf[i]? with
  | some b => .ok (b, pos)
  | none => .oob

/-- `memcpy(target, start, n)` -/
def copy (start n : Nat) : P Bytes := fun e pos =>
  if start + n ≤ e.buf.length then .ok ((e.buf.drop start).take n, pos) else .oob

/-- `mqtt_parse.c:61-62 PARSE_CHECK_TARGET_END`: no more bytes in the packet. -/
def targetEnd : P Bool := fun e pos => .ok (decide (pos + 1 > e.target), pos)

/-- `mqtt_parse.c:126-128 PARSE_U8_RAW` -/
def u8 : P UInt8 := do
  let s ← prepare 1
  rd s

/-- `mqtt_parse.c:130-132 PARSE_U16_RAW`, `rrr_be16toh`. -/
def u16 : P Nat := do
  let s ← prepare 2
  let a ← rd s
  let b ← rd (s + 1)
  pure (a.toNat * 256 + b.toNat)

/-- `mqtt_parse.c:105-114 PARSE_PACKET_ID` -/
def packetId : P Nat := do
  let id ← u16
  require (id ≠ 0)
  pure id

/-- `mqtt_parse.c:387-423 __rrr_mqtt_parse_variable_int`. First argument: how many bytes
are still allowed (`4 - pos`). The `uint32_t` sum is at most 2^28 - 1. -/
def varintLoop : Nat → Nat → Nat → P Nat
  | 0, _, _ => soft                                   -- L399-403
  | n + 1, result, exponent => do
    let s ← prepare 1                                 -- L405-406
    let current ← rd s                                -- L408
    let result := result + (current.toNat &&& 0x7f) * exponent     -- L410, L413
    if current.toNat &&& 0x80 ≠ 0 then varintLoop n result (exponent * 128)  -- L411, L415
    else pure result

def varint : P Nat := varintLoop 4 0 1

/-- Check of `n` bytes followed by a `memcpy` of them. -/
def takeN (n : Nat) : P Bytes := do
  let s ← prepare n
  copy s n

/-- `mqtt_parse.c:425-463 __rrr_mqtt_parse_blob`, `:465-498 __rrr_mqtt_parse_blob_nullsafe`. -/
def blob : P Bytes := do
  let len ← u16                                       -- L436-440
  let pos ← getPos
  let target ← getTarget
  require (pos + len ≤ target)                        -- L452-455
  takeN len                                           -- L449-450, L456-458

end Verif.Mqtt
