import Verif.Endian
/-!
# Websocket frames and messages, as in RFC 6455

Independent of the code.
-/
namespace Verif.Websocket.Spec
open Verif Endian

/-- How the length of the payload is written: 7 bits, 16 bits or 64 bits. -/
inductive Form where
  | short | two | eight
deriving DecidableEq, Repr

/-- A frame. The payload is given in clear text, also when there is a masking key. -/
structure Frame where
  fin : Bool
  opcode : UInt8
  key : Option UInt32
  form : Form
  payload : Bytes
deriving DecidableEq, Repr

/-- The numbers in a frame are within their ranges. (Frames of 2⁶³ bytes and more are
refused.) -/
def Frame.Fine (f : Frame) : Prop :=
  f.opcode < 16 ∧
  match f.form with
  | .short => f.payload.length < 126
  | .two => f.payload.length < 2 ^ 16
  | .eight => f.payload.length < 2 ^ 63 - 14

/-- Section 5.3: byte `i` of the payload is combined with byte `i` modulo 4 of the key. -/
def xorKey (k : List UInt8) : Nat → Bytes → Bytes
  | _, [] => []
  | i, c :: t => (c ^^^ k.getD (i % 4) 0) :: xorKey k (i + 1) t

/-- The masking key in a frame. -/
def keyBytes : Option UInt32 → Bytes
  | some k => be32 k
  | none => []

/-- The payload in a frame. -/
def masked : Option UInt32 → Bytes → Bytes
  | some k, p => xorKey (be32 k) 0 p
  | none, p => p

/-- Section 5.2: the first byte is FIN, three reserved bits and the opcode, the second byte is MASK and the length
or how the length is written. -/
def Frame.header (f : Frame) : Bytes :=
  let b0 := (if f.fin then 128 else 0) + f.opcode.toNat
  let b1 := if f.key.isSome then 128 else 0
  UInt8.ofNat b0 :: ((match f.form with
    | .short => [UInt8.ofNat (b1 + f.payload.length)]
    | .two => UInt8.ofNat (b1 + 126) :: be16 (UInt16.ofNat f.payload.length)
    | .eight => UInt8.ofNat (b1 + 127) :: be64 (UInt64.ofNat f.payload.length)) ++
    keyBytes f.key)

/-- The bytes of a frame. -/
def Frame.wire (f : Frame) : Bytes :=
  f.header ++ masked f.key f.payload

/-- Control frames: close (8), ping (9) and pong (10). -/
def Frame.control (f : Frame) : Bool := f.opcode == 8 || f.opcode == 9 || f.opcode == 10

/-- What a peer sends: a ping or pong, or a message of text (1) or bytes (2) in one or more fragments. -/
inductive Item where
  | ping (f : Frame)
  | pong (f : Frame)
  | message (first : Frame) (more : List Frame)
deriving Repr

/-- The frames of what a peer sends. -/
def Item.frames : Item → List Frame
  | .ping f => [f]
  | .pong f => [f]
  | .message f more => f :: more

/-- Section 5.4 and 5.5: control frames have FIN and at most 125 bytes. The first fragment of a message has the opcode, the others have
opcode 0. Exactly the last one has FIN. (The program refuses frames with 2³² bytes or more of payload.) -/
def Item.Fine : Item → Prop
  | .ping f => f.Fine ∧ f.opcode = 9 ∧ f.fin = true ∧ f.payload.length ≤ 125
  | .pong f => f.Fine ∧ f.opcode = 10 ∧ f.fin = true ∧ f.payload.length ≤ 125
  | .message f more => (∀ g ∈ f :: more, g.Fine ∧ g.payload.length < 2 ^ 32) ∧ (f.opcode = 1 ∨ f.opcode = 2) ∧
      (∀ g ∈ more, g.opcode = 0) ∧ (f :: more).map (·.fin) = List.replicate more.length false ++ [true] ∧
      ((f :: more).map (·.payload)).flatten.length < 2 ^ 64

/-- The messages among these. -/
def messages (l : List Item) : List (UInt8 × Bytes) :=
  l.filterMap fun
    | .message f more => some (f.opcode, ((f :: more).map (·.payload)).flatten)
    | _ => none

/-- The number of pings among these. -/
def pings (l : List Item) : Nat := l.countP fun
  | .ping _ => true
  | _ => false

end Verif.Websocket.Spec
