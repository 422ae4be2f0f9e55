import Verif.Common
/-!
# Model of `src/lib/hdlc/hdlc.c`

`parse_pos` is the list of bytes not yet consumed of the current buffer.
-/
namespace Verif.Hdlc
open Verif

/-- `hdlc.c:29-31`. -/
def bFrame : UInt8 := 0x7e
def bEscape : UInt8 := 0x7d
def bXor : UInt8 := 0x20

/-- `hdlc.c:33 MUST_ESCAPE`. -/
def mustEscape (c : UInt8) : Bool := c = bFrame ∨ c = bEscape

/-- `hdlc.h:35 RRR_HDLC_MAX`. -/
@[irreducible] def hdlcMax : Nat := 4096

/-- `hdlc.h:37-42 enum rrr_hdlc_parse_flag`. -/
inductive Flag where
  | idle | frame | escape | done
deriving DecidableEq, Repr

/-- `hdlc.h:44-49 struct rrr_hdlc_parse_state`; `result` holds the first
`result_wpos` bytes. -/
structure State where
  flag : Flag
  result : Bytes
deriving DecidableEq, Repr

/-- Return values `OK`, `INCOMPLETE`, `SOFT_ERROR`. -/
inductive Res where
  | ok | incomplete | softError
deriving DecidableEq, Repr

/-- `hdlc.c:35-42 rrr_hdlc_parse_state_init`. -/
def init : State := ⟨.idle, []⟩

/-- `hdlc.c:44-52 __rrr_hdlc_parse_frame_done_verify_size`. -/
def verifySize (s : State) : Res := if s.result.length = 0 then .softError else .ok

/-- `hdlc.c:54-59 PUSH`: fails when one byte of the buffer is left. The byte is
only consumed when it succeeds. -/
def full (s : State) : Bool := s.result.length = hdlcMax - 1

/-- `hdlc.c:63-101 rrr_hdlc_parse_frame`: result, new state and the bytes left in the buffer. -/
def parseFrame : State → Bytes → Res × State × Bytes
  | s, [] => (.incomplete, s, [])
  | s, c :: rest =>
    match s.flag with
    | .idle => if c = bFrame then parseFrame { s with flag := .frame } rest else parseFrame s rest
    | .frame =>
      if c = bEscape then parseFrame { s with flag := .escape } rest
      else if c = bFrame then
        if s.result.length = 0 then parseFrame s rest
        else (verifySize s, { s with flag := .done }, rest)
      else if full s then (.softError, s, c :: rest)
      else parseFrame { s with result := s.result ++ [c] } rest
    | .escape =>
      if full s then (.softError, s, c :: rest)
      else parseFrame ⟨.frame, s.result ++ [c ^^^ bXor]⟩ rest
    | .done => (verifySize s, s, c :: rest)

/-- `hdlc.c:112-116`: the computed length. -/
def exportLengthRaw (data : Bytes) : Nat :=
  data.foldl (fun n c => n + if mustEscape c then 2 else 1) 0 + 2

/-- `hdlc.c:103-126 rrr_hdlc_get_export_length`; `none` is the error return. -/
def exportLength (data : Bytes) : Option Nat :=
  if exportLengthRaw data > hdlcMax then none else some (exportLengthRaw data)

/-- `hdlc.c:139-147`: the escaped payload. -/
def escapeAll : Bytes → Bytes
  | [] => []
  | c :: rest => if mustEscape c then bEscape :: (c ^^^ bXor) :: escapeAll rest else c :: escapeAll rest

/-- `hdlc.c:129-152 rrr_hdlc_export_frame`: the bytes written. -/
def exportFrame (data : Bytes) : Bytes := bFrame :: (escapeAll data ++ [bFrame])

/-- A caller which hands over one buffer after another with the same state, until
the result is not "incomplete" (`hdlc.h`: the state survives between calls);
returns the unread bytes of the current buffer and the buffers after it. -/
def feed : State → List Bytes → Res × State × Bytes
  | s, [] => (.incomplete, s, [])
  | s, chunk :: chunks =>
    match parseFrame s chunk with
    | (.incomplete, s', _) => feed s' chunks
    | (r, s', rest) => (r, s', rest ++ chunks.flatten)

/-- A caller which parses frame after frame from one buffer, with a fresh state for
each (as `type.c:669-710 __rrr_type_import_hdlc` does for successive values); `n`
bounds the number of frames. Returns the payloads. -/
def parseMany : Nat → Bytes → List Bytes
  | 0, _ => []
  | n + 1, buf =>
    match parseFrame init buf with
    | (.ok, s, rest) => s.result :: parseMany n rest
    | _ => []

end Verif.Hdlc
