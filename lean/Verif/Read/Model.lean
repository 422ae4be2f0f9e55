import Verif.Common
/-!
# Model of the message reading framework `src/lib/read.c`

`__rrr_read_message_using_callbacks` (L173-552) for one read session with complete method
`TARGET_LENGTH`. The callbacks are parameters acting on a state `σ`.

Not modelled: complete method `ZERO_BYTES_READ`, end of file, rate limiting (a rate limited
call does nothing, like a read of zero bytes), sessions distinguished by source address,
allocation failure, sizes not representable in 64 bits (`RRR_SIZE_CHECK` is empty, rrr_types.h:116).
-/
namespace Verif.Read
open Verif

/-- What `function_get_target_size` does. -/
inductive Tgt where
  /-- `RRR_READ_INCOMPLETE` -/
  | incomplete
  /-- OK with `target_size` set -/
  | size (n : Nat)
  /-- `rx_buf_skip` set -/
  | skip (k : Nat)
  /-- any other return value -/
  | error
deriving DecidableEq, Repr

/-- The callbacks and parameters of a user of the framework. `complete` gets the message and
also the contents the buffer had when the target size was found, because users may look at it
then; `none` is a non-zero return. -/
structure User (σ : Type) where
  tgt : σ → Bytes → Tgt
  complete : σ → Bytes → Bytes → Option σ
  /-- `read_step_max_size` -/
  step : Nat
  /-- `read_max_size`, 0 for none -/
  max : Nat

/-- `read.h:41-98 struct rrr_read_session`: `buf` is `rx_buf_ptr` with its first `rx_buf_wpos`
bytes, `size` is `rx_buf_size`, `cap` the bytes really allocated, `seen` the contents of the
buffer when the target size was found. -/
structure Sess where
  buf : Option Bytes
  size : Nat
  cap : Nat
  target : Nat
  seen : Bytes
  overshoot : Option Bytes
deriving DecidableEq, Repr

/-- A new session is zeroed memory (`read.c:105-125`). -/
def Sess.init : Sess := ⟨none, 0, 0, 0, [], none⟩

/-- Return values; `closed` stands for the errors after which the session is removed,
`bug` for `RRR_BUG` and failed assertions, `oob` for a write outside of the buffer. -/
inductive Ret where
  | ok | incomplete | closed | bug | oob
deriving DecidableEq, Repr

/-- L42-43. -/
@[irreducible] def bigThreshold : Nat := 2 * 1024 * 1024
@[irreducible] def bigStep : Nat := 1024 * 1024

/-- L388-396: the new buffer size. -/
def newSize (step : Nat) (s : Sess) (bytes : Nat) : Nat :=
  let exp := if s.target > bigThreshold ∧ step < bigStep then bigStep else step
  let exp := if s.size + exp > s.target then 0 else exp
  s.size + (if bytes > exp then bytes else exp)

/-- L349-381: make sure that there is a buffer. -/
def prepare (step : Nat) (s : Sess) (bytes : Nat) : Sess :=
  match s.buf with
  | some _ => s
  | none =>
    match s.overshoot with
    | some o => { s with buf := some o, size := o.length, cap := o.length, overshoot := none, target := 0 }
    | none => { s with buf := some [], size := step, cap := (if bytes > step then bytes else step), target := 0 }

/-- L385-417: append data; `none` is a write outside of the buffer. -/
def append (step : Nat) (s : Sess) (b : Bytes) (data : Bytes) : Option Sess :=
  if data = [] then some s
  else
    let s := if data.length + b.length > s.size then
        { s with size := newSize step s data.length, cap := newSize step s data.length } else s
    if b.length + data.length > s.cap then none else some { s with buf := some (b ++ data) }

/-- L493-541: move excess data to the overshoot buffer, complete the message when all of it is there. -/
def finish {σ : Type} (u : User σ) (st : σ) (s : Sess) (b : Bytes) : Ret × Sess × σ :=
  if b.length > s.target ∧ s.overshoot.isSome then (.bug, s, st)                       -- L497
  else
    let o := if b.length > s.target then some (b.drop s.target) else s.overshoot        -- L501-512
    let b := if b.length > s.target then b.take s.target else b
    if b.length = s.target ∧ s.target > 0 then                                          -- L515
      match u.complete st s.seen b with
      | none => (.closed, { s with buf := some b, overshoot := o }, st)
      | some st' => (.ok, { s with buf := none, target := 0, overshoot := o }, st')     -- L525-528
    else (.incomplete, { s with buf := some b, overshoot := o }, st)                    -- L531-536

/-- L346-541: `process_overshoot` to the end; `data` is what was read (empty when overshoot is processed). -/
def process {σ : Type} (u : User σ) (st : σ) (s : Sess) (data : Bytes) : Ret × Sess × σ :=
  let s := prepare u.step s data.length
  match append u.step s (s.buf.getD []) data with
  | none => (.oob, s, st)
  | some s =>
    let b := s.buf.getD []
    if u.max > 0 ∧ b.length > u.max then (.closed, s, st)                               -- L420
    else if s.target = 0 then                                                           -- L432
      match u.tgt st b with
      | .error => (.closed, s, st)                                                      -- L444-449
      | .incomplete => (.incomplete, s, st)                                             -- L482
      | .skip k =>                                                                      -- L452-480
        if k = 0 then (.bug, s, st)
        else if k > b.length then (.bug, s, st)
        else if b.length - k > s.size then (.oob, s, st)                                -- L466-470: new buffer of `rx_buf_size`
        else (.incomplete, { s with buf := none, overshoot := if b.length - k > 0 then some (b.drop k) else s.overshoot }, st)
      | .size n =>
        if n = 0 then (.bug, s, st)                                                     -- L486
        else finish u st { s with target := n, seen := b } b
    else finish u st s b

/-- L173-345, one call: when the session has overshoot it is processed without reading (`false`:
the chunk offered by the socket is not taken), otherwise up to `step` bytes are read. Zero bytes give
INCOMPLETE (L336-338). -/
def call {σ : Type} (u : User σ) (st : σ) (s : Sess) (chunk : Bytes) : Ret × Sess × σ × Bool :=
  if s.overshoot.isSome then
    let (r, s', st') := process u st s []
    (r, s', st', false)
  else if chunk = [] then (.incomplete, s, st, true)
  else
    let (r, s', st') := process u st s chunk
    (r, s', st', true)

/-- Where a connection is after some calls: still open with session, user state and the chunks
which the socket will give, or closed, or something bad happened. -/
inductive Conn (σ : Type) where
  | open (s : Sess) (st : σ) (chunks : List Bytes)
  | closed (st : σ)
  | bug
  | oob
deriving DecidableEq, Repr

/-- One call on a connection, the socket giving the next chunk if it is read. -/
def next {σ : Type} (u : User σ) : Conn σ → Conn σ
  | .open s st chunks =>
    match call u st s (chunks.headD []) with
    | (.ok, s', st', taken) => .open s' st' (if taken then chunks.tail else chunks)
    | (.incomplete, s', st', taken) => .open s' st' (if taken then chunks.tail else chunks)
    | (.closed, _, st', _) => .closed st'
    | (.bug, _, _, _) => .bug
    | (.oob, _, _, _) => .oob
  | c => c

/-- `n` calls. -/
def calls {σ : Type} (u : User σ) : Nat → Conn σ → Conn σ
  | 0, c => c
  | n + 1, c => calls u n (next u c)

end Verif.Read
