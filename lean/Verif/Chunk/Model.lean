import Verif.Common
/-!
# Model of sending in chunks

`src/lib/socket/rrr_socket_send_chunk.c`, the functions of `src/lib/socket/rrr_socket.c` which write, and the write events of `src/lib/socket/rrr_socket_client.c` and `src/lib/net_transport/net_transport.c`.

Not modelled: addresses of datagrams, allocation failures, log messages, options of sockets (they can be read), TLS (which has its own function to write). The bytes which the kernel takes are a list, and each byte has the number of
the chunk it comes from.
-/
namespace Verif.Chunk

/-- The answer of `sendto`, `send` or `write`: a number of bytes is taken (no more than there are), `EAGAIN` or `EWOULDBLOCK`, `EINTR`, the connection is broken (`EPIPE`, `ECONNREFUSED`, `ECONNRESET`), another error. -/
inductive Sys where
  | wrote (n : Nat) | again | intr | broken | other
deriving DecidableEq, Repr

/-- `rrr_socket_constants.h:27-33`. -/
inductive Ret where
  | ok | hard | soft | incomplete | eof
deriving DecidableEq, Repr

/-- `rrr_socket.c:1351-1464 rrr_socket_sendto_nonblock_with_options` and `rrr_socket.c:1503-1522 rrr_socket_sendto_nonblock_check_retry`: the return value, the number of bytes written and the answers which are left. The first
argument is the number of attempts; the end of the list of answers is `EAGAIN`. When nothing is left to write, errors are not seen (L1412). -/
def writeLoop : Nat → List Sys → Bytes → Nat → Ret × Nat × List Sys
  | 0, o, _, done => (.incomplete, done, o)
  | k + 1, o, b, done =>
    match o.headD .again with
    | .wrote n => if b.length ≤ n then (.ok, done + b.length, o.tail) else writeLoop k o.tail (b.drop n) (done + n)
    | .again => if b = [] then (.ok, done, o.tail) else writeLoop k o.tail b done
    | .intr => if b = [] then (.ok, done, o.tail) else writeLoop k o.tail b done
    | .broken => if b = [] then (.ok, done, o.tail) else (.soft, done, o.tail)
    | .other => if b = [] then (.ok, done, o.tail) else (.hard, done, o.tail)

/-- `max_retries` is 10 and is decremented before it is compared, L1378-1388. -/
def write (o : List Sys) (b : Bytes) : Ret × Nat × List Sys := writeLoop 9 o b 0

/-- `rrr_socket_send_chunk.c:34-43 struct rrr_socket_send_chunk`, and the number of the chunk. -/
structure Chunk where
  id : Nat
  data : Bytes
  pos : Nat
deriving DecidableEq, Repr

/-- The bytes in the kernel with the number of their chunk. -/
abbrev Wire := List (Nat × UInt8)

def put (id : Nat) (b : Bytes) : Wire := b.map fun x => (id, x)

/-- The bytes of a chunk which a write has taken. -/
def Chunk.taken (c : Chunk) (n : Nat) : Wire := put c.id ((c.data.drop c.pos).take n)

/-! ## Socket clients -/

/-- One list in `rrr_socket_send_chunk.c:305-349 __rrr_socket_send_chunk_collection_send`: the return value, the list, the bytes written, the chunks which the callback is told about, and the answers left. -/
def sendList (o : List Sys) : List Chunk → Ret × List Chunk × Wire × List Nat × List Sys
  | [] => (.ok, [], [], [], o)
  | c :: t =>
    match write o (c.data.drop c.pos) with
    | (.ok, n, o') =>
      let x := sendList o' t
      (x.1, x.2.1, c.taken n ++ x.2.2.1, c.id :: x.2.2.2.1, x.2.2.2.2)
    | (.incomplete, n, o') => (.incomplete, { c with pos := c.pos + n } :: t, c.taken n, [], o')
    | (r, n, o') => (r, c :: t, c.taken n, [], o')

/-- A connection: the lists of chunks, the bytes in the kernel, the chunks of which success was told, the number of chunks given, whether the write event is added, whether to close when everything has been sent, whether it is closed. -/
structure St where
  high : List Chunk := []
  normal : List Chunk := []
  wire : Wire := []
  told : List Nat := []
  next : Nat := 0
  armed : Bool := false
  finish : Bool := false
  closed : Bool := false
deriving DecidableEq, Repr

/-- `rrr_socket_send_chunk.c:305-349 __rrr_socket_send_chunk_collection_send`: the list with high priority first. -/
def sendAll (o : List Sys) (s : St) : Ret × St :=
  match sendList o s.high with
  | (.ok, l, w, t, o') =>
    let x := sendList o' s.normal
    (x.1, { s with high := l, normal := x.2.1, wire := s.wire ++ (w ++ x.2.2.1), told := s.told ++ (t ++ x.2.2.2.1) })
  | (r, l, w, t, _) => (r, { s with high := l, wire := s.wire ++ w, told := s.told ++ t })

/-- What can happen to a connection: data are given to be sent, it is to be closed when everything has been sent, the write event with the answers of the kernel. -/
inductive Op where
  | push (urgent : Bool) (data : Bytes)
  | finish
  | write (o : List Sys)
deriving DecidableEq, Repr

/-- `rrr_socket_send_chunk.c:99-142 __rrr_socket_send_chunk_collection_push`: the chunk becomes the last one of its list. -/
def pushChunk (urgent : Bool) (data : Bytes) (s : St) : St :=
  if urgent then { s with high := s.high ++ [⟨s.next, data, 0⟩] } else { s with normal := s.normal ++ [⟨s.next, data, 0⟩] }

/-- `rrr_socket_client.c:910-958 __rrr_socket_client_event_write`. -/
def clientWrite (o : List Sys) (s : St) : St :=
  match sendAll o s with
  | (r, s') =>
    if r ≠ .ok ∧ r ≠ .incomplete then { s' with closed := true }
    else if s'.high = [] ∧ s'.normal = [] then { s' with armed := false, closed := s'.finish }
    else s'

/-- An event of a socket client. The data get normal priority, `rrr_socket_client.c:1421-1563`; `rrr_socket_client.c:356-366` and `rrr_socket_client.c:1565-1583` add the event. A closed connection does not exist any more. -/
def clientStep (s : St) (op : Op) : St :=
  match op with
  | .push _ data => if s.closed then { s with next := s.next + 1 } else { pushChunk false data s with next := s.next + 1, armed := true }
  | .finish => if s.closed then s else { s with finish := true, armed := s.armed || !s.finish }
  | .write o => if s.closed || !s.armed then s else clientWrite o s

def clientRun (ops : List Op) : St := ops.foldl clientStep {}

/-! ## Net transport -/

/-- One list in `rrr_socket_send_chunk.c:375-416 rrr_socket_send_chunk_collection_send_with_callback`, with the callbacks `net_transport.c:869-890`, `net_transport.c:416-449` and `net_transport_plain.c:258-274`. The arguments are `max`,
the last return value and the answers. `none`: `RRR_BUG` at L402. -/
def passList (max : Int) (r : Ret) (o : List Sys) : List Chunk → Option (Int × Ret × List Chunk × Wire × List Sys)
  | [] => some (max, r, [], [], o)
  | c :: t =>
    match write o (c.data.drop c.pos) with
    | (r', n, o') =>
      let r'' := if r' = .incomplete then .ok else r'              -- L396
      if c.pos + n > c.data.length then none
      else
        let c' : List Chunk := if c.pos + n = c.data.length then [] else [{ c with pos := c.pos + n }]
        if r'' ≠ .ok ∨ n = 0 then some (max, r'', c' ++ t, c.taken n, o')
        else if max = 0 then some (max - 1, r'', c' ++ t, c.taken n, o')
        else
          match passList (max - 1) r'' o' t with
          | none => none
          | some (m, q, l, w, o'') => some (m, q, c' ++ l, c.taken n ++ w, o'')

/-- `rrr_socket_send_chunk.c:375-416 rrr_socket_send_chunk_collection_send_with_callback`. `RRR_LL_ITERATE_LAST` ends the loop over one list, the other list is always done. -/
def passAll (o : List Sys) (s : St) : Option (Ret × St) :=
  match passList 10 .ok o s.high with
  | none => none
  | some (m, r, l, w, o') =>
    match passList m r o' s.normal with
    | none => none
    | some (_, r', l', w', _) => some (r', { s with high := l, normal := l', wire := s.wire ++ (w ++ w') })

/-- `net_transport.c:891-925 __rrr_net_transport_event_write` after the handshake, with `net_transport.c:574-582 CHECK_READ_WRITE_RETURN`. The loop is left out when there are no chunks, and does nothing then. -/
def transportWrite (o : List Sys) (s : St) : Option St :=
  match passAll o s with
  | none => none
  | some (r, s') =>
    let idle := decide (s'.high = [] ∧ s'.normal = [])
    let r' := if idle && s'.finish && decide (r = .ok) then .eof else r
    some { s' with armed := s'.armed && !idle, closed := decide (r' ≠ .ok ∧ r' ≠ .incomplete) }

/-- An event of a handle of net transport: `net_transport_ctx.c:203-229 __rrr_net_transport_ctx_send_push`, `net_transport_ctx.c:231-242 rrr_net_transport_ctx_close_when_send_complete_set`. -/
def transportStep (s : St) (op : Op) : Option St :=
  match op with
  | .push urgent data => some (if s.closed then { s with next := s.next + 1 } else { pushChunk urgent data s with next := s.next + 1, armed := true })
  | .finish => some (if s.closed then s else { s with finish := true, armed := s.armed || !s.finish })
  | .write o => if s.closed || !s.armed then some s else transportWrite o s

/-- All events; `none`: the process aborts. -/
def transportRun (ops : List Op) : Option St := ops.foldlM transportStep {}

end Verif.Chunk
