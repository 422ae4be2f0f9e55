import Verif.Uri.Model
import Verif.Endian

/-!
# Model of `src/lib/socket/rrr_socket_graylist.c`, `net_transport.c:1918-1992`, `http_service.c` and the use of them in `http_client.c`

Not modelled: allocation failure, connections by themselves, several connections to one server, the expiration time of services (`ma`, which is read but not used for selection).
Times are in microseconds and do not wrap around.
-/
namespace Verif.AltSvc
open Verif Verif.Uri Verif.HttpUtil Verif.Endian

/-- `struct rrr_socket_graylist_entry`, `rrr_socket_graylist.c:38-44`. -/
structure Entry where
  addr : Bytes
  expire : Nat
  flags : UInt32
deriving DecidableEq, Repr

/-- `rrr_socket_graylist.c:57-62, 76-81`: entries which have expired are removed when the list is looked at. -/
def fresh (now : Nat) (l : List Entry) : List Entry := l.filter fun e => decide ¬ (now > e.expire)

/-- `rrr_socket_graylist.c:46-66 rrr_socket_graylist_get`: flags of all entries of an address. -/
def flagsOf (now : Nat) (addr : Bytes) (l : List Entry) : UInt32 :=
  (fresh now l).foldl (fun f e => if e.addr = addr then f ||| e.flags else f) 0

/-- `rrr_socket_graylist.c:68-90 rrr_socket_graylist_count`. -/
def count (now : Nat) (addr : Bytes) (l : List Entry) : Nat :=
  (fresh now l).foldl (fun n e => if e.addr = addr then n + 1 else n) 0

/-- `rrr_socket_graylist.c:100-136 __rrr_socket_graylist_push`, for an address which fits. -/
def push (now : Nat) (addr : Bytes) (period : Nat) (flags : UInt32) (l : List Entry) : List Entry :=
  if period = 0 then l else l ++ [⟨addr, now + period, flags⟩]

/-- `rrr_socket_graylist.c:148-164 rrr_socket_graylist_flags_clear`. -/
def flagsClear (addr : Bytes) (flags : UInt32) (l : List Entry) : List Entry :=
  (l.map fun e => if e.addr = addr then { e with flags := e.flags &&& ~~~flags } else e).filter fun e => e.flags != 0

/-- `net_transport.c:1918-1933 __rrr_net_transport_graylist_addr_make`: the address of a server and a number. The assertion fails if it does not fit into `struct sockaddr_storage`, which has 128 bytes. The number is in memory in the order of the host,
which does not matter here. -/
def addrMake (server : Bytes) (number : UInt64) : Option Bytes :=
  if server.length + 8 ≤ 128 then some (be64 number ++ server) else none

/-- `http_client.c:449-457 __rrr_http_client_net_transport_match_number_make`, index 0. The parts do not overlap. -/
def matchNumber (port : UInt16) (app : Nat) : UInt64 := UInt64.ofNat (app * 2 ^ 32 + port.toNat * 2 ^ 16)

def short : UInt32 := 1
def long : UInt32 := 2
def shortPeriod : Nat := 200000
def longPeriod : Nat := 1000000

inductive Attempt where
  | connect
  | busy
  /-- An assertion fails. -/
  | abort
deriving DecidableEq, Repr

/-- `http_client.c:1145-1196`: what is done when there is no connection to a server. -/
def attempt (now : Nat) (server : Bytes) (number : UInt64) (l : List Entry) : List Entry × Attempt :=
  match addrMake server number with
  | none => (l, .abort)
  | some a =>
    let l := fresh now l
    if count now a l > 0 then (l, .busy)
    else (push now a shortPeriod short (push now a longPeriod long l), .connect)

/-- `struct rrr_http_service`. Transports are 1 for HTTP, 2 for HTTPS and 3 for QUIC, applications are 1 to 3 for versions of HTTP (`http_common.h:79-84, 113-118`). -/
structure Service where
  matchString : Bytes
  matchNumber : UInt64
  host : Option Bytes
  port : UInt16
  transport : Nat
  app : Nat
deriving DecidableEq, Repr

/-- `http_service.c:37-106 rrr_http_service_collection_push_unique`. At L53 the new name is compared to itself. -/
def pushUnique (new : Service) : List Service → List Service
  | [] => [new]
  | s :: r =>
    if new.matchNumber ≠ s.matchNumber then s :: pushUnique new r
    else if new.matchString ≠ new.matchString then s :: pushUnique new r
    else if new.transport ≠ s.transport then s :: pushUnique new r
    else if new.app ≠ s.app then s :: pushUnique new r
    else new :: r

/-- `http_transaction.c:292-357`: a protocol of an alternative service. -/
def protocolOf (name : Bytes) : Option (Nat × Nat) :=
  if name = [104, 50] then some (2, 2)
  else if name = [104, 51] ∨ name = [104, 51, 45, 50, 57] ∨ name = [104, 51, 45, 51, 50] then some (3, 3)
  else none

/-- `http_transaction.c:323-357`: an alternative service which a server tells about. None is an error, others than the known ones are ignored. -/
def learn (next : UInt8) (matchString : Bytes) (number : UInt64) (name value : Bytes) (l : List Service) : Option (List Service) :=
  match protocolOf name with
  | none => some l
  | some (t, a) => match hostParse next value with
    | .ok u => some (pushUnique ⟨matchString, number, u.host, UInt16.ofNat u.port, t, a⟩ l)
    | _ => none

/-- What is to be used for a request. -/
structure Choice where
  transport : Nat
  app : Nat
  server : Bytes
  port : UInt16
deriving DecidableEq, Repr

structure Client where
  /-- The transports which the client has. -/
  has : Nat → Bool
  /-- The graylist of each transport. -/
  gray : Nat → List Entry

/-- The server of a service, `http_client.c:1265`. -/
def serverOf (s : Service) (original : Choice) : Bytes := match s.host with
  | some h => if h = [] then original.server else h
  | none => original.server

/-- `http_client.c:1264-1325`: one turn of the loop over services. None is a failed assertion. `force` is 0 if any transport may be used. -/
def consider (now : Nat) (c : Client) (force : Nat) (original : Choice) (current : Choice) (s : Service) : Option Choice :=
  if c.has s.transport = false then some current
  else if force ≠ 0 ∧ force ≠ s.transport then some current
  else if s.transport < current.transport ∨ s.app < current.app then some current
  else if matchNumber original.port original.app ≠ s.matchNumber then some current
  else if original.server ≠ s.matchString then some current
  else match addrMake (serverOf s original) (matchNumber s.port s.app) with
    | none => none
    | some a =>
      let f := flagsOf now a (c.gray s.transport)
      if f &&& long ≠ 0 ∧ ¬ f &&& short ≠ 0 then some current
      else some ⟨s.transport, s.app, serverOf s original, s.port⟩

/-- `http_client.c:1244-1340 __rrr_http_client_alt_svc_select`. -/
def selectFrom (now : Nat) (c : Client) (force : Nat) (original : Choice) : Choice → List Service → Option Choice
  | current, [] => some current
  | current, s :: r => match consider now c force original current s with
    | none => none
    | some x => selectFrom now c force original x r

def select (now : Nat) (c : Client) (force : Nat) (original : Choice) (l : List Service) : Option Choice := selectFrom now c force original original l

end Verif.AltSvc
