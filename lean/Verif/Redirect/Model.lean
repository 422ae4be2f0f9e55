import Verif.Uri.Props

/-!
# Model of redirects and endpoints of HTTP

Code in `src/lib/http/http_client.c`, `http_redirect.c`, `http_transaction.c`, `http_util.c`, `src/modules/p_httpclient.c` and `src/rrr_http_client.c`.
Not modelled: allocation failure, texts with zero bytes in them, transport and parsing of responses, alternative services (modelled in `AltSvc`),
names of tags in messages (their values are given).
-/
namespace Verif.Redirect
open Verif Verif.HttpUtil Verif.Uri

/-- `http_transaction.c:418-443 rrr_http_transaction_endpoint_path_get`: everything after the last slash is removed. -/
def directory (e : Bytes) : Bytes := (e.reverse.dropWhile (· != 47)).reverse

/-- `http_util.c:909-955 rrr_http_util_uri_endpoint_prepend`, for an endpoint which is set. With an empty prefix, the byte before the allocated memory
is read, which is a fault. -/
def prepend (pre e : Bytes) : Out Bytes :=
  match pre.getLast? with
  | none => .fault
  | some c =>
    if c = 47 then (if e.head? = some 47 then .ok (pre.dropLast ++ e) else .ok (pre ++ e))
    else if e.head? ≠ some 47 then .ok (pre ++ [47] ++ e) else .ok (pre ++ e)

/-- `http_util.c:1055-1083 __rrr_http_util_uri_endpoint_clean_callback`, the loop. -/
def clean : Bytes → Bytes
  | [] => []
  | c :: r => if c = 63 ∨ c = 35 then [] else c :: clean r

/-- `http_util.c:1454-1466`, the loops: what is before the question mark and what is after it. -/
def splitQuery : Bytes → Bytes × Bytes
  | [] => ([], [])
  | c :: r => if c = 63 then ([], r) else (c :: (splitQuery r).1, (splitQuery r).2)

/-- `http_util.c:1436-1485 __rrr_http_util_uri_endpoint_and_query_string_split_callback`: what the callback is called with. -/
def split (l : Bytes) : Out (Bytes × Bytes) :=
  match urlDecode (splitQuery l).1 with
  | .ok e => .ok (e, (splitQuery l).2)
  | .err => .err
  | .bug => .bug
  | .fault => .fault

/-- `enum rrr_http_transport`. -/
inductive Transport | any | http | https | quic
deriving DecidableEq, Repr

/-- `struct rrr_http_client_request_data`: where requests go. Port 0 is the port of the transport. -/
structure Dest where
  transport : Transport
  server : Bytes
  port : Nat
  endpoint : Option Bytes
deriving DecidableEq, Repr

/-- Where a request really goes. -/
structure Target where
  transport : Transport
  server : Bytes
  port : Nat
  endpoint : Bytes
deriving DecidableEq, Repr

/-- Values from tags of the message. Ports are not 0 (`p_httpclient.c:1340`). -/
structure Over where
  server : Option Bytes := none
  port : Option Nat := none
  endpoint : Option Bytes := none
deriving DecidableEq, Repr

/-- `http_client.c:1707-1756` in `rrr_http_client_request_send`, `http_client.c:945-1001`, `http_transaction.c:227-246 rrr_http_transaction_endpoint_set`:
where a request goes. -/
def target (o : Over) (d : Dest) : Target :=
  let port := if d.port = 0 then (if d.transport = .https ∨ d.transport = .quic then 443 else 80) else d.port
  let port := o.port.getD port
  let endpoint := if o.endpoint.getD [] = [] then d.endpoint.getD [47] else o.endpoint.getD []
  { transport := if d.transport = .any ∧ port = 443 then .https else d.transport
    server := o.server.getD d.server
    port := port
    endpoint := if endpoint = [] then [47] else endpoint }

/-- `http_client.c:357-388 rrr_http_client_request_data_reset_from_uri`. -/
def fromUri (d : Dest) (u : Uri) : Dest :=
  { transport := if u.protocol = none then d.transport else if tls u then .https else .http
    server := u.host.getD d.server
    port := if u.port > 0 then u.port else d.port
    endpoint := some u.endpoint }

/-- `http_client.c:390-405 rrr_http_client_request_data_reset_from_raw`, `p_httpclient.c:1769` where the port is 0 at first. -/
def fromRaw (d : Dest) (o : Over) : Dest := { d with server := o.server.getD d.server, port := o.port.getD 0 }

/-- `http_client.c:737-751` in `__rrr_http_client_redirect_callback`: the location of a response to a request for the endpoint `current`. -/
def locate (next : UInt8) (current loc : Bytes) : Out Uri :=
  match parse next loc with
  | .err => .err
  | .bug => .bug
  | .fault => .fault
  | .ok u =>
    if u.endpoint.head? ≠ some 47 then match prepend (directory current) u.endpoint with
      | .ok e => .ok { u with endpoint := e }
      | .err => .err
      | .bug => .bug
      | .fault => .fault
    else .ok u

/-- `http_client.c:577-596`, `http_client.c:719-797`: a response with a location. Nothing in the result means that there are too many redirects, otherwise
it is where to go and how many redirects remain. -/
def receive (next : UInt8) (current : Bytes) (remaining : Nat) (loc : Bytes) : Out (Option (Uri × Nat)) :=
  if remaining = 0 then .err                                              -- L578
  else match locate next current loc with
    | .err => .err
    | .bug => .bug
    | .fault => .fault
    | .ok u => if remaining - 1 = 0 then .ok none else .ok (some (u, remaining - 1))     -- L755

/-- Configuration of the module: `p_httpclient.c:2075` the maximum number of redirects. -/
structure Conf where
  dest : Dest
  max : Nat
deriving DecidableEq, Repr

/-- `p_httpclient.c:93-102 struct httpclient_request_data`, kept with the message. -/
structure Job where
  dest : Dest
  isRedirect : Bool
  remaining : Nat
deriving DecidableEq, Repr

/-- `p_httpclient.c:319-350 httpclient_request_data_new`. -/
def first (c : Conf) : Job := ⟨c.dest, false, c.max⟩

/-- `p_httpclient.c:2322-2329, 1364-1374, 1491`: tags of the message are not used for the destination of redirects. -/
def jobTarget (o : Over) (j : Job) : Target := target (if j.isRedirect then {} else o) j.dest

/-- `p_httpclient.c:1758-1836 httpclient_redirect_callback`, for a message which was sent as `j`. -/
def step (c : Conf) (o : Over) (j : Job) (next : UInt8) (loc : Bytes) : Out (Option Job) :=
  match receive next (jobTarget o j).endpoint j.remaining loc with
  | .err => .err
  | .bug => .bug
  | .fault => .fault
  | .ok none => .ok none
  | .ok (some (u, r)) => .ok (some { dest := fromUri (fromRaw c.dest o) u, isRedirect := true, remaining := if j.isRedirect then r else c.max })

/-- How many redirects are followed when the server answers with these locations. -/
def followed (c : Conf) (o : Over) : Job → List (UInt8 × Bytes) → Nat
  | _, [] => 0
  | j, (n, l) :: r => match step c o j n l with
    | .ok (some j') => 1 + followed c o j' r
    | _ => 0

/-- `rrr_http_client.c:496-526 __rrr_http_client_redirect_callback` of the program `rrr_http_client`: destination and remaining redirects after a response. -/
def toolStep (d : Dest) (remaining : Nat) (next : UInt8) (loc : Bytes) : Out (Option (Dest × Nat)) :=
  match receive next (target {} d).endpoint remaining loc with
  | .err => .err
  | .bug => .bug
  | .fault => .fault
  | .ok none => .ok none
  | .ok (some (u, r)) => .ok (some (fromUri d u, r))

/-- How many redirects are followed by the program `rrr_http_client`. -/
def toolFollowed : Dest → Nat → List (UInt8 × Bytes) → Nat
  | _, _, [] => 0
  | d, n, (x, l) :: r => match toolStep d n x l with
    | .ok (some (d', n')) => 1 + toolFollowed d' n' r
    | _ => 0

/-- `http_redirect.h struct rrr_http_redirect_collection_entry`: a redirect which was not followed yet, and the age of the transaction in microseconds. -/
structure Pending where
  id : Nat
  age : Nat
deriving DecidableEq, Repr

/-- Return values of callbacks. -/
inductive Res | ok | busy | soft | hard
deriving DecidableEq, Repr

/-- `http_redirect.c:119-151 rrr_http_redirect_collection_iterate`: calls which are made, what remains and the return value. -/
def iterate (callback : Nat → Res) : List Pending → List Nat × List Pending × Res
  | [] => ([], [], .ok)
  | p :: r =>
    if p.age > 5000 * 1000 then iterate callback r
    else match callback p.id with
      | .busy => (p.id :: (iterate callback r).1, p :: (iterate callback r).2.1, (iterate callback r).2.2)
      | .ok => (p.id :: (iterate callback r).1, (iterate callback r).2.1, (iterate callback r).2.2)
      | .soft => ([p.id], r, .soft)
      | .hard => ([p.id], r, .hard)

end Verif.Redirect
