import Verif.HttpUtil.Model

/-!
# Model of URIs in `src/lib/http/http_util.c:797-1400`

Not modelled: allocation failure, texts of 4 GiB and more, messages.
-/
namespace Verif.Uri
open Verif Verif.HttpUtil

/-- `struct rrr_http_uri`. An empty endpoint is a string, other parts may be missing. Port 0 is no port. -/
structure Uri where
  protocol : Option Bytes := none
  host : Option Bytes := none
  port : Nat := 0
  endpoint : Bytes := []
deriving DecidableEq, Repr

/-- `http_util.c:851-871 __rrr_http_util_uri_validate_characters_foreach_byte_callback`. -/
def validChar (c : UInt8) : Bool :=
  (65 ≤ c && c ≤ 90) || (97 ≤ c && c ≤ 122) || (48 ≤ c && c ≤ 57) || (33 ≤ c && c ≤ 47 && c != 34) || [95, 126, 58, 63, 91, 93, 64, 59, 61].contains c

/-- `http_util.c:978-1008`, the loop over the name of a host: the name and what follows it. None is an error. -/
def scanHost (allowSlash : Bool) : Nat → Bytes → Option (Bytes × Bytes)
  | _, [] => some ([], [])
  | n, c :: r =>
    if isAlnum c || c == 46 then (scanHost allowSlash (n + 1) r).map fun x => (c :: x.1, x.2)
    else if c == 45 then if n = 0 then none else (scanHost allowSlash (n + 1) r).map fun x => (c :: x.1, x.2)
    else if (allowSlash && c == 47) || c == 58 then some ([], c :: r)
    else none

/-- `http_util.c:957-1043 __rrr_http_util_uri_parse_hostname_and_port`: host, port and what follows. At L1023 the byte after the name is read, also if the text has ended there; `next` is what is in memory after
the text. If it is a colon, the number is sought after the end and `rrr_http_util_strtoull_raw` subtracts a pointer from NULL, which is a bug trap. -/
def hostPort (allowSlash forcePort : Bool) (next : UInt8) (l : Bytes) : Out (Option Bytes × Nat × Bytes) :=
  if l = [] then .err
  else match scanHost allowSlash 0 l with
    | none => .err
    | some (h, rest) =>
      let host := if h = [] then none else some h
      match rest with
      | [] => if next = 58 then .bug else if forcePort then .err else .ok (host, 0, [])
      | c :: r =>
        if c = 58 then match strtoullRaw 10 r with
          | none => .err
          | some (v, n) => if v < 1 ∨ v > 65535 then .err else .ok (host, v, r.drop n)
        else if forcePort then .err else .ok (host, 0, c :: r)

def http : Bytes := [104, 116, 116, 112]
def https : Bytes := [104, 116, 116, 112, 115]
def ws : Bytes := [119, 115]
def wss : Bytes := [119, 115, 115]
def slashes : Bytes := [47, 47]
def separator : Bytes := [58, 47, 47]

/-- `strncasecmp(text, name, n) == 0` with `n` the length of the name. -/
def startsWith (text name : Bytes) : Bool := (text.take name.length).map toLower == name

/-- `http_util.c:1146-1166`: the protocol, by the beginning of the text. -/
def protocolOf (text : Bytes) : Option Bytes :=
  if startsWith text https then some https
  else if startsWith text http then some http
  else if startsWith text ws then some ws
  else if startsWith text wss then some wss
  else none

/-- `http_util.c:1146-1178`: the protocol before `://`, and what follows it. -/
def splitSeparator (l : Bytes) : Out (Option Bytes × Bytes) :=
  match strcasestr l separator with
  | .bug => .bug
  | .fault => .fault
  | .err => .ok (none, l)
  | .ok (p, n) => if p = 0 then .err else match protocolOf l with
    | none => .err
    | some name => .ok (some name, l.drop (p + n))

/-- `http_util.c:1139-1178`: the protocol, if there is one, and what follows it. -/
def splitProtocol (l : Bytes) : Out (Option Bytes × Bytes) :=
  match strcasestr l slashes with
  | .bug => .bug
  | .fault => .fault
  | .err => splitSeparator l
  | .ok (p, n) => if p = 0 then .ok (none, l.drop n) else splitSeparator l

/-- `http_util.c:1197-1216`: what may be in an endpoint. -/
def endpointChar (c : UInt8) : Bool := isAlnum c || isNonspecial c || isReserved c

/-- `http_util.c:1331-1338`: the port of a protocol. -/
def defaultPort (protocol : Bytes) : Nat :=
  if protocol = https ∨ protocol = wss then 443 else if protocol = http ∨ protocol = ws then 80 else 0

/-- `http_util.c:1123-1240, 1304-1343, 1376-1381 rrr_http_util_uri_parse`. -/
def parse (next : UInt8) (l : Bytes) : Out Uri :=
  if l.all validChar = false then .err
  else match splitProtocol l with
    | .bug => .bug
    | .fault => .fault
    | .err => .err
    | .ok (none, rest) => if rest.all endpointChar then .ok { endpoint := rest } else .err
    | .ok (some name, rest) => match hostPort true false next rest with
      | .bug => .bug
      | .fault => .fault
      | .err => .err
      | .ok (host, port, e) =>
        if e.all endpointChar then .ok { protocol := some name, host := host, port := if port = 0 then defaultPort name else port, endpoint := e } else .err

/-- `http_util.c:1242-1302, 1383-1400 rrr_http_util_uri_host_parse`, for the value of an alternative service. -/
def hostParse (next : UInt8) (l : Bytes) : Out Uri :=
  if l.all validChar = false then .err
  else match strcasestr l separator with
    | .bug => .bug
    | .fault => .fault
    | .ok _ => .err
    | .err => match strcasestr l slashes with
      | .bug => .bug
      | .fault => .fault
      | .ok _ => .err
      | .err => match hostPort false true next l with
        | .bug => .bug
        | .fault => .fault
        | .err => .err
        | .ok (host, port, e) => if port = 0 then .err else if e ≠ [] then .err else .ok { host := host, port := port }

/-- `http_util.c:881-907 rrr_http_util_uri_flags_get`: whether TLS is used, `http_client.c:357-371`. -/
def tls (u : Uri) : Bool := u.protocol == some https || u.protocol == some wss

end Verif.Uri
