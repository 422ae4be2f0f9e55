import Verif.Redirect.Model

/-!
# What redirects should do

After RFC 3986, 5.2, without removal of `.` and `..`.
-/
namespace Verif.Redirect.Spec
open Verif Verif.HttpUtil Verif.Uri Verif.Uri.Spec

/-- A location with a server: the text, and transport, server, port and endpoint in it. -/
structure Absolute where
  protocol : Bytes
  host : Bytes
  port : Option Bytes
  endpoint : Bytes

/-- What is in the parts of such a location. -/
def Absolute.Valid (a : Absolute) : Prop :=
  (a.protocol.map toLower = http ∨ a.protocol.map toLower = https) ∧ HostName a.host ∧ (∀ d, a.port = some d → PortText d) ∧ Endpoint a.endpoint

/-- How such a location is written. -/
def Absolute.text (a : Absolute) : Bytes := a.protocol ++ separator ++ (a.host ++ portText a.port ++ a.endpoint)

/-- Where such a location is. -/
def Absolute.place (a : Absolute) : Target :=
  { transport := if a.protocol.map toLower = https then .https else .http
    server := a.host
    port := (a.port.map number).getD (if a.protocol.map toLower = https then 443 else 80)
    endpoint := if a.endpoint = [] then [47] else a.endpoint }

/-- A location which is only an endpoint from the root of the server. -/
def Rooted (l : Bytes) : Prop := l.head? = some 47 ∧ (l.drop 1).head? ≠ some 47 ∧ 58 ∉ l ∧ ∀ c ∈ l, endpointChar c = true ∧ validChar c = true

/-- A location which is relative to the directory of the current endpoint. -/
def Relative (l : Bytes) : Prop := l.head? ≠ some 47 ∧ l.head? ≠ none ∧ l.head? ≠ some 63 ∧ l.head? ≠ some 35 ∧ 58 ∉ l ∧ ∀ c ∈ l, endpointChar c = true ∧ validChar c = true

/-- Merging of paths (RFC 3986, 5.2.3): what is after the last slash of the path, and the query, are replaced. -/
def Merged (base ref result : Bytes) : Prop :=
  ∃ dir last query, base = dir ++ last ++ query ∧ dir.getLast? = some 47 ∧ 47 ∉ last ∧ 63 ∉ dir ++ last ∧ (query = [] ∨ query.head? = some 63) ∧ result = dir ++ ref

/-- A text without its last slash, if it ends with one. -/
def withoutLast (l : Bytes) : Bytes := if l.getLast? = some 47 then l.dropLast else l

/-- A text without its first slash, if it begins with one. -/
def withoutFirst (l : Bytes) : Bytes := if l.head? = some 47 then l.drop 1 else l

end Verif.Redirect.Spec
