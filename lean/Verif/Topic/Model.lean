import Verif.Common
import Verif.Utf8.Model
/-!
# Model of `src/lib/mqtt/mqtt_topic.c`

Byte ranges `[p, end)` are `Bytes`. A NUL-terminated C string is modelled by its
bytes without the terminator; callers of the `char *` variants must pass a list
without zero bytes (`strlen` semantics), which theorems state explicitly.
-/
namespace Verif.Topic
open Verif

/-- '/' -/ abbrev slash : UInt8 := 0x2F
/-- '#' -/ abbrev hash : UInt8 := 0x23
/-- '+' -/ abbrev plus : UInt8 := 0x2B
/-- '$' -/ abbrev dollar : UInt8 := 0x24

/-- Outcome of the matchers. `abort` is `RRR_BUG` or a failed `assert`. -/
inductive Res where
  | match | mismatch | abort
deriving DecidableEq, Repr

/-- What a `char data[]` field holding `b` plus a terminating NUL reads as when
used as C string (`strcmp`, `strlen`, `*data`). -/
def cstr (b : Bytes) : Bytes := b.takeWhile (· ≠ 0)

/-- State `struct topic_name_seq` (`mqtt_topic.c:34-38`): previous and current character. -/
structure Seq where
  c1 : Nat
  c2 : Nat
deriving DecidableEq, Repr

/-- `mqtt_topic.c:40-66 __rrr_mqtt_topic_filter_char_is_ok`; `none` is return 1. -/
def filterCharIsOk (seq : Seq) (c : Nat) : Option Seq :=
  let seq : Seq := { c1 := seq.c2, c2 := c }                               -- L45-46
  if seq.c2 = 0x23 ∧ seq.c1 ≠ 0x2F ∧ seq.c1 ≠ 0 then none                  -- L48
  else if seq.c2 = 0x2B ∧ seq.c1 ≠ 0x2F ∧ seq.c1 ≠ 0 then none             -- L52
  else if seq.c1 = 0x23 then none                                          -- L56
  else if seq.c1 = 0x2B ∧ seq.c2 ≠ 0x2F ∧ seq.c1 ≠ 0 then none             -- L60
  else some seq

/-- `mqtt_topic.c:68-81 __rrr_mqtt_topic_name_char_is_ok`. -/
def nameCharIsOk (seq : Seq) (c : Nat) : Option Seq :=
  if c = 0x23 ∨ c = 0x2B then none else some seq

/-- `mqtt_topic.c:83-99 rrr_mqtt_topic_filter_validate_name`; `true` is return 0.
The argument is a C string, hence without NUL. -/
def filterValidateName (filter : Bytes) : Bool :=
  if filter.length > 0xffff then false
  else (Utf8.validateAndIterate filterCharIsOk filter ⟨0, 0⟩).isSome

/-- `mqtt_topic.c:101-117 rrr_mqtt_topic_validate_name_with_end`. -/
def validateNameWithEnd (topic : Bytes) : Bool :=
  if topic = [] then false
  else (Utf8.validateAndIterate nameCharIsOk topic ⟨0, 0⟩).isSome

/-- `mqtt_topic.c:119-130 rrr_mqtt_topic_validate_name` (`topic` non-NULL C string). -/
def validateName (topic : Bytes) : Bool :=
  if topic = [] then false else validateNameWithEnd topic

/-- `mqtt_topic.c:133-171 rrr_mqtt_topic_match_tokens_recursively`. The token
lists are the `data` C strings of the `next` chains; `[]` is `NULL`. -/
def matchTokens : List Bytes → List Bytes → Res
  | [], _ => .mismatch                                                      -- L137
  | _ :: _, [] => .mismatch                                                 -- L137
  | sub :: subs, pub :: pubs =>
    if sub.head? = some hash then                                           -- L141
      if sub.length ≠ 1 then .abort                                         -- L142
      else if pub.head? = some dollar then .mismatch                        -- L145
      else .match                                                           -- L149
    else if sub.head? = some plus then                                      -- L152
      if sub.length ≠ 1 then .abort                                         -- L153
      else if pub.head? = some dollar then .mismatch                        -- L156
      else if subs = [] ∧ pubs = [] then .match                             -- L166
      else matchTokens subs pubs                                            -- L170
    else if sub ≠ pub then .mismatch                                        -- L161
    else if subs = [] ∧ pubs = [] then .match                               -- L166
    else matchTokens subs pubs                                              -- L170

/-- `mqtt_topic.c:189-230`: the loop of
`rrr_mqtt_topic_match_topic_and_linear_with_end` and what follows it (L232-242).
Arguments: bytes `[filter_pos, filter_end)`, bytes `[topic_pos, topic_end)`,
`topic_token_pos`, `filter_token_pos`. `nxt` is the byte found in memory at
`topic_end`, which the code dereferences when the topic is exhausted.
Simplification: the `int` counters do not overflow (topics are at most 65535
bytes long). The read of `*filter_pos` at `filter_end` (L238) has no effect. -/
def linearGo (nxt : UInt8) : Bytes → Bytes → Int → Int → Res
  | [], topic, _, _ => if topic ≠ [] then .mismatch else .match             -- L232-242
  | f :: fs, topic, ttp, ftp =>
    if f = hash then                                                        -- L190
      if ttp ≠ 0 ∨ ftp ≠ 0 then .abort                                      -- L191-192
      else if topic.headD nxt = dollar then .mismatch                       -- L194
      else .match                                                           -- L198
    else if f = plus then                                                   -- L201
      if ttp ≠ 0 ∨ ftp ≠ 0 then .abort                                      -- L202-203
      else if topic.headD nxt = dollar then .mismatch                       -- L205
      else
        let topic' := topic.dropWhile (· ≠ slash)                           -- L208-213
        linearGo nxt fs topic' ((if topic' ≠ [] then -1 else ttp) + 1) (ftp + 1)
    else match topic with
      | [] => .mismatch                                                     -- L218
      | t :: ts =>
        if f ≠ t then .mismatch                                             -- L222
        else if f = slash then linearGo nxt fs ts (-1 + 1) (-1 + 1)         -- L226-229
        else linearGo nxt fs ts (ttp + 1) (ftp + 1)

/-- `mqtt_topic.c:174-243 rrr_mqtt_topic_match_topic_and_linear_with_end`. -/
def matchLinear (nxt : UInt8) (topic filter : Bytes) : Res :=
  if topic = [] ∨ filter = [] then .abort                                   -- L182-183
  else linearGo nxt filter topic 0 0

/-- `mqtt_topic.c:399-461 rrr_mqtt_topic_tokenize_with_end` (recursion depth
bounded by `fuel`; each level consumes at least one byte). The tokens are given
as the C strings stored in `data`. Allocation failure is not modelled. -/
def tokenizeFuel : Nat → Bytes → List Bytes
  | 0, _ => []
  | _ + 1, [] => []                                                         -- L414
  | fuel + 1, s =>
    let len := (s.takeWhile (· ≠ slash)).length                             -- L415-420
    let tok := cstr (s.take len)                                            -- L427-429
    if s.drop len = [slash] then                                            -- L431
      tok :: [cstr [0]]                                                     -- L432-433: dummy "" with one byte
    else
      let rest := s.drop (len + 1)                                          -- L440
      tok :: (if rest ≠ [] then tokenizeFuel fuel rest else [])             -- L442-446

/-- `mqtt_topic.c:399-461 rrr_mqtt_topic_tokenize_with_end` and
`mqtt_topic.c:463-469 rrr_mqtt_topic_tokenize`. -/
def tokenize (s : Bytes) : List Bytes := tokenizeFuel s.length s

/-- `mqtt_topic.c:245-273 rrr_mqtt_topic_match_str_with_end` and
`mqtt_topic.c:275-284 rrr_mqtt_topic_match_str`. -/
def matchStr (filter topic : Bytes) : Res := matchTokens (tokenize filter) (tokenize topic)

/-- `mqtt_topic.c:289-329 rrr_mqtt_topic_match_tokens_recursively_acl`. -/
def matchTokensAcl : List Bytes → List Bytes → Bool
  | [], _ => false                                                          -- L293
  | _ :: _, [] => false                                                     -- L293
  | m :: ms, s :: ss =>
    if m.head? = some hash then true                                        -- L299
    else if s.head? = some hash then false                                  -- L303
    else if m.head? = some plus ∨ s.head? = some plus then                  -- L307
      if m.head? = some dollar then false                                   -- L309
      else if ms = [] ∧ ss = [] then true                                   -- L321
      else matchTokensAcl ms ss                                             -- L328
    else if m ≠ s then false                                                -- L315
    else if ms = [] ∧ ss = [] then true                                     -- L321
    else matchTokensAcl ms ss                                               -- L328

/-- `mqtt_topic.c:347-384 rrr_mqtt_topic_tokens_clone` (no allocation failure). -/
def tokensClone : List Bytes → List Bytes
  | [] => []
  | t :: ts => cstr t :: tokensClone ts

end Verif.Topic
