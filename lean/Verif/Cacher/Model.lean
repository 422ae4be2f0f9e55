import Verif.Common
/-!
# Model of the module `cacher`, `src/modules/p_cacher.c`

The module stores messages with a topic in a message database and, for a while, in memory, and answers requests for a topic.

Not modelled: the answers of the database (they are written as they come, p_cacher.c:140-172), reviving, the cases where writing to other instances fails or memory is out.
Times and time limits are microseconds; as 64 bit numbers none of the calculations wraps around.
-/
namespace Verif.Cacher
open Verif

/-- A message: `request` says if it is taken to have the request tag (`rrr_array_message_has_tag`, array.c:1297-1310, which also says so for an array it cannot read). -/
structure Msg where
  topic : Bytes
  stamp : Nat
  data : Bytes := []
  request : Bool := false
deriving DecidableEq, Repr

/-- The settings, p_cacher.c:71-87; `requestTag`: a request tag is set. -/
structure Config where
  ttl : Nat := 0
  memoryTtl : Nat := 0
  requestTag : Bool := true
  forwardRequests : Bool := false
  forwardData : Bool := false
  forwardOther : Bool := false
  memoryConsume : Bool := false
  emptyIsDelete : Bool := false
  noUpdate : Bool := false
deriving DecidableEq, Repr

/-- `rrr_msg_msg_ttl_ok`, msg_msg.c:496-510. -/
def ttlOk (m : Msg) (now ttl : Nat) : Bool :=
  if ttl > now then true
  else if m.stamp < now - ttl then false
  else true

/-- A C string ends at the first zero. -/
def cstr (b : Bytes) : Bytes := b.takeWhile (fun c => c != 0)

/-- `rrr_msg_msg_topic_equals`, msg_msg.c:435-452. -/
def topicEquals (m : Msg) (t : Bytes) : Bool := m.topic == cstr t

/-- The loop of `cacher_get_from_memory_cache`, p_cacher.c:199-232, with a topic: what was found and the cache after it. -/
def getLoop (now ttl : Nat) (t : Bytes) : List Msg → Option Msg × List Msg
  | [] => (none, [])
  | e :: r =>
    if ttlOk e now ttl then
      if topicEquals e t then (some e, e :: r)
      else ((getLoop now ttl t r).1, e :: (getLoop now ttl t r).2)
    else getLoop now ttl t r

/-- The same without a topic, from `cacher_tidy_memory_cache`, p_cacher.c:237-249. -/
def tidyLoop (now ttl : Nat) : List Msg → List Msg
  | [] => []
  | e :: r => if ttlOk e now ttl then e :: tidyLoop now ttl r else tidyLoop now ttl r

/-- The loop of `cacher_save_to_memory_cache`, p_cacher.c:262-273. -/
def dropLoop (t : Bytes) : List Msg → List Msg
  | [] => []
  | e :: r => if topicEquals e t then r else e :: dropLoop t r

/-- `cacher_save_to_memory_cache`, p_cacher.c:251-296. -/
def save (cache : List Msg) (m : Msg) (delete : Bool) : List Msg :=
  if delete then dropLoop m.topic cache else dropLoop m.topic cache ++ [m]

/-- The instances to which messages are forwarded. -/
inductive To where
  | data | requests | other
deriving DecidableEq, Repr

/-- What the module does. -/
inductive Out where
  /-- a message from memory is written -/
  | found (m : Msg)
  /-- the database is asked -/
  | dbGet (t : Bytes)
  | dbPut (m : Msg)
  | dbDelete (m : Msg)
  /-- the received message is forwarded -/
  | forward (to : To) (m : Msg)
deriving DecidableEq, Repr

def forwardIf (b : Bool) (to : To) (m : Msg) : List Out := if b then [.forward to m] else []

/-- `MSG_DATA_LENGTH(msg) == 0 && data->do_empty_is_delete`, p_cacher.c:486. -/
def isDelete (c : Config) (m : Msg) : Bool := m.data.isEmpty && c.emptyIsDelete

/-- p_cacher.c:413-415: without a time limit nothing is kept in memory. -/
def lookup (c : Config) (cache : List Msg) (now : Nat) (t : Bytes) : Option Msg × List Msg :=
  if c.memoryTtl > 0 then getLoop now c.memoryTtl t cache else (none, cache)

/-- The cache after a message has been stored or deleted, p_cacher.c:351-353. -/
def saved (c : Config) (cache : List Msg) (m : Msg) : List Msg :=
  if c.memoryTtl > 0 then save cache m (isDelete c m) else cache

/-- `cacher_process`, p_cacher.c:359-500, with forwarding of `cacher_poll_callback`, :502-539. `dbOk`: sending to the database does not fail. -/
def process (c : Config) (cache : List Msg) (now : Nat) (m : Msg) (dbOk : Bool) : List Msg × List Out :=
  if c.ttl > 0 && !ttlOk m now c.ttl then (cache, [])
  else if m.topic.length = 0 then (cache, forwardIf c.forwardOther .other m)
  else if c.requestTag && m.request then
    -- :413-431
    match lookup c cache now m.topic with
    | (some e, cache') => (cache', .found e :: forwardIf (!c.memoryConsume && c.forwardRequests) .requests m)
    -- :433-441
    | (none, cache') => (cache', .dbGet (cstr m.topic) :: forwardIf c.forwardRequests .requests m)
  else if c.noUpdate then (cache, forwardIf c.forwardOther .other m)
  -- :315-357: the message is not saved if sending to the database fails
  else if !dbOk then (cache, [])
  else
    (saved c cache m, (if isDelete c m then Out.dbDelete m else .dbPut m) :: forwardIf c.forwardData .data m)

/-- What happens to the module. -/
inductive Ev where
  | msg (now : Nat) (m : Msg) (dbOk : Bool)
  /-- `cacher_event_tidy`, p_cacher.c:563-617, the memory part -/
  | tidy (now : Nat)
deriving DecidableEq, Repr

def step (c : Config) (cache : List Msg) : Ev → List Msg × List Out
  | .msg now m dbOk => process c cache now m dbOk
  | .tidy now => (if c.memoryTtl > 0 then tidyLoop now c.memoryTtl cache else cache, [])

/-- The cache after a history, oldest event first. -/
def run (c : Config) (cache : List Msg) : List Ev → List Msg
  | [] => cache
  | e :: es => run c (step c cache e).1 es

end Verif.Cacher
