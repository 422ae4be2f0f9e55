import Verif.Types.Model
/-!
# Model of `src/modules/p_exploder.c`: one message for each value of an array

Not modelled: allocation failure, failure to write to the buffer, addresses and nexthops of the messages.
-/
namespace Verif.Exploder
open Verif Types Msg

/-- `p_exploder.c:42-53`, the configuration. The topic is a C string, empty if it is not set. -/
structure Config where
  nonArrayPassthrough : Bool
  originalPassthrough : Bool
  preserveTimestamp : Bool
  preserveTopic : Bool
  appendTag : Bool
  topic : Bytes

/-- The bytes of a C string. -/
def cstr (b : Bytes) : Bytes := b.takeWhile (· ≠ 0)

/-- How the callback ends. -/
inductive End where
  | ok | fail | bug | oob
deriving DecidableEq, Repr

/-- The messages which were written, and how the callback ended. -/
structure Result where
  written : List MsgMsg
  ending : End
deriving DecidableEq, Repr

/-- `p_exploder.c:195-205`, the prefix of the topics. -/
def topicPrefix (c : Config) (m : MsgMsg) : Bytes :=
  (if c.preserveTopic ∧ m.topicLength > 0 then m.topic else []) ++ (if cstr c.topic ≠ [] then cstr c.topic else [])

/-- `p_exploder.c:83-97`, the topic of a new message. A value without tag has no tag pointer. -/
def topicOf (c : Config) (pre : Bytes) (v : Value) : Bytes :=
  if c.appendTag ∧ v.tag ≠ [] then pre ++ cstr v.tag else pre

/-- `p_exploder.c:64-159 exploder_process_value`: the new message, or any error as `soft`. The value is cloned. -/
def processValue (le : Bool) (c : Config) (pre : Bytes) (time : UInt64) (v : Value) : Res MsgMsg :=
  let topic := topicOf c pre v
  if topic.length > 0xffff then .soft
  else newMessage le [v] time topic

/-- `p_exploder.c:210-222`, the loop over the values. -/
def processAll (le : Bool) (c : Config) (pre : Bytes) (time : UInt64) : List Value → Result
  | [] => ⟨[], .ok⟩
  | v :: vs =>
    match processValue le c pre time v with
    | .ok m => ⟨m :: (processAll le c pre time vs).written, (processAll le c pre time vs).ending⟩
    | .bug => ⟨[], .bug⟩
    | .oob => ⟨[], .oob⟩
    | _ => ⟨[], .fail⟩

/-- `p_exploder.c:161-243 exploder_poll_callback` at a given time. -/
def poll (le : Bool) (c : Config) (now : UInt64) (m : MsgMsg) : Result :=
  if m.class_ ≠ 11 then
    if c.nonArrayPassthrough then ⟨[m], .ok⟩ else ⟨[], .ok⟩
  else match toArray le m with
  | .ok vs =>
    let r := processAll le c (topicPrefix c m) (if c.preserveTimestamp then m.timestamp else now) vs
    if r.ending = .ok ∧ c.originalPassthrough then ⟨r.written ++ [m], .ok⟩ else r
  | .bug => ⟨[], .bug⟩
  | .oob => ⟨[], .oob⟩
  | _ => ⟨[], .fail⟩

end Verif.Exploder
