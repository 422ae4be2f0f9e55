import Verif.Common
/-!
# Model of `src/modules/p_mqttclient.c` L1182-1290: what the MQTT client module makes of SUBACK and UNSUBACK

The reason numbers which have a description (`rrr_mqtt_p_reason_get_v5`) are a parameter. Debug messages are not modelled.
-/
namespace Verif.MqttAck
open Verif

/-- A topic filter of the request (SUBSCRIBE or UNSUBSCRIBE) and the quality of service asked for. -/
structure Sub where
  filter : Bytes
  qos : UInt8
deriving DecidableEq, Repr

/-- Warnings given (L1213-1236): the filter with this index was rejected, or has a lower quality of service. -/
inductive Warn | rejected (i : Nat) (filter : Bytes) | lower (i : Nat) (filter : Bytes) (got asked : UInt8)
deriving DecidableEq, Repr

/-- Result: success, an error is returned after what was done so far, or `RRR_BUG` (abort). -/
inductive Out (α : Type) | ok (a : α) | fail (a : α) | bug
deriving DecidableEq, Repr

/-- `p_mqttclient.c:1205-1240`: the loop for SUBACK from index `i` on, with the requests and acknowledgements from there on. -/
def subLoop (known : UInt8 → Bool) : Nat → List Sub → List UInt8 → List Warn → Out (List Warn)
  | _, _, [], w => .ok w
  | _, [], _ :: _, _ => .bug
  | i, s :: l, a :: as, w =>
    if a > 2 then
      if known a then subLoop known (i + 1) l as (w ++ [.rejected i s.filter]) else .fail w
    else if a < s.qos then subLoop known (i + 1) l as (w ++ [.lower i s.filter a s.qos])
    else subLoop known (i + 1) l as w

/-- `p_mqttclient.c:1196-1241`: SUBACK. The collection of the module is not changed. -/
def suback (known : UInt8 → Bool) (req : List Sub) (acks : List UInt8) : Out (List Warn) :=
  if req.length ≠ acks.length then .bug else subLoop known 0 req acks []

/-- `mqtt_subscription.c rrr_mqtt_subscription_collection_remove_topic`. -/
def remove (subs : List Bytes) (t : Bytes) : Out (List Bytes) :=
  if subs.count t > 1 then .bug else .ok (subs.filter (· != t))

/-- `p_mqttclient.c:1249-1280`: the loop for UNSUBACK. -/
def unsubLoop : List Bytes → List Bytes → List UInt8 → Out (List Bytes)
  | subs, _, [] => .ok subs
  | _, [], _ :: _ => .bug
  | subs, t :: l, a :: as =>
    if a ≠ 0 then unsubLoop subs l as
    else match remove subs t with
      | .ok subs' => unsubLoop subs' l as
      | .fail s => .fail s
      | .bug => .bug

/-- `p_mqttclient.c:1242-1285`: UNSUBACK. -/
def unsuback (v5 : Bool) (subs req : List Bytes) (acks : List UInt8) : Out (List Bytes) :=
  if v5 then
    if req.length ≠ acks.length then .bug else unsubLoop subs req acks
  else .ok subs

/-- `p_mqttclient.c:248-264`: the topic filters which are asked for when there is a new connection. -/
def onConnect (subs : List Bytes) : List Bytes := subs

end Verif.MqttAck
