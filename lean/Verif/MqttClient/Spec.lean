import Verif.MqttClient.Model

/-!
# What the MQTT client module should do with messages from other modules
-/
namespace Verif.MqttClient.Spec
open Verif Verif.MqttClient

/-- Configurations which are accepted (`p_mqttclient.c:1045-1069`). -/
def Accepted (c : Conf) : Prop := ¬ (c.force = true ∧ c.prepend = true) ∧ (c.force = true ∨ c.prepend = true → c.topic ≠ none)

/-- Messages which arrive. -/
def arrivals : List Op → List Msg
  | [] => []
  | .arrive m _ :: r => m :: arrivals r
  | _ :: r => arrivals r

/-- Messages are not to be discarded. -/
def Keeping : List Op → Prop
  | [] => True
  | .discard true :: _ => False
  | _ :: r => Keeping r

/-- The packet which is to be published for a message, if any. -/
def packet (c : Conf) (m : Msg) : Option Pub :=
  if c.isCommand m then none else match publish c m with
    | .ok p => some p
    | _ => none

/-- A command which has only topic filters as other values. -/
structure Filters (c : Conf) (l : List Val) (texts : List Bytes) : Prop where
  all : l.map (·.str) = texts.map some
  tags : ∀ v ∈ l, v.tag = tagFilter
  valid : ∀ t ∈ texts, c.validFilter t = true

end Verif.MqttClient.Spec
