import Verif.Msg.Model
/-!
# Model of `src/modules/p_mqttclient.c` L1333-1751: what the MQTT client module makes of a received PUBLISH

The messages of `Verif.Msg` are used. The host is little endian (the conversions of the head are done in the
payload itself and matter if a later check fails). The array definition is a parameter: the parser which it gives rise to
is modelled in `Verif.ArrayTree`. Not modelled: failing allocation, failing writes to the output buffer, log messages.
-/
namespace Verif.MqttReceive
open Verif Verif.Msg

/-- `struct rrr_mqtt_p_publish` (`src/lib/mqtt/mqtt_packet.h`): what is used here. `topic` is without its terminating zero. The payload is NULL
if the packet has none (`mqtt_parse.c:310-314, 1019`). -/
structure Publish where
  topic : Bytes
  payload : Option Bytes
  contentType : Option Bytes
  created : UInt64
deriving DecidableEq, Repr

/-- The result of `rrr_array_tree_import_from_buffer` called with
`p_mqttclient.c:1442-1465 __mqttclient_try_create_array_message_from_publish_callback`: bytes parsed and the message made of
the values, `RRR_ARRAY_SOFT_ERROR`, `RRR_ARRAY_PARSE_INCOMPLETE` or any other error. -/
inductive Import | ok (parsed : Nat) (m : MsgMsg) | soft | incomplete | hard
deriving DecidableEq, Repr

/-- `p_mqttclient.c:1028-1040`: `mqtt_receive_rrr_message`, `mqtt_receive_publish_topic` and the array definition
`mqtt_receive_array` (topic, bytes to parse ↦ result). -/
structure Conf where
  expect : Bool
  useTopic : Bool
  tree : Option (Bytes → Bytes → Import)

/-- What happens: the messages written to the output and whether the module is stopped (L1746-1750 `rrr_event_dispatch_break`);
memory outside of the payload is read; the function never returns; or the process is aborted. -/
inductive Res' | done (out : List MsgMsg) (stop : Bool) | outside | endless | abort
deriving DecidableEq, Repr

/-- `configure.ac:10 RRR_MESSAGE_MIME_TYPE`, `application/rrr-message`. -/
def mime : Bytes := [97, 112, 112, 108, 105, 99, 97, 116, 105, 111, 110, 47, 114, 114, 114, 45, 109, 101, 115, 115, 97, 103, 101]

/-- `msg.c:107-123 rrr_msg_head_to_host_and_verify`: the bytes of the payload afterwards. -/
def swapHead (b : Bytes) : Bytes :=
  [0, 0, 0, 0] ++ ((b.drop 4).take 4).reverse ++ ((b.drop 8).take 2).reverse ++ ((b.drop 10).take 4).reverse ++
    ((b.drop 14).take 4).reverse ++ b.drop 18

/-- `msg.c:149-180 rrr_msg_check_data_checksum_and_length` (the checksum is cleared) and `msg_msg.c:280-306
rrr_msg_msg_to_host_and_verify`, after `swapHead`: the bytes of the payload afterwards. -/
def swapMsg (b : Bytes) : Bytes :=
  let h := (swapHead b).take 14 ++ [0, 0, 0, 0]
  if b.length < msgMinSize then h ++ b.drop 18
  else h ++ ((b.drop 18).take 8).reverse ++ (b.drop 26).take 2 ++ ((b.drop 28).take 2).reverse ++ b.drop 30

/-- A message, or no message and the payload as it is left, or memory outside of the payload is read. -/
inductive Got | message (m : MsgMsg) | none (left : Bytes) | outside
deriving DecidableEq, Repr

/-- `p_mqttclient.c:1369-1434 mqttclient_try_get_rrr_msg_msg_from_publish` where there is a payload. -/
def tryGet (b : Bytes) : Got :=
  if b.length < headSize then .none b                                          -- L1383-1387
  else match getTargetSize b with                                              -- L1392-1400
  | .ok n =>
    if b.length ≠ n.toNat then .none b                                         -- L1402-1406
    else match headToHost b with                                               -- L1408-1412
    | .ok (h, crc) =>
      match checkData h crc b with                                             -- L1414-1417
      | .ok rest =>
        match msgToHost h rest with                                            -- L1419-1422
        | .ok m => .message m
        | .oob => .outside
        | _ => .none (swapMsg b)
      | _ => .none (swapHead b)
    | _ => .none (swapHead b)
  | _ => .none b

/-- `p_mqttclient.c:1667-1698` with `L1467-1529 mqttclient_try_create_array_message_from_publish` where there are bytes in the payload: the
loop. `rest` are the bytes from `read_pos` on. -/
def records (imp : Bytes → Import) (rest : Bytes) : Res' :=
  if rest.length = 0 then .done [] false                                       -- L1490-1493
  else match imp rest with
  | .ok parsed m =>
    if parsed = 0 then .endless
    else match records imp (rest.drop parsed) with
      | .done out stop => .done (m :: out) stop
      | r => r
  | .soft => .done [] false
  | .incomplete => .done [] false
  | .hard => .done [] true
termination_by rest.length
decreasing_by simp only [List.length_drop]; omega

/-- `p_mqttclient.c:1667-1751` and `L1333-1367`: no RRR message is made directly of the payload. -/
def other (c : Conf) (topic : Bytes) (created : UInt64) (payload : Option Bytes) : Res' :=
  match c.tree with
  | some imp =>
    match payload with
    | none => .done [] false                                                   -- L1479-1481
    | some b => if b.length = 0 then .done [] true else records (imp topic) b  -- L1483-1488
  | none =>
    match payload with
    | some b =>
      if b.length = 0 then
        match newWithData 1 1 created topic (topic ++ [0]) with | some m => .done [m] false | none => .done [] true
      else match newWithData 1 1 created topic b with                          -- L1702-1716
        | some m => .done [m] false
        | none => .done [] true
    | none =>
      match newWithData 1 1 created topic (topic ++ [0]) with                  -- L1720-1737
      | some m => .done [m] false
      | none => .done [] true

/-- `p_mqttclient.c:1591-1751 mqttclient_receive_publish`. -/
def receive (c : Conf) (p : Publish) : Res' :=
  if c.expect || p.contentType == some mime then
    match p.payload with
    | none => if c.expect then .done [] false else other c p.topic p.created none
    | some b =>
      match tryGet b with
      | .message m =>
        if c.useTopic then
          match topicSet m p.topic with                                        -- L1650-1661
          | .ok m' => .done [m'] false
          | .oob => .outside
          | _ => .abort
        else .done [m] false
      | .outside => .outside
      | .none left => if c.expect then .done [] false else other c p.topic p.created (some left)
  else other c p.topic p.created p.payload

end Verif.MqttReceive
