import Verif.Types.Model
import Verif.Convert.Model
/-!
# Model of `src/modules/p_averager.c`: averages of measurements

Not modelled: allocation failure, failure to write to the buffer. Messages which wait in the output list are written at once. The times of the highest and lowest measurement are not modelled,
they are not used.
-/
namespace Verif.Averager
open Verif Types Msg

/-- `p_averager.c:47-67`, the configuration. -/
structure Config where
  timespan : UInt64
  preserve : Bool
  discard : Bool
  topic : Option Bytes

/-- What happens: a message comes in, or it is time to average. Then the time is read twice, before and for the new message. -/
inductive Op where
  | receive (m : MsgMsg)
  | average (now stamp : UInt64)

/-- The input list after a step and the messages which are written, or a failure. In `unlocked` a mutex is unlocked which is not locked, and the module stops. -/
inductive Step where
  | ok (input : List MsgMsg) (written : List MsgMsg)
  | fail | unlocked | bug | oob
deriving DecidableEq, Repr

/-- `p_averager.c:76-141 averager_poll_callback`. If the topic cannot be set, the message is written without it. -/
def receive (c : Config) (input : List MsgMsg) (m : MsgMsg) : Step :=
  if m.type = 1 ∧ m.class_ = 11 then
    if c.preserve then
      match c.topic with
      | none => .ok (input ++ [m]) [m]
      | some t =>
        match topicSet m t with
        | .ok n => .ok (input ++ [m]) [n]
        | .oob => .oob
        | .bug => .bug
        | _ => .ok (input ++ [m]) [m]
    else .ok (input ++ [m]) []
  else if c.discard then .ok input []
  else .ok input [m]

/-- `p_averager.c:143-158 averager_maintain_buffer`. -/
def maintain (c : Config) (now : UInt64) (input : List MsgMsg) : List MsgMsg :=
  input.filter fun m => !(m.timestamp < now - c.timespan * 1000000)

/-- `p_averager.c:160-171`. -/
structure Calculation where
  max : UInt64
  min : UInt64
  sum : UInt64
  entries : UInt64
  timestampFrom : UInt64
  timestampTo : UInt64
deriving DecidableEq, Repr

/-- `p_averager.c:366`. -/
def start : Calculation := ⟨0, 0xffffffffffffffff, 0, 0, 0xffffffffffffffff, 0⟩

/-- A number from an array: none, outside of the data, or the number. -/
inductive Got where
  | no | oob | val (x : UInt64)

/-- `p_averager.c:173-198 __averager_get_64_from_array`. -/
def get64 (le : Bool) (vs : List Value) (tag : Bytes) : Got :=
  match getByTag vs tag with
  | none => .no
  | some v =>
    if !Convert.is64 v.ty then .no
    else match Convert.number ⟨le, fun _ => []⟩ v 0 with
    | none => .oob
    | some x => .val x

/-- The tags. -/
def tagMeasurement : Bytes := [109, 101, 97, 115, 117, 114, 101, 109, 101, 110, 116]
def tagFrom : Bytes := [116, 105, 109, 101, 115, 116, 97, 109, 112, 95, 102, 114, 111, 109]
def tagTo : Bytes := [116, 105, 109, 101, 115, 116, 97, 109, 112, 95, 116, 111]
def tagAverage : Bytes := [97, 118, 101, 114, 97, 103, 101]
def tagMax : Bytes := [109, 97, 120]
def tagMin : Bytes := [109, 105, 110]

/-- `p_averager.c:241-258`: a measurement is added. -/
def add (k : Calculation) (x from_ to : UInt64) : Calculation :=
  { max := if x ≥ k.max then x else k.max
    min := if x < k.min then x else k.min
    sum := k.sum + x
    entries := k.entries + 1
    timestampFrom := if from_ < k.timestampFrom then from_ else k.timestampFrom
    timestampTo := if to > k.timestampTo then to else k.timestampTo }

/-- What the processing of a message gives. -/
inductive Proc where
  | ok (k : Calculation) | error | bug | oob

/-- `p_averager.c:200-263 averager_process_message`. -/
def processMessage (le : Bool) (k : Calculation) (m : MsgMsg) : Proc :=
  if m.class_ ≠ 11 then .ok k
  else match toArray le m with
  | .ok vs =>
    match get64 le vs tagMeasurement with
    | .oob => .oob
    | .no => .ok k
    | .val x =>
      match get64 le vs tagFrom with
      | .oob => .oob
      | .no => .ok k
      | .val f =>
        match get64 le vs tagTo with
        | .oob => .oob
        | .no => .ok k
        | .val t => .ok (add k x f t)
  | .bug => .bug
  | .oob => .oob
  | _ => .error

/-- `p_averager.c:370-377`, the loop over the input list. -/
def processAll (le : Bool) : List MsgMsg → Calculation → Proc
  | [], k => .ok k
  | m :: ms, k =>
    match processMessage le k m with
    | .ok k => processAll le ms k
    | p => p

/-- `array.c:183-247 rrr_array_push_value_u64_with_tag`. -/
def pushed (le : Bool) (tag : Bytes) (x : UInt64) : Value := ⟨.h, 0, tag, 1, hostBytes le x, []⟩

/-- `p_averager.c:304-363 averager_spawn_message` and `:269-298 averager_spawn_message_callback`. -/
def spawn (le : Bool) (c : Config) (stamp : UInt64) (k : Calculation) (average : UInt64) : Res MsgMsg :=
  newMessage le [pushed le tagFrom k.timestampFrom, pushed le tagTo k.timestampTo, pushed le tagAverage average, pushed le tagMax k.max, pushed le tagMin k.min] stamp (c.topic.getD [])

/-- `p_averager.c:412-432 averager_event_average` with `:365-410 averager_calculate_average`. All messages of the input list are removed from it. When processing fails, the message is unlocked
and then unlocked once more when it is removed. -/
def average (le : Bool) (c : Config) (now stamp : UInt64) (input : List MsgMsg) : Step :=
  match processAll le (maintain c now input) start with
  | .error => .unlocked
  | .bug => .bug
  | .oob => .oob
  | .ok k =>
    if k.entries = 0 then .ok [] []
    else match spawn le c stamp k (k.sum / k.entries) with
    | .ok n => .ok [] [n]
    | .bug => .bug
    | .oob => .oob
    | _ => .fail

/-- A step. -/
def step (le : Bool) (c : Config) (input : List MsgMsg) : Op → Step
  | .receive m => receive c input m
  | .average now stamp => average le c now stamp input

/-- Steps until one fails. -/
def run (le : Bool) (c : Config) : List MsgMsg → List Op → Step
  | input, [] => .ok input []
  | input, o :: os =>
    match step le c input o with
    | .ok i w =>
      match run le c i os with
      | .ok i' w' => .ok i' (w ++ w')
      | e => e
    | e => e

end Verif.Averager
