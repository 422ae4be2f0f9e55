import Verif.Common

/-!
# Model of the journal module, `src/modules/src_journal.c:50-355, 412-449`

The hook runs in any thread and is one step, as is one call of the function which writes a message, because both hold the lock while they run.
Not modelled: pauses of threads, test messages, statistics, encoding of the array in the message (modelled in `Types`), failure of the message broker.
-/
namespace Verif.Journal
open Verif

/-- What is logged. -/
structure Entry where
  file : Bytes
  line : Int
  level : Nat
  flags : Nat
  pre : Bytes
  message : Bytes
deriving DecidableEq, Repr

/-- Values in arrays. -/
inductive Value | str (b : Bytes) | u64 (n : Nat)
deriving DecidableEq, Repr

/-- `src_journal.c:57-61 struct journal_queue_entry`. -/
structure Queued where
  time : Nat
  fields : List (String × Value)
deriving DecidableEq, Repr

/-- A message which is given to other modules. -/
structure Message where
  topic : Bytes
  time : Nat
  fields : List (String × Value)
deriving DecidableEq, Repr

/-- `src_journal.c:67-85 struct journal_data`. `count` and `writing` are the state of the loop of one call to the message broker, `stopped` is the end of the thread. -/
structure State where
  queue : List Queued := []
  inHook : Bool := false
  error : Bool := false
  suppressed : Nat := 0
  total : Nat := 0
  processed : Nat := 0
  count : Nat := 0
  writing : Bool := false
  stopped : Bool := false
  delivered : List Message := []
deriving DecidableEq, Repr

/-- What fails while something is logged: nothing, allocation of the entry (L223) or storing of a value (L228-233). -/
inductive Failure | none | entry | value
deriving DecidableEq, Repr

/-- Configuration: debuglevel and name of the host. -/
structure Conf where
  debuglevel : Nat
  hostname : Bytes
deriving DecidableEq, Repr

/-- `log.h:231 RRR_DEBUGLEVEL_1` as a number. -/
def debuglevel1 (c : Conf) : Nat := if c.debuglevel % 2 = 1 then 1 else 0

/-- `src_journal.c:228-233`: what is stored. -/
def fields (e : Entry) : List (String × Value) :=
  [("log_file", .str e.file), ("log_line", .u64 (if e.line < 0 then 0 else e.line.toNat)), ("log_level_translated", .u64 e.level), ("log_flags", .u64 e.flags),
   ("log_prefix", .str e.pre), ("log_message", .str e.message)]

/-- `src_journal.c:179-257 journal_log_hook`, at time `t`. -/
def hook (c : Conf) (s : State) (e : Entry) (t : Nat) (f : Failure) : State :=
  let s := { s with total := s.total + 1 }
  if c.debuglevel ≠ 0 ∧ c.debuglevel ≠ debuglevel1 c ∧ e.level > 3 then { s with suppressed := s.suppressed + 1 }
  else if s.inHook then { s with suppressed := s.suppressed + 1 }
  else
    let s := { s with processed := s.processed + 1, inHook := true }
    match f with
    | .entry => s
    | .value => { s with error := true }
    | .none => { s with queue := s.queue ++ [⟨t, fields e⟩], inHook := false }

/-- `array.c rrr_array_value_get_by_tag`, for strings. -/
def getStr (fs : List (String × Value)) (tag : String) : Option Bytes :=
  match fs.find? (fun f => f.1 == tag) with
  | some (_, .str b) => some b
  | _ => none

/-- `src_journal.c:50 RRR_JOURNAL_TOPIC_PREFIX` and a slash: `rrr/journal/`. -/
def topicPrefix : Bytes := [114, 114, 114, 47, 106, 111, 117, 114, 110, 97, 108, 47]

/-- `src_journal.c:265-355 journal_write_message_callback`. The limit is 400 (L433). -/
def writeOne (c : Conf) (s : State) : State :=
  match s.queue with
  | [] => { s with writing := false }
  | q :: r =>
    let fs := q.fields ++ [("log_hostname", .str c.hostname)]
    match getStr fs "log_prefix" with
    | none => { s with queue := r, writing := false, stopped := true }
    | some p =>
      let topic := topicPrefix ++ p
      if topic.length > 65535 then { s with queue := r, writing := false, stopped := true }
      else { s with queue := r, delivered := s.delivered ++ [⟨topic, q.time, fs⟩], count := s.count + 1, writing := r.length > 0 && s.count + 1 < 400 }

/-- What can happen: something is logged, the loop of the thread begins a round (L412-449), or the next message is written. -/
inductive Op
  | log (e : Entry) (t : Nat) (f : Failure)
  | round
  | write
deriving DecidableEq, Repr

/-- One step. `src_journal.c:412-449` for rounds: after an error in the hook the thread ends. -/
def step (c : Conf) (s : State) : Op → State
  | .log e t f => hook c s e t f
  | .round => if s.stopped ∨ s.writing then s else if s.error then { s with stopped := true } else { s with count := 0, writing := true }
  | .write => if s.writing then writeOne c s else s

/-- All steps, from the beginning. -/
def run (c : Conf) (ops : List Op) : State := ops.foldl (step c) {}

end Verif.Journal
