import Verif.Common
/-!
# Which instances are given a message

A message is polled by an instance, which may write it to its own output, from which other instances poll it, and so on. When it is polled it may be dropped by the backstop,
the topic filter or the list of next hops.
-/
namespace Verif.Route
open Verif

/-- The settings of an instance which matter (instances.c:482-496). Whether a topic matches a filter is modelled in Topic. -/
structure Inst (α : Type) where
  /-- not `RRR_INSTANCE_MISC_OPTIONS_DISABLE_BACKSTOP` -/
  backstop : Bool
  /-- `INSTANCE_D_TOPIC`, if set -/
  filter : Option (α → Bool)
  /-- `RRR_INSTANCE_MISC_OPTIONS_TOPIC_FILTER_INVERT` -/
  invert : Bool
  /-- `split_buffers_active` of its output -/
  dup : Bool

/-- `struct rrr_msg_holder`: the message, `source` and `nexthops`. Instances are numbers. -/
structure Entry (α : Type) where
  msg : α
  source : Option Nat
  nexthops : List Nat

/-- `rrr_msg_holder_nexthop_ok`, message_holder/message_holder.c:367-373. -/
def nexthopOk {α : Type} (e : Entry α) (r : Nat) : Bool := e.nexthops.isEmpty || e.nexthops.contains r

/-- `__rrr_poll_intermediate_callback`, poll_helper.c:87-117: whether the callback of the module is called. -/
def filterOk {α : Type} (i : Inst α) (r : Nat) (e : Entry α) : Bool :=
  let doesMatch := match i.filter with
    | some f => if i.invert then !(f e.msg) else f e.msg
    | none => true
  doesMatch && nexthopOk e r

/-- message_broker.c:1393-1395. -/
def mark {α : Type} (src : Nat) (e : Entry α) : Entry α :=
  match e.source with
  | none => { e with source := some src }
  | some _ => e

/-- `__rrr_message_broker_poll_intermediate_backstop_handling`, message_broker.c:1373-1402: reader `r` polls `e` from `src`. Whether the module's callback is called, and the entry. -/
def pollOne {α : Type} (i : Inst α) (r src : Nat) (e : Entry α) : Bool × Entry α :=
  if i.backstop && e.source == some r then (false, e)
  else (filterOk i r (mark src e), mark src e)

/-- `rrr_msg_holder_util_clone_no_locking`, message_holder/message_holder_util.c:90-135: `source` is not copied. -/
def clone {α : Type} (e : Entry α) : Entry α := { e with source := none }

/-- How a module writes a message it was given. -/
inductive Way where
  /-- `rrr_message_broker_incref_and_write_entry_unsafe` (message_broker.c:1239) or, for a list of entries, `rrr_message_broker_write_entries_from_collection_unsafe` (:1306): the same entry -/
  | same
  /-- `rrr_message_broker_clone_and_write_entry` (:1171), or a new entry made with `rrr_message_broker_write_entry` (:1039) -/
  | copy

/-- `__rrr_message_broker_entry_prepare` (message_broker.c:714-732): the next hops are those the writer gives. -/
def write {α : Type} (w : Way) (hops : List Nat) (e : Entry α) : Entry α :=
  match w with
  | .same => { e with nexthops := hops }
  | .copy => { clone e with nexthops := hops }

/-- From the common buffer to the buffer of a reader: `__rrr_message_broker_split_buffers_fill_callback`, message_broker.c:1508-1542. -/
def toReader {α : Type} (i : Inst α) (e : Entry α) : Entry α :=
  if i.dup then { clone e with nexthops := e.nexthops } else e

/-- Reader `reader` polls the message from the instance which has it in its output, and, if it is given it, writes it to its own output. -/
structure Hop where
  reader : Nat
  way : Way
  hops : List Nat

/-- A message in the output of `at_`, and what happens to it: which readers polled it, and which of them were given it. -/
def travel {α : Type} (c : Nat → Inst α) : Nat → Entry α → List Hop → List (Nat × Bool)
  | _, _, [] => []
  | at_, e, h :: t =>
    let p := pollOne (c h.reader) h.reader at_ (toReader (c at_) e)
    (h.reader, p.1) :: (if p.1 then travel c h.reader (write h.way h.hops p.2) t else [])

/-- A message which instance `s` has made and written. -/
def new {α : Type} (m : α) (hops : List Nat) : Entry α := ⟨m, none, hops⟩

end Verif.Route
