import Verif.Common
/-!
# The slot for one message

`src/lib/message_holder/message_holder_slot.c`: a place for one entry, written by one module and read
by a number of others.

All the functions hold the lock of the slot while they look at it or change it, so each of them is
one step; a writer which waits for the slot to become empty gives up the lock, and its step is the one
it takes after having been woken up. Readers are modelled by numbers instead of pointers. What a reader
is given is a copy of the entry.

The lock and the reference count of the entry itself are in `Verif.Slot.Refs`. Failure to copy an entry
is modelled by a callback which fails, neither changes the slot.
-/
namespace Verif.Slot
open Verif

/-- `struct rrr_msg_holder_slot`, message_holder_slot.c:40-53. The lists `readers` and `hasRead` have
`reader_count` elements. -/
structure Slot (α : Type) where
  entry : Option α
  readers : List (Option Nat)
  hasRead : List Bool
  deleted : Nat
  written : Nat

/-- `rrr_msg_holder_slot_new`, message_holder_slot.c:55-93, followed by
`rrr_msg_holder_slot_reader_count_set`, L95-128. -/
def new (α : Type) (n : Nat) : Slot α :=
  { entry := none, readers := List.replicate n none, hasRead := List.replicate n false,
    deleted := 0, written := 0 }

/-- The loop of `__rrr_msg_holder_slot_reader_index_get_unlocked`, message_holder_slot.c:191-201,
over the readers from number `i` on. Gives the readers and the number of the reader, or `none` when the
loop ends without having found one. -/
def findReader (self : Nat) : List (Option Nat) → Nat → Option (List (Option Nat) × Nat)
  | [], _ => none
  | some r :: rest, i =>
    if r = self then some (some r :: rest, i)
    else match findReader self rest (i + 1) with
      | some (rest', k) => some (some r :: rest', k)
      | none => none
  | none :: rest, i => some (some self :: rest, i)

/-- `__rrr_msg_holder_slot_reader_index_get_unlocked`, message_holder_slot.c:181-208. The outer `none`
is `RRR_BUG`, the inner one is -1. -/
def readerIndex {α : Type} (s : Slot α) (self : Nat) : Option (Slot α × Option Nat) :=
  if s.readers.length = 0 then some (s, none)
  else match findReader self s.readers 0 with
    | none => none
    | some (rs, i) => some ({ s with readers := rs }, some i)

/-- The readers which have read, message_holder_slot.c:258-263 -/
def doneCount (l : List Bool) : Nat := (l.filter (· = true)).length

/-- What happens after the callback of a reader has returned success and did not ask to keep the entry,
message_holder_slot.c:253-270 -/
def finishRead {α : Type} (s : Slot α) (i : Option Nat) : Slot α :=
  let s := match i with
    | some i => { s with hasRead := s.hasRead.set i true }
    | none => s
  let done := if i.isSome then doneCount s.hasRead else 0
  if s.readers.length ≤ done then { s with entry := none, deleted := s.deleted + 1 } else s

/-- `self_index >= 0 && slot->reader_has_read[self_index]`, message_holder_slot.c:227 -/
def didRead {α : Type} (s : Slot α) : Option Nat → Bool
  | some i => s.hasRead[i]? == some true
  | none => false

/-- `rrr_msg_holder_slot_read`, message_holder_slot.c:210-287. `cb`: the callback returns success,
`keep`: the callback asks for the entry to be kept. Gives the slot and the entry which the callback was
called with, `none` is `RRR_BUG`. -/
def read {α : Type} (s : Slot α) (self : Nat) (cb keep : Bool) : Option (Slot α × Option α) :=
  match s.entry with
  | none => some (s, none)
  | some e => match readerIndex s self with
    | none => none
    | some (s, i) =>
      if didRead s i then some (s, none)
      else if !cb then some (s, some e)
      else if keep then some (s, some e)
      else some (finishRead s i, some e)

/-- `rrr_msg_holder_slot_write`, message_holder_slot.c:376-417, and the other functions to write,
L419-503, from when the writer has the lock. The writer goes on to wait when there is an entry in the
slot. `put`: the wait is not cancelled, the callback succeeds and it does not ask to drop the entry.
Gives the slot and whether the entry was written. -/
def write {α : Type} (s : Slot α) (e : α) (put : Bool) : Slot α × Bool :=
  match s.entry with
  | some _ => (s, false)
  | none =>
    if put then
      ({ s with hasRead := s.hasRead.map (fun _ => false), entry := some e, written := s.written + 1 },
        true)
    else (s, false)

/-- `rrr_msg_holder_slot_count`, message_holder_slot.c:157-179 -/
def count {α : Type} (s : Slot α) : Nat :=
  match s.entry with
  | none => 0
  | some _ => 1 + (s.hasRead.filter (· = false)).length

end Verif.Slot
