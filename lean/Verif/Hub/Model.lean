import Verif.Pfifo.World
/-!
# Model of the duplicated output in `src/lib/message_broker.c`

An instance which writes messages, with duplicated output (`split_buffers`), and the instances which read from it, each in its own thread. The queues are those of `Verif.Pfifo.Model`, with
their memory. Messages are written to the main queue; a reader which polls moves what is there to the split queues, one for each reader, and then reads its own.

A step is one critical section. The locks are assumed to exclude one another: while the split buffer lock is held, a thread which calls lock waits (its step does nothing) and a thread which calls
trylock goes on without.

Not modelled: allocation failure, locks of dead threads, the hooks and the next hops which are set on copies, the backstop. A copy of a message is the same data.
-/
namespace Verif.Hub
open Verif Pfifo

variable {α : Type}

/-- Where a thread is in `message_broker.c:1604-1672 rrr_message_broker_poll_delete`: not there; after `get_source_buffer` with slot `i`; in `split_buffers_fill` with the lock; in the callback of
that, with data `d`, before the copy for slot `j` is written; reading its own slot. -/
inductive At (α : Type) where
  | idle
  | found (i : Nat)
  | fill (i : Nat)
  | copy (i : Nat) (d : Option α) (j : Nat)
  | read (i : Nat)
deriving DecidableEq, Repr

/-- `message_broker.c:71-88 struct rrr_message_broker_costumer`: the main queue and `n` split queues with their owners; who holds `split_buffers.lock`; where the readers are; what they were given. -/
structure Hub (α : Type) where
  main : Sys α
  sq : Nat → Sys α
  owner : Nat → Option Nat
  lock : Option Nat
  at_ : Nat → At α
  log : List (Nat × Option α)

def Hub.init : Hub α := ⟨Sys.init, fun _ => Sys.init, fun _ => none, none, fun _ => .idle, []⟩

/-- What the threads do. -/
inductive HubAct (α : Type) where
  /-- the instance writes a message -/
  | write (d : α)
  /-- reader `r` begins to poll and finds its slot -/
  | find (r : Nat)
  /-- reader `r` begins to fill the split queues, or does not -/
  | fill (r : Nat)
  /-- the next step of reader `r` while it holds the lock -/
  | move (r : Nat)
  /-- the next step of reader `r` while it reads its queue; if that is calling its callback, the callback returns `ret` -/
  | read (r : Nat) (ret : UInt32)
deriving DecidableEq, Repr

/-- `message_broker.c:1480-1494`: the first slot which belongs to the reader or to nobody. -/
def slotOf (owner : Nat → Option Nat) (r : Nat) : Nat → Nat → Option Nat
  | 0, _ => none
  | k + 1, i => if owner i = some r ∨ owner i = none then some i else slotOf owner r k (i + 1)

/-- Move a thread. -/
def Hub.goto (h : Hub α) (r : Nat) (x : At α) : Hub α := { h with at_ := fun q => if q = r then x else h.at_ q }

/-- Set a split queue. -/
def Hub.setSq (h : Hub α) (i : Nat) (s : Sys α) : Hub α := { h with sq := fun j => if j = i then s else h.sq j }

/-- The next step of a call to `rrr_fifo_protected_read_clear_forward` by its reader (`Verif.Pfifo.Model`). -/
def nextAct (s : Sys α) (ret : UInt32) : Act α :=
  match s.rd 0 with
  | .idle => .take 0
  | .loop _ _ _ _ => .next 0 ret
  | .called _ _ _ _ _ _ => .release 0
  | .released _ _ _ _ _ _ => .finish 0
  | .ending _ _ => .done 0

/-- The last event. -/
def lastGiven (s : Sys α) : Option α :=
  match s.log.getLast? with
  | some (.given _ d _ _) => d
  | _ => none

/-- The reader is in its callback. -/
def inCallback (s : Sys α) : Bool :=
  match s.rd 0 with
  | .called _ _ _ _ _ _ => true
  | _ => false

/-- The reader is before its callback. -/
def inLoop (s : Sys α) : Bool :=
  match s.rd 0 with
  | .loop _ _ _ _ => true
  | _ => false

/-- The reader is about to return. -/
def isEnding (s : Sys α) : Bool :=
  match s.rd 0 with
  | .ending _ _ => true
  | _ => false

/-- `message_broker.c:1453-1504 __rrr_message_broker_get_source_buffer`. It waits for the lock, and ends the program if there are more readers than slots. -/
def Hub.find (n : Nat) (h : Hub α) (r : Nat) : Res (Hub α) :=
  match h.at_ r with
  | .idle =>
    if h.lock = none then
      match slotOf h.owner r n 0 with
      | none => .bug
      | some i => .ok ({ h with owner := fun j => if j = i then some r else h.owner j }.goto r (.found i))
    else .ok h
  | _ => .ok h

/-- `message_broker.c:1544-1564 __rrr_message_broker_split_buffers_fill`, before reading. -/
def Hub.fill (h : Hub α) (r : Nat) : Res (Hub α) :=
  match h.at_ r with
  | .found i =>
    if h.main.b.count = 0 ∨ h.lock ≠ none then .ok (h.goto r (.read i))
    else .ok ({ h with lock := some r }.goto r (.fill i))
  | _ => .ok h

/-- `message_broker.c:1508-1542 __rrr_message_broker_split_buffers_fill_callback` (copy to each of the `n` slots with delayed writing, then free) and `:1566-1578`, reading the main queue and unlocking. -/
def Hub.move (n : Nat) (h : Hub α) (r : Nat) : Res (Hub α) :=
  match h.at_ r with
  | .fill i =>
    (h.main.step (nextAct h.main Fifo.FREE)).bind fun m =>
      if isEnding h.main then .ok ({ h with main := m, lock := none }.goto r (.read i))
      else if inLoop h.main && inCallback m then .ok ({ h with main := m }.goto r (.copy i (lastGiven m) 0))
      else .ok { h with main := m }
  | .copy i d j =>
    if j < n then
      match d with
      | none => .fault
      | some x => ((h.sq j).step (.delayed x)).bind fun s => .ok ((h.setSq j s).goto r (.copy i d (j + 1)))
    else .ok (h.goto r (.fill i))
  | _ => .ok h

/-- `message_broker.c:1654-1660`: the reader reads its own queue. -/
def Hub.read (h : Hub α) (r : Nat) (ret : UInt32) : Res (Hub α) :=
  match h.at_ r with
  | .read i =>
    ((h.sq i).step (nextAct (h.sq i) ret)).bind fun s =>
      if isEnding (h.sq i) then .ok ((h.setSq i s).goto r .idle)
      else if inLoop (h.sq i) && inCallback s then .ok { h.setSq i s with log := h.log ++ [(r, lastGiven s)] }
      else .ok (h.setSq i s)
  | _ => .ok h

/-- `message_broker.c:1039-1103 rrr_message_broker_write_entry` and the other write functions write to the main queue; `:1604-1672 rrr_message_broker_poll_delete`. -/
def Hub.step (n : Nat) (h : Hub α) : HubAct α → Res (Hub α)
  | .write d => (h.main.step (.write d)).bind fun m => .ok { h with main := m }
  | .find r => h.find n r
  | .fill r => h.fill r
  | .move r => h.move n r
  | .read r ret => h.read r ret

/-- A sequence of steps. -/
def Hub.run (n : Nat) (h : Hub α) : List (HubAct α) → Res (Hub α)
  | [] => .ok h
  | a :: as => (h.step n a).bind fun h => h.run n as

end Verif.Hub
