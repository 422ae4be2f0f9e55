import Verif.Fifo.Lemmas
/-!
# Model of `src/lib/fifo_protected.c`

The buffer between instances, used by several threads at the same time. Memory is the same as in `Verif.Fifo.Model`: cells at addresses,
freed cells are gone and an access to them is the outcome `fault`.

A step of the model is one critical section of the code (what is done while holding the write lock, or the write queue mutex). What a
thread does with memory only it can reach is made part of the step before or after. Threads are the readers `0, 1, 2, …`, each of which
is somewhere in `rrr_fifo_protected_read_clear_forward`; a call of one of the write functions is one step.

Not modelled: rate limiting, thread cancellation, allocation failure, ordered writes (`WRITE_ORDERED`, which no caller of
this buffer uses), the locks themselves (that they exclude one another is assumed).
-/
namespace Verif.Pfifo
open Verif Fifo

variable {α : Type}

/-- Outcome of a step: `fault` is an access to memory which is NULL or has been freed, `bug` is `RRR_BUG` (the program ends), `full` is that
a 32-bit counter would overflow. -/
inductive Res (β : Type) where
  | ok (b : β) | fault | bug | full
deriving DecidableEq, Repr

/-- Statement sequencing. -/
def Res.bind {β γ : Type} : Res β → (β → Res γ) → Res γ
  | .ok b, f => f b
  | .fault, _ => .fault
  | .bug, _ => .bug
  | .full, _ => .full

/-- `fifo_protected.h:85-105 struct rrr_fifo_protected`. The counters are natural numbers, see `full`. -/
structure Buf (α : Type) where
  m : Mem α
  first : Option Nat := none
  last : Option Nat := none
  wfirst : Option Nat := none
  wlast : Option Nat := none
  count : Nat := 0
  wcount : Nat := 0
  written : UInt64 := 0
  deleted : UInt64 := 0

/-- `fifo_protected.c:271-314 rrr_fifo_protected_init`. -/
def Buf.init : Buf α := { m := ⟨fun _ => none, 0, []⟩ }

/-- Largest value of `rrr_length`, plus one. -/
abbrev LIMIT : Nat := 4294967296

/-- `fifo_protected.h:32 RRR_FIFO_PROTECTED_MAX_READS`. -/
abbrev MAX_READS : Nat := 500

/-- `p->next = next` (used by all of the functions below), where `p` may be NULL. -/
def setNext (m : Mem α) (p : Option Nat) (next : Option Nat) : Res (Mem α) :=
  match p with
  | none => .fault
  | some a =>
    match m.cell a with
    | none => .fault
    | some e => .ok (m.set a (some { e with next := next }))

/-- `fifo_protected.c:144-174 __rrr_fifo_protected_entry_new_unlocked`: a new entry with the data from the callback. -/
def newEntry (m : Mem α) (d : α) : Nat × Mem α :=
  (m.brk, { m with cell := (m.set m.brk (some ⟨some d, 0, none⟩)).cell, brk := m.brk + 1 })

/-- `fifo_protected.c:417-466 __rrr_fifo_protected_write_update_pointers`, without ordered write. -/
def link (b : Buf α) (a : Nat) : Res (Buf α) :=
  match b.first with
  | none => .ok { b with first := some a, last := some a }
  | some _ => (setNext b.m b.last (some a)).bind fun m => .ok { b with m := m, last := some a }

/-- `fifo_protected.c:806-887 rrr_fifo_protected_write`, one round of the loop in which the callback gives data. (A round in which the callback says `DROP` or fails allocates an entry and
frees it again.) -/
def write (b : Buf α) (d : α) : Res (Buf α) :=
  let (a, m) := newEntry b.m d
  (link { b with m := m } a).bind fun b =>
    if b.count + 1 < LIMIT then .ok { b with count := b.count + 1, written := b.written + 1 } else .full

/-- `fifo_protected.c:957-964`: put the entry at the end of the write queue. -/
def linkDelayed (b : Buf α) (a : Nat) : Res (Buf α) :=
  match b.wfirst with
  | none => .ok { b with wfirst := some a, wlast := some a }
  | some _ => (setNext b.m b.wlast (some a)).bind fun m => .ok { b with m := m, wlast := some a }

/-- `fifo_protected.c:896-996 rrr_fifo_protected_write_delayed`, one round of the loop. -/
def writeDelayed (b : Buf α) (d : α) : Res (Buf α) :=
  let (a, m) := newEntry b.m d
  (linkDelayed { b with m := m } a).bind fun b =>
    if b.wcount + 1 < LIMIT then .ok { b with wcount := b.wcount + 1 } else .full

/-- `fifo_protected.c:198-205`: put the write queue at the end of the list. -/
def mergeLink (b : Buf α) : Res (Buf α) :=
  match b.last with
  | none => .ok { b with first := b.wfirst, last := b.wlast }
  | some l => (setNext b.m (some l) b.wfirst).bind fun m => .ok { b with m := m, last := b.wlast }

/-- `fifo_protected.c:177-225 __rrr_fifo_write_queue_merge_nolock`. (The loop which writes back all entries as they were is left out.) -/
def merge (b : Buf α) : Res (Buf α) :=
  match b.wfirst with
  | none => .ok b
  | some _ =>
    (mergeLink b).bind fun b =>
    if b.count + b.wcount < LIMIT then
      .ok { b with wfirst := none, wlast := none, written := b.written + UInt64.ofNat b.wcount,
                   count := b.count + b.wcount, wcount := 0 }
    else .full

/-- `fifo_protected.c:475-634`: where a reader is in `rrr_fifo_protected_read_clear_forward`: not there; at `while (current != stop)`; after the callback has returned `ret`;
after the data has been released or freed; after the loop with the return value. `n` is `processed_entries`. -/
inductive Rd where
  | idle
  | loop (cur stop last : Option Nat) (n : Nat)
  | called (cur : Nat) (next stop last : Option Nat) (n : Nat) (ret : UInt32)
  | released (cur : Nat) (next stop last : Option Nat) (n : Nat) (ret : UInt32)
  | ending (n : Nat) (ret : UInt32)
deriving DecidableEq, Repr

/-- `fifo_protected.c:503-505`: `while (last_element != NULL && --max_counter) last_element = last_element->next;` -/
def walk (cell : Nat → Option (Entry α)) : Nat → Option Nat → Res (Option Nat)
  | 0, p => .ok p
  | _ + 1, none => .ok none
  | k + 1, some a =>
    match cell a with
    | none => .fault
    | some e => walk cell k e.next

/-- `fifo_protected.c:492-523 rrr_fifo_protected_read_clear_forward`, the first critical section: take entries out of the buffer. The check whether the buffer is populated before it is left out: a
reader which begins when there is nothing takes nothing. -/
def take (b : Buf α) : Res (Buf α × Rd) :=
  (merge b).bind fun b =>
  (walk b.m.cell (MAX_READS - 1) b.first).bind fun l =>
  match l with
  | some a =>
    match b.m.cell a with
    | none => .fault
    | some e =>
      .ok ({ b with first := e.next, last := if e.next = none then none else b.last }, .loop b.first e.next (some a) 0)
  | none => .ok ({ b with first := none, last := none }, .loop b.first none b.last 0)

/-- `fifo_protected.c:583`, the flags which make the reading end: `SEARCH_STOP`, `CALLBACK_ERR`, `GLOBAL_ERR`. -/
def stopping (ret : UInt32) : Bool := has ret (STOP ||| CALLBACK_ERR ||| GLOBAL_ERR)

/-- `fifo_protected.c:561-573`, after the callback, with the write lock: `destroy_data_unlocked` when the callback has said `SEARCH_FREE`, otherwise `release_data_unlocked`. Without any flags this
section is skipped. -/
def release (b : Buf α) (cur : Nat) (ret : UInt32) : Res (Buf α × UInt32) :=
  if ret = 0 then .ok (b, ret)
  else
    match b.m.cell cur with
    | none => .fault
    | some e =>
      if has ret FREE then .ok ({ b with m := (b.m.decref e.data).set cur (some { e with data := none }) }, ret &&& ~~~FREE)
      else .ok ({ b with m := b.m.set cur (some { e with data := none }) }, ret)

/-- `fifo_protected.c:103-114 __rrr_fifo_protected_entry_destroy_unlocked`: free the data if there is any, and the entry. -/
def destroy (m : Mem α) (a : Nat) : Res (Mem α) :=
  match m.cell a with
  | none => .fault
  | some e => .ok ((m.decref e.data).set a none)

/-- `fifo_protected.c:136-141 __rrr_fifo_protected_entry_release_data_unlocked` and `destroy_unlocked`. -/
def discard (m : Mem α) (a : Nat) : Res (Mem α) :=
  match m.cell a with
  | none => .fault
  | some _ => .ok (m.set a none)

/-- `fifo_protected.c:587-599`, "Stop processing and put the rest back into the buffer". -/
def putBack (b : Buf α) (next last : Option Nat) : Res (Buf α) :=
  match next with
  | none => .ok b
  | some _ =>
    (setNext b.m last b.first).bind fun m =>
      .ok { b with m := m, first := next, last := if b.last = none then last else b.last }

/-- `fifo_protected.c:575-623`, the rest of a round: either put the rest back, free the entry and leave the loop, or free the entry and go on. -/
def finish (b : Buf α) (cur : Nat) (next stop last : Option Nat) (n : Nat) (ret : UInt32) : Res (Buf α × Rd) :=
  if stopping ret then
    (putBack b next last).bind fun b =>
    (destroy b.m cur).bind fun m => .ok ({ b with m := m }, .ending n (ret &&& ~~~STOP))
  else if ret ≠ 0 then .bug
  else (discard b.m cur).bind fun m => .ok ({ b with m := m }, .loop next stop last n)

/-- `fifo_protected.c:626-630`, after the loop: statistics and counter; `rrr_length_sub_bug` ends the program when the result would be negative. -/
def done (b : Buf α) (n : Nat) : Res (Buf α) :=
  if b.count < n then .bug else .ok { b with count := b.count - n, deleted := b.deleted + UInt64.ofNat n }

/-- What can be seen from outside: reader `r` is given data `d` by the callback, as number `k` in this call, and its callback returned `ret`; a call by reader `r` returned. -/
inductive Event (α : Type) where
  | given (r : Nat) (d : Option α) (k : Nat) (ret : UInt32)
  | returned (r : Nat) (ret : UInt32)
deriving DecidableEq, Repr

/-- The buffer, its readers and what has happened. -/
structure Sys (α : Type) where
  b : Buf α
  rd : Nat → Rd
  log : List (Event α)

def Sys.init : Sys α := ⟨Buf.init, fun _ => .idle, []⟩

/-- What the threads do. -/
inductive Act (α : Type) where
  /-- somebody calls `rrr_fifo_protected_write` -/
  | write (d : α)
  /-- somebody calls `rrr_fifo_protected_write_delayed` -/
  | delayed (d : α)
  /-- reader `r` calls `rrr_fifo_protected_read_clear_forward` -/
  | take (r : Nat)
  /-- reader `r` goes on to the next entry; its callback returns `ret` -/
  | next (r : Nat) (ret : UInt32)
  | release (r : Nat)
  | finish (r : Nat)
  | done (r : Nat)
deriving DecidableEq, Repr

/-- Set the state of a reader. -/
def Sys.setRd (s : Sys α) (r : Nat) (x : Rd) : Sys α := { s with rd := fun q => if q = r then x else s.rd q }

/-- `fifo_protected.c:475-634`, `:806-996`: one step. A step which is not the next one of that reader does nothing. -/
def Sys.step (s : Sys α) : Act α → Res (Sys α)
  | .write d => (write s.b d).bind fun b => .ok { s with b := b }
  | .delayed d => (writeDelayed s.b d).bind fun b => .ok { s with b := b }
  | .take r =>
    match s.rd r with
    | .idle => (take s.b).bind fun (b, x) => .ok ({ s with b := b }.setRd r x)
    | _ => .ok s
  | .next r ret =>
    match s.rd r with
    | .loop cur stop last n =>
      if cur = stop then .ok (s.setRd r (.ending n 0))
      else
        match cur with
        | none => .fault
        | some a =>
          match s.b.m.cell a with
          | none => .fault
          | some e => .ok ({ s with log := s.log ++ [Event.given r e.data (n + 1) ret] }.setRd r (.called a e.next stop last (n + 1) ret))
    | _ => .ok s
  | .release r =>
    match s.rd r with
    | .called cur next stop last n ret =>
      (release s.b cur ret).bind fun (b, ret) => .ok ({ s with b := b }.setRd r (.released cur next stop last n ret))
    | _ => .ok s
  | .finish r =>
    match s.rd r with
    | .released cur next stop last n ret =>
      (finish s.b cur next stop last n ret).bind fun (b, x) => .ok ({ s with b := b }.setRd r x)
    | _ => .ok s
  | .done r =>
    match s.rd r with
    | .ending n ret => (done s.b n).bind fun b => .ok ({ s with b := b, log := s.log ++ [Event.returned r ret] }.setRd r .idle)
    | _ => .ok s

/-- A sequence of steps, in any order. -/
def Sys.run (s : Sys α) : List (Act α) → Res (Sys α)
  | [] => .ok s
  | a :: as => (s.step a).bind fun s => s.run as

/-- `fifo_protected.c:230-259 __rrr_fifo_protected_clear`, the loop. -/
def clearLoop : Nat → Mem α → Option Nat → Res (Mem α)
  | _, m, none => .ok m
  | 0, _, some _ => .fault
  | k + 1, m, some a =>
    match m.cell a with
    | none => .fault
    | some e => (destroy m a).bind fun m => clearLoop k m e.next

/-- `fifo_protected.c:230-269 rrr_fifo_protected_destroy`: free all entries and their data. The loop ends at the latest when there are no more cells (`brk`). -/
def clear (b : Buf α) : Res (Buf α) :=
  (merge b).bind fun b =>
  (clearLoop b.m.brk b.m b.first).bind fun m => .ok { b with m := m, first := none, last := none, count := 0 }

end Verif.Pfifo
