import Verif.Common
/-!
# Wake-ups of readers by writers

An instance sleeps in its event loop until another instance has written messages for it. The writer adds the number of messages to the reader's event descriptor; the reader's event handler takes
this number and calls the module, which polls for as many messages as the number says, and what remains of the number is kept for later.

Each shared access (one entry stored in a buffer, one write to or read of an event descriptor, one entry given) is a step, and the steps of all threads may come in any order.
-/
namespace Verif.Wake
open Verif

/-- Who reads from whom (`rrr_message_broker_write_listener_add`, `rrr_message_broker_sender_add`, message_broker.c:1752-1790), and which instances have duplicated output (`split_buffers_active`). -/
structure Cfg where
  /-- `write_notify_listeners` of a writer -/
  listeners : Nat → List Nat
  /-- `senders` of a reader -/
  senders : Nat → List Nat
  /-- `split_buffers_active` of a writer -/
  dup : Nat → Bool

/-- Where a reader is in `__rrr_event_signal_event` (event/event.c:196-320). -/
inductive Handler where
  /-- not inside -/
  | idle
  /-- at the condition of the loop :271, with the local variables `count` and `retries` -/
  | loop (count retries : Nat)
  /-- in the module's function :276, which has been passed `amount` -/
  | poll (count amount retries : Nat)

/-- The event for messages of one reader: `struct rrr_event_function` and what libevent and the kernel keep. -/
structure EvQ where
  /-- the number in the event descriptor -/
  fd : Nat := 0
  /-- `deferred_amount` -/
  deferred : Nat := 0
  /-- `event_add` has been called for `signal_event` and not `event_del` since -/
  added : Bool := true
  /-- `event_active` has been called -/
  active : Bool := false
  /-- `is_paused` -/
  paused : Bool := false
  /-- the unpause timer is pending -/
  timer : Bool := false
  h : Handler := .idle

structure St where
  /-- number of messages of a writer which have not been given to the readers of one of its buffers: by reader for duplicated output, else all in buffer 0 -/
  left : Nat → Nat → Nat
  /-- messages stored by the write call a writer is in -/
  wr : Nat → Nat
  /-- notifications about to be sent: reader and amount -/
  todo : List (Nat × Nat)
  q : Nat → EvQ

def St.init : St := { left := fun _ _ => 0, wr := fun _ => 0, todo := [], q := fun _ => {} }

/-- The buffer of writer `s` from which reader `r` is given messages (`__rrr_message_broker_get_source_buffer`, message_broker.c:1453-1506). That the readers' buffers are
filled from the common buffer is modelled in Hub. -/
def Cfg.key (c : Cfg) (s r : Nat) : Nat := if c.dup s then r else 0

/-- The loop of `rrr_message_broker_write_entries_from_collection_unsafe`, message_broker.c:1339-1358. For the other functions (:1094-1101, :1212-1217, :1279-1285) there is one notification, as the amount
is at most `0xff` (:965). -/
def chunks (k : Nat) : List Nat := go k k
where
  /-- The first argument bounds the number of rounds. -/
  go : Nat → Nat → List Nat
  | 0, _ => []
  | n + 1, k => if k = 0 then [] else if 0xff < k then 0xff :: go n (k - 0xff) else [k]

/-- `__rrr_message_broker_write_notifications_send`, message_broker.c:702-712: all listeners for duplicated output (:646-672), otherwise a random one (:674-700; `rnd` is the random number). -/
def notify1 (c : Cfg) (s rnd k : Nat) : List (Nat × Nat) :=
  if c.dup s then (c.listeners s).map (fun r => (r, k))
  else match (c.listeners s)[rnd % (c.listeners s).length]? with
    | some r => [(r, k)]
    | none => []

def notify (c : Cfg) (s : Nat) (rnd : Nat → Nat) (k : Nat) : List (Nat × Nat) :=
  ((chunks k).zipIdx.map (fun x => notify1 c s (rnd x.2) x.1)).flatten

/-- `f` changed at one place. -/
def upd {β : Type} (f : Nat → β) (i : Nat) (v : β) : Nat → β := fun j => if j = i then v else f j

inductive Act where
  /-- one entry is stored in a buffer by a write function -/
  | store (s : Nat)
  /-- the write function has stored its entries and notifies -/
  | done (s : Nat) (rnd : Nat → Nat)
  /-- `rrr_message_broker_write_entry` fails in a later round of its callback, message_broker.c:1083-1091 -/
  | fail (s : Nat)
  /-- `rrr_message_broker_write_entries_from_collection_unsafe` fails with `k` entries not written, and notifies all the same, message_broker.c:1332-1358 -/
  | over (s k : Nat) (rnd : Nat → Nat)
  /-- `rrr_event_pass` -/
  | pass (i : Nat)
  /-- the event loop calls the handler; `pause`: what the pause callback of the module says -/
  | dispatch (r : Nat) (pause : Bool)
  /-- the handler calls the module's function -/
  | call (r : Nat)
  /-- in it, a message of `s` is given to the module -/
  | give (r s : Nat)
  /-- the module's function returns -/
  | ret (r : Nat)
  /-- the handler returns -/
  | fin (r : Nat)
  /-- the unpause timer -/
  | fire (r : Nat)

/-- libevent calls the handler of an event which is added and whose descriptor is readable (an event descriptor is while its number is not zero), and of an event which was made active. -/
def EvQ.callable (e : EvQ) : Bool := e.active || (e.added && decide (0 < e.fd))

/-- event/event.c:215-248. -/
def EvQ.dispatch (e : EvQ) (pause : Bool) : EvQ :=
  let e := { e with active := false }
  -- :227-242
  if pause then { e with paused := true, added := false, timer := true }
  else
    let e := { e with paused := false }
    -- :244-247
    if 0 < e.deferred then { e with deferred := 0, h := .loop e.deferred 5 }
    -- :250, `rrr_socket_eventfd_read`: the number is taken and becomes zero
    else { e with fd := 0, h := .loop e.fd 5 }

/-- event/event.c:271-273. -/
def EvQ.call (e : EvQ) : Option EvQ :=
  match e.h with
  | .loop count retries =>
    if 0 < count ∧ 0 < retries then some { e with h := .poll (count - min count 0xffff) (min count 0xffff) (retries - 1) } else none
  | _ => none

/-- `--(*callback_data->amount)`, message_broker.c:1420 and :1447. Nothing is given once it is zero (:1421, :1663). -/
def EvQ.take (e : EvQ) : Option EvQ :=
  match e.h with
  | .poll count amount retries => if 0 < amount then some { e with h := .poll count (amount - 1) retries } else none
  | _ => none

/-- event/event.c:301-303. -/
def EvQ.ret (e : EvQ) : Option EvQ :=
  match e.h with
  | .poll count amount retries => some { e with h := .loop (count + amount) retries }
  | _ => none

/-- event/event.c:309-316. -/
def EvQ.fin (e : EvQ) : Option EvQ :=
  match e.h with
  | .loop count retries =>
    if 0 < count ∧ 0 < retries then none
    else if 0 < count then some { e with deferred := count, active := true, h := .idle }
    else some { e with h := .idle }
  | _ => none

/-- `__rrr_event_unpause`, event/event.c:174-194. -/
def EvQ.fire (e : EvQ) : EvQ :=
  let e := { e with timer := false }
  if e.paused then { e with added := true } else e

def St.setQ (st : St) (r : Nat) (e : EvQ) : St := { st with q := upd st.q r e }

/-- One step; `none` if it cannot be taken in this state. -/
def St.step (c : Cfg) (st : St) : Act → Option St
  | .store s =>
    some { st with
      left := fun s' b => if s' = s ∧ (if c.dup s then b ∈ c.listeners s else b = 0) then st.left s' b + 1 else st.left s' b
      wr := upd st.wr s (st.wr s + 1) }
  | .done s rnd => some { st with todo := st.todo ++ notify c s rnd (st.wr s), wr := upd st.wr s 0 }
  | .fail s => some { st with wr := upd st.wr s 0 }
  | .over s k rnd => some { st with todo := st.todo ++ notify c s rnd (st.wr s + k), wr := upd st.wr s 0 }
  | .pass i =>
    match st.todo[i]? with
    | some (r, k) => some { st with todo := st.todo.eraseIdx i, q := upd st.q r { st.q r with fd := (st.q r).fd + k } }
    | none => none
  | .dispatch r pause =>
    match (st.q r).h with
    | .idle => if (st.q r).callable then some (st.setQ r ((st.q r).dispatch pause)) else none
    | _ => none
  | .call r => (st.q r).call.map (st.setQ r)
  | .give r s =>
    if s ∈ c.senders r ∧ 0 < st.left s (c.key s r) then
      (st.q r).take.map fun e =>
        { (st.setQ r e) with left := fun s' b => if s' = s ∧ b = c.key s r then st.left s' b - 1 else st.left s' b }
    else none
  | .ret r => (st.q r).ret.map (st.setQ r)
  | .fin r => (st.q r).fin.map (st.setQ r)
  | .fire r =>
    match (st.q r).h with
    | .idle => if (st.q r).timer then some (st.setQ r (st.q r).fire) else none
    | _ => none

def St.run (c : Cfg) : St → List Act → Option St
  | st, [] => some st
  | st, a :: as => (st.step c a).bind (fun st' => st'.run c as)

end Verif.Wake
