import Verif.Common
/-!
# Model of `src/lib/fifo.c`

The buffer is a singly linked list in memory. Memory is modelled as cells with addresses, so that the pointer
manipulations of the code are what is modelled; an access through NULL or to a cell which has been
freed is the outcome `fault`. Addresses of freed entries are not given out again (simplification: in reality an access after
free may hit a new entry, which is no better).

`α` stands for the data of an entry (pointer and size), `none` for a NULL pointer. Reference
counting of the data is visible as a log of `incref` and `decref` calls. Callbacks are functions on a state `σ`.

Not modelled: allocation failure, debug messages, thread cancellation (`pthread_cleanup_push`).
-/
namespace Verif.Fifo
open Verif

/-- `fifo.h:53-58 struct rrr_fifo_entry`. -/
structure Entry (α : Type) where
  data : Option α
  order : UInt64
  next : Option Nat
deriving Repr

/-- Calls of the reference counting functions. -/
inductive Ev (α : Type) where
  | incref (d : α)
  | decref (d : α)
deriving DecidableEq, Repr

/-- Memory: cells at addresses, addresses from `brk` on have not been used. -/
structure Mem (α : Type) where
  cell : Nat → Option (Entry α)
  brk : Nat
  log : List (Ev α)

/-- `fifo.h:60-68 struct rrr_fifo`. -/
structure Fifo where
  first : Option Nat
  last : Option Nat
  count : UInt32
deriving DecidableEq, Repr

/-- `fifo.c:120-130 rrr_fifo_init_custom_refcount`. -/
def Fifo.init : Fifo := ⟨none, none, 0⟩

/-- Outcome: returned, `RRR_BUG` or failed assertion, or a bad memory access (or a loop which does not end). -/
inductive Out (β : Type) where
  | ok (b : β) | bug | fault
deriving DecidableEq, Repr

/-- Statement sequencing. -/
def Out.bind {β γ : Type} : Out β → (β → Out γ) → Out γ
  | .ok b, f => f b
  | .bug, _ => .bug
  | .fault, _ => .fault

instance : Monad Out where
  pure := .ok
  bind := Out.bind

variable {α σ : Type}

/-! ## Memory accesses -/

/-- Replace a cell. -/
def Mem.set (m : Mem α) (a : Nat) (e : Option (Entry α)) : Mem α :=
  { m with cell := fun b => if b = a then e else m.cell b }

/-- Read an entry. -/
def Mem.get (m : Mem α) (a : Nat) : Out (Entry α) :=
  match m.cell a with
  | some e => .ok e
  | none => .fault

/-- `p->next = next`. -/
def Mem.setNext (m : Mem α) (a : Nat) (next : Option Nat) : Out (Mem α) :=
  match m.cell a with
  | some e => .ok (m.set a (some { e with next := next }))
  | none => .fault

/-- `p->next = next` where `p` may be NULL, which faults. -/
def Mem.setNext? (m : Mem α) (p : Option Nat) (next : Option Nat) : Out (Mem α) :=
  match p with
  | some a => m.setNext a next
  | none => .fault

/-- `fifo.c:71-98 __rrr_fifo_entry_new`: a zeroed entry. -/
def Mem.alloc (m : Mem α) : Nat × Mem α :=
  (m.brk, { m with cell := (m.set m.brk (some ⟨none, 0, none⟩)).cell, brk := m.brk + 1 })

/-- `fifo.c:33-40 __rrr_fifo_entry_incref_data`. -/
def Mem.incref (m : Mem α) (d : Option α) : Mem α :=
  match d with
  | some x => { m with log := m.log ++ [.incref x] }
  | none => m

/-- `fifo.c:42-50 __rrr_fifo_entry_decref_data`, on the data pointer. -/
def Mem.decref (m : Mem α) (d : Option α) : Mem α :=
  match d with
  | some x => { m with log := m.log ++ [.decref x] }
  | none => m

/-- `fifo.c:52-58 __rrr_fifo_entry_destroy`: decref of the data, then free. -/
def Mem.destroy (m : Mem α) (a : Nat) : Out (Mem α) :=
  match m.cell a with
  | some e => .ok ((m.decref e.data).set a none)
  | none => .fault

/-- `fifo.c:60-65`, `:67-70`: free an entry, with `release_data` before the data is left alone. -/
def Mem.free (m : Mem α) (a : Nat) : Out (Mem α) :=
  match m.cell a with
  | some _ => .ok (m.set a none)
  | none => .fault

/-! ## Flags, `fifo_common.h:25-38` -/

abbrev GLOBAL_ERR : UInt32 := 1
abbrev CALLBACK_ERR : UInt32 := 2
abbrev STOP : UInt32 := 8
abbrev GIVE : UInt32 := 16
abbrev FREE : UInt32 := 32
abbrev REPLACE : UInt32 := 64
abbrev AGAIN : UInt32 := 1024
abbrev DROP : UInt32 := 2048
abbrev ORDERED : UInt32 := 4096

/-- `(x & f) != 0` -/
def has (x f : UInt32) : Bool := x &&& f != 0

/-! ## Clear -/

/-- `fifo.c:158-187`, the loop: the callback may replace the data pointer (by NULL when it takes the data). -/
def clearLoop (cb : σ → Option α → UInt32 × Option α × σ) : Nat → Mem α → Option Nat → Nat → σ → Out (Mem α × Nat × σ)
  | _, m, none, freed, st => .ok (m, freed, st)
  | 0, _, some _, _, _ => .fault
  | fuel + 1, m, some a, freed, st =>
    (m.get a).bind fun e =>
    let (ret, d, st) := cb st e.data
    if ret ≠ 0 then .bug
    else ((m.decref d).free a).bind fun m => clearLoop cb fuel m e.next (freed + 1) st

/-- `fifo.c:155-187 rrr_fifo_clear_with_callback`. -/
def clear (cb : σ → Option α → UInt32 × Option α × σ) (m : Mem α) (f : Fifo) (st : σ) : Out (Mem α × Fifo × σ) :=
  (clearLoop cb (m.brk + 1) m f.first 0 st).bind fun (m, freed, st) =>
  if f.count ≠ UInt32.ofNat freed then .bug else .ok (m, .init, st)

/-! ## Search -/

/-- Result of a pass over the buffer: memory, buffer, callback state, return value and cleared entries. -/
structure Pass (α σ : Type) where
  mem : Mem α
  fifo : Fifo
  st : σ
  ret : UInt32
  cleared : Nat

/-- Unlink `a` with successor `next` (`fifo.c:277-285`, `:515-523`). -/
def unlink (m : Mem α) (f : Fifo) (prev : Option Nat) (a : Nat) (next : Option Nat) : Out (Mem α × Fifo) :=
  let f := if f.first = some a then { f with first := next } else f
  let f := if f.last = some a then { f with last := prev } else f
  match prev with
  | some p => (m.setNext p next).bind fun m => .ok (m, f)
  | none => .ok (m, f)

/-- `fifo.c:255-308`, the loop. -/
def searchLoop (cb : σ → Option α → UInt32 × σ) :
    Nat → Mem α → Fifo → Option Nat → Option Nat → Nat → σ → Out (Pass α σ)
  | _, m, f, _, none, cleared, st => .ok ⟨m, f, st, 0, cleared⟩
  | 0, _, _, _, some _, _, _ => .fault
  | fuel + 1, m, f, prev, some a, cleared, st =>
    (m.get a).bind fun e =>
    let (actions, st) := cb st e.data
    if actions = 0 then searchLoop cb fuel m f (some a) e.next cleared st           -- L268
    else if has actions CALLBACK_ERR then .ok ⟨m, f, st, CALLBACK_ERR, cleared⟩      -- L271
    else if has actions GIVE then                                                    -- L275
      (unlink m f prev a e.next).bind fun (m, f) =>
      (m.free a).bind fun m' =>
      let m := if has actions FREE then m'.decref e.data else m'                     -- L291-295
      if has actions STOP then .ok ⟨m, f, st, 0, cleared + 1⟩
      else searchLoop cb fuel m f prev e.next (cleared + 1) st                       -- L297, L306
    else if has actions STOP then .ok ⟨m, f, st, 0, cleared⟩                         -- L300
    else .bug                                                                        -- L303

/-- `fifo.c:242-313 rrr_fifo_search`. -/
def search (cb : σ → Option α → UInt32 × σ) (m : Mem α) (f : Fifo) (st : σ) : Out (Mem α × Fifo × σ × UInt32) :=
  if f.count = 0 then .ok (m, f, st, 0)
  else
    (searchLoop cb (m.brk + 1) m f none f.first 0 st).bind fun p =>
    if p.fifo.count < UInt32.ofNat p.cleared then .bug                               -- L310 rrr_length_sub_bug
    else .ok (p.mem, { p.fifo with count := p.fifo.count - UInt32.ofNat p.cleared }, p.st, p.ret)

/-! ## Write -/

/-- What a call of the write callback gives. -/
structure WRes (α : Type) where
  ret : UInt32
  data : Option α
  order : UInt64
deriving DecidableEq, Repr

/-- Decoded return value. -/
structure WFlags where
  ordered : Bool
  again : Bool
  drop : Bool
  err : Bool
deriving DecidableEq, Repr

/-- `fifo.c:315-369 __rrr_fifo_write_callback_return_check`; `none` is `RRR_BUG`. -/
def writeCheck (ret : UInt32) : Option WFlags :=
  if ret = 0 then some ⟨false, false, false, false⟩
  else
    let others := ret &&& ~~~ (AGAIN ||| ORDERED ||| DROP)
    if has ret ORDERED ∧ others ≠ 0 then none                                        -- L331
    else if has ret AGAIN ∧ others ≠ 0 then none                                     -- L338
    else if has ret GLOBAL_ERR then
      if ret &&& ~~~ GLOBAL_ERR ≠ 0 then none                                        -- L346
      else some ⟨has ret ORDERED, has ret AGAIN, false, true⟩
    else if has ret DROP then
      if ret &&& ~~~ (DROP ||| AGAIN) ≠ 0 then none                                  -- L354
      else some ⟨has ret ORDERED, has ret AGAIN, true, false⟩
    else if others ≠ 0 then none                                                     -- L363
    else some ⟨has ret ORDERED, has ret AGAIN, false, false⟩

/-- `fifo.c:398-401`: the position for an ordered write, `prev` and `pos`. -/
def findPos (m : Mem α) (order : UInt64) : Nat → Option Nat → Option Nat → Out (Option Nat × Option Nat)
  | _, prev, none => .ok (prev, none)
  | 0, _, some _ => .fault
  | fuel + 1, prev, some a =>
    (m.get a).bind fun e =>
    if e.order < order then findPos m order fuel (some a) e.next else .ok (prev, some a)

/-- Append the entry `a` at the end (L391-395, L405-408, L419-422). -/
def appendLast (m : Mem α) (f : Fifo) (a : Nat) : Out (Mem α × Fifo) :=
  (m.setNext? f.last (some a)).bind fun m =>
  (m.setNext a none).bind fun m => .ok (m, { f with last := some a })

/-- `fifo.c:371-423 __rrr_fifo_write_update_pointers` for the entry `a`, whose order has been set (L379). -/
def updatePointers (m : Mem α) (f : Fifo) (a : Nat) (order : UInt64) (ordered : Bool) : Out (Mem α × Fifo) :=
  match f.first with
  | none => (m.setNext a none).bind fun m => .ok (m, { f with first := some a, last := some a })
  | some first =>
    if ordered then
      match f.last with
      | none => .fault
      | some last =>
        (m.get last).bind fun le =>
        if le.order < order then appendLast m f a
        else
          (findPos m order (m.brk + 1) none (some first)).bind fun (prev, pos) =>
          match pos, prev with
          | none, _ => appendLast m f a
          | some pos, some prev =>
            (m.setNext prev (some a)).bind fun m => (m.setNext a (some pos)).bind fun m => .ok (m, f)
          | some _, none => (m.setNext a f.first).bind fun m => .ok (m, { f with first := some a })
    else appendLast m f a

/-- `checked arithmetic: rrr_length_inc_err` (util/...): the count wraps when it overflows, which is an error. -/
def incErr (f : Fifo) : Fifo × Bool := ({ f with count := f.count + 1 }, f.count + 1 = 0)

/-- `fifo.c:799-868 rrr_fifo_write`: the loop, with what the callback gives at each call (the loop ends at the latest with the list,
the callback may not return AGAIN for ever). -/
def write : List (WRes α) → Mem α → Fifo → Out (Mem α × Fifo × UInt32)
  | [], m, f => .ok (m, f, 0)
  | w :: ws, m, f =>
    let (a, m) := m.alloc
    match writeCheck w.ret with
    | none => .bug
    | some fl =>
      if fl.err || fl.drop then
        (m.free a).bind fun m =>                                                     -- L853
        if fl.again then write ws m f else .ok (m, f, if fl.err then 1 else 0)
      else match w.data with
        | none => .bug                                                               -- L838
        | some d =>
          let m := (m.set a (some ⟨some d, w.order, none⟩)).incref (some d)          -- L842
          (updatePointers m f a w.order fl.ordered).bind fun (m, f) =>
          let (f, e) := incErr f                                                     -- L846
          if fl.again then write ws m f else .ok (m, f, if e then 1 else 0)

/-! ## Search and replace -/

/-- What a call of the callback gives: actions, data, order and the new state. -/
structure RRes (α σ : Type) where
  actions : UInt32
  data : Option α
  order : UInt64
  st : σ

/-- `fifo.c:488-580`, the loop of `rrr_fifo_search_and_replace`. The result `cleared` is not used. -/
def replaceLoop [DecidableEq α] (cb : σ → Option α → UInt64 → RRes α σ) :
    Nat → Mem α → Fifo → Option Nat → Option Nat → σ → Out (Pass α σ)
  | _, m, f, _, none, st => .ok ⟨m, f, st, 0, 0⟩
  | 0, _, _, _, some _, _ => .fault
  | fuel + 1, m, f, prev, some a, st =>
    (m.get a).bind fun e =>
    let r := cb st e.data e.order
    if r.actions = 0 then replaceLoop cb fuel m f (some a) e.next r.st               -- L504
    else if has r.actions CALLBACK_ERR then .ok ⟨m, f, r.st, CALLBACK_ERR, 0⟩        -- L507
    else if has r.actions (REPLACE ||| GIVE) then                                    -- L511
      let d := if has r.actions FREE then e.data else none                           -- L514: data pointer from here on
      if has r.actions GIVE then
        if has r.actions REPLACE then .bug                                           -- L519
        else
          (unlink m f prev a e.next).bind fun (m, f) =>
          (m.free a).bind fun m =>
          let m := m.decref d
          if f.count = 0 then .bug                                                   -- L535 rrr_length_dec_bug
          else
            let f := { f with count := f.count - 1 }
            if has r.actions STOP then .ok ⟨m, f, r.st, 0, 0⟩
            else replaceLoop cb fuel m f prev e.next r.st                            -- L558, L568
      else if d = r.data then .bug                                                   -- L538
      else
        let m := ((m.decref d).set a (some ⟨r.data, r.order, e.next⟩)).incref r.data -- L542-548
        if f.count + 1 = 0 then .ok ⟨m, { f with count := 0 }, r.st, 1, 0⟩           -- L550
        else if has r.actions STOP then .ok ⟨m, f, r.st, 0, 0⟩
        else replaceLoop cb fuel m f prev e.next r.st                                -- L558, L568: `prev` stays
    else if has r.actions STOP then .ok ⟨m, f, r.st, 0, 0⟩                           -- L561
    else .bug                                                                        -- L564

/-- `fifo.c:425-469 __rrr_fifo_search_and_replace_call_again`; the write is never ordered (L458). -/
def callAgain : List (WRes α) → Mem α → Fifo → Out (Mem α × Fifo × UInt32)
  | [], m, f => .ok (m, f, 0)
  | w :: ws, m, f =>
    let (a, m) := m.alloc
    match writeCheck w.ret with
    | none => .bug
    | some fl =>
      if fl.err then (m.free a).bind fun m => .ok (m, f, 1)
      else if fl.drop then (m.free a).bind fun m => if fl.again then callAgain ws m f else .ok (m, f, 0)
      else match w.data with
        | none => .bug
        | some d =>
          let m := (m.set a (some ⟨some d, w.order, none⟩)).incref (some d)
          (updatePointers m f a w.order false).bind fun (m, f) =>
          let (f, e) := incErr f
          if e then .ok (m, f, 1) else if fl.again then callAgain ws m f else .ok (m, f, 0)

/-- `fifo.c:487-588 rrr_fifo_search_and_replace`; `again` is what the callback gives when it is called again after
looping, if that is requested. -/
def searchAndReplace [DecidableEq α] (cb : σ → Option α → UInt64 → RRes α σ) (again : σ → Option (List (WRes α)))
    (m : Mem α) (f : Fifo) (st : σ) : Out (Mem α × Fifo × σ × UInt32) :=
  (replaceLoop cb (m.brk + 1) m f none f.first st).bind fun p =>
  match p.ret, again p.st with
  | 0, some ws => (callAgain ws p.mem p.fifo).bind fun (m, f, r) => .ok (m, f, p.st, r)
  | r, _ => .ok (p.mem, p.fifo, p.st, r)

/-! ## Reading -/

/-- What a call of the callback of `read_clear_forward_all` gives: return value, new state and what it
wrote to the buffer meanwhile (`rrr_fifo_write`, each list one call). -/
structure FRes (α σ : Type) where
  ret : UInt32
  st : σ
  wrote : List (List (WRes α))

/-- Several writes. -/
def writes : List (List (WRes α)) → Mem α → Fifo → Out (Mem α × Fifo)
  | [], m, f => .ok (m, f)
  | w :: ws, m, f => (write w m f).bind fun (m, f, _) => writes ws m f

/-- `fifo.c:650-662`: put the rest of the entries back in front. -/
def putBack (m : Mem α) (f : Fifo) (lastElement next : Option Nat) : Out (Mem α × Fifo) :=
  match next with
  | none => .ok (m, f)
  | some nx =>
    (m.setNext? lastElement f.first).bind fun m =>
    .ok (m, { f with first := some nx, last := if f.last = none then lastElement else f.last })

/-- `fifo.c:612-680`: the loop over the entries taken out. -/
def forwardLoop (cb : σ → Option α → FRes α σ) (lastElement : Option Nat) :
    Nat → Mem α → Fifo → Option Nat → Nat → σ → Out (Pass α σ)
  | _, m, f, none, n, st => .ok ⟨m, f, st, 0, n⟩
  | 0, _, _, some _, _, _ => .fault
  | fuel + 1, m, f, some a, n, st =>
    (m.get a).bind fun e =>
    let r := cb st e.data
    (writes r.wrote m f).bind fun (m, f) =>
    let ret := r.ret &&& ~~~ FREE
    let m := if has r.ret FREE then m.decref e.data else m                           -- L626-634
    if has ret GIVE then .bug                                                        -- L637
    else if has ret (STOP ||| CALLBACK_ERR ||| GLOBAL_ERR) then                      -- L648
      (putBack m f lastElement e.next).bind fun (m, f) =>
      (m.free a).bind fun m => .ok ⟨m, f, r.st, ret &&& ~~~ STOP, n + 1⟩             -- L664-666
    else if ret ≠ 0 then .bug                                                        -- L672
    else (m.free a).bind fun m => forwardLoop cb lastElement fuel m f e.next (n + 1) r.st

/-- `fifo.c:590-687 rrr_fifo_read_clear_forward_all`. -/
def readClearForwardAll (cb : σ → Option α → FRes α σ) (m : Mem α) (f : Fifo) (st : σ) : Out (Mem α × Fifo × σ × UInt32) :=
  if f.count = 0 then .ok (m, f, st, 0)
  else
    (forwardLoop cb f.last (m.brk + 1) m { f with first := none, last := none } f.first 0 st).bind fun p =>
    if p.fifo.count < UInt32.ofNat p.cleared then .bug
    else .ok (p.mem, { p.fifo with count := p.fifo.count - UInt32.ofNat p.cleared }, p.st, p.ret)

/-- `fifo.c:707-735`, the loop of `rrr_fifo_read`. -/
def readLoop (cb : σ → Option α → UInt32 × σ) (m : Mem α) : Nat → Option Nat → UInt32 → σ → Out (σ × UInt32)
  | _, none, ret, st => .ok (st, ret)
  | 0, some _, _, _ => .fault
  | fuel + 1, some a, ret, st =>
    (m.get a).bind fun e =>
    let (r, st) := cb st e.data
    if r = 0 then readLoop cb m fuel e.next ret st
    else if has r STOP then .ok (st, ret ||| (r &&& ~~~ STOP))
    else if has r (GIVE ||| FREE) then .bug
    else if has r GLOBAL_ERR then .ok (st, GLOBAL_ERR)
    else if r &&& ~~~ (GIVE ||| FREE ||| STOP ||| CALLBACK_ERR ||| GLOBAL_ERR) ≠ 0 then .bug
    else readLoop cb m fuel e.next (ret ||| r) st

/-- `fifo.c:694-737 rrr_fifo_read`. -/
def read (cb : σ → Option α → UInt32 × σ) (m : Mem α) (f : Fifo) (st : σ) : Out (σ × UInt32) :=
  if f.count = 0 then .ok (st, 0) else readLoop cb m (m.brk + 1) f.first 0 st

/-- `fifo.h:32 RRR_FIFO_MAX_READS`. -/
def maxReads : Nat := 500

/-- `fifo.c:762-788`, the loop of `rrr_fifo_read_minimum`. -/
def minimumLoop (cb : σ → Option α → UInt32 × σ) (m : Mem α) (lastElement : Option Nat) (min : UInt64) :
    Nat → Option Nat → Nat → σ → Out (σ × UInt32)
  | _, none, _, st => .ok (st, 0)
  | 0, some _, _, _ => .fault
  | fuel + 1, some a, n, st =>
    (m.get a).bind fun e =>
    if e.order > min then
      let (r, st) := cb st e.data
      if n + 1 = maxReads ∨ lastElement = some a then .ok (st, 0)                    -- L769
      else if r = 0 then minimumLoop cb m lastElement min fuel e.next (n + 1) st
      else if has r STOP then .ok (st, r &&& ~~~ STOP)
      else if has r (GIVE ||| FREE) then .bug
      else .ok (st, r)
    else minimumLoop cb m lastElement min fuel e.next n st

/-- `fifo.c:746-792 rrr_fifo_read_minimum`. -/
def readMinimum (cb : σ → Option α → UInt32 × σ) (lastElement : Option Nat) (min : UInt64) (m : Mem α) (f : Fifo) (st : σ) :
    Out (σ × UInt32) :=
  if f.count = 0 then .ok (st, 0) else minimumLoop cb m lastElement min (m.brk + 1) f.first 0 st

/-! ## Merge -/

/-- `fifo.c:870-899 rrr_fifo_merge`: target and source afterwards. -/
def merge (m : Mem α) (t s : Fifo) : Out (Mem α × Fifo × Fifo × UInt32) :=
  if s.count = 0 then .ok (m, t, s, 0)
  else if t.count.toNat + s.count.toNat ≥ 2 ^ 32 then .ok (m, t, s, 1)
  else
    let t := { t with count := t.count + s.count }
    match t.last with
    | some l => (m.setNext l s.first).bind fun m => .ok (m, { t with last := s.last }, .init, 0)
    | none => .ok (m, { t with first := s.first, last := s.last }, .init, 0)

end Verif.Fifo
