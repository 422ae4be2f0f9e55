import Verif.Fifo.Model
/-!
# What the operations on a FIFO buffer mean, on lists

No pointers: a buffer is a list of data with order values. `none` as result is an abort, which happens when a callback
returns flags it must not return.
-/
namespace Verif.Fifo.Spec
open Verif Fifo

variable {α σ : Type}

/-- The contents of a buffer. -/
abbrev Items (α : Type) := List (Option α × UInt64)

/-- Contents, reference count calls, callback state and return value after an operation. -/
structure Res (α σ : Type) where
  items : Items α
  log : List (Ev α)
  st : σ
  ret : UInt32

/-- The call `decref` when the data is not NULL. -/
def decref : Option α → List (Ev α)
  | some d => [.decref d]
  | none => []

/-- The call `incref` when the data is not NULL. -/
def incref : Option α → List (Ev α)
  | some d => [.incref d]
  | none => []

/-- Put an item and some calls in front. -/
def Res.cons (x : Option α × UInt64) (r : Res α σ) : Res α σ := { r with items := x :: r.items }
def Res.did (l : List (Ev α)) (r : Res α σ) : Res α σ := { r with log := l ++ r.log }

/-- Search: each entry is shown to the callback once, in order. Entries which it takes (GIVE) are removed, all
others stay, in order; STOP and errors end the pass and keep the rest. -/
def search (cb : σ → Option α → UInt32 × σ) : σ → Items α → Option (Res α σ)
  | st, [] => some ⟨[], [], st, 0⟩
  | st, x :: l =>
    let (act, st') := cb st x.1
    if act = 0 then (search cb st' l).map (·.cons x)
    else if has act CALLBACK_ERR then some ⟨x :: l, [], st', CALLBACK_ERR⟩
    else if has act GIVE then
      let freed := if has act FREE then decref x.1 else []
      if has act STOP then some ⟨l, freed, st', 0⟩
      else (search cb st' l).map (·.did freed)
    else if has act STOP then some ⟨x :: l, [], st', 0⟩
    else none

/-- Insert before the first entry whose order is not smaller. -/
def insert (x : Option α × UInt64) : Items α → Items α
  | [] => [x]
  | y :: l => if y.2 < x.2 then y :: insert x l else x :: y :: l

/-- Ordered write: entries larger than all others go last. The last entry is looked at first, so in a buffer which is
not sorted a new maximum of the last entry goes last also if there are larger ones before. -/
def insertOrdered (x : Option α × UInt64) (l : Items α) : Items α :=
  match l.getLast? with
  | some y => if y.2 < x.2 then l ++ [x] else insert x l
  | none => [x]

/-- Write: what the callback gives is added at the end, or at its place if it asks for an ordered write. -/
def write : List (WRes α) → Items α → Option (Items α × List (Ev α) × UInt32)
  | [], l => some (l, [], 0)
  | w :: ws, l =>
    match writeCheck w.ret with
    | none => none
    | some fl =>
      if fl.err || fl.drop then (if fl.again then write ws l else some (l, [], if fl.err then 1 else 0))
      else match w.data with
        | none => none
        | some d =>
          let l := if fl.ordered then insertOrdered (some d, w.order) l else l ++ [(some d, w.order)]
          if fl.again then (write ws l).map fun (l, g, r) => (l, .incref d :: g, r) else some (l, [.incref d], 0)

/-- Several writes. -/
def writes : List (List (WRes α)) → Items α → Option (Items α × List (Ev α))
  | [], l => some (l, [])
  | w :: ws, l => (write w l).bind fun (l, g, _) => (writes ws l).map fun (l, g') => (l, g ++ g')

/-- Reading and removing everything: each entry is given to the callback once, in order; after STOP or an error the entries not yet
given stay, in front of everything which was written meanwhile (`new`). -/
def forward (cb : σ → Option α → FRes α σ) : σ → Items α → Items α → Option (Res α σ)
  | st, new, [] => some ⟨new, [], st, 0⟩
  | st, new, x :: l =>
    let r := cb st x.1
    (writes r.wrote new).bind fun (new, g) =>
    let g := g ++ if has r.ret FREE then decref x.1 else []
    let ret := r.ret &&& ~~~ FREE
    if has ret GIVE then none
    else if has ret (STOP ||| CALLBACK_ERR ||| GLOBAL_ERR) then some ⟨l ++ new, g, r.st, ret &&& ~~~ STOP⟩
    else if ret ≠ 0 then none
    else (forward cb r.st new l).map (·.did g)

/-- Reading without removing. -/
def read (cb : σ → Option α → UInt32 × σ) : σ → UInt32 → Items α → Option (σ × UInt32)
  | st, ret, [] => some (st, ret)
  | st, ret, x :: l =>
    let (r, st') := cb st x.1
    if r = 0 then read cb st' ret l
    else if has r STOP then some (st', ret ||| (r &&& ~~~ STOP))
    else if has r (GIVE ||| FREE) then none
    else if has r GLOBAL_ERR then some (st', GLOBAL_ERR)
    else if r &&& ~~~ (GIVE ||| FREE ||| STOP ||| CALLBACK_ERR ||| GLOBAL_ERR) ≠ 0 then none
    else read cb st' (ret ||| r) l

/-- Reading the entries above a minimum order value, at most 500 (`n` have been read), when no last element is given. -/
def readMinimum (cb : σ → Option α → UInt32 × σ) (min : UInt64) : Nat → σ → Items α → Option (σ × UInt32)
  | _, st, [] => some (st, 0)
  | n, st, x :: l =>
    if x.2 > min then
      let (r, st') := cb st x.1
      if n + 1 = 500 then some (st', 0)
      else if r = 0 then readMinimum cb min (n + 1) st' l
      else if has r STOP then some (st', r &&& ~~~ STOP)
      else if has r (GIVE ||| FREE) then none
      else some (st', r)
    else readMinimum cb min n st l

/-- Clearing: every entry is given to the callback, what it leaves is released. -/
def clear (cb : σ → Option α → UInt32 × Option α × σ) : σ → Items α → Option (List (Ev α) × σ)
  | st, [] => some ([], st)
  | st, x :: l =>
    let (ret, d, st') := cb st x.1
    if ret ≠ 0 then none else (clear cb st' l).map fun (g, st) => (decref d ++ g, st)

/-- Search and replace: entries are kept, removed or replaced in place, in order. -/
def replace [DecidableEq α] (cb : σ → Option α → UInt64 → RRes α σ) : σ → Items α → Option (Res α σ)
  | st, [] => some ⟨[], [], st, 0⟩
  | st, x :: l =>
    let r := cb st x.1 x.2
    if r.actions = 0 then (replace cb r.st l).map (·.cons x)
    else if has r.actions CALLBACK_ERR then some ⟨x :: l, [], r.st, CALLBACK_ERR⟩
    else if has r.actions (REPLACE ||| GIVE) then
      let d := if has r.actions FREE then x.1 else none
      if has r.actions GIVE then
        if has r.actions REPLACE then none
        else if has r.actions STOP then some ⟨l, decref d, r.st, 0⟩
        else (replace cb r.st l).map (·.did (decref d))
      else if d = r.data then none
      else
        let y := (r.data, r.order)
        let g := decref d ++ incref r.data
        if has r.actions STOP then some ⟨y :: l, g, r.st, 0⟩
        else (replace cb r.st l).map fun x => (x.cons y).did g
    else if has r.actions STOP then some ⟨x :: l, [], r.st, 0⟩
    else none

/-- No entry is taken (GIVE) when an entry has been replaced (REPLACE) since the last one which was kept; `stale` says that an entry has been
replaced. -/
def replaceSafe (cb : σ → Option α → UInt64 → RRes α σ) : Bool → σ → Items α → Bool
  | _, _, [] => true
  | stale, st, x :: l =>
    let r := cb st x.1 x.2
    if r.actions = 0 then replaceSafe cb false r.st l
    else if has r.actions (CALLBACK_ERR) then true
    else if has r.actions GIVE then !stale && (has r.actions STOP || replaceSafe cb stale r.st l)
    else if has r.actions REPLACE then has r.actions STOP || replaceSafe cb true r.st l
    else true

/-- The entries which the callback adds after search and replace: always at the end. -/
def again : List (WRes α) → Items α → Option (Items α × List (Ev α) × UInt32)
  | [], l => some (l, [], 0)
  | w :: ws, l =>
    match writeCheck w.ret with
    | none => none
    | some fl =>
      if fl.err then some (l, [], 1)
      else if fl.drop then (if fl.again then again ws l else some (l, [], 0))
      else match w.data with
        | none => none
        | some d =>
          if fl.again then (again ws (l ++ [(some d, w.order)])).map fun (l, g, r) => (l, .incref d :: g, r)
          else some (l ++ [(some d, w.order)], [.incref d], 0)

/-- Search and replace followed by the entries which the callback adds. -/
def replaceAndAdd [DecidableEq α] (cb : σ → Option α → UInt64 → RRes α σ) (add : σ → Option (List (WRes α))) (st : σ) (l : Items α) :
    Option (Res α σ) :=
  (replace cb st l).bind fun r =>
  match r.ret, add r.st with
  | 0, some ws => (again ws r.items).map fun (l, g, rt) => ⟨l, r.log ++ g, r.st, rt⟩
  | _, _ => some r

end Verif.Fifo.Spec
