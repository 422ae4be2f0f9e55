import Verif.Topic.Model
/-!
# Model of `src/lib/mqtt/mqtt_subscription.c`

A collection is the list of its subscriptions in linked list order. Memory
allocation is assumed to succeed. The token tree of a subscription is
`tokenize filter` (`mqtt_subscription.c:95`), so it is not stored separately.
-/
namespace Verif.Subscription
open Verif

/-- `mqtt_subscription.h:49-59 struct rrr_mqtt_subscription`. -/
structure Sub where
  filter : Bytes
  retain : Nat
  rap : Nat
  nl : Nat
  qos : Nat
deriving DecidableEq, Repr

abbrev Coll := List Sub

/-- `mqtt_subscription.c:36`. -/
@[irreducible] def collMax : Nat := 65536

/-- `mqtt_subscription.c:51-119 rrr_mqtt_subscription_new`; `none` is a call of `RRR_BUG`. -/
def new (filter : Bytes) (retain rap nl qos : Nat) : Option Sub :=
  if nl > 0 ∨ rap > 0 ∨ retain > 2 then none                      -- L63
  else if Topic.filterValidateName filter = false then none        -- L67
  else if filter = [] then none                                    -- L81
  else some { filter, retain, rap, nl, qos }

/-- Return values of `add_unique`. -/
inductive AddRes where
  | ok | replaced | refused
deriving DecidableEq, Repr

/-- `mqtt_subscription.c:380-403` with the callback `:409-423`: replace the first
subscription with an equal filter in place and stop; `none` if there is none. -/
def replaceFirst (s : Sub) : Coll → Option Coll
  | [] => none
  | x :: xs => if x.filter = s.filter then some (s :: xs) else (replaceFirst s xs).map (x :: ·)

/-- `mqtt_subscription.c:430-478 rrr_mqtt_subscription_collection_add_unique`
(`mqtt_subscription.c:371-378 check_full` inlined). -/
def addUnique (c : Coll) (s : Sub) (putAtEnd : Bool) : AddRes × Coll :=
  if c = [] then (.ok, [s])                                        -- L437-441
  else match replaceFirst s c with
    | some c' => (.replaced, c')                                   -- L459-460
    | none =>
      if c.length ≥ collMax then (.refused, c)                     -- L463
      else if putAtEnd then (.ok, c ++ [s]) else (.ok, s :: c)     -- L467-472

/-- `mqtt_subscription.c:518-540 rrr_mqtt_subscription_collection_remove_topic`:
number removed and new collection; `none` is `RRR_BUG`. -/
def removeTopic (c : Coll) (topic : Bytes) : Option (Nat × Coll) :=
  let removed := (c.filter (fun s => s.filter = topic)).length
  if removed > 1 then none else some (removed, c.filter (fun s => s.filter ≠ topic))

/-- `mqtt_subscription.c:594-636 rrr_mqtt_subscription_collection_append_unique_copy_from_collection`.
The callback gets the source subscription and a state; it returns its return value.
Result: `true` = OK, `false` = internal error, then new collection and state. -/
def appendCopy {σ : Type} (inclInvalid : Bool) (cb : Option (σ → Sub → Bool × σ)) :
    Coll → Coll → σ → Bool × Coll × σ
  | target, [], st => (true, target, st)
  | target, node :: rest, st =>
    if inclInvalid = false ∧ node.qos > 2 then appendCopy inclInvalid cb target rest st   -- L604
    else
      let (r, target') := addUnique target node true                                      -- L615
      match r with
      | .replaced => appendCopy inclInvalid cb target' rest st                            -- L623-625
      | r =>
        match cb with
        | some f =>
          let (ok, st') := f st node                                                      -- L620: overwrites ret
          if ok then appendCopy inclInvalid cb target' rest st' else (false, target', st')
        | none => if r = .ok then appendCopy inclInvalid cb target' rest st else (false, target', st)

/-- `mqtt_subscription.c:638-680 ..._remove_topics_matching_and_set_reason`: for each
unsubscribe entry `(filter, reason)` with reason OK (0), remove the filter and set
the reason to OK (0) or NO_SUBSCRIPTION_EXISTED (0x11). `none` is `RRR_BUG`. -/
def removeMatching : Coll → List (Bytes × Nat) → Option (Nat × Coll × List (Bytes × Nat))
  | c, [] => some (0, c, [])
  | c, (f, reason) :: rest =>
    if reason ≠ 0 then
      (removeMatching c rest).map fun (n, c', r) => (n, c', (f, reason) :: r)
    else match removeTopic c f with
      | none => none
      | some (k, c') =>
        (removeMatching c' rest).map fun (n, c'', r) =>
          if k = 0 then (n, c'', (f, 0x11) :: r) else (n + 1, c'', (f, 0) :: r)

/-- `mqtt_subscription.c:202-240 ..._match_publish_with_callback` with a callback that
always succeeds and records the subscription: the subscriptions the callback is
called for, in order. `none` is a process abort. -/
def matchPublish (c : Coll) (topic : Bytes) : Option (List Sub) :=
  match c with
  | [] => some []
  | s :: rest =>
    if Topic.validateName topic = false then none                  -- L192
    else match Topic.matchStr s.filter topic with
      | .abort => none
      | .match => (matchPublish rest topic).map (s :: ·)
      | .mismatch => matchPublish rest topic

/-- Operations on a session's collection. -/
inductive Op where
  | add (s : Sub) (putAtEnd : Bool)
  | remove (topic : Bytes)
deriving DecidableEq, Repr

/-- One operation; `none` is an abort. -/
def step (c : Coll) : Op → Option Coll
  | .add s e => some (addUnique c s e).2
  | .remove t => (removeTopic c t).map (·.2)

/-- A sequence of operations. -/
def run (c : Coll) : List Op → Option Coll
  | [] => some c
  | op :: ops => match step c op with
    | none => none
    | some c' => run c' ops

end Verif.Subscription
