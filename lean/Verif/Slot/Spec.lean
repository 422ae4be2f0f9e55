import Verif.Slot.Model
/-!
# What is expected of a slot

The history of a slot: what was written to it, what each reader has processed, and what has been
released. An entry is processed by a reader when the callback was called with it, returned success and
did not ask for the entry to be kept.
-/
namespace Verif.Slot
open Verif

/-- What may happen. -/
inductive Op (α : Type) where
  | write (e : α) (put : Bool)
  | read (self : Nat) (cb keep : Bool)

/-- A slot and its history. -/
structure State (α : Type) where
  slot : Slot α
  written : List α
  processed : Nat → List α
  released : List α

/-- A new slot for `n` readers. -/
def start (α : Type) (n : Nat) : State α :=
  { slot := new α n, written := [], processed := fun _ => [], released := [] }

/-- One step. `none` when the program is ended by `RRR_BUG`. -/
def step {α : Type} (s : State α) : Op α → Option (State α)
  | .write e put =>
    let r := write s.slot e put
    some { s with slot := r.1, written := if r.2 then s.written ++ [e] else s.written }
  | .read self cb keep => match read s.slot self cb keep with
    | none => none
    | some (slot, given) =>
      some { s with
        slot := slot
        processed := fun r =>
          if r = self ∧ cb = true ∧ keep = false then s.processed r ++ given.toList
          else s.processed r
        released := match s.slot.entry, slot.entry with
          | some e, none => s.released ++ [e]
          | _, _ => s.released }

/-- A number of steps. -/
def run {α : Type} (s : State α) : List (Op α) → Option (State α)
  | [] => some s
  | op :: ops => (step s op).bind (fun s => run s ops)

/-- Only these readers read from the slot. -/
def ReadBy {α : Type} (ids : List Nat) (ops : List (Op α)) : Prop :=
  ∀ r cb keep, Op.read r cb keep ∈ ops → r ∈ ids

/-- C29. -/
structure Sound {α : Type} (ids : List Nat) (s : State α) : Prop where
  /-- Every reader has processed what was written in the same order and each entry once. -/
  inOrder : ∀ r ∈ ids, s.processed r <+: s.written
  /-- What has been released was processed by every reader before. -/
  released : ∀ r ∈ ids, s.released <+: s.processed r
  /-- What was written has been released, except for what is in the slot. Nothing is replaced. -/
  kept : s.written = s.released ++ s.slot.entry.toList

end Verif.Slot
