import Verif.Pfifo.Model
/-!
# What is expected of the buffer between instances
-/
namespace Verif.Pfifo
open Verif Fifo

variable {α : Type}

/-- The data which is written in a sequence of steps, in order. -/
def writes : List (Act α) → List α
  | [] => []
  | .write d :: as => d :: writes as
  | .delayed d :: as => d :: writes as
  | _ :: as => writes as

/-- The data which has been given to readers, in order. -/
def given : List (Event α) → List (Option α)
  | [] => []
  | .given _ d _ _ :: es => d :: given es
  | _ :: es => given es

/-- The data which readers have been given and which they have told the buffer to free. -/
def toFree : List (Event α) → List (Option α)
  | [] => []
  | .given _ d _ ret :: es => if has ret FREE then d :: toFree es else toFree es
  | _ :: es => toFree es

/-- The data for which the buffer has called its free function. -/
def freed (log : List (Ev α)) : List (Option α) := log.map fun | .incref d => some d | .decref d => some d

/-- Value a callback may return: any combination of `SEARCH_FREE`, `SEARCH_STOP` and the errors. -/
def flags (free stop callbackErr globalErr : Bool) : UInt32 :=
  (if free then FREE else 0) ||| (if stop then STOP else 0) ||| (if callbackErr then CALLBACK_ERR else 0) |||
    (if globalErr then GLOBAL_ERR else 0)

/-- The return value is one the callback may return. -/
def Legal (ret : UInt32) : Prop := ∃ f s c g, ret = flags f s c g

/-- Callbacks only return what they may. -/
def LegalAct : Act α → Prop
  | .next _ ret => Legal ret
  | _ => True

/-- Only reader 0 reads. -/
def SoloAct : Act α → Prop
  | .take r => r = 0
  | _ => True

/-- No callback stops the reading with the entry which is the last one that a call can give. -/
def QuietAct (s : Sys α) : Act α → Prop
  | .next r ret => ∀ cur stop last, s.rd r = .loop cur stop last (MAX_READS - 1) → stopping ret = false
  | _ => True

/-- As above, in all steps. -/
def Quiet : Sys α → List (Act α) → Prop
  | _, [] => True
  | s, a :: as => QuietAct s a ∧ ∀ s', s.step a = .ok s' → Quiet s' as

/-- The entries in the buffer which no reader has taken, found by following the pointers. -/
def chain (cell : Nat → Option (Entry α)) : Nat → Option Nat → List (Option α)
  | _, none => []
  | 0, some _ => []
  | k + 1, some a =>
    match cell a with
    | none => []
    | some e => e.data :: chain cell k e.next

/-- All readers have returned. -/
def AllIdle (s : Sys α) : Prop := ∀ r, s.rd r = .idle

/-- Nothing is left in memory. -/
def Empty (m : Mem α) : Prop := ∀ a, m.cell a = none

end Verif.Pfifo
