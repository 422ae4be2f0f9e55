import Verif.AltSvc.Model

/-!
# What graylists and alternative services are for
-/
namespace Verif.AltSvc.Spec
open Verif Verif.AltSvc

/-- What happens to a graylist: an address is put on it for some time, or it is looked at. -/
inductive Op where
  | push (now : Nat) (addr : Bytes) (period : Nat) (flags : UInt32)
  | look (now : Nat)

def step (l : List Entry) : Op → List Entry
  | .push now addr period flags => push now addr period flags l
  | .look now => fresh now l

def run (ops : List Op) : List Entry := ops.foldl step []

/-- The flags which an address was put on the list with, for the times which have not passed. -/
def active (ops : List Op) (now : Nat) (addr : Bytes) : List UInt32 := ops.filterMap fun
  | .push t a p f => if a = addr ∧ p ≠ 0 ∧ now ≤ t + p then some f else none
  | .look _ => none

/-- A connection is to be made to a server, with a number for port and application. -/
structure Try where
  time : Nat
  server : Bytes
  number : UInt64
deriving DecidableEq

/-- The list after some requests, and the connections which were made. -/
def tries : List Try → List Entry × List Try
  | [] => ([], [])
  | t :: r => let s := tries r  -- The list is latest first
              ((attempt t.time t.server t.number s.1).1, if (attempt t.time t.server t.number s.1).2 = .connect then t :: s.2 else s.2)

/-- Latest first, the time does not go back. -/
def Backward : List Try → Prop
  | [] => True
  | [_] => True
  | a :: b :: r => b.time ≤ a.time ∧ Backward (b :: r)

/-- A service which may be used in place of the original one. -/
structure Usable (now : Nat) (c : Client) (force : Nat) (original : Choice) (s : Service) : Prop where
  has : c.has s.transport = true
  forced : force = 0 ∨ force = s.transport
  port : matchNumber original.port original.app = s.matchNumber
  server : original.server = s.matchString
  /-- It is not the case that a connection was made less than a second ago but not in the last fifth of it. -/
  free : ∀ a, addrMake (serverOf s original) (matchNumber s.port s.app) = some a → ¬ (flagsOf now a (c.gray s.transport) &&& long ≠ 0 ∧ flagsOf now a (c.gray s.transport) &&& short = 0)

def choice (original : Choice) (s : Service) : Choice := ⟨s.transport, s.app, serverOf s original, s.port⟩

end Verif.AltSvc.Spec
