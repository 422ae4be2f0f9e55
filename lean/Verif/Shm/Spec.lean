import Verif.Shm.Model
/-!
# What users of shared memory see

An account is kept beside the program: which object was handed out last for each handle and not freed
since, and for each process how many changes it has not looked at.
-/
namespace Verif.Shm

/-- The program and the account. -/
structure World where
  sys : Sys
  held : List (Option Nat)
  behind : List Nat

/-- Nothing is handed out. The first look of a slave is made as if there had been a change. -/
def World.start (pid : Nat) (root : List Nat) : World :=
  { sys := Shm.start pid root, held := List.replicate maxElems none, behind := [1] }

/-- The operating system maps an object where nothing is mapped, and never at NULL. `mmap` does not
fail; `shm_open` may. -/
structure Kernel.Sane (k : Kernel) : Prop where
  free : ∀ m a, k m = .mapped a → a ≠ 0 ∧ ∀ x ∈ m, x.addr ≠ a
  maps : ∀ m, k m ≠ .failed

/-- The operating system never fails. -/
structure Kernel.Works (k : Kernel) : Prop extends k.Sane where
  opens : ∀ m, k m ≠ .openFail

/-- Shared memory is made with a new name, or making it fails. `ftruncate` does not fail. -/
def Created.Sane (c : Created) (s : Sys) : Prop := match c with
  | .openFail => True
  | .truncFail _ => False
  | .made name => ∀ f ∈ s.files, f.1 ≠ name

/-- Process `p` allocates. -/
def World.allocate (w : World) (p size : Nat) (c : Created) : World :=
  match masterAllocate p size c w.sys with
  | (s, none) => { w with sys := s }
  | (s, some h) => { sys := s, held := w.held.set h (some w.sys.objs.length), behind := w.behind.map (· + 1) }

/-- The handle `h` has been freed. -/
def World.freed (w : World) (h : Nat) (s : Sys) : World :=
  { sys := s, held := w.held.set h none, behind := w.behind.map (· + 1) }

/-- Process `p` has looked at the changes, if it could. -/
def World.looked (w : World) (p : Nat) (k : Kernel) (s : Sys) : World := match w.sys.procs[p]? with
  | none => w
  | some q => { w with sys := s, behind := if (refresh w.sys k q).2 then w.behind.set p 0 else w.behind }

/-- No process is so far behind that 2^32 changes go by. -/
def World.Recent (w : World) : Prop := ∀ b ∈ w.behind, b + 1 < 2 ^ 32

/-- What may happen. -/
inductive Step : World → World → Prop
  | allocate (w p size c) : 0 < size → c.Sane w.sys → w.Recent → p < w.sys.procs.length →
      Step w (w.allocate p size c)
  | free (w p h o s) : w.held[h]? = some (some o) → masterFree p h w.sys = some s → w.Recent →
      Step w (w.freed h s)
  | resolve (w p h k) : k.Sane → p < w.sys.procs.length → Step w (w.looked p k (resolve p h k w.sys).1)
  | fork (w p pid b) : p < w.sys.procs.length → w.behind[p]? = some b →
      Step w { w with sys := fork p pid w.sys, behind := w.behind ++ [b] }
  | unregister (w p) : Step w { w with sys := forkUnregister p w.sys }

/-- What can be reached. -/
inductive Reach (root : List Nat) : World → Prop
  | start (pid) : Reach root (.start pid root)
  | step (w w') : Reach root w → Step w w' → Reach root w'

/-- Steps while the handle `h` is held with the object `o`. -/
inductive Keeps (h o : Nat) : World → World → Prop
  | refl (w) : w.held[h]? = some (some o) → Keeps h o w w
  | step (w w' w'') : Keeps h o w w' → Step w' w'' → w''.held[h]? = some (some o) → Keeps h o w w''

/-- The process `p` has the whole of object `o` mapped at the address `a`. -/
def World.MappedAt (w : World) (p a o : Nat) : Prop :=
  ∃ (q : Proc) (n : Nat), w.sys.procs[p]? = some q ∧ w.sys.objs[o]? = some n ∧ ⟨a, o, n⟩ ∈ q.maps ∧ a ≠ 0

end Verif.Shm
