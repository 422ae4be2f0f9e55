import Verif.Common
/-!
# Shared memory

`/repo/src/lib/rrr_shm.c` and `rrr_shm_struct.h`: memory which a master hands out by handle and which
the slave of each process maps.

Names of shared memory are numbers here; the code makes a random string and tries again until the name
is new. The operating system is part of the model: which names are linked to which objects, and which
objects a process has mapped where. Addresses and the outcome of system calls are given by the
environment. There is one master, and one slave in each process; a process which forks copies its own.
The functions take no locks: as the comments at the top of the file demand, none of them are called at
the same time, so each is one step. Memory allocation on the heap does not fail here.
-/
namespace Verif.Shm

/-- `RRR_SHM_COLLECTION_MAX`, rrr_shm_struct.h:27 -/
def maxElems : Nat := 192

/-- `struct rrr_shm`, rrr_shm_struct.h:29-33 -/
structure Elem where
  name : Nat
  size : Nat
  ver : Nat
deriving DecidableEq

/-- `struct rrr_shm_ptr`, rrr_shm_struct.h:35-39. The address 0 is NULL. -/
structure Ptr where
  ptr : Nat
  size : Nat
  ver : Nat
deriving DecidableEq

/-- A mapping of an object in a process, as the operating system has it -/
structure Map where
  addr : Nat
  obj : Nat
  size : Nat
deriving DecidableEq

/-- `struct rrr_shm_holder`, rrr_shm.c:91-96, without the name of the creator -/
structure Holder where
  pid : Nat
  name : Nat
deriving DecidableEq

/-- A process with its `struct rrr_shm_collection_slave`, rrr_shm_struct.h:47-51, its mappings and its
`shm_holders`, rrr_shm.c:103 -/
structure Proc where
  pid : Nat
  ver : Nat
  ptrs : List Ptr
  maps : List Map
  holders : List Holder
deriving DecidableEq

/-- The operating system, the `struct rrr_shm_collection_master`, rrr_shm_struct.h:41-45, and the
processes. `objs` has the size of each object ever made, `files` the names linked to objects and `root`
the names of files in the root directory of the file system. -/
structure Sys where
  objs : List Nat
  files : List (Nat × Nat)
  root : List Nat
  ver : Nat
  elems : List Elem
  procs : List Proc
deriving DecidableEq

/-- A version after the next change, an `unsigned int` -/
def next (v : Nat) : Nat := (v + 1) % 2 ^ 32

/-- `rrr_shm_collection_master_new`, rrr_shm.c:362-388, and `rrr_shm_collection_slave_new`,
rrr_shm.c:332-353, in the first process -/
def start (pid : Nat) (root : List Nat) : Sys :=
  { objs := [], files := [], root := root, ver := 0,
    elems := List.replicate maxElems ⟨0, 0, 0⟩,
    procs := [{ pid := pid, ver := 2 ^ 32 - 1, ptrs := List.replicate maxElems ⟨0, 0, 0⟩, maps := [],
                holders := [] }] }

/-- Change the process with number `p`. -/
def Sys.onProc (s : Sys) (p : Nat) (f : Proc → Proc) : Sys := { s with procs := s.procs.modify p f }

/-- `__rrr_shm_holder_maintain`, rrr_shm.c:105-120. The name given to `access` begins with a slash, so
it is looked up in the root directory. -/
def maintain (root : List Nat) (force : Nat) (q : Proc) : Proc :=
  { q with holders := q.holders.filter fun x => decide (x.name ∈ root) && x.name != force }

/-- `shm_unlink` -/
def unlink (name : Nat) (s : Sys) : Sys := { s with files := s.files.filter fun f => f.1 != name }

/-- `__rrr_shm_holder_unregister_unlink_and_maintain`, rrr_shm.c:122-133, in process `p` -/
def unregisterUnlink (p : Nat) (name : Nat) (s : Sys) : Sys :=
  (unlink name s).onProc p (maintain s.root name)

/-- `__rrr_shm_holder_register`, rrr_shm.c:141-166, in process `p` -/
def register (p : Nat) (name : Nat) (s : Sys) : Sys :=
  s.onProc p fun q => { q with holders := q.holders ++ [⟨q.pid, name⟩] }

/-- `rrr_shm_holders_cleanup`, rrr_shm.c:168-180, in process `p` -/
def holdersCleanup (p : Nat) (s : Sys) : Sys := match s.procs[p]? with
  | none => s
  | some q =>
    { s with files := s.files.filter fun f => !(q.holders.any fun x => x.pid == q.pid && x.name == f.1) }
      |>.onProc p fun q => { q with holders := [] }

/-- What the operating system does when shared memory is made: `shm_open` fails with something else than
`EEXIST`, `ftruncate` fails, or a new name is linked to a new object -/
inductive Created where
  | openFail
  | truncFail (name : Nat)
  | made (name : Nat)
deriving DecidableEq

/-- `__rrr_shm_open_create`, rrr_shm.c:200-246, in process `p`: the name, or nothing when an error is
returned. No error is returned when `ftruncate` fails. -/
def openCreate (p size : Nat) (c : Created) (s : Sys) : Sys × Option Nat := match c with
  | .openFail => (s, none)
  | .truncFail name => ({ s with objs := s.objs ++ [0] }, some name)
  | .made name =>
    (register p name { s with objs := s.objs ++ [size], files := (name, s.objs.length) :: s.files }, some name)

/-- `rrr_shm_collection_master_allocate`, rrr_shm.c:435-461, with `__rrr_shm_create`, rrr_shm.c:248-263,
in process `p`: the handle, or nothing when an error is returned -/
def masterAllocate (p size : Nat) (c : Created) (s : Sys) : Sys × Option Nat :=
  match s.elems.findIdx? fun e => e.size == 0 with
  | none => (s, none)
  | some i => match openCreate p size c s with
    | (s', none) => (s', none)
    | (s', some name) =>
      ({ s' with elems := s'.elems.modify i fun e => { name := name, size := size, ver := next e.ver },
                 ver := next s'.ver }, some i)

/-- `__rrr_shm_cleanup`, rrr_shm.c:287-294, in process `p` -/
def cleanup (p i : Nat) (s : Sys) : Sys := match s.elems[i]? with
  | none => s
  | some e =>
    let s' := unregisterUnlink p e.name s
    { s' with elems := s'.elems.set i { name := 0, size := 0, ver := next e.ver } }

/-- `rrr_shm_collection_master_free`, rrr_shm.c:423-433, in process `p`: nothing when the program aborts.
The handle is below `RRR_SHM_COLLECTION_MAX`. -/
def masterFree (p h : Nat) (s : Sys) : Option Sys := match s.elems[h]? with
  | none => none
  | some e =>
    if e.size = 0 then none
    else
      let s' := cleanup p h s
      some { s' with ver := next s'.ver }

/-- `rrr_shm_collection_master_destroy`, rrr_shm.c:411-421, in process `p`, before the master is
unmapped -/
def masterDestroy (p : Nat) (s : Sys) : Sys :=
  (List.range maxElems).foldl (fun s i => match s.elems[i]? with
    | none => s
    | some e => if e.size ≠ 0 then cleanup p i s else s) s

/-- `rrr_shm_collection_master_fork_unregister`, rrr_shm.c:463-469, in process `p` -/
def forkUnregister (p : Nat) (s : Sys) : Sys :=
  s.elems.foldl (fun s' e => if e.size ≠ 0 then s'.onProc p (maintain s.root e.name) else s') s

/-- The process `p` forks: the child has a copy of its slave, its mappings and its holders. -/
def fork (p pid : Nat) (s : Sys) : Sys := match s.procs[p]? with
  | none => s
  | some q => { s with procs := s.procs ++ [{ q with pid := pid }] }

/-- What the operating system does when an object is to be mapped: `shm_open` fails, `mmap` fails, or
the object is mapped -/
inductive Mapped where
  | openFail
  | failed
  | mapped (addr : Nat)
deriving DecidableEq

/-- What the operating system does depends on what is mapped already. -/
abbrev Kernel := List Map → Mapped

/-- `MAP_FAILED`, which `mmap` returns when it fails -/
def mapFailed : Nat := 2 ^ 64 - 1

/-- `__rrr_shm_ptr_cleanup_if_not_null`, rrr_shm.c:296-304 -/
def ptrCleanup (maps : List Map) (t : Ptr) : List Map × Ptr :=
  if t.ptr ≠ 0 then (maps.filter fun m => m.addr != t.ptr, { t with ptr := 0, size := 0 }) else (maps, t)

/-- `__rrr_shm_ptr_update`, rrr_shm.c:306-322, with `__rrr_shm_mmap`, rrr_shm.c:265-285, and
`__rrr_shm_open`, rrr_shm.c:182-198. `mmap` is checked for NULL and not for `MAP_FAILED`. -/
def ptrUpdate (files : List (Nat × Nat)) (k : Kernel) (maps : List Map) (t : Ptr) (e : Elem) :
    List Map × Ptr × Bool :=
  let x := ptrCleanup maps t
  if e.size = 0 then (x.1, { x.2 with ver := e.ver }, true)
  else match files.lookup e.name with
    | none => (x.1, x.2, false)
    | some obj => match k x.1 with
      | .openFail => (x.1, x.2, false)
      | .failed => (x.1, { ptr := mapFailed, size := e.size, ver := e.ver }, true)
      | .mapped a => (⟨a, obj, e.size⟩ :: x.1, { ptr := a, size := e.size, ver := e.ver }, true)

/-- The loop of `__rrr_shm_slave_refresh_if_needed`, rrr_shm.c:480-489 -/
def refreshLoop (files : List (Nat × Nat)) (k : Kernel) :
    List Map → List Ptr → List Elem → List Map × List Ptr × Bool
  | maps, t :: ts, e :: es =>
    if t.ver ≠ e.ver then
      let x := ptrUpdate files k maps t e
      if x.2.2 then
        let r := refreshLoop files k x.1 ts es
        (r.1, x.2.1 :: r.2.1, r.2.2)
      else (x.1, x.2.1 :: ts, false)
    else
      let r := refreshLoop files k maps ts es
      (r.1, t :: r.2.1, r.2.2)
  | maps, ts, _ => (maps, ts, true)

/-- `__rrr_shm_slave_refresh_if_needed`, rrr_shm.c:471-495 -/
def refresh (s : Sys) (k : Kernel) (q : Proc) : Proc × Bool :=
  if q.ver = s.ver then (q, true)
  else
    let r := refreshLoop s.files k q.maps q.ptrs s.elems
    if r.2.2 then ({ q with maps := r.1, ptrs := r.2.1, ver := s.ver }, true)
    else ({ q with maps := r.1, ptrs := r.2.1 }, false)

/-- `rrr_shm_resolve`, rrr_shm.c:497-516, in process `p`: the pointer which is returned. The handle is
below `RRR_SHM_COLLECTION_MAX`. -/
def resolve (p h : Nat) (k : Kernel) (s : Sys) : Sys × Nat := match s.procs[p]? with
  | none => (s, 0)
  | some q =>
    let r := refresh s k q
    (s.onProc p fun _ => r.1, if r.2 then (match r.1.ptrs[h]? with
      | none => 0
      | some t => t.ptr) else 0)

/-- `rrr_shm_resolve_reverse`, rrr_shm.c:518-533, in process `p` -/
def resolveReverse (p ptr : Nat) (k : Kernel) (s : Sys) : Sys × Option Nat := match s.procs[p]? with
  | none => (s, none)
  | some q =>
    let r := refresh s k q
    (s.onProc p fun _ => r.1, if r.2 then r.1.ptrs.findIdx? (fun t => t.ptr == ptr) else none)

/-- `rrr_shm_allocate`, rrr_shm.c:535-544, in process `p` -/
def allocate (p size : Nat) (c : Created) (k : Kernel) (s : Sys) : Sys × Nat :=
  match masterAllocate p size c s with
  | (s', none) => (s', 0)
  | (s', some h) => resolve p h k s'

/-- `rrr_shm_free`, rrr_shm.c:546-555, in process `p`: nothing when the program aborts -/
def free (p ptr : Nat) (k : Kernel) (s : Sys) : Option Sys := match resolveReverse p ptr k s with
  | (_, none) => none
  | (s', some h) => masterFree p h s'

end Verif.Shm
