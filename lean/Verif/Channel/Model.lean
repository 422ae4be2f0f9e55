import Verif.Common
/-!
# The channel between two processes

`src/lib/mmap_channel.c`: a ring of 1024 blocks in memory shared by one writer and one reader.

The functions are modelled as the sequence of their critical sections: what is done while the index
lock is held is one step, taking the lock of a block is one step, and what is done while the lock of
a block is held, up to and including its release, is one step. The steps of the two processes may be
interleaved in any order. Outcomes of calls to the operating system, of the callbacks and of the
notification are given to the steps from outside.

Not modelled: failure of the locks themselves (a process which dies while it holds a lock),
`shmat` failures (the function reports these as `(void *) -1`, the program compares with `NULL`), the
counter of full writes, and `rrr_mmap_channel_writer_free_blocks`. The memory in which the data of a
block is stored is modelled by its size and contents only, the memory maps themselves are in
`Verif.Mmap`.
-/
namespace Verif.Channel
open Verif

/-- `RRR_MMAP_CHANNEL_SLOTS`, mmap_channel.h -/
def slots : Nat := 1024
/-- `RRR_MMAP_CHANNEL_SHM_LIMIT`, mmap_channel.c:45 -/
def shmLimit : Nat := 8192
/-- `RRR_MMAP_CHANNEL_SHM_MIN_REUSE_SIZE`, mmap_channel.c:49 -/
def shmMinReuse : Nat := 4096
/-- `RRR_MMAP_CHANNEL_MAX_PERSISTENT_SIZE`, mmap_channel.c:53 -/
def maxPersistent : Nat := shmLimit + 1024

/-- The two processes. -/
inductive Who where
  | writer
  | reader
deriving DecidableEq

/-- Where the data of a block is, and how many bytes of memory there are. -/
inductive Store where
  | none
  | shm (size : Nat)
  | map (size : Nat)
deriving DecidableEq

/-- The bytes of memory there are for the data of a block. -/
def Store.room : Store → Nat
  | .none => 0
  | .shm n => n
  | .map n => n

/-- `block->shmid != 0` -/
def Store.isShm : Store → Bool
  | .shm _ => true
  | _ => false

/-- `struct rrr_mmap_channel_block`, mmap_channel.c:59-71. `data` is what is in the memory of the
block, `lock` is the holder of `block_lock`. -/
structure Block where
  lock : Option Who
  capacity : Nat
  size : Nat
  store : Store
  cleanup : Bool
  data : Bytes

/-- What a call to write or read returns. `unnotified` is the return value of `rrr_event_pass` when the
notification of the reader failed, the caller can not tell it from `error`. -/
inductive Ret where
  | ok
  | full
  | empty
  | error
  | unnotified
deriving DecidableEq

/-- Where the writer is in `rrr_mmap_channel_write_using_callback`, mmap_channel.c:280-375. -/
inductive Writer where
  | idle
  | cleaning (msg : Bytes) (block i : Nat)
  | locking (msg : Bytes) (block : Nat)
  | locked (msg : Bytes) (block : Nat)
  | stored (msg : Bytes)
  | notify (msg : Bytes)

/-- Where the reader is in `rrr_mmap_channel_read_with_callback`, mmap_channel.c:411-515. -/
inductive Reader where
  | idle
  | locking (block : Nat)
  | locked (block : Nat)
  | consumed (cleanup : Bool)

/-- The channel, `struct rrr_mmap_channel`, mmap_channel.c:77-96, the two processes, and what has
been seen from outside: the messages handed to the callback of the reader for which the callback
returned success, the calls to write which have returned, and the calls to read which have returned.
`overrun` is set when a callback is given less memory than it was promised. -/
structure State where
  blocks : Nat → Block
  wpos : Nat
  rpos : Nat
  count : Int
  cleanup : Bool
  writer : Writer
  reader : Reader
  delivered : List Bytes
  writes : List (Bytes × Ret)
  reads : List Ret
  overrun : Bool

/-- `rrr_mmap_channel_new`, mmap_channel.c:583-640 -/
def init : State :=
  { blocks := fun _ => { lock := none, capacity := 0, size := 0, store := .none, cleanup := false,
                         data := [] },
    wpos := 0, rpos := 0, count := 0, cleanup := false, writer := .idle, reader := .idle,
    delivered := [], writes := [], reads := [], overrun := false }

/-- `__rrr_mmap_channel_block_free`, mmap_channel.c:120-161, when it succeeds. -/
def Block.free (b : Block) : Block :=
  { b with store := .none, size := 0, capacity := 0, data := [] }

/-- What the operating system answers when memory for a block is asked for: it is given, it is
refused, or it is given but could not be marked for removal. -/
inductive Sys where
  | given
  | refused
  | rmidFailed
deriving DecidableEq

/-- The size of a shared memory block, mmap_channel.c:228-229 -/
def shmSize (n : Nat) : Nat := n - n % shmMinReuse + shmMinReuse

/-- `__rrr_mmap_channel_allocate`, mmap_channel.c:200-278. `freeOk` tells if freeing what the block
had succeeds. Gives the block and whether memory was obtained. -/
def allocate (b : Block) (n : Nat) (freeOk : Bool) (sys : Sys) : Block × Bool :=
  let reuse := if b.store.isShm then decide (shmMinReuse ≤ n ∧ n ≤ b.capacity)
    else decide (n ≤ b.capacity)
  if reuse then (b, true)
  else if !freeOk then (b, false)
  else
    let f := b.free
    if shmLimit < n then match sys with
      | .given => ({ f with store := .shm (shmSize n), capacity := shmSize n }, true)
      | .refused => (f, false)
      | .rmidFailed => ({ f with store := .shm (shmSize n), capacity := shmSize n }, false)
    else match sys with
      | .given => ({ f with store := .map n, capacity := n }, true)
      | _ => (f, false)

/-- Change one block. -/
def State.set (s : State) (i : Nat) (b : Block) : State :=
  { s with blocks := fun j => if j = i then b else s.blocks j }

/-- The next position in the ring, mmap_channel.c:344-347, 499-503 -/
def next (p : Nat) : Nat := if p + 1 = slots then 0 else p + 1

/-- What may happen. -/
inductive Act where
  /-- The writer calls write. -/
  | write (msg : Bytes)
  /-- The writer goes on. `freeOk`: freeing succeeds, `sys`: memory from the system, `cb`: the callback
  which writes the data succeeds, `notifyOk`: the notification succeeds. -/
  | writer (freeOk : Bool) (sys : Sys) (cb notifyOk : Bool)
  /-- The reader calls read. -/
  | read
  /-- The reader goes on. `attachOk`: the memory can be attached to, `cb`: the callback which gets the
  data succeeds. -/
  | reader (attachOk cb : Bool)

/-- The writer returns from the call. -/
def State.writeReturns (s : State) (msg : Bytes) (r : Ret) : State :=
  { s with writer := .idle, writes := s.writes ++ [(msg, r)] }

/-- The reader returns from the call. -/
def State.readReturns (s : State) (r : Ret) : State :=
  { s with reader := .idle, reads := s.reads ++ [r] }

/-- The start of `rrr_mmap_channel_write_using_callback`, mmap_channel.c:296-300 -/
def startWrite (s : State) (msg : Bytes) : State :=
  match s.writer with
  | .idle =>
    { s with cleanup := false,
             writer := if s.cleanup then .cleaning msg s.wpos 0 else .locking msg s.wpos }
  | _ => s

/-- One block in `__rrr_mmap_channel_cleanup`, mmap_channel.c:168-191 -/
def cleanOne (s : State) (msg : Bytes) (block i : Nat) (freeOk : Bool) : State :=
  if i < slots then
    let b := s.blocks i
    if b.lock ≠ none then { s with writer := .cleaning msg block (i + 1) }
    else if b.cleanup then
      if freeOk then
        { s.set i { b.free with cleanup := false } with writer := .cleaning msg block (i + 1) }
      else (s.set i { b with cleanup := false }).writeReturns msg .error
    else { s with writer := .cleaning msg block (i + 1) }
  else { s with writer := .locking msg block }

/-- The rest of `rrr_mmap_channel_write_using_callback`, mmap_channel.c:302-375 -/
def stepWriter (s : State) (freeOk : Bool) (sys : Sys) (cb notifyOk : Bool) : State :=
  match s.writer with
  | .idle => s
  | .cleaning msg block i => cleanOne s msg block i freeOk
  | .locking msg block =>
    let b := s.blocks block
    if b.lock ≠ none then s.writeReturns msg .full
    else { s.set block { b with lock := some .writer } with writer := .locked msg block }
  | .locked msg block =>
    let b := s.blocks block
    if b.size ≠ 0 then (s.set block { b with lock := none }).writeReturns msg .full
    else match allocate b msg.length freeOk sys with
      | (b', false) => (s.set block { b' with lock := none }).writeReturns msg .error
      | (b', true) =>
        let s' := { s with overrun := s.overrun || decide (b'.store.room < msg.length) }
        if cb then
          { s'.set block { b' with lock := none, cleanup := false, size := msg.length, data := msg }
            with writer := .stored msg }
        else (s'.set block { b' with lock := none }).writeReturns msg .error
  | .stored msg => { s with count := s.count + 1, wpos := next s.wpos, writer := .notify msg }
  | .notify msg => s.writeReturns msg (if notifyOk then .ok else .unnotified)

/-- The start of `rrr_mmap_channel_read_with_callback`, mmap_channel.c:427-436 -/
def startRead (s : State) : State :=
  match s.reader with
  | .idle => if s.count = 0 then s.readReturns .ok else { s with reader := .locking s.rpos }
  | _ => s

/-- The rest of `rrr_mmap_channel_read_with_callback`, mmap_channel.c:438-515. The return value after
the position has been changed is always success: `INDEX_LOCK` and `INDEX_UNLOCK` set `ret`, and with
that a failure to detach from the memory is forgotten. -/
def stepReader (s : State) (attachOk cb : Bool) : State :=
  match s.reader with
  | .idle => s
  | .locking block =>
    let b := s.blocks block
    if b.lock ≠ none then s.readReturns .empty
    else { s.set block { b with lock := some .reader } with reader := .locked block }
  | .locked block =>
    let b := s.blocks block
    if b.size = 0 then (s.set block { b with lock := none }).readReturns .empty
    else if b.store.isShm && !attachOk then (s.set block { b with lock := none }).readReturns .error
    else
      let s' := { s with overrun := s.overrun || decide (b.store.room < b.size) }
      if cb then
        let c := decide (maxPersistent < b.capacity)
        { s'.set block { b with lock := none, cleanup := c, size := 0 }
          with delivered := s.delivered ++ [b.data.take b.size],
               reader := .consumed c }
      else (s'.set block { b with lock := none }).readReturns .error
  | .consumed c =>
    { s with cleanup := s.cleanup || c, count := s.count - 1, rpos := next s.rpos }.readReturns .ok

/-- One step. -/
def step (s : State) : Act → State
  | .write msg => startWrite s msg
  | .writer f y c n => stepWriter s f y c n
  | .read => startRead s
  | .reader a c => stepReader s a c

/-- A run. -/
def run (s : State) (acts : List Act) : State := acts.foldl step s

end Verif.Channel
