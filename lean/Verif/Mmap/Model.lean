import Verif.Endian
/-!
# The memory map allocator

`src/lib/rrr_mmap.c`: blocks are handed out from one heap which also holds the allocator's own
index blocks. The heap is modelled as bytes, and the index is read from and written to the same
bytes as the caller writes to.

The collection lock serialises all the functions here, so calls are modelled one after the other.
Positions are natural numbers; sums of positions and stored sizes stay below the heap size. The sums
which involve the number given by the caller are reduced to 64 bits as the program does.
`RRR_MMAP_SENTINEL_DEBUG` is defined in the source, so the sentinels are modelled. 64 bit values are
stored with the least significant byte first.
-/
namespace Verif.Mmap
open Verif

/-- The bytes of a heap. -/
abbrev Mem := Nat → UInt8

/-- Arithmetic of `rrr_biglength`, which is `uint64_t`. -/
def w64 (n : Nat) : Nat := n % 2 ^ 64

/-- `*((rrr_biglength *) (heap + p))` -/
def load64 (m : Mem) (p : Nat) : Nat :=
  (m p).toNat + 256 * ((m (p + 1)).toNat + 256 * ((m (p + 2)).toNat + 256 * ((m (p + 3)).toNat +
  256 * ((m (p + 4)).toNat + 256 * ((m (p + 5)).toNat + 256 * ((m (p + 6)).toNat +
  256 * (m (p + 7)).toNat))))))

/-- `*((rrr_biglength *) (heap + p)) = v` -/
def store64 (m : Mem) (p v : Nat) : Mem :=
  fun q => if p ≤ q ∧ q < p + 8 then Endian.byteOf v (q - p) else m q

/-- `RRR_MMAP_HEAP_CHUNK_MIN_SIZE`, rrr_mmap.c:60 -/
def chunkMin : Nat := 16
/-- `sizeof(struct rrr_mmap_heap_block_index)`, rrr_mmap.c:102-105 -/
def indexSize : Nat := 520
/-- `sizeof(rrr_mmap_sentinel_template)`, rrr_mmap.c:71 -/
def sentinelSize : Nat := 8
/-- `rrr_mmap_sentinel_template`, rrr_mmap.c:71 -/
def sentinel : Nat := 0xa0a0a0a00a0a0a0a

/-- The position of `index->block_sizes[j]`, rrr_mmap.c:104 -/
def sizeAt (idx j : Nat) : Nat := idx + 8 + 8 * j

/-- `index->block_sizes[j]` -/
def blockSize (m : Mem) (idx j : Nat) : Nat := load64 m (sizeAt idx j)
/-- `(index->block_used_map & used_mask) == used_mask` -/
def blockUsed (m : Mem) (idx j : Nat) : Bool := (load64 m idx).testBit j
/-- `index->block_used_map |= used_mask` -/
def setUsed (m : Mem) (idx j : Nat) : Mem := store64 m idx (load64 m idx ||| 1 <<< j)
/-- `index->block_used_map &= ~(used_mask)` -/
def clearUsed (m : Mem) (idx j : Nat) : Mem :=
  store64 m idx (load64 m idx &&& (2 ^ 64 - (2 ^ j + 1)))
/-- `index->block_sizes[j] = v` -/
def setSize (m : Mem) (idx j v : Nat) : Mem := store64 m (sizeAt idx j) v

/-- `struct rrr_mmap`, rrr_mmap.c:74-85. The flags and strikes are in the model of collections. -/
structure Map where
  heap : Nat
  mem : Mem
  prevFail : Nat
  prevIndex : Nat
  count : Nat

/-- The local variables of the loop over one index, rrr_mmap.c:281-285 -/
structure Run where
  pos : Nat
  mergeJ : Nat
  mergePos : Nat
  count : Nat
  size : Nat

/-- What the loop over one index ends with: a block was found and the heap changed, the function
gives up, `RRR_BUG`, a read outside the heap, or all 64 positions were passed. -/
inductive Scan where
  | found (mem : Mem) (pos : Nat)
  | oom
  | bug
  | oob
  | next (pos : Nat)

/-- The merge loop, rrr_mmap.c:332-335: `n` positions from `k` on. -/
def mergeLoop (idx : Nat) : Nat → Nat → Mem → Mem
  | 0, _, m => m
  | n + 1, k, m => mergeLoop idx n (k + 1) (setSize (setUsed m idx k) idx k 0)

/-- The loop over the 64 positions of an index in `__rrr_mmap_allocate_with_handles`,
rrr_mmap.c:286-356, with `n` positions left from `j` on. -/
def scan (m : Mem) (heap idx padded : Nat) : Nat → Nat → Run → Scan
  | 0, _, r => .next r.pos
  | n + 1, j, r =>
    let size := blockSize m idx j
    if size = 0 then
      if blockUsed m idx j then scan m heap idx padded n (j + 1) r
      else if heap < w64 (r.pos + padded) then .oom
      else
        let m1 := setUsed (setSize m idx j padded) idx j
        .found (store64 m1 (r.pos + padded - sentinelSize) sentinel) r.pos
    else if heap < r.pos + size ∨ size < sentinelSize then .oob
    else if load64 m (r.pos + size - sentinelSize) ≠ sentinel then .bug
    else if blockUsed m idx j then
      if heap < r.pos + size then .bug
      else scan m heap idx padded n (j + 1) { r with pos := r.pos + size, count := 0, size := 0 }
    else
      let mj := if r.count = 0 then j else r.mergeJ
      let mp := if r.count = 0 then r.pos else r.mergePos
      let total := r.size + size
      if padded ≤ size then .found (setUsed m idx j) r.pos
      else if padded ≤ total then
        .found (setSize (mergeLoop idx (j + 1 - mj) mj m) idx mj total) mp
      else if heap < r.pos + size then .bug
      else scan m heap idx padded n (j + 1)
        { pos := r.pos + size, mergeJ := mj, mergePos := mp, count := r.count + 1, size := total }

/-- What a walk through the indexes ends with. `hang` is never reached and is there since the walk
is bounded by `fuel` in the model. -/
inductive Walk where
  | found (mem : Mem) (pos : Nat)
  | oom
  | bug
  | oob
  | hang
  | done

/-- The loop `while (block_pos < mmap->heap_size)` in `__rrr_mmap_allocate_with_handles`,
rrr_mmap.c:266-357. Gives also the new `prev_allocation_index_pos`. -/
def walk (m : Mem) (heap padded : Nat) : Nat → Nat → Nat → Walk × Nat
  | 0, _, prev => (.hang, prev)
  | fuel + 1, pos, prev =>
    if pos < heap then
      if heap < pos + indexSize then (.oom, pos)
      else match scan m heap pos padded 64 0
          { pos := pos + indexSize, mergeJ := 0, mergePos := 0, count := 0, size := 0 } with
        | .found m' p => (.found m' p, pos)
        | .oom => (.oom, pos)
        | .bug => (.bug, pos)
        | .oob => (.oob, pos)
        | .next p => walk m heap padded fuel p pos
    else (.done, prev)

/-- What an allocation ends with: the new state and the handle of the block if there is one. -/
inductive Alloc where
  | ok (s : Map) (handle : Option Nat)
  | bug
  | oob
  | hang

/-- The end of `__rrr_mmap_allocate_with_handles`, rrr_mmap.c:364-374 -/
def finish (s : Map) (req : Nat) : Walk × Nat → Alloc
  | (.found m p, prev) => .ok { s with mem := m, prevIndex := prev, count := s.count + 1 } (some p)
  | (.oom, prev) => .ok { s with prevIndex := prev, prevFail := req } none
  | (.done, prev) => .ok { s with prevIndex := prev, prevFail := req } none
  | (.bug, _) => .bug
  | (.oob, _) => .oob
  | (.hang, _) => .hang

/-- `req_size_padded`, rrr_mmap.c:247-248 -/
def paddedOf (req : Nat) : Nat := w64 (req - req % chunkMin + chunkMin)

/-- `__rrr_mmap_allocate_with_handles`, rrr_mmap.c:234-377. The heap is never smaller than an
index, so the subtraction does not wrap. -/
def allocate (s : Map) (n : Nat) : Alloc :=
  if n = 0 then .bug
  else
    let req := w64 (n + sentinelSize)
    if s.prevFail ≠ 0 ∧ s.prevFail ≤ req then .ok { s with prevFail := req } none
    else if s.heap - indexSize < req then .ok { s with prevFail := req } none
    else
      let padded := paddedOf req
      match walk s.mem s.heap padded (s.heap + 1) s.prevIndex s.prevIndex with
      | (.done, prev) =>
        if 0 < s.prevIndex then
          finish s req (walk s.mem s.heap padded (s.heap + 1) 0 prev)
        else finish s req (.done, prev)
      | w => finish s req w

/-- What freeing in one index ends with. -/
inductive FreeScan where
  | done (mem : Mem)
  | bug
  | next (pos : Nat)

/-- The loop over the 64 positions of an index in `__rrr_mmap_free`, rrr_mmap.c:146-168 -/
def freeScan (m : Mem) (heap idx handle : Nat) : Nat → Nat → Nat → FreeScan
  | 0, _, pos => .next pos
  | n + 1, j, pos =>
    if blockSize m idx j = 0 ∧ blockUsed m idx j then freeScan m heap idx handle n (j + 1) pos
    else if handle = pos then
      if blockUsed m idx j then .done (clearUsed m idx j) else .bug
    else if heap < pos + blockSize m idx j then .bug
    else freeScan m heap idx handle n (j + 1) (pos + blockSize m idx j)

/-- The outer loop of `__rrr_mmap_free`, rrr_mmap.c:139-169. `none` is `RRR_BUG`. -/
def freeWalk (m : Mem) (heap handle : Nat) : Nat → Nat → Option Mem
  | 0, _ => none
  | fuel + 1, pos =>
    if pos < heap then
      if heap < pos + indexSize then none
      else match freeScan m heap pos handle 64 0 (pos + indexSize) with
        | .done m' => some m'
        | .bug => none
        | .next p => freeWalk m heap handle fuel p
    else none

/-- `__rrr_mmap_free`, rrr_mmap.c:130-176. `none` is `RRR_BUG`. -/
def free (s : Map) (handle : Nat) : Option Map :=
  match freeWalk s.mem s.heap handle (s.heap + 1) 0 with
  | some m => some { s with mem := m, prevFail := 0 }
  | none => none

/-- The first inner loop of `__rrr_mmap_is_empty`, rrr_mmap.c:400-408: is some block in use? -/
def usedScan (m : Mem) (idx : Nat) : Nat → Nat → Bool
  | 0, _ => false
  | n + 1, j =>
    if blockUsed m idx j ∧ blockSize m idx j ≠ 0 then true else usedScan m idx n (j + 1)

/-- The second inner loop of `__rrr_mmap_is_empty`, rrr_mmap.c:410-415. `none` is `RRR_BUG`. -/
def skipScan (m : Mem) (heap idx : Nat) : Nat → Nat → Nat → Option Nat
  | 0, _, pos => some pos
  | n + 1, j, pos =>
    if heap < pos + blockSize m idx j then none
    else skipScan m heap idx n (j + 1) (pos + blockSize m idx j)

/-- The outer loop of `__rrr_mmap_is_empty`, rrr_mmap.c:391-416. `none` is `RRR_BUG`. -/
def emptyWalk (m : Mem) (heap : Nat) : Nat → Nat → Option Bool
  | 0, _ => none
  | fuel + 1, pos =>
    if pos < heap then
      if heap < pos + indexSize then some true
      else if load64 m pos ≠ 0 ∧ usedScan m pos 64 0 = true then some false
      else match skipScan m heap pos 64 0 (pos + indexSize) with
        | none => none
        | some p => emptyWalk m heap fuel p
    else some true

/-- `__rrr_mmap_is_empty`, rrr_mmap.c:379-421. `none` is `RRR_BUG`. -/
def isEmpty (s : Map) : Option Bool := emptyWalk s.mem s.heap (s.heap + 1) 0

/-- The heap size which `__rrr_mmap_init` asks the system for, rrr_mmap.c:432-437 -/
def heapSizeOf (n : Nat) : Nat :=
  let h := w64 (n + indexSize + sentinelSize)
  w64 (h + (4096 - h % 4096))

/-- `__rrr_mmap_init`, rrr_mmap.c:423-488, when the system gives the memory, which is zeroed
(`rrr_posix_mmap` and `rrr_shm_collection_master_allocate`). -/
def init (n : Nat) : Map :=
  { heap := heapSizeOf n, mem := fun _ => 0, prevFail := 0, prevIndex := 0, count := 0 }

end Verif.Mmap
