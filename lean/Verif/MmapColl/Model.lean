import Verif.Mmap.Model
/-!
# Collections of memory maps

`/repo/src/lib/rrr_mmap.c`:495-1070. A collection has room for 128 maps. Blocks are taken from the
first map with room, new maps are made when there is none and maps without blocks are removed. A
block is freed by its address only: each process keeps a table of where the maps are, and the table
is made again when the collection has changed.

Simplifications: every function runs with the lock of the collection, so that they are modelled as
single steps. The statistics which maintenance gathers are left out. A map is at some address in
each process, given by a function from process numbers; the shared memory layer which makes it so
(`rrr_shm.c`) and the system which finds free addresses are not modelled. Versions are the number of
changes so far, and are compared like the 32-bit counters of the code; they start at 2^32, which the
code stores as 0.
-/
namespace Verif.MmapColl
open Verif

/-- `struct rrr_mmap`, rrr_mmap.c:75-87, with the address of the heap in each process -/
structure Slot where
  map : Mmap.Map
  base : Nat → Nat
  strikes : Nat
  bad : Bool

/-- `struct rrr_mmap_collection`, rrr_mmap.c:89-100. A map with `heap_size` 0 is `none`. -/
structure Coll where
  slots : List (Option Slot)
  count : Nat
  version : Nat
  limit : Nat

/-- `struct rrr_mmap_heap_index`, rrr_mmap.h:67-71 -/
structure MinMax where
  low : Nat
  high : Nat
  idx : Nat
deriving DecidableEq

/-- `struct rrr_mmap_collection_private_data`, rrr_mmap.h:73-77 -/
structure Priv where
  version : Nat
  minmax : List MinMax

/-- `RRR_MMAP_COLLECTION_MAX`, rrr_mmap.h -/
def collMax : Nat := 128
/-- `RRR_MMAP_COLLECTION_MAINTENANCE_CLEANUP_STRIKES`, rrr_mmap.h -/
def strikesMax : Nat := 10

/-- A collection after `rrr_mmap_collections_new`, rrr_mmap.c:771-808: all zeroes -/
def newColl : Coll :=
  { slots := List.replicate collMax none, count := 0, version := 2 ^ 32, limit := 0 }

/-- `rrr_mmap_collection_private_datas_init`, rrr_mmap.c:810-823 -/
def newPriv (c : Coll) : Priv :=
  { version := c.version - 1, minmax := List.replicate collMax ⟨0, 0, 0⟩ }

/-- `__rrr_mmap_collection_allocate_with_handles_try_old_mmap`, rrr_mmap.c:825-856: the loop. The
result is the number of the map and the handle of the block; `none` is an abort. -/
def tryOldLoop (allowBad : Bool) (n : Nat) :
    List (Option Slot) → Nat → Option (List (Option Slot) × Option (Nat × Nat))
  | [], _ => some ([], none)
  | none :: rest, i => match tryOldLoop allowBad n rest (i + 1) with
    | none => none
    | some (rest', r) => some (none :: rest', r)
  | some sl :: rest, i =>
    if allowBad || !sl.bad then
      match Mmap.allocate sl.map n with
      | .ok m (some h) => some (some { sl with map := m } :: rest, some (i, h))
      | .ok m none => match tryOldLoop allowBad n rest (i + 1) with
        | none => none
        | some (rest', r) => some (some { sl with map := m } :: rest', r)
      | _ => none
    else match tryOldLoop allowBad n rest (i + 1) with
      | none => none
      | some (rest', r) => some (some sl :: rest', r)

/-- `__rrr_mmap_collection_allocate_with_handles_try_old_mmap`, rrr_mmap.c:825-856 -/
def tryOld (allowBad : Bool) (n : Nat) (c : Coll) : Option (Coll × Option (Nat × Nat)) :=
  if c.count > 0 then
    match tryOldLoop allowBad n c.slots 0 with
    | none => none
    | some (slots, r) => some ({ c with slots := slots }, r)
  else some (c, none)

/-- `__rrr_mmap_init`, rrr_mmap.c:423-488. The system gives an address for each process, or
refuses; it always refuses a size of zero and a size of half the address space or more. -/
def initSlot (size : Nat) (sys : Option (Nat → Nat)) : Option Slot :=
  if Mmap.heapSizeOf size = 0 ∨ 2 ^ 63 ≤ Mmap.heapSizeOf size then none
  else sys.map fun base => { map := Mmap.init size, base := base, strikes := 0, bad := false }

/-- `__rrr_mmap_collection_mmap_cleanup`, rrr_mmap.c:501-508 -/
def cleanup (c : Coll) (i : Nat) : Coll :=
  { c with slots := c.slots.set i none, count := c.count - 1, version := c.version + 1 }

/-- The body of the loop of `..._try_new_mmap` when the map is not in use, rrr_mmap.c:878-893 -/
def fill (c : Coll) (i n minSize : Nat) (sys : Option (Nat → Nat)) :
    Option (Coll × Option (Nat × Nat) × Option Nat) :=
  match initSlot (if n > minSize then n else minSize) sys with
  | none => some (c, none, none)
  | some sl => match Mmap.allocate sl.map n with
    | .ok m r => some ({ c with
        slots := c.slots.set i (some { sl with map := m }),
        count := c.count + 1, version := c.version + 1 }, r.map fun h => (i, h), some i)
    | _ => none

/-- `__rrr_mmap_collection_allocate_with_handles_try_new_mmap`, rrr_mmap.c:858-897. Beside the block,
the number of the map which was made is given. -/
def tryNew (n minSize : Nat) (sys : Option (Nat → Nat)) (c : Coll) :
    List (Option Slot) → Nat → Option (Coll × Option (Nat × Nat) × Option Nat)
  | [], _ => some (c, none, none)
  | none :: _, i => fill c i n minSize sys
  | some sl :: rest, i => match Mmap.isEmpty sl.map with
    | none => none
    | some true => fill (cleanup c i) i n minSize sys
    | some false => tryNew n minSize sys c rest (i + 1)

/-- `__rrr_mmap_collection_allocate_with_handles`, rrr_mmap.c:899-967 -/
def allocate (c : Coll) (n minSize : Nat) (sys : Option (Nat → Nat)) :
    Option (Coll × Option (Nat × Nat) × Option Nat) :=
  match tryOld false n c with
  | none => none
  | some (c1, some r) => some (c1, some r, none)
  | some (c1, none) => match tryNew n minSize sys c1 c1.slots 0 with
    | none => none
    | some (c2, some r, k) => some (c2, some r, k)
    | some (c2, none, k) => match tryOld true n c2 with
      | none => none
      | some (c3, r) => some (c3, r, k)

/-- The entries of `__rrr_mmap_collection_minmax_update_if_needed`, rrr_mmap.c:559-575, for one
process -/
def regions (p : Nat) : List (Option Slot) → Nat → List MinMax
  | [], _ => []
  | none :: rest, i => regions p rest (i + 1)
  | some sl :: rest, i => ⟨sl.base p, sl.base p + sl.map.heap, i⟩ :: regions p rest (i + 1)

/-- `__rrr_mmap_collection_minmax_update_if_needed`, rrr_mmap.c:544-582. The entries after the last
one written keep their values. -/
def refresh (p : Nat) (c : Coll) (pv : Priv) : Priv :=
  if pv.version % 2 ^ 32 = c.version % 2 ^ 32 then pv
  else
    let new := (regions p c.slots 0).take c.count
    { version := c.version, minmax := new ++ pv.minmax.drop new.length }

/-- `__rrr_mmap_collection_minmax_search`, rrr_mmap.c:584-600 -/
def search (c : Coll) (pv : Priv) (ptr : Nat) : Option Nat :=
  ((pv.minmax.take c.count).find? fun e => decide (e.low ≤ ptr) && decide (ptr < e.high)).map (·.idx)

/-- What `rrr_mmap_collections_free` ends with: an abort, or the collections, the tables of the
process and whether the return value is 0 -/
inductive FreeOut where
  | abort
  | done (colls : List Coll) (privs : List Priv) (ok : Bool)

/-- The body of the loop of `rrr_mmap_collections_free` for one collection, rrr_mmap.c:1031-1060:
`none` is an abort, and the Boolean is set when the block was freed -/
def freeIn (p ptr : Nat) (c : Coll) (pv : Priv) : Option (Coll × Priv × Bool) :=
  if c.count = 0 then some (c, pv, false)
  else
    let pv' := refresh p c pv
    match search c pv' ptr with
    | none => some (c, pv', false)
    | some i => match c.slots[i]? with
      | some (some sl) => match Mmap.free sl.map (ptr - sl.base p) with
        | none => none
        | some m => some ({ c with slots := c.slots.set i (some { sl with map := m }) }, pv', true)
      | _ => none

/-- `rrr_mmap_collections_free`, rrr_mmap.c:1024-1069, called in process `p` -/
def freeAll (p ptr : Nat) : List Coll → List Priv → FreeOut
  | c :: cs, pv :: pvs => match freeIn p ptr c pv with
    | none => .abort
    | some (c', pv', true) => .done (c' :: cs) (pv' :: pvs) true
    | some (c', pv', false) => match freeAll p ptr cs pvs with
      | .abort => .abort
      | .done cs' pvs' ok => .done (c' :: cs') (pv' :: pvs') ok
  | cs, pvs => .done cs pvs false

/-- The loop of `rrr_mmap_collections_maintenance` over the maps of one collection,
rrr_mmap.c:625-663. The maps, how many were removed, the sum of the numbers of allocations and how
many maps are in the sum; `none` is an abort. -/
def maintainLoop (limit : Nat) :
    List (Option Slot) → Option (List (Option Slot) × Nat × Nat × Nat)
  | [] => some ([], 0, 0, 0)
  | none :: rest => match maintainLoop limit rest with
    | none => none
    | some (rest', rm, tot, ent) => some (none :: rest', rm, tot, ent)
  | some sl :: rest => match Mmap.isEmpty sl.map with
    | none => none
    | some true =>
      if sl.strikes + 1 ≥ strikesMax then
        match maintainLoop limit rest with
        | none => none
        | some (rest', rm, tot, ent) => some (none :: rest', rm + 1, tot, ent)
      else match maintainLoop limit rest with
        | none => none
        | some (rest', rm, tot, ent) =>
          some (some { sl with strikes := sl.strikes + 1 } :: rest', rm, tot + sl.map.count, ent + 1)
    | some false => match maintainLoop limit rest with
      | none => none
      | some (rest', rm, tot, ent) =>
        some (some (if sl.map.count > limit then { sl with bad := true, strikes := strikesMax }
          else { sl with strikes := 0 }) :: rest', rm, tot + sl.map.count, ent + 1)

/-- The new limit, rrr_mmap.c:665-676 -/
def newLimit (old tot ent : Nat) : Nat :=
  if ent > 0 then
    let l := if tot / ent < 128 then 128 else tot / ent
    if l > 8192 then 8192 else l
  else old

/-- `rrr_mmap_collections_maintenance`, rrr_mmap.c:608-682, for one collection -/
def maintain (c : Coll) : Option Coll :=
  if c.count = 0 then some c
  else match maintainLoop c.limit c.slots with
    | none => none
    | some (slots, rm, tot, ent) =>
      some { slots := slots, count := c.count - rm, version := c.version + rm,
             limit := newLimit c.limit tot ent }

/-- `rrr_mmap_collections_maintenance`, rrr_mmap.c:608-682: all collections in order -/
def maintainAll : List Coll → Option (List Coll)
  | [] => some []
  | c :: cs => match maintain c with
    | none => none
    | some c' => match maintainAll cs with
      | none => none
      | some cs' => some (c' :: cs')

end Verif.MmapColl
