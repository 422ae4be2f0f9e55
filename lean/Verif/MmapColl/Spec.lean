import Verif.MmapColl.Model
import Verif.Mmap.Spec
/-!
# What the users of collections of memory maps do and expect

Processes which share collections and keep an account of the blocks they hold: in which map of which
collection, at which place, how many bytes were asked for and what was last written to each. They
free only blocks which are held, by their address in the process which frees, and write only inside
the bytes asked for.
-/
namespace Verif.MmapColl.Spec
open Verif Verif.MmapColl
open Verif.Mmap.Spec (Block Apart)

/-- The collections, the tables of each process, and the account: the blocks held in each map of
each collection. -/
structure State where
  colls : List Coll
  privs : Nat → List Priv
  live : Nat → Nat → List Block

/-- Map number `i` of collection number `j` is in use. -/
def At (s : State) (j i : Nat) (sl : Slot) : Prop :=
  ∃ c, s.colls[j]? = some c ∧ c.slots[i]? = some (some sl)

/-- The account changed for one map. -/
def update (live : Nat → Nat → List Block) (j i : Nat) (l : List Block) : Nat → Nat → List Block :=
  fun j' i' => if j' = j ∧ i' = i then l else live j' i'

/-- The account after an allocation. -/
def gained (live : Nat → Nat → List Block) (j n : Nat) : Option (Nat × Nat) → Nat → Nat → List Block
  | none => live
  | some (i, h) => update live j i (⟨h, n, fun _ => none⟩ :: live j i)

/-- One step of one of the processes 0, …, `procs` - 1. -/
inductive Next (procs : Nat) : State → State → Prop
  /-- A block of `n` bytes is asked for. When a map is made, the system puts it where there is no
  other map of the collections, in every process. -/
  | alloc {s : State} {c c' : Coll} {j n minSize : Nat} {sys : Option (Nat → Nat)}
      {r : Option (Nat × Nat)} {new : Option Nat} :
      0 < n → n + 8 < 2 ^ 64 → s.colls[j]? = some c →
      allocate c n minSize sys = some (c', r, new) →
      (∀ i sl, new = some i → c'.slots[i]? = some (some sl) → ∀ p, p < procs → ∀ j' i' sl',
        At { s with colls := s.colls.set j c' } j' i' sl' → (j', i') ≠ (j, i) →
        Apart (sl.base p) sl.map.heap (sl'.base p) sl'.map.heap) →
      Next procs s { s with colls := s.colls.set j c', live := gained s.live j n r }
  /-- Block number `k` of those held in a map is freed, by its address in process `p`. -/
  | free {s : State} {p j i k : Nat} {sl : Slot} {b : Block} {colls : List Coll}
      {privs : List Priv} {ok : Bool} :
      p < procs → At s j i sl → (s.live j i)[k]? = some b →
      freeAll p (sl.base p + b.handle) s.colls (s.privs p) = .done colls privs ok →
      Next procs s { colls := colls, privs := fun q => if q = p then privs else s.privs q,
                     live := update s.live j i ((s.live j i).eraseIdx k) }
  /-- A byte of a block is written. -/
  | write {s : State} {j i k off : Nat} {v : UInt8} {c : Coll} {sl : Slot} {b : Block} :
      s.colls[j]? = some c → c.slots[i]? = some (some sl) → (s.live j i)[k]? = some b →
      off < b.size →
      Next procs s { s with
        colls := s.colls.set j { c with slots := c.slots.set i (some { sl with map := { sl.map with
          mem := fun q => if q = b.handle + off then v else sl.map.mem q } }) },
        live := update s.live j i ((s.live j i).set k (b.put off v)) }
  /-- Maintenance. -/
  | maintain {s : State} {colls : List Coll} : maintainAll s.colls = some colls →
      Next procs s { s with colls := colls }

/-- `m` new collections, and the tables of the processes. -/
def start (m : Nat) : State :=
  { colls := List.replicate m newColl, privs := fun _ => List.replicate m (newPriv newColl),
    live := fun _ _ => [] }

/-- No table of a process is 2^32 changes behind. -/
def Fresh (procs : Nat) (s : State) : Prop :=
  ∀ p, p < procs → ∀ (j : Nat) (c : Coll) (pv : Priv), s.colls[j]? = some c →
    (s.privs p)[j]? = some pv → c.version < pv.version + 2 ^ 32

/-- What can be reached from new collections. -/
inductive Reach (procs m : Nat) : State → Prop
  | start : Reach procs m (start m)
  | next {s s' : State} : Reach procs m s → Fresh procs s → Next procs s s' → Reach procs m s'

/-- What the users rely on. -/
structure Sound (procs : Nat) (s : State) : Prop where
  /-- The map of a block is in use, the block is inside it and has the bytes written to it. -/
  held : ∀ (j i : Nat) (b : Block), b ∈ s.live j i → ∃ sl, At s j i sl ∧ b.handle + b.size ≤ sl.map.heap ∧
    ∀ k, k < b.size → ∀ v, b.written k = some v → sl.map.mem (b.handle + k) = v
  /-- Blocks of the same map do not overlap. -/
  same : ∀ j i, (s.live j i).Pairwise fun a b => Apart a.handle a.size b.handle b.size
  /-- Blocks of different maps do not overlap, in any process. -/
  apart : ∀ p, p < procs → ∀ (j i j' i' : Nat) (sl sl' : Slot) (b b' : Block), (j, i) ≠ (j', i') →
    At s j i sl → At s j' i' sl' → b ∈ s.live j i → b' ∈ s.live j' i' →
    Apart (sl.base p + b.handle) b.size (sl'.base p + b'.handle) b'.size

end Verif.MmapColl.Spec
