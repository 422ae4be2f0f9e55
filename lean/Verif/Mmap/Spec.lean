import Verif.Mmap.Model
/-!
# What a user of a memory map does and expects

A program which uses a memory map, with its own account of the blocks it holds, how many bytes it
asked for and what it last wrote to each byte. It frees only blocks it holds, and writes only inside
the bytes it asked for.
-/
namespace Verif.Mmap.Spec
open Verif Verif.Mmap

/-- A block as the user sees it: where it is, how many bytes were asked for, and the byte last
written at each offset since the block was handed out, if any. -/
structure Block where
  handle : Nat
  size : Nat
  written : Nat → Option UInt8

/-- What the user does. Blocks are numbered by their place in the user's list. -/
inductive Op where
  | alloc (n : Nat)
  | free (i : Nat)
  | write (i off : Nat) (v : UInt8)
  | isEmpty

/-- The map and the user's account. -/
structure State where
  map : Map
  live : List Block

/-- The user's account after writing. -/
def Block.put (b : Block) (off : Nat) (v : UInt8) : Block :=
  { b with written := fun k => if k = off then some v else b.written k }

/-- One step. `none` is an abort of the program, a read outside the heap or a hang. -/
def step (s : State) : Op → Option State
  | .alloc n => match allocate s.map n with
    | .ok m none => some { s with map := m }
    | .ok m (some h) =>
      some { map := m, live := { handle := h, size := n, written := fun _ => none } :: s.live }
    | _ => none
  | .free i => match s.live[i]? with
    | none => some s
    | some b => match Mmap.free s.map b.handle with
      | none => none
      | some m => some { map := m, live := s.live.eraseIdx i }
  | .write i off v => match s.live[i]? with
    | none => some s
    | some b =>
      if off < b.size then
        some { map := { s.map with mem := fun q => if q = b.handle + off then v else s.map.mem q },
               live := s.live.set i (b.put off v) }
      else some s
  | .isEmpty => match Mmap.isEmpty s.map with
    | none => none
    | some _ => some s

/-- A sequence of steps. -/
def run : State → List Op → Option State
  | s, [] => some s
  | s, op :: ops => match step s op with
    | none => none
    | some s' => run s' ops

/-- A new map of which the user holds no blocks. -/
def start (n : Nat) : State := { map := init n, live := [] }

/-- The number of bytes asked for is not zero and not within eight of 2^64. -/
def Op.Fair : Op → Prop
  | .alloc n => 0 < n ∧ n + 8 < 2 ^ 64
  | _ => True

/-- Two ranges of bytes have no byte in common. -/
def Apart (p n q k : Nat) : Prop := p + n ≤ q ∨ q + k ≤ p

/-- Where the allocator keeps an index: at the start of the heap, and after the blocks which an
index describes. The last of these may be places where no index has been written yet. -/
inductive IndexAt (s : Map) : Nat → Prop
  | first : IndexAt s 0
  | next {p : Nat} : IndexAt s p → p + 520 ≤ s.heap →
      IndexAt s (p + 520 + ((List.range 64).map (fun j => load64 s.mem (p + 8 + 8 * j))).sum)

/-- What the user relies on. -/
structure Sound (s : State) : Prop where
  inside : ∀ b, b ∈ s.live → b.handle + b.size ≤ s.map.heap
  apart : s.live.Pairwise (fun a b => Apart a.handle a.size b.handle b.size)
  index : ∀ b, b ∈ s.live → ∀ p, IndexAt s.map p → p + 520 ≤ s.map.heap →
    Apart b.handle b.size p 520
  kept : ∀ b, b ∈ s.live → ∀ k, k < b.size → ∀ v, b.written k = some v →
    s.map.mem (b.handle + k) = v

end Verif.Mmap.Spec
