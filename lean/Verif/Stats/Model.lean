import Verif.Common
import Verif.Endian

/-!
# Model of `src/lib/stats/stats_message.c` and `stats_tree.c`: statistics messages and the tree they are collected in

Not modelled: the message header and its checksum, which are those of all messages (`Msg`), allocation failure, printing, and the engine which moves messages.
-/
namespace Verif.Stats
open Verif Verif.Endian

/-- `struct rrr_msg_stats`, `stats_message.h:67-75`. The path is what there is before its NUL, the data are the first `data_size` bytes of its buffer. -/
structure Message where
  type : UInt8
  flags : UInt32
  timestamp : UInt64
  path : Bytes
  data : Bytes
deriving DecidableEq, Repr

def pathMax : Nat := 512
def dataMax : Nat := 512

/-- `stats_message.c:192-227 rrr_msg_stats_init`. -/
def init (type : UInt8) (flags : UInt32) (path data : Bytes) : Option Message :=
  if path.length > pathMax then none
  else if data.length > dataMax then none
  else some { type := type, flags := flags, timestamp := 0, path := path, data := data }

/-- What follows the header, `stats_message.c:150-190 rrr_msg_stats_pack_and_flip`. -/
def pack (m : Message) : Bytes :=
  [m.type] ++ be32 m.flags ++ be16 (UInt16.ofNat (m.path.length + 1)) ++ m.path ++ [0] ++ m.data

inductive Unpacked where
  | ok (m : Message)
  | error
  /-- More is written into a buffer than it holds. -/
  | overflow
deriving DecidableEq, Repr

/-- `stats_message.c:34-125 __rrr_msg_stats_unpack`, for a message which was sent. The timestamp comes from the header. -/
def unpack (b : Bytes) (timestamp : UInt64) : Unpacked :=
  if b.length < 7 then .error
  else if b.length > 7 + pathMax + 1 + dataMax then .error
  else if (at32 b 1).toNat ≥ 16 then .error
  else if (b.getD 0 0).toNat > 3 then .error
  else
    let pathSize := (at16 b 5).toNat
    let rest := b.drop 7
    if pathSize > rest.length then .error
    else
      let data := rest.drop pathSize
      if data.length > dataMax then .overflow
      else if pathSize > 0 ∧ rest.getD (pathSize - 1) 0 ≠ 0 then .error
      else if pathSize > pathMax + 1 then .overflow
      else .ok { type := b.getD 0 0, flags := at32 b 1, timestamp := timestamp, path := (rest.take pathSize).takeWhile (· ≠ 0), data := data }

/-- Printing of a text, `stats_tree.c:193`: the data are taken for a string. None if the string does not end inside of the buffer, which is zero after the data. -/
def printed (m : Message) : Option Bytes :=
  if m.data.length = dataMax ∧ (0 : UInt8) ∉ m.data then none else some (m.data.takeWhile (· ≠ 0))

def slash : UInt8 := 47

/-- `stats_tree.c:94-131 __rrr_stats_get_first_path_level`: the first level, and what follows it. -/
def firstLevel : Bytes → Bytes × Bytes
  | [] => ([], [])
  | c :: r => if c = slash then firstLevel r else ((c :: r).takeWhile (· ≠ slash), (c :: r).dropWhile (· ≠ slash))

/-- `struct rrr_stats_tree_branch`. -/
inductive Branch where
  | mk (name : Bytes) (seen : Nat) (value : Option Bytes) (kids : List Branch)

def Branch.name : Branch → Bytes | .mk n _ _ _ => n
def Branch.seen : Branch → Nat | .mk _ s _ _ => s
def Branch.value : Branch → Option Bytes | .mk _ _ v _ => v
def Branch.kids : Branch → List Branch | .mk _ _ _ k => k

/-- The first branch with a name is changed, or a new one is added and changed, `stats_tree.c:161-174`. -/
def update (l : Bytes) (f : Branch → Branch × Bool) (new : Branch) : List Branch → List Branch × Bool
  | [] => ([(f new).1], (f new).2)
  | k :: ks => if k.name = l then ((f k).1 :: ks, (f k).2) else (k :: (update l f new ks).1, (update l f new ks).2)

/-- `stats_tree.c:133-175 __rrr_stats_tree_insert_or_update_branch`. There are not more levels than bytes. -/
def insertAux : Nat → Nat → Bytes → Bytes → Branch → Branch × Bool
  | 0, _, _, _, b => (b, false)
  | fuel + 1, now, v, path, .mk n _ val kids =>
    if path = [] then (.mk n now (some v) kids, true)
    else if (firstLevel path).1 = [] then (.mk n now val kids, false)
    else
      let u := update (firstLevel path).1 (insertAux fuel now v (firstLevel path).2) (.mk (firstLevel path).1 now none []) kids
      (.mk n now val u.1, u.2)

/-- `stats_tree.c:177-184 rrr_stats_tree_insert_or_update`. -/
def insert (now : Nat) (path v : Bytes) (t : Branch) : Branch × Bool :=
  if path.length < 2 then (t, false) else insertAux (path.length + 1) now v path t

mutual
/-- `stats_tree.c:221-245`: branches which have not been seen are removed. -/
def purge (min : Nat) : Branch → Branch
  | .mk n s v kids => .mk n s v (purgeAll min kids)
def purgeAll (min : Nat) : List Branch → List Branch
  | [] => []
  | k :: ks => if k.seen < min then purgeAll min ks else purge min k :: purgeAll min ks
end

mutual
/-- `stats_tree.c:186-205 rrr_stats_tree_has_leaf`. -/
def hasLeaf (name : Bytes) : Branch → Bool
  | .mk n _ _ [] => n = name
  | .mk _ _ _ (k :: ks) => hasLeaf name k || anyLeaf name ks
def anyLeaf (name : Bytes) : List Branch → Bool
  | [] => false
  | k :: ks => hasLeaf name k || anyLeaf name ks
end

/-- `stats_tree.c:77-80 rrr_stats_tree_init`. -/
def empty (now : Nat) : Branch := .mk "rrr".toUTF8.toList now none []

inductive Op where
  | insert (now : Nat) (path value : Bytes)
  | purge (min : Nat)

def step (t : Branch) : Op → Branch
  | .insert now path v => (insert now path v t).1
  | .purge min => purge min t

/-- All which has happened to a tree. -/
def run (start : Nat) (ops : List Op) : Branch := ops.foldl step (empty start)

end Verif.Stats
