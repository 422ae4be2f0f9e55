import Verif.Common
/-!
# Model of `src/lib/mqtt/mqtt_id_pool.c`

`pool->pool` together with `allocated_majors` is a list of 32 bit words. The
result of `rrr_reallocate` is an input (`memOk`). `1 << 31`, formally undefined
for a signed `int`, is taken to set bit 31 as all supported compilers do.
-/
namespace Verif.IdPool

/-- `mqtt_id_pool.h:43-47 struct rrr_mqtt_id_pool`. -/
structure Pool where
  blocks : List (BitVec 32)
  last : BitVec 16
deriving DecidableEq, Repr

/-- `mqtt_id_pool.c:35-39 rrr_mqtt_id_pool_init` and `:41-46 rrr_mqtt_id_pool_clear`. -/
def init : Pool := { blocks := [], last := 0 }

/-- `mqtt_id_pool.h:31 RRR_MQTT_ID_POOL_SIZE_IN_32`. -/
@[irreducible] def sizeIn32 : Nat := 2048
/-- `mqtt_id_pool.h:35 RRR_MQTT_ID_POOL_STEP_SIZE_IN_32`. -/
@[irreducible] def stepSize : Nat := 512

/-- `mqtt_id_pool.c:52-75 __rrr_mqtt_id_pool_realloc`; `none` is return 1. -/
@[irreducible] def realloc (memOk : Bool) (blocks : List (BitVec 32)) (steps : Nat) : Option (List (BitVec 32)) :=
  let newMajors := blocks.length + steps
  if newMajors > sizeIn32 then none
  else if memOk = false then none
  else some (blocks ++ List.replicate steps 0)

/-- Result of `__rrr_mqtt_id_pool_get_id_32`. -/
inductive Get32 where
  | full | got (n : Nat) (block : BitVec 32) | bug
deriving DecidableEq, Repr

/-- `mqtt_id_pool.c:83-91`: search for the lowest clear bit. First argument: rounds left. -/
def findFree (source : BitVec 32) : Nat → Nat → BitVec 32 → Get32
  | 0, _, _ => .bug                                                    -- L91
  | left + 1, i, tmp =>
    if tmp &&& 1 = 0 then .got (i + 1) (source ||| ((1 : BitVec 32) <<< i))   -- L84-86
    else findFree source left (i + 1) (tmp >>> 1)                      -- L88

/-- `mqtt_id_pool.c:77-94 __rrr_mqtt_id_pool_get_id_32`. -/
def get32 (source : BitVec 32) : Get32 :=
  if source = 0xffffffff then .full else findFree source 32 0 source

/-- Result of the scan over all words. -/
inductive Scan where
  | none | got (id : BitVec 16) (blocks : List (BitVec 32)) | bug
deriving DecidableEq, Repr

/-- `mqtt_id_pool.c:127-134`: the loop over the words; `i` is the index of the first one.
The conversion to `uint16_t` (L130) truncates. -/
def scan (i : Nat) : List (BitVec 32) → Scan
  | [] => .none
  | b :: bs =>
    match get32 b with
    | .bug => .bug
    | .got n b' => .got (BitVec.ofNat 16 (n + 32 * i)) (b' :: bs)
    | .full =>
      match scan (i + 1) bs with
      | .none => .none
      | .bug => .bug
      | .got id bs' => .got id (b :: bs')

/-- Outcome of an operation. `ub` is undefined behaviour. -/
inductive Out where
  | id (n : BitVec 16) | exhausted | released | abort | ub
deriving DecidableEq, Repr

/-- `mqtt_id_pool.c:126-146`: scan, grow and retry. The number of retries is
bounded by `fuel` (the pool grows each time, at most 4 times). Returning 0 is `exhausted`. -/
def slowPath (memOk : Bool) : Nat → List (BitVec 32) → Out × Pool
  | 0, blocks => (.exhausted, { blocks := blocks, last := 0 })
  | fuel + 1, blocks =>
    match scan 0 blocks with
    | .bug => (.abort, { blocks := blocks, last := 0 })
    | .got id blocks' =>
      (if id = 0 then .exhausted else .id id, { blocks := blocks', last := id })   -- L130-132, L145
    | .none =>
      match realloc memOk blocks stepSize with
      | some blocks' => slowPath memOk fuel blocks'                                -- L136-137
      | none => (.exhausted, { blocks := blocks, last := 0 })                      -- L145

/-- `mqtt_id_pool.c:101-147 rrr_mqtt_id_pool_get_id`. -/
def getId (memOk : Bool) (p : Pool) : Out × Pool :=
  let ret : BitVec 16 := p.last + 1                                                -- L104
  let ret : BitVec 16 := if ret = 0 then 1 else ret                                -- L105-107
  let min := (ret.toNat - 1) % 32                                                  -- L97
  let maj := (ret.toNat - 1 - min) / 32                                            -- L98
  let mask : BitVec 32 := (1 : BitVec 32) <<< min                                                -- L99
  match p.blocks[maj]? with
  | some b =>
    if b &&& mask = 0 then                                                         -- L118
      (.id ret, { blocks := p.blocks.set maj (b ||| mask), last := ret })          -- L119-121, L145
    else slowPath memOk 5 p.blocks
  | none => slowPath memOk 5 p.blocks

/-- `mqtt_id_pool.c:149-164 rrr_mqtt_id_pool_release_id`. With id 0 the shift
count is 0xffffffff: undefined behaviour. -/
def releaseId (p : Pool) (id : BitVec 16) : Out × Pool :=
  if id = 0 then (.ub, p)
  else
    let min := (id.toNat - 1) % 32
    let maj := (id.toNat - 1 - min) / 32
    let mask : BitVec 32 := (1 : BitVec 32) <<< min
    match p.blocks[maj]? with
    | none => (.abort, p)                                                          -- L155
    | some b =>
      if b &&& mask = 0 then (.abort, p)                                           -- L159
      else (.released, { p with blocks := p.blocks.set maj (b &&& ~~~mask) })      -- L163

/-- The operations of the API. -/
inductive Op where
  | get (memOk : Bool) | release (id : BitVec 16)
deriving DecidableEq, Repr

/-- One call. -/
def step (p : Pool) : Op → Out × Pool
  | .get m => getId m p
  | .release id => releaseId p id

/-- A sequence of calls; execution ends at an abort or undefined behaviour. -/
def run (p : Pool) : List Op → List Out
  | [] => []
  | op :: ops =>
    let (o, p') := step p op
    match o with
    | .abort => [.abort]
    | .ub => [.ub]
    | o => o :: run p' ops

end Verif.IdPool
