import Verif.Common
/-!
# Model of `src/lib/util/increment.c` and of id assignment in `src/modules/p_incrementer.c`

Unsigned C integers are natural numbers with explicit reduction modulo the width
where an operation can exceed it.
-/
namespace Verif.Increment
open Verif

/-- `increment.c:31-34`: the loop of `__rrr_increment_calculate_bit_requirement`
(at most 64 rounds, as `n` is a `uint64_t`). -/
def bitReqGo : Nat → Nat → Nat
  | 0, _ => 0
  | fuel + 1, n => if n = 0 then 0 else bitReqGo fuel (n >>> 1) + 1

/-- `increment.c:27-36 __rrr_increment_calculate_bit_requirement`. -/
def bitReq (n : Nat) : Nat := bitReqGo 64 n

/-- `increment.c:43-48`: the loop of `rrr_increment_bits_to_max`. -/
def bitsToMaxGo : Nat → Nat → Nat
  | 0, max => max
  | bits + 1, max => bitsToMaxGo bits (((max <<< 1) % 2 ^ 64) ||| 1)

/-- `increment.c:38-50 rrr_increment_bits_to_max`; `none` is the failed assertion. -/
def bitsToMax (bits : Nat) : Option Nat :=
  if bits ≤ 64 then some (bitsToMaxGo bits 0) else none

/-- `increment.c:52-58 rrr_increment_max_to_prefix_mask`. -/
def prefixMask (max : Nat) : Nat := (0xffffffffffffffff <<< bitReq max) % 2 ^ 64

/-- `increment.c:60-76 rrr_increment_verify_value_prefix`; `true` is return 0. -/
def verifyValuePrefix (value max pfx : Nat) : Bool :=
  (pfx <<< bitReq max) % 2 ^ 64 = value &&& prefixMask max

/-- `increment.c:78-93 rrr_increment_strip_prefix`: (prefix, value); `none` is the
failed assertion of L90. -/
def stripPrefix (value max : Nat) : Option (Nat × Nat) :=
  let mask := prefixMask max
  let res := value &&& (0xffffffffffffffff ^^^ mask)                        -- L88
  if res ≤ 0xffffffff then some ((value &&& mask) >>> bitReq max, res % 2 ^ 32) else none

/-- `increment.c:95-101 rrr_increment_apply_prefix`. -/
def applyPrefix (value max pfx : Nat) : Nat := value ||| (pfx <<< bitReq max) % 2 ^ 64

/-- `increment.c:103-153 rrr_increment_verify`; `true` is return 0. -/
def verify (stepOrMod min max pos pfx : Nat) : Bool :=
  if stepOrMod > 0xff then false
  else if min > 0xffffffff then false
  else if max > 0xffffffff then false
  else if pos > 0xffffffff then false
  else if min > max then false
  else if stepOrMod = 0 then false
  else if (max - min + 1) < stepOrMod then false
  else if pos > stepOrMod - 1 then false
  else if bitReq pfx + bitReq max > 64 then false
  else true

/-- `increment.c:155-167 rrr_increment_basic`. The sum is computed in 32 bits. -/
def incBasic (value step min max : Nat) : Nat :=
  let v := (value + step) % 2 ^ 32
  let v := if v > max ∨ v < min then min else v
  v % 2 ^ 32

/-- `increment.c:169-185 rrr_increment_mod`, computed in 64 bits. -/
def incMod (value mod min max pos : Nat) : Nat :=
  let v := (value - value % mod + mod + pos) % 2 ^ 64                        -- L176
  let v :=
    if v > max ∨ v < min then
      let v := (min - min % mod + pos) % 2 ^ 64                              -- L178
      if v < min then (v + mod) % 2 ^ 64 else v                              -- L179-181
    else v
  v % 2 ^ 32

/-- The id parameters of an incrementer instance (`p_incrementer.c:635-639`). -/
structure Cfg where
  mod : Nat
  min : Nat
  max : Nat
  pos : Nat
  pfx : Nat
deriving DecidableEq, Repr

/-- `p_incrementer.c:641-651`: the check made when the configuration is read. -/
def Cfg.accepted (c : Cfg) : Bool := verify c.mod c.min c.max c.pos c.pfx

/-- `p_incrementer.c:382-422`: the new id computed from the stored id (0 = none
stored); `none` when processing fails. Without explicit initialisation tag. -/
def nextId (c : Cfg) (old : Nat) : Option Nat :=
  let go (pfx low : Nat) : Option Nat :=
    let pfx := if pfx = 0 then c.pfx else pfx                                -- L407-410
    some (applyPrefix (incMod (if low > 0xffffffff then 0xffffffff else low) c.mod c.min c.max c.pos)
      c.max pfx)                                                             -- L412-422
  if old = 0 then go 0 0
  else if c.pfx > 0 ∧ verifyValuePrefix old c.max c.pfx = false then none     -- L397-402
  else match stripPrefix old c.max with                                      -- L404
    | none => none
    | some (p, low) => go p low

/-- Stored ids: topic to id (`db_used_ids` and `db_initial_ids`, string maps; the
decimal conversion there and back is taken as the identity on 64 bit numbers). -/
structure State where
  used : List (Bytes × Nat)
  initial : List (Bytes × Nat)
deriving DecidableEq, Repr

/-- Map lookup. -/
def lookup (m : List (Bytes × Nat)) (k : Bytes) : Option Nat :=
  match m with
  | [] => none
  | (k', v) :: rest => if k' = k then some v else lookup rest k

/-- Map update (`rrr_map_item_replace_new`). -/
def replace (m : List (Bytes × Nat)) (k : Bytes) (v : Nat) : List (Bytes × Nat) :=
  (k, v) :: m.filter (fun e => e.1 ≠ k)

/-- Messages handled by the module. -/
inductive Msg where
  /-- a message to be given an id -/
  | subject (topic : Bytes)
  /-- a message which initialises the id of a topic -/
  | setId (topic : Bytes) (id : Nat)
deriving DecidableEq, Repr

/-- `p_incrementer.c:191-233 incrementer_get_id` without message database. -/
def getId (s : State) (topic : Bytes) : Nat :=
  match lookup s.used topic with
  | some v => v
  | none => (lookup s.initial topic).getD 0

/-- `p_incrementer.c:353-484 incrementer_process_subject` (without message
database, without id tag and with topics that stay short enough) and
`:486-537 incrementer_process_id`. The output is the id put into the topic. -/
def step (c : Cfg) (s : State) : Msg → Option Nat × State
  | .subject topic =>
    match nextId c (getId s topic) with
    | none => (none, s)
    | some id => (some id, { s with used := replace s.used topic id })
  | .setId topic id =>
    if c.pfx > 0 ∧ verifyValuePrefix id c.max c.pfx = false then (none, s)   -- L515-521
    else (none, { s with initial := replace s.initial topic id })            -- L526

/-- All ids handed out in a history. -/
def run (c : Cfg) (s : State) : List Msg → List (Option Nat)
  | [] => []
  | m :: ms => let (o, s') := step c s m; o :: run c s' ms

end Verif.Increment
