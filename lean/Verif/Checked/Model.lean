/-!
# Model of the checked length arithmetic in `src/lib/rrr_types.h`

`rrr_length` is `UInt32`, `rrr_biglength`, `size_t` and `uintptr_t` are `UInt64`
(64 bit platform: the `#else` branch of L114-131), `rrr_slength` and `ssize_t` are
`Int` (range hypotheses are stated in the theorems), `int` is an `Int`.
Functions taking a pointer return the new value of the pointee.
-/
namespace Verif.Checked

/-- Outcome: normal return with a value, error return (1), `RRR_BUG`/`RRR_ABORT`
(process abort), or undefined behaviour (signed overflow). -/
inductive Out (α : Type) where
  | ok (a : α) | err | bug | ub
deriving DecidableEq, Repr

def Out.map {α β : Type} (f : α → β) : Out α → Out β
  | .ok a => .ok (f a) | .err => .err | .bug => .bug | .ub => .ub

/-- L83 `RRR_LENGTH_MAX`. -/
def lengthMax : Nat := 0xffffffff
/-- `INT_MAX`, `INT_MIN`, `UINT16_MAX`, `INT64_MAX`, `INT64_MIN`. -/
def intMax : Int := 0x7fffffff
def intMin : Int := -0x80000000
def u16Max : Nat := 0xffff
def int64Max : Int := 0x7fffffffffffffff
def int64Min : Int := -0x8000000000000000

/-- Conversion `uint64_t` to `int64_t` (implementation defined, two's complement). -/
def toS64 (x : UInt64) : Int := if x.toNat < 2 ^ 63 then x.toNat else (x.toNat : Int) - 2 ^ 64

/-- Signed 64 bit result: undefined outside the range. -/
def s64 (x : Int) : Option Int := if int64Min ≤ x ∧ x ≤ int64Max then some x else none

/-- L133-140 `rrr_int_from_slength_bug_const`. -/
def intFromSlengthBug (x : Int) : Out Int := if x < intMin ∨ x > intMax then .bug else .ok x
/-- L142-149 `rrr_int_from_biglength_err` (and L165 `rrr_int_from_length_err`). -/
def intFromBiglengthErr (x : UInt64) : Out Int :=
  if (x.toNat : Int) > intMax then .err else .ok x.toNat
/-- L151-163 `rrr_int_from_biglength_bug_const`, `_abort_const`. -/
def intFromBiglengthBug (x : UInt64) : Out Int :=
  if (x.toNat : Int) > intMax then .bug else .ok x.toNat

/-- L174-179 `__rrr_types_checked_length_counter_add`. -/
def counterAdd (t : Int) (op : UInt64) : Out Int :=
  match s64 (t + toS64 op) with
  | none => .ub
  | some t' => if t' < 0 ∨ t' > lengthMax ∨ op.toNat > lengthMax then .bug else .ok t'
/-- L181-186 `__rrr_types_checked_length_counter_sub`. -/
def counterSub (t : Int) (op : UInt64) : Out Int :=
  match s64 (t - toS64 op) with
  | none => .ub
  | some t' => if t' < 0 ∨ op.toNat > lengthMax then .bug else .ok t'

/-- L188-202 `rrr_length_sub_bug`, `rrr_length_sub_bug_const`. -/
def lengthSubBug (a b : UInt32) : Out UInt32 :=
  let r := a - b
  if r > a then .bug else .ok r
/-- L204-210 `rrr_length_add_bug_const`. -/
def lengthAddBugConst (a b : UInt32) : Out UInt32 :=
  let r := a + b
  if r < a ∨ r < b then .bug else .ok r
/-- L212-220 `rrr_length_add_err`. -/
def lengthAddErr (a b : UInt32) : Out UInt32 :=
  let r := a + b
  if r < a then .err else .ok r
/-- L222-228 `rrr_biglength_sub_bug`. -/
def biglengthSubBug (a b : UInt64) : Out UInt64 :=
  let r := a - b
  if r > a then .bug else .ok r
/-- L230-234 `rrr_length_add_bug`. -/
def lengthAddBug (a b : UInt32) : Out UInt32 :=
  match lengthAddErr a b with | .ok r => .ok r | _ => .bug
/-- L236-244 `rrr_biglength_add_err`. -/
def biglengthAddErr (a b : UInt64) : Out UInt64 :=
  let r := a + b
  if r < a then .err else .ok r
/-- L246-250 `rrr_biglength_add_bug`. -/
def biglengthAddBug (a b : UInt64) : Out UInt64 :=
  match biglengthAddErr a b with | .ok r => .ok r | _ => .bug
/-- L252-258 `rrr_length_inc_err`: return value and what `*a` holds afterwards. -/
def lengthIncErr (a : UInt32) : Out UInt32 × UInt32 :=
  let a' := a + 1
  if a' = 0 then (.err, a') else (.ok a', a')
/-- L260-266 `rrr_length_mul_bug`. -/
def lengthMulBug (a b : UInt32) : Out UInt32 :=
  let r : UInt64 := a.toUInt64 * b.toUInt64
  if r.toNat > lengthMax then .bug else .ok r.toUInt32
/-- L268-275 `rrr_biglength_mul_err`. -/
def biglengthMulErr (a b : UInt64) : Out UInt64 :=
  let r := a * b
  if a ≠ 0 ∧ r / a ≠ b then .err else .ok r
/-- L277-282 `rrr_biglength_from_ssize_sub_bug`. -/
def biglengthFromSsizeSubBug (a : UInt64) (b : Int) : Out UInt64 :=
  if b < 0 ∨ b > a.toNat then .bug else .ok (a - UInt64.ofNat b.toNat)
/-- L284-296 `rrr_length_from_ptr_sub_err`; pointers are addresses. -/
def lengthFromPtrSubErr (a b : UInt64) : Out UInt32 :=
  if b > a then .err
  else
    let tmp := a - b
    if tmp.toNat > lengthMax then .err else .ok tmp.toUInt32
/-- L298-307 `rrr_length_from_ptr_sub_bug_const`, L334-343 `rrr_length_from_biglength_sub_bug_const`. -/
def lengthFromPtrSubBug (a b : UInt64) : Out UInt32 :=
  if b > a then .bug
  else
    let r := a - b
    if r.toNat > lengthMax then .bug else .ok r.toUInt32
/-- L309-321 `rrr_length_from_slength_sub_err`. -/
def lengthFromSlengthSubErr (a b : Int) : Out UInt32 :=
  if b > a then .err
  else match s64 (a - b) with
    | none => .ub
    | some r => if r > lengthMax then .err else .ok (UInt32.ofNat r.toNat)
/-- L323-332 `rrr_length_from_slength_sub_bug_const`. -/
def lengthFromSlengthSubBug (a b : Int) : Out UInt32 :=
  if b > a then .bug
  else match s64 (a - b) with
    | none => .ub
    | some r => if r > lengthMax then .bug else .ok (UInt32.ofNat r.toNat)
/-- L345-350 `rrr_biglength_sub_bug_const`. -/
def biglengthSubBugConst (a b : UInt64) : Out UInt64 := if b > a then .bug else .ok (a - b)
/-- L352-354 `rrr_length_from_slength_err`. -/
def lengthFromSlengthErr (a : Int) : Out UInt32 := lengthFromSlengthSubErr a 0
/-- L356-374 `rrr_length_from_slength_bug_const`, `rrr_length_from_ssize_bug_const`. -/
def lengthFromSlengthBug (a : Int) : Out UInt32 :=
  if a > lengthMax then .bug else if a < 0 then .bug else .ok (UInt32.ofNat a.toNat)
/-- L376-381 `rrr_u16_from_biglength_bug_const`. -/
def u16FromBiglengthBug (a : UInt64) : Out UInt16 :=
  if a.toNat > u16Max then .bug else .ok a.toUInt16
/-- L383-388 `rrr_u16_from_slength_bug_const`. -/
def u16FromSlengthBug (a : Int) : Out UInt16 :=
  if a < 0 ∨ a > u16Max then .bug else .ok (UInt16.ofNat a.toNat)
/-- L390-396 `rrr_biglength_from_ptr_sub_bug_const`: the result passes through a
cast to the 32 bit `rrr_length`. -/
def biglengthFromPtrSubBug (a b : UInt64) : Out UInt64 :=
  if b > a then .bug
  else
    let r := a - b
    .ok r.toUInt32.toUInt64
/-- L398-409 `rrr_length_dec_bug`, `_const`. -/
def lengthDecBug (a : UInt32) : Out UInt32 := if a = 0 then .bug else .ok (a - 1)
/-- L411-415, L429-433, L441-444 `rrr_length_inc_bug`, `_const`, `_new_value`. -/
def lengthIncBug (a : UInt32) : Out UInt32 := let a' := a + 1; if a' = 0 then .bug else .ok a'
/-- L417-427, L435-439 `rrr_biglength_inc_bug`, `rrr_size_t_inc_bug`, `_const`. -/
def biglengthIncBug (a : UInt64) : Out UInt64 := let a' := a + 1; if a' = 0 then .bug else .ok a'
/-- L446-449 `rrr_length_inc_bug_old_value`: returned value and new value of `*a`. -/
def lengthIncBugOldValue (a : UInt32) : Out (UInt32 × UInt32) :=
  match lengthIncBug a with | .ok a' => .ok (a' - 1, a') | _ => .bug
/-- L451-458, L468-475 `rrr_length_from_biglength_err`, `rrr_length_from_size_t_err`. -/
def lengthFromBiglengthErr (a : UInt64) : Out UInt32 :=
  if a.toNat > lengthMax then .err else .ok a.toUInt32
/-- L460-466, L477-483 `rrr_length_from_biglength_bug_const`, `rrr_length_from_size_t_bug_const`. -/
def lengthFromBiglengthBug (a : UInt64) : Out UInt32 :=
  match lengthFromBiglengthErr a with | .ok r => .ok r | _ => .bug

end Verif.Checked
