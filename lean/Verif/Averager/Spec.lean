import Verif.Averager.Model
import Verif.Types.Spec
/-!
# Specification: averages
-/
namespace Verif.Averager.Spec
open Verif Types Types.Spec Msg

/-- The first number of the first value with a tag. -/
def numberOf (le : Bool) (vs : List Value) (tag : Bytes) : Option UInt64 :=
  match vs.find? (fun v => v.tag == tag) with
  | some v => if v.ty ∈ [Ty.le, .be, .h, .ustr, .istr] then (ints le v.data).head? else none
  | none => none

/-- A measurement. -/
structure Point where
  value : Nat
  begins : Nat
  ends : Nat
deriving DecidableEq, Repr

/-- The measurement which a message holds. -/
def pointOf (le : Bool) (m : MsgMsg) : Option Point :=
  match toArray le m with
  | .ok vs =>
    match numberOf le vs tagMeasurement, numberOf le vs tagFrom, numberOf le vs tagTo with
    | some x, some f, some t => some ⟨x.toNat, f.toNat, t.toNat⟩
    | _, _, _ => none
  | _ => none

/-- An array message which can be read. Numbers have at least one element. -/
def Readable (le : Bool) (m : MsgMsg) : Prop :=
  m.class_ = 11 ∧ ∃ vs, toArray le m = .ok vs ∧ ∀ v ∈ vs, (∀ b ∈ v.tag, b ≠ 0) ∧ (v.ty ∈ [Ty.le, .be, .h, .ustr, .istr] → 8 ≤ v.data.length)

/-- The numbers of the message with averages: average, maximum, minimum, lowest and highest time of the measurements. -/
structure Averages (ps : List Point) (average max min begins ends : Nat) : Prop where
  average : average = (ps.map (·.value)).sum / ps.length
  max : (ps.map (·.value)).max? = some max
  min : (ps.map (·.value)).min? = some min
  begins : (ps.map (·.begins)).min? = some begins
  ends : (ps.map (·.ends)).max? = some ends

/-- The array messages which were received after the averages were made the last time. -/
def since : List Op → List MsgMsg
  | [] => []
  | os => os.foldl (fun ms o => match o with
    | .receive m => if m.type = 1 ∧ m.class_ = 11 then ms ++ [m] else ms
    | .average _ _ => []) []

end Verif.Averager.Spec
