import Verif.IdPool.Model
/-!
# What an identifier pool is: a set of identifiers in use

`live` is the set of identifiers handed out and not yet released.
-/
namespace Verif.IdPool.Spec
open IdPool

/-- One call may produce output `o` and change the set from `live` to `live'`. -/
inductive Step (live : Nat → Prop) : Op → Out → (Nat → Prop) → Prop
  /-- a fresh identifier in 1..65535 -/
  | get {memOk : Bool} {n : BitVec 16} {live' : Nat → Prop} :
      1 ≤ n.toNat → n.toNat ≤ 65535 → ¬ live n.toNat →
      (∀ k, live' k ↔ live k ∨ k = n.toNat) → Step live (.get memOk) (.id n) live'
  /-- exhaustion is reported only if memory ran out or every identifier is in use -/
  | exhausted {memOk : Bool} {live' : Nat → Prop} :
      (memOk = true → ∀ k, 1 ≤ k → k ≤ 65535 → live k) →
      (∀ k, live' k ↔ live k) → Step live (.get memOk) .exhausted live'
  | release {n : BitVec 16} {live' : Nat → Prop} :
      live n.toNat → (∀ k, live' k ↔ live k ∧ k ≠ n.toNat) → Step live (.release n) .released live'
  /-- releasing an identifier which is not in use aborts the program -/
  | abort {n : BitVec 16} {live' : Nat → Prop} : n ≠ 0 → ¬ live n.toNat → Step live (.release n) .abort live'
  | ub {live' : Nat → Prop} : Step live (.release 0) .ub live'

/-- A run of the abstract pool. -/
inductive Run : (Nat → Prop) → List Op → List Out → Prop
  | nil {live} : Run live [] []
  | stop {live live' op ops o} : Step live op o live' → (o = .abort ∨ o = .ub) → Run live (op :: ops) [o]
  | cons {live live' op ops o outs} : Step live op o live' → o ≠ .abort → o ≠ .ub → Run live' ops outs →
      Run live (op :: ops) (o :: outs)

end Verif.IdPool.Spec
