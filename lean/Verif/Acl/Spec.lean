import Verif.Acl.Model
/-!
# What an ACL means

The last rule whose pattern matches decides. Within that rule the last entry for
the user decides, and if there is none the default of the rule. No rule: no access.
-/
namespace Verif.Acl.Spec
open Verif Acl

/-- `x` is the last element of `l` satisfying `p`. -/
def LastWith {α : Type} (p : α → Prop) (l : List α) (x : α) : Prop :=
  ∃ pre post, l = pre ++ x :: post ∧ p x ∧ ∀ y ∈ post, ¬ p y

/-- The action rule `e` prescribes for a user. Absent and empty user names are anonymous. -/
inductive Prescribes (e : Entry) : Option Bytes → Action → Prop
  | user {u : Bytes} {en : UserEntry} : u ≠ [] → LastWith (fun x => x.username = u) e.users en →
      Prescribes e (some u) en.action
  | noEntry {u : Bytes} : u ≠ [] → (∀ x ∈ e.users, x.username ≠ u) → Prescribes e (some u) e.defaultAction
  | anonymous : Prescribes e none e.defaultAction
  | anonymousEmpty : Prescribes e (some []) e.defaultAction

/-- Which actions permit which kind of access. -/
inductive Permits : Action → Action → Prop
  | readRo : Permits .ro .ro
  | readRw : Permits .rw .ro
  | writeRw : Permits .rw .rw

/-- Access is granted. -/
def Granted (appl : Entry → Prop) (acl : List Entry) (requested : Action) (user : Option Bytes) : Prop :=
  ∃ e a, LastWith appl acl e ∧ Prescribes e user a ∧ Permits a requested

end Verif.Acl.Spec
