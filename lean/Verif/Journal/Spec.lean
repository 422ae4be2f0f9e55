import Verif.Journal.Model

/-!
# What the journal should deliver
-/
namespace Verif.Journal.Spec
open Verif Verif.Journal

/-- The message about something which was logged at a time. -/
def messageOf (c : Conf) (e : Entry) (t : Nat) : Message :=
  { topic := topicPrefix ++ e.pre
    time := t
    fields := [("log_file", .str e.file), ("log_line", .u64 e.line.toNat), ("log_level_translated", .u64 e.level), ("log_flags", .u64 e.flags),
      ("log_prefix", .str e.pre), ("log_message", .str e.message), ("log_hostname", .str c.hostname)] }

/-- With debuglevels other than 0 and 1, only errors are passed on. -/
def Passed (c : Conf) (e : Entry) : Prop := c.debuglevel = 0 ∨ c.debuglevel = 1 ∨ e.level ≤ 3

instance (c : Conf) (e : Entry) : Decidable (Passed c e) := inferInstanceAs (Decidable (_ ∨ _ ∨ _))

/-- The messages about everything which was logged and is passed on. -/
def expected (c : Conf) : List Op → List Message
  | [] => []
  | .log e t _ :: r => if Passed c e then messageOf c e t :: expected c r else expected c r
  | _ :: r => expected c r

/-- The message about something which waits. -/
def waiting (c : Conf) (q : Queued) : Option Message :=
  (getStr q.fields "log_prefix").map fun p => ⟨topicPrefix ++ p, q.time, q.fields ++ [("log_hostname", .str c.hostname)]⟩

/-- How often something was logged. -/
def logs : List Op → Nat
  | [] => 0
  | .log _ _ _ :: r => logs r + 1
  | _ :: r => logs r

end Verif.Journal.Spec
