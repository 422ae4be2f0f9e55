import Verif.Common
/-!
# Specification: the line protocol of InfluxDB

`measurement,tag=value,... field=value,...`. In names and values of tags the characters comma, equal sign and space are written with a backslash before them. A field which is a string is
put between quotes, and quotes and backslashes in it have a backslash before them.
-/
namespace Verif.Influx.Spec
open Verif

/-- A value of a field. -/
inductive Field where
  | string (b : Bytes) | other (b : Bytes)
deriving DecidableEq, Repr

/-- The name of a field up to `=`, and the rest. -/
def readName : Bytes → Option (Bytes × Bytes)
  | 92 :: 44 :: t => (readName t).map fun (n, r) => (44 :: n, r)
  | 92 :: 61 :: t => (readName t).map fun (n, r) => (61 :: n, r)
  | 92 :: 32 :: t => (readName t).map fun (n, r) => (32 :: n, r)
  | 61 :: t => some ([], t)
  | 44 :: _ => none
  | 32 :: _ => none
  | 10 :: _ => none
  | c :: t => (readName t).map fun (n, r) => (c :: n, r)
  | [] => none

/-- A string after the first quote up to the last, and the rest. -/
def readString : Bytes → Option (Bytes × Bytes)
  | 92 :: 34 :: t => (readString t).map fun (n, r) => (34 :: n, r)
  | 92 :: 92 :: t => (readString t).map fun (n, r) => (92 :: n, r)
  | 34 :: t => some ([], t)
  | c :: t => (readString t).map fun (n, r) => (c :: n, r)
  | [] => none

/-- A value which is not a string, up to a comma, space or the end. -/
def readOther : Bytes → Bytes × Bytes
  | [] => ([], [])
  | c :: t => if c = 44 ∨ c = 32 ∨ c = 10 then ([], c :: t) else (c :: (readOther t).1, (readOther t).2)

/-- A value, and the rest. -/
def readValue : Bytes → Option (Field × Bytes)
  | 34 :: t => (readString t).map fun (s, r) => (.string s, r)
  | t => if (readOther t).1 = [] then none else some (.other (readOther t).1, (readOther t).2)

/-- The fields of a line. -/
def readFields : Nat → Bytes → Option (List (Bytes × Field))
  | 0, _ => none
  | k + 1, b =>
    match readName b with
    | none => none
    | some (n, r) =>
      match readValue r with
      | none => none
      | some (v, []) => some [(n, v)]
      | some (v, 44 :: r) => (readFields k r).map ((n, v) :: ·)
      | some _ => none

/-- The part before the first space which has no backslash before it, and the part after it. -/
def splitSpace : Bytes → Option (Bytes × Bytes)
  | 92 :: c :: t => (splitSpace t).map fun (a, b) => (92 :: c :: a, b)
  | 32 :: t => some ([], t)
  | c :: t => (splitSpace t).map fun (a, b) => (c :: a, b)
  | [] => none

/-- The fields which InfluxDB stores for a line. -/
def fields (l : Bytes) : Option (List (Bytes × Field)) :=
  match splitSpace l with
  | none => none
  | some (_, f) => readFields f.length f

end Verif.Influx.Spec
