import Verif.Passwd.Model
import Verif.AclFile.Spec
import Verif.Base64.Spec
/-!
# What password files are to mean

Files by lines, lines by how users are written, passwords by what is stored for them.
-/
namespace Verif.Passwd
open Verif

/-- A space or a tab -/
def blank (c : UInt8) : Bool := c == 32 || c == 9

/-- The lines of a file which are not empty, without blanks at the start -/
def content (b : Bytes) : List Bytes := ((AclFile.Spec.lines b).map (·.dropWhile blank)).filter (· ≠ [])

/-- Texts with a character between each -/
def joined (c : UInt8) : List Bytes → Bytes
  | [] => []
  | [x] => x
  | x :: y :: t => x ++ c :: joined c (y :: t)

/-- A list of at most 32 permissions as it is written -/
def Listed (p : Bytes) (l : List Bytes) : Prop :=
  (p = [] ∧ l = []) ∨ (p ≠ [] ∧ l.length ≤ 32 ∧ (∀ x ∈ l, (44 : UInt8) ∉ x) ∧ p = joined 44 l)

/-- A user as it is written: name, permissions and hash with colons between -/
def Entry (line : Bytes) (u : User) : Prop :=
  ∃ p, line = u.name ++ 58 :: (p ++ 58 :: u.hash) ∧ (58 : UInt8) ∉ u.name ∧ (58 : UInt8) ∉ p ∧ (58 : UInt8) ∉ u.hash ∧ Listed p u.permissions

/-- A stored password as it is written: kind, salt and hash after dollar signs -/
def Stored (text kind salt hash : Bytes) : Prop :=
  text = 36 :: (kind ++ 36 :: (salt ++ 36 :: hash)) ∧ (36 : UInt8) ∉ kind ∧ (36 : UInt8) ∉ salt ∧ (36 : UInt8) ∉ hash

/-- Text which may be in a password file -/
def Text (s : Bytes) : Prop := ∀ c ∈ s, c ≠ 0 ∧ c ≠ 10 ∧ c ≠ 13

/-- Lines as a file -/
def asFile (ls : List Bytes) : Bytes := ls.flatMap (· ++ [10])

/-- Without those which come again later -/
def lastOnly : List Bytes → List Bytes
  | [] => []
  | p :: ps => if p ∈ ps then lastOnly ps else p :: lastOnly ps

/-- The permissions a user gets: the ones it had, if they are to be kept, and the new ones, without empty ones. When one is repeated, the last is kept. -/
def newPermissions (j : Job) (before : List Bytes) : List Bytes :=
  let ps := (if j.append = true ∨ j.permissions = [] then before else []) ++ j.permissions
  (lastOnly ps).filter (· ≠ [])

/-- What the program has to make of the lines of a file -/
def Edited (j : Job) (before after : List Bytes) : Prop :=
  (j.create = true ∧ (∀ l ∈ before, ∃ u, Entry l u ∧ u.name ≠ j.name)
    ∧ after = before ++ [j.name ++ 58 :: (joined 44 (newPermissions j []) ++ 58 :: j.hash.getD [])])
  ∨ (j.create = false ∧ ∃ pre l post u, before = pre ++ l :: post ∧ Entry l u ∧ u.name = j.name
    ∧ (∀ l ∈ pre ++ post, ∃ u, Entry l u ∧ u.name ≠ j.name)
    ∧ after = if j.remove = true then pre ++ post
      else pre ++ (j.name ++ 58 :: (joined 44 (newPermissions j u.permissions) ++ 58 :: j.hash.getD u.hash)) :: post)

/-- What is to be written can be written: no line ends, no NUL, no colon in the hash, and the name does not start with a blank -/
def JobText (j : Job) : Prop :=
  Text j.name ∧ (∀ c, j.name.head? = some c → blank c = false) ∧ (∀ p ∈ j.permissions, Text p) ∧ ∀ h, j.hash = some h → Text h ∧ (58 : UInt8) ∉ h

end Verif.Passwd
