import Verif.Json.Model
/-!
# What JSON means to those who are given arrays

Written without the functions of the model: where values lie in a tree, which of them make arrays, and in which order.
-/
namespace Verif.Json.Spec
open Verif Types Json

/-- `Inside j n x`: the value `x` is found in `j` by going down `n` times, to an element of an array or to the value of a member of an object. -/
inductive Inside : J → Nat → J → Prop where
  | here (j : J) : Inside j 0 j
  | element {l : List J} {x o : J} {n : Nat} : x ∈ l → Inside x n o → Inside (.arr l) (n + 1) o
  | member {ms : List (Bytes × J)} {k : Bytes} {x o : J} {n : Nat} : (k, x) ∈ ms → Inside x n o → Inside (.obj ms) (n + 1) o

/-- Neither an array nor an object. -/
def Plain : J → Prop
  | .arr _ => False
  | .obj _ => False
  | _ => True

/-- A plain value which is no value of a member: it is all there is, or an element of an array. -/
def Loose (j : J) (n : Nat) (v : J) : Prop :=
  Plain v ∧ ((n = 0 ∧ v = j) ∨ ∃ l m, n = m + 1 ∧ Inside j m (.arr l) ∧ v ∈ l)

/-- The number which is nearest, of those which a signed integer of 64 bits can be. -/
def nearest (i : Int) : Int := max (-2 ^ 63) (min (2 ^ 63 - 1) i)

/-- What is told of a value in an array: text is a string, up to the first zero byte. Numbers are numbers with a sign, `false` and `true` are the
numbers 0 and 1 without a sign, and `null` is the empty value. -/
def Represents (e : Env) (v : Value) (key : Bytes) : J → Prop
  | .str s => v.ty = .str ∧ v.tag = key ∧ v.elements = 1 ∧ v.data = s.takeWhile (· ≠ 0)
  | .int i => v.ty = .h ∧ v.tag = key ∧ v.elements = 1 ∧ v.data.length = 8 ∧ v.flags = 1 ∧
      toI64 (hostInt e.le v.data) = nearest i
  | .bool b => v.ty = .h ∧ v.tag = key ∧ v.elements = 1 ∧ v.data.length = 8 ∧ v.flags = 0 ∧
      hostInt e.le v.data = if b then 1 else 0
  | .null => v.ty = .vain ∧ v.tag = key ∧ v.elements = 1 ∧ v.data = []
  | .double d => v.ty = .fixp ∧ v.tag = key ∧ v.elements = 1 ∧ v.data.length = 8 ∧ e.fixp d = some (hostInt e.le v.data)
  | .arr _ => False
  | .obj _ => False

/-- The members of an object which are plain, in their order. -/
def plainMembers (ms : List (Bytes × J)) : List (Bytes × J) :=
  ms.filter fun p => match p.2 with
    | .arr _ => false
    | .obj _ => false
    | _ => true

/-- An array tells what the plain members of an object are: one value for each, in the same order. -/
inductive Tells (e : Env) : List Value → List (Bytes × J) → Prop where
  | nil : Tells e [] []
  | cons {v : Value} {vs : List Value} {k : Bytes} {j : J} {ms : List (Bytes × J)} :
      Represents e v k j → Tells e vs ms → Tells e (v :: vs) ((k, j) :: ms)

/-- The same, for many objects. -/
inductive TellAll (e : Env) : List (List Value) → List (List (Bytes × J)) → Prop where
  | nil : TellAll e [] []
  | cons {a : List Value} {as : List (List Value)} {o : List (Bytes × J)} {os : List (List (Bytes × J))} :
      Tells e a (plainMembers o) → TellAll e as os → TellAll e (a :: as) (o :: os)

mutual
/-- The objects of a tree with the number of levels which they are down: those inside of an object come before it, and otherwise they are in the order of the text. -/
def objects (n : Nat) : J → List (Nat × List (Bytes × J))
  | .arr l => objectsElements n l
  | .obj ms => objectsMembers n ms ++ [(n, ms)]
  | .null => []
  | .bool _ => []
  | .int _ => []
  | .double _ => []
  | .str _ => []
/-- The objects in the elements of an array. -/
def objectsElements (n : Nat) : List J → List (Nat × List (Bytes × J))
  | [] => []
  | j :: l => objects (n + 1) j ++ objectsElements n l
/-- The objects in the members of an object. -/
def objectsMembers (n : Nat) : List (Bytes × J) → List (Nat × List (Bytes × J))
  | [] => []
  | (_, j) :: ms => objects (n + 1) j ++ objectsMembers n ms
end

/-- The objects which are at most `max` levels down. -/
def within (max : Nat) (j : J) : List (List (Bytes × J)) := ((objects 0 j).filter fun p => p.1 ≤ max).map (·.2)

/-- The callback which accepts everything and keeps it. -/
def collect : Callback (List (List Value)) := fun s a => (0, s ++ [a])

/-- The text of a JSON tree is what a member is by name: the last member of that name. -/
def lookup (key : Bytes) : List (Bytes × J) → Option J
  | [] => none
  | (k, j) :: ms => if k = key then some j else lookup key ms

end Verif.Json.Spec
