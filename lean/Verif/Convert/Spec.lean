import Verif.Types.Spec
import Verif.Convert.Model
/-!
# Specification of conversions

What `rrr.conf(5)`, CONVERSION METHODS, says about every method. `Method` and `Value` are the only things from the model;
the integers in the memory of a host are those of `Verif.Types.Spec`.
-/
namespace Verif.Convert.Spec
open Verif Types Types.Spec

/-- The computer and the settings `mangler_convert_tolerant_blobs` and `mangler_convert_tolerant_strings`. -/
structure Setting where
  littleEndian : Bool
  memory : List Msg.MsgMsg → Bytes
  tolerantBlobs : Bool
  tolerantStrings : Bool

/-- The value of decimal digits. -/
def digitsValue : Bytes → Nat
  | [] => 0
  | c :: t => (c.toNat - 48) * 10 ^ t.length + digitsValue t

/-- A number in decimal. -/
def text (n : Int) : Bytes := (if n < 0 then [45] else []) ++ (Nat.toDigits 10 n.natAbs).map fun c => UInt8.ofNat c.toNat

/-- Space-prefixed to a total length of 20 characters. -/
def padded (n : Int) : Bytes := List.replicate (20 - (text n).length) 32 ++ text n

/-- The text is spaces, a sign or none, and at least one digit, and it says the number `n`. -/
def Reads (s : Bytes) (n : Int) : Prop :=
  ∃ k d, d ≠ [] ∧ (∀ c ∈ d, 48 ≤ c ∧ c ≤ 57) ∧
    ((s = List.replicate k 32 ++ d ∧ n = digitsValue d) ∨ (s = List.replicate k 32 ++ 43 :: d ∧ n = digitsValue d) ∨
     (s = List.replicate k 32 ++ 45 :: d ∧ n = -(digitsValue d : Int)))

/-- A number is made to fit in 64 bits. -/
def fit (signed : Bool) (n : Int) : Int := if signed then max (-2 ^ 63) (min n (2 ^ 63 - 1)) else min n (2 ^ 64 - 1)

/-- The numbers of a value. -/
def numbers (s : Setting) (v : Value) : List Int := (ints s.littleEndian v.data).map (meaning (isSigned v.flags))

/-- Equal parts of a text. -/
def parts (b : Bytes) (size : Nat) : Nat → List Bytes
  | 0 => []
  | n + 1 => b.take size :: parts (b.drop size) size n

/-- A digit for a number less than 16. -/
def digit (n : UInt8) : UInt8 := if n < 10 then 48 + n else 87 + n

/-- Hexadecimal ASCII. -/
def hex (b : Bytes) : Bytes := b.flatMap fun (c : UInt8) => [digit (c >>> 4), digit (c &&& 15)]

/-- Integers in host byte order. -/
def Number (v : Value) : Prop := v.ty ∈ [Ty.h, .le, .be, .ustr, .istr]

/-- Blobs, and with the setting types like them. -/
def Blobish (s : Setting) (v : Value) : Prop := v.ty = .blob ∨ s.tolerantBlobs ∧ v.ty ∈ [Ty.sep, .msg, .str, .nsep, .stx, .hdlc]

/-- Strings, and with the setting types like them. -/
def Strish (s : Setting) (v : Value) : Prop := v.ty = .str ∨ s.tolerantStrings ∧ v.ty ∈ [Ty.sep, .nsep, .stx]

/-- The bytes of a value. -/
def bytes (s : Setting) (v : Value) : Bytes := if v.ty = .msg then s.memory v.msgs else v.data

/-- The value `w` has another type and other bytes than `v`, nothing else differs. -/
def With (v w : Value) (t : Ty) (b : Bytes) : Prop := w = ⟨t, v.flags, v.tag, v.elements, b, []⟩

/-- Method `m` makes `w` of `v`. -/
def Makes (s : Setting) (m : Method) (v w : Value) : Prop :=
  match m with
  | .h2str => Number v ∧ w.ty = .str ∧ w.flags = 0 ∧ w.tag = v.tag ∧ w.elements = v.elements ∧ w.msgs = [] ∧
      w.data = (if (numbers s v).length = 1 then (numbers s v).flatMap text else (numbers s v).flatMap padded)
  | .h2vain => Number v ∧ numbers s v = [0] ∧ w = ⟨.vain, 0, v.tag, 1, [], []⟩
  | .blob2str => Blobish s v ∧ With v w .str (bytes s v)
  | .blob2blob => Blobish s v ∧ With v w .blob (bytes s v)
  | .blob2hex => Blobish s v ∧ With v w .str (hex (bytes s v))
  | .str2str => Strish s v ∧ With v w .str v.data
  | .str2blob => Strish s v ∧ v.data ≠ [] ∧ With v w .blob v.data
  | .str2h => Strish s v ∧ v.data.length / v.elements.toNat ≤ 64 ∧
      ∃ ns : List Int, ns.length = v.elements.toNat ∧
        (∀ p ∈ (parts v.data (v.data.length / v.elements.toNat) v.elements.toNat).zip ns, Reads p.1 p.2) ∧
        w.ty = .h ∧ w.flags = (if (45 : UInt8) ∈ v.data then 1 else 0) ∧ w.tag = v.tag ∧ w.elements = v.elements ∧ w.msgs = [] ∧
        w.data.length = 8 * ns.length ∧ numbers s w = ns.map (fit ((45 : UInt8) ∈ v.data))
  | .str2vain => Strish s v ∧ v.data = [] ∧ v.elements = 1 ∧ w = ⟨.vain, 0, v.tag, 1, [], []⟩
  | .msg2blob => v.ty = .msg ∧ With v w .blob (bytes s v)
  | .vain2h => v.ty = .vain ∧ w.ty = .h ∧ w.flags = 0 ∧ w.tag = v.tag ∧ w.elements = 1 ∧ w.msgs = [] ∧ w.data.length = 8 ∧ numbers s w = [0]
  | .vain2str => v.ty = .vain ∧ w = ⟨.str, 0, v.tag, 1, [], []⟩
  | .hchar2str => Number v ∧ (∀ n ∈ numbers s v, 0 ≤ n ∧ n ≤ 255) ∧ w = ⟨.str, 0, v.tag, 1, (numbers s v).map fun n => UInt8.ofNat n.toNat, []⟩

/-- The type a method makes. -/
def target : Method → Ty
  | .h2str | .blob2str | .blob2hex | .str2str | .vain2str | .hchar2str => .str
  | .h2vain | .str2vain => .vain
  | .blob2blob | .str2blob | .msg2blob => .blob
  | .str2h | .vain2h => .h

/-- A value as the program makes them: there is at least one element, the elements have the same size, a number has eight bytes, and there are not more
than `size` bytes when 20 characters are used for an element. -/
structure Good (s : Setting) (size : Nat) (v : Value) : Prop where
  some_ : v.elements ≠ 0
  equal : (bytes s v).length % v.elements.toNat = 0
  eight : Number v → v.data.length = 8 * v.elements.toNat
  bound : (bytes s v).length ≤ size
  room : 20 * v.elements.toNat ≤ size
  plain : v.ty ≠ .msg → v.msgs = []

/-- The recipe: all conversions are applied from left to right. If a conversion is not possible, it is skipped and the next is attempted. -/
inductive Recipe (s : Setting) : List Method → Value → Value → Prop where
  | done (v) : Recipe s [] v v
  | step {m ms v w u} : Makes s m v w → Recipe s ms w u → Recipe s (m :: ms) v u
  | skip {m ms v u} : (∀ w, ¬Makes s m v w) → Recipe s ms v u → Recipe s (m :: ms) v u

end Verif.Convert.Spec
