import Verif.ArrayTree.Model
import Verif.Parse.Model
/-!
# Model of `src/lib/array_tree.c`: the text of array definitions

The position in the text is given by the bytes from it to the end. Not modelled: allocation failure, log messages and line numbers. The words of definitions have no NUL (`word`), therefore the C strings are
lists of bytes.
-/
namespace Verif.ArrayDef
open ArrayTree Types
open Verif.Condition (Parsed)

/-- The next step is done if the first one succeeds. -/
def bind {α β : Type} : Parsed α → (α → Parsed β) → Parsed β
  | .ok x, f => f x
  | .soft, _ => .soft
  | .bug, _ => .bug

/-! ## Fields -/

/-- The white space of `strtoull`. -/
def isCSpace (c : UInt8) : Bool := c == 32 || (9 ≤ c && c ≤ 13)

/-- `array_tree.c:359-371 __rrr_array_tree_interpret_unsigned_integer_10`: `strtoull` with base 10 skips white space, accepts a sign (`-` gives the negative number with 64 bits) and gives the greatest number when there is an
overflow. `none`: no number. -/
def number (s : Bytes) : Option (Nat × Bytes) :=
  let p := signOf (s.dropWhile isCSpace)
  let ds := p.2.takeWhile isDec
  if ds = [] then none
  else some (if decimal ds ≥ 2 ^ 64 then 2 ^ 64 - 1 else if p.1 then (2 ^ 64 - decimal ds) % 2 ^ 64 else decimal ds, p.2.dropWhile isDec)

/-- `array_tree.c:311-357 __rrr_array_tree_interpret_identifier_and_size_tag` after the `{`: the name, and the rest of the text. -/
def reference (s : Bytes) : Parsed (Bytes × Bytes) :=
  let n := s.takeWhile Parse.isTagChar
  if n = [] then .soft
  else match s.dropWhile Parse.isTagChar with
  | [] => .soft
  | c :: r => if c = 125 then .ok (n, r) else .soft

/-- The names of types in the order of the table `type.c:1375-1392`. -/
def typeNames : List (Ty × Bytes) :=
  [(.be, [98, 101]), (.hdlc, [104, 100, 108, 99]), (.h, [104]), (.le, [108, 101]), (.blob, [98, 108, 111, 98]), (.ustr, [117, 115, 116, 114]),
   (.istr, [105, 115, 116, 114]), (.sep, [115, 101, 112]), (.msg, [109, 115, 103]), (.fixp, [102, 105, 120, 112]), (.str, [115, 116, 114]),
   (.nsep, [110, 115, 101, 112]), (.stx, [115, 116, 120]), (.err, [101, 114, 114]), (.vain, [118, 97, 105, 110])]

/-- `type.c:1394-1418 rrr_type_parse_from_string`. -/
def typeOf (s : Bytes) : Option (Ty × Bytes) :=
  (typeNames.find? fun x => x.2.isPrefixOf s).map fun x => (x.1, s.drop x.2.length)

/-- `type.h:128 RRR_TYPE_ALLOWS_SIGN`. -/
def allowsSign (ty : Ty) : Bool := ty == .le || ty == .be || ty == .h

/-- The length of a field as it is given, or the name of the value which is the length. -/
abbrev Amount := Nat × Option Bytes

/-- `array_tree.c:417-453`: the length of a type which has one. -/
def size (s : Bytes) : Parsed (Amount × Bytes) :=
  match s with
  | [] => .soft
  | c :: t =>
    if c = 123 then bind (reference t) fun x => .ok ((0, some x.1), x.2)
    else match number (c :: t) with
    | none => .soft
    | some (n, r) => if n > 0xffffffff then .soft else if n = 0 then .soft else .ok ((n, none), r)

/-- `array_tree.c:459-479`: the sign. -/
def sign (ty : Ty) (s : Bytes) : Parsed (Bool × Bytes) :=
  match s with
  | [] => .ok (false, [])
  | c :: t =>
    if c = 115 ∨ c = 83 ∨ c = 117 ∨ c = 85 then
      if !allowsSign ty then .soft else .ok (decide (c = 115 ∨ c = 83), t)
    else .ok (false, c :: t)

/-- `array_tree.c:494-546`: the count. -/
def count (ty : Ty) (s : Bytes) : Parsed (Amount × Bytes) :=
  match s with
  | [] => .ok ((1, none), [])
  | c :: t =>
    if c = 64 then
      match t with
      | [] => .soft
      | d :: u =>
        bind (if d = 123 then bind (reference u) fun x => .ok ((1, some x.1), x.2)
          else match number (d :: u) with
          | none => .soft
          | some (n, r) => .ok ((n, none), r)) fun (x : Amount × Bytes) =>
        if x.1.1 = 0 then .soft
        else if x.1.1 > 0xffffffff then .soft
        else if (x.1.1 > 1 ∨ x.1.2.isSome) ∧ maxLength ty = 0 then .soft
        else .ok x
    else .ok ((1, none), c :: t)

/-- `array_tree.c:606-631`: the tag; nothing may follow. -/
def tag (s : Bytes) : Parsed Bytes :=
  match s with
  | [] => .ok []
  | c :: t =>
    if c = 35 then (if !t.all Parse.isTagChar then .soft else if t = [] then .soft else .ok t)
    else .soft

/-- `array_tree.c:417-487`: the length and the sign. Without length, only a count or a tag may follow. -/
def sizeAndSign (ty : Ty) (r : Bytes) : Parsed (Amount × Bool × Bytes) :=
  if maxLength ty > 0 then bind (size r) fun x => bind (sign ty x.2) fun y => .ok (x.1, y.1, y.2)
  else match r with
    | [] => .ok ((0, none), false, [])
    | c :: t => if c ≠ 35 ∧ c ≠ 64 then .soft else .ok ((0, none), false, c :: t)

/-- `array_tree.c:373-565 __rrr_array_tree_interpret_identifier_and_size` and `array_tree.c:567-665 __rrr_array_tree_interpret_single_definition`. -/
def field (s : Bytes) : Parsed Field :=
  match typeOf s with
  | none => .soft
  | some (ty, r) =>
    bind (sizeAndSign ty r) fun x =>
    bind (count ty x.2.2) fun y =>
    bind (tag y.2) fun z =>
    if x.1.1 > maxLength ty then .soft
    else .ok ⟨ty, x.2.1, z, UInt32.ofNat x.1.1, x.1.2, UInt32.ofNat y.1.1, y.1.2⟩

/-! ## Trees -/

/-- `IF`, `ELSIF`, `ELSE` and `REWIND`. -/
def kwIf : Bytes := [73, 70]
def kwElsif : Bytes := [69, 76, 83, 73, 70]
def kwElse : Bytes := [69, 76, 83, 69]
def kwRewind : Bytes := [82, 69, 87, 73, 78, 68]

/-- `array_tree.c:667-677 CHECK_KEYWORDS`. -/
def keyword (s : Bytes) : Bool := kwIf.isPrefixOf s || kwElsif.isPrefixOf s || kwElse.isPrefixOf s || kwRewind.isPrefixOf s

/-- What `__rrr_array_tree_interpret_node_check_end` finds. After a comma the end of the text or a keyword count. -/
inductive Mark where
  | eof | semicolon | comma | special | other
deriving DecidableEq, Repr

/-- `array_tree.c:679-725 __rrr_array_tree_interpret_node_check_end`. -/
def checkEnd (s : Bytes) : Mark × Bytes :=
  match Parse.ignoreSpaces s with
  | [] => (.eof, [])
  | c :: t =>
    if keyword (c :: t) then (.special, c :: t)
    else if c = 44 then
      match Parse.ignoreSpaces t with
      | [] => (.eof, [])
      | d :: u => if keyword (d :: u) then (.special, d :: u) else (.comma, d :: u)
    else if c = 59 then (.semicolon, Parse.ignoreSpaces t)
    else (.other, c :: t)

/-- The characters at which a definition ends, `array_tree.c:757-762`. -/
def isStop (c : UInt8) : Bool := Parse.isSpaceTab c || c == 44 || c == 59 || Parse.isNewline c || c == 0

/-- `array_tree.c:727-829 __rrr_array_tree_interpret_node`: whether a semicolon was found, the fields, and the rest of the text. Each round reads at least three characters. -/
def node : Nat → Bytes → Parsed (Bool × List Field × Bytes)
  | 0, _ => .bug
  | fuel + 1, s =>
    if s = [] then .ok (false, [], [])
    else
      match checkEnd s with
      | (.other, s1) =>
        let w := s1.takeWhile fun c => !isStop c
        let r := s1.dropWhile fun c => !isStop c
        if w = [] then .ok (false, [], s1)
        else if w.length = 1 then .soft
        else if w.length - 1 > 64 then .soft
        else if w.length - 1 < 2 then .soft                        -- L785
        else bind (field w) fun f =>
          match checkEnd r with
          | (.comma, s2) => bind (node fuel s2) fun x => .ok (x.1, f :: x.2.1, x.2.2)
          | (.other, _) => .soft
          | (m, s2) => .ok (m = .semicolon, [f], s2)
      | (m, s1) => .ok (m = .semicolon, [], s1)

/-- `array_tree.c:831-893 __rrr_array_tree_interpret_rewind`: the number and the rest of the text. -/
def rewindCount (s : Bytes) : Parsed (Nat × Bytes) :=
  let t := Parse.ignoreSpaces s
  let ds := t.takeWhile Parse.isDigit
  if t = [] then .soft
  else if ds = [] then .soft
  else if ds.length > 12 then .soft
  else if decimal ds > 0xffffffff then .soft
  else .ok (decimal ds, t.dropWhile Parse.isDigit)

/-- A node with fields before the rest of a tree. -/
def withFields (fs : List Field) (t : Tree) : Tree := fs.foldr .field t

mutual
/-- `array_tree.c:895-984 rrr_array_tree_interpret`: the tree and the rest of the text. -/
def tree : Nat → Bytes → Parsed (Tree × Bytes)
  | 0, _ => .bug
  | fuel + 1, s =>
    match Parse.ignoreSpaces s with
    | [] => .soft
    | c :: t =>
      if c = 59 then .ok (.nil, t)
      else
        match Parse.matchWord kwIf (c :: t) with
        | some r => bind (arm fuel r) fun x => after fuel s.length x.2 (.cond x.1)
        | none =>
          match Parse.matchWord kwRewind (c :: t) with
          | some r => bind (rewindCount r) fun x => after fuel s.length x.2 (.rewind x.1)
          | none => after fuel s.length (c :: t) id
/-- `array_tree.c:942-964`: the fields, then the loop goes on unless there is a semicolon. There must be some progress. -/
def after : Nat → Nat → Bytes → (Tree → Tree) → Parsed (Tree × Bytes)
  | 0, _, _, _ => .bug
  | fuel + 1, start, s, f =>
    bind (node (s.length + 1) s) fun x =>
    if x.1 then .ok (f (withFields x.2.1 .nil), x.2.2)
    else if x.2.2.length = start then .soft
    else bind (tree fuel x.2.2) fun y => .ok (f (withFields x.2.1 y.1), y.2)
/-- `array_tree.c:227-255 __rrr_array_tree_interpret_if_or_elsif` and what follows it in `array_tree.c:273-300`. -/
def arm : Nat → Bytes → Parsed (Branches × Bytes)
  | 0, _ => .bug
  | fuel + 1, s =>
    bind (Condition.interpret s) fun c =>
    bind (tree fuel c.2) fun t =>
    bind (more fuel t.2) fun x => .ok (.arm c.1 t.1 x.1, x.2)
/-- `array_tree.c:273-300`: `ELSIF` and `ELSE`. -/
def more : Nat → Bytes → Parsed (Branches × Bytes)
  | 0, _ => .bug
  | fuel + 1, s =>
    match Parse.matchWord kwElsif (Parse.ignoreSpaces s) with
    | some r => arm fuel r
    | none =>
      match Parse.matchWord kwElse (Parse.ignoreSpaces s) with
      | some r => bind (tree fuel r) fun t => .ok (.els t.1, t.2)
      | none => .ok (.none, Parse.ignoreSpaces s)
end

/-- `array_tree.c:895-984 rrr_array_tree_interpret`. -/
def interpret (s : Bytes) : Parsed (Tree × Bytes) := tree (4 * s.length + 4) s

/-- `array_tree.c:986-1023 rrr_array_tree_interpret_raw`. -/
def interpretRaw (s : Bytes) : Parsed Tree :=
  bind (interpret s) fun x =>
  let r := x.2.dropWhile Parse.isSpaceTab
  let r := (Parse.matchWord [59] r).getD r
  if r.dropWhile Parse.isSpaceTab = [] then .ok x.1 else .soft

end Verif.ArrayDef
