import Verif.Parse.Model
import Verif.Topic.Model
import Verif.Types.Model
/-!
# Model of `src/lib/discern_stack.c`: route and method definitions

The text of a definition is parsed to a list of elements, which are executed for each message. String values are
kept one after another in a storage, elements refer to them by position. The list of elements follows the
strings in the storage of a finished definition (`discern_stack.c:1120-1133`), here they are kept apart.

Not modelled: allocation failure, log messages, line numbers, the name of a definition.
-/
namespace Verif.Discern
open Verif Msg

/-- `discern_stack.c:35-41 enum rrr_discern_stack_element_type`. -/
inductive EType where
  | none | topicFilter | arrayTag | bool | destination
deriving DecidableEq, Repr

/-- `discern_stack.c:44-52 enum rrr_discern_stack_operator_type`. -/
inductive Op where
  | push | and | or | apply | not | pop | bail
deriving DecidableEq, Repr

/-- `discern_stack.c:54 OP_ARG_COUNT`. -/
def Op.args : Op → Nat
  | .push => 0
  | .and | .or | .apply => 2
  | .not | .pop | .bail => 1

/-- `discern_stack.c:71-76 struct rrr_discern_stack_value` without padding. -/
structure Val where
  dataSize : Nat
  dataPos : Nat
  value : UInt32
deriving DecidableEq, Repr

/-- `discern_stack.c:78-82 struct rrr_discern_stack_element`. -/
structure Elem where
  type : EType
  op : Op
  val : Val
deriving DecidableEq, Repr

/-- `discern_stack.c:33 RRR_DISCERN_STACK_MAX`. -/
def stackMax : Nat := 64

/-- A `char`, which is signed, converted to `rrr_length`. -/
def charLength (c : UInt8) : UInt32 := if c < 0x80 then c.toUInt32 else c.toUInt32 ||| 0xffffff00

/-- `discern_stack.h:56-58 RRR_DISCERN_STACK_FIRST_LAST_INDEX`. -/
def firstLast (s : Bytes) : UInt32 := (charLength (s.headD 0) <<< 16) ||| charLength (s.getLastD 0)

/-- The C string at a position of a storage, if there is a NUL after it in the storage. -/
def cstrAt (storage : Bytes) (pos : Nat) : Option Bytes :=
  if (0 : UInt8) ∈ storage.drop pos then some ((storage.drop pos).takeWhile (· ≠ 0)) else none

/-- A number of bytes at a position of a storage, if all of them are in the storage. -/
def bytesAt (storage : Bytes) (pos size : Nat) : Option Bytes :=
  if pos + size ≤ storage.length then some ((storage.drop pos).take size) else none

/-! ## Parsing -/

/-- `discern_stack.h:44-54 enum rrr_discern_stack_fault`, only those which the parser gives. -/
inductive Fault where
  | endMissing | syntaxError | invalidValue | valueMissing | invalidType | stackCount | stackOverflow
deriving DecidableEq, Repr

/-- What a keyword and its value add to the list: arguments to `__rrr_discern_stack_list_push`. -/
structure Push where
  type : EType
  op : Op
  /-- `data`, without the NUL at its end -/
  data : Option Bytes
  value : UInt32
deriving DecidableEq, Repr

/-- What is found at the start of the remaining text. -/
inductive Lexed where
  | eof
  | comment (rest : Bytes)
  | elem (p : Push) (rest : Bytes)
  | fault (f : Fault)
deriving DecidableEq, Repr

/-- `discern_stack.c:949-966`: keywords followed by a value. -/
def valueKeywords : List (Bytes × EType) :=
  [([0x54], .topicFilter), ([0x48], .arrayTag), ([0x44], .destination), ([0x49], .destination)]

/-- `discern_stack.c:967-990`: operators. -/
def operators : List (Bytes × Op) :=
  [([0x41, 0x4e, 0x44], .and), ([0x4f, 0x52], .or), ([0x4e, 0x4f, 0x54], .not), ([0x41, 0x50, 0x50, 0x4c, 0x59], .apply),
   ([0x50, 0x4f, 0x50], .pop), ([0x42, 0x41, 0x49, 0x4c], .bail)]

/-- The first of the words which matches. -/
def firstMatch {α : Type} : List (Bytes × α) → Bytes → Option (α × Bytes)
  | [], _ => none
  | (w, a) :: ws, b =>
    match Parse.matchWord w b with
    | some rest => some (a, rest)
    | none => firstMatch ws b

/-- `discern_stack.c:999-1004`: a keyword is followed by a space or a control character. -/
def spaceAfter (b : Bytes) : Bool := Parse.peek Parse.isSpaceControl b ≠ 0

/-- `discern_stack.c:1016-1027`: the value after a keyword and the text after it. -/
def value (type : EType) (b : Bytes) : Bytes × Bytes :=
  match type with
  | .topicFilter => Parse.nonControl b
  | .arrayTag => Parse.matchLetters Parse.isTagChar b
  | _ => Parse.matchLetters Parse.isNameChar b

/-- `discern_stack.c:1029-1075`: checks of the value `v`. -/
def checkValue (type : EType) (v rest : Bytes) : Lexed :=
  if v = [] then .fault .valueMissing
  else if rest = [] then .fault .endMissing
  else if type ≠ .topicFilter ∧ ¬ spaceAfter rest then .fault .invalidValue
  else if type = .topicFilter ∧ ¬ Topic.filterValidateName (Topic.cstr v) then .fault .invalidValue
  else .elem ⟨type, .push, some (Topic.cstr v), 0⟩ rest

/-- `discern_stack.c:1010-1075`: the value after a keyword. -/
def lexValue (type : EType) (b : Bytes) : Lexed :=
  checkValue type (value type (Parse.ignoreSpaces b)).1 (value type (Parse.ignoreSpaces b)).2

/-- `discern_stack.c:927-1075`: one iteration of the parser up to the label `push`. -/
def lex (b : Bytes) : Lexed :=
  let b := Parse.ignoreSpaces b
  if b = [] then .eof
  else match Parse.matchWord [0x23] b with
  | some rest => .comment (Parse.comment rest)
  | none =>
    match firstMatch [([0x54, 0x52, 0x55, 0x45], (1 : UInt32)), ([0x46, 0x41, 0x4c, 0x53, 0x45], 0)] b with
    | some (v, rest) => if ¬ spaceAfter rest then .fault .syntaxError else .elem ⟨.bool, .push, none, v⟩ rest
    | none =>
      match firstMatch valueKeywords b with
      | some (t, rest) => if ¬ spaceAfter rest then .fault .syntaxError else lexValue t rest
      | none =>
        match firstMatch operators b with
        | some (op, rest) => .elem ⟨.none, op, none, 0⟩ rest
        | none => .fault .syntaxError

/-- `discern_stack.c:264-319 __rrr_discern_stack_list_push` of a string with its NUL, or a number: the new element and the value storage. -/
def listPush (storage : Bytes) (p : Push) : Elem × Bytes :=
  match p.data with
  | some d =>
    (⟨p.type, p.op, ⟨d.length + 1, storage.length, firstLast d⟩⟩, storage ++ (d ++ [0]))
  | none => (⟨p.type, p.op, ⟨0, 0, p.value⟩⟩, storage)

/-- `sizeof(struct rrr_discern_stack_element)`. -/
def elemSize : Nat := 24

/-- `discern_stack.c:281-291` with L196-262: the list is extended by eight elements when it is full. False if the number of bytes of the list does
not fit in 32 bits, the list is then too small. -/
def listFits (n : Nat) : Bool := n % 8 ≠ 0 ∨ (n + 8) * elemSize < 2 ^ 32

/-- `discern_stack.c:118`: false if the size of the value storage does not fit in 32 bits, which is `RRR_BUG`. -/
def storageFits (storage : Bytes) (p : Push) : Bool :=
  match p.data with
  | some d => storage.length + (d.length + 1) < 2 ^ 32
  | none => true

/-- What is on the stack while parsing: the type and value of an element. -/
structure Cell where
  type : EType
  val : Val
deriving DecidableEq, Repr

/-- Results of one step of execution during parsing. -/
inductive Stepped where
  | ok (stack : List Cell) | fault (f : Fault) | abort
deriving DecidableEq, Repr

/-- `discern_stack.c:328-344 __rrr_discern_stack_list_push_bool`. -/
def boolCell (v : UInt32) : Cell := ⟨.bool, ⟨0, 0, v⟩⟩

/-- `discern_stack.c:559-617 __rrr_discern_stack_execute_op_push`. A string is not copied when it is pushed,
because it is in the storage already (L111-116). -/
def opPush (stack : List Cell) (e : Elem) : Stepped :=
  match e.type with
  | .topicFilter | .arrayTag => .ok (boolCell 1 :: stack)
  | .destination | .bool => .ok (⟨e.type, if e.val.dataSize > 0 then e.val else ⟨0, 0, e.val.value⟩⟩ :: stack)
  | .none => .abort

/-- `discern_stack.c:468-520 __rrr_discern_stack_execute_op_bool` of two operands; the top of the stack comes first. -/
def opBool2 (f : UInt32 → UInt32 → UInt32) : List Cell → Stepped
  | a :: b :: stack =>
    if a.type ≠ .bool then .fault .invalidType
    else if b.type ≠ .bool then .fault .invalidType
    else .ok (boolCell (f a.val.value b.val.value) :: stack)
  | _ => .abort

/-- `discern_stack.c:468-520 __rrr_discern_stack_execute_op_bool` of one operand. -/
def opBool1 (f : UInt32 → UInt32) : List Cell → Stepped
  | a :: stack => if a.type ≠ .bool then .fault .invalidType else .ok (boolCell (f a.val.value) :: stack)
  | _ => .abort

/-- `discern_stack.c:522-557 __rrr_discern_stack_execute_op_apply`. -/
def opApply : List Cell → Stepped
  | a :: b :: stack =>
    if b.type ≠ .bool then .fault .invalidType
    else if a.type ≠ .destination then .fault .invalidType
    else if a.val.dataSize = 0 then .abort
    else .ok (b :: stack)
  | _ => .abort

/-- A C truth value. -/
def truth (b : Bool) : UInt32 := if b then 1 else 0

/-- `discern_stack.c:452-466`. -/
def and_ (a b : UInt32) : UInt32 := truth (a ≠ 0 && b ≠ 0)
/-- `discern_stack.c:452-466`. -/
def or_ (a b : UInt32) : UInt32 := truth (a ≠ 0 || b ≠ 0)
/-- `discern_stack.c:452-466`. -/
def not_ (a : UInt32) : UInt32 := truth (a = 0)

/-- Sequencing of steps. -/
def Stepped.bind (s : Stepped) (f : List Cell → Stepped) : Stepped :=
  match s with
  | .ok st => f st
  | .fault x => .fault x
  | .abort => .abort

/-- The end of a step: `discern_stack.c:885-892`. -/
def checkSize (stack : List Cell) : Stepped :=
  if stack.length > stackMax then .abort
  else if stack.length = stackMax then .fault .stackOverflow
  else .ok stack

/-- `discern_stack.c:787-897 __rrr_discern_stack_parse_execute_step`. The value of BAIL is not used by the parser, except that the size
of the stack is not checked when it is true (L879-881). -/
def parseStep (stack : List Cell) (e : Elem) : Stepped :=
  if e.op.args > stack.length then .fault .stackCount
  else
    match e.op with
    | .push => (opPush stack e).bind checkSize
    | .and => (opBool2 and_ stack).bind checkSize
    | .or => (opBool2 or_ stack).bind checkSize
    | .apply => (opApply stack).bind checkSize
    | .not => (opBool1 not_ stack).bind checkSize
    | .pop => match stack with
      | _ :: st => checkSize st
      | [] => .abort
    | .bail => (opBool1 id stack).bind fun st =>
      match st with
      | a :: st => if a.val.value ≠ 0 then .ok st else checkSize st
      | [] => .abort

/-- A finished definition: `discern_stack.c:95-100 struct rrr_discern_stack`. -/
structure Prog where
  list : List Elem
  storage : Bytes
deriving DecidableEq, Repr

/-- Results of the parser: a definition with the remaining text, a refusal, an assertion or `RRR_BUG`, or a write outside of
the list. -/
inductive Parsed where
  | ok (p : Prog) (rest : Bytes) | fault (f : Fault) | abort | oob
deriving DecidableEq, Repr

/-- `discern_stack.c:1120-1133`: the strings and the list are copied to one storage, of which the size must fit in 32 bits (`RRR_BUG`). The list has
room for a multiple of eight elements. -/
def finish (p : Prog) (rest : Bytes) : Parsed :=
  if p.storage.length + (p.list.length + 7) / 8 * 8 * elemSize < 2 ^ 32 then .ok p rest else .abort

/-- `discern_stack.c:927-1118`, the loop of the parser and the check of the stack after it. The first argument bounds the number of iterations, each of them uses text. -/
def parseLoop : Nat → Prog → List Cell → Bytes → Parsed
  | 0, _, _, _ => .fault .endMissing
  | n + 1, prog, stack, b =>
    if b = [] then (if stack = [] then finish prog [] else .fault .stackCount)
    else match lex b with
    | .eof => if stack = [] then finish prog [] else .fault .stackCount
    | .comment rest => parseLoop n prog stack rest
    | .fault f => .fault f
    | .elem p rest =>
      if ¬ listFits prog.list.length then .oob
      else if ¬ storageFits prog.storage p then .abort
      else
        let (e, storage) := listPush prog.storage p
        let prog := ⟨prog.list ++ [e], storage⟩
        match parseStep stack e with
        | .abort => .abort
        | .fault f => .fault f
        | .ok stack => if stack = [] then finish prog rest else parseLoop n prog stack rest

/-- `discern_stack.c:903-1156 __rrr_discern_stack_parse` and `discern_stack.c:1182-1212 rrr_discern_stack_interpret`. -/
def parse (b : Bytes) : Parsed :=
  let b := Parse.ignoreControl b
  if b = [] then .fault .endMissing
  else parseLoop (b.length + 1) ⟨[], []⟩ [] b

/-! ## Execution -/

/-- Results of a callback: it returns zero with a result, returns non-zero, or the process aborts (or reads outside of the message). -/
inductive Call (σ α : Type) where
  | ret (a : α) (s : σ) | err (s : σ) | abort
deriving Repr

/-- `discern_stack.h:69-76 struct rrr_discern_stack_callbacks`. The state `σ` is what the callbacks have access to through their argument. -/
structure Callbacks (σ : Type) where
  topicFilter : σ → Bytes → Call σ UInt32
  /-- the result and the index, if one is set -/
  arrayTag : σ → Bytes → Call σ (UInt32 × Option (List UInt32))
  applyFalse : Option (σ → Bytes → Call σ Unit)
  applyTrue : σ → Bytes → Call σ Unit

/-- `discern_stack.c:646-649 apply_cbs` and `discern_stack.c:619-623`. -/
def Callbacks.apply {σ : Type} (cbs : Callbacks σ) (result : Bool) (s : σ) (name : Bytes) : Call σ Unit :=
  if result then cbs.applyTrue s name
  else match cbs.applyFalse with
    | some f => f s name
    | none => .ret () s

/-- State of the execution: `stack_e`, `wpos`, `index_tmp` (with `index_tmp_size`) and the state of the callbacks. -/
structure Exec (σ : Type) where
  stack : List Val
  wpos : Nat
  index : List UInt32
  cb : σ

/-- Results of the execution: it ended (`RRR_DISCERN_STACK_OK`), it bailed out, a callback failed, an assertion failed or a callback
aborted, or something outside of the stack was accessed. -/
inductive Out (σ : Type) where
  | done (s : σ) | bail (s : σ) | err (s : σ) | abort | oob
deriving DecidableEq, Repr

/-- One iteration ends with a new state or ends the execution. -/
inductive Next (σ : Type) where
  | go (x : Exec σ) | stop (o : Out σ)

/-- `stack_e[wpos++].value = v`. -/
def Exec.push {σ : Type} (x : Exec σ) (v : UInt32) : Next σ :=
  match x.stack[x.wpos]? with
  | none => .stop .oob
  | some old => .go { x with stack := x.stack.set x.wpos { old with value := v }, wpos := x.wpos + 1 }

/-- `stack_e[wpos - 2].value = f(stack_e[wpos - 1].value, stack_e[wpos - 2].value); wpos--`. -/
def Exec.two {σ : Type} (x : Exec σ) (f : UInt32 → UInt32 → UInt32) : Next σ :=
  if x.wpos < 2 then .stop .oob
  else match x.stack[x.wpos - 1]?, x.stack[x.wpos - 2]? with
  | some a, some b => .go { x with stack := x.stack.set (x.wpos - 2) { b with value := f a.value b.value }, wpos := x.wpos - 1 }
  | _, _ => .stop .oob

/-- `discern_stack.c:677-706`: an array tag. An index from an earlier call is checked first. -/
def execTag {σ : Type} (cbs : Callbacks σ) (storage : Bytes) (x : Exec σ) (v : Val) : Next σ :=
  if x.index ≠ [] ∧ v.value ∉ x.index then x.push 0
  else match cstrAt storage v.dataPos with
  | none => .stop .oob
  | some tag =>
    match cbs.arrayTag x.cb tag with
    | .ret (r, none) s => { x with cb := s }.push r
    | .ret (r, some index) s => { x with cb := s, index := index }.push r
    | .err s => .stop (.err s)
    | .abort => .stop .abort

/-- `discern_stack.c:727-733`: APPLY. -/
def execApply {σ : Type} (cbs : Callbacks σ) (storage : Bytes) (x : Exec σ) : Next σ :=
  if x.wpos < 2 then .stop .oob
  else match x.stack[x.wpos - 1]?, x.stack[x.wpos - 2]? with
  | some d, some b =>
    match cstrAt storage d.dataPos with
    | none => .stop .oob
    | some name =>
      match cbs.apply (b.value &&& 1 = 1) x.cb name with
      | .ret () s => .go { x with cb := s, wpos := x.wpos - 1 }
      | .err s => .stop (.err s)
      | .abort => .stop .abort
  | _, _ => .stop .oob

/-- `discern_stack.c:659-750`: one iteration. -/
def execStep {σ : Type} (cbs : Callbacks σ) (storage : Bytes) (x : Exec σ) (e : Elem) : Next σ :=
  if x.wpos ≥ stackMax then .stop .abort
  else match e.op with
  | .push =>
    match e.type with
    | .topicFilter =>
      match bytesAt storage e.val.dataPos (e.val.dataSize - 1) with
      | none => .stop .oob
      | some filter =>
        match cbs.topicFilter x.cb filter with
        | .ret r s => { x with cb := s }.push r
        | .err s => .stop (.err s)
        | .abort => .stop .abort
    | .arrayTag => execTag cbs storage x e.val
    | .bool => x.push e.val.value
    | .destination => match x.stack[x.wpos]? with
      | none => .stop .oob
      | some _ => .go { x with stack := x.stack.set x.wpos e.val, wpos := x.wpos + 1 }
    | .none => .stop .abort
  | .and => x.two and_
  | .or => x.two or_
  | .apply => execApply cbs storage x
  | .not =>
    if x.wpos < 1 then .stop .oob
    else match x.stack[x.wpos - 1]? with
    | some a => .go { x with stack := x.stack.set (x.wpos - 1) { a with value := not_ a.value } }
    | none => .stop .oob
  | .pop => if x.wpos < 1 then .stop .oob else .go { x with wpos := x.wpos - 1 }
  | .bail =>
    if x.wpos < 1 then .stop .oob
    else match x.stack[x.wpos - 1]? with
    | some a => if a.value ≠ 0 then .stop (.bail x.cb) else .go { x with wpos := x.wpos - 1 }
    | none => .stop .oob

/-- `discern_stack.c:659-753`: the loop and the check that the stack is empty. -/
def execLoop {σ : Type} (cbs : Callbacks σ) (storage : Bytes) : Exec σ → List Elem → Out σ
  | x, [] => if x.wpos = 0 then .done x.cb else .abort
  | x, e :: es =>
    match execStep cbs storage x e with
    | .go x => execLoop cbs storage x es
    | .stop o => o

/-- `discern_stack.c:629-759 __rrr_discern_stack_execute`. -/
def execute {σ : Type} (cbs : Callbacks σ) (p : Prog) (s : σ) : Out σ :=
  execLoop cbs p.storage ⟨List.replicate stackMax ⟨0, 0, 0⟩, 0, [], s⟩ p.list

/-- `discern_stack.c:761-782 rrr_discern_stack_collection_execute`. -/
def executeAll {σ : Type} (cbs : Callbacks σ) : List Prog → σ → Out σ
  | [], s => .done s
  | p :: ps, s =>
    match execute cbs p s with
    | .done s => executeAll cbs ps s
    | o => o

/-- `discern_stack.c:1158-1180 rrr_discern_stack_collection_iterate_destination_names` of one definition: the names given to the callback. -/
def destinationNames (p : Prog) : List (Option Bytes) :=
  (p.list.filter fun e => e.type = .destination).map fun e => cstrAt p.storage e.val.dataPos

/-! ## Callbacks for messages -/

/-- `discern_stack_helper.c:33-60 rrr_discern_stack_helper_topic_filter_resolve_cb`; `nxt` is the byte after the topic in memory. -/
def topicResolve (nxt : UInt8) (m : MsgMsg) (filter : Bytes) : Option UInt32 :=
  if m.topicLength.toNat > m.body.length then none
  else if m.topicLength = 0 then some 0
  else match Topic.matchLinear nxt (m.body.take m.topicLength.toNat) filter with
  | .mismatch => some 0
  | .match => some 1
  | .abort => none

/-- `discern_stack_helper.c:90-96`: index of the tags of an array. -/
def indexOf (vs : List Types.Value) : List UInt32 := (vs.filter fun v => v.tag ≠ []).map fun v => firstLast v.tag

/-- `discern_stack_helper.c:62-114 rrr_discern_stack_helper_array_tag_resolve_cb`; `produced` is `index_produced`. The result is the
truth value, the index if it was set, and `index_produced` afterwards. -/
def tagResolve (le : Bool) (m : MsgMsg) (produced : Bool) (tag : Bytes) : Res (UInt32 × Option (List UInt32) × Bool) :=
  if m.class_ ≠ 11 then .ok (0, none, produced)
  else (Types.toArray le m).bind fun vs =>
    .ok (truth (vs.any fun v => Types.isTag v tag), if produced then none else some (indexOf vs), true)

/-- The callbacks of `discern_stack_helper.c`, together with callbacks for APPLY which have a state of their own. -/
def helper {τ : Type} (le : Bool) (nxt : UInt8) (m : MsgMsg) (applyFalse : Option (τ → Bytes → Call τ Unit)) (applyTrue : τ → Bytes → Call τ Unit) :
    Callbacks (Bool × τ) where
  topicFilter := fun s f => match topicResolve nxt m f with
    | some r => .ret r s
    | none => .abort
  arrayTag := fun s t => match tagResolve le m s.1 t with
    | .ok (r, i, p) => .ret (r, i) (p, s.2)
    | .bug | .oob => .abort
    | _ => .err s
  applyFalse := applyFalse.map fun f s d => match f s.2 d with
    | .ret () t => .ret () (s.1, t)
    | .err t => .err (s.1, t)
    | .abort => .abort
  applyTrue := fun s d => match applyTrue s.2 d with
    | .ret () t => .ret () (s.1, t)
    | .err t => .err (s.1, t)
    | .abort => .abort

/-! ## Routing of messages -/

/-- `instances.c:50-66` with `instance_friends.c:50-61`: the result of APPLY is false, the instance is removed. Instances are given by their names, `known` are the instances
which exist (`rrr_instance_find`). -/
def routeFalse (known : List Bytes) (hops : List Bytes) (d : Bytes) : Call (List Bytes) Unit :=
  if d ∈ known then .ret () (hops.erase d) else .abort

/-- `instances.c:68-95` with `instance_friends.c:50-90`: the result of APPLY is true, the instance is put last. -/
def routeTrue (known : List Bytes) (hops : List Bytes) (d : Bytes) : Call (List Bytes) Unit :=
  if d ∉ known then .abort
  else
    let hops := hops.erase d
    if d ∈ hops then .err hops else .ret () (hops ++ [d])

/-- `instances.c:97-156 __rrr_instance_message_broker_entry_postprocess_callback`: the instances set in the entry before and after. -/
def postprocess (le : Bool) (nxt : UInt8) (known : List Bytes) (routes : List Prog) (m : MsgMsg) (entry : List Bytes) : Out (List Bytes) :=
  if routes = [] then .done entry
  else match executeAll (helper le nxt m (some (routeFalse known)) (routeTrue known)) routes (false, []) with
    | .done s => .done (if s.2 = [] then entry else s.2)
    | .bail s => .done (if s.2 = [] then entry else s.2)
    | .err _ => .err entry
    | .abort => .abort
    | .oob => .oob

/-- `message_holder.c:366-373 rrr_msg_holder_nexthop_ok`: whether an instance may take the entry. -/
def nexthopOk (hops : List Bytes) (instance_ : Bytes) : Bool := hops = [] ∨ instance_ ∈ hops

end Verif.Discern
