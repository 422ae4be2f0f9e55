import Verif.AclFile.Model
import Verif.ArrayDef.Model
import Verif.Discern.Model
/-!
# Model of `src/lib/configuration.c` and of the reading of instances in `src/lib/instance_config.c` and `src/lib/settings.c`

A position in the text is given by the bytes from it to the end of the text. Allocation does not fail.
-/
namespace Verif.Config
open AclFile (Out)

/-! ## Names (`parse.c`) -/

/-- `parse.c:483-538 rrr_parse_str_extract_name`: the name, if there is one, and the text after the end character. -/
def extractName (e : UInt8) (b : Bytes) : Out (Option Bytes × Bytes) :=
  let b := Parse.ignoreSpaces b
  if b = [] then .ok (none, [])
  else
    let x := Parse.matchLetters Parse.isNameChar b
    if x.1 = [] then .ok (none, x.2)
    else
      match Parse.ignoreSpaces x.2 with
      | [] => .err
      | c :: t => if c = e then .ok (some x.1, t) else .err

/-- `parse.c:540-578 __rrr_parse_str_extract_name_with_subscript` up to the callback: the name, whether `[` follows, and the text. There is none at the end of the text. An empty name before `]` or `[` makes `rrr_length_from_slength_sub_bug_const` abort. -/
def namePart (b : Bytes) : Out (Option (Bytes × Bool × Bytes)) :=
  let b := Parse.ignoreSpaces b
  if b = [] then .ok none
  else
    let x := Parse.matchLetters Parse.isNameChar b
    match Parse.ignoreSpaces x.2 with
    | [] => .err
    | c :: t =>
      if c ≠ 93 ∧ c ≠ 91 then .err
      else if x.1 = [] then .abort
      else .ok (some (x.1, c = 91, t))

/-- `parse.c:540-632 rrr_parse_str_extract_name_with_subscript` with `configuration.c:145-176 __rrr_config_parse_block_name_callback`, which refuses a third level: the name and the name of the subscript. -/
def blockName (b : Bytes) : Out (Option (Bytes × Option Bytes) × Bytes) :=
  (namePart b).bind fun
  | none => .ok (none, [])
  | some (n, false, t) => .ok (some (n, none), t)
  | some (n, true, t) =>
    (namePart t).bind fun
    | none => .err
    | some (m, false, u) =>
      match Parse.ignoreSpaces u with
      | [] => .err
      | c :: v => if c = 93 then .ok (some (n, some m), v) else .err
    | some (_, true, u) => (namePart u).bind fun _ => .err

/-! ## Settings -/

/-- `configuration.c:108-111`: spaces at the end are cut, but not the first character. -/
def trim (v : Bytes) : Bytes :=
  match v with
  | [] => []
  | c :: t => c :: (t.reverse.dropWhile Parse.isSpaceTab).reverse

/-- `configuration.c:49-138 __rrr_config_parse_setting` without the callback: the name and the value, if there is a setting. The loop over comments is the one of `AclFile.spacesComments`. -/
def setting (b : Bytes) : Out (Option (Bytes × Bytes) × Bytes) :=
  match AclFile.spacesComments (b.length + 1) b with
  | [] => .ok (none, [])
  | c :: t =>
    (extractName 61 (c :: t)).bind fun x =>
      match x.1 with
      | none => .ok (none, x.2)
      | some n =>
        let r := Parse.ignoreSpaces x.2
        if r = [] then .err
        else if AclFile.newLine x.2 then .err
        else .ok (some (n, Topic.cstr (trim (r.takeWhile fun c => !Parse.isNewline c))), r.dropWhile fun c => !Parse.isNewline c)

/-- `instance_config.c:43 RRR_INSTANCE_CONFIG_MAX_SETTINGS`. -/
def maxSettings : Nat := 32

/-- `settings.h:43 RRR_SETTINGS_MAX_NAME_SIZE`. -/
def maxName : Nat := 244

/-- `settings.c:269-311 __rrr_settings_add_raw` with `rrr_settings_add_string`: a setting which exists is not replaced. -/
def addSetting (ss : List (Bytes × Bytes)) (n v : Bytes) : Option (List (Bytes × Bytes)) :=
  if ss.any (fun s => s.1 = n) then none
  else if ss.length = maxSettings then none
  else if n.length + 1 > maxName then none
  else some (ss ++ [(n, v)])

/-- `configuration.c:219-233`: settings until there are no more. The first argument bounds their number. -/
def settingsLoop : Nat → List (Bytes × Bytes) → Bytes → Out (List (Bytes × Bytes) × Bytes)
  | 0, _, _ => .err
  | k + 1, ss, b =>
    (setting b).bind fun x =>
      match x.1 with
      | none => .ok (ss, x.2)
      | some (n, v) =>
        match addSetting ss n v with
        | none => .err
        | some ss' => settingsLoop k ss' (Parse.ignoreSpaces x.2)

/-! ## The file -/

/-- `instance_config.h struct rrr_instance_config_data`: names and settings. -/
structure Inst where
  main : Bytes
  sub : Option Bytes
  settings : List (Bytes × Bytes)
deriving DecidableEq, Repr

/-- `configuration.h struct rrr_config` and the instances. -/
structure Conf where
  trees : List (Bytes × ArrayTree.Tree)
  routes : List (Bytes × Discern.Prog)
  methods : List (Bytes × Discern.Prog)
  insts : List Inst

/-- `instance_config.c:956-977 __rrr_instance_config_find_instance`. -/
def findInst (is : List Inst) (main : Bytes) (sub : Option Bytes) : Option Inst :=
  is.find? fun i => decide (i.main = main) && decide (i.sub = sub)

/-- `configuration.c:178-248 __rrr_config_parse_block` with `instance_config.c:979-1040`. If the name is missing at the end of the text, there is no error. -/
def block (c : Conf) (b : Bytes) : Out (Conf × Bytes) :=
  (blockName b).bind fun x =>
    match x.1 with
    | none => .ok (c, x.2)
    | some (n, m) =>
      if x.2 = [] then .err
      else if (findInst c.insts n m).isSome then .err
      else (settingsLoop (x.2.length + 1) [] x.2).bind fun y => .ok ({ c with insts := c.insts ++ [⟨n, m, y.1⟩] }, y.2)

/-- `array_tree.c:900-984 rrr_array_tree_interpret` as an outcome. -/
def treeOut (b : Bytes) : Out (ArrayTree.Tree × Bytes) :=
  match ArrayDef.interpret b with
  | .ok x => .ok x
  | .soft => .err
  | .bug => .abort

/-- `discern_stack.c:1182-1212 rrr_discern_stack_interpret` as an outcome. -/
def stackOut (b : Bytes) : Out (Discern.Prog × Bytes) :=
  match Discern.parse b with
  | .ok p r => .ok (p, r)
  | .fault _ => .err
  | .abort => .abort
  | .oob => .abort

/-- `configuration.c:250-291 __rrr_config_parse_array_tree`. If the name is missing there is no error. -/
def treeDef (c : Conf) (b : Bytes) : Out (Conf × Bytes) :=
  (extractName 125 b).bind fun x =>
    match x.1 with
    | none => .ok (c, x.2)
    | some n => (treeOut x.2).bind fun y => .ok ({ c with trees := c.trees ++ [(n, y.1)] }, y.2)

/-- `configuration.c:293-341 __rrr_config_parse_discern_stack`: the definitions and the text. If the name is missing there is no error. -/
def stackDef (e : UInt8) (ps : List (Bytes × Discern.Prog)) (b : Bytes) : Out (List (Bytes × Discern.Prog) × Bytes) :=
  (extractName e b).bind fun x =>
    match x.1 with
    | none => .ok (ps, x.2)
    | some n =>
      if ps.any (fun p => p.1 = n) then .err
      else (stackOut x.2).bind fun y => .ok (ps ++ [(n, y.1)], y.2)

/-- `configuration.c:359-418 __rrr_config_parse_any`. -/
def any (c : Conf) (b : Bytes) : Out (Conf × Bytes) :=
  match Parse.ignoreSpaces b with
  | [] => .ok (c, [])
  | d :: t =>
    if t = [] then .err
    else if d = 35 then .ok (c, Parse.comment t)
    else if d = 123 then treeDef c t
    else if d = 60 then (stackDef 62 c.routes t).bind fun x => .ok ({ c with routes := x.1 }, x.2)
    else if d = 40 then (stackDef 41 c.methods t).bind fun x => .ok ({ c with methods := x.1 }, x.2)
    else if d = 91 then block c t
    else .err

/-- `configuration.c:420-455 rrr_config_parse_string`. The first argument bounds the number of rounds. -/
def loop : Nat → Conf → Bytes → Out Conf
  | 0, _, _ => .err
  | k + 1, c, b => if b = [] then .ok c else (any c b).bind fun x => loop k x.1 x.2

/-- `instance_config.c:1072-1110 __rrr_instance_config_collection_generate_tree`: every sub instance has a main instance. The links are not modelled. -/
def linked (is : List Inst) : Bool := is.all fun i => i.sub.isNone || (findInst is i.main none).isSome

/-- `instance_config.c:1112-1149 rrr_instance_config_parse_string`. -/
def readConfig (b : Bytes) : Out Conf :=
  (loop (b.length + 1) ⟨[], [], [], []⟩ b).bind fun c => if linked c.insts then .ok c else .err

end Verif.Config
