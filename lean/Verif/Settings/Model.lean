import Verif.Common
import Verif.Utf8.Model
import Verif.Topic.Model
import Verif.Http.Model
/-!
# Settings of instances

`/repo/src/lib/settings.c`, the functions of `/repo/src/lib/instance_config.c` and
`instance_config.h` by which modules read their settings, and `rrr_map_parse_pair` of
`/repo/src/lib/map.c`.

Names and values are C strings; they are given here without the terminating NUL character and have no
NUL characters. Failure of memory allocation is left out, as are settings with floating point
numbers and messages to the log. The hard and soft errors of the code are one error here: every
caller treats them alike.
-/
namespace Verif.Settings
open Verif

/-- What `struct rrr_setting` holds, settings.h:54-59: a string, an unsigned integer, or only zeroes -/
inductive Data where
  | str (v : Bytes)
  | uint (n : Nat)
  | zero
deriving DecidableEq

/-- `struct rrr_setting`, settings.h:54-59 -/
structure Setting where
  name : Bytes
  data : Data
deriving DecidableEq

/-- `struct rrr_settings`, settings.h:70-76 -/
structure Store where
  max : Nat
  list : List Setting
deriving DecidableEq

/-- The results of reading: a value, `RRR_SETTING_NOT_FOUND`, another error, or an abort -/
inductive Ret (α : Type) where
  | ok (a : α)
  | notFound
  | err
  | abort
deriving DecidableEq

/-- Continue with the value. -/
def Ret.andThen {α β : Type} (r : Ret α) (f : α → Ret β) : Ret β := match r with
  | .ok a => f a
  | .notFound => .notFound
  | .err => .err
  | .abort => .abort

/-- `RRR_SETTINGS_MAX_NAME_SIZE`, settings.h:43 -/
def maxNameSize : Nat := 244
/-- `RRR_SETTINGS_MAX_DATA_SIZE`, settings.h:44 -/
def maxDataSize : Nat := 1024

/-- `rrr_settings_new`, settings.c:73-89 -/
def new (count : Nat) : Store := { max := count, list := [] }

/-- `__rrr_settings_find_setting`, settings.c:128-141: where the setting is -/
def find (l : List Setting) (name : Bytes) : Option Nat := l.findIdx? fun x => x.name == name

/-- `__rrr_settings_add_raw` with `__rrr_settings_reserve` and `__rrr_settings_set_setting_name`,
settings.c:224-311, for a string. Whether 0 is returned is given beside the settings. A setting which
has been reserved stays when its name is too long. -/
def addRaw (s : Store) (name : Bytes) (d : Data) (replace : Bool) : Store × Bool :=
  match find s.list name with
  | some i =>
    if replace then
      if name.length + 1 > maxNameSize then ({ s with list := s.list.set i ⟨[], .zero⟩ }, false)
      else ({ s with list := s.list.set i ⟨name, d⟩ }, true)
    else (s, false)
  | none =>
    if s.list.length = s.max then (s, false)
    else if name.length + 1 > maxNameSize then ({ s with list := s.list ++ [⟨[], .zero⟩] }, false)
    else ({ s with list := s.list ++ [⟨name, d⟩] }, true)

/-- `rrr_settings_add_string`, settings.c:584-590 -/
def addString (s : Store) (name value : Bytes) : Store × Bool := addRaw s name (.str value) false
/-- `rrr_settings_replace_string`, settings.c:576-582 -/
def replaceString (s : Store) (name value : Bytes) : Store × Bool := addRaw s name (.str value) true

/-- `__rrr_settings_find_setting_const`, settings.c:143-159: the setting, and the marks of the used
settings after it -/
def findUsed (used : List Bool) (s : Store) (name : Bytes) : List Bool × Option Setting :=
  match find s.list name with
  | none => (used, none)
  | some i => (used.set i true, s.list[i]?)

/-- `__rrr_settings_get_string_noconvert`, settings.c:313-362, after the setting has been looked up -/
def noconvert : Option Setting → Ret Bytes
  | none => .notFound
  | some ⟨_, .str v⟩ => if v.length + 1 ≤ 1 then .abort else .ok v
  | some _ => .err

/-- `rrr_settings_setting_to_string`, settings.c:600-639 -/
def toStr : Setting → Ret Bytes
  | ⟨_, .str v⟩ => .ok v
  | ⟨_, .uint n⟩ => .ok (Http.decimal n)
  | ⟨_, .zero⟩ => .abort

/-- `rrr_settings_read_string`, settings.c:761-776, after the setting has been looked up -/
def readString : Option Setting → Ret Bytes
  | none => .notFound
  | some x => toStr x

/-- `strtoull` of a string of digits: the largest number when there are too many -/
def strtoull (v : Bytes) : Nat :=
  let n := v.foldl (fun n c => n * 10 + (c.toNat - 48)) 0
  if n < 2 ^ 64 then n else 2 ^ 64 - 1

/-- `rrr_settings_setting_to_uint`, settings.c:641-699. An unsigned integer comes to the last branch,
because an `else` is missing. -/
def toUint : Setting → Ret Nat
  | ⟨_, .str v⟩ => if v.all fun c => 48 ≤ c && c ≤ 57 then .ok (strtoull v) else .err
  | ⟨_, .uint _⟩ => .abort
  | ⟨_, .zero⟩ => .abort

/-- `rrr_settings_read_unsigned_integer`, settings.c:778-793, after the setting has been looked up -/
def readUint : Option Setting → Ret Nat
  | none => .notFound
  | some x => toUint x

/-- `rrr_settings_check_yesno`, settings.c:812-844, after the setting has been looked up -/
def checkYesno (x : Option Setting) : Ret Bool :=
  (readString x).andThen fun v => match v with
    | [] => .err
    | c :: _ =>
      if c = 121 ∨ c = 89 ∨ c = 49 then .ok true
      else if c = 110 ∨ c = 78 ∨ c = 48 then .ok false
      else .err

/-- `RRR_INSTANCE_CONFIG_PARSE_OPTIONAL_YESNO`, instance_config.h:60-69 -/
def optionalYesno (x : Option Setting) (default : Bool) : Ret Bool := match checkYesno x with
  | .notFound => .ok default
  | r => r

/-- `RRR_INSTANCE_CONFIG_PARSE_OPTIONAL_UNSIGNED_RAW`, instance_config.h:89-99 -/
def optionalUint (x : Option Setting) (default : Nat) : Ret Nat := match readUint x with
  | .notFound => .ok default
  | r => r

/-- `RRR_INSTANCE_CONFIG_PARSE_OPTIONAL_MS`, instance_config.h:104-109, with `rrr_time_us_from_ms`,
rrr_time.h:50-54: microseconds -/
def optionalMs (x : Option Setting) (default : Nat) : Ret Nat :=
  (optionalUint x default).andThen fun ms =>
    if ms * 1000 % 2 ^ 64 ≥ ms then .ok (ms * 1000 % 2 ^ 64) else .abort

/-- `__rrr_instance_config_read_port_number`, instance_config.c:261-308 -/
def readPort (x : Option Setting) (allowZero allowNotFound : Bool) : Ret Nat := match readUint x with
  | .notFound => if allowNotFound then .ok 0 else .notFound
  | .ok n => if (!allowZero && n < 1) || n > 65535 then .err else .ok n
  | r => r

/-- The loop of `__rrr_settings_traverse_split_commas`, settings.c:418-435: the values for which the
callback is called -/
def traverse : Nat → Bytes → List Bytes
  | 0, _ => []
  | fuel + 1, v =>
    if v = [] then []
    else if v.any (· == 44) then
      v.takeWhile (· != 44) :: traverse fuel ((v.dropWhile (· != 44)).drop 1)
    else [v]

/-- `__rrr_settings_traverse_split_commas`, settings.c:398-442. The value is not empty here. -/
def splitTraverse (v : Bytes) : List Bytes := traverse (v.length + 1) v

/-- `rrr_settings_split_commas_to_array`, settings.c:462-555: where the elements begin -/
def starts (v : Bytes) : List Nat :=
  0 :: ((List.range v.length).filter fun i => v[i]? == some 44 && decide (i + 1 < v.length)).map (· + 1)

/-- `rrr_settings_split_commas_to_array`, settings.c:462-555. Every comma has become a NUL character
when the elements are read. -/
def splitArray (v : Bytes) : List Bytes := (starts v).map fun p => (v.drop p).takeWhile (· != 44)

/-- `strstr`: what is before and after the first occurrence -/
def strstr (d : Bytes) : Bytes → Option (Bytes × Bytes)
  | [] => if d = [] then some ([], []) else none
  | c :: v =>
    if d.isPrefixOf (c :: v) then some ([], (c :: v).drop d.length)
    else (strstr d v).map fun x => (c :: x.1, x.2)

/-- `rrr_map_parse_pair`, map.c:411-458: tag and value of the new item -/
def parsePair (d v : Bytes) : Option (Bytes × Bytes) :=
  if d = [] then some (v, [])
  else match strstr d v with
    | some (a, b) => if b = [] then none else some (a, b)
    | none => some (v, [])

/-- The callback called for each value until it fails, `__parse_associative_list_to_map_callback`,
instance_config.c:676-682 -/
def parsePairs (d : Bytes) : List Bytes → Option (List (Bytes × Bytes))
  | [] => some []
  | v :: vs => match parsePair d v with
    | none => none
    | some x => (parsePairs d vs).map fun xs => x :: xs

/-- `rrr_instance_config_parse_comma_separated_associative_to_map` and
`rrr_instance_config_parse_comma_separated_to_map`, instance_config.c:684-717: a setting which is not
there or cannot be read gives no items and no error -/
def parseMap (d : Bytes) (x : Option Setting) : Ret (List (Bytes × Bytes)) := match noconvert x with
  | .ok v => match parsePairs d (splitTraverse v) with
    | none => .err
    | some m => .ok m
  | .abort => .abort
  | _ => .ok []

/-- `enum rrr_instance_config_write_method`, instance_config.h:126-130 -/
inductive Method where
  | none
  | message
  | all
  | tags (l : List Bytes)
deriving DecidableEq

/-- `__rrr_instance_config_parse_comma_separated_to_map_check_unary_all`, instance_config.c:719-758:
no tags, all tags or these tags -/
def unaryAll (x : Option Setting) : Ret Method := match readString x with
  | .notFound => .ok .none
  | .ok v =>
    if v = [42] then .ok .all
    else (parseMap [] x).andThen fun m => if m = [] then .ok .none else .ok (.tags (m.map (·.1)))
  | .err => .err
  | .abort => .abort

/-- `rrr_instance_config_parse_optional_write_method`, instance_config.c:760-826, with both
parameters -/
def writeMethod (message values : Option Setting) : Ret Method :=
  (optionalYesno message false).andThen fun yes =>
    (unaryAll values).andThen fun m =>
      if m = .none then .ok (if yes then .message else .none)
      else if yes then .err else .ok m

/-- `rrr_instance_config_parse_optional_utf8`, instance_config.c:828-862, without default -/
def optionalUtf8 (x : Option Setting) : Ret (Option Bytes) := match noconvert x with
  | .notFound => .ok none
  | .ok v => if Utf8.validate v then .ok (some v) else .err
  | .err => .err
  | .abort => .abort

/-- `rrr_instance_config_parse_optional_topic_and_length`, instance_config.c:864-909 -/
def optionalTopic (x : Option Setting) : Ret (Option Bytes) :=
  (optionalUtf8 x).andThen fun t => match t with
    | none => .ok none
    | some v =>
      if v = [] then .ok (some v)
      else if v.length > 0xffff then .err
      else if Topic.validateName v then .ok (some v)
      else .err

/-- `rrr_settings_check_all_used`, settings.c:846-863: whether no warning is printed -/
def allUsed (used : List Bool) (s : Store) : Bool :=
  (List.range s.list.length).all fun i => used[i]? == some true

/-- `data_size` of a setting, as set in `__rrr_settings_add_raw`, settings.c:269-311. A string has its
NUL character. -/
def dataSize : Data → Nat
  | .str v => v.length + 1
  | .uint _ => 8
  | .zero => 0

/-- `rrr_settings_iterate_packed` with `__rrr_setting_pack`, settings.c:976-1055: the name and the mark
of each setting, as the parent process gets them. -/
def packAll (used : List Bool) : Nat → List Setting → Option (List (Bytes × Bool))
  | _, [] => some []
  | i, x :: xs =>
    if dataSize x.data > maxDataSize then none
    else (packAll used (i + 1) xs).map fun l => (x.name, used[i]? == some true) :: l

/-- `rrr_instance_config_update_used`, instance_config.c:97-120, with `rrr_settings_iterate`,
settings.c:916-940: all settings with the name get the mark -/
def updateUsed (s : Store) (name : Bytes) (mark : Bool) (used : List Bool) : List Bool :=
  used.mapIdx fun i u => match s.list[i]? with
    | none => u
    | some x => if x.name = name then mark else u

/-- The parent process gets the settings of a worker, cmodule_helper.c:566-580 -/
def receive (s : Store) (l : List (Bytes × Bool)) (used : List Bool) : List Bool :=
  l.foldl (fun u x => updateUsed s x.1 x.2 u) used

end Verif.Settings
