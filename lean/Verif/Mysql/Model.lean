import Verif.Types.Model

/-!
# Saving of array messages to a database (`p_mysql.c`)

Modelled are the check of the configured columns, the text of the SQL statement, the binding of the values of a message to it, and the buffer of messages.
The database is the outcome of connecting, preparing and executing. Memory errors are not modelled, and names are texts without NUL bytes.
-/

namespace Verif.Mysql
open Verif

/-- `p_mysql.c:70-105 struct mysql_data`. The lists are the settings `mysql_columns`, `mysql_column_tags` (array tag and column), `mysql_special_columns` (column and text)
and `mysql_blob_write_columns`. A tag without `->` has an empty column name. Values of `mysql_columns` are always empty (`map.c:189-225`). -/
structure Config where
  table : Bytes
  columns : List Bytes
  tags : List (Bytes × Bytes)
  special : List (Bytes × Bytes)
  blob : List Bytes
  timestamp : Bool
  strip : Bool
  drop : Bool

/-- `p_mysql.c:513-528 mysql_verify_blob_write_colums`: names are looked up among the tags of both lists. -/
def blobOk (c : Config) : Bool := c.blob.all fun b => c.columns.contains b || (c.tags.map (·.1)).contains b

/-- `p_mysql.c:818-840 mysql_parse_column_plan`. -/
def configOk (c : Config) : Bool :=
  if c.columns.length ≠ 0 ∧ c.tags.length ≠ 0 then false
  else if c.columns.length + c.tags.length = 0 then false
  else blobOk c

/-- `p_mysql.c:261-268`, `p_mysql.c:273`: the columns which get the values of a message. -/
def source (c : Config) : List Bytes :=
  if c.tags.length > 0 then c.tags.map fun (t, v) => if v ≠ [] then v else t else c.columns

/-- `p_mysql.c:272-282`, with 44 a comma and 96 a backtick. -/
def listColumns (first : Bool) : List Bytes → Bytes
  | [] => []
  | n :: r => (if first then [] else [44]) ++ [96] ++ n ++ [96] ++ listColumns false r

/-- `p_mysql.c:284-290`. -/
def listSpecial : List (Bytes × Bytes) → Bytes
  | [] => []
  | (n, _) :: r => [44, 96] ++ n ++ [96] ++ listSpecial r

/-- `p_mysql.c:299-306`, with 63 a question mark. -/
def places : Nat → Nat → Bytes
  | _, 0 => []
  | i, n + 1 => (if i = 0 then [63] else [44, 63]) ++ places (i + 1) n

def str (s : String) : Bytes := s.toUTF8.toList

/-- `p_mysql.c:245-315 mysql_colplan_array_create_sql`: the statement and the number of columns. -/
def createSql (c : Config) : Bytes × Nat :=
  let s := str "REPLACE INTO `" ++ c.table ++ str "` ("
  let s := s ++ listColumns true (source c) ++ listSpecial c.special
  let n := (source c).length + c.special.length
  let s := if c.timestamp then s ++ str ",`timestamp`" else s
  let n := if c.timestamp then n + 1 else n
  (s ++ str ") VALUES (" ++ places 0 n ++ str ")", n)

/-- What is bound to a place of the statement: bytes, an integer in memory, or the time. -/
inductive Bind
  | bytes (b : Bytes)
  | int (memory : Bytes) (unsigned : Bool)
  | now
deriving DecidableEq, Repr

/-- `type.h:110-113 RRR_TYPE_IS_BLOB`. -/
def isBlob : Types.Ty → Bool
  | .blob | .sep | .msg | .str | .nsep | .stx | .hdlc => true
  | _ => false

/-- `type.h:107-109 RRR_TYPE_IS_64`. -/
def is64 : Types.Ty → Bool
  | .le | .be | .h | .ustr | .istr => true
  | _ => false

/-- `p_mysql.c:317-345 mysql_bind_value` with `p_mysql.c:203-211 mysql_columns_check_blob_write`. The messages in values of type `msg` are given by `data`. -/
def bindValue (c : Config) (v : Types.Value) (column : Bytes) : Option Bind :=
  if v.elements > 1 ∨ isBlob v.ty ∨ c.blob.contains column then some (.bytes v.data)
  else if is64 v.ty then some (.int v.data (!Types.isSigned v.flags))
  else none

/-- The values are bound, there is an error, or the program aborts. -/
inductive Res (α : Type)
  | ok (a : α)
  | err
  | abort
deriving DecidableEq, Repr

/-- `p_mysql.c:391-408`. -/
def bindTags (c : Config) (vs : List Types.Value) : List (Bytes × Bytes) → Option (List Bind)
  | [] => some []
  | (t, col) :: r =>
    match Types.getByTag vs t with
    | none => none
    | some v => match bindValue c v col with
      | none => none
      | some b => (bindTags c vs r).map (b :: ·)

/-- `p_mysql.c:409-438`: further values are ignored. -/
def bindColumns (c : Config) : List Bytes → List Types.Value → Option (List Bind)
  | _, [] => some []
  | cols, v :: r =>
    if c.strip ∧ v.ty = .sep then bindColumns c cols r
    else match cols with
      | [] => some []
      | col :: cs => match bindValue c v col with
        | none => none
        | some b => (bindColumns c cs r).map (b :: ·)

/-- `p_mysql.c:347-470 mysql_colplan_array_bind_execute` until the statement is executed. -/
def bindAll (c : Config) (prepared : Nat) (vs : List Types.Value) : Res (List Bind) :=
  let count := c.columns.length + c.tags.length + c.special.length + (if c.timestamp then 1 else 0)
  if count ≠ prepared then .abort
  else
    match (if c.tags.length > 0 then bindTags c vs c.tags else bindColumns c c.columns vs) with
    | none => .err
    | some b =>
      let b := b ++ c.special.map fun (_, v) => .bytes v
      let b := if c.timestamp then b ++ [.now] else b
      if b.length ≠ count then .abort else .ok b

/-- A message in the buffer. Messages which are not arrays have no values. -/
structure Message where
  id : Nat
  values : Option (List Types.Value)
deriving DecidableEq, Repr

/-- What the database does: whether it can be connected to, whether it accepts the statement, and whether it executes it for a message. -/
structure World where
  connects : Bool
  prepares : Bool
  executes : Nat → Bool

/-- `p_mysql.c:538-572 mysql_save`. -/
def save (c : Config) (w : World) (m : Message) : Res (List Bind) :=
  match m.values with
  | none => .err
  | some vs => match bindAll c (createSql c).2 vs with
    | .ok b => if w.executes m.id then .ok b else .err
    | r => r

/-- Messages in the buffer, rows in the database, and whether there is a connection. -/
structure State where
  buffer : List Message
  rows : List (Nat × List Bind)
  connected : Bool

/-- `p_mysql.c:669-674`, with `p_mysql.c:574-623 mysql_process_entry` for each message. None is an abort. -/
def processAll (c : Config) (w : World) : List Message → State → Option State
  | [], s => some s
  | m :: r, s => match save c w m with
    | .ok b => processAll c w r { s with rows := s.rows ++ [(m.id, b)] }
    | .err => processAll c w r (if c.drop then s else { s with buffer := s.buffer ++ [m] })
    | .abort => none

/-- `p_mysql.c:682-709 mysql_event_process_entries` with `p_mysql.c:629-680 mysql_process_entries` and `p_mysql.c:473-511`. The messages which are left in
`process_buffer_tmp` are freed. -/
def event (c : Config) (w : World) (s : State) : Option State :=
  let msgs := s.buffer
  let s := { s with buffer := [] }
  if !s.connected && !w.connects then some s
  else
    let s := { s with connected := true }
    if !w.prepares then some { s with connected := false }
    else processAll c w msgs s

/-- `p_mysql.c:711-725 mysql_poll_callback`. -/
def poll (m : Message) (s : State) : State := { s with buffer := s.buffer ++ [m] }

end Verif.Mysql
