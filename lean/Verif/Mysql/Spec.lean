import Verif.Mysql.Model

/-!
# What is expected of the statement and the rows
-/

namespace Verif.Mysql
open Verif

/-- The columns of a row: those of the message, where tags without column name are used as name, those with fixed texts, and the time. -/
def names (c : Config) : List Bytes :=
  (if c.tags = [] then c.columns else c.tags.map fun e => if e.2 = [] then e.1 else e.2) ++ c.special.map (·.1) ++ (if c.timestamp then [str "timestamp"] else [])

/-- Texts with commas between them. -/
def commas : List Bytes → Bytes
  | [] => []
  | [x] => x
  | x :: r => x ++ str "," ++ commas r

/-- A statement with one place for each column. -/
def statement (c : Config) : Bytes :=
  str "REPLACE INTO `" ++ c.table ++ str "` (" ++ commas ((names c).map fun n => str "`" ++ n ++ str "`") ++ str ") VALUES (" ++ commas ((names c).map fun _ => str "?") ++ str ")"

/-- How a value is stored in a column: as bytes if it is text or binary data, has many elements or the column is configured for it, and as a number if it is an integer. -/
inductive Stored (c : Config) (column : Bytes) (v : Types.Value) : Bind → Prop
  | bytes : v.elements > 1 ∨ v.ty ∈ [.blob, .sep, .msg, .str, .nsep, .stx, .hdlc] ∨ column ∈ c.blob → Stored c column v (.bytes v.data)
  | int : ¬ v.elements > 1 → v.ty ∈ [.le, .be, .h, .ustr, .istr] → column ∉ c.blob → Stored c column v (.int v.data (v.flags &&& 1 ≠ 1))

/-- Values which cannot be stored are single fixed point numbers and values without data. -/
def Storable (c : Config) (column : Bytes) (v : Types.Value) : Prop := v.elements > 1 ∨ v.ty ∉ [.fixp, .err, .vain] ∨ column ∈ c.blob

/-- The values of a message which go to columns. -/
def usable (c : Config) (vs : List Types.Value) : List Types.Value := vs.filter fun v => !(c.strip && v.ty == .sep)

/-- What follows after the values of the message. -/
def tailRow (c : Config) : List Bind := c.special.map (fun e => .bytes e.2) ++ if c.timestamp then [.now] else []

end Verif.Mysql
