import Verif.Msg.Model
/-!
# Model of the message database server, `src/lib/msgdb/msgdb_server.c`

Messages are kept in files, one for each topic. The name of the file is the SHA-256 of the topic in hexadecimal; the file lies in directories which are named after the first characters of the name.

The hash function is a parameter here, any function is allowed. Files are given by their path below the base directory; directories are not modelled, making one is taken to succeed.
Not modelled: failure to open, unlink or rename a file, lack of memory, and failure to send answers. The requests of all clients are handled one after another by one thread.
-/
namespace Verif.Msgdb
open Verif Msg

/-! ## Names and paths -/

/-- One digit of `%02x`. -/
def hexDigit (n : UInt8) : UInt8 := if n < 10 then 48 + n else 87 + n

/-- `sprintf("%02x")` of a byte. -/
def hexByte (b : UInt8) : Bytes := [hexDigit (b >>> 4), hexDigit (b &&& 15)]

/-- The name of a file, msgdb_server.c:932-939; `sha` is `rrr_sha256_calculate`. -/
def fileName (sha : Bytes → Bytes) (topic : Bytes) : Bytes := (sha topic).flatMap hexByte

/-- The path of a file: `__rrr_msgdb_server_make_path`, msgdb_server.c:1145-1175, and the directories entered by `__rrr_msgdb_server_mkdir_chdir_levels`, L187-213, before the file is opened. -/
def pathOf (levels : Nat) (name : Bytes) : Bytes := (name.take levels).flatMap (fun c => [c, 47]) ++ name

/-- The last part of a path, msgdb_server.c:1233-1240. -/
def lastPart (path : Bytes) : Bytes := (path.reverse.takeWhile (fun c => c != 47)).reverse

/-! ## Files -/

/-- Paths and contents of files. -/
abbrev Files := List (Bytes × Bytes)

/-- The contents of a file. -/
def Files.get (fs : Files) (path : Bytes) : Option Bytes := (fs.find? (fun e => e.1 == path)).map (·.2)

/-- `unlink`. -/
def Files.remove (fs : Files) (path : Bytes) : Files := fs.filter (fun e => e.1 != path)

/-- Opening with `O_CREAT|O_TRUNC` and writing. -/
def Files.write (fs : Files) (path content : Bytes) : Files := (path, content) :: fs.remove path

/-- `rename`, which replaces the target. -/
def Files.rename (fs : Files) (old new : Bytes) : Files :=
  match fs.get old with
  | some c => (new, c) :: (fs.remove old).remove new
  | none => fs

/-! ## Reading a file -/

/-- Length of the C string at the beginning of a buffer. -/
def strlen (b : Bytes) : Nat := (b.takeWhile (fun c => c != 0)).length

/-- The checks before the message is looked at, msgdb_server.c:499-533. -/
def checkHead (headOnly : Bool) (b : Bytes) : Res Unit :=
  if b.length < headSize then .soft
  else if b.length > 0xffffffff then .soft
  else if headOnly then .ok ()
  else match getTargetSize b with
    | .ok n => if b.length ≠ n.toNat then .soft else .ok ()
    | _ => .soft

/-- The topic is the one asked for, msgdb_server.c:561-571. -/
def topicIs (m : MsgMsg) (topic : Bytes) : Bool := m.topicLength.toNat == strlen topic && m.topic == topic.take m.topicLength.toNat

/-- The rest of the checks, msgdb_server.c:535-559. Any failure is `RRR_MSGDB_SOFT_ERROR`, except for reading outside of the message. -/
def checkBody (b : Bytes) : Res MsgMsg :=
  match headToHost b with
  | .ok (h, _) =>
    if h.type ≠ 2 then .soft
    else match msgToHost h (b.drop headSize) with
      | .ok m => if m.topicLength.toNat > m.body.length then .soft else .ok m
      | .oob => .oob
      | _ => .soft
  | _ => .soft

/-- `__rrr_msgdb_server_open_and_read_file`, msgdb_server.c:465-580. With `headOnly` at most 65565 bytes are read; the head, the fields and the topic are in there, and the size of the file is used
for all checks, so that the result is the same as with the whole file, except for the data. -/
def readFile (headOnly : Bool) (verify : Option Bytes) (content : Option Bytes) : Res MsgMsg :=
  match content with
  | none => .soft
  | some b => (checkHead headOnly b).bind fun _ => (checkBody b).bind fun m =>
    match verify with
    | some t => if topicIs m t then .ok m else .soft
    | none => .ok m

/-! ## Requests -/

/-- State: how many directory levels there are, and the files. -/
structure Db where
  levels : Nat
  files : Files
deriving DecidableEq, Repr

/-- What the client gets. `oob`: the server has read outside of an object. -/
inductive Ans where
  | msg (m : MsgMsg) | ack | nack | closed | nothing | oob
deriving DecidableEq, Repr

/-- The message as it is kept, msgdb_server.c:254-257. -/
def asMsg (m : MsgMsg) : MsgMsg := { m with typeAndClass := setType m.typeAndClass 1 }

/-- `__rrr_msgdb_server_put`, msgdb_server.c:222-276. With `cut` the process or the disk fails when that many bytes have been written. -/
def put (db : Db) (m : MsgMsg) (name : Bytes) (cut : Option Nat) : Db × Ans :=
  match msgToNetwork (asMsg m) with
  | .ok b =>
    match cut with
    | none => ({ db with files := db.files.write (pathOf db.levels name) b }, .ack)
    | some k => ({ db with files := db.files.write (pathOf db.levels name) (b.take k) }, .closed)
  | _ => (db, .oob)

/-- `__rrr_msgdb_server_get_raw`, msgdb_server.c:582-614, and what follows from the result, L947-988. -/
def get (db : Db) (path : Bytes) (verify : Option Bytes) : Ans :=
  match readFile false verify (db.files.get path) with
  | .ok m => .msg m
  | .oob => .oob
  | _ => .nack

/-- `__rrr_msgdb_server_read_msg_msg_callback`, msgdb_server.c:905-1009. The topic is given to GET as a C string (L920). -/
def request (sha : Bytes → Bytes) (db : Db) (m : MsgMsg) (cut : Option Nat) : Db × Ans :=
  if m.topicLength.toNat = 0 then (db, .nack)
  else if m.type = 4 then put db m (fileName sha m.topic) cut
  else if m.type = 5 then ({ db with files := db.files.remove (pathOf db.levels (fileName sha m.topic)) }, .ack)
  else if m.type = 3 then (db, get db (pathOf db.levels (fileName sha m.topic)) (some m.topic))
  else (db, .closed)

/-- What the walk through the files does with the messages which are old enough: `__rrr_msgdb_server_tidy_file_callback`, msgdb_server.c:829-837, and `__rrr_msgdb_server_idx_callback`, L867-886. -/
inductive Walk where
  | tidy | idx
deriving DecidableEq, Repr

/-- One file of the walk: `__rrr_msgdb_server_client_iteration_session_process_file_callback`, msgdb_server.c:665-729; `now` is the time in microseconds, `age` seconds. -/
def visit (db : Db) (w : Walk) (path : Bytes) (now : UInt64) (age : UInt32) : Db × Ans :=
  match readFile true none (db.files.get path) with
  | .ok m =>
    if ttlOk m now (age.toUInt64 * 1000 * 1000) then (db, .nothing)
    else match w with
      | .tidy => ({ db with files := db.files.remove path }, .nothing)
      | .idx => (db, match get db path none with
        | .msg m => .msg m
        | .oob => .oob
        | _ => .closed)
  | .oob => (db, .oob)
  | _ => ({ db with files := db.files.remove path }, .nothing)

/-! ## Starting the server -/

/-- `__rrr_msgdb_server_restructure_callback`, msgdb_server.c:1203-1267, for a file. -/
def moveFile (levels : Nat) (fs : Files) (path : Bytes) : Files :=
  if path.head? = some 46 then fs
  else if (lastPart path).length < levels * 2 then fs.remove path
  else if path = pathOf levels (lastPart path) then fs
  else fs.rename path (pathOf levels (lastPart path))

/-- `__rrr_msgdb_server_restructure`, msgdb_server.c:1269-1316. All paths are collected first (`rrr_readdir_foreach_recursive`, rrr_readdir.c:380-402). -/
def restructure (levels : Nat) (fs : Files) : Files := (fs.map (·.1)).foldl (moveFile levels) fs

/-- The same if it ends after `n` paths. -/
def restructureCut (levels n : Nat) (fs : Files) : Files := ((fs.map (·.1)).take n).foldl (moveFile levels) fs

/-- What happens to a server. -/
inductive Op where
  /-- a request is received from a client -/
  | request (m : MsgMsg) (cut : Option Nat)
  /-- a file is looked at while tidying or listing -/
  | visit (w : Walk) (path : Bytes) (now : UInt64) (age : UInt32)
  /-- the server is started again, possibly with another number of levels, after some attempts which ended too early -/
  | restart (attempts : List (Nat × Nat)) (levels : Nat)
deriving Repr

/-- One step. -/
def step (sha : Bytes → Bytes) (db : Db) : Op → Db × Ans
  | .request m cut => request sha db m cut
  | .visit w path now age => visit db w path now age
  | .restart attempts levels => (⟨levels, restructure levels (attempts.foldl (fun fs a => restructureCut a.1 a.2 fs) db.files)⟩, .nothing)

/-- Many steps. -/
def run (sha : Bytes → Bytes) (db : Db) (h : List Op) : Db := h.foldl (fun d o => (step sha d o).1) db

/-! ## Walking through the files -/

/-- The characters of the loop in `__rrr_msgdb_server_idx_make_directory_index_recurse`, msgdb_server.c:397-427. -/
def indexChars : Nat → UInt8 → Bytes
  | 0, _ => []
  | n + 1, c => if c ≤ 102 then c :: indexChars n (if c = 57 then 97 else c + 1) else []

/-- The directories: `__rrr_msgdb_server_idx_make_directory_index_recurse`, msgdb_server.c:391-431, below `pre`. There are less than 256 characters. -/
def indexRec : Nat → Bytes → List Bytes
  | 0, _ => []
  | 1, pre => (indexChars 256 48).map (fun c => pre ++ [c, 47])
  | l + 2, pre => (indexChars 256 48).flatMap (fun c => indexRec (l + 1) (pre ++ [c, 47]))

/-- `__rrr_msgdb_server_idx_make_directory_index`, msgdb_server.c:433-468; for no levels the base directory, here the empty path. -/
def index (levels : Nat) : List Bytes := if levels = 0 then [[]] else indexRec levels []

/-- One call of `__rrr_msgdb_server_client_iteration_session_process`, msgdb_server.c:731-793, where `dirs` are the entries of the directories left in the list: the entries which are looked at, and
the directories left, `none` if the walk is complete. The clock is looked at before each directory (L749) and after each entry (L724); the time is up when it has been looked at `budget` times. `del`
are the entries which are deleted when they are looked at. A directory is taken from the list only when all of it was looked at and there was time left (L754-788). -/
def slice {α : Type} (del : α → Bool) : Nat → List (List α) → List α × Option (List (List α))
  | _, [] => ([], none)
  | 0, d :: ds => ([], some (d :: ds))
  | budget + 1, d :: ds =>
    if d.length ≤ budget then (d ++ (slice del (budget - d.length) ds).1, (slice del (budget - d.length) ds).2)
    else (d.take (budget + 1), some (((d.take (budget + 1)).filter (fun x => !del x) ++ d.drop (budget + 1)) :: ds))

/-- Calls until the walk is complete (`__rrr_msgdb_client_event_iteration`, msgdb_server.c:1061-1100). -/
def walk {α : Type} (del : α → Bool) : List Nat → List (List α) → List α × Option (List (List α))
  | [], dirs => ([], some dirs)
  | b :: bs, dirs =>
    match slice del b dirs with
    | (seen, none) => (seen, none)
    | (seen, some rest) => (seen ++ (walk del bs rest).1, (walk del bs rest).2)

end Verif.Msgdb
