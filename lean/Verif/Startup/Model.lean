import Verif.Cmdline.Model
import Verif.Parse.Model
import Verif.Topic.Model
import Verif.Http.Model
/-!
# Model of `src/main.c:106-336` and `src/lib/environment_file.c`: where the global configuration comes from

The environment is a list of names and values. What the operating system says about files and sockets is given by `Os`. Memory is always
available. What has been put into the environment before an error is not modelled, the programs stop then. Whether the program logs to
journald is not modelled.
-/
namespace Verif.Startup
open Verif
open Verif.Cmdline (Pair getValue cmdExists)

/-! ## Environment files -/

/-- `parse.c:654-666 rrr_parse_str_trim` -/
def trim (s : Bytes) : Bytes := (s.reverse.dropWhile Parse.isSpaces).reverse

/-- `parse.c:450-481 rrr_parse_str_extract_until`: empty when there is no such character -/
def extractUntil (s : Bytes) (c : UInt8) : Bytes := if s.contains c then s.takeWhile (· != c) else []

/-- `environment_file.c:60-114`, one line at the beginning of the text `b`: the name and the value, and the text which remains. `none` is an error. -/
def fileLine (b : Bytes) : Option ((Bytes × Bytes) × Bytes) :=
  let line := b.takeWhile fun c => !Parse.isNewline c
  let rest := b.dropWhile fun c => !Parse.isNewline c
  let text := Topic.cstr line
  let var := extractUntil text 61
  if var = [] then some ((trim text, [49]), rest)
  else
    let r := Parse.ignore Parse.isSpaceTab (b.drop (var.length + 1))
    if r.length ≤ rest.length then none
    else some ((trim var, trim (Topic.cstr (r.take (r.length - rest.length)))), rest)

/-- `environment_file.c:47-115`, the loop of `__rrr_environment_file_parse`. The first argument bounds the number of rounds. -/
def fileLoop : Nat → Bytes → Option (List (Bytes × Bytes))
  | 0, _ => some []
  | n + 1, b =>
    match Parse.ignoreSpaces b with
    | [] => some []
    | c :: t =>
      if c = 35 then fileLoop n (Parse.comment (c :: t))
      else
        match fileLine (c :: t) with
        | none => none
        | some (x, rest) => (fileLoop n rest).map (x :: ·)

/-- `environment_file.c:34-122 __rrr_environment_file_parse` -/
def parseFile (b : Bytes) : Option (List (Bytes × Bytes)) := fileLoop (b.length + 1) b

/-- What the operating system and the build give: the contents of files (`none` when a file exists but cannot be read; a file which does not exist is
the same as an empty one, `environment_file.c:133-149`), whether connections to sockets succeed, and `RRR_RUN_DIR` -/
structure Os where
  file : Bytes → Option Bytes
  connect : Bytes → Bool
  runDir : Bytes

/-- `environment_file.c:124-169 rrr_environment_file_parse` -/
def readFile (os : Os) (name : Bytes) : Option (List (Bytes × Bytes)) :=
  match os.file name with
  | none => none
  | some b => if b.length > 2 ^ 32 - 1 then none else parseFile b

/-! ## The environment -/

abbrev Env := List (Bytes × Bytes)

/-- `getenv` of the C library -/
def getenv (e : Env) (name : Bytes) : Option Bytes := (e.find? (·.1 == name)).map (·.2)

/-- `setenv` of the C library with `overwrite`: fails when there is no name or an equal sign in it -/
def setenv (e : Env) (name value : Bytes) : Option Env :=
  if name = [] || name.contains 61 then none else some ((name, value) :: e.filter (·.1 != name))

/-- `main.c:151-153` and `main.c:284-291`: several variables, one after another -/
def setEach (e : Env) : List (Bytes × Bytes) → Option Env
  | [] => some e
  | x :: t =>
    match setenv e x.1 x.2 with
    | none => none
    | some e' => setEach e' t

/-- `RRR_DEBUGLEVEL`, `main.h:25` -/
def eDebug : Bytes := [82, 82, 82, 95, 68, 69, 66, 85, 71, 76, 69, 86, 69, 76]
/-- `RRR_DEBUGLEVEL_ON_EXIT`, `main.h:26` -/
def eExit : Bytes := [82, 82, 82, 95, 68, 69, 66, 85, 71, 76, 69, 86, 69, 76, 95, 79, 78, 95, 69, 88, 73, 84]
/-- `RRR_START_INTERVAL`, `main.h:27` -/
def eStart : Bytes := [82, 82, 82, 95, 83, 84, 65, 82, 84, 95, 73, 78, 84, 69, 82, 86, 65, 76]
/-- `RRR_NO_WATCHDOG_TIMERS`, `main.h:28` -/
def eWatchdog : Bytes := [82, 82, 82, 95, 78, 79, 95, 87, 65, 84, 67, 72, 68, 79, 71, 95, 84, 73, 77, 69, 82, 83]
/-- `RRR_NO_THREAD_RESTART`, `main.h:29` -/
def eRestart : Bytes := [82, 82, 82, 95, 78, 79, 95, 84, 72, 82, 69, 65, 68, 95, 82, 69, 83, 84, 65, 82, 84]
/-- `RRR_LOGLEVEL_TRANSLATION`, `main.h:30` -/
def eLevels : Bytes := [82, 82, 82, 95, 76, 79, 71, 76, 69, 86, 69, 76, 95, 84, 82, 65, 78, 83, 76, 65, 84, 73, 79, 78]
/-- `RRR_RUN_DIRECTORY`, `main.h:31` -/
def eRun : Bytes := [82, 82, 82, 95, 82, 85, 78, 95, 68, 73, 82, 69, 67, 84, 79, 82, 89]
/-- `RRR_INSTANCE_OUTPUT_BUFFER_WARN_LIMIT`, `main.h:32` -/
def eLimit : Bytes := [82, 82, 82, 95, 73, 78, 83, 84, 65, 78, 67, 69, 95, 79, 85, 84, 80, 85, 84, 95, 66, 85, 70, 70, 69, 82, 95, 87, 65, 82, 78, 95, 76, 73, 77, 73, 84]
/-- `log-socket`, `main.c:129` -/
def kSocket : Bytes := [108, 111, 103, 45, 115, 111, 99, 107, 101, 116]
/-- `environment-file`, `main.c:143` -/
def kFile : Bytes := [101, 110, 118, 105, 114, 111, 110, 109, 101, 110, 116, 45, 102, 105, 108, 101]
/-- `debuglevel`, `main.c:164` -/
def kDebug : Bytes := [100, 101, 98, 117, 103, 108, 101, 118, 101, 108]
/-- `debuglevel-on-exit`, `main.c:185` -/
def kExit : Bytes := [100, 101, 98, 117, 103, 108, 101, 118, 101, 108, 45, 111, 110, 45, 101, 120, 105, 116]
/-- `start-interval`, `main.c:206` -/
def kStart : Bytes := [115, 116, 97, 114, 116, 45, 105, 110, 116, 101, 114, 118, 97, 108]
/-- `no-watchdog-timers`, `main.c:224` -/
def kWatchdog : Bytes := [110, 111, 45, 119, 97, 116, 99, 104, 100, 111, 103, 45, 116, 105, 109, 101, 114, 115]
/-- `no-thread-restart`, `main.c:228` -/
def kRestart : Bytes := [110, 111, 45, 116, 104, 114, 101, 97, 100, 45, 114, 101, 115, 116, 97, 114, 116]
/-- `loglevel-translation`, `main.c:232` -/
def kLevels : Bytes := [108, 111, 103, 108, 101, 118, 101, 108, 45, 116, 114, 97, 110, 115, 108, 97, 116, 105, 111, 110]
/-- `output-buffer-warn-limit`, `main.c:236` -/
def kLimit : Bytes := [111, 117, 116, 112, 117, 116, 45, 98, 117, 102, 102, 101, 114, 45, 119, 97, 114, 110, 45, 108, 105, 109, 105, 116]
/-- `run-directory`, `main.c:260` -/
def kRun : Bytes := [114, 117, 110, 45, 100, 105, 114, 101, 99, 116, 111, 114, 121]
/-- `json`, `main.c:280` -/
def kJson : Bytes := [106, 115, 111, 110]

/-! ## Numbers -/

/-- `isspace` of the C library -/
def isSpace (c : UInt8) : Bool := c == 32 || (9 ≤ c && c ≤ 13)

/-- Value of a string of digits -/
def digitsValue (l : Bytes) : Nat := l.foldl (fun n c => n * 10 + (c.toNat - 48)) 0

/-- What `strtol` and `strtoul` with base 10 take as sign, and the rest of the text -/
def sign : Bytes → Bool × Bytes
  | 45 :: t => (true, t)
  | 43 :: t => (false, t)
  | t => (false, t)

/-- The number when `strtol` or `strtoul` with base 10 reads all of the text, without limits of range -/
def readNumber (s : Bytes) : Option Int :=
  let x := sign (s.dropWhile isSpace)
  if x.2 = [] || x.2.any (fun c => !Parse.isDigit c) then none
  else some (if x.1 then - (digitsValue x.2 : Int) else digitsValue x.2)

/-- `strtol` gives the nearest number when the number is out of range -/
def clampLong (n : Int) : Int := if n < - 2 ^ 63 then - 2 ^ 63 else if n > 2 ^ 63 - 1 then 2 ^ 63 - 1 else n

/-- `cmdline.c:187-196 cmd_convert_integer_10`. An empty text is 0. -/
def convertInteger (s : Bytes) : Option Int := if s = [] then some 0 else (readNumber s).map clampLong

/-- `main.c:92-99 GETENV_U`: `strtoul`, with an error when the number does not fit. A negative number becomes the one which is equal modulo 2^64. -/
def readUnsigned (s : Bytes) : Option Nat :=
  if s = [] then some 0
  else
    match readNumber s with
    | none => none
    | some n => if n.natAbs > 2 ^ 64 - 1 then none else some (n % 2 ^ 64).toNat

/-- `GETENV_U`, where `target` has its initial value when the variable does not exist -/
def envNumber (e : Env) (name : Bytes) (initial : Nat) : Option Nat :=
  match getenv e name with
  | none => some initial
  | some v => readUnsigned v

/-- `tolower` of the C library -/
def lower (c : UInt8) : UInt8 := if 65 ≤ c && c ≤ 90 then c + 32 else c

/-- `main.c:87-90 GETENV_YESNO` -/
def envYes (e : Env) (name : Bytes) : Bool :=
  match getenv e name with
  | none => false
  | some v => v.map lower != [110, 111] && v.map lower != [48]

/-- `__RRR_DEBUGLEVEL_ALL`, `log.h:63-66` -/
def levelAll : Nat := 511

/-- `main.c:164-183`, `185-204`, `206-222` and `236-258`: the number of an option, or the number there was before. `all` is only understood by some. -/
def cmdNumber (cmd : List Pair) (key : Bytes) (all : Bool) (most : Nat) (before : Nat) : Option Nat :=
  match (getValue cmd [] key 0).1 with
  | none => some before
  | some v =>
    if all && v == [97, 108, 108] then some levelAll
    else
      match convertInteger v with
      | none => none
      | some n => if n < 0 || n > most then none else some n.toNat

/-- `main.c:224-234`, `280-282` -/
def cmdFlag (cmd : List Pair) (key : Bytes) (before : Bool) : Bool := before || cmdExists cmd key 0

/-! ## The configuration -/

/-- `struct rrr_global_config` as `rrr_config.c:54-78 rrr_config_init` sets it. The prefix of logs, and whether there is journald, are left out. -/
structure Config where
  debug : Nat
  onExit : Nat
  start : Nat
  noWatchdog : Bool
  noRestart : Bool
  levels : Bool
  limit : Nat
  json : Bool
  run : Bytes
deriving DecidableEq, Repr

/-- `main.c:129-141` -/
def socketOk (os : Os) (cmd : List Pair) : Bool :=
  if cmdExists cmd kSocket 0 then
    if (getValue cmd [] kSocket 1).1.isSome then false
    else os.connect ((getValue cmd [] kSocket 0).1.getD [])
  else true

/-- `main.c:143-149`: the variables of the environment file, if there is one -/
def fileVars (os : Os) (cmd : List Pair) : Option (List (Bytes × Bytes)) :=
  match (getValue cmd [] kFile 0).1 with
  | none => some []
  | some f => readFile os f

/-- `%u` of an `unsigned int` which is 0 or 1 -/
def bit (b : Bool) : Bytes := if b then [49] else [48]

/-- `main.c:284-291` -/
def exported (c : Config) : List (Bytes × Bytes) :=
  [(eDebug, Http.decimal c.debug), (eExit, Http.decimal c.onExit), (eStart, Http.decimal c.start), (eWatchdog, bit c.noWatchdog),
    (eRestart, bit c.noRestart), (eLevels, bit c.levels), (eLimit, Http.decimal c.limit), (eRun, c.run)]

/-- `main.c:162`, `260-266` -/
def runDirectory (os : Os) (cmd : List Pair) (e : Env) : Bytes :=
  match (getValue cmd [] kRun 0).1 with
  | some v => v
  | none => (getenv e eRun).getD os.runDir

/-- `main.c:155-282` after the environment file has been put into the environment, with `main.c:300-311` -/
def configure (os : Os) (cmd : List Pair) (e : Env) : Option Config :=
  match envNumber e eDebug 0, envNumber e eExit 0, envNumber e eStart 0, envNumber e eLimit 1000 with
  | some d, some x, some s, some l =>
    match cmdNumber cmd kDebug true levelAll d, cmdNumber cmd kExit true levelAll x, cmdNumber cmd kStart false 10000 s,
      cmdNumber cmd kLimit false 1000000 l with
    | some d, some x, some s, some l =>
      if d > 2 ^ 32 - 1 || x > 2 ^ 32 - 1 then none
      else
        some {
          debug := d
          onExit := x
          start := s % 2 ^ 32
          noWatchdog := cmdFlag cmd kWatchdog (envYes e eWatchdog)
          noRestart := cmdFlag cmd kRestart (envYes e eRestart)
          levels := cmdFlag cmd kLevels (envYes e eLevels)
          limit := l % 2 ^ 32
          json := cmdFlag cmd kJson false
          run := runDirectory os cmd e
        }
    | _, _, _, _ => none
  | _, _, _, _ => none

/-- `main.c:106-336 rrr_main_parse_cmd_arguments_and_env`, after the arguments have been parsed: the configuration, and the environment for child
processes. `none` is an error. -/
def startup (os : Os) (cmd : List Pair) (env : Env) : Option (Config × Env) :=
  if !socketOk os cmd then none
  else
    match fileVars os cmd with
    | none => none
    | some m =>
      match setEach env m with
      | none => none
      | some e =>
        match configure os cmd e with
        | none => none
        | some c => (setEach e (exported c)).map (c, ·)

end Verif.Startup
