import Verif.Startup.Model
import Verif.AclFile.Spec
import Verif.Cmdline.Props
/-!
# Where the global configuration is to come from

Environment files by lines, numbers by how they are written, and the sources of each setting in order: the command line, the environment (in which the
environment file has been put), the default.
-/
namespace Verif.Startup
open Verif
open Verif.Cmdline (Pair withName)

/-! ## Environment files -/

/-- A space or a tab -/
def blank (c : UInt8) : Bool := c == 32 || c == 9

/-- Without blanks at the end -/
def chop (s : Bytes) : Bytes := (s.reverse.dropWhile blank).reverse

/-- What a line of an environment file says: `none` when it is wrong. Empty lines and comments say nothing, a name alone gets the value 1. -/
def lineSays (l : Bytes) : Option (List (Bytes × Bytes)) :=
  let t := l.dropWhile blank
  if t = [] ∨ t.head? = some 35 then some []
  else if (61 : UInt8) ∉ t ∨ t.head? = some 61 then some [(chop t, [49])]
  else
    let v := ((t.dropWhile (· != 61)).drop 1).dropWhile blank
    if v = [] then none else some [(chop (t.takeWhile (· != 61)), chop v)]

/-- What the lines say, one after another -/
def linesSay : List Bytes → Option (List (Bytes × Bytes))
  | [] => some []
  | l :: ls =>
    match lineSays l, linesSay ls with
    | some a, some b => some (a ++ b)
    | _, _ => none

/-- The last value given to a name -/
def lastValue (m : List (Bytes × Bytes)) (name : Bytes) : Option Bytes := ((m.filter (·.1 == name)).getLast?).map (·.2)

/-- A name which an environment variable may have -/
def NameOk (n : Bytes) : Prop := n ≠ [] ∧ (61 : UInt8) ∉ n

/-! ## Numbers -/

/-- White space, as the C library has it -/
def White (c : UInt8) : Prop := c = 32 ∨ (9 ≤ c ∧ c ≤ 13)

/-- The text is a number: white space, a sign or not, and digits -/
def Written (s : Bytes) (n : Int) : Prop :=
  ∃ ws ds : Bytes, (∀ c ∈ ws, White c) ∧ ds ≠ [] ∧ (∀ c ∈ ds, 48 ≤ c ∧ c ≤ 57)
    ∧ ((s = ws ++ ds ∧ n = digitsValue ds) ∨ (s = ws ++ 43 :: ds ∧ n = digitsValue ds) ∨ (s = ws ++ 45 :: ds ∧ n = - (digitsValue ds : Int)))

/-- What the command line says: the first value of the first argument with the name -/
def says (cmd : List Pair) (key : Bytes) : Option Bytes := ((withName cmd key).head?).bind (·.values.head?)

/-- The number in an option: `all` where it is allowed, no text at all, or a number within the limits -/
def OptionNumber (all : Bool) (most : Nat) (v : Bytes) (n : Nat) : Prop :=
  (all = true ∧ v = [97, 108, 108] ∧ n = levelAll) ∨ (¬ (all = true ∧ v = [97, 108, 108]) ∧ v = [] ∧ n = 0)
    ∨ (¬ (all = true ∧ v = [97, 108, 108]) ∧ Written v n ∧ n ≤ most)

/-- The number in a variable of the environment: no text at all, or a number which fits 64 bits, of which negative ones are taken modulo 2^64 -/
def VariableNumber (v : Bytes) (n : Nat) : Prop := (v = [] ∧ n = 0) ∨ ∃ i, Written v i ∧ i.natAbs < 2 ^ 64 ∧ (n : Int) = i % 2 ^ 64

/-- The sources of a number in order. `look` gives the variables of the environment. A variable which cannot be understood is an error also when it is
not used. -/
def NumberFrom (cmd : List Pair) (look : Bytes → Option Bytes) (key var : Bytes) (all : Bool) (most initial n : Nat) : Prop :=
  (∀ v, look var = some v → ∃ k, VariableNumber v k)
  ∧ ((∃ v, says cmd key = some v ∧ OptionNumber all most v n)
    ∨ (says cmd key = none ∧ ∃ v, look var = some v ∧ VariableNumber v n)
    ∨ (says cmd key = none ∧ look var = none ∧ n = initial))

/-- The text says no: `no` with letters of any size, or 0 -/
def No (v : Bytes) : Prop := v.map lower = [110, 111] ∨ v = [48]

/-- The sources of a flag -/
def FlagFrom (cmd : List Pair) (look : Bytes → Option Bytes) (key var : Bytes) (b : Bool) : Prop :=
  b = true ↔ withName cmd key ≠ [] ∨ ∃ v, look var = some v ∧ ¬ No v

/-- The sources of the run directory -/
def RunFrom (os : Os) (cmd : List Pair) (look : Bytes → Option Bytes) (r : Bytes) : Prop :=
  says cmd kRun = some r ∨ (says cmd kRun = none ∧ look eRun = some r) ∨ (says cmd kRun = none ∧ look eRun = none ∧ r = os.runDir)

/-- The sources of all of the configuration. `start` and `limit` are cut to 32 bits. -/
def ConfigFrom (os : Os) (cmd : List Pair) (look : Bytes → Option Bytes) (c : Config) : Prop :=
  NumberFrom cmd look kDebug eDebug true levelAll 0 c.debug ∧ c.debug < 2 ^ 32
  ∧ NumberFrom cmd look kExit eExit true levelAll 0 c.onExit ∧ c.onExit < 2 ^ 32
  ∧ (∃ s, NumberFrom cmd look kStart eStart false 10000 0 s ∧ c.start = s % 2 ^ 32)
  ∧ (∃ l, NumberFrom cmd look kLimit eLimit false 1000000 1000 l ∧ c.limit = l % 2 ^ 32)
  ∧ FlagFrom cmd look kWatchdog eWatchdog c.noWatchdog ∧ FlagFrom cmd look kRestart eRestart c.noRestart
  ∧ FlagFrom cmd look kLevels eLevels c.levels ∧ (c.json = true ↔ withName cmd kJson ≠ []) ∧ RunFrom os cmd look c.run

/-- The environment file of the command line says this. -/
def FileSays (os : Os) (cmd : List Pair) (m : List (Bytes × Bytes)) : Prop :=
  (says cmd kFile = none ∧ m = [])
  ∨ ∃ f b, says cmd kFile = some f ∧ os.file f = some b ∧ b.length < 2 ^ 32 ∧ linesSay (AclFile.Spec.lines b) = some m

/-- There is no log socket, or one, and it can be connected to. -/
def SocketSays (os : Os) (cmd : List Pair) : Prop :=
  withName cmd kSocket = []
  ∨ (((withName cmd kSocket)[1]?).bind (·.values.head?) = none ∧ os.connect ((says cmd kSocket).getD []) = true)

/-- Files have no NUL. -/
def TextFiles (os : Os) : Prop := ∀ f b, os.file f = some b → (0 : UInt8) ∉ b

/-- A variable after the environment file has been put into the environment -/
def after (m : List (Bytes × Bytes)) (env : Env) (name : Bytes) : Option Bytes := (lastValue m name).or (getenv env name)

/-- The variables which are exported to child processes -/
def exportedNames : List Bytes := [eDebug, eExit, eStart, eWatchdog, eRestart, eLevels, eLimit, eRun]

end Verif.Startup
