import Verif.Model.ProgramOptions

/-!
# Model of `include/ieompp/platform.hpp` and of its use in `src/hubbard/include/{application,logging}.hpp`

The machine a program runs on: environment variable `LOGNAME`, host name, and the texts fixed at compile time. The text that boost
prints for a table of options is a parameter. `endianess()` is one of its four texts for the predefined byte orders.
-/

set_option autoImplicit false

namespace Ieompp.App

open IO

/-- The machine: environment and compile-time constants. platform.hpp:20-117. -/
structure Machine where
  /-- `LOGNAME` in the environment of the process -/
  logname : Option Text
  hostname : Text
  version : Text
  boost : ℕ
  blaze : Text
  arch : Text
  os : Text
  compiler : Text
  library : Text
  endian : Text
  threads : ℕ
  /-- what the loggers write during the start -/
  logText : Text
  /-- what boost prints for the table of options -/
  optionsText : Text

/-- Decimal digits. platform.hpp:24-28, 117 and string.hpp:10-16. -/
def natText (n : ℕ) : Text := Nat.toDigits 10 n

/-- platform.hpp:24-30: `Platform::boost()`; `m.boost` is `BOOST_VERSION`. -/
def boostText (m : Machine) : Text :=
  natText (m.boost / 100000) ++ ['.'] ++ natText (m.boost / 100 % 1000) ++ ['.'] ++ natText (m.boost % 100)

/-- platform.hpp:93-99: `std::string(std::getenv("LOGNAME"))`; a null pointer is undefined behaviour. -/
def user (m : Machine) : Res Text :=
  match m.logname with
  | some t => .val t
  | none => .ub

/-- platform.hpp:82-91: `gethostname` into a buffer of 128 characters, which is then read up to its terminating zero; a longer name leaves
no terminating zero. -/
def host (m : Machine) : Res Text := if m.hostname.length < 128 then .val m.hostname else .ub

/-- application.hpp:79-90 and 140-152 (without the program's name): the lines about the platform. -/
def platformLines (m : Machine) : Res (List (Text × Text)) :=
  (user m).bind fun u => (host m).map fun h =>
    [("ieompp:     ".toList, m.version), ("boost:      ".toList, boostText m), ("blaze:      ".toList, m.blaze),
      ("arch:       ".toList, m.arch), ("os:         ".toList, m.os), ("compiler:   ".toList, m.compiler),
      ("std lib:    ".toList, m.library), ("compiled by:".toList, u ++ ['@'] ++ h), ("endianess   ".toList, m.endian),
      ("max threads:".toList, natText m.threads)]

/-- What a start does: text on the standard output and `exit(1)`, an exception, or an object. application.hpp:28-94. -/
inductive Outcome where
  | printed (stdout : Text)
  | threw
  | app (a : App)

/-- application.hpp:121-130: `print_help`. -/
def helpText (m : Machine) (name description : Text) : Text :=
  name ++ "\n\nUsage:\n  ".toList ++ name ++ " [options]\n  ".toList ++ name ++ " [options] --checkpoint=<path>\n\n".toList ++ description ++ ['\n'] ++
    m.optionsText ++ ['\n']

/-- application.hpp:132-146: `print_version`. -/
def versionText (m : Machine) (name : Text) : Res Text :=
  (platformLines m).map fun ls => "program:    \t".toList ++ name ++ ['\n'] ++ (ls.map fun l => l.1 ++ ['\t'] ++ l.2 ++ ['\n']).flatten

/-- logging.hpp:17-39: `Loggers::init` evaluates `user()` and `host()` for the log. -/
def loggersInit (m : Machine) : Res Text := (user m).bind fun _ => (host m).map fun _ => m.logText

/-- application.hpp:28-94: the constructor on a machine: option parsing, `--help`, `--version`, logging, and the rest, which is
`construct` with the environment of this machine. -/
noncomputable def start (m : Machine) (name description : Text) (opts : List Opt) (valid : Text → Text → Bool) (fs : FS) (args : List Text) :
    Res Outcome :=
  match parseCommandLineOptions opts valid args VM.empty with
  | none => .val .threw
  | some (_, vm) =>
    if (vm.value helpName).isSome then .val (.printed (helpText m name description))
    else if (vm.value versionName).isSome then (versionText m name).map .printed
    else
      match vm.value outName with
      | none => .val .threw
      | some _ =>
        (loggersInit m).bind fun logText => (platformLines m).bind fun ls =>
        (construct opts valid ⟨logText, ("program     ".toList, name) :: ls⟩ fs args).map fun r =>
          match r with
          | some (.app a) => .app a
          | _ => .threw

end Ieompp.App
