import Verif.Model.Lines
import Verif.Model.Print

/-!
# Model of `src/hubbard/include/{cli,application}.hpp`: command line, response file, output paths and header

Of boost's program options library the parser (`unix_style`, no positional options described, no short names, no multi-token
values) and `store` are modelled after its documentation; conversion of a value to its type enters as the predicate `valid`
(an invalid text makes `store` throw) and the values in the map are kept as text. Of boost's file system library
`change_extension` is modelled. Logging is modelled only as the creation of the log file. An exception is `none`; every program
lets it terminate the process.
-/

set_option autoImplicit false

namespace Ieompp.App

open IO

/-! ## boost::program_options -/

/-- An `option_description`: the long name, whether it takes a value, and the text of its default value.
cli.hpp:16-26, application.hpp:107-119 (boost library type). -/
structure Opt where
  name : Text
  takesValue : Bool
  default : Option Text
  deriving DecidableEq

/-- A `basic_option`: `string_key` (empty for positional arguments) and `value`. cli.hpp:50, 56-60 (boost library type). -/
structure Parsed where
  key : Text
  value : List Text
  deriving DecidableEq

/-- `options_description::find` with `allow_guess`: the option of that name, otherwise the only option with that prefix;
`none` = it throws. Library function, called through cli.hpp:39, 50. -/
def find (opts : List Opt) (name : Text) : Option Opt :=
  match opts.filter (fun o => o.name = name) with
  | [o] => some o
  | _ :: _ :: _ => none
  | [] =>
    match opts.filter (fun o => name.isPrefixOf o.name) with
    | [o] => some o
    | _ => none

/-- `command_line_parser(args).options(description).run()`. cli.hpp:38-39, 50 (boost library function). -/
def parseArgs (opts : List Opt) : List Text → Option (List Parsed)
  | [] => some []
  | tok :: rest =>
    if tok = ['-', '-'] then some (rest.map fun x => ⟨[], [x]⟩)
    else if ['-', '-'].isPrefixOf tok then
      let body := tok.drop 2
      let name := body.takeWhile (· ≠ '=')
      match body.dropWhile (· ≠ '=') with
      | _ :: adjacent =>
        if adjacent = [] then none
        else if name = [] then (parseArgs opts rest).map fun r => ⟨[], [adjacent]⟩ :: r
        else
          match find opts name with
          | none => none
          | some o => if o.takesValue then (parseArgs opts rest).map fun r => ⟨o.name, [adjacent]⟩ :: r else none
      | [] =>
        match find opts name with
        | none => none
        | some o =>
          if o.takesValue then
            match rest with
            | [] => none
            | v :: rest => (parseArgs opts rest).map fun r => ⟨o.name, [v]⟩ :: r
          else (parseArgs opts rest).map fun r => ⟨o.name, []⟩ :: r
    else if ['-'].isPrefixOf tok && tok ≠ ['-'] then none
    else (parseArgs opts rest).map fun r => ⟨[], [tok]⟩ :: r

/-- A `variable_value`: the text and whether it is a default. cli.hpp:51 and application.hpp:43 (boost library type). -/
structure Value where
  text : Text
  defaulted : Bool
  deriving DecidableEq

/-- A `variables_map`: the values, and the names in `m_final`. cli.hpp:28, 48 (boost library type). -/
structure VM where
  value : Text → Option Value
  final : Text → Bool

/-- The empty `variables_map`. application.hpp:31 (boost library). -/
def VM.empty : VM := ⟨fun _ => none, fun _ => false⟩

/-- `if(v.defaulted()) v = variable_value();` in `store`. Library code, called through cli.hpp:38, 51. -/
def discard (m : Text → Option Value) (k : Text) : Text → Option Value :=
  match m k with
  | some v => if v.defaulted then Function.update m k none else m
  | none => m

/-- `store`: the default value of an option is set unless there is a value. Library code, called through cli.hpp:38, 51. -/
def applyDefault (m : Text → Option Value) (o : Opt) : Text → Option Value :=
  match m o.name, o.default with
  | none, some d => Function.update m o.name (some ⟨d, true⟩)
  | _, _ => m

/-- The loop of `boost::program_options::store` over the parsed options; `none` = it throws (a value that does not convert, or
an option given twice). Library code, called through cli.hpp:38, 51. -/
def storeLoop (valid : Text → Text → Bool) (final : Text → Bool) : List Parsed → (Text → Option Value) → Option (Text → Option Value)
  | [], m => some m
  | p :: ps, m =>
    if p.key = [] then storeLoop valid final ps m
    else if final p.key then storeLoop valid final ps m
    else
      let m := discard m p.key
      if (m p.key).isSome then none
      else
        let text := p.value.headD []
        if p.value ≠ [] && !valid p.key text then none
        else storeLoop valid final ps (Function.update m p.key (some ⟨text, false⟩))

/-- `boost::program_options::store`. Library function, called in cli.hpp:38, 51. -/
def store (opts : List Opt) (valid : Text → Text → Bool) (parsed : List Parsed) (vm : VM) : Option VM :=
  match storeLoop valid vm.final parsed vm.value with
  | none => none
  | some m =>
    let final := fun k => vm.final k || parsed.any fun p => p.key ≠ [] && p.key = k
    some ⟨opts.foldl applyDefault m, final⟩

/-! ## cli.hpp -/

/-- The regular expression `^arg\s+\(=(.+)\)$` of cli.hpp:61 matches the description `arg (=d)` of an option with the default
value `d` exactly when `d` is not empty and has no line breaks. -/
def regexDefault (d : Text) : Bool := d ≠ [] && !d.contains '\n' && !d.contains '\r'

/-- cli.hpp:52-80: `all_options`. -/
def allOptions (opts : List Opt) (parsed : List Parsed) : List (Text × Text) :=
  (parsed.flatMap fun p => p.value.map fun v => (p.key, v)) ++
    opts.filterMap fun o =>
      if parsed.any fun p => p.key = o.name then none
      else match o.default with
        | some d => if regexDefault d then some (o.name, d) else none
        | none => none

/-- cli.hpp:45-83. -/
def parseCommandLineOptions (opts : List Opt) (valid : Text → Text → Bool) (args : List Text) (vm : VM) :
    Option (List (Text × Text) × VM) :=
  (parseArgs opts args).bind fun parsed => (store opts valid parsed vm).map fun vm => (allOptions opts parsed, vm)

/-- The variables of `read_response_file`. cli.hpp:32-34. -/
structure ReadState where
  stream : InStream
  buf : Text
  args : List Text
  /-- `none`: an exception was thrown -/
  vm : Option VM

/-- cli.hpp:36-39: one round of the loop. -/
def readRound (opts : List Opt) (valid : Text → Text → Bool) (s : ReadState) : ReadState :=
  let (stream, buf) := getline s.stream s.buf
  let args := s.args ++ [buf]
  ⟨stream, buf, args, s.vm.bind fun vm => (parseArgs opts args).bind fun parsed => store opts valid parsed vm⟩

/-- cli.hpp:28-43: `read_response_file`; `content` is `none` if the file cannot be opened. An exception leaves the loop. The
eof bit is set when an open stream is no longer good; on a file that could not be opened it is never set. -/
noncomputable def readResponseFile (opts : List Opt) (valid : Text → Text → Bool) (content : Option Text) (vm : VM) : Res (Option VM) :=
  let stream : InStream := match content with
    | some c => ⟨c, true⟩
    | none => ⟨[], false⟩
  let eof := fun s : ReadState => content.isSome && !s.stream.good
  (whileLoop (fun s => s.vm.isSome = true ∧ eof s = false) (readRound opts valid)
    (readRound opts valid ⟨stream, [], [], some vm⟩)).map fun s => s.vm

/-! ## application.hpp -/

/-- `path::filename()` as far as `extension()` is concerned: the part after the last slash.
Library function, used in application.hpp:44-49. -/
def filename (p : Text) : Text := (p.reverse.takeWhile (· ≠ '/')).reverse

/-- `path::extension()`: empty for `.` and `..` and for names without a dot, otherwise everything from the last dot.
Library function, used in application.hpp:44-49. -/
def extension (p : Text) : Text :=
  let n := filename p
  if n = ['.'] || n = ['.', '.'] || !n.contains '.' then []
  else '.' :: (n.reverse.takeWhile (· ≠ '.')).reverse

/-- `boost::filesystem::change_extension(p, e)` for `e` empty or starting with a dot.
Library function, called in application.hpp:44-49. -/
def changeExtension (p e : Text) : Text := p.take (p.length - (extension p).length) ++ e

/-- application.hpp:14-26: the members of an `Application` and the files after its construction. -/
structure App where
  vars : VM
  outputPath : Text
  logPath : Text
  responsePath : Text
  matrixPath : Text
  checkpointPrefix : Text
  fs : FS

/-- application.hpp:68-71: the text of the response file. -/
def responseText (all : List (Text × Text)) : Text := (all.map fun o => ['-', '-'] ++ o.1 ++ ['='] ++ o.2 ++ ['\n']).flatten

/-- application.hpp:79-92: the header; `platform` holds the labels and texts of the lines 79-90, as printed. -/
def headerText (platform : List (Text × Text)) (all : List (Text × Text)) : Text :=
  (platform.map fun l => ['#', ' '] ++ l.1 ++ ['\t'] ++ l.2 ++ ['\n']).flatten ++ ['#', '\n', '#', ' ', 'C', 'L', 'I', ' ', 'o', 'p', 't', 'i', 'o', 'n', 's', ':', '\n'] ++
    (all.map fun o => ['#', '\t'] ++ o.1 ++ [' ', '=', ' '] ++ o.2 ++ ['\n']).flatten

/-- What the constructor does: `exit(1)` after printing, or an object. application.hpp:28-94. -/
inductive Started where
  | exited
  | app (a : App)

/-- The environment: what the log contains after the start, and the platform lines of the header. application.hpp:51-56, 77-88. -/
structure Env where
  logText : Text
  platform : List (Text × Text)

/-- application.hpp:111-116: the name of an option. -/
def helpName : Text := ['h', 'e', 'l', 'p']
/-- application.hpp:111-116: the name of an option. -/
def versionName : Text := ['v', 'e', 'r', 's', 'i', 'o', 'n']
/-- application.hpp:111-116: the name of an option. -/
def outName : Text := ['o', 'u', 't']
/-- application.hpp:111-116: the name of an option. -/
def responseFileName : Text := ['r', 'e', 's', 'p', 'o', 'n', 's', 'e', '_', 'f', 'i', 'l', 'e']

/-- application.hpp:28-94: the constructor. -/
noncomputable def construct (opts : List Opt) (valid : Text → Text → Bool) (env : Env) (fs : FS) (args : List Text) :
    Res (Option Started) :=
  match parseCommandLineOptions opts valid args VM.empty with
  | none => .val none
  | some (all, vm) =>
    if (vm.value helpName).isSome then .val (some .exited)
    else if (vm.value versionName).isSome then .val (some .exited)
    else
      match vm.value outName with
      | none => .val none
      | some out =>
        let outputPath := out.text
        let responsePath := changeExtension outputPath ['.', 'r', 's', 'p']
        let logPath := changeExtension outputPath ['.', 'l', 'o', 'g']
        let matrixPath := changeExtension outputPath [] ++ ['_', 'm', 'a', 't', 'r', 'i', 'x', '.', 'b', 'l', 'a', 'z', 'e']
        let checkpointPrefix := changeExtension outputPath [] ++ ['_', 'c', 'h', 'e', 'c', 'k', 'p', 'o', 'i', 'n', 't', '_']
        let fs := fs.set logPath (some env.logText)
        let finish := fun (vm : VM) (fs : FS) =>
          some (Started.app ⟨vm, outputPath, logPath, responsePath, matrixPath, checkpointPrefix,
            fs.set outputPath (some (headerText env.platform all))⟩)
        match vm.value responseFileName with
        | some r => (readResponseFile opts valid (fs r.text) vm).map fun vm => vm.bind fun vm => finish vm fs
        | none => .val (finish vm (fs.set responsePath (some (responseText all))))

/-- application.hpp:107-119 and the calls of `add_options` in the programs (e.g. hubbard_real_1d_rk4.cpp:22-30): the options of
a program called `name` with the numeric options `own`. -/
def programOptions (name : Text) (own : List (Text × Text)) : List Opt :=
  [⟨helpName, false, none⟩, ⟨versionName, false, none⟩, ⟨responseFileName, true, none⟩,
    ⟨outName, true, some (name ++ ['.', 't', 'x', 't'])⟩] ++ own.map fun o => ⟨o.1, true, some o.2⟩

end Ieompp.App
