import Verif.Model.Simulation
import Verif.Model.Print
import Verif.Model.Sparse

/-!
# Model of the log messages

The programs log with `spdlog`, whose messages are format strings of the `fmt` library with arguments
(src/hubbard/include/spdlog.hpp:4-5). The sources of both libraries are not part of the repository (empty submodule), so the
formatter is modelled after its documentation: `{{` and `}}` stand for braces, `{}` for the next argument and `{:spec}` for the
next argument with a format specification; everything else which contains a brace, and a missing argument, is a format error,
after which `spdlog` does not log the message. Numbered arguments `{0}` and nested braces are not used by the programs and are
format errors in the model. What happens to a message without arguments depends on the version of `spdlog`: it is logged as it
is, or it is a format string like the others; both are modelled (`fmtSingle`). Prefix (time, logger, level) and sinks are not
modelled.
-/

set_option autoImplicit false

namespace Ieompp.Log

open IO (Text)
open Sim

/-- An argument: its text for every format specification, `none` if the specification is invalid. logging.hpp:30-41. -/
abbrev Arg := Text → Option Text

/-- An argument which is used without specification. logging.hpp:30-41. -/
def Arg.plain (t : Text) : Arg := fun spec => if spec = [] then some t else none

/-- The state of the formatter: in the text, after an opening brace, in a format specification, after a closing brace.
Library function, called in logging.hpp:27-42. -/
inductive Mode where
  | text
  | opened
  | spec (acc : Text)
  | closed
  deriving DecidableEq

/-- The next argument with the specification, followed by the rest of the text with the remaining arguments. Library function,
called in logging.hpp:27-42. -/
def useArg (spec : Text) (args : List Arg) (rest : List Arg → Option Text) : Option Text :=
  match args with
  | [] => none
  | a :: as => (a spec).bind fun t => (rest as).map (t ++ ·)

/-- The formatter. Library function, called in logging.hpp:27-42. -/
def format : Mode → Text → List Arg → Option Text
  | .text, [], _ => some []
  | .text, c :: cs, args =>
    if c = '{' then format .opened cs args
    else if c = '}' then format .closed cs args
    else (format .text cs args).map (c :: ·)
  | .opened, [], _ => none
  | .opened, c :: cs, args =>
    if c = '{' then (format .text cs args).map ('{' :: ·)
    else if c = ':' then format (.spec []) cs args
    else if c = '}' then useArg [] args fun as => format .text cs as
    else none
  | .spec _, [], _ => none
  | .spec acc, c :: cs, args =>
    if c = '}' then useArg acc args fun as => format .text cs as
    else if c = '{' then none
    else format (.spec (acc ++ [c])) cs args
  | .closed, [], _ => none
  | .closed, c :: cs, args => if c = '}' then (format .text cs args).map ('}' :: ·) else none

/-- `logger->info(fmt, args...)`: the text of the message, `none` if nothing is logged. Library function, called in
logging.hpp:27-42. -/
def info (fmtSingle : Bool) (fmt : Text) (args : List Arg) : Option Text :=
  if args.isEmpty && !fmtSingle then some fmt else format .text fmt args

/-- The three loggers. logging.hpp:16-24. -/
inductive Logger where
  | main
  | io
  | ode
  deriving DecidableEq

/-- The lines of the log file: the logger and the text. logging.hpp:20-24. -/
abbrev Line := Logger × Text

/-- The lines written by a call of `info`. logging.hpp:20-42. -/
def say (fmtSingle : Bool) (l : Logger) (fmt : String) (args : List Text) : List Line :=
  (info fmtSingle fmt.toList (args.map Arg.plain)).toList.map fun t => (l, t)

/-- The messages by which the programs differ (hubbard_real_1d_rk4.cpp:58-86): the observable at `t = 0`, the observable later, and the first coefficient
after the first measurement. -/
structure Formats where
  obs0 : Option String
  obs : Option String
  first : Option String

/-- hubbard_real_1d_rk4.cpp:58-86. -/
def formatsOccupation : Formats := ⟨some "  <n_{{0,↑}}>(0) = {}", some "  <n_{{0,↑}}>({}) = {}", some "h[0] = {}"⟩

/-- hubbard_real_1d_kinetic_rk4.cpp:56-82. -/
def formatsKinetic : Formats := ⟨some "  <n_{{0,↑}}>(0) = {}", some "  <n_{{0,↑}}>({}) = {}", none⟩

/-- hubbard_real_1d_rk4_jump.cpp:57-83. -/
def formatsJump1D : Formats := ⟨some "  <Δn_{{k_F,↑}}>(0) = {}", some "  <Δn_{{k_F,↑}}>({}) = {}", none⟩

/-- hubbard_real_2d_rk4_jump.cpp:66-94. -/
def formatsJump2D : Formats := ⟨some "  Δn_{{k_F,↑}}(0) = {}", some "  Δn_{{k_F,↑}}({}) = {}", some "h[0] = {}"⟩

/-- hubbard_real_1d_rk4_coefficients.cpp:50-89, hubbard_real_1d_kinetic_rk4_coefficients.cpp:48-87. -/
def formatsCoefficients : Formats := ⟨none, none, some "h[0] = {}"⟩

variable {H O : Type*}

/-- The texts of the values (hubbard_real_1d_rk4.cpp:56-89): of a time, of an observable (never used for the coefficients) and of the first coefficient. -/
structure Texts (H O : Type*) where
  time : ℝ → Text
  obs : O → Text
  first : H → Text

/-- A message which not every program has. hubbard_real_1d_rk4.cpp:58-64. -/
def sayOpt (fmtSingle : Bool) (l : Logger) (fmt : Option String) (args : List Text) : List Line :=
  match fmt with
  | none => []
  | some f => say fmtSingle l f args

/-- The variables of the program and the lines of the log. hubbard_real_1d_rk4.cpp:50-91. -/
abbrev Logged (H O : Type*) := State H O × List Line

variable (fs : Bool) (F : Formats) (T : Texts H O)

/-- The measurement block with its messages. hubbard_real_1d_rk4.cpp:67-75 and 83-91. -/
noncomputable def maybeMeasureL (measure : H → Res (H × O)) (dt : ℝ) (interval : ℕ) (s : Logged H O) : Res (Logged H O) :=
  (hasTimeIntervalPassed s.1.t s.1.last dt interval).bind fun b =>
    if b then
      (measure s.1.h).map fun r =>
        ({ s.1 with h := r.1, out := s.1.out ++ [(s.1.t, r.2)], last := s.1.t },
          s.2 ++ say fs .main "Measuring at t={}" [T.time s.1.t] ++ sayOpt fs .main F.obs [T.time s.1.t, T.obs r.2] ++
            say fs .main "Finish measurement at t={}" [T.time s.1.t])
    else .val s

/-- The body of the time loop with its messages. hubbard_real_1d_rk4.cpp:66-81. -/
noncomputable def bodyL (step : H → Res H) (measure : H → Res (H × O)) (dt : ℝ) (interval : ℕ) (s : Logged H O) :
    Res (Logged H O) :=
  (maybeMeasureL fs F T measure dt interval s).bind fun s =>
    (step s.1.h).map fun h =>
      ({ s.1 with h := h, t := s.1.t + dt },
        s.2 ++ say fs .ode "Integrate from t={}" [T.time s.1.t] ++
          say fs .ode "Finished integration t={} -> t={}" [T.time s.1.t, T.time (s.1.t + dt)])

/-- The loop condition. hubbard_real_1d_rk4.cpp:66. -/
def runningL (tEnd : ℝ) : Res (Logged H O) → Prop
  | .val s => s.1.t < tEnd
  | .ub => False
  | .diverges => False

/-- The first measurement with its messages. hubbard_real_1d_rk4.cpp:54-64. -/
noncomputable def startL (measure : H → Res (H × O)) (h0 : H) : Res (Logged H O) :=
  (measure h0).map fun r =>
    ({ h := r.1, t := 0, last := 0, out := [(0, r.2)] },
      say fs .main "Measuring at t=0" [] ++ sayOpt fs .main F.obs0 [T.obs r.2] ++ say fs .main "Finish measurement at t=0" [] ++
        sayOpt fs .main F.first [T.first r.1])

/-- The program from the first measurement on. hubbard_real_1d_rk4.cpp:54-91. -/
noncomputable def simulateL (step : H → Res H) (measure : H → Res (H × O)) (dt tEnd : ℝ) (interval : ℕ) (h0 : H) :
    Res (Logged H O) :=
  ((whileLoop (runningL tEnd) (fun s => s.bind (bodyL fs F T step measure dt interval)) (startL fs F T measure h0)).bind
    id).bind (maybeMeasureL fs F T measure dt interval)

/-- The three values in the message about the elements of the matrix: `nonZeros()`, `rows() * columns()` and their quotient,
which precedes a percent sign. matrix.hpp:16-18 and 33-35, matrix_no.hpp:17-19 and 34-36, momentum_space.hpp:16-18. -/
def fillingValues {S : Type*} (m : Sparse S) : ℕ × ℕ × ℚ :=
  (m.nonZeros, m.rows * m.columns, m.nonZeros / (m.rows * m.columns : ℕ))

/-- `clean_output_file`: the file named in the message, and the file which is opened. checkpoint.hpp:60-61. -/
def oldFileMessage (path : Text) : Text × Text := (path, path ++ ['.', 'b', 'a', 'k'])

end Ieompp.Log
