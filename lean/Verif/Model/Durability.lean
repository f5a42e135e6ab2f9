import Verif.Model.Simulation
import Verif.Model.Lines

/-!
# Model of what reaches the output file and the log when a program is interrupted

`src/hubbard/include/application.hpp:75-104` (opening, header, closing), the measurement blocks and time loops of
`hubbard_real_1d_rk4.cpp:54-91` and of the five programs with the same loop, `src/hubbard/include/logging.hpp:16-22`, and the
programs which write without flushing (`hubbard_trivial.cpp:71-77`, `hubbard_dispersion_1d.cpp:14-18`,
`hubbard_real_1d_kinetic_theory.cpp:84-92`).

The time loop is the one of `Verif.Model.Simulation`, with the list of its effects recorded. What a crash leaves behind is
what had been handed to the operating system: the buffer of the stream is lost (loss of power, which may also lose the caches
of the operating system, is not modelled). An insertion which is interrupted half-way leaves nothing behind which is not also
possible just after it. A measurement or an integration step which is itself undefined or endless ends the model of the run.
-/

set_option autoImplicit false

namespace Ieompp.Durability

/-- The lines of the log, by their arguments. application.hpp:75-77, 98-102 and hubbard_real_1d_rk4.cpp:56-79, 84-89 (in
the programs which write coefficients, `value` is missing). -/
inductive Line (O : Type*) where
  | opening
  | opened
  | measuring (t : ℝ)
  | value (t : ℝ) (o : O)
  | finished (t : ℝ)
  | initial
  | integrate (t : ℝ)
  | integrated (t t' : ℝ)
  | closing
  | closed
  | elapsed

/-- The effects of a program: a line for the log, `output_file.open`, one insertion into `output_file`,
`output_file.flush()`, `output_file.close()`, and computing. application.hpp:75-104, hubbard_real_1d_rk4.cpp:56-91. -/
inductive Act (O : Type*) where
  | log (l : Line O)
  | fopen
  | put (s : List Char)
  | flush
  | close
  | work

variable {H O : Type*}

/-- What exists outside of the process, and the stream: the content of the output file, the characters in the buffer of the
stream, the lines logged so far, and whether the stream has failed. The lines reach stderr at once (logging.hpp:18); what a
reader finds in the log file may lag behind (logging.hpp:19: depending on the version of spdlog, which is not part of the
repository, the argument `true` means flushing after every line or truncating the file). application.hpp:26. -/
structure Disk (O : Type*) where
  file : List Char
  pending : List Char
  log : List (Line O)
  bad : Bool

/-- Before `output_file.open`: the file has the content `old` of an earlier run. application.hpp:26, 76. -/
def Disk.start (old : List Char) : Disk O := ⟨old, [], [], false⟩

/-- What may happen while the effects `as` of a program take place (application.hpp:75-104). The buffer may be handed over to
the operating system in parts at any time (`spill`). `reliable` says that opening and writing never fail; when writing fails a
part of the buffer may have been written, and from then on the stream ignores everything. Nothing in the code looks at the
state of the stream. -/
inductive Run (reliable : Prop) : Disk O → List (Act O) → Disk O → Prop where
  | nil (d : Disk O) : Run reliable d [] d
  | spill {f a b l as d'} : Run reliable ⟨f ++ a, b, l, false⟩ as d' → Run reliable ⟨f, a ++ b, l, false⟩ as d'
  | spillFails {f a b l as d'} : ¬ reliable → Run reliable ⟨f ++ a, [], l, true⟩ as d' →
      Run reliable ⟨f, a ++ b, l, false⟩ as d'
  | log {f p l b x as d'} : Run reliable ⟨f, p, l ++ [x], b⟩ as d' → Run reliable ⟨f, p, l, b⟩ (.log x :: as) d'
  | work {d as d'} : Run reliable d as d' → Run reliable d (.work :: as) d'
  | fopen {f p l as d'} : Run reliable ⟨[], [], l, false⟩ as d' → Run reliable ⟨f, p, l, false⟩ (.fopen :: as) d'
  | fopenFails {f p l as d'} : ¬ reliable → Run reliable ⟨f, [], l, true⟩ as d' →
      Run reliable ⟨f, p, l, false⟩ (.fopen :: as) d'
  | put {f p l s as d'} : Run reliable ⟨f, p ++ s, l, false⟩ as d' → Run reliable ⟨f, p, l, false⟩ (.put s :: as) d'
  | flush {f p l as d'} : Run reliable ⟨f ++ p, [], l, false⟩ as d' → Run reliable ⟨f, p, l, false⟩ (.flush :: as) d'
  | close {f p l as d'} : Run reliable ⟨f ++ p, [], l, false⟩ as d' → Run reliable ⟨f, p, l, false⟩ (.close :: as) d'
  | putBad {f p l s as d'} : Run reliable ⟨f, p, l, true⟩ as d' → Run reliable ⟨f, p, l, true⟩ (.put s :: as) d'
  | flushBad {f p l as d'} : Run reliable ⟨f, p, l, true⟩ as d' → Run reliable ⟨f, p, l, true⟩ (.flush :: as) d'
  | closeBad {f p l as d'} : Run reliable ⟨f, p, l, true⟩ as d' → Run reliable ⟨f, p, l, true⟩ (.close :: as) d'

/-- application.hpp:75-93: opening the output file and writing the header. -/
def openActs (header : List Char) : List (Act O) := [.log .opening, .fopen, .log .opened, .put header]

/-- application.hpp:96-104: the destructor. -/
def closeActs : List (Act O) := [.log .closing, .close, .log .closed, .log .elapsed]

/-- hubbard_real_1d_rk4.cpp:56-61, 68-73, 84-89: a measurement. `ins t o` are the insertions which write the row, e.g.
`t`, `'\t'`, `obs`, `'\n'`. -/
def measureActs (ins : ℝ → O → List (List Char)) (t : ℝ) (o : O) : List (Act O) :=
  [.log (.measuring t), .work, .log (.value t o)] ++ (ins t o).map .put ++ [.flush, .log (.finished t)]

/-- hubbard_real_1d_rk4.cpp:77-79: an integration step. -/
def stepActs (t dt : ℝ) : List (Act O) := [.log (.integrate t), .work, .log (.integrated t (t + dt))]

/-- The insertions of a row with one number: hubbard_real_1d_rk4.cpp:59, 71, 87. `shw` is the formatting of a number. -/
def occupationRow (shw : ℝ → List Char) (t obs : ℝ) : List (List Char) := [shw t, ['\t'], shw obs, ['\n']]

/-- The insertions of a row of coefficients: hubbard_real_1d_rk4_coefficients.cpp:51-55, 64-69, 82-87. -/
def coefficientsRow (shw : ℝ → List Char) (t : ℝ) (h : List (ℝ × ℝ)) : List (List Char) :=
  [shw t] ++ (h.flatMap fun el => [['\t'], shw el.1, ['\t'], shw el.2]) ++ [['\n']]

open Sim

/-- The variables of the program and the effects so far. hubbard_real_1d_rk4.cpp:50-91. -/
abbrev Traced (H O : Type*) := State H O × List (Act O)

/-- `Sim.maybeMeasureM` with the effects. hubbard_real_1d_rk4.cpp:67-75, 83-91. -/
noncomputable def maybeMeasureT (ins : ℝ → O → List (List Char)) (measure : H → Res (H × O)) (dt : ℝ) (interval : ℕ)
    (s : Traced H O) : Res (Traced H O) :=
  (hasTimeIntervalPassed s.1.t s.1.last dt interval).bind fun b =>
    if b then (measure s.1.h).map fun r =>
      ({ s.1 with h := r.1, out := s.1.out ++ [(s.1.t, r.2)], last := s.1.t }, s.2 ++ measureActs ins s.1.t r.2)
    else .val s

/-- `Sim.bodyM` with the effects. hubbard_real_1d_rk4.cpp:66-81. -/
noncomputable def bodyT (ins : ℝ → O → List (List Char)) (step : H → Res H) (measure : H → Res (H × O)) (dt : ℝ)
    (interval : ℕ) (s : Traced H O) : Res (Traced H O) :=
  (maybeMeasureT ins measure dt interval s).bind fun s =>
    (step s.1.h).map fun h => ({ s.1 with h := h, t := s.1.t + dt }, s.2 ++ stepActs s.1.t dt)

/-- hubbard_real_1d_rk4.cpp:56-64: the measurement at `t = 0`; before it, the constructor of `Application`. -/
noncomputable def startT (ins : ℝ → O → List (List Char)) (measure : H → Res (H × O)) (header : List Char) (h0 : H) :
    Res (Traced H O) :=
  (measure h0).map fun r =>
    ({ h := r.1, t := 0, last := 0, out := [(0, r.2)] }, openActs header ++ measureActs ins 0 r.2 ++ [.log .initial])

/-- The state after `k` rounds of the time loop. hubbard_real_1d_rk4.cpp:66-81. -/
noncomputable def roundsT (ins : ℝ → O → List (List Char)) (step : H → Res H) (measure : H → Res (H × O)) (dt : ℝ)
    (interval : ℕ) (header : List Char) (h0 : H) (k : ℕ) : Res (Traced H O) :=
  (fun s => s.bind (bodyT ins step measure dt interval))^[k] (startT ins measure header h0)

/-- The loop condition. hubbard_real_1d_rk4.cpp:66. -/
def runningT (tEnd : ℝ) : Res (Traced H O) → Prop
  | .val s => s.1.t < tEnd
  | .ub => False
  | .diverges => False

/-- The whole program: constructor of `Application`, measurement at `t = 0`, time loop, final measurement, destructor.
hubbard_real_1d_rk4.cpp:33-94, application.hpp:75-104. -/
noncomputable def simulateT (ins : ℝ → O → List (List Char)) (step : H → Res H) (measure : H → Res (H × O)) (dt tEnd : ℝ)
    (interval : ℕ) (header : List Char) (h0 : H) : Res (Traced H O) :=
  (((whileLoop (runningT tEnd) (fun s => s.bind (bodyT ins step measure dt interval))
    (startT ins measure header h0)).bind id).bind (maybeMeasureT ins measure dt interval)).map fun s => (s.1, s.2 ++ closeActs)

/-- A program which writes its rows without flushing: hubbard_trivial.cpp:71-77, hubbard_dispersion_1d.cpp:14-18,
hubbard_real_1d_kinetic_theory.cpp:84-92. -/
def plainActs (rows : List (List (List Char))) : List (Act O) :=
  [.fopen] ++ rows.flatten.map .put ++ [.close]

end Ieompp.Durability
