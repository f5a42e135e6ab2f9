import Verif.Model.ProgramOptions
import Verif.Model.Durability
import Verif.Model.JumpProgram
import Verif.Model.MomentumProgram

/-!
# The programs from the command line to the output file

`main` of the seven programs of `src/hubbard` that use `Application`: construction of the `Application` (`Model/Application.lean`), reading
the parameters, computing (`Model/Program.lean`, `Model/JumpProgram.lean`, `Model/MomentumProgram.lean`) and the effects on the output
file and the log (`Model/Durability.lean`). The conversion of texts to numbers (`boost::lexical_cast`, in `store`) is a parameter `Conv`; boost keeps the
converted value in the map and `as<T>` returns it, here the text is kept and converted by `as`. An exception leaves `main`.
-/

set_option autoImplicit false

namespace Ieompp.Main

open IO App

/-- The type argument of `make_value` in the calls of `add_options`: cli.hpp:16-26, application.hpp:110-119. -/
inductive Kind where
  | nat
  | num
  | text
  deriving DecidableEq

/-- The conversions of a text to `uint64_t` and to `double`; `none` = an exception. Library functions, called through cli.hpp:38, 51. -/
structure Conv where
  nat : Text → Option ℕ
  num : Text → Option ℝ

/-- Whether `store` can convert the text for an option of that type. Library function, called through cli.hpp:38, 51. -/
def Conv.ok (conv : Conv) : Kind → Text → Bool
  | .nat, t => (conv.nat t).isSome
  | .num, t => (conv.num t).isSome
  | .text, _ => true

/-- The types of the options of a program; the options of application.hpp:110-119 have texts (or no value). Options which the program
does not have do not matter. hubbard_real_1d_rk4.cpp:23-29 and the same lines of the other programs. -/
def kindOf (kinds : List (Text × Kind)) (k : Text) : Kind := ((kinds.find? fun o => o.1 = k).map Prod.snd).getD .text

/-- `variables[k].as<uint64_t>()`; `none` = `bad_any_cast`. hubbard_real_1d_rk4.cpp:35-41 (boost library function). -/
def asNat (kinds : List (Text × Kind)) (conv : Conv) (a : App) (k : Text) : Option ℕ :=
  if kindOf kinds k = .nat then (a.vars.value k).bind fun v => conv.nat v.text else none

/-- `variables[k].as<double>()`. hubbard_real_1d_rk4.cpp:35-41 (boost library function). -/
def asNum (kinds : List (Text × Kind)) (conv : Conv) (a : App) (k : Text) : Option ℝ :=
  if kindOf kinds k = .num then (a.vars.value k).bind fun v => conv.num v.text else none

/-- How a program ends, when it does: by an exception that nothing catches, by `std::exit(status)` (application.hpp:33-41), or at the
end of `main` with the `Application` and what the program did with it. hubbard_real_1d_rk4.cpp:93. -/
inductive Outcome (S : Type*) where
  | exception
  | exited (status : ℕ)
  | finished (a : App) (result : S)

/-- `main`: the constructor of `Application`, then the rest of the program; `body` is `none` when reading a parameter throws.
hubbard_real_1d_rk4.cpp:15-94 and the same lines of the other programs. -/
noncomputable def mainWith {S : Type*} (p : Prog) (kinds : List (Text × Kind)) (conv : Conv) (env : Env) (fs : FS) (args : List Text)
    (body : App → Option (Res S)) : Res (Outcome S) :=
  (construct p.options (fun k t => conv.ok (kindOf kinds k) t) env fs args).bind fun r =>
    match r with
    | none => .val .exception
    | some .exited => .val (.exited 1)
    | some (.app a) =>
      match body a with
      | none => .val .exception
      | some r => r.map (.finished a)

/-- What is in the stream when the constructor of `Application` returns: the header. application.hpp:79-92. -/
def header (a : App) : Text := (a.fs a.outputPath).getD []

/-- What the code leaves to the machine: `std::sort`, the schedules of the parallel loops (for each number of sites, in two dimensions per direction), the memory of the
integrator before its first use, and how numbers are printed. hubbard_real_1d_rk4.cpp:43-91. -/
structure Machine where
  sort : List (Triplet ℝ) → List (Triplet ℝ)
  exec : ℕ → Program.Execution
  jump : ℕ → Program.JumpExecution
  jump2 : ℕ → ℕ → Program.JumpExecution
  work : ODE.Work ℂ
  shw : ℝ → Text

open Program RealSpace Durability

/-- The insertions of a row of coefficients: hubbard_real_1d_rk4_coefficients.cpp:51-55, 64-69, 82-87. -/
def coefficientIns (shw : ℝ → Text) (t : ℝ) (o : List ℝ) : List Text :=
  [shw t] ++ (o.flatMap fun x => [['\t'], shw x]) ++ [['\n']]

/-- hubbard_real_1d_rk4.cpp:22-31: the types of the options. -/
def kindsReal1dRk4 : List (Text × Kind) :=
  [(['N'], .nat),
    (['J'], .num),
    (['U'], .num),
    (['d', 't'], .num),
    (['t', '_', 'e', 'n', 'd'], .num),
    (['m', 'e', 'a', 's', 'u', 'r', 'e', 'm', 'e', 'n', 't', '_', 'i', 'n', 't', 'e', 'r', 'v', 'a', 'l'], .nat),
    (['f', 'i', 'l', 'l', 'i', 'n', 'g', '_', 'f', 'a', 'c', 't', 'o', 'r'], .num)]

/-- hubbard_real_1d_rk4.cpp:43-91: `Program.real1dRk4` with its effects; `head` is the header. -/
noncomputable def real1dRk4T (m : Machine) (head : Text) (N : ℕ) (J : ℝ) (U : ℝ) (dt : ℝ) (tEnd : ℝ) (interval : ℕ) (filling : ℝ) :
    Res (Traced Vars ℝ) :=
  let lattice := Chain.real (K := ℝ) N 1
  let basis := basis3 N
  let e := m.exec N
  let conjugateBasis := getConjugate e.conjugation basis
  (evTable1D lattice filling (fermiMomentum1D filling) e.table).bind fun values =>
  (RealSpace.initMatrix m.sort N 2 lattice.neighbors J U).bind fun mat =>
  (initVector basis.length).bind fun h =>
  simulateT (occupationRow m.shw) (stepVars basis.length dt mat)
    (fun s => (siteOccupation3 (evFunction lattice values) basis conjugateBasis s.2.2 true (e.threads s.1) (e.loop1 s.1)
      (e.loop2 s.1) (e.loop3 s.1)).map fun o => (s, o))
    dt tEnd interval head (0, m.work, h)

/-- hubbard_real_1d_rk4.cpp:15-41: `main`. -/
noncomputable def mainReal1dRk4 (conv : Conv) (m : Machine) (env : Env) (fs : FS) (args : List Text) : Res (Outcome (Traced Vars ℝ)) :=
  mainWith progReal1dRk4 kindsReal1dRk4 conv env fs args fun a =>
    (asNat kindsReal1dRk4 conv a ['N']).bind fun N =>
    (asNum kindsReal1dRk4 conv a ['J']).bind fun J =>
    (asNum kindsReal1dRk4 conv a ['U']).bind fun U =>
    (asNum kindsReal1dRk4 conv a ['d', 't']).bind fun dt =>
    (asNum kindsReal1dRk4 conv a ['t', '_', 'e', 'n', 'd']).bind fun tEnd =>
    (asNat kindsReal1dRk4 conv a ['m', 'e', 'a', 's', 'u', 'r', 'e', 'm', 'e', 'n', 't', '_', 'i', 'n', 't', 'e', 'r', 'v', 'a', 'l']).bind fun interval =>
    (asNum kindsReal1dRk4 conv a ['f', 'i', 'l', 'l', 'i', 'n', 'g', '_', 'f', 'a', 'c', 't', 'o', 'r']).bind fun filling =>
    some (real1dRk4T m (header a) N J U dt tEnd interval filling)

/-- hubbard_real_1d_kinetic_rk4.cpp:22-30: the types of the options. -/
def kindsReal1dKineticRk4 : List (Text × Kind) :=
  [(['N'], .nat),
    (['J'], .num),
    (['d', 't'], .num),
    (['t', '_', 'e', 'n', 'd'], .num),
    (['m', 'e', 'a', 's', 'u', 'r', 'e', 'm', 'e', 'n', 't', '_', 'i', 'n', 't', 'e', 'r', 'v', 'a', 'l'], .nat),
    (['f', 'i', 'l', 'l', 'i', 'n', 'g', '_', 'f', 'a', 'c', 't', 'o', 'r'], .num)]

/-- hubbard_real_1d_kinetic_rk4.cpp:41-87: `Program.real1dKineticRk4` with its effects; `head` is the header. -/
noncomputable def real1dKineticRk4T (m : Machine) (head : Text) (N : ℕ) (J : ℝ) (dt : ℝ) (tEnd : ℝ) (interval : ℕ) (filling : ℝ) :
    Res (Traced Vars ℝ) :=
  let lattice := Chain.real (K := ℝ) N 1
  let basis := basis1 N
  let e := m.exec N
  let conjugateBasis := getConjugate e.conjugation basis
  (evTable1D lattice filling (fermiMomentum1D filling) e.table).bind fun values =>
  (initKineticMatrix m.sort N 2 lattice.neighbors J).bind fun mat =>
  (initVector basis.length).bind fun h =>
  simulateT (occupationRow m.shw) (stepVars basis.length dt mat)
    (fun s => (siteOccupation1 (evFunction lattice values) basis conjugateBasis s.2.2 (e.threads s.1) (e.loop1 s.1)).map fun o => (s, o))
    dt tEnd interval head (0, m.work, h)

/-- hubbard_real_1d_kinetic_rk4.cpp:15-39: `main`. -/
noncomputable def mainReal1dKineticRk4 (conv : Conv) (m : Machine) (env : Env) (fs : FS) (args : List Text) : Res (Outcome (Traced Vars ℝ)) :=
  mainWith progReal1dKineticRk4 kindsReal1dKineticRk4 conv env fs args fun a =>
    (asNat kindsReal1dKineticRk4 conv a ['N']).bind fun N =>
    (asNum kindsReal1dKineticRk4 conv a ['J']).bind fun J =>
    (asNum kindsReal1dKineticRk4 conv a ['d', 't']).bind fun dt =>
    (asNum kindsReal1dKineticRk4 conv a ['t', '_', 'e', 'n', 'd']).bind fun tEnd =>
    (asNat kindsReal1dKineticRk4 conv a ['m', 'e', 'a', 's', 'u', 'r', 'e', 'm', 'e', 'n', 't', '_', 'i', 'n', 't', 'e', 'r', 'v', 'a', 'l']).bind fun interval =>
    (asNum kindsReal1dKineticRk4 conv a ['f', 'i', 'l', 'l', 'i', 'n', 'g', '_', 'f', 'a', 'c', 't', 'o', 'r']).bind fun filling =>
    some (real1dKineticRk4T m (header a) N J dt tEnd interval filling)

/-- hubbard_real_1d_rk4_coefficients.cpp:20-28: the types of the options. -/
def kindsReal1dRk4Coefficients : List (Text × Kind) :=
  [(['N'], .nat),
    (['J'], .num),
    (['U'], .num),
    (['d', 't'], .num),
    (['t', '_', 'e', 'n', 'd'], .num),
    (['m', 'e', 'a', 's', 'u', 'r', 'e', 'm', 'e', 'n', 't', '_', 'i', 'n', 't', 'e', 'r', 'v', 'a', 'l'], .nat)]

/-- hubbard_real_1d_rk4_coefficients.cpp:39-91: `Program.real1dRk4Coefficients` with its effects; `head` is the header. -/
noncomputable def real1dRk4CoefficientsT (m : Machine) (head : Text) (N : ℕ) (J : ℝ) (U : ℝ) (dt : ℝ) (tEnd : ℝ) (interval : ℕ) :
    Res (Traced Vars (List ℝ)) :=
  let lattice := Chain.real (K := ℝ) N 1
  let basis := basis3 N
  (RealSpace.initMatrix m.sort N 2 lattice.neighbors J U).bind fun mat =>
  (initVector basis.length).bind fun h =>
  simulateT (coefficientIns m.shw) (stepVars basis.length dt mat)
    (fun s => (Res.val (coefficientRow s.2.2)).map fun o => (s, o)) dt tEnd interval head (0, m.work, h)

/-- hubbard_real_1d_rk4_coefficients.cpp:13-37: `main`. -/
noncomputable def mainReal1dRk4Coefficients (conv : Conv) (m : Machine) (env : Env) (fs : FS) (args : List Text) : Res (Outcome (Traced Vars (List ℝ))) :=
  mainWith progReal1dRk4Coefficients kindsReal1dRk4Coefficients conv env fs args fun a =>
    (asNat kindsReal1dRk4Coefficients conv a ['N']).bind fun N =>
    (asNum kindsReal1dRk4Coefficients conv a ['J']).bind fun J =>
    (asNum kindsReal1dRk4Coefficients conv a ['U']).bind fun U =>
    (asNum kindsReal1dRk4Coefficients conv a ['d', 't']).bind fun dt =>
    (asNum kindsReal1dRk4Coefficients conv a ['t', '_', 'e', 'n', 'd']).bind fun tEnd =>
    (asNat kindsReal1dRk4Coefficients conv a ['m', 'e', 'a', 's', 'u', 'r', 'e', 'm', 'e', 'n', 't', '_', 'i', 'n', 't', 'e', 'r', 'v', 'a', 'l']).bind fun interval =>
    some (real1dRk4CoefficientsT m (header a) N J U dt tEnd interval)

/-- hubbard_real_1d_kinetic_rk4_coefficients.cpp:20-27: the types of the options. -/
def kindsReal1dKineticRk4Coefficients : List (Text × Kind) :=
  [(['N'], .nat),
    (['J'], .num),
    (['d', 't'], .num),
    (['t', '_', 'e', 'n', 'd'], .num),
    (['m', 'e', 'a', 's', 'u', 'r', 'e', 'm', 'e', 'n', 't', '_', 'i', 'n', 't', 'e', 'r', 'v', 'a', 'l'], .nat)]

/-- hubbard_real_1d_kinetic_rk4_coefficients.cpp:37-89: `Program.real1dKineticRk4Coefficients` with its effects; `head` is the header. -/
noncomputable def real1dKineticRk4CoefficientsT (m : Machine) (head : Text) (N : ℕ) (J : ℝ) (dt : ℝ) (tEnd : ℝ) (interval : ℕ) :
    Res (Traced Vars (List ℝ)) :=
  let lattice := Chain.real (K := ℝ) N 1
  let basis := basis1 N
  (initKineticMatrix m.sort N 2 lattice.neighbors J).bind fun mat =>
  (initVector basis.length).bind fun h =>
  simulateT (coefficientIns m.shw) (stepVars basis.length dt mat)
    (fun s => (Res.val (coefficientRow s.2.2)).map fun o => (s, o)) dt tEnd interval head (0, m.work, h)

/-- hubbard_real_1d_kinetic_rk4_coefficients.cpp:13-35: `main`. -/
noncomputable def mainReal1dKineticRk4Coefficients (conv : Conv) (m : Machine) (env : Env) (fs : FS) (args : List Text) : Res (Outcome (Traced Vars (List ℝ))) :=
  mainWith progReal1dKineticRk4Coefficients kindsReal1dKineticRk4Coefficients conv env fs args fun a =>
    (asNat kindsReal1dKineticRk4Coefficients conv a ['N']).bind fun N =>
    (asNum kindsReal1dKineticRk4Coefficients conv a ['J']).bind fun J =>
    (asNum kindsReal1dKineticRk4Coefficients conv a ['d', 't']).bind fun dt =>
    (asNum kindsReal1dKineticRk4Coefficients conv a ['t', '_', 'e', 'n', 'd']).bind fun tEnd =>
    (asNat kindsReal1dKineticRk4Coefficients conv a ['m', 'e', 'a', 's', 'u', 'r', 'e', 'm', 'e', 'n', 't', '_', 'i', 'n', 't', 'e', 'r', 'v', 'a', 'l']).bind fun interval =>
    some (real1dKineticRk4CoefficientsT m (header a) N J dt tEnd interval)

/-- hubbard_real_1d_rk4_jump.cpp:22-31: the types of the options. -/
def kindsReal1dRk4Jump : List (Text × Kind) :=
  [(['N'], .nat),
    (['J'], .num),
    (['U'], .num),
    (['d', 't'], .num),
    (['t', '_', 'e', 'n', 'd'], .num),
    (['m', 'e', 'a', 's', 'u', 'r', 'e', 'm', 'e', 'n', 't', '_', 'i', 'n', 't', 'e', 'r', 'v', 'a', 'l'], .nat),
    (['f', 'i', 'l', 'l', 'i', 'n', 'g', '_', 'f', 'a', 'c', 't', 'o', 'r'], .num)]

/-- hubbard_real_1d_rk4_jump.cpp:43-88: `Program.real1dRk4Jump` with its effects; `head` is the header. -/
noncomputable def real1dRk4JumpT (m : Machine) (head : Text) (N : ℕ) (J : ℝ) (U : ℝ) (dt : ℝ) (tEnd : ℝ) (interval : ℕ) (filling : ℝ) :
    Res (Traced JumpVars ℝ) :=
  let lattice := Chain.real (K := ℝ) N 1
  let basis := basis3 N
  let e := m.jump N
  (evTable1D lattice filling (fermiMomentum1D filling) e.table).bind fun values =>
  (RealSpace.initMatrix m.sort N 2 lattice.neighbors J U).bind fun mat =>
  (initVector basis.length).bind fun h =>
  (jumpCtor N (fun i => fermiMomentum1D filling * lattice.pos i) e.coefficients).bind fun f =>
  simulateT (occupationRow m.shw) (stepJump basis.length dt mat) (measureJump (evFunction lattice values) basis N f e) dt tEnd interval
    head ((0, m.work, h), none)

/-- hubbard_real_1d_rk4_jump.cpp:15-41: `main`. -/
noncomputable def mainReal1dRk4Jump (conv : Conv) (m : Machine) (env : Env) (fs : FS) (args : List Text) : Res (Outcome (Traced JumpVars ℝ)) :=
  mainWith progReal1dRk4Jump kindsReal1dRk4Jump conv env fs args fun a =>
    (asNat kindsReal1dRk4Jump conv a ['N']).bind fun N =>
    (asNum kindsReal1dRk4Jump conv a ['J']).bind fun J =>
    (asNum kindsReal1dRk4Jump conv a ['U']).bind fun U =>
    (asNum kindsReal1dRk4Jump conv a ['d', 't']).bind fun dt =>
    (asNum kindsReal1dRk4Jump conv a ['t', '_', 'e', 'n', 'd']).bind fun tEnd =>
    (asNat kindsReal1dRk4Jump conv a ['m', 'e', 'a', 's', 'u', 'r', 'e', 'm', 'e', 'n', 't', '_', 'i', 'n', 't', 'e', 'r', 'v', 'a', 'l']).bind fun interval =>
    (asNum kindsReal1dRk4Jump conv a ['f', 'i', 'l', 'l', 'i', 'n', 'g', '_', 'f', 'a', 'c', 't', 'o', 'r']).bind fun filling =>
    some (real1dRk4JumpT m (header a) N J U dt tEnd interval filling)

/-- hubbard_real_2d_rk4_jump.cpp:22-33: the types of the options. -/
def kindsReal2dRk4Jump : List (Text × Kind) :=
  [(['N', 'x'], .nat),
    (['N', 'y'], .nat),
    (['J'], .num),
    (['U'], .num),
    (['d', 't'], .num),
    (['t', '_', 'e', 'n', 'd'], .num),
    (['m', 'e', 'a', 's', 'u', 'r', 'e', 'm', 'e', 'n', 't', '_', 'i', 'n', 't', 'e', 'r', 'v', 'a', 'l'], .nat),
    (['k', 'x'], .num),
    (['k', 'y'], .num)]

/-- hubbard_real_2d_rk4_jump.cpp:47-101: `Program.real2dRk4Jump` with its effects; `head` is the header. -/
noncomputable def real2dRk4JumpT (m : Machine) (head : Text) (Nx : ℕ) (Ny : ℕ) (J : ℝ) (U : ℝ) (dt : ℝ) (tEnd : ℝ) (interval : ℕ) (kx : ℝ) (ky : ℝ) :
    Res (Traced JumpVars ℝ) :=
  let lattice := Square.real (K := ℝ) Nx Ny 1 1
  let basis := basis3 lattice.size
  let e := m.jump2 Nx Ny
  (evTable2D lattice e.table2).bind fun values =>
  (RealSpace.initMatrix m.sort lattice.size 4 lattice.neighbors J U).bind fun mat =>
  (jumpCtor lattice.size (fun i => Hubbard.dot2 (kx, ky) (lattice.pos i)) e.coefficients).bind fun f =>
  (initVector basis.length).bind fun h =>
  simulateT (occupationRow m.shw) (stepJump basis.length dt mat) (measureJump (evFunction2D lattice values) basis lattice.size f e) dt
    tEnd interval head ((0, m.work, h), none)

/-- hubbard_real_2d_rk4_jump.cpp:15-45: `main`. -/
noncomputable def mainReal2dRk4Jump (conv : Conv) (m : Machine) (env : Env) (fs : FS) (args : List Text) : Res (Outcome (Traced JumpVars ℝ)) :=
  mainWith progReal2dRk4Jump kindsReal2dRk4Jump conv env fs args fun a =>
    (asNat kindsReal2dRk4Jump conv a ['N', 'x']).bind fun Nx =>
    (asNat kindsReal2dRk4Jump conv a ['N', 'y']).bind fun Ny =>
    (asNum kindsReal2dRk4Jump conv a ['J']).bind fun J =>
    (asNum kindsReal2dRk4Jump conv a ['U']).bind fun U =>
    (asNum kindsReal2dRk4Jump conv a ['d', 't']).bind fun dt =>
    (asNum kindsReal2dRk4Jump conv a ['t', '_', 'e', 'n', 'd']).bind fun tEnd =>
    (asNat kindsReal2dRk4Jump conv a ['m', 'e', 'a', 's', 'u', 'r', 'e', 'm', 'e', 'n', 't', '_', 'i', 'n', 't', 'e', 'r', 'v', 'a', 'l']).bind fun interval =>
    (asNum kindsReal2dRk4Jump conv a ['k', 'x']).bind fun kx =>
    (asNum kindsReal2dRk4Jump conv a ['k', 'y']).bind fun ky =>
    some (real2dRk4JumpT m (header a) Nx Ny J U dt tEnd interval kx ky)

/-- hubbard_momentum_1d_rk4.cpp:19-27: the types of the options. -/
def kindsMomentum1dRk4 : List (Text × Kind) :=
  [(['N'], .nat),
    (['J'], .num),
    (['U'], .num),
    (['d', 't'], .num),
    (['t', '_', 'e', 'n', 'd'], .num),
    (['m', 'e', 'a', 's', 'u', 'r', 'e', 'm', 'e', 'n', 't', '_', 'i', 'n', 't', 'e', 'r', 'v', 'a', 'l'], .num)]

/-- hubbard_momentum_1d_rk4.cpp:12-37: `main`. The result is what is written to the standard output; the
matrix file and `last_measurement` are not modelled. `t_end` and `measurement_interval` are read and not used. -/
noncomputable def mainMomentum1dRk4 (conv : Conv) (m : Machine) (env : Env) (fs : FS) (args : List Text) : Res (Outcome (ℝ × ℝ)) :=
  mainWith progMomentum1dRk4 kindsMomentum1dRk4 conv env fs args fun a =>
    (asNat kindsMomentum1dRk4 conv a ['N']).bind fun N =>
    (asNum kindsMomentum1dRk4 conv a ['J']).bind fun J =>
    (asNum kindsMomentum1dRk4 conv a ['U']).bind fun U =>
    (asNum kindsMomentum1dRk4 conv a ['d', 't']).bind fun dt =>
    (asNum kindsMomentum1dRk4 conv a ['t', '_', 'e', 'n', 'd']).bind fun _tEnd =>
    (asNum kindsMomentum1dRk4 conv a ['m', 'e', 'a', 's', 'u', 'r', 'e', 'm', 'e', 'n', 't', '_', 'i', 'n', 't', 'e', 'r', 'v', 'a', 'l']).bind fun _interval =>
    some (momentum1dRk4 (m.exec N).conjugation (m.exec N).table m.work N J U dt)

end Ieompp.Main
