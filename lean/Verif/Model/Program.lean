import Verif.Model.Simulation
import Verif.Model.RK4
import Verif.Model.Sparse
import Verif.Model.KineticTheory

/-!
# Model of the programs `hubbard_real_1d_rk4` and `hubbard_real_1d_kinetic_rk4`

`src/hubbard/hubbard_real_1d_rk4.cpp:15-94`, `src/hubbard/hubbard_real_1d_kinetic_rk4.cpp:15-90`, with the helpers of
`src/hubbard/real_space/*.hpp` and `src/hubbard/include/{vector,rk4,common}.hpp`, as compositions of the models of
the library functions. The command line, the header of the output file and logging are not modelled; the outcome is the list
of the rows `(t, obs)` of the output file. Exact arithmetic.
-/

set_option autoImplicit false

namespace Ieompp.Program

open RealSpace

/-- How the parallel parts of a run happen to be executed: the loop of `get_conjugate`, the constructor of the table of
expectation values, and, for the measurement after `k` steps, the number of threads and the executions of the loops.
hubbard_real_1d_rk4.cpp:45-46, 57, 69, 85. -/
structure Execution where
  conjugation : List ℕ
  table : List ℕ
  threads : ℕ → ℕ
  loop1 : ℕ → List Event
  loop2 : ℕ → List Event
  loop3 : ℕ → List Event

/-- real_space/site_occupation.hpp:15-18, the lambda handed to the site occupation: `ev(a.index1, b.index1)`. Where the
lookup is undefined (outside the lattice) the value 0 is returned instead; the theorems state that this is not the case for
the sites of the lattice. -/
noncomputable def evFunction (c : Chain ℝ) (values : List ℝ) (a b : HOp) : ℝ :=
  match evLookup1D c values a.index.1 b.index.1 with
  | .val x => x
  | _ => 0

/-- The variables of the integration: the number of steps done (used only to look up how the next measurement is
executed), the work vectors of the integrator, and `h`. hubbard_real_1d_rk4.cpp:50, 54. -/
abbrev Vars := ℕ × ODE.Work ℂ × List ℂ

/-- real_space/matrix.hpp:13-19, 31-35: the (real) elements are stored as complex numbers and multiplied with `1i`. -/
noncomputable def timesI (m : Sparse ℝ) (i j : ℕ) : ℂ := Complex.I * (m.get i j : ℂ)

/-- `integrator.step(M, h)` (hubbard_real_1d_rk4.cpp:78). -/
noncomputable def stepVars (n : ℕ) (dt : ℝ) (m : Sparse ℝ) (s : Vars) : Res Vars :=
  (ODE.stepMatrix n (dt : ℂ) (timesI m) s.2.1 s.2.2).map fun r => (s.1 + 1, r.1, r.2)

/-- hubbard_real_1d_rk4.cpp:42-91. `w` are the static work vectors of the integrator at the start of the program. The member
`exploit_inversion_symmetry` has its default value `true` (site_occupation.hpp:83; real_space/site_occupation.hpp:15-18
initialises only the first three members). -/
noncomputable def real1dRk4 (sort : List (Triplet ℝ) → List (Triplet ℝ)) (e : Execution) (w : ODE.Work ℂ) (N : ℕ)
    (J U dt tEnd : ℝ) (interval : ℕ) (filling : ℝ) : Res (Sim.State Vars ℝ) :=
  let lattice := Chain.real (K := ℝ) N 1
  let basis := basis3 N
  let conjugateBasis := getConjugate e.conjugation basis
  (evTable1D lattice filling (fermiMomentum1D filling) e.table).bind fun values =>
  (initMatrix sort N 2 lattice.neighbors J U).bind fun m =>
  (initVector basis.length).bind fun h =>
  Sim.simulate (stepVars basis.length dt m)
    (fun s => siteOccupation3 (evFunction lattice values) basis conjugateBasis s.2.2 true (e.threads s.1) (e.loop1 s.1)
      (e.loop2 s.1) (e.loop3 s.1))
    dt tEnd interval (0, w, h)

/-- hubbard_real_1d_kinetic_rk4.cpp:40-87. -/
noncomputable def real1dKineticRk4 (sort : List (Triplet ℝ) → List (Triplet ℝ)) (e : Execution) (w : ODE.Work ℂ) (N : ℕ)
    (J dt tEnd : ℝ) (interval : ℕ) (filling : ℝ) : Res (Sim.State Vars ℝ) :=
  let lattice := Chain.real (K := ℝ) N 1
  let basis := basis1 N
  let conjugateBasis := getConjugate e.conjugation basis
  (evTable1D lattice filling (fermiMomentum1D filling) e.table).bind fun values =>
  (initKineticMatrix sort N 2 lattice.neighbors J).bind fun m =>
  (initVector basis.length).bind fun h =>
  Sim.simulate (stepVars basis.length dt m)
    (fun s => siteOccupation1 (evFunction lattice values) basis conjugateBasis s.2.2 (e.threads s.1) (e.loop1 s.1))
    dt tEnd interval (0, w, h)

end Ieompp.Program
