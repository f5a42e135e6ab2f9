import Verif.Model.ExpectationValue
import Verif.Model.SiteOccupation

/-!
# Model of `src/hubbard/include/vector.hpp` and `src/hubbard/hubbard_real_1d_kinetic_theory.cpp`

Exact arithmetic. `boost::math::cyl_bessel_j` is a parameter `bessel`.
-/

set_option autoImplicit false

namespace Ieompp.Program

open RealSpace (assignAt Event runLoop)

/-- vector.hpp:9-18, `init_vector`: a vector of the size of the basis, cleared, with `vec[0] = 1`. -/
noncomputable def initVector (size : ℕ) : Res (List ℂ) := assignAt (List.replicate size 0) 0 1

/-- hubbard_real_1d_kinetic_theory.cpp:22-34, `minus_i_power`. -/
noncomputable def minusIPower (power : ℕ) : ℂ :=
  if power % 4 = 0 then 1 else if power % 4 = 1 then -Complex.I else if power % 4 = 2 then -1 else Complex.I

/-- hubbard_real_1d_kinetic_theory.cpp:52-56: `h_vals[i][step]` at the time `t = step * dt`. -/
noncomputable def theoryCoefficient (bessel : ℕ → ℝ → ℝ) (c : Chain ℝ) (i : ℕ) (t : ℝ) : ℂ :=
  let j := c.latticeDistance 0 i
  let prefactor := minusIPower j
  (bessel j (2 * t) : ℂ) * prefactor

/-- hubbard_real_1d_kinetic_theory.cpp:57: `h_vals_conj[i][step]`. -/
noncomputable def theoryCoefficientConj (bessel : ℕ → ℝ → ℝ) (c : Chain ℝ) (i : ℕ) (t : ℝ) : ℂ :=
  let j := c.latticeDistance 0 i
  let prefactor := minusIPower j
  (bessel j (2 * t) : ℂ) * (starRingEnd ℂ) prefactor

/-- hubbard_real_1d_kinetic_theory.cpp:61-90: the complex number written for the time `t`. The object
`expectation_value(lattice, 1., 0.5)` is constructed with the schedule `sched`, the double loop is executed by
`threads` threads as given by `s`. -/
noncomputable def theoryValue (bessel : ℕ → ℝ → ℝ) (c : Chain ℝ) (sched : List ℕ) (threads : ℕ) (s : List Event) (t : ℝ) :
    Res ℂ :=
  (RealSpace.evTable1D c 1 0.5 sched).bind fun values =>
  (runLoop (fun i j => (RealSpace.evLookup1D c values i j).bind fun ev =>
      .val ((ev : ℂ) * (theoryCoefficient bessel c i t * theoryCoefficientConj bessel c j t))) s
    (List.replicate threads 0)).map List.sum

/-- hubbard_real_1d_kinetic_theory.cpp:38: the number of sites. -/
def theorySites : ℕ := 128

/-- hubbard_real_1d_kinetic_theory.cpp:43: the time step. -/
noncomputable def theoryStep : ℝ := 0.01

/-- hubbard_real_1d_kinetic_theory.cpp:44: the number of steps. -/
def theorySteps : ℕ := 10000

/-- hubbard_real_1d_kinetic_theory.cpp:83-90: the rows of the file `theory.txt`: the time, the real and the imaginary part.
The executions of the two loops are those of `theoryValue`; the same for all steps, since the loop over the steps is inside. -/
noncomputable def theoryFile (bessel : ℕ → ℝ → ℝ) (sched : List ℕ) (threads : ℕ) (s : List Event) : ℕ → Res (List (ℝ × ℝ × ℝ))
  | 0 => .val []
  | step + 1 => (theoryFile bessel sched threads s step).bind fun rows =>
    (theoryValue bessel (Chain.real theorySites 1) sched threads s ((step : ℝ) * theoryStep)).map fun val =>
      rows ++ [((step : ℝ) * theoryStep, val.re, val.im)]

/-- hubbard_real_1d_kinetic_theory.cpp:36-92: `main`. -/
noncomputable def kineticTheory (bessel : ℕ → ℝ → ℝ) (sched : List ℕ) (threads : ℕ) (s : List Event) :
    Res (List (ℝ × ℝ × ℝ)) :=
  theoryFile bessel sched threads s theorySteps

end Ieompp.Program
