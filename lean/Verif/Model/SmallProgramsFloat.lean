import Verif.Model.SmallPrograms
import Verif.Model.FermiFloat
import Verif.Model.ProgramFloat

/-!
# The small programs in floating point arithmetic

`src/hubbard/hubbard_dispersion_1d.cpp`, `hubbard_trivial.cpp` and `hubbard_real_1d_kinetic_theory.cpp` again, with every operation on
`double` rounded by `fl`. `std::cos`, `std::sin` and `boost::math::cyl_bessel_j` are arbitrary functions. Overflow, underflow, infinities and
NaN are not modelled.
-/

set_option autoImplicit false

namespace Ieompp.Program

open MomentumSpace (vecAt)
open RealSpace (Event runLoop addC mulC normF)

section
variable (fl : ℝ → ℝ)

/-- hubbard_dispersion_1d.cpp:8-19; compare `dispersion1d`. `p` is `Pi<double>::value` (constants.hpp:25-26). -/
noncomputable def dispersion1dF (cosF : ℝ → ℝ) (p : ℝ) (energies : List ℕ) (N : ℕ) : Res (List (ℝ × ℝ)) :=
  let brillouinZone := Chain.momentumF fl p N
  (Hubbard.chainDispersionF fl cosF p N 1 energies).bind fun values =>
  MomentumSpace.collect ((List.range brillouinZone.size).map fun site =>
    (Hubbard.dispersionAt values site).map fun e => (brillouinZone.posF fl site, e))

/-- `ev += x` for a complex `ev` and a `double` `x` (hubbard_trivial.cpp:19, 21): only the real part changes. -/
def addRealF (z : ℂ) (x : ℝ) : ℂ := ⟨fl (z.re + x), z.im⟩

/-- hubbard_trivial.cpp:12, 16-35: the body of the double loop of `particle_number`: the value of `ev` afterwards; compare `trivialTerm`. -/
noncomputable def trivialTermF (h : List ℂ) (ev : ℂ) (i j : ℕ) : Res ℂ :=
  (vecAt h i).bind fun hi => (vecAt h j).bind fun hj =>
  let piInv := fl (1 / fl Real.pi)
  .val (if i = j then
      if i < 3 then addRealF fl ev (fl (normF fl hi * 0.5)) else addRealF fl ev (fl (normF fl hi * 0.25))
    else if i < 3 ∧ j < 3 then addC fl ev (ODE.scaleC fl piInv (mulC fl hi hj))
    else if i = 0 ∨ j = 0 then addC fl ev (ODE.scaleC fl 0.25 (mulC fl hi hj))
    else addC fl ev (ODE.scaleC fl piInv (ODE.scaleC fl 0.5 (mulC fl hi hj))))

/-- hubbard_trivial.cpp:10-38: `particle_number`; compare `trivialParticleNumber`. -/
noncomputable def trivialParticleNumberF (h : List ℂ) : Res ℂ :=
  ((List.range 4).flatMap fun i => (List.range 4).map fun j => (i, j)).foldl
    (fun (acc : Res ℂ) p => acc.bind fun ev => trivialTermF fl h ev p.1 p.2) (.val 0)

/-- hubbard_trivial.cpp:40-50: `write_state`; compare `trivialRow`. -/
noncomputable def trivialRowF (t : ℝ) (h : List ℂ) : Res (List ℝ) :=
  (trivialParticleNumberF fl h).bind fun n =>
  (vecAt h 0).bind fun h0 => (vecAt h 1).bind fun h1 => (vecAt h 2).bind fun h2 => (vecAt h 3).bind fun h3 =>
  .val [t, h0.re, h0.im, h1.re, h1.im, h2.re, h2.im, h3.re, h3.im, n.re, n.im]

/-- hubbard_trivial.cpp:59-64: the matrix after the multiplication with `1i`. `U / 2.` is rounded, `-J` is exact. -/
noncomputable def trivialMatrixF (J U : ℝ) (i j : ℕ) : ℂ :=
  mulC fl (trivialMatrix J (2 * fl (U / 2)) i j : ℂ) Complex.I

/-- hubbard_trivial.cpp:71-75; compare `trivialLoop`. Simplification: the four products of a row of the (dense) matrix and the vector are
added one after the other; `cols` gives the order. -/
noncomputable def trivialLoopF (cols : ℕ → List ℕ) (J U dt : ℝ) : ℕ → ℕ → ODE.Work ℂ → List ℂ → Res (List (List ℝ))
  | 0, i, _, h => (trivialRowF fl (fl (i * dt)) h).map fun r => [r]
  | left + 1, i, w, h =>
    (trivialRowF fl (fl (i * dt)) h).bind fun r =>
    (ODE.stepMatrixF fl 4 dt (trivialMatrixF fl J U) cols w h).bind fun s =>
    (trivialLoopF cols J U dt left (i + 1) s.1 s.2).map fun rows => r :: rows

/-- hubbard_trivial.cpp:52-80: `main`; compare `trivial`. -/
noncomputable def trivialF (cols : ℕ → List ℕ) (w : ODE.Work ℂ) (J U dt : ℝ) (steps : ℕ) : Res (List (List ℝ)) :=
  (initVector 4).bind fun h => trivialLoopF fl cols J U dt steps 0 w h

/-- hubbard_real_1d_kinetic_theory.cpp:50-57: `h_vals[i][step]` and `h_vals_conj[i][step]`, where `bess` is the value of the Bessel function
at `2 * step * dt`: a `double` times a complex number. Compare `theoryCoefficient` and `theoryCoefficientConj`. -/
noncomputable def theoryCoefficientF (besselF : ℕ → ℝ → ℝ) (c : Chain ℝ) (dt : ℝ) (i step : ℕ) : ℂ :=
  let j := c.latticeDistance 0 i
  ODE.scaleC fl (besselF j (fl ((2 * step : ℕ) * dt))) (minusIPower j)

/-- hubbard_real_1d_kinetic_theory.cpp:57; see `theoryCoefficientF`. -/
noncomputable def theoryCoefficientConjF (besselF : ℕ → ℝ → ℝ) (c : Chain ℝ) (dt : ℝ) (i step : ℕ) : ℂ :=
  let j := c.latticeDistance 0 i
  ODE.scaleC fl (besselF j (fl ((2 * step : ℕ) * dt))) ((starRingEnd ℂ) (minusIPower j))

/-- hubbard_real_1d_kinetic_theory.cpp:61-90: the complex number written for the step number `step`; compare `theoryValue`. -/
noncomputable def theoryValueF (sinF : ℝ → ℝ) (besselF : ℕ → ℝ → ℝ) (c : Chain ℝ) (dt : ℝ) (sched : List ℕ) (threads : ℕ) (s : List Event)
    (step : ℕ) : Res ℂ :=
  (RealSpace.evTable1DF fl sinF c 1 0.5 sched).bind fun values =>
  (RealSpace.runLoopF fl (fun i j => (RealSpace.evLookup1D c values i j).bind fun ev =>
      .val (ODE.scaleC fl ev (mulC fl (theoryCoefficientF fl besselF c dt i step) (theoryCoefficientConjF fl besselF c dt j step)))) s
    (List.replicate threads 0)).map fun results => results.foldl (addC fl) 0

/-- hubbard_real_1d_kinetic_theory.cpp:83-90; compare `theoryFile`. -/
noncomputable def theoryFileF (sinF : ℝ → ℝ) (besselF : ℕ → ℝ → ℝ) (dt : ℝ) (sched : List ℕ) (threads : ℕ) (s : List Event) :
    ℕ → Res (List (ℝ × ℝ × ℝ))
  | 0 => .val []
  | step + 1 => (theoryFileF sinF besselF dt sched threads s step).bind fun rows =>
    (theoryValueF fl sinF besselF (Chain.realF fl theorySites 1) dt sched threads s step).map fun val =>
      rows ++ [(fl (step * dt), val.re, val.im)]

/-- hubbard_real_1d_kinetic_theory.cpp:36-92: `main`; compare `kineticTheory`. The constant `0.01` is rounded. -/
noncomputable def kineticTheoryF (sinF : ℝ → ℝ) (besselF : ℕ → ℝ → ℝ) (sched : List ℕ) (threads : ℕ) (s : List Event) :
    Res (List (ℝ × ℝ × ℝ)) :=
  theoryFileF fl sinF besselF (fl theoryStep) sched threads s theorySteps

end

end Ieompp.Program
