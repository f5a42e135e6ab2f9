import Verif.Model.Binary64Momentum
import Verif.Model.SmallProgramsFloat

/-!
# The small programs with underflow and overflow

`src/hubbard/hubbard_dispersion_1d.cpp`, `hubbard_trivial.cpp` and `hubbard_real_1d_kinetic_theory.cpp` once more, with the rounding `rnd : ℝ → Res ℝ` of
`Verif.Model.Binary64`: the outcome `ub` means that an infinity or a NaN came up. `std::cos`, `std::sin` and `boost::math::cyl_bessel_j` are arbitrary functions.
Integers are converted to `double` by `rnd`. Literals such as `0.5` and `0.25` are exact.
-/

set_option autoImplicit false

namespace Ieompp.IEEE

open MomentumSpace (vecAt)
open RealSpace

section
variable (rnd : ℝ → Res ℝ)

/-- hubbard_dispersion_1d.cpp:8-19; compare `Program.dispersion1dF`. `p` is `Pi<double>::value` (constants.hpp:25-26). -/
noncomputable def dispersion1dR (cosF : ℝ → ℝ) (p : ℝ) (energies : List ℕ) (N : ℕ) : Res (List (ℝ × ℝ)) :=
  (momentumR rnd p N).bind fun brillouinZone =>
  (chainDispersionR rnd cosF brillouinZone 1 energies).bind fun values =>
  MomentumSpace.collect ((List.range brillouinZone.size).map fun site =>
    (coordinateR rnd brillouinZone.xMin brillouinZone.dx site).bind fun k => (Hubbard.dispersionAt values site).map fun e => (k, e))

/-- hubbard_trivial.cpp:12, 16-35: the body of the double loop of `particle_number`; compare `Program.trivialTermF`. -/
noncomputable def trivialTermR (h : List ℂ) (ev : ℂ) (i j : ℕ) : Res ℂ :=
  (rnd Real.pi).bind fun pi => (divR rnd 1 pi).bind fun piInv =>
  (vecAt h i).bind fun hi => (vecAt h j).bind fun hj =>
  if i = j then
    if i < 3 then (normR rnd hi).bind fun p => (rnd (p * 0.5)).bind fun x => addRealR rnd ev x
    else (normR rnd hi).bind fun p => (rnd (p * 0.25)).bind fun x => addRealR rnd ev x
  else if i < 3 ∧ j < 3 then (mulR rnd hi hj).bind fun z => (scaleR rnd piInv z).bind fun z => addR rnd ev z
  else if i = 0 ∨ j = 0 then (mulR rnd hi hj).bind fun z => (scaleR rnd 0.25 z).bind fun z => addR rnd ev z
  else (mulR rnd hi hj).bind fun z => (scaleR rnd 0.5 z).bind fun z => (scaleR rnd piInv z).bind fun z => addR rnd ev z

/-- hubbard_trivial.cpp:10-38: `particle_number`; compare `Program.trivialParticleNumberF`. -/
noncomputable def trivialParticleNumberR (h : List ℂ) : Res ℂ :=
  ((List.range 4).flatMap fun i => (List.range 4).map fun j => (i, j)).foldl
    (fun (acc : Res ℂ) p => acc.bind fun ev => trivialTermR rnd h ev p.1 p.2) (.val 0)

/-- hubbard_trivial.cpp:40-50: `write_state`; compare `Program.trivialRowF`. -/
noncomputable def trivialRowR (t : ℝ) (h : List ℂ) : Res (List ℝ) :=
  (trivialParticleNumberR rnd h).bind fun n =>
  (vecAt h 0).bind fun h0 => (vecAt h 1).bind fun h1 => (vecAt h 2).bind fun h2 => (vecAt h 3).bind fun h3 =>
  .val [t, h0.re, h0.im, h1.re, h1.im, h2.re, h2.im, h3.re, h3.im, n.re, n.im]

/-- hubbard_trivial.cpp:59-64: the matrix after the multiplication with `1i`, row after row; compare `Program.trivialMatrixF`. -/
noncomputable def trivialMatrixR (J U : ℝ) : Res (List ℂ) :=
  (rnd (U / 2)).bind fun half =>
  mapR (fun q : ℕ × ℕ => mulR rnd (Program.trivialMatrix J (2 * half) q.1 q.2 : ℂ) Complex.I)
    ((List.range 4).flatMap fun i => (List.range 4).map fun j => (i, j))

/-- hubbard_trivial.cpp:71-75; compare `Program.trivialLoopF`. Simplification: the four products of a row of the (dense) matrix and the vector are
added one after the other; `cols` gives the order. -/
noncomputable def trivialLoopR (cols : ℕ → List ℕ) (m : List ℂ) (dt : ℝ) : ℕ → ℕ → ODE.Work ℂ → List ℂ → Res (List (List ℝ))
  | 0, i, _, h => (rnd i).bind fun x => (rnd (x * dt)).bind fun t => (trivialRowR rnd t h).map fun r => [r]
  | left + 1, i, w, h =>
    (rnd i).bind fun x => (rnd (x * dt)).bind fun t => (trivialRowR rnd t h).bind fun r =>
    (stepMatrixR rnd 4 dt (fun i j => m.getD (4 * i + j) 0) cols w h).bind fun s =>
    (trivialLoopR cols m dt left (i + 1) s.1 s.2).map fun rows => r :: rows

/-- hubbard_trivial.cpp:52-80: `main`; compare `Program.trivialF`. -/
noncomputable def trivialR (cols : ℕ → List ℕ) (w : ODE.Work ℂ) (J U dt : ℝ) (steps : ℕ) : Res (List (List ℝ)) :=
  (trivialMatrixR rnd J U).bind fun m => (Program.initVector 4).bind fun h => trivialLoopR rnd cols m dt steps 0 w h

/-- hubbard_real_1d_kinetic_theory.cpp:50-57: `bess` times the power `prefactor` of the imaginary unit (or its conjugate); compare
`Program.theoryCoefficientF` and `Program.theoryCoefficientConjF`. -/
noncomputable def theoryCoefficientR (besselF : ℕ → ℝ → ℝ) (c : Chain ℝ) (dt : ℝ) (conjugate : Bool) (i step : ℕ) : Res ℂ :=
  let j := c.latticeDistance 0 i
  let prefactor := Program.minusIPower j
  (rnd (2 * step : ℕ)).bind fun x => (rnd (x * dt)).bind fun x =>
  scaleR rnd (besselF j x) (if conjugate then (starRingEnd ℂ) prefactor else prefactor)

/-- hubbard_real_1d_kinetic_theory.cpp:61-90: the complex number written for the step number `step`; compare `Program.theoryValueF`. -/
noncomputable def theoryValueR (sinF : ℝ → ℝ) (besselF : ℕ → ℝ → ℝ) (c : Chain ℝ) (dt : ℝ) (sched : List ℕ) (threads : ℕ) (s : List Event)
    (step : ℕ) : Res ℂ :=
  (evTable1DR rnd sinF c 1 0.5 sched).bind fun values =>
  (runLoopR rnd (fun i j => (evLookup1D c values i j).bind fun ev =>
      (theoryCoefficientR rnd besselF c dt false i step).bind fun a => (theoryCoefficientR rnd besselF c dt true j step).bind fun b =>
      (mulR rnd a b).bind fun z => scaleR rnd ev z) s
    (List.replicate threads 0)).bind fun results => accumulateR rnd results

/-- hubbard_real_1d_kinetic_theory.cpp:83-90; compare `Program.theoryFileF`. -/
noncomputable def theoryFileR (sinF : ℝ → ℝ) (besselF : ℕ → ℝ → ℝ) (dt : ℝ) (sched : List ℕ) (threads : ℕ) (s : List Event) :
    ℕ → Res (List (ℝ × ℝ × ℝ))
  | 0 => .val []
  | step + 1 => (theoryFileR sinF besselF dt sched threads s step).bind fun rows =>
    (theoryValueR rnd sinF besselF (Chain.real (K := ℝ) Program.theorySites 1) dt sched threads s step).bind fun val =>
    (rnd step).bind fun x => (rnd (x * dt)).bind fun t => .val (rows ++ [(t, val.re, val.im)])

/-- hubbard_real_1d_kinetic_theory.cpp:36-92: `main`; compare `Program.kineticTheoryF`. The constant `0.01` is rounded. -/
noncomputable def kineticTheoryR (sinF : ℝ → ℝ) (besselF : ℕ → ℝ → ℝ) (sched : List ℕ) (threads : ℕ) (s : List Event) :
    Res (List (ℝ × ℝ × ℝ)) :=
  (rnd Program.theoryStep).bind fun dt => theoryFileR rnd sinF besselF dt sched threads s Program.theorySteps

end

end Ieompp.IEEE
