import Verif.Model.Program
import Verif.Model.ParticleNumber
import Verif.Model.ExpectationValue

/-!
# Model of the program `hubbard_momentum_1d_rk4`

`src/hubbard/hubbard_momentum_1d_rk4.cpp:12-70` with the helpers of `src/hubbard/momentum_space/*.hpp` and
`src/hubbard/include/{vector,rk4}.hpp`. The command line, logging and the file with the matrix are not modelled; the outcome
is the pair of the numbers written to the standard output. Exact arithmetic.
-/

set_option autoImplicit false

namespace Ieompp.Program

open MomentumSpace

/-- dispersion.hpp:53-56: the function object `dispersion` as it is used by the matrix, the table of expectation values and
the Fermi sea. Where the lookup is undefined the value 0 is returned instead; for the momenta of the basis it is defined. -/
noncomputable def dispersionFunction (values : List ℝ) (i : ℕ) : ℝ :=
  match Hubbard.dispersionAt values i with
  | .val x => x
  | _ => 0

/-- hubbard_momentum_1d_rk4.cpp:40-67 (and momentum_space.hpp:9-23, liouvillian.hpp:22-29). `conjugation` and `energies` are
the orders in which the parallel loops of `get_conjugate` and of the constructor of the dispersion are executed; `w` are the
static work vectors of the integrator. The eight calls of `integrator.step(M, h)` are `integrate … 8`. -/
noncomputable def momentum1dRk4 (conjugation energies : List ℕ) (w : ODE.Work ℂ) (N : ℕ) (J U dt : ℝ) : Res (ℝ × ℝ) :=
  let kIdx := N / 2
  let brillouinZone := Chain.momentum Real.pi N
  let lattice := Chain.real (K := ℝ) N 1
  (basis3 kIdx brillouinZone).bind fun basis =>
  let conjugateBasis := RealSpace.getConjugate conjugation basis
  (Hubbard.dispersion (fun a b => a * b) brillouinZone.size brillouinZone.pos (Hubbard.chainVectors lattice) J
    energies).bind fun values =>
  (initMatrix basis brillouinZone.size (dispersionFunction values) U lattice.size).bind fun m =>
  (initVector basis.length).bind fun h =>
  (nonVanishing basis conjugateBasis (dispersionFunction values) 0).bind fun table =>
  (particleNumber h table).bind fun first =>
  (ODE.integrate basis.length (dt : ℂ) (timesI m) 8 w h).bind fun r =>
  (particleNumber r.2 table).map fun second => (first, second)

end Ieompp.Program
