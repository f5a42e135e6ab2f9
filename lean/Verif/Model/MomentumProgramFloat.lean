import Verif.Model.MomentumProgram
import Verif.Model.SmallProgramsFloat

/-!
# The program `hubbard_momentum_1d_rk4` in floating point arithmetic

`src/hubbard/hubbard_momentum_1d_rk4.cpp:12-70` again, with every operation on `double` rounded by `fl`. `std::cos` is an arbitrary function.
Overflow, underflow, infinities and NaN are not modelled. The values of the table of expectation values are small integers and exact.
-/

set_option autoImplicit false

namespace Ieompp.MomentumSpace

open RealSpace (addC normF multiplyWithConjugateF)

section
variable (fl : ℝ → ℝ)

/-- hubbard_momentum_space/blaze_sparse.hpp:38-45, 48-59 with rounding; compare `rowTriplets`. -/
noncomputable def rowTripletsF (basis : List HMonomial) (eps : ℕ → ℝ) (U : ℝ) (N row : ℕ) : Option (List (Triplet ℝ)) :=
  let interaction1 := fl (U / 2)
  let interaction2 := fl (U / fl (2 * (N : ℝ)))
  if row = 0 then
    basis[0]?.bind fun m => m[0]?.map fun op =>
      ⟨0, 0, fl (eps op.index.1 + interaction1)⟩ ::
        (List.range' 1 (basis.length - 1)).map (fun i => ⟨0, i, interaction2⟩)
  else
    (RealSpace.basisSites basis row).map fun s =>
      [⟨row, 0, interaction2⟩, ⟨row, row, fl (fl (fl (eps s.1 + eps s.2.1) - eps s.2.2) + interaction1)⟩]

/-- hubbard_momentum_space/blaze_sparse.hpp:22-62: `init_matrix` with rounding; compare `initMatrix`. -/
noncomputable def initMatrixF (basis : List HMonomial) (Nb : ℕ) (eps : ℕ → ℝ) (U : ℝ) (N : ℕ) : Res (Sparse ℝ) :=
  Sparse.fillRows (rowTripletsF fl basis eps U N) (List.range basis.length)
    (Sparse.init basis.length (numberOfMatrixElements Nb))

/-- hubbard_momentum_space/particle_number.hpp:45-55: one round of the loop of `operator()` with rounding; compare `particleStep`. -/
noncomputable def particleStepF (vec : List ℂ) (result : ℂ) (c : Contribution ℝ) : Res ℂ :=
  if c.left = c.right then
    (vecAt vec c.left).bind fun l => .val (Program.addRealF fl result (fl (normF fl l * c.value)))
  else
    (vecAt vec c.left).bind fun l => (vecAt vec c.right).bind fun r =>
      .val (addC fl result (ODE.scaleC fl c.value (multiplyWithConjugateF fl l r)))

/-- hubbard_momentum_space/particle_number.hpp:39-60: `operator()` with rounding; compare `particleNumber`. -/
noncomputable def particleNumberF (vec : List ℂ) (table : List (Contribution ℝ)) : Res ℝ :=
  (table.foldl (fun (acc : Res ℂ) c => acc.bind fun r => particleStepF fl vec r c) (.val 0)).map Complex.re

end

end Ieompp.MomentumSpace

namespace Ieompp.Program

open MomentumSpace

/-- hubbard_momentum_1d_rk4.cpp:40-67 (and momentum_space.hpp:9-23, liouvillian.hpp:22-29) with rounding; compare `momentum1dRk4`. `p` is
`Pi<double>::value` (constants.hpp:25-26). -/
noncomputable def momentum1dRk4F (fl cosF : ℝ → ℝ) (p : ℝ) (conjugation energies : List ℕ) (w : ODE.Work ℂ) (N : ℕ) (J U dt : ℝ) :
    Res (ℝ × ℝ) :=
  let kIdx := N / 2
  let brillouinZone := Chain.momentumF fl p N
  let lattice := Chain.realF fl N 1
  (basis3F fl kIdx brillouinZone).bind fun basis =>
  let conjugateBasis := RealSpace.getConjugate conjugation basis
  (Hubbard.chainDispersionF fl cosF p N J energies).bind fun values =>
  (initMatrixF fl basis brillouinZone.size (dispersionFunction values) U lattice.size).bind fun m =>
  (initVector basis.length).bind fun h =>
  (nonVanishing basis conjugateBasis (dispersionFunction values) 0).bind fun table =>
  (particleNumberF fl h table).bind fun first =>
  (ODE.integrateF fl basis.length dt (timesIF fl m) (RealSpace.storedColumns m) 8 w h).bind fun r =>
  (particleNumberF fl r.2 table).map fun second => (first, second)

end Ieompp.Program
