import Verif.Model.ChainFloat
import Verif.Model.ExpectationValue
import Verif.Model.FermiSea

/-!
# The Fermi sea with rounded arithmetic

The same code as `Hubbard.dispersion` in `Model/ExpectationValue.lean` (dispersion.hpp:33-51) with every addition and multiplication
of numbers of type `Float` rounded by `fl` and with `std::cos` replaced by `cosF`, followed by the comparison with the Fermi energy
(excited_fermi_sea.hpp:76-82). `p` is the constant `Pi<Float>::value` (constants.hpp:27-28) and `2 p` the constant
`TwoPi<Float>::value` (constants.hpp:33-34; doubling is exact). Overflow, underflow and NaN are not modelled.
-/

set_option autoImplicit false

namespace Ieompp.Hubbard

open RealSpace (storeLoop)

/-- dispersion.hpp:33-51: constructor of `Dispersion` with rounding; the result is `_values`. -/
noncomputable def dispersionF {V : Type*} (fl cosF : ℝ → ℝ) (dot : V → V → ℝ) (n : ℕ) (k : ℕ → V) (vectors : List V) (J : ℝ)
    (sched : List ℕ) : Res (List ℝ) :=
  storeLoop (fun i => .val (fl (fl (-2 * J) * vectors.foldl (fun val vec => fl (val + cosF (dot (k i) vec))) 0))) sched
    (List.replicate n 0)

/-- liouvillian.hpp:20-28 (`make_liouvillian`), dispersion.hpp:33-51 on the chains `PeriodicChain(N)` (momenta) and
`PeriodicChain(N, 1.)` (sites). types/dot_product.hpp:10-16: the product of two numbers. -/
noncomputable def chainDispersionF (fl cosF : ℝ → ℝ) (p : ℝ) (N : ℕ) (J : ℝ) (sched : List ℕ) : Res (List ℝ) :=
  dispersionF fl cosF (fun a b => fl (a * b)) N (fun i => (Chain.momentumF fl p N).posF fl i) (chainVectors (Chain.realF fl N 1)) J sched

/-- excited_fermi_sea.hpp:76-82: `is_initially_occupied` for the dispersion of a chain and the Fermi energy 0 (the default argument
in particle_number.hpp:31-36). -/
noncomputable def occupiedF (fl cosF : ℝ → ℝ) (p : ℝ) (N : ℕ) (J : ℝ) (sched : List ℕ) (x : ℕ × Bool) : Res Bool :=
  (chainDispersionF fl cosF p N J sched).bind fun values =>
  (dispersionAt values x.1).map fun e => MomentumSpace.FermiSea.isInitiallyOccupied (fun _ => e) 0 x

end Ieompp.Hubbard
