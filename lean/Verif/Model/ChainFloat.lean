import Verif.Model.Chain
import Verif.Model.HubbardBasis
import Mathlib.Data.Real.Archimedean

/-!
# Positions and their lookup with rounded arithmetic

The same code as in `Model/Chain.lean` (periodic_chain.hpp:74-89, 233-256) and `Model/HubbardBasis.lean`
(hubbard_momentum_space/basis.hpp:21-41), with every addition, subtraction, multiplication and division of numbers of type
`Float` rounded by `fl`. Comparisons, negation, `std::round` and the conversion of a site index to `Float` are exact (indices below
2^53). Overflow, underflow and NaN are not modelled.
-/

set_option autoImplicit false

namespace Ieompp

/-- periodic_chain.hpp:242-256: `operator()` with rounding, before `% _size`. -/
noncomputable def coordIndexF (fl : ℝ → ℝ) (xMin xMax xLength dx v : ℝ) : Res ℕ :=
  (whileLoop (fun v => v < xMin) (fun v => fl (v + xLength)) v).bind fun v =>
  (whileLoop (fun v => v > xMax) (fun v => fl (v - xLength)) v).bind fun v =>
  toUnsigned (cround (fl (fl (v - xMin) / dx)))

namespace Chain

/-- periodic_chain.hpp:74-81: momentum space constructor; `pi` is the constant `Pi<Float>::value`, twice of it the constant
`TwoPi<Float>::value` (doubling is exact). -/
noncomputable def momentumF (fl : ℝ → ℝ) (pi : ℝ) (N : ℕ) : Chain ℝ where
  size := N
  first := 0
  last := N - 1
  xMin := -pi
  xMax := pi
  xLength := 2 * pi
  dx := fl (2 * pi / N)

/-- periodic_chain.hpp:83-89: real space constructor. -/
noncomputable def realF (fl : ℝ → ℝ) (N : ℕ) (dx : ℝ) : Chain ℝ where
  size := N
  first := 0
  last := N - 1
  xMin := 0
  xMax := fl (dx * ((N - 1 : ℕ) : ℝ))
  xLength := fl (N * dx)
  dx := dx

/-- periodic_chain.hpp:233-240: `operator[]`. -/
noncomputable def posF (fl : ℝ → ℝ) (c : Chain ℝ) (i : ℕ) : ℝ := fl (c.xMin + fl (i * c.dx))

/-- periodic_chain.hpp:242-256: `operator()`. -/
noncomputable def lookupF (fl : ℝ → ℝ) (c : Chain ℝ) (v : ℝ) : Res ℕ :=
  (coordIndexF fl c.xMin c.xMax c.xLength c.dx v).map (fun i => i % c.size)

end Chain

namespace MomentumSpace

/-- hubbard_momentum_space/basis.hpp:21-41: constructor of `Basis3Operator(q_idx, momentum_space)` on a chain. -/
noncomputable def basis3F (fl : ℝ → ℝ) (q : ℕ) (c : Chain ℝ) : Res (List HMonomial) :=
  (collect ((List.range c.size).flatMap fun i1 => (List.range c.size).map fun i2 =>
    (c.lookupF fl (fl (fl (c.posF fl i1 + c.posF fl i2) - c.posF fl q))).map fun i3 =>
      ([⟨true, (i1, true)⟩, ⟨true, (i2, false)⟩, ⟨false, (i3, false)⟩] : HMonomial))).map
  (fun l => [⟨true, (q, true)⟩] :: l)

end MomentumSpace

end Ieompp
