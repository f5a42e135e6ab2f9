import Verif.Model.FermiJump
import Verif.Model.Square

/-!
# Model of `include/ieompp/models/hubbard_real_space/expectation_value.hpp` and `models/hubbard/dispersion.hpp`

`Float` is `ℝ`. The parallel loops are executed in an arbitrary order (`sched`), at the granularity of the single
stores (every store has its own element).
-/

set_option autoImplicit false

namespace Ieompp.RealSpace

open MomentumSpace (vecAt)

/-- dispersion.hpp:17-21: `calculate_fermi_momentum_1d`. -/
noncomputable def fermiMomentum1D (filling : ℝ) : ℝ := filling * Real.pi

/-- expectation_value.hpp:29-46: constructor of `ExpectationValue1DHalfFilled`; the result is `_values`. The loop
runs over `1 .. lattice.size() / 2`. -/
noncomputable def evTable1D (c : Chain ℝ) (filling kF : ℝ) (sched : List ℕ) : Res (List ℝ) :=
  (assignAt (List.replicate (c.size / 2 + 1) 0) 0 filling).bind fun values =>
  storeLoop (fun dist => .val (Real.sin (kF * dist * c.dx) / (Real.pi * dist * c.dx))) sched values

/-- expectation_value.hpp:48-51: `operator()`. -/
def evLookup1D (c : Chain ℝ) (values : List ℝ) (a b : ℕ) : Res ℝ := vecAt values (c.latticeDistance a b)

/-- expectation_value.hpp:85-99: the value for distances `dist_x`, `dist_y`. -/
noncomputable def evValue2D (distX distY : ℕ) : ℝ :=
  let prefactor1 := 2 / (Real.pi * Real.pi)
  let prefactor2 := 1 / Real.pi
  let piHalf := Real.pi / 2
  let sum := distX + distY
  let diff := if distX > distY then distX - distY else distY - distX
  if distX = distY then
    if distX = 0 then 0.5
    else prefactor2 * Real.sin (piHalf * sum) / sum
  else prefactor1 * (Real.sin (piHalf * sum) / sum) * (Real.sin (piHalf * diff) / diff)

/-- expectation_value.hpp:71-102: constructor of `ExpectationValue2DHalfFilled`; the result is `_values`
(value-initialised, hence zeros). The loops run over `0 .. size_x/2` and `0 .. size_y/2`. -/
noncomputable def evTable2D (s : Square ℝ) (sched : List (ℕ × ℕ)) : Res (List ℝ) :=
  sched.foldl (fun (acc : Res (List ℝ)) d => acc.bind fun v =>
      assignAt v ((s.sizeY / 2 + 1) * d.1 + d.2) (evValue2D d.1 d.2))
    (.val (List.replicate ((s.sizeX / 2 + 1) * (s.sizeY / 2 + 1)) 0))

/-- Subtraction of 64-bit unsigned integers. periodic_square_lattice.hpp:269-297 (`_size_x - dist`). -/
def wrapSub (a b : ℕ) : ℕ := if b ≤ a then a - b else 2 ^ 64 - (b - a)

/-- periodic_square_lattice.hpp:269-277 with the wrap-around of the unsigned subtraction (compare
`Square.latticeDistanceX`, where it is the outcome `none`). -/
def wrappedDistanceX (s : Square ℝ) (a b : ℕ) : ℕ :=
  let ax := s.xIndex a
  let bx := s.xIndex b
  let dist := if ax > bx then ax - bx else bx - ax
  min dist (wrapSub s.sizeX dist)

/-- periodic_square_lattice.hpp:279-287, likewise. -/
def wrappedDistanceY (s : Square ℝ) (a b : ℕ) : ℕ :=
  let ay := s.yIndex a
  let by' := s.yIndex b
  let dist := if ay > by' then ay - by' else by' - ay
  min dist (wrapSub s.sizeY dist)

/-- expectation_value.hpp:104-109: `operator()`. -/
def evLookup2D (s : Square ℝ) (values : List ℝ) (a b : ℕ) : Res ℝ :=
  vecAt values ((s.sizeY / 2 + 1) * wrappedDistanceX s a b + wrappedDistanceY s a b)

end Ieompp.RealSpace

namespace Ieompp.Hubbard

open RealSpace (storeLoop)

/-- dispersion.hpp:33-51: constructor of `Dispersion`; the result is `_values`. `V` is the type of vectors with
`dot_product` `dot` (types/dot_product.hpp:10-16: the product of numbers on a chain; types/blaze/dot_product.hpp:12-17:
the scalar product on a square lattice); `n = momentum_space.size()`, `k i = momentum_space[i]`,
`vectors = lattice.lattice_vectors()`. -/
noncomputable def dispersion {V : Type*} (dot : V → V → ℝ) (n : ℕ) (k : ℕ → V) (vectors : List V) (J : ℝ)
    (sched : List ℕ) : Res (List ℝ) :=
  storeLoop (fun i => .val (-2 * J * vectors.foldl (fun val vec => val + Real.cos (dot (k i) vec)) 0)) sched
    (List.replicate n 0)

/-- dispersion.hpp:53-56: `operator()`. -/
def dispersionAt (values : List ℝ) (idx : ℕ) : Res ℝ := MomentumSpace.vecAt values idx

/-- The scalar product of `blaze::StaticVector<Float, 2>`s (types/blaze/dot_product.hpp:12-17). -/
def dot2 (a b : ℝ × ℝ) : ℝ := a.1 * b.1 + a.2 * b.2

/-- periodic_chain.hpp:78,86,172-175: `lattice_vectors` of a chain. -/
def chainVectors (c : Chain ℝ) : List ℝ := [c.dx]

/-- periodic_square_lattice.hpp:94,107,262-266: `lattice_vectors` of a square lattice. -/
def squareVectors (s : Square ℝ) : List (ℝ × ℝ) := [(s.dx, 0), (0, s.dy)]

end Ieompp.Hubbard
