import Verif.Model.ChainFloat
import Verif.Model.Square

/-!
# The square lattice and the search for the closest site with rounded arithmetic

As in `Model/ChainFloat.lean`: the code of periodic_square_lattice.hpp:88-112, 153-181, 350-380 and of periodic_chain.hpp:106-126, with
every addition, subtraction, multiplication and division of numbers of type `Float` rounded by `fl`. Overflow, underflow, infinities and
NaN are not modelled. The order in which `types::dot_product` adds its two products does not matter (rounded addition is commutative).
-/

set_option autoImplicit false

namespace Ieompp

/-- The two wrapping loops of `operator()` for one coordinate (periodic_square_lattice.hpp:365-376). -/
noncomputable def wrapF (fl : ℝ → ℝ) (xMin xMax xLength v : ℝ) : Res ℝ :=
  (whileLoop (fun v => v < xMin) (fun v => fl (v + xLength)) v).bind fun v =>
  whileLoop (fun v => v > xMax) (fun v => fl (v - xLength)) v

/-- The two wrapping loops of `closest` (periodic_chain.hpp:109-115; periodic_square_lattice.hpp:156-169, once per coordinate). -/
noncomputable def closestWrapF (fl : ℝ → ℝ) (xMin xMax xLength dx v : ℝ) : Res ℝ :=
  (whileLoop (fun v => v < fl (xMin - fl (dx / 2))) (fun v => fl (v + xLength)) v).bind fun v =>
  whileLoop (fun v => v > fl (xMax + fl (dx / 2))) (fun v => fl (v - xLength)) v

namespace Chain

/-- periodic_chain.hpp:116-125: the search of `closest` over the sites `begin()` .. `end()` (193-205). -/
noncomputable def closestSearchF (fl : ℝ → ℝ) (c : Chain ℝ) (v : ℝ) : ℕ :=
  let dist := fun i => fl (fl (c.posF fl i - v) * fl (c.posF fl i - v))
  ((List.range' c.first (c.last + 1 - c.first)).foldl (closestStep dist) (0, dist 0)).1

/-- periodic_chain.hpp:106-126: `closest`. -/
noncomputable def closestF (fl : ℝ → ℝ) (c : Chain ℝ) (v : ℝ) : Res ℕ :=
  (closestWrapF fl c.xMin c.xMax c.xLength c.dx v).map (c.closestSearchF fl)

end Chain

namespace Square

/-- periodic_square_lattice.hpp:88-99: momentum space constructor. -/
noncomputable def momentumF (fl : ℝ → ℝ) (pi : ℝ) (Nx Ny : ℕ) : Square ℝ where
  sizeX := Nx
  sizeY := Ny
  size := Nx * Ny
  first := 0
  last := Nx * Ny - 1
  xMin := -pi
  xMax := pi
  xLength := 2 * pi
  dx := fl (2 * pi / Nx)
  yMin := -pi
  yMax := pi
  yLength := 2 * pi
  dy := fl (2 * pi / Ny)

/-- periodic_square_lattice.hpp:101-112: real space constructor. -/
noncomputable def realF (fl : ℝ → ℝ) (Nx Ny : ℕ) (dx dy : ℝ) : Square ℝ where
  sizeX := Nx
  sizeY := Ny
  size := Nx * Ny
  first := 0
  last := Nx * Ny - 1
  xMin := 0
  xMax := fl (dx * ((Nx - 1 : ℕ) : ℝ))
  xLength := fl (Nx * dx)
  dx := dx
  yMin := 0
  yMax := fl (dy * ((Ny - 1 : ℕ) : ℝ))
  yLength := fl (Ny * dy)
  dy := dy

/-- periodic_square_lattice.hpp:350-359: `operator[]`. -/
noncomputable def posF (fl : ℝ → ℝ) (s : Square ℝ) (idx : ℕ) : ℝ × ℝ :=
  let i := idx / s.sizeX
  let j := idx % s.sizeX
  (fl (s.xMin + fl (i * s.dx)), fl (s.yMin + fl (j * s.dy)))

/-- periodic_square_lattice.hpp:361-380: `operator()`, the four loops first. No reduction modulo the size. -/
noncomputable def lookupF (fl : ℝ → ℝ) (s : Square ℝ) (v : ℝ × ℝ) : Res ℕ :=
  (wrapF fl s.xMin s.xMax s.xLength v.1).bind fun v0 =>
  (wrapF fl s.yMin s.yMax s.yLength v.2).bind fun v1 =>
  (toUnsigned (cround (fl (fl (v0 - s.xMin) / s.dx)))).bind fun i =>
  (toUnsigned (cround (fl (fl (v1 - s.yMin) / s.dy)))).map fun j => i * s.sizeX + j

/-- periodic_square_lattice.hpp:170-180: the search of `closest` over `begin()` .. `end()`. -/
noncomputable def closestSearchF (fl : ℝ → ℝ) (s : Square ℝ) (v : ℝ × ℝ) : ℕ :=
  let dist := fun i => fl (fl (fl (v.1 - (s.posF fl i).1) * fl (v.1 - (s.posF fl i).1))
    + fl (fl (v.2 - (s.posF fl i).2) * fl (v.2 - (s.posF fl i).2)))
  ((List.range' s.first (s.last + 1 - s.first)).foldl (closestStep dist) (0, dist 0)).1

/-- periodic_square_lattice.hpp:153-181: `closest`. -/
noncomputable def closestF (fl : ℝ → ℝ) (s : Square ℝ) (v : ℝ × ℝ) : Res ℕ :=
  (closestWrapF fl s.xMin s.xMax s.xLength s.dx v.1).bind fun v0 =>
  (closestWrapF fl s.yMin s.yMax s.yLength s.dy v.2).map fun v1 => s.closestSearchF fl (v0, v1)

end Square

end Ieompp
