import Verif.Model.Square
import Verif.Model.Sparse
import Verif.Model.ExpectationValue
import Mathlib.Data.BitVec

/-!
# The index arithmetic of the lattices, bases and reservations in fixed-width unsigned integers

`SiteIndexT` is a template parameter of the lattices (`uint64_t` by default), `BasisIndex` is `std::size_t`. The other
models use `ℕ`; here all arithmetic is that of `BitVec w`, modulo `2^w`. This describes unsigned types that are not
promoted to `int` before the operation, i.e. `w ≥ 32` on the usual machines (the theorems hold for every `w`).
-/

set_option autoImplicit false

namespace Ieompp.Width

variable {w : ℕ}

/-! ### PeriodicChain -/

/-- periodic_chain.hpp:30-31: the index members `_size`, `_first`, `_last`. -/
structure ChainW (w : ℕ) where
  size : BitVec w
  first : BitVec w
  last : BitVec w

namespace ChainW

/-- periodic_chain.hpp:74-89: both constructors, index members. -/
def make (N : BitVec w) : ChainW w := ⟨N, 0, N - 1⟩

/-- periodic_chain.hpp:74-89: the factors `_size` (momentum space, for `_dx = _x_length / _size`) and `_size - 1` (real
space, for `_x_max = dx * (_size - 1)`) that are converted to `Float`. -/
def floatFactors (N : BitVec w) : ℕ × ℕ := (N.toNat, (N - 1).toNat)

/-- periodic_chain.hpp:91-97: `neighbors`. -/
def neighbors (c : ChainW w) (idx : BitVec w) : List (BitVec w) :=
  [if idx > 0 then idx - 1 else c.last, if idx < c.last then idx + 1 else c.first]

/-- periodic_chain.hpp:99-104: `unique_neighbors`. -/
def uniqueNeighbor (c : ChainW w) (idx : BitVec w) : BitVec w := if idx < c.last then idx + 1 else c.first

/-- periodic_chain.hpp:177-183: `lattice_distance`; `std::min(x, y)` is `y < x ? y : x`. -/
def latticeDistance (c : ChainW w) (a b : BitVec w) : BitVec w :=
  let dist := if b > a then b - a else a - b
  if c.size - dist < dist then c.size - dist else dist

/-- periodic_chain.hpp:186-191: `neighboring`. -/
def neighboring (c : ChainW w) (a b : BitVec w) : Bool :=
  ((a + 1) % c.size == b) || ((b + 1) % c.size == a)

/-- periodic_chain.hpp:193-231: the values of the iterators `begin()` and `end()`. -/
def range (c : ChainW w) : BitVec w × BitVec w := (c.first, c.last + 1)

end ChainW

/-- Conversion of an integral `double` to an unsigned integer of width `w`: undefined behaviour outside its range.
periodic_chain.hpp:255, periodic_square_lattice.hpp:376-377. -/
def toUnsignedW (w : ℕ) (z : ℤ) : Res (BitVec w) := if 0 ≤ z ∧ z < 2 ^ w then .val (BitVec.ofInt w z) else .ub

/-- As `coordIndex`, with the conversion to the fixed width. periodic_chain.hpp:249-255,
periodic_square_lattice.hpp:365-377. -/
noncomputable def coordIndexW {K : Type*} [Field K] [LinearOrder K] [FloorRing K] (w : ℕ)
    (xMin xMax xLength dx v : K) : Res (BitVec w) :=
  (whileLoop (fun v => v < xMin) (fun v => v + xLength) v).bind fun v =>
  (whileLoop (fun v => v > xMax) (fun v => v - xLength) v).bind fun v =>
  toUnsignedW w (cround ((v - xMin) / dx))

/-- periodic_chain.hpp:242-256: `operator()`; the floating-point members are those of `c`. -/
noncomputable def chainLookupW {K : Type*} [Field K] [LinearOrder K] [FloorRing K] (c : Chain K) (N : BitVec w) (v : K) :
    Res (BitVec w) :=
  (coordIndexW w c.xMin c.xMax c.xLength c.dx v).map (fun i => i % (ChainW.make N).size)

/-! ### PeriodicSquareLattice -/

/-- periodic_square_lattice.hpp:32-33: the index members. -/
structure SquareW (w : ℕ) where
  sizeX : BitVec w
  sizeY : BitVec w
  size : BitVec w
  first : BitVec w
  last : BitVec w

namespace SquareW

/-- periodic_square_lattice.hpp:88-112: both constructors, index members. -/
def make (Nx Ny : BitVec w) : SquareW w := ⟨Nx, Ny, Nx * Ny, 0, Nx * Ny - 1⟩

/-- periodic_square_lattice.hpp:96-98, 109-111: the three `assert`s of the constructors. -/
def asserts (s : SquareW w) : Prop := s.sizeX > 0 ∧ s.sizeY > 0 ∧ s.size > 0

/-- periodic_square_lattice.hpp:114-118: `index`. -/
def index (s : SquareW w) (x y : BitVec w) : BitVec w := x * s.sizeX + y
/-- periodic_square_lattice.hpp:120-124: `x_index`. -/
def xIndex (s : SquareW w) (i : BitVec w) : BitVec w := i / s.sizeX
/-- periodic_square_lattice.hpp:126-130: `y_index`. -/
def yIndex (s : SquareW w) (i : BitVec w) : BitVec w := i % s.sizeX

/-- periodic_square_lattice.hpp:132-141: `neighbors`. -/
def neighbors (s : SquareW w) (idx : BitVec w) : List (BitVec w) :=
  let i := idx / s.sizeY
  let j := idx % s.sizeX
  [s.index (if i = 0 then s.sizeX - 1 else i - 1) j,
   s.index i (if j = 0 then s.sizeY - 1 else j - 1),
   s.index (if i = s.sizeX - 1 then 0 else i + 1) j,
   s.index i (if j = s.sizeY - 1 then 0 else j + 1)]

/-- periodic_square_lattice.hpp:143-151: `unique_neighbors`. -/
def uniqueNeighbors (s : SquareW w) (idx : BitVec w) : List (BitVec w) :=
  let i := idx / s.sizeY
  let j := idx % s.sizeX
  [s.index (if i = s.sizeX - 1 then 0 else i + 1) j,
   s.index i (if j = s.sizeY - 1 then 0 else j + 1)]

/-- periodic_square_lattice.hpp:269-277: `lattice_distance_x`. -/
def latticeDistanceX (s : SquareW w) (a b : BitVec w) : BitVec w :=
  let ax := s.xIndex a
  let bx := s.xIndex b
  let dist := if ax > bx then ax - bx else bx - ax
  if s.sizeX - dist < dist then s.sizeX - dist else dist

/-- periodic_square_lattice.hpp:279-287: `lattice_distance_y`. -/
def latticeDistanceY (s : SquareW w) (a b : BitVec w) : BitVec w :=
  let ay := s.yIndex a
  let by' := s.yIndex b
  let dist := if ay > by' then ay - by' else by' - ay
  if s.sizeY - dist < dist then s.sizeY - dist else dist

/-- periodic_square_lattice.hpp:289-306: `neighboring`. -/
def neighboring (s : SquareW w) (a b : BitVec w) : Bool :=
  let xa := s.xIndex a
  let ya := s.yIndex a
  let xb := s.xIndex b
  let yb := s.yIndex b
  if xa = xb then ((ya + 1) % s.sizeY == yb) || ((yb + 1) % s.sizeY == ya)
  else if ya = yb then ((xa + 1) % s.sizeX == xb) || ((xb + 1) % s.sizeX == xa)
  else false

/-- periodic_square_lattice.hpp:308-348: the values of the iterators `begin()` and `end()`. -/
def range (s : SquareW w) : BitVec w × BitVec w := (s.first, s.last + 1)

end SquareW

/-- periodic_square_lattice.hpp:361-380: `operator()`; the floating-point members are those of `s`. -/
noncomputable def squareLookupW {K : Type*} [Field K] [LinearOrder K] [FloorRing K] (s : Square K) (Nx : BitVec w)
    (v : K × K) : Res (BitVec w) :=
  (coordIndexW w s.xMin s.xMax s.xLength s.dx v.1).bind fun i =>
  (coordIndexW w s.yMin s.yMax s.yLength s.dy v.2).map fun j => i * Nx + j

/-! ### Bases and reservations (`BasisIndex` is a 64-bit `std::size_t` there; `w` is arbitrary here) -/

/-- hubbard_real_space/basis.hpp:57, 77-80: `get_3op_index` with the member `N_squared`. -/
def get3opIndexReal (N i1 i2 i3 : BitVec w) : BitVec w :=
  let Nsquared := N * N
  N + Nsquared * i1 + N * i2 + i3

/-- hubbard_momentum_space/basis.hpp:43-46: `get_3op_index`. -/
def get3opIndexMomentum (N i1 i2 : BitVec w) : BitVec w := 1 + i1 * N + i2

/-- hubbard_real_space/blaze_sparse.hpp:16-34, blaze_sparse_no.hpp:17-35, hubbard_momentum_space/blaze_sparse.hpp:16-20:
the counts of elements, for a basis with `N` sites and `size` elements. -/
structure Counts (w : ℕ) where
  kinetic1 : BitVec w
  kinetic3 : BitVec w
  interaction : BitVec w
  kineticNo3 : BitVec w
  interactionNo : BitVec w
  momentum : BitVec w

/-- hubbard_real_space/blaze_sparse.hpp:16-34, blaze_sparse_no.hpp:17-35, hubbard_momentum_space/blaze_sparse.hpp:16-20. -/
def counts (N z size : BitVec w) : Counts w where
  kinetic1 := N * z
  kinetic3 := N * z + N * (N * N) * 6 * z
  interaction := size * 2
  kineticNo3 := N * z + (size - N) * 6 * z
  interactionNo := N * 2 + (size - N) * 8
  momentum := N * (1 + 3 * N)

end Ieompp.Width
