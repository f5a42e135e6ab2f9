import Verif.Model.Chain

/-!
# Model of `include/ieompp/lattices/periodic_square_lattice.hpp`

Same conventions as for the chain. A `Vector` is a pair. The wrapping loops of the two coordinates act on
different variables; they are run coordinate by coordinate here (each followed by its rounding), which changes
neither the value nor whether there is one.
-/

set_option autoImplicit false

namespace Ieompp

/-- periodic_square_lattice.hpp:32-38 (without `_lattice_vectors`). -/
structure Square (K : Type*) where
  sizeX : ℕ
  sizeY : ℕ
  size : ℕ
  first : ℕ
  last : ℕ
  xMin : K
  xMax : K
  xLength : K
  dx : K
  yMin : K
  yMax : K
  yLength : K
  dy : K

namespace Square
variable {K : Type*}

/-- periodic_square_lattice.hpp:88-99: momentum space constructor. -/
def momentum [Field K] (pi : K) (Nx Ny : ℕ) : Square K where
  sizeX := Nx
  sizeY := Ny
  size := Nx * Ny
  first := 0
  last := Nx * Ny - 1
  xMin := -pi
  xMax := pi
  xLength := 2 * pi
  dx := 2 * pi / Nx
  yMin := -pi
  yMax := pi
  yLength := 2 * pi
  dy := 2 * pi / Ny

/-- periodic_square_lattice.hpp:101-112: real space constructor. -/
def real [Field K] (Nx Ny : ℕ) (dx dy : K) : Square K where
  sizeX := Nx
  sizeY := Ny
  size := Nx * Ny
  first := 0
  last := Nx * Ny - 1
  xMin := 0
  xMax := dx * ((Nx - 1 : ℕ) : K)
  xLength := Nx * dx
  dx := dx
  yMin := 0
  yMax := dy * ((Ny - 1 : ℕ) : K)
  yLength := Ny * dy
  dy := dy

/-- periodic_square_lattice.hpp:114-118: `index`. -/
def index (s : Square K) (x y : ℕ) : ℕ := x * s.sizeX + y
/-- periodic_square_lattice.hpp:120-124: `x_index`. -/
def xIndex (s : Square K) (i : ℕ) : ℕ := i / s.sizeX
/-- periodic_square_lattice.hpp:126-130: `y_index`. -/
def yIndex (s : Square K) (i : ℕ) : ℕ := i % s.sizeX

/-- periodic_square_lattice.hpp:132-141: `neighbors`. -/
def neighbors (s : Square K) (idx : ℕ) : List ℕ :=
  let i := idx / s.sizeY
  let j := idx % s.sizeX
  [s.index (if i = 0 then s.sizeX - 1 else i - 1) j,
   s.index i (if j = 0 then s.sizeY - 1 else j - 1),
   s.index (if i = s.sizeX - 1 then 0 else i + 1) j,
   s.index i (if j = s.sizeY - 1 then 0 else j + 1)]

/-- periodic_square_lattice.hpp:143-151: `unique_neighbors`. -/
def uniqueNeighbors (s : Square K) (idx : ℕ) : List ℕ :=
  let i := idx / s.sizeY
  let j := idx % s.sizeX
  [s.index (if i = s.sizeX - 1 then 0 else i + 1) j,
   s.index i (if j = s.sizeY - 1 then 0 else j + 1)]

/-- periodic_square_lattice.hpp:269-277: `lattice_distance_x`. The unsigned difference `_size_x - dist` is
undefined-free but wraps around when `dist > _size_x`; that is the outcome `none`. -/
def latticeDistanceX (s : Square K) (a b : ℕ) : Option ℕ :=
  let ax := s.xIndex a
  let bx := s.xIndex b
  let dist := if ax > bx then ax - bx else bx - ax
  if dist ≤ s.sizeX then some (min dist (s.sizeX - dist)) else none

/-- periodic_square_lattice.hpp:279-287: `lattice_distance_y`; as for x. -/
def latticeDistanceY (s : Square K) (a b : ℕ) : Option ℕ :=
  let ay := s.yIndex a
  let by' := s.yIndex b
  let dist := if ay > by' then ay - by' else by' - ay
  if dist ≤ s.sizeY then some (min dist (s.sizeY - dist)) else none

/-- periodic_square_lattice.hpp:289-306: `neighboring`. -/
def neighboring (s : Square K) (a b : ℕ) : Bool :=
  let xa := s.xIndex a
  let ya := s.yIndex a
  let xb := s.xIndex b
  let yb := s.yIndex b
  if xa = xb then ((ya + 1) % s.sizeY == yb) || ((yb + 1) % s.sizeY == ya)
  else if ya = yb then ((xa + 1) % s.sizeX == xb) || ((xb + 1) % s.sizeX == xa)
  else false

/-- periodic_square_lattice.hpp:350-359: `operator[]`. -/
def pos [Field K] (s : Square K) (idx : ℕ) : K × K :=
  let i := idx / s.sizeX
  let j := idx % s.sizeX
  (s.xMin + i * s.dx, s.yMin + j * s.dy)

/-- periodic_square_lattice.hpp:361-380: `operator()`. No reduction modulo the size. -/
noncomputable def lookup [Field K] [LinearOrder K] [FloorRing K] (s : Square K) (v : K × K) : Res ℕ :=
  (coordIndex s.xMin s.xMax s.xLength s.dx v.1).bind fun i =>
  (coordIndex s.yMin s.yMax s.yLength s.dy v.2).map fun j => i * s.sizeX + j

/-- periodic_square_lattice.hpp:170-180: the search of `closest` over `begin()` .. `end()`. -/
def closestSearch [Field K] [LinearOrder K] (s : Square K) (v : K × K) : ℕ :=
  let dist := fun i => (v.1 - (s.pos i).1) * (v.1 - (s.pos i).1) + (v.2 - (s.pos i).2) * (v.2 - (s.pos i).2)
  ((List.range' s.first (s.last + 1 - s.first)).foldl (closestStep dist) (0, dist 0)).1

/-- periodic_square_lattice.hpp:153-181: `closest`. -/
noncomputable def closest [Field K] [LinearOrder K] (s : Square K) (v : K × K) : Res ℕ :=
  (closestWrap s.xMin s.xMax s.xLength s.dx v.1).bind fun v0 =>
  (closestWrap s.yMin s.yMax s.yLength s.dy v.2).map fun v1 => s.closestSearch (v0, v1)

end Square

end Ieompp
