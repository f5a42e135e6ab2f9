import Verif.Model.Basic
import Mathlib.Algebra.Order.Floor.Ring
import Mathlib.Algebra.Order.Field.Basic

/-!
# Model of `include/ieompp/lattices/periodic_chain.hpp`

`Float` is an ordered field `K` with floor (exact arithmetic), `SiteIndex` is `ℕ`. `assert(N > 0)` is a
precondition of both constructors, so `N - 1` does not underflow.
-/

set_option autoImplicit false

namespace Ieompp

/-- periodic_chain.hpp:30-34: the data members (`_lattice_vectors` is `{dx}`). -/
structure Chain (K : Type*) where
  size : ℕ
  first : ℕ
  last : ℕ
  xMin : K
  xMax : K
  xLength : K
  dx : K

/-- `std::round`: nearest integer, halves away from zero. Library function, called in periodic_chain.hpp:255. -/
def cround {K : Type*} [Field K] [LinearOrder K] [FloorRing K] (x : K) : ℤ :=
  if 0 ≤ x then ⌊x + 1 / 2⌋ else -⌊-x + 1 / 2⌋

/-- Conversion of an integral `double` to an unsigned integer: undefined for negative values.
periodic_chain.hpp:255 (`SiteIndex(...)`). -/
def toUnsigned (z : ℤ) : Res ℕ := if 0 ≤ z then .val z.toNat else .ub

/-- The two wrapping loops followed by the rounding, which `PeriodicChain::operator()`
(periodic_chain.hpp:249-255, before `% _size`) and `PeriodicSquareLattice::operator()`
(periodic_square_lattice.hpp:365-378, once per coordinate) have in common. -/
noncomputable def coordIndex {K : Type*} [Field K] [LinearOrder K] [FloorRing K]
    (xMin xMax xLength dx v : K) : Res ℕ :=
  (whileLoop (fun v => v < xMin) (fun v => v + xLength) v).bind fun v =>
  (whileLoop (fun v => v > xMax) (fun v => v - xLength) v).bind fun v =>
  toUnsigned (cround ((v - xMin) / dx))

/-- The two wrapping loops of `closest` (periodic_chain.hpp:109-115; periodic_square_lattice.hpp:156-169, once
per coordinate). -/
noncomputable def closestWrap {K : Type*} [Field K] [LinearOrder K] (xMin xMax xLength dx v : K) : Res K :=
  (whileLoop (fun v => v < xMin - dx / 2) (fun v => v + xLength) v).bind fun v =>
  whileLoop (fun v => v > xMax + dx / 2) (fun v => v - xLength) v

/-- One round of the search loop of `closest` (periodic_chain.hpp:118-124; periodic_square_lattice.hpp:173-179):
the state is `(min, min_dist)`. -/
def closestStep {K : Type*} [LinearOrder K] (dist : ℕ → K) (s : ℕ × K) (idx : ℕ) : ℕ × K :=
  if dist idx < s.2 then (idx, dist idx) else s

namespace Chain
variable {K : Type*}

/-- periodic_chain.hpp:74-81: momentum space constructor; `pi` is `Pi<Float>::value`, and
`TwoPi<Float>::value` is taken as `2 * pi`. -/
def momentum [Field K] (pi : K) (N : ℕ) : Chain K where
  size := N
  first := 0
  last := N - 1
  xMin := -pi
  xMax := pi
  xLength := 2 * pi
  dx := 2 * pi / N

/-- periodic_chain.hpp:83-89: real space constructor. -/
def real [Field K] (N : ℕ) (dx : K) : Chain K where
  size := N
  first := 0
  last := N - 1
  xMin := 0
  xMax := dx * ((N - 1 : ℕ) : K)
  xLength := N * dx
  dx := dx

/-- periodic_chain.hpp:91-97: `neighbors`. -/
def neighbors (c : Chain K) (idx : ℕ) : List ℕ :=
  [if idx > 0 then idx - 1 else c.last, if idx < c.last then idx + 1 else c.first]

/-- periodic_chain.hpp:99-104: `unique_neighbors` (a single site). -/
def uniqueNeighbor (c : Chain K) (idx : ℕ) : ℕ := if idx < c.last then idx + 1 else c.first

/-- periodic_chain.hpp:177-183: `lattice_distance`. -/
def latticeDistance (c : Chain K) (a b : ℕ) : ℕ :=
  let dist := if b > a then b - a else a - b
  min dist (c.size - dist)

/-- periodic_chain.hpp:186-191: `neighboring`. -/
def neighboring (c : Chain K) (a b : ℕ) : Bool :=
  ((a + 1) % c.size == b) || ((b + 1) % c.size == a)

/-- periodic_chain.hpp:233-240: `operator[]`, the position of a site. -/
def pos [Field K] (c : Chain K) (i : ℕ) : K := c.xMin + i * c.dx

/-- periodic_chain.hpp:242-256: `operator()`, the site at a position. -/
noncomputable def lookup [Field K] [LinearOrder K] [FloorRing K] (c : Chain K) (v : K) : Res ℕ :=
  (coordIndex c.xMin c.xMax c.xLength c.dx v).map (fun i => i % c.size)

/-- periodic_chain.hpp:116-125: the search of `closest` over the sites `begin()` .. `end()` (193-205). -/
def closestSearch [Field K] [LinearOrder K] (c : Chain K) (v : K) : ℕ :=
  let dist := fun i => (c.pos i - v) * (c.pos i - v)
  ((List.range' c.first (c.last + 1 - c.first)).foldl (closestStep dist) (0, dist 0)).1

/-- periodic_chain.hpp:106-126: `closest`. -/
noncomputable def closest [Field K] [LinearOrder K] (c : Chain K) (v : K) : Res ℕ :=
  (closestWrap c.xMin c.xMax c.xLength c.dx v).map c.closestSearch

end Chain

end Ieompp
