import Mathlib.Data.Nat.Notation
import Mathlib.Algebra.Field.Defs
import Mathlib.Order.Defs.LinearOrder
import Mathlib.Algebra.Order.Group.Abs
import Mathlib.Data.Int.Cast.Defs

/-! # Specification of lattices: walks along a neighbour relation, periodic distance -/

set_option autoImplicit false

namespace Ieompp.Spec

/-- `Walk nb n a b`: `b` can be reached from `a` in exactly `n` steps of the neighbour relation. -/
inductive Walk (nb : ℕ → ℕ → Prop) : ℕ → ℕ → ℕ → Prop
  | refl (a : ℕ) : Walk nb 0 a a
  | step {n a b c : ℕ} : nb a b → Walk nb n b c → Walk nb (n + 1) a c

/-- `r` is a site (below `N`) whose distance from `v` on the circle of circumference `L` is minimal: some
image `pos r + m L` is at least as close to `v` as every image of every site. -/
def IsNearest {K : Type*} [Field K] [LinearOrder K] (pos : ℕ → K) (L : K) (N : ℕ) (v : K) (r : ℕ) : Prop :=
  r < N ∧ ∃ m : ℤ, ∀ j < N, ∀ k : ℤ, |v - (pos r + m * L)| ≤ |v - (pos j + k * L)|

end Ieompp.Spec

namespace Ieompp.Spec

/-- `d` is the distance of `a` and `b` on a ring of `N` sites: the shorter of the two arcs. -/
def IsRingDist (N a b d : ℕ) : Prop :=
  (d = (a - b) + (b - a) ∨ d = N - ((a - b) + (b - a))) ∧ d ≤ (a - b) + (b - a) ∧ d ≤ N - ((a - b) + (b - a))

/-- As `IsNearest`, in two dimensions (squared Euclidean distance, periods `Lx`, `Ly`). -/
def IsNearest2 {K : Type*} [Field K] [LinearOrder K] (pos : ℕ → K × K) (Lx Ly : K) (N : ℕ) (v : K × K) (r : ℕ) : Prop :=
  r < N ∧ ∃ mx my : ℤ, ∀ j < N, ∀ kx ky : ℤ,
    (v.1 - ((pos r).1 + mx * Lx)) ^ 2 + (v.2 - ((pos r).2 + my * Ly)) ^ 2 ≤
    (v.1 - ((pos j).1 + kx * Lx)) ^ 2 + (v.2 - ((pos j).2 + ky * Ly)) ^ 2

end Ieompp.Spec
