import Verif.Props.Basis
import Verif.Props.Chain
import Verif.Props.Closest
import Verif.Props.Dispersion
import Verif.Props.Square
import Verif.Model.OperatorIndex
import Verif.Model.ParticleNumber
import Verif.Model.SiteOccupation

/-!
# The expectations of the project's own test suite, evaluated on the model

These are tests of the model, not claims: each example replays the expected values of a file in /repo/tests. They are here to show
that the model computes what the code is known to compute. None of them is listed in the manifest.
-/

set_option autoImplicit false
set_option linter.unusedSectionVars false

namespace Ieompp.RepoTests

open Ieompp Ieompp.Spec OpIndex

/-! ### tests/algebra/monomial -/

/-- The monomials of tests/algebra/monomial/comparison.cpp:6. -/
def a : Monomial ℕ := [⟨true, 0⟩]
/-- tests/algebra/monomial/comparison.cpp:6. -/
def b : Monomial ℕ := [⟨true, 1⟩]
/-- tests/algebra/monomial/comparison.cpp:6. -/
def c : Monomial ℕ := [⟨true, 0⟩, ⟨false, 0⟩]

-- comparison.cpp
example : Monomial.eqB a a ∧ Monomial.eqB b b ∧ Monomial.eqB c c ∧ ¬ Monomial.eqB a b ∧ ¬ Monomial.eqB a c ∧ ¬ Monomial.eqB b a ∧
    ¬ Monomial.eqB b c ∧ ¬ Monomial.eqB c a ∧ ¬ Monomial.eqB c b := by decide
example : ¬ Monomial.neB a a ∧ ¬ Monomial.neB b b ∧ ¬ Monomial.neB c c ∧ Monomial.neB a b ∧ Monomial.neB a c ∧ Monomial.neB b a ∧
    Monomial.neB b c ∧ Monomial.neB c a ∧ Monomial.neB c b := by decide

/-- tests/algebra/monomial/conjugate.cpp:6-7. -/
def b' : Monomial ℕ := [⟨false, 0⟩]
/-- tests/algebra/monomial/conjugate.cpp:6-7. -/
def c' : Monomial ℕ := [⟨true, 0⟩, ⟨true, 1⟩, ⟨false, 2⟩]
/-- tests/algebra/monomial/conjugate.cpp:6-7. -/
def d' : Monomial ℕ := [⟨true, 2⟩, ⟨false, 1⟩, ⟨false, 0⟩]

-- conjugate.cpp
example : Monomial.conjugate a = b' ∧ Monomial.conjugate b' = a ∧ Monomial.conjugate c' = d' ∧ Monomial.conjugate d' = c' ∧
    Monomial.getConjugate a = b' ∧ Monomial.getConjugate b' = a ∧ Monomial.getConjugate c' = d' ∧ Monomial.getConjugate d' = c' := by
  decide

-- multiply.cpp
example : Monomial.mul [⟨true, 0⟩, ⟨false, 1⟩] ([⟨true, 2⟩, ⟨false, 3⟩] : Monomial ℕ) = [⟨true, 0⟩, ⟨false, 1⟩, ⟨true, 2⟩, ⟨false, 3⟩] ∧
    (Monomial.mulAssign (· + 1) ⟨[⟨true, 0⟩, ⟨false, 1⟩], 2⟩ ([⟨true, 2⟩, ⟨false, 3⟩] : Monomial ℕ)).data
      = [⟨true, 0⟩, ⟨false, 1⟩, ⟨true, 2⟩, ⟨false, 3⟩] := by decide

/-! ### tests/algebra/operator -/

-- same_indices.cpp, comparison.cpp (two indices)
example :
    let a := Op.makeCreator (0, true); let b := Op.makeAnnihilator (0, false); let c := Op.makeCreator (1, true)
    let d : Op (ℕ × Bool) := Op.makeAnnihilator (0, true)
    a.sameIndices a ∧ b.sameIndices b ∧ c.sameIndices c ∧ ¬ a.sameIndices b ∧ ¬ a.sameIndices c ∧ ¬ b.sameIndices a ∧
    ¬ b.sameIndices c ∧ ¬ c.sameIndices a ∧ ¬ c.sameIndices b ∧
    a.eqB a ∧ ¬ a.eqB c ∧ ¬ a.eqB d ∧ ¬ c.eqB d ∧ ¬ d.eqB a ∧ a.neB c ∧ a.neB d ∧ ¬ a.neB a := by decide

-- get_index.cpp
example : getIndex 0 (makeCreator [1]) = some 1 ∧ getIndex 0 (makeCreator [1, 2]) = some 1 ∧ getIndex 1 (makeCreator [1, 2]) = some 2 ∧
    getIndex 0 (makeCreator [1, 2, 3]) = some 1 ∧ getIndex 1 (makeCreator [1, 2, 3]) = some 2 ∧
    getIndex 2 (makeCreator [1, 2, 3]) = some 3 := by decide

/-! ### tests/models/hubbard_real_space -/

-- basis3/get_3op_index.cpp, basis3/init.cpp
example : (List.range 3).flatMap (fun i => (List.range 3).flatMap fun j => (List.range 3).map fun k => RealSpace.get3opIndex 3 i j k)
    = List.range' 3 27 := by decide

example : ∀ i ∈ List.range 3, ∀ j ∈ List.range 3, ∀ k ∈ List.range 3, (RealSpace.basis3 3)[RealSpace.get3opIndex 3 i j k]?
    = some [Op.makeCreator (i, true), Op.makeCreator (j, false), Op.makeAnnihilator (k, false)] := by decide

/-! ### tests/models/hubbard_momentum_space -/

/-- The basis of test_non_vanishing_expectation_values.cpp:54-59 and of excited_fermi_sea/basis3_1d.cpp: three momenta, `q = 1`. -/
def basis : List HMonomial :=
  [⟨true, (1, true)⟩] :: ((List.range 3).flatMap fun i => (List.range 3).map fun j =>
    ([⟨true, (i, true)⟩, ⟨true, (j, false)⟩, ⟨false, ((i + j + 2) % 3, false)⟩] : HMonomial))

/-- It is the basis which the constructor builds. -/
theorem basis_eq {K : Type*} [Field K] [LinearOrder K] [IsStrictOrderedRing K] [FloorRing K] (pi : K) (hpi : 0 < pi) :
    MomentumSpace.basis3 1 (Chain.momentum pi 3) = .val basis := by
  rw [MomentumSpace.momentumBasis_eq pi hpi 3 (by norm_num) 1]
  congr 1

/-- `basis.get_conjugate()` (test_non_vanishing_expectation_values.cpp:60). -/
def conj : List HMonomial := basis.map Monomial.getConjugate

/-- The energies of the three momenta `-π, -π/3, π/3` (test_non_vanishing_expectation_values.cpp:56). -/
def energy (i : ℕ) : ℤ := if i = 0 then 2 else -1

/-- The elements of a contribution. -/
def triple (c : MomentumSpace.Contribution ℤ) : ℕ × ℕ × ℤ := (c.left, c.right, c.value)

-- test_non_vanishing_expectation_values.cpp
example : (MomentumSpace.nonVanishing basis conj energy 0).map
      (fun l => (l.insertionSort fun a b => !MomentumSpace.contributionLess b a).map triple) = .val
    [(0, 0, 1), (0, 4, 1), (0, 5, 3), (0, 6, 3), (4, 0, 1), (4, 4, 1), (4, 5, 3), (4, 6, 3), (5, 0, 3), (5, 4, 3), (5, 5, 9),
      (5, 6, 9), (6, 0, 3), (6, 4, 3), (6, 5, 9), (6, 6, 9), (9, 9, 4)] := by decide +kernel

-- excited_fermi_sea/basis3_1d.cpp
example : ((List.range 10).flatMap fun i => ((List.range 10).filter fun j =>
      (MomentumSpace.FermiSea.applyMonomial energy 0 (basis.getD i [])
        (MomentumSpace.FermiSea.applyMonomial energy 0 (conj.getD j []) {}).1).1.isInitial).map fun j => (i, j))
    = [(0, 0), (0, 5), (0, 6), (5, 0), (5, 5), (5, 6), (6, 0), (6, 5), (6, 6), (9, 9)] := by decide +kernel

/-! ### tests/lattices -/

/-- A site less than half a lattice constant away is the closest one. -/
theorem closest_of_near {N r : ℕ} (hr : r < N) {v : ℚ} (m : ℤ) (h : |v - (r + m * N)| < 1 / 2) :
    (Chain.real N (1 : ℚ)).closest v = .val r := by
  obtain ⟨r', e, h1, m', h2⟩ := chain_closest_real N (by omega) (1 : ℚ) one_pos v
  rw [e]
  have h3 := h2 r hr m
  simp only [Chain.pos, Chain.real, zero_add, mul_one] at h3
  have h4 := lt_of_le_of_lt h3 h
  have h5 : |((r' - r + (m' - m) * N : ℤ) : ℚ)| < 1 := by
    push_cast
    rw [abs_lt] at h h4 ⊢
    constructor <;> linarith
  have h6 : |(r' : ℤ) - r + (m' - m) * N| < 1 := by exact_mod_cast h5
  rw [Int.abs_lt_one_iff] at h6
  congr 1
  have h7 : ((r' : ℤ) - r) % N = 0 := by
    rw [show (r' : ℤ) - r = -(m' - m) * N by linarith, Int.mul_emod_left]
  have h8 := Int.eq_zero_of_abs_lt_dvd (Int.dvd_of_emod_eq_zero h7) (by rw [abs_lt]; constructor <;> omega)
  omega

-- test_periodic_chain.cpp: test_closest
example : let disc := Chain.real 10000 (1 : ℚ)
    disc.closest 0.49 = .val 0 ∧ disc.closest 0.51 = .val 1 ∧ disc.closest (-0.49) = .val 0 ∧ disc.closest (-0.51) = .val 9999 ∧
    disc.closest (9999 + 0.49) = .val 9999 ∧ disc.closest (9999 + 0.51) = .val 0 := by
  refine ⟨closest_of_near (by norm_num) 0 ?_, closest_of_near (by norm_num) 0 ?_, closest_of_near (by norm_num) 0 ?_,
    closest_of_near (by norm_num) (-1) ?_, closest_of_near (by norm_num) 0 ?_, closest_of_near (by norm_num) 1 ?_⟩ <;>
  · rw [abs_lt]; norm_num

-- test_periodic_chain.cpp: test_neighbors, test_unique_neighbors
example : let disc := Chain.real 10000 (1 : ℚ)
    disc.neighbors 0 = [9999, 1] ∧ (∀ i, 1 ≤ i → i < 9999 → disc.neighbors i = [i - 1, i + 1]) ∧ disc.neighbors 9999 = [9998, 0] ∧
    disc.uniqueNeighbor 0 = 1 ∧ (∀ i, 1 ≤ i → i < 9999 → disc.uniqueNeighbor i = i + 1) ∧ disc.uniqueNeighbor 9999 = 0 := by
  refine ⟨rfl, fun i h1 h2 => ?_, rfl, rfl, fun i h1 h2 => ?_, rfl⟩
  · unfold Chain.neighbors; rw [if_pos (by omega), if_pos (show i < (Chain.real 10000 (1 : ℚ)).last from (by omega : i < 10000 - 1))]
  · unfold Chain.uniqueNeighbor; rw [if_pos (show i < (Chain.real 10000 (1 : ℚ)).last from (by omega : i < 10000 - 1))]

-- test_periodic_square_lattice.cpp: test_neighbors, test_unique_neighbors (corners, edges and the interior)
example : let disc := Square.real 100 100 (1 : ℚ) 1
    disc.neighbors (disc.index 0 0) = [disc.index 99 0, disc.index 0 99, disc.index 1 0, disc.index 0 1] ∧
    disc.neighbors (disc.index 0 99) = [disc.index 99 99, disc.index 0 98, disc.index 1 99, disc.index 0 0] ∧
    disc.neighbors (disc.index 99 0) = [disc.index 98 0, disc.index 99 99, disc.index 0 0, disc.index 99 1] ∧
    disc.neighbors (disc.index 99 99) = [disc.index 98 99, disc.index 99 98, disc.index 0 99, disc.index 99 0] ∧
    disc.uniqueNeighbors (disc.index 0 0) = [disc.index 1 0, disc.index 0 1] ∧
    disc.uniqueNeighbors (disc.index 0 99) = [disc.index 1 99, disc.index 0 0] ∧
    disc.uniqueNeighbors (disc.index 99 0) = [disc.index 0 0, disc.index 99 1] ∧
    disc.uniqueNeighbors (disc.index 99 99) = [disc.index 0 99, disc.index 99 0] := by
  refine ⟨?_, ?_, ?_, ?_, ?_, ?_, ?_, ?_⟩ <;> rfl

example (i j : ℕ) (hi : 1 ≤ i) (hi' : i < 99) (hj : 1 ≤ j) (hj' : j < 99) : let disc := Square.real 100 100 (1 : ℚ) 1
    disc.neighbors (disc.index i j) = [disc.index (i - 1) j, disc.index i (j - 1), disc.index (i + 1) j, disc.index i (j + 1)] ∧
    disc.uniqueNeighbors (disc.index i j) = [disc.index (i + 1) j, disc.index i (j + 1)] ∧
    disc.neighbors (disc.index 0 j) = [disc.index 99 j, disc.index 0 (j - 1), disc.index 1 j, disc.index 0 (j + 1)] ∧
    disc.neighbors (disc.index i 0) = [disc.index (i - 1) 0, disc.index i 99, disc.index (i + 1) 0, disc.index i 1] := by
  intro disc
  have hx : disc.sizeX = 100 := rfl
  have hy : disc.sizeY = 100 := rfl
  clear_value disc
  simp only [Square.neighbors, Square.uniqueNeighbors, Square.index, hx, hy, List.cons.injEq, and_true]
  constructorm* _ ∧ _ <;> (try split_ifs) <;> omega

/-! ### tests/models/hubbard_real_space/test_site_occupation.cpp -/

/-- `basis[basis.get_3op_index(i, j, k)]` (test_site_occupation.cpp:41-52). -/
def three (i j k : ℕ) : HMonomial := [⟨true, (i, true)⟩, ⟨true, (j, false)⟩, ⟨false, (k, false)⟩]

example (ev : ℕ → ℕ → ℝ) : let e : HOp → HOp → ℝ := fun a b => ev a.index.1 b.index.1
    let one := fun i : ℕ => ([⟨true, (i, true)⟩] : HMonomial)
    (∀ i j, RealSpace.ev11 e (one i) (Monomial.getConjugate (one j)) = .val (2 * ev i j)) ∧
    RealSpace.ev31 e (three 0 0 0) (Monomial.getConjugate (one 0)) = .val (4 * ev 0 0 * ev 0 0 - 2 * ev 0 0) ∧
    RealSpace.ev31 e (three 0 1 2) (Monomial.getConjugate (one 3)) = .val (4 * ev 0 3 * ev 1 2) ∧
    RealSpace.ev31 e (three 0 1 1) (Monomial.getConjugate (one 2)) = .val (4 * ev 0 2 * ev 1 1 - 2 * ev 0 2) ∧
    RealSpace.ev31 e (three 0 0 1) (Monomial.getConjugate (one 1)) = .val (4 * ev 0 1 * ev 0 1) ∧
    RealSpace.ev31 e (three 0 0 1) (Monomial.getConjugate (one 0)) = .val (4 * ev 0 0 * ev 0 1) ∧
    RealSpace.ev31 e (three 4 4 4) (Monomial.getConjugate (one 0)) = .val (4 * ev 4 0 * ev 4 4 - 2 * ev 4 0) ∧
    RealSpace.ev13 e (one 0) (Monomial.getConjugate (three 0 0 0)) = .val (4 * ev 0 0 * ev 0 0 - 2 * ev 0 0) ∧
    RealSpace.ev13 e (one 0) (Monomial.getConjugate (three 3 2 1)) = .val (4 * ev 0 3 * ev 1 2) := by
  refine ⟨fun i j => rfl, ?_, ?_, ?_, ?_, ?_, ?_, ?_, ?_⟩ <;>
    simp [RealSpace.ev31, RealSpace.ev13, three, Monomial.getConjugate, Op.conjugate, MomentumSpace.vecAt, Res.bind] <;> ring

end Ieompp.RepoTests
