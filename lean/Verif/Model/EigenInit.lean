import Mathlib.Data.List.Basic

/-!
# Model of `include/ieompp/types/eigen/init.hpp`

The functions fill an Eigen matrix from a function of row and column. `S` is the scalar, `zero` the test `IsZero` of the
scalar (types/number/is_zero.hpp). A matrix index is a natural number (a negative number of rows is an assertion of
Eigen). `f` is a pure function. `none` is undefined behaviour. The signatures in the file name `IndexType::index`,
`ScalarType::scalar` and `IndexType::Index`, which types/eigen/traits.hpp does not declare (it declares `type`): the
bodies are modelled as written and the types as evidently meant.
-/

set_option autoImplicit false

namespace Ieompp
namespace Eigen

variable {S : Type}

/-- An `Eigen::SparseMatrix`: its size and the entries in the order of insertion. init.hpp:20, 38 (Eigen library type). -/
structure Sparse (S : Type) where
  rows : ℕ
  cols : ℕ
  entries : List ((ℕ × ℕ) × S)

/-- `Eigen::SparseMatrix(rows, cols)`: an empty matrix. init.hpp:20, 38. -/
def Sparse.make (rows cols : ℕ) : Sparse S := ⟨rows, cols, []⟩

/-- `m.insert(i, j) = val` of `Eigen::SparseMatrix`: the position must be inside the matrix and must not be stored
already ("if the element already exists, the behaviour is undefined"). init.hpp:24, 43-44, 48 (Eigen library function). -/
def Sparse.insert (m : Sparse S) (i j : ℕ) (val : S) : Option (Sparse S) :=
  if i < m.rows ∧ j < m.cols ∧ ∀ e ∈ m.entries, e.1 ≠ (i, j) then some { m with entries := m.entries ++ [((i, j), val)] }
  else none

/-- `m.coeff(i, j)` of `Eigen::SparseMatrix`: the stored value, or zero.
Library function, with which a user reads the result of init.hpp:12-50. -/
def Sparse.coeff [Zero S] (m : Sparse S) (i j : ℕ) : S :=
  ((m.entries.find? fun e => decide (e.1 = (i, j))).map Prod.snd).getD 0

/-- An `Eigen::Matrix` with the coefficients as a function; outside of the matrix the function is not used.
init.hpp:62, 79 (Eigen library type). -/
structure Dense (S : Type) where
  rows : ℕ
  cols : ℕ
  val : ℕ → ℕ → S

/-- `Matrix::Zero(rows, cols)`. init.hpp:62, 79. -/
def Dense.zero [Zero S] (rows cols : ℕ) : Dense S := ⟨rows, cols, fun _ _ => 0⟩

/-- `m(i, j) = v`. init.hpp:65, 83-84, 86. -/
def Dense.set (m : Dense S) (i j : ℕ) (v : S) : Option (Dense S) :=
  if i < m.rows ∧ j < m.cols then
    some { m with val := fun i' j' => if i' = i ∧ j' = j then v else m.val i' j' }
  else none

/-- `for(Index i = 0; i < n; ++i) body(i)` changing the matrix `m`. init.hpp:21-22, 39-40, 63-64, 80-81. -/
def forM {M : Type} (n : ℕ) (m : M) (body : M → ℕ → Option M) : Option M := (List.range n).foldlM body m

/-- eigen/init.hpp:10-27: `init` of a sparse matrix. -/
def initSparse (zero : S → Bool) (_m : Sparse S) (rows cols : ℕ) (f : ℕ → ℕ → S) : Option (Sparse S) :=
  forM rows (Sparse.make rows cols) fun m i =>
    forM cols m fun m j =>
      if !zero (f i j) then m.insert i j (f i j) else some m

/-- eigen/init.hpp:29-50: `init_symmetric` of a sparse matrix. -/
def initSymmetricSparse (zero : S → Bool) (_m : Sparse S) (rows : ℕ) (f : ℕ → ℕ → S) : Option (Sparse S) :=
  forM rows (Sparse.make rows rows) fun m i => do
    let m ← forM i m fun m j =>
      if !zero (f i j) then do
        let m ← m.insert i j (f i j)
        m.insert j i (f i j)
      else some m
    if !zero (f i i) then m.insert i i (f i i) else some m

/-- eigen/init.hpp:52-69: `init` of a dense matrix. -/
def initDense [Zero S] (_m : Dense S) (rows cols : ℕ) (f : ℕ → ℕ → S) : Option (Dense S) :=
  forM rows (Dense.zero rows cols) fun m i =>
    forM cols m fun m j => m.set i j (f i j)

/-- eigen/init.hpp:71-89: `init_symmetric` of a dense matrix. -/
def initSymmetricDense [Zero S] (_m : Dense S) (rows : ℕ) (f : ℕ → ℕ → S) : Option (Dense S) :=
  forM rows (Dense.zero rows rows) fun m i => do
    let m ← forM i m fun m j => do
      let m ← m.set i j (f i j)
      m.set j i (f i j)
    m.set i i (f i i)

end Eigen
end Ieompp
