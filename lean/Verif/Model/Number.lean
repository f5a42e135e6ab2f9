import Mathlib.Data.Complex.Basic

/-!
# Model of `include/ieompp/types/number/{complex,is_zero,is_equal}.hpp`, `types/matrix_check.hpp`,
`types/function_matrix.hpp`

`double` is `ℝ`, `std::complex<double>` is `ℂ`; `eps` is `std::numeric_limits<double>::epsilon()`.
-/

set_option autoImplicit false

namespace Ieompp

/-- types/number/complex.hpp:42-47: `conjugate` of a complex number. -/
def conjugateC (t : ℂ) : ℂ := ⟨t.re, -t.im⟩

/-- types/number/complex.hpp:49-53: `conjugate` of a real number. -/
def conjugateR (t : ℝ) : ℝ := t

/-- types/number/complex.hpp:55-61: `multiply_with_conjugate`. -/
def multiplyWithConjugate (a b : ℂ) : ℂ := ⟨a.re * b.re + a.im * b.im, -a.re * b.im + b.re * a.im⟩

/-- types/number/complex.hpp:63-67: `add_conjugate_products`. -/
def addConjugateProducts (a b : ℂ) : ℝ := 2 * (a.re * b.re + a.im * b.im)

/-- types/number/is_zero.hpp:12-16: `IsZero` for integers. -/
def isZeroInt (t : ℤ) : Prop := t = 0

/-- types/number/is_zero.hpp:18-23: `IsZero` for floating point numbers. -/
def isZeroR (eps t : ℝ) : Prop := |t| < eps

/-- types/number/is_zero.hpp:25-31: the same with a maximal deviation. -/
def isZeroDevR (eps t maxDev : ℝ) : Prop := |t| < maxDev + eps

/-- types/number/is_zero.hpp:33-38: `IsZero` for complex numbers. -/
def isZeroC (eps : ℝ) (t : ℂ) : Prop := isZeroR eps t.re ∧ isZeroR eps t.im

/-- types/number/is_zero.hpp:40-46: the same with a maximal deviation. -/
def isZeroDevC (eps : ℝ) (t : ℂ) (maxDev : ℝ) : Prop := isZeroDevR eps t.re maxDev ∧ isZeroDevR eps t.im maxDev

/-- types/number/is_equal.hpp:12-17: `IsEqual` for integers. -/
def isEqualInt (a b : ℤ) : Prop := a = b

/-- types/number/is_equal.hpp:19-25: `IsEqual` for floating point numbers. -/
def isEqualR (eps a b : ℝ) : Prop := |a - b| < eps

/-- types/number/is_equal.hpp:27-33: the same with a maximal deviation. -/
def isEqualDevR (eps a b maxDev : ℝ) : Prop := |a - b| < maxDev + eps

/-- types/number/is_equal.hpp:35-40: `IsEqual` for complex numbers. -/
def isEqualC (eps : ℝ) (a b : ℂ) : Prop := isEqualR eps a.re b.re ∧ isEqualR eps a.im b.im

/-- types/number/is_equal.hpp:42-49: the same with a maximal deviation. -/
def isEqualDevC (eps : ℝ) (a b : ℂ) (maxDev : ℝ) : Prop :=
  isEqualDevR eps a.re b.re maxDev ∧ isEqualDevR eps a.im b.im maxDev

/-! ### Matrices -/

/-- A matrix as seen through `rows`, `columns` and `operator()`; also function_matrix.hpp:14-34 (`FunctionMatrix`). -/
structure Mat (S : Type*) where
  rows : ℕ
  cols : ℕ
  at' : ℕ → ℕ → S

/-- The two nested loops `for(i = 0; i < N; ++i) for(j = 0; j < bound(i); ++j) if(!test(i,j)) return false;`, then
`return true`. matrix_check.hpp:28-36, 49-57. -/
def forAllLoop (N : ℕ) (bound : ℕ → ℕ) (test : ℕ → ℕ → Bool) : Bool :=
  (List.range N).all fun i => (List.range (bound i)).all fun j => test i j

/-- The same loops with `return true` for a failing test and `return false` at the end.
function_matrix.hpp:58-65. -/
def existsLoop (N : ℕ) (bound : ℕ → ℕ) (test : ℕ → ℕ → Bool) : Bool :=
  (List.range N).any fun i => (List.range (bound i)).any fun j => !test i j

namespace Mat
variable {S : Type*}

/-- types/matrix_check.hpp:12-16, function_matrix.hpp:92-96: `is_quadratic`. -/
def isQuadratic (m : Mat S) : Bool := m.rows == m.cols

open Classical in
/-- types/matrix_check.hpp:18-37, function_matrix.hpp:98-115: `is_symmetric` (`eq` is `IsEqual` of the scalar). -/
noncomputable def isSymmetric (eq : S → S → Prop) (m : Mat S) : Bool :=
  if !m.isQuadratic then false else forAllLoop m.rows (fun i => i) fun i j => decide (eq (m.at' i j) (m.at' j i))

open Classical in
/-- types/matrix_check.hpp:39-58: generic `is_hermitian` (`conj` is `conjugate` of the scalar). It compares `m(i, j)`
with the conjugate of `m(i, j)`. -/
noncomputable def isHermitianGeneric (eq : S → S → Prop) (conj : S → S) (m : Mat S) : Bool :=
  if !m.isQuadratic then false
  else forAllLoop m.rows (fun i => i + 1) fun i j => decide (eq (m.at' i j) (conj (m.at' i j)))

open Classical in
/-- function_matrix.hpp:117-134: `is_hermitian` of a `FunctionMatrix`. -/
noncomputable def isHermitianFunction (eq : S → S → Prop) (conj : S → S) (m : Mat S) : Bool :=
  if !m.isQuadratic then false
  else forAllLoop m.rows (fun i => i + 1) fun i j => decide (eq (m.at' i j) (conj (m.at' j i)))

open Classical in
/-- types/matrix_check.hpp:60-74: `IsZero` of a matrix. The code uses an undeclared name `t` for `m`; modelled as
evidently intended. -/
noncomputable def isZeroM (zero : S → Prop) (m : Mat S) : Bool :=
  forAllLoop m.rows (fun _ => m.cols) fun i j => decide (zero (m.at' i j))

open Classical in
/-- function_matrix.hpp:36-50: `operator==`. -/
noncomputable def eqM (eq : S → S → Prop) (a b : Mat S) : Bool :=
  if a.rows ≠ b.rows ∨ a.cols ≠ b.cols then false
  else forAllLoop a.rows (fun _ => a.cols) fun i j => decide (eq (a.at' i j) (b.at' i j))

open Classical in
/-- function_matrix.hpp:52-66: `operator!=`. -/
noncomputable def neM (eq : S → S → Prop) (a b : Mat S) : Bool :=
  if a.rows ≠ b.rows ∨ a.cols ≠ b.cols then true
  else existsLoop a.rows (fun _ => a.cols) fun i j => decide (eq (a.at' i j) (b.at' i j))

end Mat

end Ieompp
