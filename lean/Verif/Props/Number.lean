import Verif.Model.Number
import Mathlib.Analysis.SpecialFunctions.Pow.Real
import Mathlib.Data.Complex.BigOperators
import Mathlib.Tactic.Linarith
import Mathlib.Tactic.Ring
import Mathlib.Tactic.IntervalCases

/-! # C41, C42: complex helper functions, tolerance tests, matrix checks -/

set_option autoImplicit false
set_option linter.unusedSectionVars false

namespace Ieompp

open ComplexConjugate

/-- C41: the complex helpers compute what their names say. -/
theorem complex_helpers (a b : ℂ) (r : ℝ) :
    conjugateC a = conj a ∧ conjugateR r = r ∧ multiplyWithConjugate a b = a * conj b ∧
    ((addConjugateProducts a b : ℝ) : ℂ) = a * conj b + conj a * b := by
  refine ⟨?_, rfl, ?_, ?_⟩
  · apply Complex.ext <;> simp [conjugateC]
  · apply Complex.ext <;> simp [multiplyWithConjugate]; ring
  · apply Complex.ext
    · simp [addConjugateProducts]; ring
    · simp [addConjugateProducts]; ring

/-- C41: `multiply_with_conjugate(a, a)` is the squared modulus; exchanging the arguments conjugates. -/
theorem multiplyWithConjugate_self (a b : ℂ) : multiplyWithConjugate a a = (Complex.normSq a : ℂ) ∧
    multiplyWithConjugate b a = conj (multiplyWithConjugate a b) := by
  constructor
  · rw [(complex_helpers a a 0).2.2.1, Complex.mul_conj]
  · rw [(complex_helpers b a 0).2.2.1, (complex_helpers a b 0).2.2.1]; simp [mul_comm]

/-- C41: the tolerance tests are reflexive and symmetric, `IsEqual(a, b)` is `IsZero(a - b)`, a zero deviation is the
plain test, and a larger deviation accepts more; equal numbers are never farther apart than the tolerance in each
component. -/
theorem isEqual_consistent (eps : ℝ) (heps : 0 < eps) (a b : ℝ) (x y : ℂ) (d d' : ℝ) (hd : 0 ≤ d) (hdd : d ≤ d') :
    isEqualR eps a a ∧ isEqualC eps x x ∧ isEqualDevR eps a a d ∧ isEqualDevC eps x x d ∧
    (isEqualR eps a b ↔ isEqualR eps b a) ∧ (isEqualC eps x y ↔ isEqualC eps y x) ∧
    (isEqualDevR eps a b d ↔ isEqualDevR eps b a d) ∧ (isEqualDevC eps x y d ↔ isEqualDevC eps y x d) ∧
    (isEqualR eps a b ↔ isZeroR eps (a - b)) ∧ (isEqualC eps x y ↔ isZeroC eps (x - y)) ∧
    (isEqualDevR eps a b d ↔ isZeroDevR eps (a - b) d) ∧ (isEqualDevC eps x y d ↔ isZeroDevC eps (x - y) d) ∧
    (isEqualDevR eps a b 0 ↔ isEqualR eps a b) ∧ (isEqualDevC eps x y 0 ↔ isEqualC eps x y) ∧
    (isEqualDevR eps a b d → isEqualDevR eps a b d') ∧ (isEqualDevC eps x y d → isEqualDevC eps x y d') := by
  unfold isEqualC isEqualDevC isZeroC isZeroDevC isEqualR isEqualDevR isZeroR isZeroDevR
  refine ⟨by simpa, by simpa, by simp; linarith, by simp; linarith, by rw [abs_sub_comm],
    by rw [abs_sub_comm x.re, abs_sub_comm x.im], by rw [abs_sub_comm],
    by rw [abs_sub_comm x.re, abs_sub_comm x.im], Iff.rfl, by simp, Iff.rfl, by simp, by simp, by simp, ?_, ?_⟩
  · intro h; linarith
  · rintro ⟨h1, h2⟩; exact ⟨by linarith, by linarith⟩

/-- C41: the complex tests bound the modulus: numbers that are equal within `d` have distance below `√2 (d + eps)`, and
numbers closer than `d + eps` are accepted. -/
theorem isEqualDevC_norm (eps : ℝ) (x y : ℂ) (d : ℝ) :
    (isEqualDevC eps x y d → ‖x - y‖ < Real.sqrt 2 * (d + eps)) ∧ (‖x - y‖ < d + eps → isEqualDevC eps x y d) := by
  unfold isEqualDevC isEqualDevR
  have hre := Complex.abs_re_le_norm (x - y)
  have him := Complex.abs_im_le_norm (x - y)
  rw [Complex.sub_re] at hre
  rw [Complex.sub_im] at him
  refine ⟨?_, fun h => ⟨by linarith, by linarith⟩⟩
  rintro ⟨h1, h2⟩
  have hp : 0 < d + eps := lt_of_le_of_lt (abs_nonneg _) h1
  have e : ‖x - y‖ ^ 2 = (x.re - y.re) ^ 2 + (x.im - y.im) ^ 2 := by
    rw [← Complex.normSq_eq_norm_sq, Complex.normSq_apply]; simp; ring
  have k1 : (x.re - y.re) ^ 2 < (d + eps) ^ 2 := by rw [← sq_abs (x.re - y.re)]; gcongr
  have k2 : (x.im - y.im) ^ 2 < (d + eps) ^ 2 := by rw [← sq_abs (x.im - y.im)]; gcongr
  have k3 : ‖x - y‖ ^ 2 < (Real.sqrt 2 * (d + eps)) ^ 2 := by
    rw [e, mul_pow, Real.sq_sqrt (by norm_num)]; linarith
  exact lt_of_pow_lt_pow_left₀ 2 (by positivity) k3

/-- C41: integers are compared exactly. -/
theorem isEqualInt_exact (a b : ℤ) : (isEqualInt a b ↔ a = b) ∧ (isEqualInt a b ↔ isZeroInt (a - b)) :=
  ⟨Iff.rfl, by unfold isEqualInt isZeroInt; omega⟩

/-- C41, a limit of the tolerance test: it is not transitive. -/
theorem isEqualR_not_transitive (eps : ℝ) (heps : 0 < eps) :
    ∃ a b c : ℝ, isEqualR eps a b ∧ isEqualR eps b c ∧ ¬ isEqualR eps a c := by
  refine ⟨0, eps / 2, eps, ?_, ?_, ?_⟩ <;> unfold isEqualR
  · rw [zero_sub, abs_neg, abs_of_pos (by linarith)]; linarith
  · rw [abs_sub_comm, abs_of_nonneg (by linarith)]; linarith
  · rw [zero_sub, abs_neg, abs_of_pos heps]; exact lt_irrefl _

example : isEqualC 1 (3 + 4 * Complex.I) (3 + 4 * Complex.I) := (isEqual_consistent 1 one_pos 0 0 _ 0 0 0 le_rfl le_rfl).2.1

/-! ### Matrix checks -/

theorem forAllLoop_iff (N : ℕ) (bound : ℕ → ℕ) (test : ℕ → ℕ → Bool) :
    forAllLoop N bound test = true ↔ ∀ i < N, ∀ j < bound i, test i j = true := by
  simp [forAllLoop]

theorem existsLoop_eq (N : ℕ) (bound : ℕ → ℕ) (test : ℕ → ℕ → Bool) :
    existsLoop N bound test = !forAllLoop N bound test := by
  simp [existsLoop, forAllLoop, List.not_all_eq_any_not]

namespace Mat
variable {S : Type*}

/-- C42: `is_symmetric` (both versions) is true exactly for square matrices all of whose elements equal their mirror
images, for every reflexive and symmetric test of equality of elements. -/
theorem isSymmetric_iff (eq : S → S → Prop) (hr : ∀ x, eq x x) (hs : ∀ x y, eq x y → eq y x) (m : Mat S) :
    m.isSymmetric eq = true ↔ m.rows = m.cols ∧ ∀ i < m.rows, ∀ j < m.rows, eq (m.at' i j) (m.at' j i) := by
  unfold isSymmetric isQuadratic
  by_cases hq : m.rows = m.cols
  · simp only [hq, beq_self_eq_true, Bool.not_true, Bool.false_eq_true, if_false, true_and]
    rw [forAllLoop_iff]
    simp only [decide_eq_true_eq]
    constructor
    · intro h i hi j hj
      rcases lt_trichotomy i j with hij | rfl | hij
      · exact hs _ _ (h j hj i hij)
      · exact hr _
      · exact h i hi j hij
    · intro h i hi j hj
      exact h i hi j (lt_trans hj hi)
  · simp [hq]

/-- C42: `is_hermitian` of a `FunctionMatrix` is true exactly for square matrices all of whose elements equal the
conjugates of their mirror images. -/
theorem isHermitianFunction_iff (eq : S → S → Prop) (cj : S → S)
    (hs : ∀ x y, eq x (cj y) → eq y (cj x)) (m : Mat S) :
    m.isHermitianFunction eq cj = true ↔
      m.rows = m.cols ∧ ∀ i < m.rows, ∀ j < m.rows, eq (m.at' i j) (cj (m.at' j i)) := by
  unfold isHermitianFunction isQuadratic
  by_cases hq : m.rows = m.cols
  · simp only [hq, beq_self_eq_true, Bool.not_true, Bool.false_eq_true, if_false, true_and]
    rw [forAllLoop_iff]
    simp only [decide_eq_true_eq]
    constructor
    · intro h i hi j hj
      rcases Nat.lt_or_ge i j with hij | hij
      · exact hs _ _ (h j hj i (by omega))
      · exact h i hi j (by omega)
    · intro h i hi j hj
      exact h i hi j (by omega)
  · simp [hq]

/-- C42: the tolerance tests satisfy the hypotheses of the two theorems. -/
theorem tolerance_hypotheses (eps : ℝ) (heps : 0 < eps) :
    (∀ x, isEqualC eps x x) ∧ (∀ x y, isEqualC eps x y → isEqualC eps y x) ∧
    (∀ x y, isEqualC eps x (conjugateC y) → isEqualC eps y (conjugateC x)) ∧
    (∀ x, isEqualR eps x x) ∧ (∀ x y, isEqualR eps x y → isEqualR eps y x) ∧
    (∀ x y, isEqualR eps x (conjugateR y) → isEqualR eps y (conjugateR x)) := by
  have hR : ∀ x y, isEqualR eps x y → isEqualR eps y x := fun x y h => by
    unfold isEqualR at *; rwa [abs_sub_comm]
  refine ⟨fun x => by simp [isEqualC, isEqualR, heps], fun x y h => ⟨hR _ _ h.1, hR _ _ h.2⟩, ?_,
    fun x => by simp [isEqualR, heps], hR, hR⟩
  rintro x y ⟨h1, h2⟩
  refine ⟨hR _ _ h1, ?_⟩
  unfold isEqualR conjugateC at *
  simp only [sub_neg_eq_add] at *
  rwa [add_comm]

/-- C42, what the generic `is_hermitian` really decides: whether the matrix is square and its lower triangle is real
up to the tolerance. -/
theorem isHermitianGeneric_partial (eps : ℝ) (m : Mat ℂ) :
    m.isHermitianGeneric (isEqualC eps) conjugateC = true ↔
      m.rows = m.cols ∧ ∀ i < m.rows, ∀ j ≤ i, 0 < eps ∧ 2 * |(m.at' i j).im| < eps := by
  unfold isHermitianGeneric isQuadratic
  have key : ∀ z : ℂ, isEqualC eps z (conjugateC z) ↔ 0 < eps ∧ 2 * |z.im| < eps := by
    intro z
    unfold isEqualC isEqualR conjugateC
    simp only [sub_self, abs_zero, sub_neg_eq_add]
    rw [show z.im + z.im = 2 * z.im by ring, abs_mul, abs_two]
  by_cases hq : m.rows = m.cols
  · simp only [hq, beq_self_eq_true, Bool.not_true, Bool.false_eq_true, if_false, true_and]
    rw [forAllLoop_iff]
    simp only [decide_eq_true_eq, key, Nat.lt_succ_iff]
  · simp [hq]

/-- C42 is false of the generic `is_hermitian`: it rejects the Hermitian matrix `[[0, i], [-i, 0]]` and accepts the
matrices `[[0, 1], [2, 0]]` and `[[0, i], [0, 0]]`, which are not Hermitian. -/
theorem isHermitianGeneric_wrong (eps : ℝ) (heps : 0 < eps) (h1 : eps ≤ 1) :
    (∃ m : Mat ℂ, m.rows = m.cols ∧ (∀ i j, m.at' i j = conj (m.at' j i)) ∧
      m.isHermitianGeneric (isEqualC eps) conjugateC = false) ∧
    (∃ m : Mat ℂ, m.at' 0 1 = 1 ∧ m.at' 1 0 = 2 ∧ m.isHermitianGeneric (isEqualC eps) conjugateC = true) ∧
    (∃ m : Mat ℂ, m.at' 0 1 = Complex.I ∧ m.at' 1 0 = 0 ∧
      m.isHermitianGeneric (isEqualC eps) conjugateC = true) := by
  refine ⟨⟨⟨2, 2, fun i j => if i = 0 ∧ j = 1 then Complex.I else if i = 1 ∧ j = 0 then -Complex.I else 0⟩, rfl, ?_, ?_⟩,
    ⟨⟨2, 2, fun i j => if i = 0 ∧ j = 1 then 1 else if i = 1 ∧ j = 0 then 2 else 0⟩, by simp, by simp, ?_⟩,
    ⟨⟨2, 2, fun i j => if i = 0 ∧ j = 1 then Complex.I else 0⟩, by simp, by simp, ?_⟩⟩
  · intro i j
    by_cases a : i = 0 ∧ j = 1
    · simp [a]
    · by_cases b : i = 1 ∧ j = 0
      · simp [b]
      · have a' : ¬ (j = 1 ∧ i = 0) := fun h => a h.symm
        have b' : ¬ (j = 0 ∧ i = 1) := fun h => b h.symm
        simp only [if_neg a, if_neg b, if_neg a', if_neg b', map_zero]
  · rw [← Bool.not_eq_true, isHermitianGeneric_partial]
    rintro ⟨_, h⟩
    have := (h 1 (by norm_num) 0 (by norm_num)).2
    simp at this
    linarith
  · rw [isHermitianGeneric_partial]
    refine ⟨rfl, fun i _ j _ => ⟨heps, ?_⟩⟩
    show 2 * |(if i = 0 ∧ j = 1 then (1 : ℂ) else if i = 1 ∧ j = 0 then 2 else 0).im| < eps
    split
    · simpa using heps
    · split <;> simpa using heps
  · rw [isHermitianGeneric_partial]
    refine ⟨rfl, fun i hi j hj => ⟨heps, ?_⟩⟩
    show 2 * |(if i = 0 ∧ j = 1 then Complex.I else 0).im| < eps
    rw [if_neg (by omega)]
    simpa using heps

/-- C42: on real matrices the generic `is_hermitian` accepts every square matrix. -/
theorem isHermitianGeneric_real (eps : ℝ) (heps : 0 < eps) (m : Mat ℝ) :
    m.isHermitianGeneric (isEqualR eps) conjugateR = true ↔ m.rows = m.cols := by
  unfold isHermitianGeneric isQuadratic
  by_cases hq : m.rows = m.cols
  · simp only [hq, beq_self_eq_true, Bool.not_true, Bool.false_eq_true, if_false, iff_true]
    rw [forAllLoop_iff]
    intro i _ j _
    simp [isEqualR, conjugateR, heps]
  · simp [hq]

/-- C42: `IsZero` of a matrix (as evidently intended) and the comparison operators decide the element-wise tests, and
`!=` is the negation of `==`. -/
theorem matrix_compare (eq : S → S → Prop) (zero : S → Prop) (a b : Mat S) :
    (a.isZeroM zero = true ↔ ∀ i < a.rows, ∀ j < a.cols, zero (a.at' i j)) ∧
    (a.eqM eq b = true ↔ a.rows = b.rows ∧ a.cols = b.cols ∧ ∀ i < a.rows, ∀ j < a.cols, eq (a.at' i j) (b.at' i j)) ∧
    a.neM eq b = !a.eqM eq b := by
  refine ⟨by simp [isZeroM, forAllLoop_iff], ?_, ?_⟩
  · unfold eqM
    by_cases h : a.rows ≠ b.rows ∨ a.cols ≠ b.cols
    · rw [if_pos h]
      constructor
      · intro h'; simp at h'
      · rintro ⟨h1, h2, _⟩; exact absurd h (by simp [h1, h2])
    · rw [if_neg h, forAllLoop_iff]
      push Not at h
      simp [h.1, h.2]
  · unfold neM eqM
    by_cases h : a.rows ≠ b.rows ∨ a.cols ≠ b.cols
    · rw [if_pos h, if_pos h]; rfl
    · rw [if_neg h, if_neg h, existsLoop_eq]

/-- Non-vacuity: a Hermitian matrix that is recognised. -/
example : (⟨2, 2, fun i j => if i = 0 ∧ j = 1 then Complex.I else if i = 1 ∧ j = 0 then -Complex.I else 0⟩ :
    Mat ℂ).isHermitianFunction (isEqualC 1) conjugateC = true := by
  rw [isHermitianFunction_iff _ _ (tolerance_hypotheses 1 one_pos).2.2.1]
  refine ⟨rfl, ?_⟩
  intro i hi j hj
  simp only at hi hj ⊢
  interval_cases i <;> interval_cases j <;> simp [isEqualC, isEqualR, conjugateC]

end Mat

end Ieompp
