import Verif.Props.Projection
import Mathlib.Analysis.Calculus.MeanValue
import Mathlib.Analysis.Complex.Basic
import Mathlib.Analysis.Calculus.Deriv.Star
import Mathlib.Analysis.Calculus.Deriv.Mul
import Mathlib.Analysis.Calculus.Deriv.Add

/-! # C29: the flow generated by `i M` -/

set_option autoImplicit false
set_option linter.unusedSectionVars false

namespace Ieompp

open Spec

/-- C29: a flow `v' = i M v` with a real symmetric matrix conserves the norm of `v`. -/
theorem flow_norm (n : ℕ) (M : ℕ → ℕ → ℝ) (hM : ∀ p < n, ∀ q < n, M p q = M q p) (v : ℝ → ℕ → ℂ)
    (hv : ∀ t, ∀ p < n, HasDerivAt (fun t => v t p)
      (Complex.I * ∑ q ∈ Finset.range n, (M p q : ℂ) * v t q) t) (t s : ℝ) :
    ∑ p ∈ Finset.range n, ‖v t p‖ ^ 2 = ∑ p ∈ Finset.range n, ‖v s p‖ ^ 2 := by
  set f : ℝ → ℂ := fun t => ∑ p ∈ Finset.range n, star (v t p) * v t p with hf
  have hd : ∀ t, HasDerivAt f 0 t := by
    intro t
    have : HasDerivAt f (∑ p ∈ Finset.range n,
        (star (Complex.I * ∑ q ∈ Finset.range n, (M p q : ℂ) * v t q) * v t p +
          star (v t p) * (Complex.I * ∑ q ∈ Finset.range n, (M p q : ℂ) * v t q))) t := by
      rw [hf]
      apply HasDerivAt.fun_sum
      intro p hp
      have := hv t p (Finset.mem_range.1 hp)
      exact this.star.mul this
    convert this using 1
    simp only [star_mul', star_sum, Complex.star_def, Complex.conj_I, Complex.conj_ofReal, Finset.mul_sum, Finset.sum_mul]
    rw [Finset.sum_add_distrib]
    rw [Finset.sum_comm, ← Finset.sum_add_distrib]
    refine (Finset.sum_eq_zero ?_).symm
    intro p hp
    rw [← Finset.sum_add_distrib]
    refine Finset.sum_eq_zero ?_
    intro q hq
    rw [hM q (Finset.mem_range.1 hq) p (Finset.mem_range.1 hp)]
    ring
  have hc : f t = f s := is_const_of_deriv_eq_zero (fun t => (hd t).differentiableAt) (fun t => (hd t).deriv) t s
  have key : ∀ t, ((∑ p ∈ Finset.range n, ‖v t p‖ ^ 2 : ℝ) : ℂ) = f t := by
    intro t
    rw [hf]; push_cast
    apply Finset.sum_congr rfl
    intro p _
    rw [Complex.star_def, ← Complex.normSq_eq_conj_mul_self, Complex.normSq_eq_norm_sq]; push_cast; rfl
  have : ((∑ p ∈ Finset.range n, ‖v t p‖ ^ 2 : ℝ) : ℂ) = ((∑ p ∈ Finset.range n, ‖v s p‖ ^ 2 : ℝ) : ℂ) := by
    rw [key, key, hc]
  exact_mod_cast this

namespace RealSpace
variable {N z : ℕ} {nb : ℕ → List ℕ}

/-- C29: the exact flow generated by `i M`, `M` the complete matrix with real parameters, conserves the norm of the
coefficient vector. -/
theorem matrix_flow_norm (h : RegularLattice N z nb) (sort : List (Triplet ℝ) → List (Triplet ℝ)) (hs : IsSort sort)
    (J U : ℝ) : ∃ m, initMatrix sort N z nb J U = .val m ∧ m.rows = N + N * N * N ∧
      ∀ v : ℝ → ℕ → ℂ, (∀ t, ∀ p < m.rows, HasDerivAt (fun t => v t p)
        (Complex.I * ∑ q ∈ Finset.range m.rows, (m.get p q : ℂ) * v t q) t) →
      ∀ t s, ∑ p ∈ Finset.range m.rows, ‖v t p‖ ^ 2 = ∑ p ∈ Finset.range m.rows, ‖v s p‖ ^ 2 := by
  obtain ⟨m, h1, h2, _⟩ := initMatrix_ok h sort hs J U
  obtain ⟨m', h1', _, h3⟩ := initMatrix_symm h sort hs J U
  rw [h1] at h1'
  cases h1'
  exact ⟨m, h1, h2, fun v hv t s => flow_norm m.rows (fun p q => m.get p q) h3 v hv t s⟩

/-- C29: as above for the kinetic matrix. -/
theorem kineticMatrix_flow_norm (h : RegularLattice N z nb) (sort : List (Triplet ℝ) → List (Triplet ℝ)) (hs : IsSort sort)
    (J : ℝ) : ∃ m, initKineticMatrix sort N z nb J = .val m ∧ m.rows = N ∧
      ∀ v : ℝ → ℕ → ℂ, (∀ t, ∀ p < m.rows, HasDerivAt (fun t => v t p)
        (Complex.I * ∑ q ∈ Finset.range m.rows, (m.get p q : ℂ) * v t q) t) →
      ∀ t s, ∑ p ∈ Finset.range m.rows, ‖v t p‖ ^ 2 = ∑ p ∈ Finset.range m.rows, ‖v s p‖ ^ 2 := by
  obtain ⟨m, h1, h2, _⟩ := initKineticMatrix_ok h sort hs J
  obtain ⟨m', h1', _, h3⟩ := initKineticMatrix_symm h sort hs J
  rw [h1] at h1'
  cases h1'
  exact ⟨m, h1, h2, fun v hv t s => flow_norm m.rows (fun p q => m.get p q) h3 v hv t s⟩

variable {S R : Type*} [Field S] [Ring R] [Algebra S R] (C : CAROn N R)

/-- C27/C29: the right-hand side `M v` used by the integrator is the Heisenberg equation of the hopping Hamiltonian:
`Σ_p (M v)_p A_p = [T, Σ_p v_p A_p]`. (The commutator expands along rows, the integrator multiplies along columns; the
two agree because the matrix is symmetric.) -/
theorem kineticMatrix_heisenberg (h : RegularLattice N z nb) (sort : List (Triplet S) → List (Triplet S)) (hs : IsSort sort)
    (J : S) : ∃ m, initKineticMatrix sort N z nb J = .val m ∧ ∀ v : ℕ → S,
      ∑ p ∈ Finset.range N, (∑ q ∈ Finset.range N, m.get p q * v q) • C.basisOp (basis1 N) p =
        comm (C.hopping nb J) (∑ p ∈ Finset.range N, v p • C.basisOp (basis1 N) p) := by
  obtain ⟨m, h1, h2, h3, h4⟩ := kineticMatrix_commutator C h sort hs J
  obtain ⟨m', h1', _, hsym⟩ := initKineticMatrix_symm h sort hs J
  rw [h1] at h1'
  cases h1'
  refine ⟨m, h1, ?_⟩
  intro v
  have e : comm (C.hopping nb J) (∑ p ∈ Finset.range N, v p • C.basisOp (basis1 N) p) =
      ∑ q ∈ Finset.range N, v q • comm (C.hopping nb J) (C.basisOp (basis1 N) q) := by
    unfold Spec.comm
    rw [Finset.mul_sum, Finset.sum_mul, ← Finset.sum_sub_distrib]
    apply Finset.sum_congr rfl
    intro q _
    rw [mul_smul_comm, smul_mul_assoc, smul_sub]
  rw [e]
  have e2 : ∀ q ∈ Finset.range N, v q • comm (C.hopping nb J) (C.basisOp (basis1 N) q) =
      ∑ p ∈ Finset.range N, (m.get p q * v q) • C.basisOp (basis1 N) p := by
    intro q hq
    rw [← h4 q (Finset.mem_range.1 hq), h3, Finset.smul_sum]
    apply Finset.sum_congr rfl
    intro p hp
    rw [hsym q (by rw [h2]; exact Finset.mem_range.1 hq) p (by rw [h2]; exact Finset.mem_range.1 hp), smul_smul, mul_comm]
  rw [Finset.sum_congr rfl e2, Finset.sum_comm]
  apply Finset.sum_congr rfl
  intro p _
  rw [Finset.sum_smul]

end RealSpace

/-! ## Non-vacuity -/

/-- A `std::sort` exists. -/
theorem mergeSort_isSort {S : Type*} : IsSort (fun l : List (Triplet S) => l.mergeSort (fun a b => a.column ≤ b.column)) := by
  intro l
  refine ⟨List.mergeSort_perm _ _, ?_⟩
  have := List.pairwise_mergeSort (le := fun a b : Triplet S => decide (a.column ≤ b.column))
    (by intro a b c; simp only [decide_eq_true_eq]; omega) (by intro a b; simp only [Bool.or_eq_true, decide_eq_true_eq]; omega) l
  exact this.imp (fun h => by simpa using h)

/-- A four-site chain meets all hypotheses of C26–C29. -/
example : ∃ m, RealSpace.initMatrix (fun l : List (Triplet ℝ) => l.mergeSort (fun a b => a.column ≤ b.column)) 4 2
    (Chain.real (K := ℝ) 4 1).neighbors 1 2 = .val m :=
  (RealSpace.initMatrix_ok (chain_regular (.real (1:ℝ) (by omega) rfl) (by omega)) _ mergeSort_isSort 1 2).imp
    (fun _ h => h.1)

end Ieompp
