import Verif.Props.ProgramFloat
import Mathlib.Analysis.Calculus.MeanValue

/-! # Perturbation of the equations of motion: how far the solutions for two symmetric matrices drift apart -/

set_option autoImplicit false
set_option linter.unusedSectionVars false

namespace Ieompp.ODE

open Ieompp.Spec (norm2)

variable {n : ℕ}

/-- `exp(-s i m)` does not change the norm. -/
theorem exp_isometry (m : ℕ → ℕ → ℝ) (hsym : ∀ i < n, ∀ j < n, m i j = m j i) (s : ℝ) (x : EuclideanSpace ℂ (Fin n)) :
    ‖NormedSpace.exp (s • -op2 (mat n fun i j => Complex.I * (m i j : ℂ))) x‖ = ‖x‖ := by
  set A := op2 (mat n fun i j => Complex.I * (m i j : ℂ)) with hA
  set L : EuclideanSpace ℂ (Fin n) →L[ℝ] (Fin n → ℂ) := (PiLp.continuousLinearEquiv 2 ℝ fun _ : Fin n => ℂ).toContinuousLinearMap with hL
  set g : ℝ → EuclideanSpace ℂ (Fin n) := fun s => NormedSpace.exp (s • -A) x with hg
  have hd : ∀ s, HasDerivAt g ((-A) (g s)) s := by
    intro s
    have h1 : HasDerivAt (fun s : ℝ => NormedSpace.exp (s • -A)) (-A * NormedSpace.exp (s • -A)) s := hasDerivAt_exp_smul_const' (𝕂 := ℝ) (-A) s
    have h2 := h1.clm_apply (hasDerivAt_const s x)
    refine h2.congr_deriv ?_
    rw [map_zero, add_zero, ContinuousLinearMap.mul_apply]
  have hv : ∀ s, HasDerivAt (fun s => L (g s)) (fun i => ∑ j : Fin n, Complex.I * ((-m i j : ℝ) : ℂ) * (L (g s)) j) s := by
    intro s
    have := L.hasFDerivAt.comp_hasDerivAt s (hd s)
    refine this.congr_deriv ?_
    funext i
    show (-((mat n fun i j => Complex.I * (m i j : ℂ)).mulVec (g s).ofLp)) i = _
    rw [Pi.neg_apply, Matrix.mulVec, dotProduct, ← Finset.sum_neg_distrib]
    refine Finset.sum_congr rfl fun j _ => ?_
    show -(Complex.I * (m i j : ℂ) * (g s).ofLp j) = Complex.I * ((-m i j : ℝ) : ℂ) * (g s).ofLp j
    push_cast; ring
  have key := solution_norm (fun i j => -m i j) (fun i hi j hj => by rw [hsym i hi j hj]) _ hv s
  have e : ∀ y : EuclideanSpace ℂ (Fin n), norm2 (L y) = ‖y‖ := fun y => norm2_eq (L y)
  rw [e, e] at key
  rw [key, hg]
  simp [NormedSpace.exp_zero]

/-- Two solutions of `v' = i m v` and `v' = i m' v` that start at the same vector are at most `|t| η ‖v(0)‖` apart, where `η` bounds the absolute
row sums of `m' - m`. -/
theorem solutions_close (m m' : ℕ → ℕ → ℝ) (hsym : ∀ i < n, ∀ j < n, m i j = m j i) (hsym' : ∀ i < n, ∀ j < n, m' i j = m' j i) {η : ℝ}
    (hη0 : 0 ≤ η) (hη : ∀ i < n, ∑ j ∈ Finset.range n, |m' i j - m i j| ≤ η) (v v' : ℝ → Fin n → ℂ)
    (hv : ∀ t, HasDerivAt v (fun i => ∑ j : Fin n, Complex.I * (m i j : ℂ) * v t j) t)
    (hv' : ∀ t, HasDerivAt v' (fun i => ∑ j : Fin n, Complex.I * (m' i j : ℂ) * v' t j) t) (h0 : v' 0 = v 0) (T : ℝ) :
    norm2 (v' T - v T) ≤ η * norm2 (v 0) * |T| := by
  set M : ℕ → ℕ → ℂ := fun i j => Complex.I * (m i j : ℂ) with hM
  set M' : ℕ → ℕ → ℂ := fun i j => Complex.I * (m' i j : ℂ) with hM'
  set A := op2 (mat n M) with hA
  set A' := op2 (mat n M') with hA'
  set L : (Fin n → ℂ) →L[ℝ] EuclideanSpace ℂ (Fin n) := (PiLp.continuousLinearEquiv 2 ℝ fun _ : Fin n => ℂ).symm.toContinuousLinearMap with hL
  set V : ℝ → EuclideanSpace ℂ (Fin n) := fun s => WithLp.toLp 2 (v s) with hV
  set V' : ℝ → EuclideanSpace ℂ (Fin n) := fun s => WithLp.toLp 2 (v' s) with hV'
  have hVd : ∀ s, HasDerivAt V (A (V s)) s := fun s => L.hasFDerivAt.comp_hasDerivAt s (hv s)
  have hVd' : ∀ s, HasDerivAt V' (A' (V' s)) s := fun s => L.hasFDerivAt.comp_hasDerivAt s (hv' s)
  set g : ℝ → EuclideanSpace ℂ (Fin n) := fun s => NormedSpace.exp (s • -A) (V s) with hg
  set g' : ℝ → EuclideanSpace ℂ (Fin n) := fun s => NormedSpace.exp (s • -A) (V' s) with hg'
  have hE : ∀ s, HasDerivAt (fun s : ℝ => NormedSpace.exp (s • -A)) (NormedSpace.exp (s • -A) * -A) s := fun s =>
    hasDerivAt_exp_smul_const (𝕂 := ℝ) (-A) s
  have hd : ∀ s, HasDerivAt g 0 s := by
    intro s
    refine ((hE s).clm_apply (hVd s)).congr_deriv ?_
    rw [ContinuousLinearMap.mul_apply, ContinuousLinearMap.neg_apply, map_neg, neg_add_cancel]
  have hd' : ∀ s, HasDerivAt g' (NormedSpace.exp (s • -A) (A' (V' s) - A (V' s))) s := by
    intro s
    refine ((hE s).clm_apply (hVd' s)).congr_deriv ?_
    rw [ContinuousLinearMap.mul_apply, ContinuousLinearMap.neg_apply, map_neg, map_sub]
    abel
  have hn : ∀ s, ‖V' s‖ = norm2 (v 0) := fun s => by
    have := solution_norm m' hsym' v' hv' s
    rw [h0] at this
    rw [← this]; exact (norm2_eq (v' s)).symm
  have hdiff : ∀ x : EuclideanSpace ℂ (Fin n), ‖A' x - A x‖ ≤ η * ‖x‖ := by
    intro x
    have hb := bounded_of_symm (n := n) (m := fun i j => m' i j - m i j) (fun i hi j hj => by rw [hsym i hi j hj, hsym' i hi j hj]) hη
    have h1 := ContinuousLinearMap.le_opNorm (op2 (mat n fun i j => Complex.I * ((m' i j - m i j : ℝ) : ℂ))) x
    have h2 : op2 (mat n fun i j => Complex.I * ((m' i j - m i j : ℝ) : ℂ)) x = A' x - A x := by
      have hx : x = WithLp.toLp 2 x.ofLp := rfl
      rw [hx, op2_apply, hA, hA', op2_apply, op2_apply, ← WithLp.toLp_sub, ← Matrix.sub_mulVec]
      congr 2
      ext i j
      simp only [mat, Matrix.sub_apply, Matrix.of_apply, hM, hM']
      push_cast; ring
    rw [h2] at h1
    exact h1.trans (mul_le_mul_of_nonneg_right (op2_norm_le hb hη0) (norm_nonneg _))
  have hbound : ∀ s, ‖NormedSpace.exp (s • -A) (A' (V' s) - A (V' s))‖ ≤ η * norm2 (v 0) := by
    intro s
    rw [hA, exp_isometry m hsym s, ← hn s]
    exact hdiff _
  have hg0 : g' 0 = g T := by
    have hc : g T = g 0 := is_const_of_deriv_eq_zero (fun s => (hd s).differentiableAt) (fun s => (hd s).deriv) T 0
    rw [hc, hg, hg', hV, hV', ]
    simp only [h0]
  have hmv := Convex.norm_image_sub_le_of_norm_hasDerivWithin_le (f := g') (s := Set.univ) (C := η * norm2 (v 0))
    (fun s _ => (hd' s).hasDerivWithinAt) (fun s _ => hbound s) convex_univ (Set.mem_univ 0) (Set.mem_univ T)
  rw [hg0, sub_zero, Real.norm_eq_abs] at hmv
  have e : g' T - g T = NormedSpace.exp (T • -A) (V' T - V T) := by rw [map_sub]
  rw [e, hA, exp_isometry m hsym T] at hmv
  have e2 : ‖V' T - V T‖ = norm2 (v' T - v T) := by
    rw [norm2_eq, WithLp.toLp_sub]
  rw [← e2]
  exact hmv

end Ieompp.ODE
