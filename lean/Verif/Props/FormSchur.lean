import Verif.Spec.ProgramFloat
import Verif.Props.RK4Float
import Verif.Props.Program

/-! # The error of the measured quadratic form, by Schur's test

`form_error` bounds the error by the sum of the absolute values of all elements; here the largest absolute row sum is enough. -/

set_option autoImplicit false
set_option linter.unusedSectionVars false

namespace Ieompp.Program

open Ieompp.Spec Ieompp.ODE
open scoped ComplexConjugate

/-- Schur's test for the bilinear form with the matrix `E`. -/
theorem bilinear_schur {n : ℕ} (E : ℕ → ℕ → ℝ) {R : ℝ} (hr : ∀ i < n, ∑ j ∈ Finset.range n, |E i j| ≤ R)
    (hc : ∀ j < n, ∑ i ∈ Finset.range n, |E i j| ≤ R) (a b : Fin n → ℂ) :
    ‖∑ i : Fin n, ∑ j : Fin n, a i * conj (b j) * (E i j : ℂ)‖ ≤ R * (norm2 a * norm2 b) := by
  set w : Fin n → ℂ := fun i => ((∑ j : Fin n, |E i j| * ‖b j‖ : ℝ) : ℂ) with hw
  have h1 : norm2 w ≤ R * norm2 b := schur_test' (fun i j : Fin n => |E i j|) (fun _ _ => abs_nonneg _) R
    (fun i => by rw [Fin.sum_univ_eq_sum_range (fun j => |E i j|) n]; exact hr i i.2)
    (fun j => by rw [Fin.sum_univ_eq_sum_range (fun i => |E i j|) n]; exact hc j j.2) b
  have h2 : ‖∑ i : Fin n, ∑ j : Fin n, a i * conj (b j) * (E i j : ℂ)‖ ≤ ∑ i : Fin n, ‖a i‖ * ‖w i‖ := by
    refine (norm_sum_le _ _).trans (Finset.sum_le_sum fun i _ => (norm_sum_le _ _).trans (le_of_eq ?_))
    rw [hw]
    simp only [Complex.norm_real, Real.norm_eq_abs]
    rw [abs_of_nonneg (Finset.sum_nonneg fun j _ => by positivity), Finset.mul_sum]
    refine Finset.sum_congr rfl fun j _ => ?_
    rw [norm_mul, norm_mul, Complex.norm_conj, Complex.norm_real, Real.norm_eq_abs]; ring
  have h3 : ∑ i : Fin n, ‖a i‖ * ‖w i‖ ≤ norm2 a * norm2 w := by
    unfold norm2
    exact Real.sum_mul_le_sqrt_mul_sqrt _ _ _
  calc _ ≤ norm2 a * norm2 w := h2.trans h3
    _ ≤ norm2 a * (R * norm2 b) := mul_le_mul_of_nonneg_left h1 (norm2_nonneg _)
    _ = _ := by ring

/-- `form_error` with row sums instead of the sum of all elements. -/
theorem form_error_rows {n : ℕ} (E : ℕ → ℕ → ℝ) {R : ℝ} (hr : ∀ i < n, ∑ j ∈ Finset.range n, |E i j| ≤ R)
    (hc : ∀ j < n, ∑ i ∈ Finset.range n, |E i j| ≤ R) (y v : ℕ → ℂ) {ε : ℝ} (hR : 0 ≤ R)
    (hv : norm2 (fun p : Fin n => v p) ≤ 1) (hy : norm2 (fun p : Fin n => y p - v p) ≤ ε) :
    ‖form n E y - form n E v‖ ≤ R * (ε * (2 + ε)) := by
  have e : form n E y - form n E v = (∑ i : Fin n, ∑ j : Fin n, (y i - v i) * conj (y j) * (E i j : ℂ)) +
      ∑ i : Fin n, ∑ j : Fin n, v i * conj (y j - v j) * (E i j : ℂ) := by
    have hf : ∀ y : ℕ → ℂ, form n E y = ∑ i : Fin n, ∑ j : Fin n, y i * conj (y j) * (E i j : ℂ) := by
      intro y
      unfold form
      rw [← Fin.sum_univ_eq_sum_range (fun i => ∑ j ∈ Finset.range n, y i * conj (y j) * (E i j : ℂ)) n]
      exact Finset.sum_congr rfl fun i _ => (Fin.sum_univ_eq_sum_range (fun j => y i * conj (y j) * (E i j : ℂ)) n).symm
    rw [hf, hf, ← Finset.sum_sub_distrib, ← Finset.sum_add_distrib]
    refine Finset.sum_congr rfl fun i _ => ?_
    rw [← Finset.sum_sub_distrib, ← Finset.sum_add_distrib]
    refine Finset.sum_congr rfl fun j _ => ?_
    rw [map_sub]; ring
  have hε : 0 ≤ ε := (norm2_nonneg _).trans hy
  have hyn : norm2 (fun p : Fin n => y p) ≤ 1 + ε := by
    have := norm2_add_le (fun p : Fin n => y p - v p) (fun p : Fin n => v p)
    have e : ((fun p : Fin n => y p - v p) + fun p : Fin n => v p) = fun p : Fin n => y p := by
      funext p; simp
    rw [e] at this
    linarith
  rw [e]
  refine (norm_add_le _ _).trans ?_
  have h1 := bilinear_schur E hr hc (fun p : Fin n => y p - v p) (fun p : Fin n => y p)
  have h2 := bilinear_schur E hr hc (fun p : Fin n => v p) (fun p : Fin n => y p - v p)
  have h3 : norm2 (fun p : Fin n => y p - v p) * norm2 (fun p : Fin n => y p) ≤ ε * (1 + ε) :=
    mul_le_mul hy hyn (norm2_nonneg _) hε
  have h4 : norm2 (fun p : Fin n => v p) * norm2 (fun p : Fin n => y p - v p) ≤ 1 * ε :=
    mul_le_mul hv hy (norm2_nonneg _) zero_le_one
  calc _ ≤ R * (ε * (1 + ε)) + R * (1 * ε) :=
        add_le_add (h1.trans (mul_le_mul_of_nonneg_left h3 hR)) (h2.trans (mul_le_mul_of_nonneg_left h4 hR))
    _ = _ := by ring

/-- From the error of the vector and of the sum to the error of the measured number. -/
theorem quadratic_close_rows {n : ℕ} {u : ℝ} (hu : 0 ≤ u) {E : ℕ → ℕ → ℝ} {y : Fin n → ℂ} {v : ℕ → ℂ} {ε A x R : ℝ} {r : ℕ} (hA : 0 ≤ A)
    (hR : 0 ≤ R) (hr : ∀ i < n, ∑ j ∈ Finset.range n, |E i j| ≤ R) (hc : ∀ j < n, ∑ i ∈ Finset.range n, |E i j| ≤ R)
    (hv : norm2 (fun p : Fin n => v p) ≤ 1) (hy : norm2 (y - fun p : Fin n => v p) ≤ ε)
    (hx : |x - (form n E fun i => (List.ofFn y).getD i 0).re| ≤
      ((1 + u) ^ r - 1) * (A * ∑ i ∈ Finset.range n, ‖(List.ofFn y).getD i 0‖ ^ 2)) :
    |x - (form n E v).re| ≤ quadraticErrorF u r R A ε := by
  have hε : 0 ≤ ε := (norm2_nonneg _).trans hy
  have h1 : ∑ i ∈ Finset.range n, ‖(List.ofFn y).getD i 0‖ ^ 2 = norm2 y ^ 2 := by
    rw [norm2_sq]
    unfold normSq2
    rw [← Fin.sum_univ_eq_sum_range (fun i => ‖(List.ofFn y).getD i 0‖ ^ 2) n]
    exact Finset.sum_congr rfl fun i _ => by rw [ofFn_getD]
  have h2 : norm2 y ≤ 1 + ε := by
    have := norm2_add_le (y - fun p : Fin n => v p) (fun p : Fin n => v p)
    rw [sub_add_cancel] at this
    linarith
  have h3 : norm2 y ^ 2 ≤ (1 + ε) ^ 2 := pow_le_pow_left₀ (norm2_nonneg _) h2 2
  have h4 : 0 ≤ (1 + u) ^ r - 1 := sub_nonneg.2 (one_le_pow₀ (by linarith))
  have h5 := form_error_rows E hr hc (fun i => (List.ofFn y).getD i 0) v (ε := ε) hR hv (by
    refine le_of_eq_of_le ?_ hy
    congr 1
    funext p
    simp only [ofFn_getD, Pi.sub_apply])
  have h6 := (Complex.abs_re_le_norm _).trans h5
  rw [Complex.sub_re] at h6
  have h7 : |x - (form n E fun i => (List.ofFn y).getD i 0).re| ≤ ((1 + u) ^ r - 1) * (A * (1 + ε) ^ 2) := by
    refine hx.trans ?_
    rw [h1]
    gcongr
  have h8 := abs_add_le (x - (form n E fun i => (List.ofFn y).getD i 0).re) ((form n E fun i => (List.ofFn y).getD i 0).re - (form n E v).re)
  rw [sub_add_sub_cancel] at h8
  unfold quadraticErrorF
  linarith

end Ieompp.Program
