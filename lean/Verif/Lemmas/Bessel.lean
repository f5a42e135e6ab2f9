import Verif.Spec.Bessel
import Mathlib.Analysis.Calculus.ParametricIntervalIntegral
import Mathlib.Analysis.SpecialFunctions.Integrals.Basic
import Mathlib.Analysis.SpecialFunctions.Trigonometric.Deriv
import Mathlib.MeasureTheory.Integral.IntervalIntegral.FundThmCalculus
import Mathlib.Tactic.FieldSimp
import Mathlib.Tactic.Ring
import Mathlib.Tactic.Linarith

/-! # Properties of the Bessel functions -/

set_option autoImplicit false

namespace Ieompp.Spec

open Real MeasureTheory

theorem besselJ_cont (n : ℤ) (x : ℝ) : Continuous fun τ : ℝ => cos (n * τ - x * sin τ) := by fun_prop

theorem besselJ_hasDerivAt (n : ℤ) (x : ℝ) :
    HasDerivAt (besselJ n) ((besselJ (n - 1) x - besselJ (n + 1) x) / 2) x := by
  have h := intervalIntegral.hasDerivAt_integral_of_dominated_loc_of_deriv_le (μ := volume) (a := 0) (b := π)
    (F := fun x τ => cos (n * τ - x * sin τ)) (F' := fun x τ => sin (n * τ - x * sin τ) * sin τ) (x₀ := x)
    (s := Set.univ) (bound := fun _ => 1) Filter.univ_mem
    (Filter.Eventually.of_forall fun x => (besselJ_cont n x).aestronglyMeasurable)
    ((besselJ_cont n x).intervalIntegrable 0 π)
    (by
      have : Continuous fun τ : ℝ => sin (n * τ - x * sin τ) * sin τ := by fun_prop
      exact this.aestronglyMeasurable)
    (Filter.Eventually.of_forall fun τ _ y _ => by
      rw [norm_mul]
      exact mul_le_one₀ (abs_sin_le_one _) (norm_nonneg _) (abs_sin_le_one _))
    (by simp)
    (Filter.Eventually.of_forall fun τ _ y _ => by
      have h1 : HasDerivAt (fun y : ℝ => (n : ℝ) * τ - y * sin τ) (-(sin τ)) y := by
        have h := ((hasDerivAt_id y).mul_const (sin τ)).const_sub ((n : ℝ) * τ)
        simpa using h
      have := h1.cos
      refine this.congr_deriv ?_
      ring)
  have h2 := h.2.const_mul (1 / π)
  refine h2.congr_deriv ?_
  unfold besselJ
  rw [← mul_sub, ← intervalIntegral.integral_sub ((besselJ_cont _ _).intervalIntegrable _ _)
    ((besselJ_cont _ _).intervalIntegrable _ _), mul_div_assoc, ← intervalIntegral.integral_div]
  congr 1
  apply intervalIntegral.integral_congr
  intro τ _
  simp only
  rw [show ((n - 1 : ℤ) : ℝ) * τ - x * sin τ = (n * τ - x * sin τ) - τ by push_cast; ring,
    show ((n + 1 : ℤ) : ℝ) * τ - x * sin τ = (n * τ - x * sin τ) + τ by push_cast; ring, cos_sub (n * τ - x * sin τ) τ, cos_add (n * τ - x * sin τ) τ]
  ring

theorem besselJ_zero (n : ℤ) : besselJ n 0 = if n = 0 then 1 else 0 := by
  unfold besselJ
  by_cases hn : n = 0
  · subst hn; simp [pi_ne_zero]
  · rw [if_neg hn]
    have hn' : (n : ℝ) ≠ 0 := by exact_mod_cast hn
    have : ∫ τ in (0 : ℝ)..π, cos ((n : ℝ) * τ - 0 * sin τ) = 0 := by
      have e : (fun τ : ℝ => cos ((n : ℝ) * τ - 0 * sin τ)) = fun τ => cos (n * τ) := by ext; simp
      rw [e, intervalIntegral.integral_comp_mul_left (f := cos) hn', integral_cos]
      simp [sin_int_mul_pi]
    rw [this, mul_zero]

theorem besselJ_neg (n : ℤ) (x : ℝ) : besselJ (-n) x = (-1) ^ n * besselJ n x := by
  unfold besselJ
  have h := intervalIntegral.integral_comp_sub_left (a := 0) (b := π) (fun τ => cos (((-n : ℤ) : ℝ) * τ - x * sin τ)) π
  rw [sub_self, sub_zero] at h
  rw [← h]
  have e : (fun τ : ℝ => cos (((-n : ℤ) : ℝ) * (π - τ) - x * sin (π - τ))) =
      fun τ => (-1) ^ n * cos (n * τ - x * sin τ) := by
    ext τ
    rw [sin_pi_sub, show ((-n : ℤ) : ℝ) * (π - τ) - x * sin τ = -(n * π - (n * τ - x * sin τ)) by push_cast; ring,
      cos_neg, cos_sub, cos_int_mul_pi, sin_int_mul_pi]
    ring
  rw [e, intervalIntegral.integral_const_mul]
  ring

/-- The three-term recursion. -/
theorem besselJ_rec (n : ℤ) (x : ℝ) : x * (besselJ (n - 1) x + besselJ (n + 1) x) = 2 * n * besselJ n x := by
  have h : ∫ τ in (0 : ℝ)..π, (n - x * cos τ) * cos (n * τ - x * sin τ) = 0 := by
    have hd : ∀ τ ∈ Set.uIcc (0 : ℝ) π, HasDerivAt (fun τ : ℝ => sin (n * τ - x * sin τ))
        ((n - x * cos τ) * cos (n * τ - x * sin τ)) τ := by
      intro τ _
      have h1 : HasDerivAt (fun τ : ℝ => (n : ℝ) * τ - x * sin τ) (n - x * cos τ) τ := by
        have h := ((hasDerivAt_id τ).const_mul (n : ℝ)).sub ((hasDerivAt_sin τ).const_mul x)
        refine h.congr_deriv ?_
        simp
      refine h1.sin.congr_deriv ?_
      ring
    rw [intervalIntegral.integral_eq_sub_of_hasDerivAt hd
      (by
        have : Continuous fun τ : ℝ => (n - x * cos τ) * cos (n * τ - x * sin τ) := by fun_prop
        exact this.intervalIntegrable _ _)]
    simp [sin_int_mul_pi]
  have e : ∀ τ : ℝ, (n - x * cos τ) * cos (n * τ - x * sin τ) = n * cos (n * τ - x * sin τ) -
      x / 2 * (cos (((n - 1 : ℤ) : ℝ) * τ - x * sin τ) + cos (((n + 1 : ℤ) : ℝ) * τ - x * sin τ)) := by
    intro τ
    rw [show ((n - 1 : ℤ) : ℝ) * τ - x * sin τ = (n * τ - x * sin τ) - τ by push_cast; ring,
      show ((n + 1 : ℤ) : ℝ) * τ - x * sin τ = (n * τ - x * sin τ) + τ by push_cast; ring, cos_sub (n * τ - x * sin τ) τ, cos_add (n * τ - x * sin τ) τ]
    ring
  simp only [e] at h
  have i0 : ∀ n : ℤ, IntervalIntegrable (fun τ : ℝ => cos (n * τ - x * sin τ)) volume 0 π := fun n =>
    (besselJ_cont n x).intervalIntegrable _ _
  rw [intervalIntegral.integral_sub ((i0 n).const_mul _) (((i0 _).add (i0 _)).const_mul _),
    intervalIntegral.integral_const_mul, intervalIntegral.integral_const_mul,
    intervalIntegral.integral_add (i0 _) (i0 _)] at h
  unfold besselJ
  have hp := pi_ne_zero
  field_simp
  linarith

/-- No Bessel function vanishes identically. -/
theorem besselJ_ne_zero (n : ℕ) : ∃ x : ℝ, besselJ n x ≠ 0 := by
  induction n with
  | zero => exact ⟨0, by rw [Nat.cast_zero, besselJ_zero]; simp⟩
  | succ n ih =>
    by_contra hall
    push Not at hall
    obtain ⟨x, hx⟩ := ih
    have hfun : besselJ ((n + 1 : ℕ) : ℤ) = fun _ => 0 := funext hall
    have hder : ∀ y, besselJ (((n + 1 : ℕ) : ℤ) - 1) y = besselJ (((n + 1 : ℕ) : ℤ) + 1) y := by
      intro y
      have h1 := besselJ_hasDerivAt ((n + 1 : ℕ) : ℤ) y
      rw [hfun] at h1
      have := h1.unique (hasDerivAt_const y (0 : ℝ))
      linarith
    have hzero : ∀ y : ℝ, y ≠ 0 → besselJ n y = 0 := by
      intro y hy
      have h1 := besselJ_rec ((n + 1 : ℕ) : ℤ) y
      rw [← hder y, hall y, mul_zero] at h1
      have h2 := (mul_eq_zero.1 h1).resolve_left hy
      have : ((n + 1 : ℕ) : ℤ) - 1 = n := by push_cast; ring
      rw [this] at h2
      linarith
    have hcont : Continuous (besselJ n) := by
      rw [continuous_iff_continuousAt]
      exact fun y => (besselJ_hasDerivAt n y).continuousAt
    have h0 : besselJ n 0 = 0 := by
      have hc : IsClosed {y : ℝ | besselJ n y = 0} := isClosed_eq hcont continuous_const
      have hd : Dense ({0}ᶜ : Set ℝ) := dense_compl_singleton 0
      have := hd.closure_eq ▸ closure_minimal (t := {y : ℝ | besselJ n y = 0}) (fun y hy => hzero y hy) hc
      exact this (Set.mem_univ 0)
    by_cases hx0 : x = 0
    · rw [hx0] at hx; exact hx h0
    · exact hx (hzero x hx0)

end Ieompp.Spec
