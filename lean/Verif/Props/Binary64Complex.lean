import Verif.Props.Binary64MomentumNumber
import Verif.Props.Binary64Jump
import Verif.Props.TheoryFloat

/-! # C126, C127: complex arithmetic with underflow and overflow -/

set_option autoImplicit false
set_option linter.unusedSectionVars false

namespace Ieompp.IEEE

open Ieompp.Spec ODE RealSpace Program

variable {rnd : ℝ → Res ℝ} {fl : ℝ → ℝ} {u tiny huge : ℝ} {K : ℕ}

/-- The product of a real and a complex number. -/
theorem scaleR_okC (M : Machine rnd fl u tiny huge K) {k l : ℕ} {c' c C : ℝ} {z' z : ℂ} {A : ℝ} (hc : ApproxR u k c' c C) (hz : ApproxC u l z' z A) (hk : k + l ≤ K)
    (hfit : 3 * (C * A) ≤ huge) :
    scaleR rnd c' z' = .val (scaleC fl c' z') ∧ ApproxC u (k + l + 1) (scaleC fl c' z') ((c : ℂ) * z) (C * A + 2 * tiny) := by
  have hu := M.nonneg
  have ht := M.tiny_nonneg
  have hA := (norm_nonneg _).trans hz.2
  have hC := hc.nonneg
  have hc' := hc.toC
  have h3 : ‖(c' : ℂ) * z'‖ ≤ (1 + u) ^ (k + l) * (C * A) := by
    rw [norm_mul]
    refine (mul_le_mul (RealSpace.approxC_le hc') (RealSpace.approxC_le hz) (norm_nonneg _) (by positivity)).trans (le_of_eq ?_)
    rw [pow_add]; ring
  refine ⟨scaleR_eq M.agrees ?_, ?_, ?_⟩
  · rw [← Real.norm_eq_abs, ← Complex.norm_real, ← norm_mul]
    exact h3.trans ((mul_le_mul_of_nonneg_right (M.pow_le hk) (by positivity)).trans hfit)
  · have h1 := scaleC_gradual M.gradual c' z'
    have h2 := (approxC_prod hc' hz).1
    have h5 := mul_le_mul_of_nonneg_left (add_le_add_left h3 (2 * tiny)) hu
    rw [mul_add] at h1
    have h6 := norm_add_le (scaleC fl c' z' - c' * z') (c' * z' - c * z)
    rw [sub_add_sub_cancel] at h6
    have hp : 1 ≤ (1 + u) ^ (k + l) := one_le_pow₀ (by linarith)
    have h7 : u * (2 * tiny) ≤ ((1 + u) ^ (k + l + 1) - 1) * (2 * tiny) := by
      refine mul_le_mul_of_nonneg_right ?_ (by positivity)
      rw [pow_succ]; nlinarith
    have : ((1 + u) ^ (k + l + 1) - 1) * (C * A + 2 * tiny) = u * ((1 + u) ^ (k + l) * (C * A)) +
      ((1 + u) ^ (k + l) - 1) * (C * A) + ((1 + u) ^ (k + l + 1) - 1) * (2 * tiny) := by rw [pow_succ]; ring
    rw [mul_add, mul_add] at h5
    linarith
  · rw [norm_mul]
    have := mul_le_mul hc'.2 hz.2 (norm_nonneg _) hC
    linarith

end Ieompp.IEEE
