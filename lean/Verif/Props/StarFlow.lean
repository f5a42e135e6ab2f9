import Mathlib.Analysis.Calculus.MeanValue
import Mathlib.Analysis.SpecialFunctions.ExpDeriv
import Mathlib.Analysis.Complex.Trigonometric
import Mathlib.Analysis.SpecialFunctions.Exponential
import Mathlib.Analysis.InnerProductSpace.Basic
import Mathlib.Analysis.Calculus.Deriv.Pow
import Mathlib.Analysis.Complex.RealDeriv

/-! # A level coupled equally to many others: expansion for short times -/

set_option autoImplicit false
set_option linter.unusedSectionVars false

namespace Ieompp.Program

open ComplexConjugate

/-- A bound of the derivative gives a bound of the function. -/
theorem norm_le_of_deriv {f f' : ℝ → ℂ} {B B' : ℝ → ℝ} (hf : ∀ t, HasDerivAt f (f' t) t) (hB : ∀ t, HasDerivAt B (B' t) t) (h0 : f 0 = 0) (hB0 : B 0 = 0)
    (h : ∀ t, 0 ≤ t → ‖f' t‖ ≤ B' t) {t : ℝ} (ht : 0 ≤ t) : ‖f t‖ ≤ B t :=
  image_norm_le_of_norm_deriv_right_le_deriv_boundary (a := 0) (b := t) (f := f) (f' := f') (B := B) (B' := B')
    (fun s _ => (hf s).continuousAt.continuousWithinAt) (fun s _ => (hf s).hasDerivWithinAt) (by rw [h0, hB0, norm_zero]) hB (fun s hs => h s hs.1) ⟨ht, le_rfl⟩

/-- One level with amplitude `V₀`, coupled with strength `μ` to levels at the distances `δ i`. -/
structure StarFlow {ι : Type*} (I : Finset ι) (μ : ℝ) (δ : ι → ℝ) (V0 : ℝ → ℂ) (V : ι → ℝ → ℂ) : Prop where
  start0 : V0 0 = 1
  start : ∀ i ∈ I, V i 0 = 0
  flow0 : ∀ t, HasDerivAt V0 (Complex.I * (μ * ∑ i ∈ I, V i t)) t
  flow : ∀ i ∈ I, ∀ t, HasDerivAt (V i) (Complex.I * (μ * V0 t + δ i * V i t)) t
  bound : ∀ t, ‖V0 t‖ ≤ 1

namespace StarFlow

variable {ι : Type*} {I : Finset ι} {μ : ℝ} {δ : ι → ℝ} {V0 : ℝ → ℂ} {V : ι → ℝ → ℂ}

theorem hasDerivAt_monomial (c : ℝ) (k : ℕ) (t : ℝ) : HasDerivAt (fun t : ℝ => c * t ^ (k + 1)) (c * ((k + 1 : ℕ) * t ^ k)) t := by
  have := (hasDerivAt_pow (k + 1) t).const_mul c
  simpa using this

theorem hasDerivAt_monomialC (c : ℂ) (k : ℕ) (t : ℝ) : HasDerivAt (fun t : ℝ => c * (t : ℂ) ^ (k + 1)) (c * ((k + 1 : ℕ) * (t : ℂ) ^ k)) t := by
  have h := ((hasDerivAt_pow (k + 1) (t : ℂ)).comp_ofReal).const_mul c
  simpa using h

/-- The other levels fill at most linearly. -/
theorem other_le (S : StarFlow I μ δ V0 V) {i : ι} (hi : i ∈ I) {t : ℝ} (ht : 0 ≤ t) : ‖V i t‖ ≤ |μ| * t := by
  have he : ∀ t : ℝ, HasDerivAt (fun t : ℝ => Complex.exp (-(δ i * t) * Complex.I)) (Complex.exp (-(δ i * t) * Complex.I) * (-(δ i) * Complex.I)) t := by
    intro t
    have h1 : HasDerivAt (fun t : ℝ => -((δ i : ℂ) * (t : ℂ)) * Complex.I) (-(δ i) * Complex.I) t := by
      have := (((Complex.ofRealCLM.hasDerivAt (x := t)).const_mul (δ i : ℂ)).neg).mul_const Complex.I
      simpa using this
    exact h1.cexp
  have hn : ∀ t : ℝ, ‖Complex.exp (-(δ i * t) * Complex.I)‖ = 1 := by
    intro t
    have := Complex.norm_exp_ofReal_mul_I (-(δ i * t))
    push_cast at this
    exact this
  have h := norm_le_of_deriv (f := fun t : ℝ => Complex.exp (-(δ i * t) * Complex.I) * V i t)
    (f' := fun t : ℝ => Complex.exp (-(δ i * t) * Complex.I) * (Complex.I * (μ * V0 t))) (B := fun t => |μ| * t ^ (0 + 1)) (B' := fun t => |μ| * ((0 + 1 : ℕ) * t ^ 0))
    (fun t => by
      refine ((he t).mul (S.flow i hi t)).congr_deriv ?_
      ring) (fun t => hasDerivAt_monomial _ _ t) (by simp [S.start i hi]) (by simp) (fun t _ => by
      rw [norm_mul, hn, one_mul, norm_mul, Complex.norm_I, one_mul, norm_mul, Complex.norm_real, Real.norm_eq_abs]
      simpa using mul_le_mul_of_nonneg_left (S.bound t) (abs_nonneg μ)) ht
  simp only [norm_mul, hn, one_mul, zero_add, pow_one] at h
  exact h

/-- The level itself empties at most quadratically. -/
theorem level_le (S : StarFlow I μ δ V0 V) {t : ℝ} (ht : 0 ≤ t) : ‖V0 t - 1‖ ≤ I.card * μ ^ 2 / 2 * t ^ 2 := by
  refine norm_le_of_deriv (f := fun t => V0 t - 1) (f' := fun t => Complex.I * (μ * ∑ i ∈ I, V i t)) (B := fun t => I.card * μ ^ 2 / 2 * t ^ (1 + 1))
    (B' := fun t => I.card * μ ^ 2 / 2 * ((1 + 1 : ℕ) * t ^ 1)) (fun t => (S.flow0 t).sub_const 1) (fun t => hasDerivAt_monomial _ _ t) (by simp [S.start0]) (by simp)
    (fun t ht => ?_) ht
  rw [norm_mul, Complex.norm_I, one_mul, norm_mul, Complex.norm_real, Real.norm_eq_abs]
  have h1 : ‖∑ i ∈ I, V i t‖ ≤ I.card * (|μ| * t) := by
    refine (norm_sum_le _ _).trans ((Finset.sum_le_sum fun i hi => S.other_le hi ht).trans (le_of_eq ?_))
    rw [Finset.sum_const, nsmul_eq_mul]
  calc |μ| * ‖∑ i ∈ I, V i t‖ ≤ |μ| * (I.card * (|μ| * t)) := mul_le_mul_of_nonneg_left h1 (abs_nonneg μ)
    _ = I.card * (|μ| * |μ|) * t := by ring
    _ = I.card * μ ^ 2 / 2 * ((1 + 1 : ℕ) * t ^ 1) := by rw [abs_mul_abs_self]; push_cast; ring

/-- All resonant levels have the same amplitude. -/
theorem resonant_eq (S : StarFlow I μ δ V0 V) {w w' : ι} (hw : w ∈ I) (hw' : w' ∈ I) (hδ : δ w = 0) (hδ' : δ w' = 0) (t : ℝ) : V w t = V w' t := by
  have h : ∀ t, HasDerivAt (fun t => V w t - V w' t) 0 t := fun t => by
    refine ((S.flow w hw t).sub (S.flow w' hw' t)).congr_deriv ?_
    rw [hδ, hδ']; push_cast; ring
  have := is_const_of_deriv_eq_zero (fun t => (h t).differentiableAt) (fun t => (h t).deriv) t 0
  simp only [S.start w hw, S.start w' hw', sub_zero] at this
  exact sub_eq_zero.1 this

section
variable {D : ℝ}

/-- Second order of the other levels. -/
theorem other_second (S : StarFlow I μ δ V0 V) (hD : ∀ i ∈ I, |δ i| ≤ D) {i : ι} (hi : i ∈ I) {t : ℝ} (ht : 0 ≤ t) :
    ‖V i t - Complex.I * μ * t‖ ≤ |μ| * (I.card * μ ^ 2 / 6 * t ^ 3 + D / 2 * t ^ 2) := by
  have h := norm_le_of_deriv (f := fun t : ℝ => V i t - Complex.I * μ * (t : ℂ) ^ (0 + 1)) (f' := fun t => Complex.I * (μ * (V0 t - 1) + δ i * V i t))
    (B := fun t => |μ| * (I.card * μ ^ 2 / 6) * t ^ (2 + 1) + |μ| * (D / 2) * t ^ (1 + 1))
    (B' := fun t => |μ| * (I.card * μ ^ 2 / 6) * ((2 + 1 : ℕ) * t ^ 2) + |μ| * (D / 2) * ((1 + 1 : ℕ) * t ^ 1)) (fun t => by
      refine ((S.flow i hi t).sub (hasDerivAt_monomialC _ 0 t)).congr_deriv ?_
      push_cast; ring) (fun t => (hasDerivAt_monomial _ 2 t).add (hasDerivAt_monomial _ 1 t)) (by simp [S.start i hi]) (by simp) (fun t ht => ?_) ht
  · rw [zero_add, pow_one] at h
    refine h.trans (le_of_eq ?_)
    ring
  · rw [norm_mul, Complex.norm_I, one_mul]
    refine (norm_add_le _ _).trans ?_
    rw [norm_mul, norm_mul, Complex.norm_real, Complex.norm_real, Real.norm_eq_abs, Real.norm_eq_abs]
    have h1 := mul_le_mul_of_nonneg_left (S.level_le ht) (abs_nonneg μ)
    have h2 := mul_le_mul (hD i hi) (S.other_le hi ht) (norm_nonneg _) ((abs_nonneg _).trans (hD i hi))
    refine (add_le_add h1 h2).trans (le_of_eq ?_)
    push_cast; ring

/-- Third order of the level. -/
theorem level_third (S : StarFlow I μ δ V0 V) (hD : ∀ i ∈ I, |δ i| ≤ D) {t : ℝ} (ht : 0 ≤ t) :
    ‖V0 t - 1 + ((I.card * μ ^ 2 / 2 : ℝ) : ℂ) * (t : ℂ) ^ 2‖ ≤ I.card * μ ^ 2 * (I.card * μ ^ 2 / 24 * t ^ 4 + D / 6 * t ^ 3) := by
  have h := norm_le_of_deriv (f := fun t : ℝ => V0 t - 1 + ((I.card * μ ^ 2 / 2 : ℝ) : ℂ) * (t : ℂ) ^ (1 + 1))
    (f' := fun t => Complex.I * (μ * ∑ i ∈ I, (V i t - Complex.I * μ * t)))
    (B := fun t => I.card * μ ^ 2 * (I.card * μ ^ 2 / 24) * t ^ (3 + 1) + I.card * μ ^ 2 * (D / 6) * t ^ (2 + 1))
    (B' := fun t => I.card * μ ^ 2 * (I.card * μ ^ 2 / 24) * ((3 + 1 : ℕ) * t ^ 3) + I.card * μ ^ 2 * (D / 6) * ((2 + 1 : ℕ) * t ^ 2)) (fun t => by
      refine (((S.flow0 t).sub_const 1).add (hasDerivAt_monomialC _ 1 t)).congr_deriv ?_
      rw [Finset.sum_sub_distrib, Finset.sum_const, nsmul_eq_mul]
      push_cast
      linear_combination (I.card * (μ : ℂ) ^ 2 * t) * Complex.I_sq) (fun t => (hasDerivAt_monomial _ 3 t).add (hasDerivAt_monomial _ 2 t)) (by simp [S.start0]) (by simp) (fun t ht => ?_) ht
  · refine h.trans (le_of_eq ?_)
    ring
  · rw [norm_mul, Complex.norm_I, one_mul, norm_mul, Complex.norm_real, Real.norm_eq_abs]
    have h1 : ‖∑ i ∈ I, (V i t - Complex.I * μ * t)‖ ≤ I.card * (|μ| * (I.card * μ ^ 2 / 6 * t ^ 3 + D / 2 * t ^ 2)) := by
      refine (norm_sum_le _ _).trans ((Finset.sum_le_sum fun i hi => S.other_second hD hi ht).trans (le_of_eq ?_))
      rw [Finset.sum_const, nsmul_eq_mul]
    refine (mul_le_mul_of_nonneg_left h1 (abs_nonneg μ)).trans (le_of_eq ?_)
    rw [show |μ| * (I.card * (|μ| * (I.card * μ ^ 2 / 6 * t ^ 3 + D / 2 * t ^ 2))) = I.card * (|μ| * |μ|) * (I.card * μ ^ 2 / 6 * t ^ 3 + D / 2 * t ^ 2) by ring, abs_mul_abs_self]
    push_cast; ring

/-- A level at the same energy. -/
theorem resonant_fourth (S : StarFlow I μ δ V0 V) (hD : ∀ i ∈ I, |δ i| ≤ D) {w : ι} (hw : w ∈ I) (hδ : δ w = 0) {t : ℝ} (ht : 0 ≤ t) :
    ‖V w t - Complex.I * μ * t + Complex.I * ((μ * (I.card * μ ^ 2 / 6) : ℝ) : ℂ) * (t : ℂ) ^ 3‖ ≤
      |μ| * (I.card * μ ^ 2) * (I.card * μ ^ 2 / 120 * t ^ 5 + D / 24 * t ^ 4) := by
  have h := norm_le_of_deriv (f := fun t : ℝ => V w t - Complex.I * μ * (t : ℂ) ^ (0 + 1) + Complex.I * ((μ * (I.card * μ ^ 2 / 6) : ℝ) : ℂ) * (t : ℂ) ^ (2 + 1))
    (f' := fun t => Complex.I * (μ * (V0 t - 1 + ((I.card * μ ^ 2 / 2 : ℝ) : ℂ) * (t : ℂ) ^ 2)))
    (B := fun t => |μ| * (I.card * μ ^ 2) * (I.card * μ ^ 2 / 120) * t ^ (4 + 1) + |μ| * (I.card * μ ^ 2) * (D / 24) * t ^ (3 + 1))
    (B' := fun t => |μ| * (I.card * μ ^ 2) * (I.card * μ ^ 2 / 120) * ((4 + 1 : ℕ) * t ^ 4) + |μ| * (I.card * μ ^ 2) * (D / 24) * ((3 + 1 : ℕ) * t ^ 3)) (fun t => by
      refine (((S.flow w hw t).sub (hasDerivAt_monomialC _ 0 t)).add (hasDerivAt_monomialC _ 2 t)).congr_deriv ?_
      rw [hδ]
      push_cast
      ring) (fun t => (hasDerivAt_monomial _ 4 t).add (hasDerivAt_monomial _ 3 t)) (by simp [S.start w hw]) (by simp) (fun t ht => ?_) ht
  · rw [zero_add, pow_one] at h
    refine h.trans (le_of_eq ?_)
    ring
  · rw [norm_mul, Complex.norm_I, one_mul, norm_mul, Complex.norm_real, Real.norm_eq_abs]
    refine (mul_le_mul_of_nonneg_left (S.level_third hD ht) (abs_nonneg μ)).trans (le_of_eq ?_)
    push_cast; ring

/-- The amplitudes of the level and of a resonant level are out of phase by a quarter of a turn, up to fourth order. -/
theorem interference (S : StarFlow I μ δ V0 V) (hD : ∀ i ∈ I, |δ i| ≤ D) {w : ι} (hw : w ∈ I) (hδ : δ w = 0) {t : ℝ} (ht : 0 ≤ t) :
    |(V w t * conj (V0 t)).re| ≤ |μ| * (I.card * μ ^ 2) * (I.card * μ ^ 2 / 20 * t ^ 5 + 5 * D / 24 * t ^ 4) := by
  have h1 := S.level_third hD ht
  have h2 := S.resonant_fourth hD hw hδ ht
  have h3 := S.other_le hw ht
  have h4 := S.bound t
  have i1 : |(V0 t).im| ≤ I.card * μ ^ 2 * (I.card * μ ^ 2 / 24 * t ^ 4 + D / 6 * t ^ 3) := by
    refine le_trans (le_of_eq ?_) ((Complex.abs_im_le_norm _).trans h1)
    congr 1
    rw [← Complex.ofReal_pow, ← Complex.ofReal_mul, Complex.add_im, Complex.sub_im, Complex.one_im, Complex.ofReal_im]
    ring
  have i2 : |(V w t).re| ≤ |μ| * (I.card * μ ^ 2) * (I.card * μ ^ 2 / 120 * t ^ 5 + D / 24 * t ^ 4) := by
    refine le_trans (le_of_eq ?_) ((Complex.abs_re_le_norm _).trans h2)
    congr 1
    rw [show Complex.I * (μ : ℂ) * (t : ℂ) = ((μ * t : ℝ) : ℂ) * Complex.I by push_cast; ring,
      show Complex.I * ((μ * (I.card * μ ^ 2 / 6) : ℝ) : ℂ) * (t : ℂ) ^ 3 = ((μ * (I.card * μ ^ 2 / 6) * t ^ 3 : ℝ) : ℂ) * Complex.I by push_cast; ring,
      Complex.add_re, Complex.sub_re, Complex.re_ofReal_mul, Complex.re_ofReal_mul, Complex.I_re]
    ring
  have e : (V w t * conj (V0 t)).re = (V w t).re * (V0 t).re + (V w t).im * (V0 t).im := by
    rw [Complex.mul_re, Complex.conj_re, Complex.conj_im]; ring
  have r0 : |(V0 t).re| ≤ 1 := (Complex.abs_re_le_norm _).trans h4
  have rw' : |(V w t).im| ≤ |μ| * t := (Complex.abs_im_le_norm _).trans h3
  rw [e]
  refine (abs_add_le _ _).trans ?_
  rw [abs_mul, abs_mul]
  have m1 : |(V w t).re| * |(V0 t).re| ≤ |μ| * (I.card * μ ^ 2) * (I.card * μ ^ 2 / 120 * t ^ 5 + D / 24 * t ^ 4) * 1 :=
    mul_le_mul i2 r0 (abs_nonneg _) ((abs_nonneg _).trans i2)
  have m2 : |(V w t).im| * |(V0 t).im| ≤ |μ| * t * (I.card * μ ^ 2 * (I.card * μ ^ 2 / 24 * t ^ 4 + D / 6 * t ^ 3)) :=
    mul_le_mul rw' i1 (abs_nonneg _) ((abs_nonneg _).trans rw')
  refine (add_le_add m1 m2).trans (le_of_eq ?_)
  ring

/-- The occupation of a resonant level. -/
theorem resonant_sq (S : StarFlow I μ δ V0 V) {w : ι} (hw : w ∈ I) (hδ : δ w = 0) {t : ℝ} (ht : 0 ≤ t) :
    ‖V w t‖ ^ 2 ≤ μ ^ 2 * t ^ 2 ∧ μ ^ 2 * t ^ 2 - μ ^ 2 * (I.card * μ ^ 2 / 3) * t ^ 4 ≤ ‖V w t‖ ^ 2 := by
  have h3 := S.other_le hw ht
  have h2 : ‖V w t - Complex.I * μ * t‖ ≤ |μ| * (I.card * μ ^ 2 / 6 * t ^ 3) := by
    have h := norm_le_of_deriv (f := fun t : ℝ => V w t - Complex.I * μ * (t : ℂ) ^ (0 + 1)) (f' := fun t => Complex.I * (μ * (V0 t - 1)))
      (B := fun t => |μ| * (I.card * μ ^ 2 / 6) * t ^ (2 + 1)) (B' := fun t => |μ| * (I.card * μ ^ 2 / 6) * ((2 + 1 : ℕ) * t ^ 2)) (fun t => by
        refine ((S.flow w hw t).sub (hasDerivAt_monomialC _ 0 t)).congr_deriv ?_
        rw [hδ]; push_cast; ring) (fun t => hasDerivAt_monomial _ 2 t) (by simp [S.start w hw]) (by simp) (fun t ht => ?_) ht
    · rw [zero_add, pow_one] at h
      refine h.trans (le_of_eq ?_)
      ring
    · rw [norm_mul, Complex.norm_I, one_mul, norm_mul, Complex.norm_real, Real.norm_eq_abs]
      refine (mul_le_mul_of_nonneg_left (S.level_le ht) (abs_nonneg μ)).trans (le_of_eq ?_)
      push_cast; ring
  have hn : ‖Complex.I * (μ : ℂ) * t‖ = |μ| * t := by
    rw [norm_mul, norm_mul, Complex.norm_I, one_mul, Complex.norm_real, Complex.norm_real, Real.norm_eq_abs, Real.norm_eq_abs, abs_of_nonneg ht]
  have h4 : |μ| * t - |μ| * (I.card * μ ^ 2 / 6 * t ^ 3) ≤ ‖V w t‖ := by
    have := norm_sub_norm_le (Complex.I * (μ : ℂ) * t) (V w t)
    rw [hn, norm_sub_rev] at this
    linarith
  have hm := abs_nonneg μ
  have hsq := sq_abs μ
  constructor
  · rw [← hsq, ← mul_pow]; exact pow_le_pow_left₀ (norm_nonneg _) h3 2
  · have hκ : 0 ≤ (I.card : ℝ) * μ ^ 2 := by positivity
    generalize (I.card : ℝ) * μ ^ 2 = κ at *
    have hA : 0 ≤ |μ| * t := by positivity
    have hE : 0 ≤ |μ| * (κ / 6 * t ^ 3) := by positivity
    have h5 : (|μ| * t) ^ 2 - 2 * (|μ| * t) * (|μ| * (κ / 6 * t ^ 3)) ≤ ‖V w t‖ ^ 2 := by
      rcases le_total (|μ| * (κ / 6 * t ^ 3)) (|μ| * t) with h | h
      · have := pow_le_pow_left₀ (sub_nonneg.2 h) h4 2
        nlinarith [sq_nonneg (|μ| * (κ / 6 * t ^ 3))]
      · nlinarith [sq_nonneg ‖V w t‖]
    rw [← hsq]
    refine le_trans (le_of_eq ?_) h5
    ring

end

end StarFlow

end Ieompp.Program
