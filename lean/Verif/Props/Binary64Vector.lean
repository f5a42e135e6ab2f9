import Verif.Model.Binary64
import Verif.Spec.Binary64
import Verif.Props.RK4Float

/-! # C117: vectors and matrices with underflow and overflow -/

set_option autoImplicit false
set_option linter.unusedSectionVars false

namespace Ieompp.IEEE

open Ieompp.Spec ODE
open RealSpace (addC mulC norm_le_of_components)

variable {n : ℕ} {rnd : ℝ → Res ℝ} {fl : ℝ → ℝ} {u tiny huge : ℝ}

/-- Rounding with gradual underflow, without overflow. -/
structure Gradual (fl : ℝ → ℝ) (u tiny : ℝ) : Prop where
  nonneg : 0 ≤ u
  tiny_nonneg : 0 ≤ tiny
  err : ∀ x, |fl x - x| ≤ u * max |x| tiny

theorem Gradual.err' (h : Gradual fl u tiny) (x : ℝ) : |fl x - x| ≤ u * (|x| + tiny) :=
  (h.err x).trans (mul_le_mul_of_nonneg_left (max_le (le_add_of_nonneg_right h.tiny_nonneg) (le_add_of_nonneg_left (abs_nonneg _))) h.nonneg)

theorem Gradual.abs_le (h : Gradual fl u tiny) (x : ℝ) : |fl x| ≤ (1 + u) * (|x| + tiny) := by
  have h1 := h.err' x
  have h2 := abs_add_le (fl x - x) x
  rw [sub_add_cancel] at h2
  have := h.tiny_nonneg
  have := h.nonneg
  nlinarith [abs_nonneg x]

/-- As long as nothing overflows, an arithmetic is given by a function. -/
theorem exists_function (A : Arithmetic rnd u tiny huge) : ∃ fl, Gradual fl u tiny ∧ ∀ x, |x| ≤ huge → rnd x = .val (fl x) := by
  classical
  choose f hf using A.rounds
  refine ⟨fun x => if h : |x| ≤ huge then f x h else x, ⟨A.unit_nonneg, A.tiny_nonneg, fun x => ?_⟩, fun x hx => ?_⟩
  · split_ifs with h
    · exact (hf x h).2
    · rw [sub_self, abs_zero]
      exact mul_nonneg A.unit_nonneg (le_max_of_le_right A.tiny_nonneg)
  · beta_reduce; rw [dif_pos hx]; exact (hf x hx).1

/-! ### Complex numbers -/

theorem norm_le_tiny {z w : ℂ} {c t : ℝ} (hc : 0 ≤ c) (ht : 0 ≤ t) (h1 : |z.re| ≤ c * (|w.re| + t)) (h2 : |z.im| ≤ c * (|w.im| + t)) :
    ‖z‖ ≤ c * (‖w‖ + 2 * t) := by
  have e := norm_le_of_components (z := z) (a := |w.re| + t) (b := |w.im| + t) hc
    (by rwa [abs_of_nonneg (by positivity : 0 ≤ |w.re| + t)]) (by rwa [abs_of_nonneg (by positivity : 0 ≤ |w.im| + t)])
  refine e.trans (mul_le_mul_of_nonneg_left ?_ hc)
  have e1 : (⟨|w.re| + t, |w.im| + t⟩ : ℂ) = ⟨|w.re|, |w.im|⟩ + (⟨t, t⟩ : ℂ) := by apply Complex.ext <;> simp
  rw [e1]
  refine (norm_add_le _ _).trans (add_le_add (le_of_eq ?_) ?_)
  · rw [← Real.sqrt_sq (norm_nonneg (⟨|w.re|, |w.im|⟩ : ℂ)), ← Real.sqrt_sq (norm_nonneg w), Complex.sq_norm, Complex.sq_norm,
      Complex.normSq_apply, Complex.normSq_apply]
    simp only [abs_mul_abs_self]
  · refine (Complex.norm_le_abs_re_add_abs_im _).trans ?_
    simp only [abs_of_nonneg ht]
    linarith

theorem addC_gradual (h : Gradual fl u tiny) (x y : ℂ) : ‖addC fl x y - (x + y)‖ ≤ u * (‖x + y‖ + 2 * tiny) :=
  norm_le_tiny h.nonneg h.tiny_nonneg (by simpa [addC] using h.err' (x.re + y.re)) (by simpa [addC] using h.err' (x.im + y.im))

theorem scaleC_gradual (h : Gradual fl u tiny) (c : ℝ) (z : ℂ) : ‖scaleC fl c z - (c : ℂ) * z‖ ≤ u * (‖(c : ℂ) * z‖ + 2 * tiny) :=
  norm_le_tiny h.nonneg h.tiny_nonneg (by simpa [scaleC] using h.err' (c * z.re)) (by simpa [scaleC] using h.err' (c * z.im))

theorem products_le (x y : ℂ) : |x.re * y.re| + |x.im * y.im| ≤ ‖x‖ * ‖y‖ ∧ |x.re * y.im| + |x.im * y.re| ≤ ‖x‖ * ‖y‖ := by
  have cs : ∀ a b c d : ℝ, |a * c| + |b * d| ≤ ‖(⟨a, b⟩ : ℂ)‖ * ‖(⟨c, d⟩ : ℂ)‖ := by
    intro a b c d
    refine le_of_sq_le_sq ?_ (by positivity)
    rw [mul_pow, Complex.sq_norm, Complex.sq_norm, Complex.normSq_apply, Complex.normSq_apply, abs_mul, abs_mul]
    simp only
    have h1 := sq_nonneg (|a| * |d| - |b| * |c|)
    nlinarith [abs_mul_abs_self a, abs_mul_abs_self b, abs_mul_abs_self c, abs_mul_abs_self d, mul_comm (|a| * |d|) (|b| * |c|)]
  refine ⟨cs x.re x.im y.re y.im, ?_⟩
  have hn : ‖(⟨y.im, y.re⟩ : ℂ)‖ = ‖y‖ := by
    rw [← Real.sqrt_sq (norm_nonneg (⟨y.im, y.re⟩ : ℂ)), ← Real.sqrt_sq (norm_nonneg y), Complex.sq_norm, Complex.sq_norm,
      Complex.normSq_apply, Complex.normSq_apply]
    simp only [add_comm]
  rw [← hn]
  exact cs x.re x.im y.im y.re

theorem mulC_gradual (h : Gradual fl u tiny) (x y : ℂ) : ‖mulC fl x y - x * y‖ ≤ ((1 + u) ^ 4 - 1) * (‖x‖ * ‖y‖ + 3 * tiny) := by
  have hu := h.nonneg
  have ht := h.tiny_nonneg
  have key : ∀ (p q : ℝ) (s : ℝ), |s| = 1 → |fl (fl p + s * fl q) - (p + s * q)| ≤ (2 * u + u ^ 2) * (|p| + |q| + 3 * tiny) := by
    intro p q s hs
    have h1 := h.err' (fl p + s * fl q)
    have h2 := h.err' p
    have h3 := h.err' q
    have h4 : |fl p + s * fl q - (p + s * q)| ≤ u * (|p| + tiny) + u * (|q| + tiny) := by
      rw [show fl p + s * fl q - (p + s * q) = (fl p - p) + s * (fl q - q) by ring]
      refine (abs_add_le _ _).trans ?_
      rw [abs_mul, hs, one_mul]
      linarith
    have h5 : |fl p + s * fl q| ≤ (1 + u) * (|p| + |q| + 2 * tiny) := by
      have : |fl p + s * fl q| ≤ |fl p + s * fl q - (p + s * q)| + |p + s * q| := by
        simpa using abs_add_le (fl p + s * fl q - (p + s * q)) (p + s * q)
      have h6 : |p + s * q| ≤ |p| + |q| := by
        refine (abs_add_le _ _).trans ?_
        rw [abs_mul, hs, one_mul]
      nlinarith
    have h6 : |fl (fl p + s * fl q) - (p + s * q)| ≤ |fl (fl p + s * fl q) - (fl p + s * fl q)| + |fl p + s * fl q - (p + s * q)| :=
      abs_sub_le _ _ _
    have h7 := mul_le_mul_of_nonneg_left h5 hu
    have h8 : (2 * u + u ^ 2) * (|p| + |q| + 3 * tiny) =
      u * ((1 + u) * (|p| + |q| + 2 * tiny)) + u * tiny + (u * (|p| + tiny) + u * (|q| + tiny)) + (u * tiny + u * u * tiny) := by ring
    have h9 : 0 ≤ u * tiny + u * u * tiny := by positivity
    linarith
  obtain ⟨c1, c2⟩ := products_le x y
  have h1 : |(mulC fl x y - x * y).re| ≤ (2 * u + u ^ 2) * (‖x‖ * ‖y‖ + 3 * tiny) := by
    have := key (x.re * y.re) (x.im * y.im) (-1) (by norm_num)
    refine le_trans ?_ (this.trans (mul_le_mul_of_nonneg_left (add_le_add c1 le_rfl) (by positivity)))
    simp only [mulC, Complex.sub_re, Complex.mul_re, neg_mul, one_mul, ← sub_eq_add_neg, le_refl]
  have h2 : |(mulC fl x y - x * y).im| ≤ (2 * u + u ^ 2) * (‖x‖ * ‖y‖ + 3 * tiny) := by
    have := key (x.re * y.im) (x.im * y.re) 1 (by norm_num)
    refine le_trans ?_ (this.trans (mul_le_mul_of_nonneg_left (add_le_add c2 le_rfl) (by positivity)))
    simp only [mulC, Complex.sub_im, Complex.mul_im, one_mul, le_refl]
  refine (Complex.norm_le_abs_re_add_abs_im _).trans ((add_le_add h1 h2).trans ?_)
  have e : (2 * u + u ^ 2) * (‖x‖ * ‖y‖ + 3 * tiny) + (2 * u + u ^ 2) * (‖x‖ * ‖y‖ + 3 * tiny) = (2 * (2 * u + u ^ 2)) * (‖x‖ * ‖y‖ + 3 * tiny) := by ring
  rw [e]
  refine mul_le_mul_of_nonneg_right ?_ (by positivity)
  have : (1 + u) ^ 4 - 1 - 2 * (2 * u + u ^ 2) = 4 * u ^ 2 + 4 * u ^ 3 + u ^ 4 := by ring
  have : 0 ≤ 4 * u ^ 2 + 4 * u ^ 3 + u ^ 4 := by positivity
  linarith

/-! ### Vectors -/

/-- What underflow can add to the length of a vector. -/
noncomputable def slack (n : ℕ) (tiny : ℝ) : ℝ := 2 * tiny * Real.sqrt n

theorem slack_nonneg (ht : 0 ≤ tiny) : 0 ≤ slack n tiny := by unfold slack; positivity

theorem norm2_const {c : ℝ} (hc : 0 ≤ c) : norm2 (fun _ : Fin n => (c : ℂ)) = c * Real.sqrt n := by
  unfold norm2
  simp only [Complex.norm_real, Real.norm_eq_abs, abs_of_nonneg hc, Finset.sum_const, Finset.card_univ, Fintype.card_fin, nsmul_eq_mul]
  rw [Real.sqrt_mul (Nat.cast_nonneg n), Real.sqrt_sq hc, mul_comm]

theorem norm2_tiny {v w : Fin n → ℂ} {c t : ℝ} (hc : 0 ≤ c) (ht : 0 ≤ t) (h : ∀ i, ‖v i‖ ≤ c * (‖w i‖ + t)) :
    norm2 v ≤ c * (norm2 w + t * Real.sqrt n) := by
  have h1 : norm2 v ≤ c * norm2 (fun i => ((‖w i‖ : ℝ) : ℂ) + ((t : ℝ) : ℂ)) := by
    refine norm2_le_of hc fun i => (h i).trans (le_of_eq ?_)
    rw [← Complex.ofReal_add, Complex.norm_real, Real.norm_of_nonneg (by positivity)]
  have h2 := norm2_add_le (fun i => ((‖w i‖ : ℝ) : ℂ)) (fun _ : Fin n => ((t : ℝ) : ℂ))
  rw [norm2_const ht] at h2
  have h3 : norm2 (fun i => ((‖w i‖ : ℝ) : ℂ)) = norm2 w := by
    unfold norm2; simp
  rw [h3] at h2
  exact h1.trans (mul_le_mul_of_nonneg_left h2 hc)

theorem approx_add (h : Gradual fl u tiny) {k : ℕ} {a' a b' b : Fin n → ℂ} {A B : ℝ} (ha : Approx u k a' a A) (hb : Approx u k b' b B) :
    Approx u (k + 1) (fun i => addC fl (a' i) (b' i)) (a + b) (A + B + slack n tiny) := by
  have hu := h.nonneg
  have hs := slack_nonneg (n := n) h.tiny_nonneg
  refine ⟨?_, ((norm2_add_le _ _).trans (add_le_add ha.2 hb.2)).trans (by linarith)⟩
  have e1 : norm2 ((fun i => addC fl (a' i) (b' i)) - (a' + b')) ≤ u * (norm2 (a' + b') + slack n tiny) :=
    norm2_tiny hu (by have := h.tiny_nonneg; positivity) fun i => addC_gradual h _ _
  have e2 := mul_le_mul_of_nonneg_left ((norm2_add_le a' b').trans (add_le_add ha.norm_le hb.norm_le)) hu
  have e3 : norm2 ((a' + b') - (a + b)) ≤ norm2 (a' - a) + norm2 (b' - b) := by
    rw [add_sub_add_comm]; exact norm2_add_le _ _
  have e4 := norm2_sub_le (fun i => addC fl (a' i) (b' i)) (a' + b') (a + b)
  have h1 := ha.1
  have h2 := hb.1
  have hp : 1 ≤ (1 + u) ^ k := one_le_pow₀ (by linarith)
  have e5 : u * slack n tiny ≤ ((1 + u) ^ (k + 1) - 1) * slack n tiny := by
    refine mul_le_mul_of_nonneg_right ?_ hs
    rw [pow_succ]; nlinarith
  have : ((1 + u) ^ (k + 1) - 1) * (A + B + slack n tiny) = u * ((1 + u) ^ k * A + (1 + u) ^ k * B) + ((1 + u) ^ k - 1) * A +
      ((1 + u) ^ k - 1) * B + ((1 + u) ^ (k + 1) - 1) * slack n tiny := by
    rw [pow_succ]; ring
  linarith

theorem approx_scale (h : Gradual fl u tiny) (c : ℝ) {k : ℕ} {a' a : Fin n → ℂ} {A : ℝ} (ha : Approx u k a' a A) :
    Approx u (k + 1) (fun i => scaleC fl c (a' i)) ((c : ℂ) • a) (|c| * A + slack n tiny) := by
  have hu := h.nonneg
  have hs := slack_nonneg (n := n) h.tiny_nonneg
  have hc : ‖(c : ℂ)‖ = |c| := by rw [Complex.norm_real, Real.norm_eq_abs]
  refine ⟨?_, by rw [norm2_smul, hc]; exact (mul_le_mul_of_nonneg_left ha.2 (abs_nonneg c)).trans (by linarith)⟩
  have e1 : norm2 ((fun i => scaleC fl c (a' i)) - (c : ℂ) • a') ≤ u * (norm2 ((c : ℂ) • a') + slack n tiny) :=
    norm2_tiny hu (by have := h.tiny_nonneg; positivity) fun i => scaleC_gradual h _ _
  rw [norm2_smul, hc] at e1
  have e2 := mul_le_mul_of_nonneg_left (mul_le_mul_of_nonneg_left ha.norm_le (abs_nonneg c)) hu
  have e3 : norm2 ((c : ℂ) • a' - (c : ℂ) • a) = |c| * norm2 (a' - a) := by rw [← smul_sub, norm2_smul, hc]
  have e4 := norm2_sub_le (fun i => scaleC fl c (a' i)) ((c : ℂ) • a') ((c : ℂ) • a)
  have e5 := mul_le_mul_of_nonneg_left ha.1 (abs_nonneg c)
  have hp : 1 ≤ (1 + u) ^ k := one_le_pow₀ (by linarith)
  have e6 : u * slack n tiny ≤ ((1 + u) ^ (k + 1) - 1) * slack n tiny := by
    refine mul_le_mul_of_nonneg_right ?_ hs
    rw [pow_succ]; nlinarith
  have : ((1 + u) ^ (k + 1) - 1) * (|c| * A + slack n tiny) = u * (|c| * ((1 + u) ^ k * A)) + |c| * (((1 + u) ^ k - 1) * A) +
      ((1 + u) ^ (k + 1) - 1) * slack n tiny := by rw [pow_succ]; ring
  linarith

/-- The scalar is rounded as well, without underflow. -/
theorem approx_factor (h : Gradual fl u tiny) {c : ℝ} (hct : tiny ≤ |c|) {k : ℕ} {a' a : Fin n → ℂ} {A : ℝ} (ha : Approx u k a' a A) :
    Approx u (k + 2) (fun i => scaleC fl (fl c) (a' i)) ((c : ℂ) • a) (|c| * A + slack n tiny) := by
  have hu := h.nonneg
  have hs := slack_nonneg (n := n) h.tiny_nonneg
  have hc : ‖(c : ℂ)‖ = |c| := by rw [Complex.norm_real, Real.norm_eq_abs]
  have herr : |fl c - c| ≤ u * |c| := by have := h.err c; rwa [max_eq_left hct] at this
  have hc' : |fl c| ≤ (1 + u) * |c| := by
    have h2 := abs_add_le (fl c - c) c
    rw [sub_add_cancel] at h2
    linarith
  refine ⟨?_, by rw [norm2_smul, hc]; exact (mul_le_mul_of_nonneg_left ha.2 (abs_nonneg c)).trans (by linarith)⟩
  have e0 := ha.norm_le
  have hA := ha.nonneg
  have hp : 0 ≤ (1 + u) ^ k := by positivity
  have e1 : norm2 ((fun i => scaleC fl (fl c) (a' i)) - ((fl c : ℝ) : ℂ) • a') ≤ u * (norm2 (((fl c : ℝ) : ℂ) • a') + slack n tiny) :=
    norm2_tiny hu (by have := h.tiny_nonneg; positivity) fun i => scaleC_gradual h _ _
  rw [norm2_smul, Complex.norm_real, Real.norm_eq_abs, mul_add] at e1
  have e2 : u * (|fl c| * norm2 a') ≤ u * (((1 + u) * |c|) * ((1 + u) ^ k * A)) :=
    mul_le_mul_of_nonneg_left (mul_le_mul hc' e0 (norm2_nonneg _) (by positivity)) hu
  have e3 : norm2 (((fl c : ℝ) : ℂ) • a' - (c : ℂ) • a') ≤ u * |c| * ((1 + u) ^ k * A) := by
    rw [← sub_smul, norm2_smul, ← Complex.ofReal_sub, Complex.norm_real, Real.norm_eq_abs]
    exact mul_le_mul herr e0 (norm2_nonneg _) (by positivity)
  have e4 : norm2 ((c : ℂ) • a' - (c : ℂ) • a) = |c| * norm2 (a' - a) := by rw [← smul_sub, norm2_smul, hc]
  have e5 := norm2_sub_le (fun i => scaleC fl (fl c) (a' i)) (((fl c : ℝ) : ℂ) • a') ((c : ℂ) • a)
  have e6 := norm2_sub_le (((fl c : ℝ) : ℂ) • a') ((c : ℂ) • a') ((c : ℂ) • a)
  have e7 := mul_le_mul_of_nonneg_left ha.1 (abs_nonneg c)
  have hp1 : 1 ≤ (1 + u) ^ (k + 1) := one_le_pow₀ (by linarith)
  have e8 : u * slack n tiny ≤ ((1 + u) ^ (k + 2) - 1) * slack n tiny := by
    refine mul_le_mul_of_nonneg_right ?_ hs
    rw [show k + 2 = k + 1 + 1 by ring, pow_succ]; nlinarith
  have : ((1 + u) ^ (k + 2) - 1) * (|c| * A + slack n tiny) =
      u * (((1 + u) * |c|) * ((1 + u) ^ k * A)) + u * |c| * ((1 + u) ^ k * A) + |c| * (((1 + u) ^ k - 1) * A) +
      ((1 + u) ^ (k + 2) - 1) * slack n tiny := by rw [pow_add]; ring
  linarith

theorem approx_matrix (hu : 0 ≤ u) {m : ℕ → ℕ → ℂ} {B : ℝ} (hB : Bounded n m B) (hB0 : 0 ≤ B) {r k : ℕ} {q : ℝ} (hq : 0 ≤ q) (P : (Fin n → ℂ) → Fin n → ℂ)
    (hP : ∀ (v : Fin n → ℂ) (i : Fin n), ‖P v i - (mat n m).mulVec v i‖ ≤ ((1 + u) ^ r - 1) * (∑ j : Fin n, ‖m i j‖ * ‖v j‖ + q))
    {a' a : Fin n → ℂ} {A : ℝ} (ha : Approx u k a' a A) : Approx u (k + r) (P a') ((mat n m).mulVec a) (B * A + q * Real.sqrt n) := by
  have hq' : 0 ≤ q * Real.sqrt n := by positivity
  refine ⟨?_, (mulVec_norm2 hB a).trans ((mul_le_mul_of_nonneg_left ha.2 hB0).trans (by linarith))⟩
  have hr : 0 ≤ (1 + u) ^ r - 1 := sub_nonneg.2 (one_le_pow₀ (by linarith))
  have e1 : norm2 (P a' - (mat n m).mulVec a') ≤ ((1 + u) ^ r - 1) * (B * norm2 a' + q * Real.sqrt n) := by
    refine le_trans (norm2_tiny (w := fun i => ((∑ j : Fin n, ‖m i j‖ * ‖a' j‖ : ℝ) : ℂ)) hr hq fun i => ?_)
      (mul_le_mul_of_nonneg_left (add_le_add (schur_test' (fun i j => ‖m i j‖) (fun _ _ => norm_nonneg _) B hB.row hB.column a') le_rfl) hr)
    rw [Complex.norm_real, Real.norm_of_nonneg (Finset.sum_nonneg fun j _ => by positivity)]
    exact hP a' i
  have e2 := mul_le_mul_of_nonneg_left (mul_le_mul_of_nonneg_left ha.norm_le hB0) hr
  have e3 : norm2 ((mat n m).mulVec a' - (mat n m).mulVec a) ≤ B * (((1 + u) ^ k - 1) * A) := by
    rw [← Matrix.mulVec_sub]
    exact (mulVec_norm2 hB _).trans (mul_le_mul_of_nonneg_left ha.1 hB0)
  have e4 := norm2_sub_le (P a') ((mat n m).mulVec a') ((mat n m).mulVec a)
  have e5 : ((1 + u) ^ r - 1) * (q * Real.sqrt n) ≤ ((1 + u) ^ (k + r) - 1) * (q * Real.sqrt n) := by
    refine mul_le_mul_of_nonneg_right ?_ hq'
    have := pow_le_pow_right₀ (a := 1 + u) (by linarith) (Nat.le_add_left r k)
    linarith
  have : ((1 + u) ^ (k + r) - 1) * (B * A + q * Real.sqrt n) = ((1 + u) ^ r - 1) * (B * ((1 + u) ^ k * A)) + B * (((1 + u) ^ k - 1) * A) +
      ((1 + u) ^ (k + r) - 1) * (q * Real.sqrt n) := by rw [pow_add]; ring
  rw [mul_add] at e1
  linarith

/-! ### Rows of a sparse matrix -/

theorem approxC_add (h : Gradual fl u tiny) {k : ℕ} {a' a b' b : ℂ} {A B : ℝ} (ha : ApproxC u k a' a A) (hb : ApproxC u k b' b B) :
    ApproxC u (k + 1) (addC fl a' b') (a + b) (A + B + 2 * tiny) := by
  have hu := h.nonneg
  have ht := h.tiny_nonneg
  refine ⟨?_, (norm_add_le _ _).trans ((add_le_add ha.2 hb.2).trans (by linarith))⟩
  obtain ⟨h1, h1'⟩ := ha
  obtain ⟨h2, h2'⟩ := hb
  have e1 := addC_gradual h a' b'
  have e2 : ‖a' + b'‖ ≤ (1 + u) ^ k * (A + B) := by
    have : ‖a' + b'‖ ≤ ‖a' - a‖ + ‖b' - b‖ + (‖a‖ + ‖b‖) := by
      have := norm_add₃_le (a := a' - a) (b := b' - b) (c := a + b)
      rw [show a' - a + (b' - b) + (a + b) = a' + b' by ring] at this
      have := norm_add_le a b
      linarith
    linarith
  have e3 : ‖(a' + b') - (a + b)‖ ≤ ‖a' - a‖ + ‖b' - b‖ := by rw [add_sub_add_comm]; exact norm_add_le _ _
  have e4 := norm_sub_le_norm_sub_add_norm_sub (addC fl a' b') (a' + b') (a + b)
  have e5 := mul_le_mul_of_nonneg_left e2 hu
  have hp : 1 ≤ (1 + u) ^ k := one_le_pow₀ (by linarith)
  have e6 : u * (2 * tiny) ≤ ((1 + u) ^ (k + 1) - 1) * (2 * tiny) := by
    refine mul_le_mul_of_nonneg_right ?_ (by positivity)
    rw [pow_succ]; nlinarith
  have : ((1 + u) ^ (k + 1) - 1) * (A + B + 2 * tiny) = u * ((1 + u) ^ k * (A + B)) + ((1 + u) ^ k - 1) * A + ((1 + u) ^ k - 1) * B +
      ((1 + u) ^ (k + 1) - 1) * (2 * tiny) := by
    rw [pow_succ]; ring
  rw [mul_add] at e1
  linarith

theorem approxC_mul (h : Gradual fl u tiny) (x y : ℂ) : ApproxC u 4 (mulC fl x y) (x * y) (‖x‖ * ‖y‖ + 3 * tiny) :=
  ⟨mulC_gradual h x y, (norm_mul x y).le.trans (by have := h.tiny_nonneg; linarith)⟩

theorem ApproxC.norm_le {k : ℕ} {x' x : ℂ} {A : ℝ} (h : ApproxC u k x' x A) : ‖x'‖ ≤ (1 + u) ^ k * A := by
  have := norm_add_le (x' - x) x
  rw [sub_add_cancel] at this
  have h1 := h.1
  have h2 := h.2
  linarith

end Ieompp.IEEE
