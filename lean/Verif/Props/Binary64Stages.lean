import Verif.Props.Binary64Step

/-! # C117: one Runge–Kutta step with underflow and overflow -/

set_option autoImplicit false
set_option linter.unusedSectionVars false

namespace Ieompp.IEEE

open Ieompp.Spec ODE
open RealSpace (addC mulC)

theorem stage_bound1 {a B V q σ : ℝ} (ha : 0 ≤ a) (hB : 0 ≤ B) (hV : 0 ≤ V) (hq : 0 ≤ q) (hσ : 0 ≤ σ) :
    V ≤
      expPoly (a * B) * (V + (a * (q + σ) + 2 * σ)) := by
  have e : expPoly (a * B) * (V + (a * (q + σ) + 2 * σ)) -
      (V) =
      2 * σ + a * σ + a * q + 2 * a * B * σ + a * B * V + a ^ 2 * B * σ + a ^ 2 * B * q + a ^ 2 * B ^ 2 * σ + 1 / 2 * a ^ 2 * B ^ 2 * V + 1 / 2 * a ^ 3 * B ^ 2 * σ + 1 / 2 * a ^ 3 * B ^ 2 * q + 1 / 3 * a ^ 3 * B ^ 3 * σ + 1 / 6 * a ^ 3 * B ^ 3 * V + 1 / 6 * a ^ 4 * B ^ 3 * σ + 1 / 6 * a ^ 4 * B ^ 3 * q + 1 / 12 * a ^ 4 * B ^ 4 * σ + 1 / 24 * a ^ 4 * B ^ 4 * V + 1 / 24 * a ^ 5 * B ^ 4 * σ + 1 / 24 * a ^ 5 * B ^ 4 * q := by
    unfold expPoly; ring
  have : 0 ≤ 2 * σ + a * σ + a * q + 2 * a * B * σ + a * B * V + a ^ 2 * B * σ + a ^ 2 * B * q + a ^ 2 * B ^ 2 * σ + 1 / 2 * a ^ 2 * B ^ 2 * V + 1 / 2 * a ^ 3 * B ^ 2 * σ + 1 / 2 * a ^ 3 * B ^ 2 * q + 1 / 3 * a ^ 3 * B ^ 3 * σ + 1 / 6 * a ^ 3 * B ^ 3 * V + 1 / 6 * a ^ 4 * B ^ 3 * σ + 1 / 6 * a ^ 4 * B ^ 3 * q + 1 / 12 * a ^ 4 * B ^ 4 * σ + 1 / 24 * a ^ 4 * B ^ 4 * V + 1 / 24 * a ^ 5 * B ^ 4 * σ + 1 / 24 * a ^ 5 * B ^ 4 * q := by
    positivity
  linarith

theorem stage_bound2 {a B V q σ : ℝ} (ha : 0 ≤ a) (hB : 0 ≤ B) (hV : 0 ≤ V) (hq : 0 ≤ q) (hσ : 0 ≤ σ) :
    V + (a / 2 * (B * V + q) + σ) + σ ≤
      2 * (expPoly (a * B) * (V + (a * (q + σ) + 2 * σ))) := by
  have e : 2 * (expPoly (a * B) * (V + (a * (q + σ) + 2 * σ))) -
      (V + (a / 2 * (B * V + q) + σ) + σ) =
      2 * σ + V + 2 * a * σ + 3 / 2 * a * q + 4 * a * B * σ + 3 / 2 * a * B * V + 2 * a ^ 2 * B * σ + 2 * a ^ 2 * B * q + 2 * a ^ 2 * B ^ 2 * σ + a ^ 2 * B ^ 2 * V + a ^ 3 * B ^ 2 * σ + a ^ 3 * B ^ 2 * q + 2 / 3 * a ^ 3 * B ^ 3 * σ + 1 / 3 * a ^ 3 * B ^ 3 * V + 1 / 3 * a ^ 4 * B ^ 3 * σ + 1 / 3 * a ^ 4 * B ^ 3 * q + 1 / 6 * a ^ 4 * B ^ 4 * σ + 1 / 12 * a ^ 4 * B ^ 4 * V + 1 / 12 * a ^ 5 * B ^ 4 * σ + 1 / 12 * a ^ 5 * B ^ 4 * q := by
    unfold expPoly; ring
  have : 0 ≤ 2 * σ + V + 2 * a * σ + 3 / 2 * a * q + 4 * a * B * σ + 3 / 2 * a * B * V + 2 * a ^ 2 * B * σ + 2 * a ^ 2 * B * q + 2 * a ^ 2 * B ^ 2 * σ + a ^ 2 * B ^ 2 * V + a ^ 3 * B ^ 2 * σ + a ^ 3 * B ^ 2 * q + 2 / 3 * a ^ 3 * B ^ 3 * σ + 1 / 3 * a ^ 3 * B ^ 3 * V + 1 / 3 * a ^ 4 * B ^ 3 * σ + 1 / 3 * a ^ 4 * B ^ 3 * q + 1 / 6 * a ^ 4 * B ^ 4 * σ + 1 / 12 * a ^ 4 * B ^ 4 * V + 1 / 12 * a ^ 5 * B ^ 4 * σ + 1 / 12 * a ^ 5 * B ^ 4 * q := by
    positivity
  linarith

theorem stage_bound3 {a B V q σ : ℝ} (ha : 0 ≤ a) (hB : 0 ≤ B) (hV : 0 ≤ V) (hq : 0 ≤ q) (hσ : 0 ≤ σ) :
    V + (a / 2 * (B * (V + (a / 2 * (B * V + q) + σ) + σ) + q) + σ) + σ ≤
      2 * (expPoly (a * B) * (V + (a * (q + σ) + 2 * σ))) := by
  have e : 2 * (expPoly (a * B) * (V + (a * (q + σ) + 2 * σ))) -
      (V + (a / 2 * (B * (V + (a / 2 * (B * V + q) + σ) + σ) + q) + σ) + σ) =
      2 * σ + V + 2 * a * σ + 3 / 2 * a * q + 3 * a * B * σ + 3 / 2 * a * B * V + 2 * a ^ 2 * B * σ + 7 / 4 * a ^ 2 * B * q + 2 * a ^ 2 * B ^ 2 * σ + 3 / 4 * a ^ 2 * B ^ 2 * V + a ^ 3 * B ^ 2 * σ + a ^ 3 * B ^ 2 * q + 2 / 3 * a ^ 3 * B ^ 3 * σ + 1 / 3 * a ^ 3 * B ^ 3 * V + 1 / 3 * a ^ 4 * B ^ 3 * σ + 1 / 3 * a ^ 4 * B ^ 3 * q + 1 / 6 * a ^ 4 * B ^ 4 * σ + 1 / 12 * a ^ 4 * B ^ 4 * V + 1 / 12 * a ^ 5 * B ^ 4 * σ + 1 / 12 * a ^ 5 * B ^ 4 * q := by
    unfold expPoly; ring
  have : 0 ≤ 2 * σ + V + 2 * a * σ + 3 / 2 * a * q + 3 * a * B * σ + 3 / 2 * a * B * V + 2 * a ^ 2 * B * σ + 7 / 4 * a ^ 2 * B * q + 2 * a ^ 2 * B ^ 2 * σ + 3 / 4 * a ^ 2 * B ^ 2 * V + a ^ 3 * B ^ 2 * σ + a ^ 3 * B ^ 2 * q + 2 / 3 * a ^ 3 * B ^ 3 * σ + 1 / 3 * a ^ 3 * B ^ 3 * V + 1 / 3 * a ^ 4 * B ^ 3 * σ + 1 / 3 * a ^ 4 * B ^ 3 * q + 1 / 6 * a ^ 4 * B ^ 4 * σ + 1 / 12 * a ^ 4 * B ^ 4 * V + 1 / 12 * a ^ 5 * B ^ 4 * σ + 1 / 12 * a ^ 5 * B ^ 4 * q := by
    positivity
  linarith

theorem stage_bound4 {a B V q σ : ℝ} (ha : 0 ≤ a) (hB : 0 ≤ B) (hV : 0 ≤ V) (hq : 0 ≤ q) (hσ : 0 ≤ σ) :
    V + (a * (B * (V + (a / 2 * (B * (V + (a / 2 * (B * V + q) + σ) + σ) + q) + σ) + σ) + q) + σ) + σ ≤
      2 * (expPoly (a * B) * (V + (a * (q + σ) + 2 * σ))) := by
  have e : 2 * (expPoly (a * B) * (V + (a * (q + σ) + 2 * σ))) -
      (V + (a * (B * (V + (a / 2 * (B * (V + (a / 2 * (B * V + q) + σ) + σ) + q) + σ) + σ) + q) + σ) + σ) =
      2 * σ + V + 2 * a * σ + a * q + 2 * a * B * σ + a * B * V + 2 * a ^ 2 * B * σ + 3 / 2 * a ^ 2 * B * q + a ^ 2 * B ^ 2 * σ + 1 / 2 * a ^ 2 * B ^ 2 * V + a ^ 3 * B ^ 2 * σ + 3 / 4 * a ^ 3 * B ^ 2 * q + 2 / 3 * a ^ 3 * B ^ 3 * σ + 1 / 12 * a ^ 3 * B ^ 3 * V + 1 / 3 * a ^ 4 * B ^ 3 * σ + 1 / 3 * a ^ 4 * B ^ 3 * q + 1 / 6 * a ^ 4 * B ^ 4 * σ + 1 / 12 * a ^ 4 * B ^ 4 * V + 1 / 12 * a ^ 5 * B ^ 4 * σ + 1 / 12 * a ^ 5 * B ^ 4 * q := by
    unfold expPoly; ring
  have : 0 ≤ 2 * σ + V + 2 * a * σ + a * q + 2 * a * B * σ + a * B * V + 2 * a ^ 2 * B * σ + 3 / 2 * a ^ 2 * B * q + a ^ 2 * B ^ 2 * σ + 1 / 2 * a ^ 2 * B ^ 2 * V + a ^ 3 * B ^ 2 * σ + 3 / 4 * a ^ 3 * B ^ 2 * q + 2 / 3 * a ^ 3 * B ^ 3 * σ + 1 / 12 * a ^ 3 * B ^ 3 * V + 1 / 3 * a ^ 4 * B ^ 3 * σ + 1 / 3 * a ^ 4 * B ^ 3 * q + 1 / 6 * a ^ 4 * B ^ 4 * σ + 1 / 12 * a ^ 4 * B ^ 4 * V + 1 / 12 * a ^ 5 * B ^ 4 * σ + 1 / 12 * a ^ 5 * B ^ 4 * q := by
    positivity
  linarith

theorem stage_bound5 {a B V q σ : ℝ} (ha : 0 ≤ a) (hB : 0 ≤ B) (hq : 0 ≤ q) (hσ : 0 ≤ σ) :
    V + (a / 6 * ((B * V + q) + (2 * (B * (V + (a / 2 * (B * V + q) + σ) + σ) + q) + σ) + σ + (2 * (B * (V + (a / 2 * (B * (V + (a / 2 * (B * V + q) + σ) + σ) + q) + σ) + σ) + q) + σ) + σ + (B * (V + (a * (B * (V + (a / 2 * (B * (V + (a / 2 * (B * V + q) + σ) + σ) + q) + σ) + σ) + q) + σ) + σ) + q) + σ) + σ) + σ ≤
      expPoly (a * B) * (V + (a * (q + σ) + 2 * σ)) := by
  have e : expPoly (a * B) * (V + (a * (q + σ) + 2 * σ)) -
      (V + (a / 6 * ((B * V + q) + (2 * (B * (V + (a / 2 * (B * V + q) + σ) + σ) + q) + σ) + σ + (2 * (B * (V + (a / 2 * (B * (V + (a / 2 * (B * V + q) + σ) + σ) + q) + σ) + σ) + q) + σ) + σ + (B * (V + (a * (B * (V + (a / 2 * (B * (V + (a / 2 * (B * V + q) + σ) + σ) + q) + σ) + σ) + q) + σ) + σ) + q) + σ) + σ) + σ) =
      1 / 6 * a * σ + 1 / 3 * a * B * σ + a ^ 2 * B * σ + 1 / 2 * a ^ 2 * B * q + 1 / 3 * a ^ 2 * B ^ 2 * σ + 1 / 2 * a ^ 3 * B ^ 2 * σ + 1 / 3 * a ^ 3 * B ^ 2 * q + 1 / 6 * a ^ 3 * B ^ 3 * σ + 1 / 6 * a ^ 4 * B ^ 3 * σ + 1 / 8 * a ^ 4 * B ^ 3 * q + 1 / 12 * a ^ 4 * B ^ 4 * σ + 1 / 24 * a ^ 5 * B ^ 4 * σ + 1 / 24 * a ^ 5 * B ^ 4 * q := by
    unfold expPoly; ring
  have : 0 ≤ 1 / 6 * a * σ + 1 / 3 * a * B * σ + a ^ 2 * B * σ + 1 / 2 * a ^ 2 * B * q + 1 / 3 * a ^ 2 * B ^ 2 * σ + 1 / 2 * a ^ 3 * B ^ 2 * σ + 1 / 3 * a ^ 3 * B ^ 2 * q + 1 / 6 * a ^ 3 * B ^ 3 * σ + 1 / 6 * a ^ 4 * B ^ 3 * σ + 1 / 8 * a ^ 4 * B ^ 3 * q + 1 / 12 * a ^ 4 * B ^ 4 * σ + 1 / 24 * a ^ 5 * B ^ 4 * σ + 1 / 24 * a ^ 5 * B ^ 4 * q := by
    positivity
  linarith

variable {n : ℕ} {rnd : ℝ → Res ℝ} {fl : ℝ → ℝ} {u tiny huge : ℝ}

theorem shiftR_ofFn (hg : Gradual fl u tiny) (ha : Agrees rnd fl huge) {k : ℕ} {h d : ℝ} (hh : |h / d| ≤ huge) (ht : tiny ≤ |h / d|)
    {v' v x' x : Fin n → ℂ} {V X : ℝ} (hv : Approx u k v' v V) (hx : Approx u k x' x X)
    (hr : (1 + u) ^ (k + 2) * (V + (|h / d| * X + slack n tiny)) ≤ huge) :
    shiftR rnd (List.ofFn v') h d (List.ofFn x') = .val (List.ofFn fun i => addC fl (v' i) (scaleC fl (fl (h / d)) (x' i))) := by
  have hu := hg.nonneg
  have hs := slack_nonneg (n := n) hg.tiny_nonneg
  have hV := hv.nonneg
  have hX := hx.nonneg
  have hf := approx_factor hg ht hx
  have p2 : (1 + u) ^ k ≤ (1 + u) ^ (k + 2) := pow_le_pow_right₀ (by linarith) (by omega)
  have herr : |fl (h / d)| ≤ (1 + u) * |h / d| := by
    have h1 := hg.err (h / d)
    rw [max_eq_left ht] at h1
    have h2 := abs_add_le (fl (h / d) - h / d) (h / d)
    rw [sub_add_cancel] at h2
    linarith
  unfold shiftR
  rw [ha _ hh, Res.bind_val, vscaleR_ofFn ha, Res.bind_val, vaddR_ofFn ha]
  · refine le_trans (add_le_add (hv.norm_le.trans (mul_le_mul_of_nonneg_right p2 hV)) hf.norm_le) (le_trans (le_of_eq ?_) hr)
    ring
  · refine le_trans (mul_le_mul herr hx.norm_le (norm2_nonneg _) (by positivity)) (le_trans ?_ hr)
    rw [show (1 + u) * |h / d| * ((1 + u) ^ k * X) = (1 + u) ^ (k + 1) * (|h / d| * X) by rw [pow_succ]; ring]
    exact mul_le_mul (pow_le_pow_right₀ (by linarith) (by omega)) (by linarith) (by positivity) (by positivity)

theorem matVecR_of (hg : Gradual fl u tiny) (ha : Agrees rnd fl huge) {m : ℕ → ℕ → ℂ} {B : ℝ} (hB : Bounded n m B) (hB0 : 0 ≤ B) {cols : ℕ → List ℕ} {z k : ℕ}
    (hS : Stored n m cols z) {v' v : Fin n → ℂ} {A q : ℝ} (hv : Approx u k v' v A) (hq : rowSlack z tiny ≤ q)
    (hr : 2 * ((1 + u) ^ (k + (z + 3)) * (B * A + q)) ≤ huge) :
    matVecR rnd n m cols (List.ofFn v') = .val (List.ofFn fun i : Fin n => rowF fl (m i) (List.ofFn v') (cols i)) := by
  have hu := hg.nonneg
  have ht0 := hg.tiny_nonneg
  have hA := hv.nonneg
  have hrs : 0 ≤ rowSlack z tiny := by unfold rowSlack; positivity
  refine matVecR_ofFn hg ha hB hS (le_trans ?_ hr)
  have h1 := mul_le_mul_of_nonneg_left hv.norm_le hB0
  have h2 : 1 ≤ (1 + u) ^ k := one_le_pow₀ (by linarith)
  have h3 : B * norm2 v' + rowSlack z tiny ≤ (1 + u) ^ k * (B * A + q) := by nlinarith
  have h4 := mul_le_mul_of_nonneg_left h3 (by positivity : 0 ≤ (1 + u) ^ (z + 3))
  rw [← mul_assoc, ← pow_add, add_comm (z + 3) k] at h4
  linarith

theorem vaddR_of (ha : Agrees rnd fl huge) {k : ℕ} {a' a b' b : Fin n → ℂ} {A B : ℝ} (h1 : Approx u k a' a A) (h2 : Approx u k b' b B)
    (hr : (1 + u) ^ k * (A + B) ≤ huge) : vaddR rnd (List.ofFn a') (List.ofFn b') = .val (List.ofFn fun i => addC fl (a' i) (b' i)) :=
  vaddR_ofFn ha (by have := h1.norm_le; have := h2.norm_le; rw [mul_add] at hr; linarith)

theorem vscaleR_of (ha : Agrees rnd fl huge) {k : ℕ} {c : ℝ} {a' a : Fin n → ℂ} {A : ℝ} (h1 : Approx u k a' a A)
    (hr : (1 + u) ^ k * (|c| * A) ≤ huge) : vscaleR rnd c (List.ofFn a') = .val (List.ofFn fun i => scaleC fl c (a' i)) :=
  vscaleR_ofFn ha (by have := mul_le_mul_of_nonneg_left h1.norm_le (abs_nonneg c); linarith)

/-- The largest number in a step. -/
noncomputable def stepRange (z : ℕ) (B q σ Y : ℝ) (u : ℝ) : ℝ := 2 * ((1 + u) ^ (4 * z + 24) * ((2 + 12 * B) * Y + 6 * q + 6 * σ))

/-- What underflow can add in a step. -/
noncomputable def stepSlack (h q σ : ℝ) : ℝ := |h| * (q + σ) + 2 * σ

/-- **C117, one step.** As long as the numbers stay below `huge`, no operation overflows, and the error is that of `stepMatrix_rounded` (C82) for a vector
longer by `stepSlack`. -/
theorem stepMatrixR_correct (hg : Gradual fl u tiny) (ha : Agrees rnd fl huge) (hn : 1 ≤ n) {m : ℕ → ℕ → ℂ} {B : ℝ} (hB : Bounded n m B) (hB0 : 0 ≤ B)
    {cols : ℕ → List ℕ} {z : ℕ} (hS : Stored n m cols z) {h : ℝ} (ht : tiny ≤ |h / 6|) (hh : |h| ≤ huge) {q σ V : ℝ}
    (hq : q = rowSlack z tiny * Real.sqrt n) (hσ : σ = slack n tiny)
    (w : Work ℂ) {v : Fin n → ℂ} (hv : norm2 v ≤ V) (hr : stepRange z B q σ (expPoly (|h| * B) * (V + stepSlack h q σ)) u ≤ huge) :
    ∃ (w' : Work ℂ) (y : Fin n → ℂ), stepMatrixR rnd n h m cols w (List.ofFn v) = .val (w', List.ofFn y) ∧
      norm2 (y - (Spec.exp4 (h : ℂ) (mat n m)).mulVec v) ≤ stepError u z (|h| * B) * (V + stepSlack h q σ) := by
  have hu := hg.nonneg
  have ht0 := hg.tiny_nonneg
  have hσ0 : 0 ≤ σ := by rw [hσ]; exact slack_nonneg ht0
  have hrs : 0 ≤ rowSlack z tiny := by unfold rowSlack; positivity
  have hq0 : 0 ≤ q := by rw [hq]; positivity
  have hV0 : 0 ≤ V := (norm2_nonneg _).trans hv
  have hqr : rowSlack z tiny ≤ q := by
    rw [hq]
    have : (1 : ℝ) ≤ Real.sqrt n := Real.one_le_sqrt.2 (by exact_mod_cast hn)
    nlinarith
  have ha0 : 0 ≤ |h| := abs_nonneg h
  set P : (Fin n → ℂ) → Fin n → ℂ := fun v i => rowF fl (m i) (List.ofFn v) (cols i) with hP
  have hPe := fun v i => row_gradual hg hS v i
  have a0 : Approx u 0 v v V := ⟨by simp [norm2], hv⟩
  have d2 : |h / 2| = |h| / 2 := by rw [abs_div, abs_of_pos (show (0 : ℝ) < 2 by norm_num)]
  have d6 : |h / 6| = |h| / 6 := by rw [abs_div, abs_of_pos (show (0 : ℝ) < 6 by norm_num)]
  have t2 : tiny ≤ |h / 2| := by rw [d2]; rw [d6] at ht; linarith
  have l2 : |h / 2| ≤ huge := by rw [d2]; linarith
  have l6 : |h / 6| ≤ huge := by rw [d6]; linarith
  have k1 := approx_matrix hu hB hB0 hrs P hPe a0
  have x2 := approx_add hg (a0.mono hu (Nat.zero_le _)) (approx_factor hg t2 k1)
  have k2 := approx_matrix hu hB hB0 hrs P hPe x2
  have x3 := approx_add hg (a0.mono hu (Nat.zero_le _)) (approx_factor hg t2 k2)
  have k3 := approx_matrix hu hB hB0 hrs P hPe x3
  have x4 := approx_add hg (a0.mono hu (Nat.zero_le _)) (approx_scale hg h k3)
  have k4 := approx_matrix hu hB hB0 hrs P hPe x4
  have s1 := approx_add hg (k1.mono hu (k' := 0 + (z + 3) + 2 + 1 + (z + 3) + 1) (by omega)) (approx_scale hg 2 k2)
  have s2 := approx_add hg (s1.mono hu (k' := 0 + (z + 3) + 2 + 1 + (z + 3) + 2 + 1 + (z + 3) + 1) (by omega)) (approx_scale hg 2 k3)
  have s3 := approx_add hg (s2.mono hu (k' := 0 + (z + 3) + 2 + 1 + (z + 3) + 2 + 1 + (z + 3) + 1 + 1 + (z + 3)) (by omega)) k4
  have f := approx_add hg (a0.mono hu (Nat.zero_le _)) (approx_factor hg ht s3)
  have hrange : ∀ (k : ℕ) (A : ℝ), k ≤ 4 * z + 24 → 0 ≤ A → A ≤ (2 + 12 * B) * (expPoly (|h| * B) * (V + stepSlack h q σ)) + 6 * q + 6 * σ →
      2 * ((1 + u) ^ k * A) ≤ huge := fun k A hk hA hAM => by
    refine le_trans (mul_le_mul_of_nonneg_left ?_ (by norm_num)) hr
    exact mul_le_mul (pow_le_pow_right₀ (by linarith) hk) hAM hA (by positivity)
  have hrange1 : ∀ (k : ℕ) (A : ℝ), k ≤ 4 * z + 24 → 0 ≤ A → A ≤ (2 + 12 * B) * (expPoly (|h| * B) * (V + stepSlack h q σ)) + 6 * q + 6 * σ →
      (1 + u) ^ k * A ≤ huge := fun k A hk hA hAM => by
    have h1 := hrange k A hk hA hAM
    have h2 : 0 ≤ (1 + u) ^ k * A := by positivity
    linarith
  have b1 := stage_bound1 ha0 hB0 hV0 hq0 hσ0
  have b2 := stage_bound2 ha0 hB0 hV0 hq0 hσ0
  have b3 := stage_bound3 ha0 hB0 hV0 hq0 hσ0
  have b4 := stage_bound4 ha0 hB0 hV0 hq0 hσ0
  have b5 := stage_bound5 (V := V) ha0 hB0 hq0 hσ0
  rw [show |h| * (q + σ) + 2 * σ = stepSlack h q σ from rfl] at b1 b2 b3 b4 b5
  rw [← hq, d2, ← hσ] at x2
  rw [← hq] at k1
  rw [← hq, d2, ← hσ] at k2
  rw [← hq, d2, ← hσ] at x3 k3
  rw [← hq, d2, ← hσ] at x4 k4
  rw [← hq, d2, ← hσ, abs_of_pos (show (0 : ℝ) < 2 by norm_num)] at s1 s2 s3
  rw [← hq, d2, d6, ← hσ, abs_of_pos (show (0 : ℝ) < 2 by norm_num)] at f
  have c1 : 0 ≤ B * V + q := by positivity
  have c2 : 0 ≤ V + (|h| / 2 * (B * V + q) + σ) + σ := by positivity
  generalize hX2 : V + (|h| / 2 * (B * V + q) + σ) + σ = X2 at *
  have c3 : 0 ≤ V + (|h| / 2 * (B * X2 + q) + σ) + σ := by positivity
  generalize hX3 : V + (|h| / 2 * (B * X2 + q) + σ) + σ = X3 at *
  have c4 : 0 ≤ V + (|h| * (B * X3 + q) + σ) + σ := by positivity
  generalize hX4 : V + (|h| * (B * X3 + q) + σ) + σ = X4 at *
  set Y := expPoly (|h| * B) * (V + stepSlack h q σ) with hY
  have hY0 : 0 ≤ Y := hV0.trans b1
  have m1 := mul_le_mul_of_nonneg_left b1 hB0
  have m2 := mul_le_mul_of_nonneg_left b2 hB0
  have m3 := mul_le_mul_of_nonneg_left b3 hB0
  have m4 := mul_le_mul_of_nonneg_left b4 hB0
  have p1 : 0 ≤ B * V := by positivity
  have p2 : 0 ≤ B * X2 := by positivity
  have p3 : 0 ≤ B * X3 := by positivity
  have p4 : 0 ≤ B * X4 := by positivity
  have p5 : 0 ≤ B * Y := by positivity
  have p6 : 0 ≤ |h| / 2 * (B * V + q) := by positivity
  have p7 : 0 ≤ |h| / 2 * (B * X2 + q) := by positivity
  have p8 : 0 ≤ |h| * (B * X3 + q) := by positivity
  have e := (f.mono hu (k' := 4 * z + 24) (by omega)).1
  have hst := stages_eq (h : ℂ) (mat n m) v _ _ _ _ rfl rfl rfl rfl
  have hval : ∃ w', stepMatrixR rnd n h m cols w (List.ofFn v) = .val (w', List.ofFn (stagesF fl h P P P P v)) := by
    have o1 := matVecR_of hg ha hB hB0 hS a0 hqr (hrange _ _ (by omega) c1 (by linarith))
    have o2 := shiftR_ofFn hg ha l2 t2 (a0.mono hu (Nat.zero_le _)) k1 (hrange1 _ _ (by omega) (by rw [d2, ← hσ]; positivity) (by rw [d2, ← hσ]; linarith))
    have o3 := matVecR_of hg ha hB hB0 hS x2 hqr (hrange _ _ (by omega) (by positivity) (by linarith))
    have o4 := shiftR_ofFn hg ha l2 t2 (a0.mono hu (Nat.zero_le _)) k2 (hrange1 _ _ (by omega) (by rw [d2, ← hσ]; positivity) (by rw [d2, ← hσ]; linarith))
    have o5 := matVecR_of hg ha hB hB0 hS x3 hqr (hrange _ _ (by omega) (by positivity) (by linarith))
    have o6 := vscaleR_of ha k3 (hrange1 _ _ (by omega) p8 (by linarith))
    have o7 := vaddR_of ha (a0.mono hu (Nat.zero_le _)) (approx_scale hg h k3) (hrange1 _ _ (by omega) (by rw [← hσ]; positivity) (by rw [← hσ]; linarith))
    have o8 := matVecR_of hg ha hB hB0 hS x4 hqr (hrange _ _ (by omega) (by positivity) (by linarith))
    have o9 := vscaleR_of (c := 2) ha k2 (hrange1 _ _ (by omega) (by positivity) (by rw [abs_two]; linarith))
    have o10 := vaddR_of ha (k1.mono hu (k' := 0 + (z + 3) + 2 + 1 + (z + 3) + 1) (by omega)) (approx_scale hg 2 k2)
        (hrange1 _ _ (by omega) (by rw [← hσ]; positivity) (by rw [← hσ, abs_two]; linarith))
    have o11 := vscaleR_of (c := 2) ha k3 (hrange1 _ _ (by omega) (by positivity) (by rw [abs_two]; linarith))
    have o12 := vaddR_of ha (s1.mono hu (k' := 0 + (z + 3) + 2 + 1 + (z + 3) + 2 + 1 + (z + 3) + 1) (by omega)) (approx_scale hg 2 k3)
        (hrange1 _ _ (by omega) (by rw [← hσ]; positivity) (by rw [← hσ, abs_two]; linarith))
    have o13 := vaddR_of ha (s2.mono hu (k' := 0 + (z + 3) + 2 + 1 + (z + 3) + 2 + 1 + (z + 3) + 1 + 1 + (z + 3)) (by omega)) k4
        (hrange1 _ _ (by omega) (by positivity) (by linarith))
    have o14 := shiftR_ofFn hg ha l6 ht (a0.mono hu (Nat.zero_le _)) s3 (hrange1 _ _ (by omega) (by rw [d6, ← hσ]; positivity) (by rw [d6, ← hσ]; linarith))
    simp only [hP] at o2 o3 o4 o5 o6 o7 o8 o9 o10 o11 o12 o13 o14
    simp only [stepMatrixR, combineR, Res.bind_val, Res.map_val, o1, o2, o3, o4, o5, o6, o7, o8, o9, o10, o11, o12, o13, o14]
    exact ⟨_, rfl⟩
  obtain ⟨w', hw'⟩ := hval
  refine ⟨w', _, hw', ?_⟩
  rw [← hst]
  have e2 := mul_le_mul_of_nonneg_left b5 (sub_nonneg.2 (one_le_pow₀ (n := 4 * z + 24) (by linarith : (1 : ℝ) ≤ 1 + u)))
  rw [← mul_assoc] at e2
  refine le_trans ?_ e2
  convert e using 2
  congr 1
  simp
  rfl

end Ieompp.IEEE
