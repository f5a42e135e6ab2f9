import Verif.Model.RK4Float
import Verif.Props.RK4Stability
import Verif.Props.ParallelFloat
import Mathlib.Analysis.Calculus.Deriv.Star
import Mathlib.Analysis.InnerProductSpace.PiL2

/-!
# C82: the Runge–Kutta integration with rounding errors
-/

set_option autoImplicit false
set_option linter.unusedSectionVars false

namespace Ieompp.Spec

/-- The Euclidean norm. -/
noncomputable def norm2 {n : ℕ} (v : Fin n → ℂ) : ℝ := Real.sqrt (∑ i, ‖v i‖ ^ 2)

/-- The exponential series up to the fourth order. -/
noncomputable def expPoly (x : ℝ) : ℝ := 1 + x + x ^ 2 / 2 + x ^ 3 / 6 + x ^ 4 / 24

end Ieompp.Spec

namespace Ieompp.ODE

open RealSpace (assignAt addC mulC addC_err mulC_err norm_le_of_components)
open MomentumSpace (vecAt)
open Ieompp.Spec (norm2)

variable {n : ℕ} {fl : ℝ → ℝ} {u : ℝ}

theorem norm2_eq (v : Fin n → ℂ) : norm2 v = ‖WithLp.toLp 2 v‖ := by
  rw [EuclideanSpace.norm_eq]; rfl

theorem norm2_nonneg (v : Fin n → ℂ) : 0 ≤ norm2 v := Real.sqrt_nonneg _

theorem norm2_add_le (v w : Fin n → ℂ) : norm2 (v + w) ≤ norm2 v + norm2 w := by
  rw [norm2_eq, norm2_eq, norm2_eq, WithLp.toLp_add]; exact norm_add_le _ _

theorem norm2_sub_le (a b c : Fin n → ℂ) : norm2 (a - c) ≤ norm2 (a - b) + norm2 (b - c) := by
  have := norm2_add_le (a - b) (b - c); rwa [sub_add_sub_cancel] at this

theorem norm2_smul (c : ℂ) (v : Fin n → ℂ) : norm2 (c • v) = ‖c‖ * norm2 v := by
  rw [norm2_eq, norm2_eq, WithLp.toLp_smul, norm_smul]

theorem norm2_le_of {v : Fin n → ℂ} {w : Fin n → ℂ} {c : ℝ} (hc : 0 ≤ c) (h : ∀ i, ‖v i‖ ≤ c * ‖w i‖) : norm2 v ≤ c * norm2 w := by
  unfold norm2
  rw [← Real.sqrt_sq hc, ← Real.sqrt_mul (sq_nonneg c)]
  apply Real.sqrt_le_sqrt
  rw [Finset.mul_sum]
  refine Finset.sum_le_sum fun i _ => ?_
  rw [← mul_pow]
  exact pow_le_pow_left₀ (norm_nonneg _) (h i) 2

/-- `x'` is the computed and `x` the exact vector: the error is at most `(1 + u)^k - 1` times the bound `A` of the norm of `x`. -/
def Approx (u : ℝ) (k : ℕ) (x' x : Fin n → ℂ) (A : ℝ) : Prop :=
  norm2 (x' - x) ≤ ((1 + u) ^ k - 1) * A ∧ norm2 x ≤ A

theorem Approx.exact (x : Fin n → ℂ) : Approx u 0 x x (norm2 x) := by
  refine ⟨?_, le_rfl⟩
  simp [norm2]

theorem Approx.nonneg {k : ℕ} {x' x : Fin n → ℂ} {A : ℝ} (h : Approx u k x' x A) : 0 ≤ A := (norm2_nonneg _).trans h.2

theorem Approx.mono (hu : 0 ≤ u) {k k' : ℕ} (hk : k ≤ k') {x' x : Fin n → ℂ} {A : ℝ} (h : Approx u k x' x A) : Approx u k' x' x A := by
  refine ⟨h.1.trans (mul_le_mul_of_nonneg_right ?_ h.nonneg), h.2⟩
  have := pow_le_pow_right₀ (a := 1 + u) (by linarith) hk
  linarith

/-- The computed vector is not much longer. -/
theorem Approx.norm_le {k : ℕ} {x' x : Fin n → ℂ} {A : ℝ} (h : Approx u k x' x A) : norm2 x' ≤ (1 + u) ^ k * A := by
  have := norm2_add_le (x' - x) x
  rw [sub_add_cancel] at this
  have h1 := h.1
  have h2 := h.2
  linarith

theorem Approx.add (hfl : Spec.Rounding fl u) {k : ℕ} {a' a b' b : Fin n → ℂ} {A B : ℝ} (ha : Approx u k a' a A) (hb : Approx u k b' b B) :
    Approx u (k + 1) (fun i => addC fl (a' i) (b' i)) (a + b) (A + B) := by
  refine ⟨?_, (norm2_add_le _ _).trans (add_le_add ha.2 hb.2)⟩
  have hu := hfl.nonneg
  have e1 : norm2 ((fun i => addC fl (a' i) (b' i)) - (a' + b')) ≤ u * norm2 (a' + b') :=
    norm2_le_of hu fun i => addC_err hfl _ _
  have e2 := mul_le_mul_of_nonneg_left ((norm2_add_le a' b').trans (add_le_add ha.norm_le hb.norm_le)) hu
  have e3 : norm2 ((a' + b') - (a + b)) ≤ norm2 (a' - a) + norm2 (b' - b) := by
    rw [add_sub_add_comm]; exact norm2_add_le _ _
  have e4 := norm2_sub_le (fun i => addC fl (a' i) (b' i)) (a' + b') (a + b)
  have h1 := ha.1
  have h2 := hb.1
  have : ((1 + u) ^ (k + 1) - 1) * (A + B) = u * ((1 + u) ^ k * A + (1 + u) ^ k * B) + ((1 + u) ^ k - 1) * A + ((1 + u) ^ k - 1) * B := by
    rw [pow_succ]; ring
  linarith

theorem scaleC_err (hfl : Spec.Rounding fl u) (c : ℝ) (z : ℂ) : ‖scaleC fl c z - (c : ℂ) * z‖ ≤ u * ‖(c : ℂ) * z‖ := by
  have := norm_le_of_components (z := scaleC fl c z - (c : ℂ) * z) (a := ((c : ℂ) * z).re) (b := ((c : ℂ) * z).im) hfl.nonneg
    (by simpa [scaleC] using hfl.err (c * z.re)) (by simpa [scaleC] using hfl.err (c * z.im))
  exact this

theorem Approx.scale (hfl : Spec.Rounding fl u) (c : ℝ) {k : ℕ} {a' a : Fin n → ℂ} {A : ℝ} (ha : Approx u k a' a A) :
    Approx u (k + 1) (fun i => scaleC fl c (a' i)) ((c : ℂ) • a) (|c| * A) := by
  have hu := hfl.nonneg
  have hc : ‖(c : ℂ)‖ = |c| := by rw [Complex.norm_real, Real.norm_eq_abs]
  refine ⟨?_, by rw [norm2_smul, hc]; exact mul_le_mul_of_nonneg_left ha.2 (abs_nonneg c)⟩
  have e1 : norm2 ((fun i => scaleC fl c (a' i)) - (c : ℂ) • a') ≤ u * norm2 ((c : ℂ) • a') :=
    norm2_le_of hu fun i => scaleC_err hfl _ _
  rw [norm2_smul, hc] at e1
  have e2 := mul_le_mul_of_nonneg_left (mul_le_mul_of_nonneg_left ha.norm_le (abs_nonneg c)) hu
  have e3 : norm2 ((c : ℂ) • a' - (c : ℂ) • a) = |c| * norm2 (a' - a) := by rw [← smul_sub, norm2_smul, hc]
  have e4 := norm2_sub_le (fun i => scaleC fl c (a' i)) ((c : ℂ) • a') ((c : ℂ) • a)
  have e5 := mul_le_mul_of_nonneg_left ha.1 (abs_nonneg c)
  have : ((1 + u) ^ (k + 1) - 1) * (|c| * A) = u * (|c| * ((1 + u) ^ k * A)) + |c| * (((1 + u) ^ k - 1) * A) := by rw [pow_succ]; ring
  linarith

/-- Changing a scalar factor by a relative error `u`. -/
theorem Approx.factor (hfl : Spec.Rounding fl u) (c : ℝ) {k : ℕ} {a' a : Fin n → ℂ} {A : ℝ} (ha : Approx u k a' a A) :
    Approx u (k + 2) (fun i => scaleC fl (fl c) (a' i)) ((c : ℂ) • a) (|c| * A) := by
  have hu := hfl.nonneg
  have hc : ‖(c : ℂ)‖ = |c| := by rw [Complex.norm_real, Real.norm_eq_abs]
  have hc' : |fl c| ≤ (1 + u) * |c| := by
    have := hfl.err c
    have h2 := abs_add_le (fl c - c) c
    rw [sub_add_cancel] at h2
    linarith
  refine ⟨?_, by rw [norm2_smul, hc]; exact mul_le_mul_of_nonneg_left ha.2 (abs_nonneg c)⟩
  have e0 := ha.norm_le
  have hA := ha.nonneg
  have hp : 0 ≤ (1 + u) ^ k := by positivity
  have e1 : norm2 ((fun i => scaleC fl (fl c) (a' i)) - ((fl c : ℝ) : ℂ) • a') ≤ u * norm2 (((fl c : ℝ) : ℂ) • a') :=
    norm2_le_of hu fun i => scaleC_err hfl _ _
  rw [norm2_smul, Complex.norm_real, Real.norm_eq_abs] at e1
  have e2 : u * (|fl c| * norm2 a') ≤ u * (((1 + u) * |c|) * ((1 + u) ^ k * A)) :=
    mul_le_mul_of_nonneg_left (mul_le_mul hc' e0 (norm2_nonneg _) (by positivity)) hu
  have e3 : norm2 (((fl c : ℝ) : ℂ) • a' - (c : ℂ) • a') ≤ u * |c| * ((1 + u) ^ k * A) := by
    rw [← sub_smul, norm2_smul, ← Complex.ofReal_sub, Complex.norm_real, Real.norm_eq_abs]
    exact mul_le_mul (hfl.err c) e0 (norm2_nonneg _) (by positivity)
  have e4 : norm2 ((c : ℂ) • a' - (c : ℂ) • a) = |c| * norm2 (a' - a) := by rw [← smul_sub, norm2_smul, hc]
  have e5 := norm2_sub_le (fun i => scaleC fl (fl c) (a' i)) (((fl c : ℝ) : ℂ) • a') ((c : ℂ) • a)
  have e6 := norm2_sub_le (((fl c : ℝ) : ℂ) • a') ((c : ℂ) • a') ((c : ℂ) • a)
  have e7 := mul_le_mul_of_nonneg_left ha.1 (abs_nonneg c)
  have : ((1 + u) ^ (k + 2) - 1) * (|c| * A) =
      u * (((1 + u) * |c|) * ((1 + u) ^ k * A)) + u * |c| * ((1 + u) ^ k * A) + |c| * (((1 + u) ^ k - 1) * A) := by rw [pow_add]; ring
  linarith

/-! ### The product of the matrix and a vector -/

theorem mulC_err4 (hfl : Spec.Rounding fl u) (x y : ℂ) : ‖mulC fl x y - x * y‖ ≤ ((1 + u) ^ 4 - 1) * (‖x‖ * ‖y‖) := by
  have hu := hfl.nonneg
  refine (mulC_err hfl x y).trans ?_
  rw [← mul_assoc]
  refine mul_le_mul_of_nonneg_right ?_ (by positivity)
  have : (1 + u) ^ 4 - 1 - 2 * (2 * u + u ^ 2) = 4 * u ^ 2 + 4 * u ^ 3 + u ^ 4 := by ring
  have : 0 ≤ 4 * u ^ 2 + 4 * u ^ 3 + u ^ 4 := by positivity
  linarith

/-- Scalars: `x'` computed, `x` exact. -/
def ApproxC (u : ℝ) (k : ℕ) (x' x : ℂ) (A : ℝ) : Prop := ‖x' - x‖ ≤ ((1 + u) ^ k - 1) * A ∧ ‖x‖ ≤ A

theorem ApproxC.mono (hu : 0 ≤ u) {k k' : ℕ} (hk : k ≤ k') {x' x : ℂ} {A : ℝ} (h : ApproxC u k x' x A) : ApproxC u k' x' x A := by
  refine ⟨h.1.trans (mul_le_mul_of_nonneg_right ?_ ((norm_nonneg _).trans h.2)), h.2⟩
  have := pow_le_pow_right₀ (a := 1 + u) (by linarith) hk
  linarith

theorem ApproxC.add (hfl : Spec.Rounding fl u) {k : ℕ} {a' a b' b : ℂ} {A B : ℝ} (ha : ApproxC u k a' a A) (hb : ApproxC u k b' b B) :
    ApproxC u (k + 1) (addC fl a' b') (a + b) (A + B) := by
  refine ⟨?_, (norm_add_le _ _).trans (add_le_add ha.2 hb.2)⟩
  have hu := hfl.nonneg
  obtain ⟨h1, h1'⟩ := ha
  obtain ⟨h2, h2'⟩ := hb
  have e1 := addC_err hfl a' b'
  have e2 : ‖a' + b'‖ ≤ (1 + u) ^ k * (A + B) := by
    have : ‖a' + b'‖ ≤ ‖a' - a‖ + ‖b' - b‖ + (‖a‖ + ‖b‖) := by
      have := norm_add₃_le (a := a' - a) (b := b' - b) (c := a + b)
      rw [show a' - a + (b' - b) + (a + b) = a' + b' by ring] at this
      have := norm_add_le a b
      linarith
    linarith
  have e3 : ‖(a' + b') - (a + b)‖ ≤ ‖a' - a‖ + ‖b' - b‖ := by rw [add_sub_add_comm]; exact norm_add_le _ _
  have e4 := norm_sub_le_norm_sub_add_norm_sub (addC fl a' b') (a' + b') (a + b)
  have e5 := mul_le_mul_of_nonneg_left e2 hu
  have : ((1 + u) ^ (k + 1) - 1) * (A + B) = u * ((1 + u) ^ k * (A + B)) + ((1 + u) ^ k - 1) * A + ((1 + u) ^ k - 1) * B := by
    rw [pow_succ]; ring
  linarith

theorem ApproxC.mul (hfl : Spec.Rounding fl u) (x y : ℂ) : ApproxC u 4 (mulC fl x y) (x * y) (‖x‖ * ‖y‖) :=
  ⟨mulC_err4 hfl x y, (norm_mul x y).le⟩

theorem fold_approx (hfl : Spec.Rounding fl u) (f g : ℕ → ℂ) : ∀ (js : List ℕ) (k : ℕ), 4 ≤ k → ∀ (a' a : ℂ) (A : ℝ), ApproxC u k a' a A →
    ApproxC u (k + js.length) (js.foldl (fun acc j => addC fl acc (mulC fl (f j) (g j))) a') (a + (js.map fun j => f j * g j).sum)
      (A + (js.map fun j => ‖f j‖ * ‖g j‖).sum) := by
  intro js
  induction js with
  | nil => intro k _ a' a A h; simpa using h
  | cons j js ih =>
    intro k hk a' a A h
    have := ih (k + 1) (by omega) _ _ _ (h.add hfl ((ApproxC.mul hfl (f j) (g j)).mono hfl.nonneg hk))
    simp only [List.foldl_cons, List.map_cons, List.sum_cons, List.length_cons]
    rw [show k + (js.length + 1) = k + 1 + js.length by ring, ← add_assoc a, ← add_assoc A]
    exact this

theorem rowF_approx (hfl : Spec.Rounding fl u) (m : ℕ → ℂ) (v : List ℂ) (js : List ℕ) :
    ApproxC u (js.length + 3) (rowF fl m v js) (js.map fun j => m j * v.getD j 0).sum (js.map fun j => ‖m j‖ * ‖v.getD j 0‖).sum := by
  cases js with
  | nil => simp [rowF, ApproxC]
  | cons j js =>
    have := fold_approx hfl m (fun j => v.getD j 0) js 4 le_rfl _ _ _ (ApproxC.mul hfl (m j) (v.getD j 0))
    rw [show (j :: js).length + 3 = 4 + js.length by simp; ring]
    exact this

/-- Schur's test for a matrix whose absolute row and column sums are at most `B`. -/
theorem schur_test' (m : Fin n → Fin n → ℝ) (hm : ∀ i j, 0 ≤ m i j) (B : ℝ) (hr : ∀ i, ∑ j, m i j ≤ B) (hc : ∀ j, ∑ i, m i j ≤ B)
    (v : Fin n → ℂ) : norm2 (fun i => ((∑ j, m i j * ‖v j‖ : ℝ) : ℂ)) ≤ B * norm2 v := by
  by_cases hn : Nonempty (Fin n)
  swap
  · rw [not_nonempty_iff] at hn; simp [norm2]
  have hB0 : 0 ≤ B := le_trans (Finset.sum_nonneg fun j _ => hm _ _) (hr hn.some)
  have row : ∀ i, (∑ j, m i j * ‖v j‖) ^ 2 ≤ B * ∑ j, m i j * ‖v j‖ ^ 2 := by
    intro i
    have h2 : (∑ j, m i j * ‖v j‖) ^ 2 ≤ (∑ j, m i j) * ∑ j, m i j * ‖v j‖ ^ 2 := by
      have := Finset.sum_mul_sq_le_sq_mul_sq Finset.univ (fun j => Real.sqrt (m i j)) (fun j => Real.sqrt (m i j) * ‖v j‖)
      simp only [mul_pow, Real.sq_sqrt (hm i _), ← mul_assoc, Real.mul_self_sqrt (hm i _)] at this
      exact this
    exact h2.trans (mul_le_mul_of_nonneg_right (hr i) (Finset.sum_nonneg fun j _ => mul_nonneg (hm i j) (by positivity)))
  unfold norm2
  rw [show B * √(∑ i, ‖v i‖ ^ 2) = √(B ^ 2 * ∑ i, ‖v i‖ ^ 2) by rw [Real.sqrt_mul (sq_nonneg B), Real.sqrt_sq hB0]]
  apply Real.sqrt_le_sqrt
  simp only [Complex.norm_real, Real.norm_eq_abs, sq_abs]
  calc ∑ i, (∑ j, m i j * ‖v j‖) ^ 2 ≤ ∑ i, B * ∑ j, m i j * ‖v j‖ ^ 2 := Finset.sum_le_sum fun i _ => row i
    _ = B * ∑ j, (∑ i, m i j) * ‖v j‖ ^ 2 := by
        rw [← Finset.mul_sum, Finset.sum_comm]; simp only [Finset.sum_mul]
    _ ≤ B * ∑ j, B * ‖v j‖ ^ 2 := by
        refine mul_le_mul_of_nonneg_left (Finset.sum_le_sum fun j _ => ?_) hB0
        exact mul_le_mul_of_nonneg_right (hc j) (by positivity)
    _ = B ^ 2 * ∑ j, ‖v j‖ ^ 2 := by rw [← Finset.mul_sum]; ring

theorem norm2_mono {v w : Fin n → ℂ} (h : ∀ i, ‖v i‖ ≤ ‖w i‖) : norm2 v ≤ norm2 w := by
  have := norm2_le_of (v := v) (w := w) (c := 1) zero_le_one (by simpa using h)
  simpa using this

/-- The absolute row and column sums of the `n × n` matrix are at most `B`. -/
structure Bounded (n : ℕ) (m : ℕ → ℕ → ℂ) (B : ℝ) : Prop where
  row : ∀ i : Fin n, ∑ j : Fin n, ‖m i j‖ ≤ B
  column : ∀ j : Fin n, ∑ i : Fin n, ‖m i j‖ ≤ B

/-- The stored columns: all of the matrix that is not zero, at most `z` in a row. -/
structure Stored (n : ℕ) (m : ℕ → ℕ → ℂ) (cols : ℕ → List ℕ) (z : ℕ) : Prop where
  nodup : ∀ i < n, (cols i).Nodup
  lt : ∀ i < n, ∀ j ∈ cols i, j < n
  all : ∀ i < n, ∀ j < n, m i j ≠ 0 → j ∈ cols i
  length : ∀ i < n, (cols i).length ≤ z

theorem sum_stored {α : Type*} [AddCommMonoid α] {l : List ℕ} (hn : l.Nodup) (hlt : ∀ j ∈ l, j < n) (f : ℕ → α)
    (hall : ∀ j < n, f j ≠ 0 → j ∈ l) : (l.map f).sum = ∑ j : Fin n, f j := by
  rw [Fin.sum_univ_eq_sum_range f n, ← List.sum_toFinset f hn]
  refine Finset.sum_subset (fun j hj => by simpa using hlt j (by simpa using hj)) fun j hj hj' => ?_
  by_contra h
  exact hj' (by simpa using hall j (by simpa using hj) h)

/-- The error of one multiplication. -/
theorem mulVec_norm2 {m : ℕ → ℕ → ℂ} {B : ℝ} (hB : Bounded n m B) (v : Fin n → ℂ) : norm2 ((mat n m).mulVec v) ≤ B * norm2 v := by
  refine le_trans (norm2_mono fun i => ?_) (schur_test' (fun i j => ‖m i j‖) (fun _ _ => norm_nonneg _) B hB.row hB.column v)
  rw [Complex.norm_real, Real.norm_of_nonneg (Finset.sum_nonneg fun j _ => by positivity)]
  refine (norm_sum_le Finset.univ fun j : Fin n => m i j * v j).trans (le_of_eq (Finset.sum_congr rfl fun j _ => ?_))
  rw [norm_mul]

theorem Approx.matrix (hu : 0 ≤ u) {m : ℕ → ℕ → ℂ} {B : ℝ} (hB : Bounded n m B) (hB0 : 0 ≤ B) {r k : ℕ} (P : (Fin n → ℂ) → Fin n → ℂ)
    (hP : ∀ (v : Fin n → ℂ) (i : Fin n), ‖P v i - (mat n m).mulVec v i‖ ≤ ((1 + u) ^ r - 1) * ∑ j : Fin n, ‖m i j‖ * ‖v j‖)
    {a' a : Fin n → ℂ} {A : ℝ} (ha : Approx u k a' a A) : Approx u (k + r) (P a') ((mat n m).mulVec a) (B * A) := by
  refine ⟨?_, (mulVec_norm2 hB a).trans (mul_le_mul_of_nonneg_left ha.2 hB0)⟩
  have hr : 0 ≤ (1 + u) ^ r - 1 := sub_nonneg.2 (one_le_pow₀ (by linarith))
  have e1 : norm2 (P a' - (mat n m).mulVec a') ≤ ((1 + u) ^ r - 1) * (B * norm2 a') := by
    refine le_trans (norm2_le_of (w := fun i => ((∑ j : Fin n, ‖m i j‖ * ‖a' j‖ : ℝ) : ℂ)) hr fun i => ?_)
      (mul_le_mul_of_nonneg_left (schur_test' (fun i j => ‖m i j‖) (fun _ _ => norm_nonneg _) B hB.row hB.column a') hr)
    rw [Complex.norm_real, Real.norm_of_nonneg (Finset.sum_nonneg fun j _ => by positivity)]
    exact hP a' i
  have e2 := mul_le_mul_of_nonneg_left (mul_le_mul_of_nonneg_left ha.norm_le hB0) hr
  have e3 : norm2 ((mat n m).mulVec a' - (mat n m).mulVec a) ≤ B * (((1 + u) ^ k - 1) * A) := by
    rw [← Matrix.mulVec_sub]
    exact (mulVec_norm2 hB _).trans (mul_le_mul_of_nonneg_left ha.1 hB0)
  have e4 := norm2_sub_le (P a') ((mat n m).mulVec a') ((mat n m).mulVec a)
  have : ((1 + u) ^ (k + r) - 1) * (B * A) = ((1 + u) ^ r - 1) * (B * ((1 + u) ^ k * A)) + B * (((1 + u) ^ k - 1) * A) := by rw [pow_add]; ring
  linarith

/-! ### One step -/

theorem vaddF_ofFn (a b : Fin n → ℂ) : vaddF fl (List.ofFn a) (List.ofFn b) = .val (List.ofFn fun i => addC fl (a i) (b i)) := by
  unfold vaddF
  rw [if_pos (by simp)]
  congr 1
  apply List.ext_getElem <;> simp

theorem vscaleF_ofFn (c : ℝ) (a : Fin n → ℂ) : vscaleF fl c (List.ofFn a) = List.ofFn fun i => scaleC fl c (a i) := by
  unfold vscaleF
  apply List.ext_getElem <;> simp

theorem matVecF_ofFn (m : ℕ → ℕ → ℂ) (cols : ℕ → List ℕ) (v : Fin n → ℂ) :
    matVecF fl n m cols (List.ofFn v) = .val (List.ofFn fun i : Fin n => rowF fl (m i) (List.ofFn v) (cols i)) := by
  unfold matVecF
  rw [if_pos (by simp), range_map_ofFn]

/-- The stages of a step with approximate products `P1 … P4`. -/
noncomputable def stagesF (fl : ℝ → ℝ) (h : ℝ) (P1 P2 P3 P4 : (Fin n → ℂ) → Fin n → ℂ) (v : Fin n → ℂ) : Fin n → ℂ :=
  let k1 := P1 v
  let k2 := P2 fun i => addC fl (v i) (scaleC fl (fl (h / 2)) (k1 i))
  let k3 := P3 fun i => addC fl (v i) (scaleC fl (fl (h / 2)) (k2 i))
  let k4 := P4 fun i => addC fl (v i) (scaleC fl h (k3 i))
  fun i => addC fl (v i) (scaleC fl (fl (h / 6)) (addC fl (addC fl (addC fl (k1 i) (scaleC fl 2 (k2 i))) (scaleC fl 2 (k3 i))) (k4 i)))

theorem stagesF_approx (hfl : Spec.Rounding fl u) {m : ℕ → ℕ → ℂ} {B : ℝ} (hB : Bounded n m B) (hB0 : 0 ≤ B) (h : ℝ) {r : ℕ}
    (P1 P2 P3 P4 : (Fin n → ℂ) → Fin n → ℂ)
    (h1 : ∀ (v : Fin n → ℂ) (i : Fin n), ‖P1 v i - (mat n m).mulVec v i‖ ≤ ((1 + u) ^ r - 1) * ∑ j : Fin n, ‖m i j‖ * ‖v j‖)
    (h2 : ∀ (v : Fin n → ℂ) (i : Fin n), ‖P2 v i - (mat n m).mulVec v i‖ ≤ ((1 + u) ^ r - 1) * ∑ j : Fin n, ‖m i j‖ * ‖v j‖)
    (h3 : ∀ (v : Fin n → ℂ) (i : Fin n), ‖P3 v i - (mat n m).mulVec v i‖ ≤ ((1 + u) ^ r - 1) * ∑ j : Fin n, ‖m i j‖ * ‖v j‖)
    (h4 : ∀ (v : Fin n → ℂ) (i : Fin n), ‖P4 v i - (mat n m).mulVec v i‖ ≤ ((1 + u) ^ r - 1) * ∑ j : Fin n, ‖m i j‖ * ‖v j‖)
    (v : Fin n → ℂ) :
    norm2 (stagesF fl h P1 P2 P3 P4 v - (Spec.exp4 (h : ℂ) (mat n m)).mulVec v) ≤
      ((1 + u) ^ (4 * r + 12) - 1) * (Spec.expPoly (|h| * B) * norm2 v) := by
  have hu := hfl.nonneg
  have a0 : Approx u 0 v v (norm2 v) := Approx.exact v
  have k1 := a0.matrix hu hB hB0 P1 h1
  have x2 := (a0.mono hu (Nat.zero_le _)).add hfl (k1.factor hfl (h / 2))
  have k2 := x2.matrix hu hB hB0 P2 h2
  have x3 := (a0.mono hu (Nat.zero_le _)).add hfl (k2.factor hfl (h / 2))
  have k3 := x3.matrix hu hB hB0 P3 h3
  have x4 := (a0.mono hu (Nat.zero_le _)).add hfl (k3.scale hfl h)
  have k4 := x4.matrix hu hB hB0 P4 h4
  have s1 := (k1.mono hu (k' := 0 + r + 2 + 1 + r + 1) (by omega)).add hfl (k2.scale hfl 2)
  have s2 := (s1.mono hu (k' := 0 + r + 2 + 1 + r + 2 + 1 + r + 1) (by omega)).add hfl (k3.scale hfl 2)
  have s3 := (s2.mono hu (k' := 0 + r + 2 + 1 + r + 2 + 1 + r + 1 + 1 + r) (by omega)).add hfl k4
  have f := (a0.mono hu (Nat.zero_le _)).add hfl (s3.factor hfl (h / 6))
  have e := (f.mono hu (k' := 4 * r + 12) (by omega)).1
  have hst := stages_eq (h : ℂ) (mat n m) v _ _ _ _ rfl rfl rfl rfl
  rw [← hst]
  have hbound : norm2 v + |h / 6| * (B * norm2 v + |(2 : ℝ)| * (B * (norm2 v + |h / 2| * (B * norm2 v))) +
      |(2 : ℝ)| * (B * (norm2 v + |h / 2| * (B * (norm2 v + |h / 2| * (B * norm2 v))))) +
      B * (norm2 v + |h| * (B * (norm2 v + |h / 2| * (B * (norm2 v + |h / 2| * (B * norm2 v))))))) =
      Spec.expPoly (|h| * B) * norm2 v := by
    unfold Spec.expPoly
    rw [abs_div, abs_div, abs_of_pos (show (0 : ℝ) < 2 by norm_num), abs_of_pos (show (0 : ℝ) < 6 by norm_num)]
    ring
  rw [hbound] at e
  convert e using 2
  congr 1
  simp


theorem rowF_err (hfl : Spec.Rounding fl u) {m : ℕ → ℕ → ℂ} {cols : ℕ → List ℕ} {z : ℕ} (hS : Stored n m cols z) (v : Fin n → ℂ) (i : Fin n) :
    ‖rowF fl (m i) (List.ofFn v) (cols i) - (mat n m).mulVec v i‖ ≤ ((1 + u) ^ (z + 3) - 1) * ∑ j : Fin n, ‖m i j‖ * ‖v j‖ := by
  have hu := hfl.nonneg
  have e := ((rowF_approx hfl (m i) (List.ofFn v) (cols i)).mono hu (k' := z + 3) (by have := hS.length i i.2; omega)).1
  have e1 : ((cols i).map fun j => m i j * (List.ofFn v).getD j 0).sum = (mat n m).mulVec v i := by
    rw [sum_stored (n := n) (hS.nodup i i.2) (hS.lt i i.2) _ fun j hj hne => hS.all i i.2 j hj (left_ne_zero_of_mul hne)]
    refine Finset.sum_congr rfl fun j _ => ?_
    rw [ofFn_getD]; rfl
  have e2 : ((cols i).map fun j => ‖m i j‖ * ‖(List.ofFn v).getD j 0‖).sum = ∑ j : Fin n, ‖m i j‖ * ‖v j‖ := by
    rw [sum_stored (n := n) (hS.nodup i i.2) (hS.lt i i.2) _ fun j hj hne => hS.all i i.2 j hj (norm_ne_zero_iff.1 (left_ne_zero_of_mul hne))]
    refine Finset.sum_congr rfl fun j _ => ?_
    rw [ofFn_getD]
  rw [e1, e2] at e
  exact e

/-- **C82, one step with a stored matrix.** Let the absolute row and column sums of the matrix be at most `B`, with at most `z` stored
elements in a row. The computed vector differs from the result in exact arithmetic by at most
`((1 + u)^(4z + 24) - 1) (1 + x + x²/2 + x³/6 + x⁴/24) ‖v‖`, `x = |h| B`, in the Euclidean norm. -/
theorem stepMatrix_rounded (hfl : Spec.Rounding fl u) {m : ℕ → ℕ → ℂ} {B : ℝ} (hB : Bounded n m B) (hB0 : 0 ≤ B) {cols : ℕ → List ℕ} {z : ℕ}
    (hS : Stored n m cols z) (h : ℝ) (w w0 : Work ℂ) (v : Fin n → ℂ) :
    ∃ (w' w0' : Work ℂ) (y x : Fin n → ℂ), stepMatrixF fl n h m cols w (List.ofFn v) = .val (w', List.ofFn y) ∧
      stepMatrix n (h : ℂ) m w0 (List.ofFn v) = .val (w0', List.ofFn x) ∧
      norm2 (y - x) ≤ ((1 + u) ^ (4 * z + 24) - 1) * (Spec.expPoly (|h| * B) * norm2 v) := by
  obtain ⟨w0', e0⟩ := stepMatrix_correct n (h : ℂ) m w0 v
  set P : (Fin n → ℂ) → Fin n → ℂ := fun v i => rowF fl (m i) (List.ofFn v) (cols i) with hP
  have hst : ∃ w', stepMatrixF fl n h m cols w (List.ofFn v) = .val (w', List.ofFn (stagesF fl h P P P P v)) := by
    simp only [stepMatrixF, combineF, matVecF_ofFn, vscaleF_ofFn, vaddF_ofFn, Res.bind_val, Res.map_val]
    exact ⟨_, rfl⟩
  obtain ⟨w', e⟩ := hst
  have he := fun v i => rowF_err hfl hS v i
  have := stagesF_approx hfl hB hB0 h P P P P he he he he v
  rw [show 4 * (z + 3) + 12 = 4 * z + 24 by ring] at this
  exact ⟨w', w0', _, _, e, e0, this⟩

/-! ### Function matrices -/

/-- The columns of a row in the order of the schedule. -/
def rowOrder (sched : List (ℕ × ℕ)) (i : ℕ) : List ℕ := (sched.filter fun e => e.1 = i).map (·.2)

theorem mac_foldF (m : ℕ → ℕ → ℂ) (v : Fin n → ℂ) : ∀ (sched : List (ℕ × ℕ)) (t : Fin n → ℂ),
    (∀ e ∈ sched, e.1 < n ∧ e.2 < n) →
    sched.foldl (macStepF fl m (List.ofFn v)) (.val (List.ofFn t)) =
      .val (List.ofFn fun i : Fin n => (rowOrder sched i).foldl (fun acc j => addC fl acc (mulC fl (m i j) ((List.ofFn v).getD j 0))) (t i))
  | [], t, _ => by simp [rowOrder]
  | e :: s, t, h => by
    obtain ⟨h1, h2⟩ := h e (by simp)
    have : macStepF fl m (List.ofFn v) (.val (List.ofFn t)) e = .val (List.ofFn fun i : Fin n =>
        if e.1 = (i : ℕ) then addC fl (t i) (mulC fl (m e.1 e.2) ((List.ofFn v).getD e.2 0)) else t i) := by
      unfold macStepF
      have v1 : vecAt (List.ofFn t) e.1 = .val (t ⟨e.1, h1⟩) := RealSpace.vecAt_get (by rw [List.getElem?_ofFn]; simp [h1])
      have v2 : vecAt (List.ofFn v) e.2 = .val ((List.ofFn v).getD e.2 0) := RealSpace.vecAt_get (by
        rw [List.getD_eq_getElem?_getD, List.getElem?_ofFn]; simp [h2])
      simp only [Res.bind_val, v1, v2]
      unfold assignAt
      rw [if_pos (by simpa using h1)]
      congr 1
      apply List.ext_getElem
      · simp
      · intro i hi hi'
        simp only [List.getElem_set, List.getElem_ofFn]
        split_ifs with hh
        · subst hh; rfl
        · rfl
    rw [List.foldl_cons, this, mac_foldF m v s _ (fun e he => h e (by simp [he]))]
    congr 2
    funext i
    unfold rowOrder
    rw [List.filter_cons]
    by_cases hi : e.1 = (i : ℕ)
    · simp only [hi, decide_true, if_true, List.map_cons, List.foldl_cons]
    · simp only [hi, decide_false, if_false, Bool.false_eq_true]

theorem rowOrder_perm {sched : List (ℕ × ℕ)} (hs : sched.Perm (allPairs n)) {i : ℕ} (hi : i < n) : (rowOrder sched i).Perm (List.range n) := by
  have h1 : (rowOrder sched i).Perm (rowOrder (allPairs n) i) := (hs.filter _).map _
  refine h1.trans ((List.perm_ext_iff_of_nodup ?_ List.nodup_range).2 fun j => ?_)
  · unfold rowOrder
    refine List.Nodup.map_on ?_ (List.Nodup.filter _ ?_)
    · rintro ⟨a, b⟩ ha ⟨c, d⟩ hc h
      simp only [List.mem_filter, decide_eq_true_eq] at ha hc
      simp only at h
      rw [Prod.mk.injEq]
      exact ⟨ha.2.trans hc.2.symm, h⟩
    · unfold allPairs
      rw [List.nodup_flatMap]
      refine ⟨fun a _ => List.Nodup.map (fun x y h => (Prod.mk.inj h).2) List.nodup_range, ?_⟩
      refine List.nodup_range.imp_of_mem ?_
      intro a b _ _ hab
      rw [Function.onFun, List.disjoint_left]
      intro x hx hx'
      simp only [List.mem_map] at hx hx'
      obtain ⟨_, _, rfl⟩ := hx
      obtain ⟨_, _, h⟩ := hx'
      exact hab (Prod.mk.inj h).1.symm
  · unfold rowOrder
    simp only [List.mem_map, List.mem_filter, decide_eq_true_eq, List.mem_range, mem_allPairs]
    constructor
    · rintro ⟨e, ⟨⟨_, h2⟩, _⟩, rfl⟩; exact h2
    · intro hj; exact ⟨(i, j), ⟨⟨hi, hj⟩, rfl⟩, rfl⟩

theorem multiplyAssignF_eq (m : ℕ → ℕ → ℂ) (junk : List ℂ → ℕ → ℂ) {sched : List (ℕ × ℕ)}
    (hs : sched.Perm (allPairs n)) (temp : List ℂ) (v : Fin n → ℂ) :
    multiplyAssignF fl n m junk sched temp (List.ofFn v) = .val (List.ofFn v, List.ofFn fun i : Fin n =>
      (rowOrder sched i).foldl (fun acc j => addC fl acc (mulC fl (m i j) ((List.ofFn v).getD j 0))) 0) := by
  unfold multiplyAssignF
  have : ((List.range n).map (junk temp)).map (fun _ => (0 : ℂ)) = List.ofFn fun _ : Fin n => (0 : ℂ) := by
    rw [List.map_map, range_map_ofFn]; rfl
  simp only [this]
  rw [mac_foldF m v sched _ (fun e he => (mem_allPairs e).1 (hs.mem_iff.1 he)), Res.map_val]

theorem rowOrder_err (hfl : Spec.Rounding fl u) (m : ℕ → ℕ → ℂ) {sched : List (ℕ × ℕ)} (hs : sched.Perm (allPairs n)) (v : Fin n → ℂ)
    (i : Fin n) : ‖(rowOrder sched i).foldl (fun acc j => addC fl acc (mulC fl (m i j) ((List.ofFn v).getD j 0))) 0 - (mat n m).mulVec v i‖ ≤
      ((1 + u) ^ (n + 4) - 1) * ∑ j : Fin n, ‖m i j‖ * ‖v j‖ := by
  have hp := rowOrder_perm hs i.2
  have h0 : ApproxC u 4 0 0 0 := by simp [ApproxC]
  have e := (fold_approx hfl (m i) (fun j => (List.ofFn v).getD j 0) (rowOrder sched i) 4 le_rfl _ _ _ h0).1
  rw [hp.length_eq, List.length_range, zero_add, zero_add, (hp.map _).sum_eq, (hp.map _).sum_eq, sum_range_fin, add_comm 4 n] at e
  have e2 : ((List.range n).map fun j => ‖m i j‖ * ‖(List.ofFn v).getD j 0‖).sum = ∑ j : Fin n, ‖m i j‖ * ‖v j‖ := by
    rw [sum_range_fin]
    refine Finset.sum_congr rfl fun j _ => ?_
    rw [ofFn_getD]
  rw [e2] at e
  rw [show (∑ j : Fin n, m i j * (List.ofFn v).getD j 0) = (mat n m).mulVec v i from Finset.sum_congr rfl fun j _ => by rw [ofFn_getD]; rfl] at e
  exact e

/-- **C82, `multiply_assign`.** For every schedule and whatever the static vector held before, every component is off by at most
`((1 + u)^(n + 4) - 1) Σ_j |m_ij| |v_j|`. -/
theorem multiplyAssign_rounded (hfl : Spec.Rounding fl u) (m : ℕ → ℕ → ℂ) (junk : List ℂ → ℕ → ℂ) {sched : List (ℕ × ℕ)}
    (hs : sched.Perm (allPairs n)) (temp : List ℂ) (v : Fin n → ℂ) :
    ∃ y : Fin n → ℂ, multiplyAssignF fl n m junk sched temp (List.ofFn v) = .val (List.ofFn v, List.ofFn y) ∧
      ∀ i, ‖y i - ∑ j : Fin n, m i j * v j‖ ≤ ((1 + u) ^ (n + 4) - 1) * ∑ j : Fin n, ‖m i j‖ * ‖v j‖ :=
  ⟨_, multiplyAssignF_eq m junk hs temp v, fun i => rowOrder_err hfl m hs v i⟩

/-- **C82, one step with a function matrix**, for all schedules and all earlier contents of the static vectors. -/
theorem stepFunction_rounded (hfl : Spec.Rounding fl u) {m : ℕ → ℕ → ℂ} {B : ℝ} (hB : Bounded n m B) (hB0 : 0 ≤ B) (h : ℝ)
    (junk : List ℂ → ℕ → ℂ) {s1 s2 s3 s4 : List (ℕ × ℕ)} (h1 : s1.Perm (allPairs n)) (h2 : s2.Perm (allPairs n))
    (h3 : s3.Perm (allPairs n)) (h4 : s4.Perm (allPairs n)) (state : Work ℂ × List ℂ) (v : Fin n → ℂ) :
    ∃ (state' : Work ℂ × List ℂ) (y : Fin n → ℂ), stepFunctionF fl n h m junk s1 s2 s3 s4 state (List.ofFn v) = .val (state', List.ofFn y) ∧
      norm2 (y - (Spec.exp4 (h : ℂ) (mat n m)).mulVec v) ≤ ((1 + u) ^ (4 * n + 28) - 1) * (Spec.expPoly (|h| * B) * norm2 v) := by
  set P : List (ℕ × ℕ) → (Fin n → ℂ) → Fin n → ℂ := fun sched v i =>
    (rowOrder sched i).foldl (fun acc j => addC fl acc (mulC fl (m i j) ((List.ofFn v).getD j 0))) 0 with hP
  have hst : ∃ state', stepFunctionF fl n h m junk s1 s2 s3 s4 state (List.ofFn v) =
      .val (state', List.ofFn (stagesF fl h (P s1) (P s2) (P s3) (P s4) v)) := by
    obtain ⟨w, temp⟩ := state
    simp only [stepFunctionF, combineF, multiplyAssignF_eq m junk h1, multiplyAssignF_eq m junk h2, multiplyAssignF_eq m junk h3,
      multiplyAssignF_eq m junk h4, vscaleF_ofFn, vaddF_ofFn, Res.bind_val, Res.map_val]
    exact ⟨_, rfl⟩
  obtain ⟨state', e⟩ := hst
  have := stagesF_approx hfl hB hB0 h (P s1) (P s2) (P s3) (P s4) (fun v i => rowOrder_err hfl m h1 v i)
    (fun v i => rowOrder_err hfl m h2 v i) (fun v i => rowOrder_err hfl m h3 v i) (fun v i => rowOrder_err hfl m h4 v i) v
  rw [show 4 * (n + 4) + 12 = 4 * n + 28 by ring] at this
  exact ⟨state', _, e, this⟩

/-! ### Many steps -/

theorem norm2_sq (v : Fin n → ℂ) : norm2 v ^ 2 = normSq2 v := Real.sq_sqrt (Finset.sum_nonneg fun i _ => by positivity)

/-- `i m` for a real symmetric matrix with bounded row sums. -/
theorem bounded_of_symm {m : ℕ → ℕ → ℝ} (hsym : ∀ i < n, ∀ j < n, m i j = m j i) {B : ℝ}
    (hB : ∀ i < n, ∑ j ∈ Finset.range n, |m i j| ≤ B) : Bounded n (fun i j => Complex.I * (m i j : ℂ)) B := by
  have key : ∀ i : Fin n, ∑ j : Fin n, ‖Complex.I * (m i j : ℂ)‖ ≤ B := fun i => by
    refine le_trans (le_of_eq ?_) (hB i i.2)
    rw [← Fin.sum_univ_eq_sum_range (fun j => |m i j|) n]
    refine Finset.sum_congr rfl fun j _ => ?_
    rw [norm_mul, Complex.norm_I, one_mul, Complex.norm_real, Real.norm_eq_abs]
  refine ⟨key, fun j => ?_⟩
  rw [Finset.sum_congr rfl fun i _ => by rw [hsym i i.2 j j.2]]
  exact key j

/-- The relative error of a single step. -/
noncomputable def stepError (u : ℝ) (z : ℕ) (x : ℝ) : ℝ := ((1 + u) ^ (4 * z + 24) - 1) * Spec.expPoly x

/-- **C82, many steps.** For `v' = i m v`, `m` real and symmetric, with `dt B ≤ √8`: rounding errors do not get amplified. After `k` steps
the error is at most `((1 + δ)^k - 1) ‖v‖`, where `δ` is the error of one step. -/
theorem integrate_rounded (hfl : Spec.Rounding fl u) (m : ℕ → ℕ → ℝ) (hsym : ∀ i < n, ∀ j < n, m i j = m j i) (B dt : ℝ) (hB0 : 0 ≤ B)
    (hdt : 0 ≤ dt) (hB : ∀ i < n, ∑ j ∈ Finset.range n, |m i j| ≤ B) (hst : (dt * B) ^ 2 ≤ 8) {cols : ℕ → List ℕ} {z : ℕ}
    (hS : Stored n (fun i j => Complex.I * (m i j : ℂ)) cols z) (w w0 : Work ℂ) (v : Fin n → ℂ) (k : ℕ) :
    ∃ (w' w0' : Work ℂ) (y x : Fin n → ℂ),
      integrateF fl n dt (fun i j => Complex.I * (m i j : ℂ)) cols k w (List.ofFn v) = .val (w', List.ofFn y) ∧
      integrate n (dt : ℂ) (fun i j => Complex.I * (m i j : ℂ)) k w0 (List.ofFn v) = .val (w0', List.ofFn x) ∧
      norm2 (y - x) ≤ ((1 + stepError u z (dt * B)) ^ k - 1) * norm2 v := by
  have hb := bounded_of_symm hsym hB
  set M : ℕ → ℕ → ℂ := fun i j => Complex.I * (m i j : ℂ) with hM
  set δ := stepError u z (dt * B) with hδ
  have hu := hfl.nonneg
  have hδ0 : 0 ≤ δ := by
    rw [hδ, stepError]
    refine mul_nonneg (sub_nonneg.2 (one_le_pow₀ (by linarith))) ?_
    unfold Spec.expPoly; positivity
  obtain ⟨w0', e0⟩ := integrate_correct (n := n) (dt : ℂ) M k w0 v
  suffices h : ∀ (V : ℝ) (k : ℕ) (w : Work ℂ) (y x : Fin n → ℂ), norm2 x ≤ V → ∃ (w' : Work ℂ) (y' : Fin n → ℂ),
      integrateF fl n dt M cols k w (List.ofFn y) = .val (w', List.ofFn y') ∧
      norm2 (y' - (Spec.exp4 (dt : ℂ) (mat n M) ^ k).mulVec x) + V ≤ (1 + δ) ^ k * (norm2 (y - x) + V) by
    obtain ⟨w', y, e, h1⟩ := h (norm2 v) k w v v le_rfl
    refine ⟨w', w0', y, _, e, e0, ?_⟩
    rw [sub_self, show norm2 (0 : Fin n → ℂ) = 0 by simp [norm2], zero_add] at h1
    linarith
  have contr : ∀ x : Fin n → ℂ, norm2 ((Spec.exp4 (dt : ℂ) (mat n M)).mulVec x) ≤ norm2 x := fun x => by
    have := exp4_norm_le m hsym B dt hB0 hdt hB hst x
    rw [← norm2_sq, ← norm2_sq] at this
    exact (sq_le_sq₀ (norm2_nonneg _) (norm2_nonneg _)).1 this
  have step : ∀ (w : Work ℂ) (y : Fin n → ℂ), ∃ (w' : Work ℂ) (y' : Fin n → ℂ), stepMatrixF fl n dt M cols w (List.ofFn y) = .val (w', List.ofFn y') ∧
      norm2 (y' - (Spec.exp4 (dt : ℂ) (mat n M)).mulVec y) ≤ δ * norm2 y := by
    intro w y
    obtain ⟨w', w1', y', x', h1, h2, h3⟩ := stepMatrix_rounded hfl hb hB0 hS dt w w y
    obtain ⟨w2, h4⟩ := stepMatrix_correct n (dt : ℂ) M w y
    rw [h4] at h2
    simp only [Res.val.injEq, Prod.mk.injEq] at h2
    rw [← List.ofFn_injective h2.2, abs_of_nonneg hdt, ← mul_assoc] at h3
    exact ⟨w', y', h1, h3⟩
  intro V k
  induction k with
  | zero => intro w y x _; exact ⟨w, y, rfl, by simp⟩
  | succ k ih =>
    intro w y x hx
    obtain ⟨w1, y1, e1, h1⟩ := step w y
    obtain ⟨w2, y2, e2, h2⟩ := ih w1 y1 ((Spec.exp4 (dt : ℂ) (mat n M)).mulVec x) ((contr x).trans hx)
    refine ⟨w2, y2, by rw [integrateF, e1, Res.bind_val]; exact e2, ?_⟩
    rw [Matrix.mulVec_mulVec, ← pow_succ] at h2
    refine h2.trans ?_
    rw [pow_succ, mul_assoc]
    refine mul_le_mul_of_nonneg_left ?_ (by positivity)
    have e3 := norm2_sub_le y1 ((Spec.exp4 (dt : ℂ) (mat n M)).mulVec y) ((Spec.exp4 (dt : ℂ) (mat n M)).mulVec x)
    have e4 := contr (y - x)
    rw [Matrix.mulVec_sub] at e4
    have e5 := norm2_add_le (y - x) x
    rw [sub_add_cancel] at e5
    have e6 := mul_le_mul_of_nonneg_left (e5.trans (add_le_add le_rfl hx)) hδ0
    have : (1 + δ) * (norm2 (y - x) + V) = norm2 (y - x) + V + δ * (norm2 (y - x) + V) := by ring
    linarith

/-! ### The exact solution -/

/-- The norm of a solution of `v' = i m v`, `m` real and symmetric, is constant. -/
theorem solution_norm (m : ℕ → ℕ → ℝ) (hsym : ∀ i < n, ∀ j < n, m i j = m j i) (v : ℝ → Fin n → ℂ)
    (hv : ∀ t, HasDerivAt v (fun i => ∑ j : Fin n, Complex.I * (m i j : ℂ) * v t j) t) (t : ℝ) : norm2 (v t) = norm2 (v 0) := by
  set f : ℝ → ℂ := fun t => ∑ i, star (v t i) * v t i with hf
  have hd : ∀ t, HasDerivAt f 0 t := by
    intro t
    have hc : ∀ i, HasDerivAt (fun t => v t i) (∑ j : Fin n, Complex.I * (m i j : ℂ) * v t j) t := fun i => (hasDerivAt_pi.1 (hv t)) i
    have h1 := HasDerivAt.fun_sum (u := Finset.univ) fun i _ => (hc i).star.mul (hc i)
    refine h1.congr_deriv ?_
    rw [Finset.sum_add_distrib]
    simp only [star_sum, star_mul', Finset.sum_mul, Finset.mul_sum, Complex.star_def, Complex.conj_I, Complex.conj_ofReal]
    rw [Finset.sum_comm, ← Finset.sum_add_distrib]
    refine Finset.sum_eq_zero fun i _ => ?_
    rw [← Finset.sum_add_distrib]
    refine Finset.sum_eq_zero fun j _ => ?_
    rw [hsym j j.2 i i.2]
    ring
  have hconst : f t = f 0 := is_const_of_deriv_eq_zero (fun s => (hd s).differentiableAt) (fun s => (hd s).deriv) t 0
  have hval : ∀ t, f t = ((norm2 (v t) ^ 2 : ℝ) : ℂ) := fun t => by
    rw [norm2_sq, ← normSq2_dot]; rfl
  rw [hval, hval] at hconst
  have h2 : norm2 (v t) ^ 2 = norm2 (v 0) ^ 2 := by exact_mod_cast hconst
  exact (pow_left_inj₀ (norm2_nonneg _) (norm2_nonneg _) two_ne_zero).1 h2

/-- The operator `v ↦ M v` on Euclidean space, over the real numbers. -/
noncomputable def op2 (M : Matrix (Fin n) (Fin n) ℂ) : EuclideanSpace ℂ (Fin n) →L[ℝ] EuclideanSpace ℂ (Fin n) :=
  LinearMap.toContinuousLinearMap
    { toFun := fun v => WithLp.toLp 2 (M.mulVec v.ofLp)
      map_add' := fun v w => by rw [WithLp.ofLp_add, M.mulVec_add, WithLp.toLp_add]
      map_smul' := fun c v => by
        have : c • v = (c : ℂ) • v := by ext i; simp
        rw [this, WithLp.ofLp_smul, M.mulVec_smul, WithLp.toLp_smul]
        ext i; simp }

theorem op2_apply (M : Matrix (Fin n) (Fin n) ℂ) (v : Fin n → ℂ) : op2 M (WithLp.toLp 2 v) = WithLp.toLp 2 (M.mulVec v) := rfl

theorem op2_norm_le {m : ℕ → ℕ → ℂ} {B : ℝ} (hB : Bounded n m B) (hB0 : 0 ≤ B) : ‖op2 (mat n m)‖ ≤ B := by
  refine ContinuousLinearMap.opNorm_le_bound _ hB0 fun v => ?_
  have h1 : op2 (mat n m) v = WithLp.toLp 2 ((mat n m).mulVec v.ofLp) := rfl
  have := mulVec_norm2 hB v.ofLp
  rw [norm2_eq, norm2_eq] at this
  rw [h1]; exact this

theorem op2_pow (M : Matrix (Fin n) (Fin n) ℂ) (k : ℕ) (v : Fin n → ℂ) : (op2 M ^ k) (WithLp.toLp 2 v) = WithLp.toLp 2 ((M ^ k).mulVec v) := by
  induction k generalizing v with
  | zero => simp
  | succ k ih => rw [pow_succ, ContinuousLinearMap.mul_apply, op2_apply, ih, Matrix.mulVec_mulVec, ← pow_succ]

theorem op2_exp4 (M : Matrix (Fin n) (Fin n) ℂ) (h : ℝ) (v : Fin n → ℂ) :
    Spec.exp4 h (op2 M) (WithLp.toLp 2 v) = WithLp.toLp 2 ((Spec.exp4 (h : ℂ) M).mulVec v) := by
  unfold Spec.exp4
  rw [ContinuousLinearMap.sum_apply, Matrix.sum_mulVec, WithLp.toLp_sum]
  refine Finset.sum_congr rfl fun j _ => ?_
  rw [ContinuousLinearMap.smul_apply, op2_pow, Matrix.smul_mulVec]
  ext i
  simp

theorem exp_add_smul {A : Type*} [NormedRing A] [NormedAlgebra ℝ A] [CompleteSpace A] (t s : ℝ) (x : A) :
    NormedSpace.exp ((t + s) • x) = NormedSpace.exp (s • x) * NormedSpace.exp (t • x) := by
  have hc : Commute (s • x) (t • x) := ((Commute.refl x).smul_left s).smul_right t
  rw [add_comm, add_smul]
  let _ : NormedAlgebra ℚ A := NormedAlgebra.restrictScalars ℚ ℝ A
  exact NormedSpace.exp_add_of_commute hc

/-- The local error of one step for a solution of `v' = M v`. -/
theorem local_error {m : ℕ → ℕ → ℂ} {B : ℝ} (hB : Bounded n m B) (hB0 : 0 ≤ B) (dt : ℝ) (hdt : 0 ≤ dt) (v : ℝ → Fin n → ℂ)
    (hv : ∀ t, HasDerivAt v (fun i => ∑ j : Fin n, m i j * v t j) t) (t : ℝ) :
    norm2 ((Spec.exp4 (dt : ℂ) (mat n m)).mulVec (v t) - v (t + dt)) ≤ (dt * B) ^ 5 / 120 * Real.exp (dt * B) * norm2 (v t) := by
  set A := op2 (mat n m) with hA
  set L : (Fin n → ℂ) →L[ℝ] EuclideanSpace ℂ (Fin n) := (PiLp.continuousLinearEquiv 2 ℝ fun _ : Fin n => ℂ).symm.toContinuousLinearMap with hL
  have hLv : ∀ w, L w = WithLp.toLp 2 w := fun w => rfl
  set V : ℝ → EuclideanSpace ℂ (Fin n) := fun s => WithLp.toLp 2 (v s) with hV
  have hVd : ∀ s, HasDerivAt V (A (V s)) s := fun s => by
    have := L.hasFDerivAt.comp_hasDerivAt s (hv s)
    exact this
  set g : ℝ → EuclideanSpace ℂ (Fin n) := fun s => NormedSpace.exp (s • -A) (V s) with hg
  have hd : ∀ s, HasDerivAt g 0 s := by
    intro s
    have h1 : HasDerivAt (fun s : ℝ => NormedSpace.exp (s • -A)) (NormedSpace.exp (s • -A) * -A) s := hasDerivAt_exp_smul_const (𝕂 := ℝ) (-A) s
    have h2 := h1.clm_apply (hVd s)
    refine h2.congr_deriv ?_
    rw [ContinuousLinearMap.mul_apply, ContinuousLinearMap.neg_apply, map_neg, neg_add_cancel]
  have sol : ∀ s, V s = NormedSpace.exp (s • A) (V 0) := by
    intro s
    have hc : g s = g 0 := is_const_of_deriv_eq_zero (fun s => (hd s).differentiableAt) (fun s => (hd s).deriv) s 0
    have h0 : g 0 = V 0 := by simp [hg, NormedSpace.exp_zero]
    have hinv : NormedSpace.exp (s • A) * NormedSpace.exp (s • -A) = 1 := by rw [smul_neg, exp_mul_exp_neg]
    rw [← h0, ← hc, hg]
    simp only
    rw [← ContinuousLinearMap.mul_apply, hinv]; rfl
  have hstep : V (t + dt) = NormedSpace.exp (dt • A) (V t) := by
    rw [sol (t + dt), sol t, ← ContinuousLinearMap.mul_apply]
    congr 1
    exact exp_add_smul t dt A
  have h1 : ‖(1 : EuclideanSpace ℂ (Fin n) →L[ℝ] EuclideanSpace ℂ (Fin n))‖ ≤ 1 := ContinuousLinearMap.norm_id_le
  have hb : ‖dt • A‖ ≤ dt * B := by
    rw [norm_smul, Real.norm_of_nonneg hdt]
    exact mul_le_mul_of_nonneg_left (op2_norm_le hB hB0) hdt
  have key := norm_exp_sub_exp4_le h1 dt A
  have e : WithLp.toLp 2 ((Spec.exp4 (dt : ℂ) (mat n m)).mulVec (v t) - v (t + dt)) = -((NormedSpace.exp (dt • A) - Spec.exp4 dt A) (V t)) := by
    rw [WithLp.toLp_sub, ← op2_exp4, ContinuousLinearMap.sub_apply, neg_sub, ← hstep]
  rw [norm2_eq, norm2_eq, e, norm_neg]
  refine (ContinuousLinearMap.le_opNorm _ _).trans (mul_le_mul_of_nonneg_right (key.trans ?_) (norm_nonneg _))
  gcongr

/-- **C82, exact arithmetic.** For `v' = i m v`, `m` real and symmetric, and `dt B ≤ √8` the error of the Runge–Kutta integration grows
linearly with the number of steps. -/
theorem rk4_error_linear (m : ℕ → ℕ → ℝ) (hsym : ∀ i < n, ∀ j < n, m i j = m j i) (B dt : ℝ) (hB0 : 0 ≤ B) (hdt : 0 ≤ dt)
    (hB : ∀ i < n, ∑ j ∈ Finset.range n, |m i j| ≤ B) (hst : (dt * B) ^ 2 ≤ 8) (v : ℝ → Fin n → ℂ)
    (hv : ∀ t, HasDerivAt v (fun i => ∑ j : Fin n, Complex.I * (m i j : ℂ) * v t j) t) (w : Work ℂ) (k : ℕ) :
    ∃ (w' : Work ℂ) (x : Fin n → ℂ), integrate n (dt : ℂ) (fun i j => Complex.I * (m i j : ℂ)) k w (List.ofFn (v 0)) = .val (w', List.ofFn x) ∧
      norm2 (x - v (k * dt)) ≤ k * ((dt * B) ^ 5 / 120 * Real.exp (dt * B)) * norm2 (v 0) := by
  obtain ⟨w', e⟩ := integrate_correct (n := n) (dt : ℂ) (fun i j => Complex.I * (m i j : ℂ)) k w (v 0)
  refine ⟨w', _, e, ?_⟩
  clear e
  set M : ℕ → ℕ → ℂ := fun i j => Complex.I * (m i j : ℂ) with hM
  have contr : ∀ x : Fin n → ℂ, norm2 ((Spec.exp4 (dt : ℂ) (mat n M)).mulVec x) ≤ norm2 x := fun x => by
    have := exp4_norm_le m hsym B dt hB0 hdt hB hst x
    rw [← norm2_sq, ← norm2_sq] at this
    exact (sq_le_sq₀ (norm2_nonneg _) (norm2_nonneg _)).1 this
  induction k with
  | zero => simp [norm2]
  | succ k ih =>
    rw [pow_succ', ← Matrix.mulVec_mulVec]
    have e1 := norm2_sub_le ((Spec.exp4 (dt : ℂ) (mat n M)).mulVec ((Spec.exp4 (dt : ℂ) (mat n M) ^ k).mulVec (v 0)))
      ((Spec.exp4 (dt : ℂ) (mat n M)).mulVec (v (k * dt))) (v ((k + 1 : ℕ) * dt))
    have e2 := contr ((Spec.exp4 (dt : ℂ) (mat n M) ^ k).mulVec (v 0) - v (k * dt))
    rw [Matrix.mulVec_sub] at e2
    have e3 := local_error (bounded_of_symm hsym hB) hB0 dt hdt v hv (k * dt)
    rw [solution_norm m hsym v hv, show (k : ℝ) * dt + dt = (k + 1 : ℕ) * dt by push_cast; ring] at e3
    push_cast at e1 e3 ⊢
    have : ((k : ℝ) + 1) * ((dt * B) ^ 5 / 120 * Real.exp (dt * B)) * norm2 (v 0) =
      k * ((dt * B) ^ 5 / 120 * Real.exp (dt * B)) * norm2 (v 0) + (dt * B) ^ 5 / 120 * Real.exp (dt * B) * norm2 (v 0) := by ring
    linarith

/-- **C82, the computed coefficients and the exact solution.** -/
theorem rk4_total_error (hfl : Spec.Rounding fl u) (m : ℕ → ℕ → ℝ) (hsym : ∀ i < n, ∀ j < n, m i j = m j i) (B dt : ℝ) (hB0 : 0 ≤ B)
    (hdt : 0 ≤ dt) (hB : ∀ i < n, ∑ j ∈ Finset.range n, |m i j| ≤ B) (hst : (dt * B) ^ 2 ≤ 8) {cols : ℕ → List ℕ} {z : ℕ}
    (hS : Stored n (fun i j => Complex.I * (m i j : ℂ)) cols z) (v : ℝ → Fin n → ℂ)
    (hv : ∀ t, HasDerivAt v (fun i => ∑ j : Fin n, Complex.I * (m i j : ℂ) * v t j) t) (w : Work ℂ) (k : ℕ) :
    ∃ (w' : Work ℂ) (y : Fin n → ℂ),
      integrateF fl n dt (fun i j => Complex.I * (m i j : ℂ)) cols k w (List.ofFn (v 0)) = .val (w', List.ofFn y) ∧
      norm2 (y - v (k * dt)) ≤
        ((1 + stepError u z (dt * B)) ^ k - 1 + k * ((dt * B) ^ 5 / 120 * Real.exp (dt * B))) * norm2 (v 0) := by
  obtain ⟨w', w0', y, x, h1, h2, h3⟩ := integrate_rounded hfl m hsym B dt hB0 hdt hB hst hS w w (v 0) k
  obtain ⟨w1', x', h4, h5⟩ := rk4_error_linear m hsym B dt hB0 hdt hB hst v hv w k
  rw [h4] at h2
  simp only [Res.val.injEq, Prod.mk.injEq] at h2
  rw [← List.ofFn_injective h2.2] at h3
  refine ⟨w', y, h1, (norm2_sub_le y x' _).trans ?_⟩
  rw [add_mul]
  exact add_le_add h3 h5

theorem stepError_double (z : ℕ) (hz : 4 * z + 24 ≤ 2 ^ 53) {x : ℝ} (hx : 0 ≤ x) :
    0 ≤ stepError (1 / 2 ^ 53) z x ∧ stepError (1 / 2 ^ 53) z x ≤ (4 * z + 24 : ℕ) / 2 ^ 52 * Spec.expPoly x := by
  have he : 0 ≤ Spec.expPoly x := by unfold Spec.expPoly; positivity
  unfold stepError
  constructor
  · refine mul_nonneg (sub_nonneg.2 (one_le_pow₀ ?_)) he
    norm_num
  · refine mul_le_mul_of_nonneg_right ?_ he
    have hz' : ((4 * z + 24 : ℕ) : ℝ) ≤ 2 ^ 53 := by exact_mod_cast hz
    have := RealSpace.pow_sub_one_le (n := 4 * z + 24) (u := (1 : ℝ) / 2 ^ 53) (by positivity) (by
      rw [mul_one_div, div_le_one (by positivity)]; exact hz')
    refine this.trans (le_of_eq ?_)
    ring

/-- **C82 for `double`.** As long as `k D ≤ 1`, `D = (4z + 24) 2^-52 (1 + x + x²/2 + x³/6 + x⁴/24)`, `x = dt B`, the computed vector after `k` steps
differs from the exact solution at time `k dt` by at most `k (2 D + x⁵/120 exp x) ‖v(0)‖`. -/
theorem rk4_total_error_double (m : ℕ → ℕ → ℝ) (hsym : ∀ i < n, ∀ j < n, m i j = m j i) (B dt : ℝ) (hB0 : 0 ≤ B)
    (hdt : 0 ≤ dt) (hB : ∀ i < n, ∑ j ∈ Finset.range n, |m i j| ≤ B) (hst : (dt * B) ^ 2 ≤ 8) {cols : ℕ → List ℕ} {z : ℕ}
    (hS : Stored n (fun i j => Complex.I * (m i j : ℂ)) cols z) (hz : 4 * z + 24 ≤ 2 ^ 53) (v : ℝ → Fin n → ℂ)
    (hv : ∀ t, HasDerivAt v (fun i => ∑ j : Fin n, Complex.I * (m i j : ℂ) * v t j) t) (w : Work ℂ) (k : ℕ)
    (hk : k * ((4 * z + 24 : ℕ) / 2 ^ 52 * Spec.expPoly (dt * B)) ≤ 1) :
    ∃ (w' : Work ℂ) (y : Fin n → ℂ),
      integrateF Spec.double n dt (fun i j => Complex.I * (m i j : ℂ)) cols k w (List.ofFn (v 0)) = .val (w', List.ofFn y) ∧
      norm2 (y - v (k * dt)) ≤
        k * (2 * ((4 * z + 24 : ℕ) / 2 ^ 52 * Spec.expPoly (dt * B)) + (dt * B) ^ 5 / 120 * Real.exp (dt * B)) * norm2 (v 0) := by
  obtain ⟨w', y, h1, h2⟩ := rk4_total_error Spec.double_rounding m hsym B dt hB0 hdt hB hst hS v hv w k
  refine ⟨w', y, h1, h2.trans (mul_le_mul_of_nonneg_right ?_ (norm2_nonneg _))⟩
  obtain ⟨d0, d1⟩ := stepError_double z hz (x := dt * B) (by positivity)
  have h3 := mul_le_mul_of_nonneg_left d1 (Nat.cast_nonneg (α := ℝ) k)
  have := RealSpace.pow_sub_one_le (n := k) d0 (h3.trans hk)
  have e : (k : ℝ) * (2 * ((4 * z + 24 : ℕ) / 2 ^ 52 * Spec.expPoly (dt * B)) + (dt * B) ^ 5 / 120 * Real.exp (dt * B)) =
      2 * (k * ((4 * z + 24 : ℕ) / 2 ^ 52 * Spec.expPoly (dt * B))) + k * ((dt * B) ^ 5 / 120 * Real.exp (dt * B)) := by ring
  rw [e]
  linarith

end Ieompp.ODE

namespace Ieompp.Sparse

variable {S : Type*}

theorem appendAll_eq (row : ℕ) : ∀ (l : List (Triplet S)) (m m' : Sparse S), m.appendAll row l = .val m' →
    m' = { m with cur := m.cur ++ stored l }
  | [], m, m', h => by simp only [appendAll, Res.val.injEq] at h; subst h; simp [stored]
  | t :: l, m, m', h => by
    unfold appendAll append at h
    split_ifs at h with hc
    · rw [Res.bind_val] at h
      have := appendAll_eq row l _ m' h
      rw [this]; simp [stored]
    · simp [Res.bind] at h

/-- What the rows of a filled matrix are. -/
theorem fillRows_done (f : ℕ → Option (List (Triplet S))) (g : ℕ → List (Triplet S)) : ∀ (rows : List ℕ) (m m' : Sparse S),
    (∀ r ∈ rows, f r = some (g r)) → m.cur = [] → fillRows f rows m = .val m' → m'.done = m.done ++ rows.map (fun r => stored (g r))
  | [], m, m', _, _, h => by simp only [fillRows, Res.val.injEq] at h; subst h; simp
  | r :: rows, m, m', hf, hc, h => by
    unfold fillRows at h
    rw [hf r (by simp)] at h
    simp only at h
    cases ha : m.appendAll r (g r) with
    | val m1 =>
      have e1 := appendAll_eq r _ _ _ ha
      rw [ha, Res.bind_val] at h
      unfold finalize at h
      split_ifs at h with hc'
      · rw [Res.bind_val] at h
        have := fillRows_done f g rows _ m' (fun r hr => hf r (by simp [hr])) rfl h
        rw [this, e1]; simp [hc]
      · simp [Res.bind] at h
    | ub => rw [ha] at h; simp [Res.bind] at h
    | diverges => rw [ha] at h; simp [Res.bind] at h

end Ieompp.Sparse

namespace Ieompp.RealSpace

open Ieompp.Spec ODE

variable {N z : ℕ} {nb : ℕ → List ℕ}

theorem initMatrix_stored (h : RegularLattice N z nb) (sort : List (Triplet ℝ) → List (Triplet ℝ)) (hs : IsSort sort) (J U : ℝ) {m : Sparse ℝ}
    (hm : initMatrix sort N z nb J U = .val m) :
    Stored (N + N * N * N) (fun i j => Complex.I * (m.get i j : ℂ)) (storedColumns m) (3 * z + 2) := by
  have hd : m.done = (List.range (N + N * N * N)).map fun r => Sparse.stored (sort (rowList N nb J U r)) := by
    unfold initMatrix at hm
    rw [(realBasis_size N).2] at hm
    have := Sparse.fillRows_done _ (fun r => sort (rowList N nb J U r)) _ _ _ (fun r hr => by
      rw [(row_columns h J U (List.mem_range.1 hr)).1]; rfl) rfl hm
    simpa [Sparse.init] using this
  have hrow : ∀ i < N + N * N * N, storedColumns m i = (sort (rowList N nb J U i)).map Triplet.column := fun i hi => by
    unfold storedColumns
    rw [hd, List.getD_eq_getElem?_getD, List.getElem?_map, List.getElem?_range hi]
    simp [Sparse.stored, Function.comp_def]
  refine ⟨fun i hi => ?_, fun i hi j hj => ?_, fun i hi j _ hne => ?_, fun i hi => ?_⟩
  · rw [hrow i hi]
    exact (((hs _).1.map _).nodup_iff).2 (row_columns h J U hi).2.1
  · rw [hrow i hi, List.mem_map] at hj
    obtain ⟨t, ht, rfl⟩ := hj
    exact (row_columns h J U hi).2.2.1 t ((hs _).1.mem_iff.1 ht)
  · have hg : m.get i j ≠ 0 := fun h0 => hne (by simp [h0])
    unfold Sparse.get at hg
    unfold storedColumns
    cases hf : (m.done.getD i []).find? (fun e => e.1 = j) with
    | none => rw [hf] at hg; simp at hg
    | some e =>
      have h1 := List.mem_of_find?_eq_some hf
      have h2 := List.find?_some hf
      simp only [decide_eq_true_eq] at h2
      exact List.mem_map.2 ⟨e, h1, h2⟩
  · rw [hrow i hi, List.length_map, (hs _).1.length_eq]
    have := (row_columns h J U hi).2.2.2
    split_ifs at this <;> omega

/-- **C82 for the programs.** On every regular lattice (coordination number `z`), with `dt B ≤ √8`, `B = 3 z |J| + |U|`: let `v` be the exact
solution of the equations of motion `v' = i M v`. After `k` steps in `double` arithmetic the coefficients are off by at most
`k (2 D + x⁵/120 exp x) ‖v(0)‖`, `x = dt B`, `D = (12 z + 32) 2^-52 (1 + x + x²/2 + x³/6 + x⁴/24)`, as long as `k D ≤ 1`. -/
theorem matrix_rk4_double (h : RegularLattice N z nb) (sort : List (Triplet ℝ) → List (Triplet ℝ)) (hs : IsSort sort)
    (J U dt : ℝ) (hdt : 0 ≤ dt) (hst : (dt * (3 * z * |J| + |U|)) ^ 2 ≤ 8) (hz : 12 * z + 32 ≤ 2 ^ 53) :
    ∃ m, initMatrix sort N z nb J U = .val m ∧ m.rows = N + N * N * N ∧
      ∀ (v : ℝ → Fin m.rows → ℂ), (∀ t, HasDerivAt v (fun i => ∑ j : Fin m.rows, Complex.I * (m.get i j : ℂ) * v t j) t) →
      ∀ (w : Work ℂ) (k : ℕ), k * ((12 * z + 32 : ℕ) / 2 ^ 52 * expPoly (dt * (3 * z * |J| + |U|))) ≤ 1 →
      ∃ (w' : Work ℂ) (y : Fin m.rows → ℂ),
        integrateF double m.rows dt (fun i j => Complex.I * (m.get i j : ℂ)) (storedColumns m) k w (List.ofFn (v 0)) = .val (w', List.ofFn y) ∧
        norm2 (y - v (k * dt)) ≤ k * (2 * ((12 * z + 32 : ℕ) / 2 ^ 52 * expPoly (dt * (3 * z * |J| + |U|))) +
          (dt * (3 * z * |J| + |U|)) ^ 5 / 120 * Real.exp (dt * (3 * z * |J| + |U|))) * norm2 (v 0) := by
  obtain ⟨m, h1, h2, _, _, _, _, h3, _⟩ := initMatrix_ok h sort hs J U
  obtain ⟨m', h1', _, h4⟩ := initMatrix_symm h sort hs J U
  rw [h1] at h1'
  cases h1'
  refine ⟨m, h1, h2, fun v hv w k hk => ?_⟩
  have hS := initMatrix_stored h sort hs J U h1
  rw [← h2] at hS
  have e : 4 * (3 * z + 2) + 24 = 12 * z + 32 := by ring
  have := rk4_total_error_double (n := m.rows) (fun i j => m.get i j) h4 (3 * z * |J| + |U|) dt (by positivity) hdt (fun i hi => by
    rw [h2] at hi
    rw [Finset.sum_congr rfl fun c _ => by rw [h3 i hi c]]
    exact (sum_abs_columnSum _ _).trans (row_abs_sum h J U hi)) hst hS (by omega) v hv w k (by rw [e]; exact hk)
  rw [e] at this
  exact this

/-- With the default parameters of the programs (`J = U = 1`, `dt = 0.01`, chain) the hypotheses hold for up to `2^40` steps ... -/
example : ((1 / 100 : ℝ) * (3 * (2 : ℕ) * |1| + |1|)) ^ 2 ≤ 8 ∧
    ((2 ^ 40 : ℕ) : ℝ) * ((12 * 2 + 32 : ℕ) / 2 ^ 52 * expPoly (1 / 100 * (3 * (2 : ℕ) * |1| + |1|))) ≤ 1 := by
  constructor
  · norm_num
  · norm_num [expPoly]

/-- ... and a thousand steps have rounding errors below `10^-10`. -/
example : (1000 : ℝ) * (2 * ((12 * 2 + 32 : ℕ) / 2 ^ 52 * expPoly (1 / 100 * (3 * (2 : ℕ) * |1| + |1|)))) ≤ 1 / 10 ^ 10 := by
  norm_num [expPoly]

end Ieompp.RealSpace

namespace Ieompp.ODE

open Ieompp.Spec (norm2)

/-- Without rounding the rounded model is the model of C43. -/
theorem stepMatrixF_id {n : ℕ} {m : ℕ → ℕ → ℂ} {B : ℝ} (hB : Bounded n m B) (hB0 : 0 ≤ B) {cols : ℕ → List ℕ} {z : ℕ}
    (hS : Stored n m cols z) (h : ℝ) (w w0 : Work ℂ) (v : Fin n → ℂ) :
    ∃ (w' w0' : Work ℂ) (y : Fin n → ℂ), stepMatrixF id n h m cols w (List.ofFn v) = .val (w', List.ofFn y) ∧
      stepMatrix n (h : ℂ) m w0 (List.ofFn v) = .val (w0', List.ofFn y) := by
  have hr : Spec.Rounding id 0 := ⟨le_rfl, fun x => by simp⟩
  obtain ⟨w', w0', y, x, h1, h2, h3⟩ := stepMatrix_rounded hr hB hB0 hS h w w0 v
  have h4 : norm2 (y - x) = 0 := le_antisymm (by simpa using h3) (norm2_nonneg _)
  rw [norm2_eq, norm_eq_zero] at h4
  have h5 : y = x := by
    have : y - x = 0 := by simpa using congrArg WithLp.ofLp h4
    exact sub_eq_zero.1 this
  exact ⟨w', w0', y, h1, by rw [h5]; exact h2⟩

end Ieompp.ODE
