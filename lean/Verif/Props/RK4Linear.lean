import Verif.Props.RK4Stability
import Verif.Spec.Program
import Mathlib.Analysis.Calculus.MeanValue
import Mathlib.Analysis.InnerProductSpace.PiL2
import Mathlib.Analysis.Calculus.Deriv.Pow

/-!
# C44, C55: for the equations of motion the error grows only linearly with the number of steps
-/

set_option autoImplicit false
set_option linter.unusedSectionVars false

namespace Ieompp.ODE

open Ieompp.Spec Matrix

variable {n : ℕ}

/-- The vector in the Euclidean space, and its norm. -/
noncomputable abbrev eucl (f : Fin n → ℂ) : EuclideanSpace ℂ (Fin n) := WithLp.toLp 2 f

theorem eucl_sq (f : Fin n → ℂ) : ‖eucl f‖ ^ 2 = normSq2 f := by
  rw [EuclideanSpace.norm_sq_eq]; rfl

theorem eucl_comp (f : Fin n → ℂ) (i : Fin n) : ‖f i‖ ≤ ‖eucl f‖ := PiLp.norm_apply_le (eucl f) i

theorem eucl_deriv {f : ℝ → Fin n → ℂ} {f' : Fin n → ℂ} {t : ℝ} (h : HasDerivAt f f' t) :
    HasDerivAt (fun t => eucl (f t)) (eucl f') t :=
  (((PiLp.continuousLinearEquiv 2 ℝ (fun _ : Fin n => ℂ)).symm).toContinuousLinearMap.hasFDerivAt).comp_hasDerivAt t h

section
variable (m : ℕ → ℕ → ℝ) (hsym : ∀ i < n, ∀ j < n, m i j = m j i) (B : ℝ) (hB0 : 0 ≤ B)
  (hB : ∀ i < n, ∑ j ∈ Finset.range n, |m i j| ≤ B)

/-- The generator `i M`. -/
noncomputable abbrev gen (n : ℕ) (m : ℕ → ℕ → ℝ) : Matrix (Fin n) (Fin n) ℂ := mat n fun i j => Complex.I * (m i j : ℂ)

include hsym hB0 hB in
theorem gen_norm_le (f : Fin n → ℂ) : ‖eucl ((gen n m).mulVec f)‖ ≤ B * ‖eucl f‖ := by
  have h := schur_test (fun i j : Fin n => m i j) (fun i j => hsym i i.2 j j.2) B (fun i => by
    rw [Fin.sum_univ_eq_sum_range (fun j => |m i j|) n]; exact hB i i.2) f
  have e : normSq2 ((gen n m).mulVec f) = normSq2 (fun i : Fin n => ∑ j : Fin n, (m i j : ℂ) * f j) := by
    unfold normSq2
    refine Finset.sum_congr rfl fun i _ => ?_
    congr 1
    show ‖∑ j : Fin n, Complex.I * (m i j : ℂ) * f j‖ = _
    simp only [mul_assoc, ← Finset.mul_sum, norm_mul, Complex.norm_I, one_mul]
  rw [← abs_of_nonneg (norm_nonneg (eucl ((gen n m).mulVec f))), ← abs_of_nonneg (by positivity : 0 ≤ B * ‖eucl f‖),
    ← sq_le_sq, mul_pow, eucl_sq, eucl_sq, e]
  exact h

/-- The Taylor polynomial of the solution with fewer than `j` powers. -/
noncomputable def taylor (A : Matrix (Fin n) (Fin n) ℂ) (u : Fin n → ℂ) (j : ℕ) (t : ℝ) : Fin n → ℂ :=
  ∑ l ∈ Finset.range j, ((t ^ l / l.factorial : ℝ) : ℂ) • (A ^ l).mulVec u

theorem taylor_deriv (A : Matrix (Fin n) (Fin n) ℂ) (u : Fin n → ℂ) (j : ℕ) (t : ℝ) :
    HasDerivAt (taylor A u (j + 1)) (A.mulVec (taylor A u j t)) t := by
  have h1 : ∀ l : ℕ, HasDerivAt (fun t : ℝ => ((t ^ (l + 1) / (l + 1).factorial : ℝ) : ℂ) • (A ^ (l + 1)).mulVec u)
      (((t ^ l / l.factorial : ℝ) : ℂ) • (A ^ (l + 1)).mulVec u) t := by
    intro l
    have h := ((hasDerivAt_pow (l + 1) t).div_const ((l + 1).factorial : ℝ)).ofReal_comp
    have h2 := h.smul_const ((A ^ (l + 1)).mulVec u)
    refine h2.congr_deriv ?_
    congr 2
    rw [Nat.factorial_succ]
    push_cast
    field_simp
  have e : taylor A u (j + 1) = fun t => (∑ l ∈ Finset.range j,
      ((t ^ (l + 1) / (l + 1).factorial : ℝ) : ℂ) • (A ^ (l + 1)).mulVec u) + u := by
    funext t
    unfold taylor
    rw [Finset.sum_range_succ']
    congr 1
    simp
  rw [e]
  refine ((HasDerivAt.fun_sum fun l _ => h1 l).add_const u).congr_deriv ?_
  unfold taylor
  rw [mulVec_sum]
  refine Finset.sum_congr rfl fun l _ => ?_
  rw [mulVec_smul, mulVec_mulVec, ← pow_succ']

include hsym hB0 hB in
/-- The remainder of the Taylor polynomial: `(t B)^j / j!`, without further factors, since the flow conserves the norm. -/
theorem taylor_error {v : ℝ → Fin n → ℂ} (hv : ∀ t, HasDerivAt v ((gen n m).mulVec (v t)) t) (c : ℝ)
    (hc : ∀ t, ‖eucl (v t)‖ ≤ c) (j : ℕ) :
    ∀ t, 0 ≤ t → ‖eucl (v t - taylor (gen n m) (v 0) j t)‖ ≤ (t * B) ^ j / j.factorial * c := by
  induction j with
  | zero =>
    intro t _
    simpa [taylor] using hc t
  | succ j ih =>
    intro t ht
    have hd : ∀ s, HasDerivAt (fun s => eucl (v s - taylor (gen n m) (v 0) (j + 1) s))
        (eucl ((gen n m).mulVec (v s - taylor (gen n m) (v 0) j s))) s := by
      intro s
      refine eucl_deriv ?_
      rw [mulVec_sub]
      exact (hv s).sub (taylor_deriv (gen n m) (v 0) j s)
    have hb : ∀ s : ℝ, HasDerivAt (fun s : ℝ => (s * B) ^ (j + 1) / (j + 1).factorial * c)
        (B * ((s * B) ^ j / j.factorial * c)) s := by
      intro s
      have h1 : HasDerivAt (fun s : ℝ => s * B) B s := by simpa using (hasDerivAt_id s).mul_const B
      have h2 := ((h1.pow (j + 1)).div_const ((j + 1).factorial : ℝ)).mul_const c
      refine h2.congr_deriv ?_
      rw [Nat.factorial_succ]
      push_cast
      field_simp
    refine image_norm_le_of_norm_deriv_right_le_deriv_boundary (a := 0) (b := t)
      (f := fun s => eucl (v s - taylor (gen n m) (v 0) (j + 1) s))
      (f' := fun s => eucl ((gen n m).mulVec (v s - taylor (gen n m) (v 0) j s)))
      (B := fun s : ℝ => (s * B) ^ (j + 1) / (j + 1).factorial * c)
      (fun s _ => (hd s).continuousAt.continuousWithinAt) (fun s _ => (hd s).hasDerivWithinAt) ?_ hb ?_ ⟨ht, le_rfl⟩
    · have : taylor (gen n m) (v 0) (j + 1) 0 = v 0 := by
        unfold taylor
        rw [Finset.sum_range_succ']
        simp
      simp [this]
    · intro s hs
      refine (gen_norm_le m hsym B hB0 hB _).trans ?_
      exact mul_le_mul_of_nonneg_left (ih s hs.1) hB0

include hsym hB0 hB in
/-- C44/C55: for `v' = i M v` with a real symmetric matrix of absolute row sums at most `B` and `dt B ≤ √8`, after `k`
Runge–Kutta steps the vector differs from the exact solution, in the Euclidean norm, by at most `k (dt B)⁵ / 120` (times
the norm of the initial vector): the error grows linearly with time, for all times. -/
theorem rk4_linear_error {v : ℝ → Fin n → ℂ} (hv : ∀ t, HasDerivAt v ((gen n m).mulVec (v t)) t) (c : ℝ)
    (hc : ∀ t, ‖eucl (v t)‖ ≤ c) {dt : ℝ} (hdt : 0 ≤ dt) (hst : (dt * B) ^ 2 ≤ 8) (k : ℕ) :
    ‖eucl ((exp4 (dt : ℂ) (gen n m) ^ k).mulVec (v 0) - v (k * dt))‖ ≤ k * ((dt * B) ^ 5 / 120 * c) := by
  induction k with
  | zero => simp
  | succ k ih =>
    have hw : ∀ t, HasDerivAt (fun s => v (s + k * dt)) ((gen n m).mulVec (v (t + k * dt))) t := by
      intro t
      exact (hv (t + k * dt)).comp_add_const t (k * dt)
    have hloc := taylor_error m hsym B hB0 hB hw c (fun t => hc _) 5 dt hdt
    have he : taylor (gen n m) (v (0 + k * dt)) 5 dt = (exp4 (dt : ℂ) (gen n m)).mulVec (v (k * dt)) := by
      unfold taylor exp4
      rw [zero_add, sum_mulVec]
      refine Finset.sum_congr rfl fun l _ => ?_
      rw [smul_mulVec]
      congr 1
      push_cast
      rfl
    rw [he] at hloc
    have hstep : ∀ f : Fin n → ℂ, ‖eucl ((exp4 (dt : ℂ) (gen n m)).mulVec f)‖ ≤ ‖eucl f‖ := by
      intro f
      have := exp4_norm_le m hsym B dt hB0 hdt hB hst f
      rw [← eucl_sq, ← eucl_sq] at this
      exact abs_le_of_sq_le_sq' this (norm_nonneg _) |>.2
    have e : (exp4 (dt : ℂ) (gen n m) ^ (k + 1)).mulVec (v 0) - v ((k + 1 : ℕ) * dt) =
        (exp4 (dt : ℂ) (gen n m)).mulVec ((exp4 (dt : ℂ) (gen n m) ^ k).mulVec (v 0) - v (k * dt)) -
          (v (dt + k * dt) - (exp4 (dt : ℂ) (gen n m)).mulVec (v (k * dt))) := by
      rw [mulVec_sub, mulVec_mulVec, ← pow_succ', show ((k + 1 : ℕ) : ℝ) * dt = dt + k * dt by push_cast; ring]
      abel
    rw [e]
    calc ‖eucl ((exp4 (dt : ℂ) (gen n m)).mulVec ((exp4 (dt : ℂ) (gen n m) ^ k).mulVec (v 0) - v (k * dt)) -
          (v (dt + k * dt) - (exp4 (dt : ℂ) (gen n m)).mulVec (v (k * dt))))‖
        ≤ ‖eucl ((exp4 (dt : ℂ) (gen n m)).mulVec ((exp4 (dt : ℂ) (gen n m) ^ k).mulVec (v 0) - v (k * dt)))‖ +
          ‖eucl (v (dt + k * dt) - (exp4 (dt : ℂ) (gen n m)).mulVec (v (k * dt)))‖ := by
          rw [eucl, WithLp.toLp_sub]; exact norm_sub_le _ _
      _ ≤ k * ((dt * B) ^ 5 / 120 * c) + (dt * B) ^ 5 / 120 * c := by
          refine add_le_add ((hstep _).trans ih) ?_
          simpa [Nat.factorial] using hloc
      _ = ((k + 1 : ℕ) : ℝ) * ((dt * B) ^ 5 / 120 * c) := by push_cast; ring

end

end Ieompp.ODE
