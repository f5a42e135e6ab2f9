import Verif.Props.RK4
import Mathlib.Analysis.SpecialFunctions.Exponential
import Mathlib.Analysis.Normed.Operator.Mul
import Mathlib.Analysis.Calculus.FDeriv.Mul
import Mathlib.Analysis.Calculus.Deriv.Prod
import Mathlib.Analysis.Calculus.Deriv.Mul
import Mathlib.Analysis.SpecialFunctions.ExpDeriv
import Mathlib.Analysis.Calculus.MeanValue
import Mathlib.Analysis.Complex.Basic
import Mathlib.LinearAlgebra.Matrix.ToLin
import Mathlib.LinearAlgebra.Complex.FiniteDimensional
import Mathlib.Topology.Algebra.Module.FiniteDimension

/-! # C44: the order of the Runge–Kutta integration -/

set_option autoImplicit false
set_option linter.unusedSectionVars false

namespace Ieompp.ODE

open Ieompp.Spec
open NormedSpace (exp)

/-! ### Truncating the exponential series in a Banach algebra -/

section Banach
variable {A : Type*} [NormedRing A] [NormedAlgebra ℝ A] [CompleteSpace A]

theorem norm_pow_le_of_one (h1 : ‖(1 : A)‖ ≤ 1) (x : A) (n : ℕ) : ‖x ^ n‖ ≤ ‖x‖ ^ n := by
  rcases Nat.eq_zero_or_pos n with h | h
  · subst h; simpa using h1
  · exact norm_pow_le' x h

theorem norm_term_le (h1 : ‖(1 : A)‖ ≤ 1) (x : A) (n : ℕ) :
    ‖((n.factorial : ℝ)⁻¹) • x ^ n‖ ≤ ‖x‖ ^ n / n.factorial := by
  rw [norm_smul, norm_inv, RCLike.norm_natCast, div_eq_inv_mul]
  exact mul_le_mul_of_nonneg_left (norm_pow_le_of_one h1 x n) (by positivity)

theorem real_exp_hasSum (x : ℝ) : HasSum (fun n : ℕ => x ^ n / n.factorial) (Real.exp x) := by
  have := NormedSpace.exp_series_hasSum_exp' (𝕂 := ℝ) x
  rw [← Real.exp_eq_exp_ℝ] at this
  simpa [div_eq_inv_mul] using this

theorem norm_exp_le_exp (h1 : ‖(1 : A)‖ ≤ 1) (x : A) : ‖exp x‖ ≤ Real.exp ‖x‖ :=
  (NormedSpace.exp_series_hasSum_exp' (𝕂 := ℝ) x).norm_le_of_bounded (real_exp_hasSum ‖x‖) (norm_term_le h1 x)

theorem exp4_eq (h : ℝ) (x : A) : exp4 h x = ∑ n ∈ Finset.range 5, ((n.factorial : ℝ)⁻¹) • (h • x) ^ n := by
  unfold exp4
  refine Finset.sum_congr rfl fun n _ => ?_
  rw [smul_pow, smul_smul, div_eq_inv_mul]

theorem norm_exp4_le (h1 : ‖(1 : A)‖ ≤ 1) (h : ℝ) (x : A) : ‖exp4 h x‖ ≤ Real.exp ‖h • x‖ := by
  rw [exp4_eq]
  refine (norm_sum_le _ _).trans ((Finset.sum_le_sum fun n _ => norm_term_le h1 (h • x) n).trans ?_)
  exact Real.sum_le_exp_of_nonneg (norm_nonneg _) 5

/-- The local error: the exponential series, truncated after the fourth power. -/
theorem norm_exp_sub_exp4_le (h1 : ‖(1 : A)‖ ≤ 1) (h : ℝ) (x : A) :
    ‖exp (h • x) - exp4 h x‖ ≤ ‖h • x‖ ^ 5 / 120 * Real.exp ‖h • x‖ := by
  rw [exp4_eq]
  set y := h • x
  have hs := (hasSum_nat_add_iff' 5).2 (NormedSpace.exp_series_hasSum_exp' (𝕂 := ℝ) y)
  refine hs.norm_le_of_bounded ((real_exp_hasSum ‖y‖).mul_left (‖y‖ ^ 5 / 120)) fun n => ?_
  refine (norm_term_le h1 y (n + 5)).trans ?_
  have hf : (120 * n.factorial : ℝ) ≤ (n + 5).factorial := by
    have := Nat.le_of_dvd (Nat.factorial_pos _) (Nat.factorial_mul_factorial_dvd_factorial_add n 5)
    have h5 : Nat.factorial 5 = 120 := rfl
    rw [h5] at this
    exact_mod_cast (by rw [Nat.mul_comm]; exact this : 120 * n.factorial ≤ (n + 5).factorial)
  rw [div_mul_div_comm, pow_add, mul_comm (‖y‖ ^ n)]
  have hp : (0 : ℝ) < 120 * n.factorial := by positivity
  gcongr

/-- The global error after `k` steps. -/
theorem norm_pow_sub_pow_le (h1 : ‖(1 : A)‖ ≤ 1) (h : ℝ) (x : A) (k : ℕ) :
    ‖exp4 h x ^ k - exp (h • x) ^ k‖ ≤ k * (‖h • x‖ ^ 5 / 120) * Real.exp (k * ‖h • x‖) := by
  set T := exp4 h x
  set E := exp (h • x)
  set b := ‖h • x‖
  induction k with
  | zero => simp
  | succ k ih =>
    have hE : ‖E ^ k‖ ≤ Real.exp (k * b) := by
      rw [Real.exp_nat_mul]
      exact (norm_pow_le_of_one h1 E k).trans (pow_le_pow_left₀ (norm_nonneg _) (norm_exp_le_exp h1 _) k)
    have hd : ‖T - E‖ ≤ b ^ 5 / 120 * Real.exp b := by rw [norm_sub_rev]; exact norm_exp_sub_exp4_le h1 h x
    have e : T ^ (k + 1) - E ^ (k + 1) = T * (T ^ k - E ^ k) + (T - E) * E ^ k := by
      rw [pow_succ', pow_succ', mul_sub, sub_mul]; abel
    rw [e]
    have hb : 0 ≤ b := norm_nonneg _
    calc ‖T * (T ^ k - E ^ k) + (T - E) * E ^ k‖
        ≤ ‖T‖ * ‖T ^ k - E ^ k‖ + ‖T - E‖ * ‖E ^ k‖ :=
          (norm_add_le _ _).trans (add_le_add (norm_mul_le _ _) (norm_mul_le _ _))
      _ ≤ Real.exp b * (k * (b ^ 5 / 120) * Real.exp (k * b)) + b ^ 5 / 120 * Real.exp b * Real.exp (k * b) := by
          gcongr
          exact norm_exp4_le h1 h x
      _ = ((k + 1 : ℕ) : ℝ) * (b ^ 5 / 120) * Real.exp ((k + 1 : ℕ) * b) := by
          push_cast
          rw [add_mul (k : ℝ) 1 b, one_mul, Real.exp_add]; ring

theorem exp_mul_exp_neg (x : A) : exp x * exp (-x) = 1 := by
  let _ : NormedAlgebra ℚ A := NormedAlgebra.restrictScalars ℚ ℝ A
  rw [← NormedSpace.exp_add_of_commute (Commute.neg_right (Commute.refl x)), add_neg_cancel, NormedSpace.exp_zero]

theorem exp_nat_smul (k : ℕ) (x : A) : exp ((k : ℝ) • x) = exp x ^ k := by
  let _ : NormedAlgebra ℚ A := NormedAlgebra.restrictScalars ℚ ℝ A
  rw [Nat.cast_smul_eq_nsmul, NormedSpace.exp_nsmul]

end Banach

/-! ### Matrices as operators -/

variable {n : ℕ}

/-- The operator `v ↦ M v`, over the real numbers. -/
noncomputable def op (M : Matrix (Fin n) (Fin n) ℂ) : (Fin n → ℂ) →L[ℝ] (Fin n → ℂ) :=
  LinearMap.toContinuousLinearMap
    { toFun := M.mulVec
      map_add' := M.mulVec_add
      map_smul' := fun c v => by
        have : ∀ w : Fin n → ℂ, c • w = (c : ℂ) • w := fun w => by ext i; simp
        simp only [this, RingHom.id_apply]; exact M.mulVec_smul _ _ }

theorem op_apply (M : Matrix (Fin n) (Fin n) ℂ) (v : Fin n → ℂ) : op M v = M.mulVec v := rfl

theorem op_norm_le (M : Matrix (Fin n) (Fin n) ℂ) (B : ℝ) (hB : 0 ≤ B) (hM : ∀ i, ∑ j, ‖M i j‖ ≤ B) : ‖op M‖ ≤ B := by
  refine ContinuousLinearMap.opNorm_le_bound _ hB fun v => ?_
  rw [op_apply, pi_norm_le_iff_of_nonneg (by positivity)]
  intro i
  calc ‖M.mulVec v i‖ ≤ ∑ j, ‖M i j * v j‖ := norm_sum_le Finset.univ (fun j => M i j * v j)
    _ ≤ ∑ j, ‖M i j‖ * ‖v‖ := Finset.sum_le_sum fun j _ => by
        rw [norm_mul]; exact mul_le_mul_of_nonneg_left (norm_le_pi_norm v j) (norm_nonneg _)
    _ = (∑ j, ‖M i j‖) * ‖v‖ := by rw [Finset.sum_mul]
    _ ≤ B * ‖v‖ := mul_le_mul_of_nonneg_right (hM i) (norm_nonneg _)

theorem op_pow (M : Matrix (Fin n) (Fin n) ℂ) (k : ℕ) (v : Fin n → ℂ) : (op M ^ k) v = (M ^ k).mulVec v := by
  induction k generalizing v with
  | zero => simp
  | succ k ih => rw [pow_succ, ContinuousLinearMap.mul_apply, ih, op_apply, Matrix.mulVec_mulVec, ← pow_succ]

theorem op_exp4 (M : Matrix (Fin n) (Fin n) ℂ) (h : ℝ) (v : Fin n → ℂ) :
    exp4 h (op M) v = (exp4 (h : ℂ) M).mulVec v := by
  unfold exp4
  rw [ContinuousLinearMap.sum_apply, Matrix.sum_mulVec]
  refine Finset.sum_congr rfl fun j _ => ?_
  rw [ContinuousLinearMap.smul_apply, op_pow, Matrix.smul_mulVec]
  ext i
  simp

theorem op_exp4_pow (M : Matrix (Fin n) (Fin n) ℂ) (h : ℝ) (k : ℕ) (v : Fin n → ℂ) :
    (exp4 h (op M) ^ k) v = (exp4 (h : ℂ) M ^ k).mulVec v := by
  induction k generalizing v with
  | zero => simp
  | succ k ih => rw [pow_succ, ContinuousLinearMap.mul_apply, ih, op_exp4, Matrix.mulVec_mulVec, ← pow_succ]

/-- Every solution of `v' = M v` is `exp(t M) v(0)`. -/
theorem solution_eq (M : Matrix (Fin n) (Fin n) ℂ) (v : ℝ → Fin n → ℂ)
    (hv : ∀ t, HasDerivAt v (M.mulVec (v t)) t) (t : ℝ) : v t = exp (t • op M) (v 0) := by
  set g : ℝ → Fin n → ℂ := fun s => exp (s • -op M) (v s) with hg
  have hd : ∀ s, HasDerivAt g 0 s := by
    intro s
    have h1 : HasDerivAt (fun s : ℝ => exp (s • -op M)) (exp (s • -op M) * -op M) s :=
      hasDerivAt_exp_smul_const (𝕂 := ℝ) (-op M) s
    have h2 := h1.clm_apply (hv s)
    refine h2.congr_deriv ?_
    rw [ContinuousLinearMap.mul_apply, ContinuousLinearMap.neg_apply, op_apply, map_neg, neg_add_cancel]
  have hc : g t = g 0 := is_const_of_deriv_eq_zero (fun s => (hd s).differentiableAt) (fun s => (hd s).deriv) t 0
  have h0 : g 0 = v 0 := by simp [hg, NormedSpace.exp_zero]
  have hinv : exp (t • op M) * exp (t • -op M) = 1 := by
    rw [smul_neg, exp_mul_exp_neg]
  rw [← h0, ← hc, hg]
  simp only
  rw [← ContinuousLinearMap.mul_apply, hinv]; rfl

theorem integrate_correct (h : ℂ) (m : ℕ → ℕ → ℂ) : ∀ (k : ℕ) (w : Work ℂ) (u : Fin n → ℂ),
    ∃ w', integrate n h m k w (List.ofFn u) = .val (w', List.ofFn ((exp4 h (mat n m) ^ k).mulVec u))
  | 0, w, u => ⟨w, by simp [integrate]⟩
  | k + 1, w, u => by
    obtain ⟨w1, e1⟩ := stepMatrix_correct n h m w u
    obtain ⟨w2, e2⟩ := integrate_correct h m k w1 ((exp4 h (mat n m)).mulVec u)
    refine ⟨w2, ?_⟩
    rw [integrate, e1, Res.bind_val]
    simp only
    rw [e2, Matrix.mulVec_mulVec, ← pow_succ]

/-- C44: the integration converges with fourth order. Let `v` be the exact solution of `v' = M v`, and let the absolute row
sums of `M` be at most `B`. After `k` steps of width `dt` the program's vector differs from `v(k dt)`, in every component,
by at most `k dt · dt⁴ · B⁵/120 · exp(k dt B) · max|v(0)|`. -/
theorem rk4_converges (m : ℕ → ℕ → ℂ) (B dt : ℝ) (hB : 0 ≤ B) (hdt : 0 ≤ dt)
    (hM : ∀ i : Fin n, ∑ j : Fin n, ‖m i j‖ ≤ B) (v : ℝ → Fin n → ℂ)
    (hv : ∀ t, HasDerivAt v (fun i => ∑ j : Fin n, m i j * v t j) t) (a : ℝ) (ha : ∀ i, ‖v 0 i‖ ≤ a) (k : ℕ) (w : Work ℂ) :
    ∃ (w' : Work ℂ) (y : Fin n → ℂ), integrate n (dt : ℂ) m k w (List.ofFn (v 0)) = .val (w', List.ofFn y) ∧
      ∀ i, ‖y i - v (k * dt) i‖ ≤ k * dt * dt ^ 4 * (B ^ 5 / 120) * Real.exp (k * dt * B) * a := by
  obtain ⟨w', e⟩ := integrate_correct (dt : ℂ) m k w (v 0)
  refine ⟨w', _, e, fun i => ?_⟩
  set M := mat n m with hMdef
  have ha0 : 0 ≤ a := (norm_nonneg _).trans (ha i)
  have hsol := solution_eq M v hv (k * dt)
  have hexp : exp ((k * dt) • op M) = exp (dt • op M) ^ k := by
    rw [mul_smul]; exact exp_nat_smul k (dt • op M)
  have h1 : ‖(1 : (Fin n → ℂ) →L[ℝ] (Fin n → ℂ))‖ ≤ 1 := ContinuousLinearMap.norm_id_le
  have hb : ‖dt • op M‖ ≤ dt * B := by
    rw [norm_smul, Real.norm_of_nonneg hdt]
    exact mul_le_mul_of_nonneg_left (op_norm_le M B hB hM) hdt
  have hv0 : ‖v 0‖ ≤ a := (pi_norm_le_iff_of_nonneg ha0).2 ha
  have key := norm_pow_sub_pow_le h1 dt (op M) k
  rw [← op_exp4_pow, hsol, hexp, ← Pi.sub_apply, ← ContinuousLinearMap.sub_apply]
  calc ‖((exp4 dt (op M) ^ k - exp (dt • op M) ^ k) (v 0)) i‖
      ≤ ‖(exp4 dt (op M) ^ k - exp (dt • op M) ^ k) (v 0)‖ := norm_le_pi_norm _ i
    _ ≤ ‖exp4 dt (op M) ^ k - exp (dt • op M) ^ k‖ * ‖v 0‖ := ContinuousLinearMap.le_opNorm _ _
    _ ≤ (k * (‖dt • op M‖ ^ 5 / 120) * Real.exp (k * ‖dt • op M‖)) * a := by gcongr
    _ ≤ (k * ((dt * B) ^ 5 / 120) * Real.exp (k * (dt * B))) * a := by gcongr
    _ = k * dt * dt ^ 4 * (B ^ 5 / 120) * Real.exp (k * dt * B) * a := by rw [← mul_assoc (k : ℝ) dt B]; ring

/-- C44: the step is linear in the vector. -/
theorem rk4_linear (h : ℂ) (m : ℕ → ℕ → ℂ) (a b : ℂ) (u v : Fin n → ℂ) (w1 w2 w3 : Work ℂ) :
    ∃ (y z : Fin n → ℂ) (w1' w2' w3' : Work ℂ), stepMatrix n h m w1 (List.ofFn u) = .val (w1', List.ofFn y) ∧
      stepMatrix n h m w2 (List.ofFn v) = .val (w2', List.ofFn z) ∧
      stepMatrix n h m w3 (List.ofFn (a • u + b • v)) = .val (w3', List.ofFn (a • y + b • z)) := by
  obtain ⟨w1', e1⟩ := stepMatrix_correct n h m w1 u
  obtain ⟨w2', e2⟩ := stepMatrix_correct n h m w2 v
  obtain ⟨w3', e3⟩ := stepMatrix_correct n h m w3 (a • u + b • v)
  refine ⟨_, _, w1', w2', w3', e1, e2, ?_⟩
  rw [e3, Matrix.mulVec_add, Matrix.mulVec_smul, Matrix.mulVec_smul]

/-- The hypotheses are met: `v(t) = exp(i t)` solves `v' = i v`, with `B = 1`. -/
example : ∀ t : ℝ, HasDerivAt (fun t : ℝ => fun _ : Fin 1 => Complex.exp (t * Complex.I))
    (fun i : Fin 1 => ∑ _j : Fin 1, Complex.I * Complex.exp (t * Complex.I)) t := by
  intro t
  rw [hasDerivAt_pi]
  intro _
  have h : HasDerivAt (fun t : ℝ => (t : ℂ) * Complex.I) Complex.I t := by
    simpa using (Complex.ofRealCLM.hasDerivAt (x := t)).mul_const Complex.I
  have h2 := h.cexp
  simpa [mul_comm] using h2

end Ieompp.ODE
