import Verif.Props.JumpProgramFloat

/-! # C110: the programs which write the Fermi jump, in `double` arithmetic -/

set_option autoImplicit false
set_option linter.unusedSectionVars false

namespace Ieompp.Program

open Ieompp.Spec RealSpace ODE ComplexConjugate

/-- The error of the vector in `double` arithmetic for matrices with at most 14 elements in a row. -/
theorem vectorErrorF_double14 {z : ℕ} (hz : z ≤ 14) {x : ℝ} (hx : 0 ≤ x) (h : x ^ 2 ≤ 8) {k : ℕ} (hk : k ≤ 2 ^ 24) :
    vectorErrorF (1 / 2 ^ 53) z x k ≤ vectorErrorDouble14 x k := by
  have h1 : rk4StepRounding (1 / 2 ^ 53) z x ≤ 1200 / 2 ^ 52 := by
    unfold rk4StepRounding
    have e1 : ((1 : ℝ) + 1 / 2 ^ 53) ^ (4 * z + 24) - 1 ≤ 80 / 2 ^ 52 := by
      have hz' : ((4 * z + 24 : ℕ) : ℝ) ≤ 80 := by exact_mod_cast (by omega : 4 * z + 24 ≤ 80)
      have := RealSpace.pow_sub_one_le (n := 4 * z + 24) (u := (1 : ℝ) / 2 ^ 53) (by positivity) (by
        rw [mul_one_div, div_le_one (by positivity)]
        exact hz'.trans (by norm_num))
      refine this.trans ?_
      rw [show (2 : ℝ) ^ 53 = 2 * 2 ^ 52 by norm_num]
      have : 2 * (((4 * z + 24 : ℕ) : ℝ) * (1 / (2 * 2 ^ 52))) = ((4 * z + 24 : ℕ) : ℝ) / 2 ^ 52 := by ring
      rw [this]; gcongr
    have e2 := expPoly_le hx h
    calc _ ≤ 80 / 2 ^ 52 * (15 : ℝ) := by
          refine mul_le_mul e1 e2 (by positivity) (by positivity)
      _ = _ := by norm_num
  have h0 : 0 ≤ rk4StepRounding (1 / 2 ^ 53) z x := by
    unfold rk4StepRounding
    refine mul_nonneg (sub_nonneg.2 (one_le_pow₀ ?_)) (by positivity)
    norm_num
  have hk' : (k : ℝ) ≤ 2 ^ 24 := by exact_mod_cast hk
  have h2 : (k : ℝ) * rk4StepRounding (1 / 2 ^ 53) z x ≤ k * (1200 / 2 ^ 52) := mul_le_mul_of_nonneg_left h1 (Nat.cast_nonneg k)
  have h3 := RealSpace.pow_sub_one_le (n := k) h0 (by
    refine h2.trans ?_
    calc (k : ℝ) * (1200 / 2 ^ 52) ≤ 2 ^ 24 * (1200 / 2 ^ 52) := by gcongr
      _ ≤ 1 := by norm_num)
  unfold vectorErrorF vectorErrorDouble14
  have h4 : (k : ℝ) * (1 / 2 ^ 40 + x ^ 5 / 120 * Real.exp x) = k * (1 / 2 ^ 40) + k * (x ^ 5 / 120 * Real.exp x) := by ring
  have h5 : 2 * ((k : ℝ) * (1200 / 2 ^ 52)) ≤ k * (1 / 2 ^ 40) := by
    have : 2 * ((k : ℝ) * (1200 / 2 ^ 52)) = k * (2400 / 2 ^ 52) := by ring
    rw [this]
    exact mul_le_mul_of_nonneg_left (by norm_num) (Nat.cast_nonneg k)
  rw [h4]
  linarith

section Programs
variable {N : ℕ} {sort : List (Triplet ℝ) → List (Triplet ℝ)} {sinF cosF : ℝ → ℝ}

/-- **C110, `hubbard_real_1d_rk4_jump` in `double` arithmetic.** For every number of sites `N ≥ 3`, parameters `J`, `U` that are `double`s, filling between 0
and 1, step width inside the stability region, end time of at most `2^24` steps, measuring interval, execution of the parallel parts, `std::sort`, and
`std::sin` and `std::cos` that are accurate to `2^-53`: the program terminates without out-of-range access; it writes one row for each of the steps
`0, I, 2I, …`; the time of the row is off by at most `dt/16`; the number is not negative and differs from the Fermi jump `|Σ_i e^{i k_F i} v^NO_i(t)|²` of the
exact solution at `t = j I dt` by at most `S ε (2 + ε) + r 2^-52 9 n (1 + ε)²`, where `S = N (1 + Σ_jk (2 ⟨c†_j c_k⟩ - δ_jk)²)`, `n = N + N³`, `ε = k (2^-41 + x⁵/120 exp x)` after `k = j I` steps,
`x = dt (6 |J| + |U|)` and `r = 2 (N² + 67 N + 28 + threads)`. -/
theorem real1dRk4Jump_double (hN : 3 ≤ N) (hs : IsSort sort) {J U filling dt tEnd : ℝ} (hJ : double J = J) (hU : double U = U)
    (hf0 : 0 ≤ filling) (hf1 : filling ≤ 1) (hsin : ∀ x, |sinF x - Real.sin x| ≤ 1 / 2 ^ 53) (hcos : ∀ x, |cosF x - Real.cos x| ≤ 1 / 2 ^ 53)
    (hdt : 0 < dt) (hst : (dt * (6 * |J| + |U|)) ^ 2 ≤ 8) (hend : tEnd + dt / 16 ≤ 2 ^ 24 * dt) (interval : ℕ) {e : JumpExecution} (he : e.Valid N)
    (het : e.table.Perm (List.range' 1 (N / 2))) (w : Work ℂ) :
    ∃ m s k, initMatrix sort N 2 (Chain.real (K := ℝ) N 1).neighbors J U = .val m ∧
      real1dRk4JumpF double sinF cosF sort e w N J U dt tEnd interval filling = .val s ∧
      ⌈(tEnd - dt / 16) / dt⌉₊ ≤ k ∧ k ≤ ⌈(tEnd + dt / 16) / dt⌉₊ ∧ s.out.length = k / max interval 1 + 1 ∧
      ∀ v, IsFlow (N + N * N * N) (fun i j => m.get i j) v →
      ∀ j < s.out.length, 2 * (N * N + 67 * N + 28 + e.threads (j * max interval 1)) ≤ 2 ^ 53 →
        ∃ t x, s.out[j]? = some (t, x) ∧ |t - ((j * max interval 1 : ℕ) : ℝ) * dt| ≤ dt / 16 ∧ 0 ≤ x ∧
        |x - fermiJump (ringCorrelation filling N) N (fun i => filling * Real.pi * i) (v ((j * max interval 1 : ℕ) * dt))| ≤
          jumpWeight (ringCorrelation filling N) N *
            (vectorErrorDouble (dt * (6 * |J| + |U|)) (j * max interval 1) * (2 + vectorErrorDouble (dt * (6 * |J| + |U|)) (j * max interval 1))) +
          (2 * (N * N + 67 * N + 28 + e.threads (j * max interval 1)) : ℕ) / 2 ^ 52 *
            (9 * ((N + N * N * N : ℕ) : ℝ) * (1 + vectorErrorDouble (dt * (6 * |J| + |U|)) (j * max interval 1)) ^ 2) := by
  obtain ⟨m, s, k, h1, h2, h3, h4, h5, h6⟩ := real1dRk4JumpF_correct (sinF := sinF) (cosF := cosF) (filling := filling) (timeRun_double hdt hend)
    ⟨by norm_num, hsin, hf0, hf1⟩ hcos hN hs hJ (by rw [double_opposite, hJ]) (by rw [double_half, hU]) hst interval he het w
  refine ⟨m, s, k, h1, h2, h3, h4, h5, fun v hv j hj hr => ?_⟩
  obtain ⟨t, x, hx, ht, hx0, hb⟩ := h6 v hv j hj
  have hx0' : 0 ≤ dt * (6 * |J| + |U|) := by positivity
  exact ⟨t, x, hx, ht, hx0, hb.trans (quadraticErrorF_double hr (by unfold jumpWeight; positivity) (by positivity) (vectorErrorF_nonneg (by positivity) _ hx0' _)
    (vectorErrorF_double (by norm_num) hx0' hst (rows_le hdt hend h4 h5 hj)))⟩

/-- **C110, `hubbard_real_2d_rk4_jump` in `double` arithmetic**, for `Nx = Ny = N ≥ 3`. (Missing: rectangular systems, for which the lattice itself is wrong,
C20 and C39.) -/
theorem real2dRk4Jump_double_partial (hN : 3 ≤ N) (hs : IsSort sort) {J U kx ky dt tEnd : ℝ} (hJ : double J = J) (hU : double U = U)
    (hsin : ∀ x, |sinF x - Real.sin x| ≤ 1 / 2 ^ 53) (hcos : ∀ x, |cosF x - Real.cos x| ≤ 1 / 2 ^ 53)
    (hdt : 0 < dt) (hst : (dt * (12 * |J| + |U|)) ^ 2 ≤ 8) (hend : tEnd + dt / 16 ≤ 2 ^ 24 * dt) (interval : ℕ) {e : JumpExecution}
    (he : e.Valid (N * N)) (het : e.table2.Perm (evPairs (N / 2) (N / 2))) (w : Work ℂ) :
    ∃ m s k, initMatrix sort (N * N) 4 (Square.real (K := ℝ) N N 1 1).neighbors J U = .val m ∧
      real2dRk4JumpF double sinF cosF sort e w N N J U dt tEnd interval kx ky = .val s ∧
      ⌈(tEnd - dt / 16) / dt⌉₊ ≤ k ∧ k ≤ ⌈(tEnd + dt / 16) / dt⌉₊ ∧ s.out.length = k / max interval 1 + 1 ∧
      ∀ v, IsFlow (N * N + N * N * (N * N) * (N * N)) (fun i j => m.get i j) v →
      ∀ j < s.out.length, 2 * (N * N * (N * N) + N * N + ⌈16 * (|kx| + |ky|) * N⌉₊ + 47 + e.threads (j * max interval 1)) ≤ 2 ^ 53 →
        ∃ t x, s.out[j]? = some (t, x) ∧ |t - ((j * max interval 1 : ℕ) : ℝ) * dt| ≤ dt / 16 ∧ 0 ≤ x ∧
        |x - fermiJump (torusCorrelation N) (N * N) (fun i => kx * (i / N : ℕ) + ky * (i % N : ℕ))
            (v ((j * max interval 1 : ℕ) * dt))| ≤
          jumpWeight (torusCorrelation N) (N * N) *
            (vectorErrorDouble14 (dt * (12 * |J| + |U|)) (j * max interval 1) *
              (2 + vectorErrorDouble14 (dt * (12 * |J| + |U|)) (j * max interval 1))) +
          (2 * (N * N * (N * N) + N * N + ⌈16 * (|kx| + |ky|) * N⌉₊ + 47 + e.threads (j * max interval 1)) : ℕ) / 2 ^ 52 *
            (9 * ((N * N + N * N * (N * N) * (N * N) : ℕ) : ℝ) *
              (1 + vectorErrorDouble14 (dt * (12 * |J| + |U|)) (j * max interval 1)) ^ 2) := by
  obtain ⟨m, s, k, h1, h2, h3, h4, h5, h6⟩ := real2dRk4JumpF_correct (sinF := sinF) (cosF := cosF) (timeRun_double hdt hend)
    (by norm_num) hsin hcos hN hs hJ (by rw [double_opposite, hJ]) (by rw [double_half, hU]) hst interval kx ky he het w
  refine ⟨m, s, k, h1, h2, h3, h4, h5, fun v hv j hj hr => ?_⟩
  obtain ⟨t, x, hx, ht, hx0, hb⟩ := h6 v hv j hj
  have hx0' : 0 ≤ dt * (12 * |J| + |U|) := by positivity
  exact ⟨t, x, hx, ht, hx0, hb.trans (quadraticErrorF_double hr (by unfold jumpWeight; positivity) (by positivity) (vectorErrorF_nonneg (by positivity) _ hx0' _)
    (vectorErrorF_double14 (by norm_num) hx0' hst (rows_le hdt hend h4 h5 hj)))⟩

end Programs

/-- With the default parameters of `hubbard_real_1d_rk4_jump` (16 sites, 1000 steps) and 8 threads the hypothesis on the number of roundings is met, and the roundings in
the measurement contribute less than `3·10^-8` to the error. -/
example : 2 * (16 * 16 + 67 * 16 + 28 + 8) ≤ 2 ^ 53 ∧
    (2 * (16 * 16 + 67 * 16 + 28 + 8) : ℕ) / 2 ^ 52 * (9 * ((16 + 16 * 16 * 16 : ℕ) : ℝ) * (1 + 2 / 10 ^ 5) ^ 2) ≤ 3 / 10 ^ 8 := by
  refine ⟨by norm_num, by norm_num⟩

end Ieompp.Program
