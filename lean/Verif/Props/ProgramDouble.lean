import Verif.Props.ProgramFloat

/-!
# C109: the real-space programs on the chain in `double` arithmetic
-/

set_option autoImplicit false
set_option linter.unusedSectionVars false

namespace Ieompp.Spec

/-- The rounded value of `x` is nearer than a half, or even at a distance of a half. -/
theorem roundEven_close (x : ℝ) : |x - roundEven x| < 1 / 2 ∨ (|x - roundEven x| = 1 / 2 ∧ Even (roundEven x)) := by
  rcases (abs_sub_roundEven x).lt_or_eq with h | h
  · exact .inl h
  · refine .inr ⟨h, ?_⟩
    unfold roundEven at h ⊢
    split_ifs at h ⊢ with hc
    · exact hc.2
    · have h1 := Int.floor_le (x + 1 / 2)
      have h2 := Int.lt_floor_add_one (x + 1 / 2)
      have h3 : x - ⌊x + 1 / 2⌋ = -(1 / 2) := by
        rcases abs_choice (x - (⌊x + 1 / 2⌋ : ℝ)) with h4 | h4 <;> rw [h4] at h <;> linarith
      have h5 : ⌊x⌋ = ⌊x + 1 / 2⌋ - 1 := by
        rw [Int.floor_eq_iff]; push_cast; constructor <;> linarith
      have h6 : Int.fract x = 1 / 2 := by
        rw [← Int.self_sub_floor, h5]; push_cast; linarith
      have h7 : ¬ Even ⌊x⌋ := fun he => hc ⟨h6, he⟩
      rw [h5, Int.even_sub_one, not_not] at h7
      exact h7

theorem double_of_scaled {x : ℝ} (hx : x ≠ 0) {e : ℤ} (h1 : (2 : ℝ) ^ (e + 52) ≤ |x|) (h2 : |x| < (2 : ℝ) ^ (e + 53)) :
    double x = (roundEven (x / 2 ^ e) : ℝ) * 2 ^ e :=
  double_eq h1 h2 (by field_simp) (roundEven_close _)

/-- The binade of a number. -/
theorem binade {x : ℝ} (hx : x ≠ 0) : (2 : ℝ) ^ (Int.log 2 |x| - 52 + 52) ≤ |x| ∧ |x| < (2 : ℝ) ^ (Int.log 2 |x| - 52 + 53) := by
  have hp := abs_pos.2 hx
  constructor
  · rw [sub_add_cancel]; exact_mod_cast Int.zpow_log_le_self (b := 2) (by norm_num) hp
  · rw [show Int.log 2 |x| - 52 + 53 = Int.log 2 |x| + 1 by ring]
    exact_mod_cast Int.lt_zpow_succ_log_self (b := 2) (by norm_num) |x|

theorem double_opposite (x : ℝ) : double (-x) = -double x := by
  by_cases hx : x = 0
  · subst hx; simp [double]
  obtain ⟨h1, h2⟩ := binade hx
  set e := Int.log 2 |x| - 52
  have hr : roundEven (-x / 2 ^ e) = -roundEven (x / 2 ^ e) := by
    apply roundEven_eq
    have e1 : |-x / 2 ^ e - ((-roundEven (x / 2 ^ e) : ℤ) : ℝ)| = |x / 2 ^ e - (roundEven (x / 2 ^ e) : ℝ)| := by
      rw [← abs_neg]; congr 1; push_cast; ring
    rw [e1, even_neg]
    exact roundEven_close _
  rw [double_of_scaled hx h1 h2, double_of_scaled (neg_ne_zero.2 hx) (by rwa [abs_neg]) (by rwa [abs_neg]), hr]
  push_cast; ring

theorem double_half (x : ℝ) : double (x / 2) = double x / 2 := by
  by_cases hx : x = 0
  · subst hx; simp [double]
  obtain ⟨h1, h2⟩ := binade hx
  set e := Int.log 2 |x| - 52
  have ha : |x / 2| = |x| / 2 := by rw [abs_div, abs_two]
  have p1 : (2 : ℝ) ^ (e - 1 + 52) = 2 ^ (e + 52) / 2 := by
    rw [show e - 1 + 52 = e + 52 - 1 by ring, zpow_sub_one₀ (by norm_num)]; rfl
  have p2 : (2 : ℝ) ^ (e - 1 + 53) = 2 ^ (e + 53) / 2 := by
    rw [show e - 1 + 53 = e + 53 - 1 by ring, zpow_sub_one₀ (by norm_num)]; rfl
  have p3 : (2 : ℝ) ^ (e - 1) = 2 ^ e / 2 := by rw [zpow_sub_one₀ (by norm_num)]; rfl
  rw [double_of_scaled hx h1 h2, double_of_scaled (x := x / 2) (e := e - 1) (by simpa using hx) (by rw [p1, ha]; linarith)
    (by rw [p2, ha]; linarith), p3, div_div_div_cancel_right₀ (by norm_num)]
  ring

end Ieompp.Spec

namespace Ieompp.Program

open Ieompp.Spec RealSpace ODE ComplexConjugate

theorem expPoly_le {x : ℝ} (hx : 0 ≤ x) (h : x ^ 2 ≤ 8) : 1 + x + x ^ 2 / 2 + x ^ 3 / 6 + x ^ 4 / 24 ≤ 15 := by
  have h1 : x ≤ 3 := by nlinarith
  have h3 : x ^ 3 ≤ 24 := by nlinarith
  have h4 : x ^ 4 ≤ 64 := by nlinarith
  linarith

/-- The error of the vector in `double` arithmetic for matrices with at most eight elements in a row. -/
theorem vectorErrorF_double {z : ℕ} (hz : z ≤ 8) {x : ℝ} (hx : 0 ≤ x) (h : x ^ 2 ≤ 8) {k : ℕ} (hk : k ≤ 2 ^ 24) :
    vectorErrorF (1 / 2 ^ 53) z x k ≤ vectorErrorDouble x k := by
  have h1 : rk4StepRounding (1 / 2 ^ 53) z x ≤ 840 / 2 ^ 52 := by
    unfold rk4StepRounding
    have e1 : ((1 : ℝ) + 1 / 2 ^ 53) ^ (4 * z + 24) - 1 ≤ 56 / 2 ^ 52 := by
      have hz' : ((4 * z + 24 : ℕ) : ℝ) ≤ 56 := by exact_mod_cast (by omega : 4 * z + 24 ≤ 56)
      have := RealSpace.pow_sub_one_le (n := 4 * z + 24) (u := (1 : ℝ) / 2 ^ 53) (by positivity) (by
        rw [mul_one_div, div_le_one (by positivity)]
        exact hz'.trans (by norm_num))
      refine this.trans ?_
      rw [show (2 : ℝ) ^ 53 = 2 * 2 ^ 52 by norm_num]
      have : 2 * (((4 * z + 24 : ℕ) : ℝ) * (1 / (2 * 2 ^ 52))) = ((4 * z + 24 : ℕ) : ℝ) / 2 ^ 52 := by ring
      rw [this]; gcongr
    have e2 := expPoly_le hx h
    calc _ ≤ 56 / 2 ^ 52 * (15 : ℝ) := by
          refine mul_le_mul e1 e2 (by positivity) (by positivity)
      _ = _ := by norm_num
  have h0 : 0 ≤ rk4StepRounding (1 / 2 ^ 53) z x := by
    unfold rk4StepRounding
    refine mul_nonneg (sub_nonneg.2 (one_le_pow₀ ?_)) (by positivity)
    norm_num
  have hk' : (k : ℝ) ≤ 2 ^ 24 := by exact_mod_cast hk
  have h2 : (k : ℝ) * rk4StepRounding (1 / 2 ^ 53) z x ≤ k * (840 / 2 ^ 52) := mul_le_mul_of_nonneg_left h1 (Nat.cast_nonneg k)
  have h3 := RealSpace.pow_sub_one_le (n := k) h0 (by
    refine h2.trans ?_
    calc (k : ℝ) * (840 / 2 ^ 52) ≤ 2 ^ 24 * (840 / 2 ^ 52) := by gcongr
      _ ≤ 1 := by norm_num)
  unfold vectorErrorF vectorErrorDouble
  have h4 : (k : ℝ) * (1 / 2 ^ 41 + x ^ 5 / 120 * Real.exp x) = k * (1 / 2 ^ 41) + k * (x ^ 5 / 120 * Real.exp x) := by ring
  have h5 : 2 * ((k : ℝ) * (840 / 2 ^ 52)) ≤ k * (1 / 2 ^ 41) := by
    have : 2 * ((k : ℝ) * (840 / 2 ^ 52)) = k * (1680 / 2 ^ 52) := by ring
    rw [this]
    exact mul_le_mul_of_nonneg_left (by norm_num) (Nat.cast_nonneg k)
  rw [h4]
  linarith

theorem quadraticErrorF_double {r : ℕ} (hr : r ≤ 2 ^ 53) {S A ε ε' : ℝ} (hS : 0 ≤ S) (hA : 0 ≤ A) (h0 : 0 ≤ ε) (h : ε ≤ ε') :
    quadraticErrorF (1 / 2 ^ 53) r S A ε ≤ S * (ε' * (2 + ε')) + r / 2 ^ 52 * (A * (1 + ε') ^ 2) := by
  have hr' : (r : ℝ) ≤ 2 ^ 53 := by exact_mod_cast hr
  have e1 : ((1 : ℝ) + 1 / 2 ^ 53) ^ r - 1 ≤ r / 2 ^ 52 := by
    have := RealSpace.pow_sub_one_le (n := r) (u := (1 : ℝ) / 2 ^ 53) (by positivity) (by
      rw [mul_one_div, div_le_one (by positivity)]; exact hr')
    refine this.trans (le_of_eq ?_)
    ring
  have e2 : 0 ≤ ((1 : ℝ) + 1 / 2 ^ 53) ^ r - 1 := sub_nonneg.2 (one_le_pow₀ (by norm_num))
  unfold quadraticErrorF
  refine add_le_add (mul_le_mul_of_nonneg_left (by nlinarith) hS) (mul_le_mul e1 ?_ (by positivity) (by positivity))
  gcongr

/-- The number of steps of a run and the rows. -/
theorem rows_le {tEnd dt : ℝ} (hdt : 0 < dt) (hend : tEnd + dt / 16 ≤ 2 ^ 24 * dt) {k interval j len : ℕ} (hk : k ≤ ⌈(tEnd + dt / 16) / dt⌉₊)
    (hl : len = k / max interval 1 + 1) (hj : j < len) : j * max interval 1 ≤ 2 ^ 24 := by
  have h1 : ⌈(tEnd + dt / 16) / dt⌉₊ ≤ 2 ^ 24 := by
    rw [Nat.ceil_le, div_le_iff₀ hdt]; norm_num; linarith
  have h2 : j ≤ k / max interval 1 := by omega
  exact (Nat.mul_le_of_le_div _ _ _ h2).trans (hk.trans h1)

theorem timeRun_double {tEnd dt : ℝ} (hdt : 0 < dt) (hend : tEnd + dt / 16 ≤ 2 ^ 24 * dt) : TimeRun double (1 / 2 ^ 53) dt tEnd (2 ^ 24) :=
  ⟨double_rounding, hdt, by norm_num, by norm_num, by norm_num; linarith⟩

section Programs
variable {N : ℕ} {sort : List (Triplet ℝ) → List (Triplet ℝ)} {sinF : ℝ → ℝ}

/-- **C109, `hubbard_real_1d_rk4` in `double` arithmetic.** For every number of sites `N ≥ 3`, parameters `J`, `U` that are `double`s, filling between 0 and
1, step width inside the stability region `dt (6 |J| + |U|) ≤ √8`, end time of at most `2^24` steps, measuring interval, execution of the parallel parts,
`std::sort`, and a `std::sin` that is accurate to `2^-53`: the program terminates without out-of-range access; it writes one row for each of the steps
`0, I, 2I, …`; the time of the row is off by at most `dt/16`; and the number differs from the exact expectation value `⟨A(t) A(t)†⟩` at `t = j I dt` by at
most `S ε (2 + ε) + r 2^-52 17 n (1 + ε)²`, where `n = N + N³`, `ε = k (2^-41 + x⁵/120 exp x)` after `k = j I` steps, `x = dt (6 |J| + |U|)`, `S` a bound on the
sums, for one operator of the basis, of the absolute values of its expectation values with all operators of the basis, and `r` the number of the terms of the sum plus the number of threads
plus 72. -/
theorem real1dRk4_double (hN : 3 ≤ N) (hs : IsSort sort) {J U filling dt tEnd : ℝ} (hJ : double J = J) (hU : double U = U)
    (hf0 : 0 ≤ filling) (hf1 : filling ≤ 1) (hsin : ∀ x, |sinF x - Real.sin x| ≤ 1 / 2 ^ 53) (hdt : 0 < dt) (hst : (dt * (6 * |J| + |U|)) ^ 2 ≤ 8)
    (hend : tEnd + dt / 16 ≤ 2 ^ 24 * dt) (interval : ℕ) {e : Execution} (he : e.Valid N) (w : Work ℂ) :
    ∃ m s k, initMatrix sort N 2 (Chain.real (K := ℝ) N 1).neighbors J U = .val m ∧
      real1dRk4F double sinF sort e w N J U dt tEnd interval filling = .val s ∧
      ⌈(tEnd - dt / 16) / dt⌉₊ ≤ k ∧ k ≤ ⌈(tEnd + dt / 16) / dt⌉₊ ∧ s.out.length = k / max interval 1 + 1 ∧
      ∀ {R : Type} [Ring R] [Algebra ℂ R] (C : CAROn N R) (ω : R →ₗ[ℂ] ℂ), QuasiFree C ω (ringCorrelation filling N) →
      ∀ v, IsFlow (N + N * N * N) (fun i j => m.get i j) v →
      ∀ S, (∀ p < N + N * N * N, ∑ q ∈ Finset.range (N + N * N * N), ‖ω (C.basisOp (basis3 N) p * C.basisOpAdj (basis3 N) q)‖ ≤ S) →
      ∀ j < s.out.length, (N + N * N * N) * (N + N * N * N + 1) / 2 + e.threads (j * max interval 1) + 72 ≤ 2 ^ 53 →
        ∃ t x, s.out[j]? = some (t, x) ∧ |t - ((j * max interval 1 : ℕ) : ℝ) * dt| ≤ dt / 16 ∧
        |x - (ω (C.superpose (basis3 N) (N + N * N * N) (v ((j * max interval 1 : ℕ) * dt)) *
            C.superposeAdj (basis3 N) (N + N * N * N) (v ((j * max interval 1 : ℕ) * dt)))).re| ≤
          S * (vectorErrorDouble (dt * (6 * |J| + |U|)) (j * max interval 1) * (2 + vectorErrorDouble (dt * (6 * |J| + |U|)) (j * max interval 1))) +
          ((N + N * N * N) * (N + N * N * N + 1) / 2 + e.threads (j * max interval 1) + 72 : ℕ) / 2 ^ 52 *
            (17 * ((N + N * N * N : ℕ) : ℝ) * (1 + vectorErrorDouble (dt * (6 * |J| + |U|)) (j * max interval 1)) ^ 2) := by
  obtain ⟨m, s, k, h1, h2, h3, h4, h5, h6⟩ := real1dRk4F_correct (sinF := sinF) (filling := filling) (timeRun_double hdt hend)
    ⟨by norm_num, hsin, hf0, hf1⟩ hN hs hJ (by rw [double_opposite, hJ]) (by rw [double_half, hU]) hst interval he w
  refine ⟨m, s, k, h1, h2, h3, h4, h5, fun C ω Q v hv S hS j hj hr => ?_⟩
  obtain ⟨t, x, hx, ht, hb⟩ := h6 C ω Q v hv S hS j hj
  have hS0 : 0 ≤ S := (Finset.sum_nonneg fun _ _ => norm_nonneg _).trans (hS 0 (by omega))
  have hx0 : 0 ≤ dt * (6 * |J| + |U|) := by positivity
  exact ⟨t, x, hx, ht, hb.trans (quadraticErrorF_double hr (by positivity) (by positivity) (vectorErrorF_nonneg (by positivity) _ hx0 _)
    (vectorErrorF_double (by norm_num) hx0 hst (rows_le hdt hend h4 h5 hj)))⟩

/-- **C109, `hubbard_real_1d_kinetic_rk4` in `double` arithmetic**: every number written differs from the filling, the exact value, by at most the given
bound; `S` is a bound on the row sums of the absolute values of the correlations. -/
theorem real1dKineticRk4_double (hN : 3 ≤ N) (hs : IsSort sort) {J filling dt tEnd : ℝ} (hJ : double J = J)
    (hf0 : 0 ≤ filling) (hf1 : filling ≤ 1) (hsin : ∀ x, |sinF x - Real.sin x| ≤ 1 / 2 ^ 53) (hdt : 0 < dt) (hst : (dt * (2 * |J|)) ^ 2 ≤ 8)
    (hend : tEnd + dt / 16 ≤ 2 ^ 24 * dt) (interval : ℕ) {e : Execution} (he : e.ValidKinetic N) (w : Work ℂ) :
    ∃ s k, real1dKineticRk4F double sinF sort e w N J dt tEnd interval filling = .val s ∧
      ⌈(tEnd - dt / 16) / dt⌉₊ ≤ k ∧ k ≤ ⌈(tEnd + dt / 16) / dt⌉₊ ∧ s.out.length = k / max interval 1 + 1 ∧
      ∀ S, (∀ a < N, ∑ b ∈ Finset.range N, |ringCorrelation filling N a b| ≤ S) →
      ∀ j < s.out.length, N * N + e.threads (j * max interval 1) + 72 ≤ 2 ^ 53 →
        ∃ t x, s.out[j]? = some (t, x) ∧ |t - ((j * max interval 1 : ℕ) : ℝ) * dt| ≤ dt / 16 ∧
        |x - filling| ≤ S * (vectorErrorDouble (dt * (2 * |J|)) (j * max interval 1) * (2 + vectorErrorDouble (dt * (2 * |J|)) (j * max interval 1))) +
          (N * N + e.threads (j * max interval 1) + 72 : ℕ) / 2 ^ 52 *
            (2 * (N : ℝ) * (1 + vectorErrorDouble (dt * (2 * |J|)) (j * max interval 1)) ^ 2) := by
  obtain ⟨s, k, h2, h3, h4, h5, h6⟩ := real1dKineticRk4F_correct (sinF := sinF) (filling := filling) (timeRun_double hdt hend)
    ⟨by norm_num, hsin, hf0, hf1⟩ hN hs (J := J) (by rw [double_opposite, hJ]) hst interval he w
  refine ⟨s, k, h2, h3, h4, h5, fun S hS j hj hr => ?_⟩
  obtain ⟨t, x, hx, ht, hb⟩ := h6 S hS j hj
  have hS0 : 0 ≤ S := (Finset.sum_nonneg fun _ _ => abs_nonneg _).trans (hS 0 (by omega))
  have hx0 : 0 ≤ dt * (2 * |J|) := by positivity
  exact ⟨t, x, hx, ht, hb.trans (quadraticErrorF_double hr (by positivity) (by positivity) (vectorErrorF_nonneg (by positivity) _ hx0 _)
    (vectorErrorF_double (by norm_num) hx0 hst (rows_le hdt hend h4 h5 hj)))⟩

/-- **C109, `hubbard_real_1d_rk4_coefficients` in `double` arithmetic**: every coefficient written differs from that of the exact solution by at most
`k (2^-41 + x⁵/120 exp x)` after `k` steps, `x = dt (6 |J| + |U|)`. -/
theorem real1dRk4Coefficients_double (hN : 3 ≤ N) (hs : IsSort sort) {J U dt tEnd : ℝ} (hJ : double J = J) (hU : double U = U)
    (hdt : 0 < dt) (hst : (dt * (6 * |J| + |U|)) ^ 2 ≤ 8) (hend : tEnd + dt / 16 ≤ 2 ^ 24 * dt) (interval : ℕ) (w : Work ℂ) :
    ∃ m s k, initMatrix sort N 2 (Chain.real (K := ℝ) N 1).neighbors J U = .val m ∧
      real1dRk4CoefficientsF double sort w N J U dt tEnd interval = .val s ∧
      ⌈(tEnd - dt / 16) / dt⌉₊ ≤ k ∧ k ≤ ⌈(tEnd + dt / 16) / dt⌉₊ ∧ s.out.length = k / max interval 1 + 1 ∧
      ∀ v, IsFlow (N + N * N * N) (fun i j => m.get i j) v → ∀ j < s.out.length, ∃ t xs,
        s.out[j]? = some (t, xs) ∧ |t - ((j * max interval 1 : ℕ) : ℝ) * dt| ≤ dt / 16 ∧ xs.length = 2 * (N + N * N * N) ∧
        ∀ p < N + N * N * N, ∃ x y, xs[2 * p]? = some x ∧ xs[2 * p + 1]? = some y ∧
          ‖(⟨x, y⟩ : ℂ) - v ((j * max interval 1 : ℕ) * dt) p‖ ≤ vectorErrorDouble (dt * (6 * |J| + |U|)) (j * max interval 1) := by
  obtain ⟨m, s, k, h1, h2, h3, h4, h5, h6⟩ := real1dRk4CoefficientsF_correct (timeRun_double hdt hend) hN hs hJ (by rw [double_opposite, hJ])
    (by rw [double_half, hU]) hst interval w
  refine ⟨m, s, k, h1, h2, h3, h4, h5, fun v hv j hj => ?_⟩
  obtain ⟨t, xs, hx, ht, hl, hb⟩ := h6 v hv j hj
  refine ⟨t, xs, hx, ht, hl, fun p hp => ?_⟩
  obtain ⟨x, y, a, b, c⟩ := hb p hp
  exact ⟨x, y, a, b, c.trans (vectorErrorF_double (by norm_num) (by positivity) hst (rows_le hdt hend h4 h5 hj))⟩

/-- **C109, `hubbard_real_1d_kinetic_rk4_coefficients` in `double` arithmetic.** -/
theorem real1dKineticRk4Coefficients_double (hN : 3 ≤ N) (hs : IsSort sort) {J dt tEnd : ℝ} (hJ : double J = J)
    (hdt : 0 < dt) (hst : (dt * (2 * |J|)) ^ 2 ≤ 8) (hend : tEnd + dt / 16 ≤ 2 ^ 24 * dt) (interval : ℕ) (w : Work ℂ) :
    ∃ s k, real1dKineticRk4CoefficientsF double sort w N J dt tEnd interval = .val s ∧
      ⌈(tEnd - dt / 16) / dt⌉₊ ≤ k ∧ k ≤ ⌈(tEnd + dt / 16) / dt⌉₊ ∧ s.out.length = k / max interval 1 + 1 ∧
      ∀ j < s.out.length, ∃ t xs,
        s.out[j]? = some (t, xs) ∧ |t - ((j * max interval 1 : ℕ) : ℝ) * dt| ≤ dt / 16 ∧ xs.length = 2 * N ∧
        ∀ p < N, ∃ x y, xs[2 * p]? = some x ∧ xs[2 * p + 1]? = some y ∧
          ‖(⟨x, y⟩ : ℂ) - hoppingAmplitude N J ((j * max interval 1 : ℕ) * dt) p‖ ≤ vectorErrorDouble (dt * (2 * |J|)) (j * max interval 1) := by
  obtain ⟨s, k, h2, h3, h4, h5, h6⟩ := real1dKineticRk4CoefficientsF_correct (timeRun_double hdt hend) hN hs (J := J) (by rw [double_opposite, hJ])
    hst interval w
  refine ⟨s, k, h2, h3, h4, h5, fun j hj => ?_⟩
  obtain ⟨t, xs, hx, ht, hl, hb⟩ := h6 j hj
  refine ⟨t, xs, hx, ht, hl, fun p hp => ?_⟩
  obtain ⟨x, y, a, b, c⟩ := hb p hp
  exact ⟨x, y, a, b, c.trans (vectorErrorF_double (by norm_num) (by positivity) hst (rows_le hdt hend h4 h5 hj))⟩

end Programs

/-- The default parameters of the programs meet the hypotheses ... -/
example : double 1 = 1 ∧ (0 : ℝ) < 1 / 100 ∧ ((1 / 100 : ℝ) * (6 * |1| + |1|)) ^ 2 ≤ 8 ∧ (10 : ℝ) + 1 / 100 / 16 ≤ 2 ^ 24 * (1 / 100) ∧
    (10 + 10 * 10 * 10) * (10 + 10 * 10 * 10 + 1) / 2 + 8 + 72 ≤ 2 ^ 53 ∧ ∃ sinF : ℝ → ℝ, ∀ x, |sinF x - Real.sin x| ≤ 1 / 2 ^ 53 := by
  refine ⟨?_, by norm_num, by norm_num, by norm_num, by norm_num, fun x => double (Real.sin x), fun x => ?_⟩
  · have h1 : (2 : ℝ) ^ (-52 + 52 : ℤ) ≤ |1| := by norm_num
    have h2 : |(1 : ℝ)| < (2 : ℝ) ^ (-52 + 53 : ℤ) := by norm_num
    have := double_eq (x := 1) (r := 2 ^ 52) (e := -52) (m := 2 ^ 52) h1 h2 (by norm_num) (.inl (by norm_num))
    rw [this]; norm_num
  · refine (double_err _).trans ?_
    have := Real.abs_sin_le_one x
    have h : (0 : ℝ) < 1 / 2 ^ 53 := by positivity
    nlinarith

/-- ... and after the 1000 steps of the default end time the coefficients are accurate to four digits. -/
example : vectorErrorDouble ((1 / 100 : ℝ) * (6 * |1| + |1|)) 1000 ≤ 2 / 10 ^ 5 := by
  have h : Real.exp ((1 / 100 : ℝ) * (6 * |1| + |1|)) ≤ 2.7182818286 := by
    refine le_trans (Real.exp_le_exp.2 (by norm_num)) Real.exp_one_lt_d9.le
  unfold vectorErrorDouble
  have e : ((1 / 100 : ℝ) * (6 * |1| + |1|)) = 7 / 100 := by norm_num
  rw [e] at h ⊢
  have : (7 / 100 : ℝ) ^ 5 / 120 * Real.exp (7 / 100) ≤ (7 / 100) ^ 5 / 120 * 1.1 := by
    gcongr
    have h1 := Real.exp_bound_div_one_sub_of_interval (x := 7 / 100) (by norm_num) (by norm_num)
    exact h1.trans (by norm_num)
  push_cast
  nlinarith

end Ieompp.Program
