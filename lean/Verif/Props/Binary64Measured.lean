import Verif.Props.Binary64Occupation
import Verif.Props.Binary64Program
import Verif.Props.FormSchur

/-! # C118, third part: the programs that write site occupations, in IEEE binary64 arithmetic -/

set_option autoImplicit false
set_option linter.unusedSectionVars false

namespace Ieompp.IEEE

open Ieompp.Spec ODE RealSpace Program
open MomentumSpace (vecAt)
open ComplexConjugate

/-! ### Binary64 -/

theorem pow_le_three {u : ℝ} {K : ℕ} (hu : 0 ≤ u) (h : K * u ≤ 1) : (1 + u) ^ K ≤ 3 := by
  have := RealSpace.pow_sub_one_le (n := K) hu h
  linarith

/-- The range of binary64: what is used below. -/
theorem binary64_range : (0 : ℝ) ≤ 1 / 2 ^ 1022 ∧ (1 : ℝ) / 2 ^ 1022 ≤ 1 / 2 ^ 200 ∧ (2 : ℝ) ^ 200 ≤ 2 ^ 1023 :=
  ⟨(one_div_pos.2 (pow_pos two_pos _)).le, one_div_le_one_div_of_le (pow_pos two_pos _) (pow_le_pow_right₀ one_le_two (by norm_num)),
    pow_le_pow_right₀ one_le_two (by norm_num)⟩

theorem binary64_machine : ∃ fl, Machine binary64 fl (1 / 2 ^ 53) (1 / 2 ^ 1022) (2 ^ 1023) (2 ^ 53) := by
  obtain ⟨fl, g, a⟩ := exists_function binary64_arithmetic
  obtain ⟨r0, r1, r2⟩ := binary64_range
  exact ⟨fl, g, a, pow_le_three (by norm_num) (by rw [Nat.cast_pow, Nat.cast_ofNat]; norm_num), by norm_num, r1.trans (by norm_num), le_trans (by norm_num) r2⟩

theorem vectorErrorDouble_le {x : ℝ} (hx : 0 ≤ x) (h : x ^ 2 ≤ 8) : 1 + vectorErrorDouble x (2 ^ 24) ≤ 2 ^ 31 := by
  have hx3 : x ≤ 3 := by nlinarith
  have e1 : Real.exp x ≤ 27 := by
    have h1 : Real.exp x ≤ Real.exp 3 := Real.exp_le_exp.2 hx3
    have h2 : Real.exp 3 = Real.exp 1 ^ 3 := by rw [← Real.exp_nat_mul]; norm_num
    have h3 : Real.exp 1 ^ 3 ≤ 3 ^ 3 := pow_le_pow_left₀ (Real.exp_pos 1).le (by linarith [Real.exp_one_lt_d9]) 3
    linarith
  have e2 : x ^ 5 ≤ 3 ^ 5 := pow_le_pow_left₀ hx hx3 5
  have e3 : x ^ 5 / 120 * Real.exp x ≤ 3 ^ 5 / 120 * 27 := by gcongr
  unfold vectorErrorDouble
  rw [Nat.cast_pow, Nat.cast_ofNat]
  linarith

/-- The squared length of a vector as a sum over its entries. -/
theorem sum_ofFn_sq {n : ℕ} (y : Fin n → ℂ) : ∑ i ∈ Finset.range n, ‖(List.ofFn y).getD i 0‖ ^ 2 = norm2 y ^ 2 := by
  rw [norm2_sq]
  unfold normSq2
  rw [← Fin.sum_univ_eq_sum_range (fun i => ‖(List.ofFn y).getD i 0‖ ^ 2) n]
  exact Finset.sum_congr rfl fun i _ => by rw [ofFn_getD]

/-- As `quadratic_close_rows`, with a multiple of the smallest number in the error of the sum. -/
theorem quadratic_close_slack {n : ℕ} {u : ℝ} (hu : 0 ≤ u) {E : ℕ → ℕ → ℝ} {y : Fin n → ℂ} {v : ℕ → ℂ} {ε A T x R : ℝ} {r : ℕ} (hA : 0 ≤ A) (hT : 0 ≤ T)
    (hR : 0 ≤ R) (hr : ∀ i < n, ∑ j ∈ Finset.range n, |E i j| ≤ R) (hc : ∀ j < n, ∑ i ∈ Finset.range n, |E i j| ≤ R)
    (hv : norm2 (fun p : Fin n => v p) ≤ 1) (hy : norm2 (y - fun p : Fin n => v p) ≤ ε)
    (hx : |x - (form n E fun i => (List.ofFn y).getD i 0).re| ≤ ((1 + u) ^ r - 1) * (A * norm2 y ^ 2 + T)) :
    |x - (form n E v).re| ≤ quadraticErrorF u r R (A + T) ε := by
  have hε : 0 ≤ ε := (norm2_nonneg _).trans hy
  have h1 := quadratic_close_rows (x := (form n E fun i => (List.ofFn y).getD i 0).re) (r := 0) hu le_rfl hR hr hc hv hy (by simp)
  have h2 : norm2 y ≤ 1 + ε := by
    have := norm2_add_le (y - fun p : Fin n => v p) (fun p : Fin n => v p)
    rw [sub_add_cancel] at this
    linarith
  have h3 : norm2 y ^ 2 ≤ (1 + ε) ^ 2 := pow_le_pow_left₀ (norm2_nonneg _) h2 2
  have h4 : 0 ≤ (1 + u) ^ r - 1 := sub_nonneg.2 (one_le_pow₀ (by linarith))
  have h5 : A * norm2 y ^ 2 + T ≤ (A + T) * (1 + ε) ^ 2 := by
    have a := mul_le_mul_of_nonneg_left h3 hA
    have b := mul_le_mul_of_nonneg_left (show (1 : ℝ) ≤ (1 + ε) ^ 2 by nlinarith) hT
    linarith [show (A + T) * (1 + ε) ^ 2 = A * (1 + ε) ^ 2 + T * (1 + ε) ^ 2 by ring]
  have h6 := hx.trans (mul_le_mul_of_nonneg_left h5 h4)
  have h7 := abs_sub_le x (form n E fun i => (List.ofFn y).getD i 0).re (form n E v).re
  unfold quadraticErrorF at h1 ⊢
  rw [pow_zero, sub_self, zero_mul, add_zero] at h1
  linarith

/-- The sums of the measurement are far from the ends of the range. -/
theorem occupation_slack {tiny huge Q a b : ℝ} {n c : ℕ} (ht0 : 0 ≤ tiny) (ht : tiny ≤ 1 / 2 ^ 200) (hh : 2 ^ 200 ≤ huge) (hn1 : 1 ≤ n) (hn : n ≤ 2 ^ 53)
    (hc : c ≤ 2 ^ 53) (hQ0 : 0 ≤ Q) (hQ : Q ≤ 2 ^ 62) (ha : a ≤ 17) (hb : b ≤ 68) :
    a * n * Q + b * tiny * (n * n : ℕ) + 2 * (c : ℕ) * tiny ≤ a * n * Q + n ∧ 12 * (a * n * Q + n) ≤ huge := by
  have hn' : (n : ℝ) ≤ 2 ^ 53 := by exact_mod_cast hn
  have hn1' : (1 : ℝ) ≤ n := by exact_mod_cast hn1
  have hc' : (c : ℝ) ≤ 2 ^ 53 := by exact_mod_cast hc
  constructor
  · have h1 : b * tiny * (n * n : ℕ) ≤ 68 * (1 / 2 ^ 200) * (2 ^ 53 * 2 ^ 53) := by
      push_cast
      gcongr
    have h2 : 2 * (c : ℝ) * tiny ≤ 2 * 2 ^ 53 * (1 / 2 ^ 200) := by gcongr
    have h3 : (68 : ℝ) * (1 / 2 ^ 200) * (2 ^ 53 * 2 ^ 53) + 2 * 2 ^ 53 * (1 / 2 ^ 200) ≤ 1 := by norm_num
    linarith
  · refine le_trans ?_ hh
    have h1 : a * n * Q ≤ 17 * 2 ^ 53 * 2 ^ 62 := by gcongr
    have h2 : (12 : ℝ) * (17 * 2 ^ 53 * 2 ^ 62 + 2 ^ 53) ≤ 2 ^ 200 := by norm_num
    linarith

section Programs
variable {N : ℕ} {sort : List (Triplet ℝ) → List (Triplet ℝ)} {sinF : ℝ → ℝ}

theorem le_tri {n : ℕ} (hn : 1 ≤ n) : n ≤ n * (n + 1) / 2 := by
  rw [Nat.le_div_iff_mul_le two_pos]
  exact Nat.mul_le_mul_left n (by omega)

theorem twelve_le {N : ℕ} (h : N ≤ 2 ^ 53) : 12 * (N : ℝ) ≤ 2 ^ 1023 := by
  have h1 : (N : ℝ) ≤ 2 ^ 53 := by exact_mod_cast h
  refine le_trans ?_ binary64_range.2.2
  have : (12 : ℝ) * 2 ^ 53 ≤ 2 ^ 200 := by norm_num
  linarith

/-- **C118, `hubbard_real_1d_rk4`.** In IEEE binary64 arithmetic, with gradual underflow and overflow: neither an infinity nor a NaN comes up in the run, and
every number written differs from the exact expectation value `⟨A(t) A(t)†⟩` by at most `S ε (2 + ε) + r 2^-52 18 n (1 + ε)²`, where `n = N + N³`,
`ε = k (2^-41 + x⁵/120 exp x)` after `k` steps, `x = dt (6 |J| + |U|)`, `S` a bound on the sums, for one operator of the basis, of the absolute values of its
expectation values with all operators of the basis, and `r` the number of the terms of the sum plus the number of threads plus 72. -/
theorem real1dRk4_binary64 (hN : 3 ≤ N) (hs : IsSort sort) {J U filling dt tEnd : ℝ} (hJ : IsBinary64 J) (hU : IsBinary64 U)
    (hU' : U = 0 ∨ 1 / 2 ^ 1021 ≤ |U|) (hf0 : 0 ≤ filling) (hf1 : filling ≤ 1) (hsin : ∀ x, |sinF x - Real.sin x| ≤ 1 / 2 ^ 53)
    (hdt1 : 1 / 2 ^ 1000 ≤ dt) (hdt2 : dt ≤ 2 ^ 900) (hst : (dt * (6 * |J| + |U|)) ^ 2 ≤ 8)
    (hend : tEnd + dt / 16 ≤ 2 ^ 24 * dt) (interval : ℕ) {e : Execution} (he : e.Valid N)
    (hthreads : ∀ k, (N + N * N * N) * (N + N * N * N + 1) / 2 + e.threads k + 72 ≤ 2 ^ 53) (w : Work ℂ) :
    ∃ m s k, initMatrix sort N 2 (Chain.real (K := ℝ) N 1).neighbors J U = .val m ∧
      real1dRk4R binary64 sinF sort e w N J U dt tEnd interval filling = .val s ∧
      ⌈(tEnd - dt / 16) / dt⌉₊ ≤ k ∧ k ≤ ⌈(tEnd + dt / 16) / dt⌉₊ ∧ s.out.length = k / max interval 1 + 1 ∧
      ∀ {R : Type} [Ring R] [Algebra ℂ R] (C : CAROn N R) (ω : R →ₗ[ℂ] ℂ), QuasiFree C ω (ringCorrelation filling N) →
      ∀ v, IsFlow (N + N * N * N) (fun i j => m.get i j) v →
      ∀ S, (∀ p < N + N * N * N, ∑ q ∈ Finset.range (N + N * N * N), ‖ω (C.basisOp (basis3 N) p * C.basisOpAdj (basis3 N) q)‖ ≤ S) →
      ∀ j < s.out.length, ∃ t x, s.out[j]? = some (t, x) ∧ |t - ((j * max interval 1 : ℕ) : ℝ) * dt| ≤ dt / 16 ∧
        |x - (ω (C.superpose (basis3 N) (N + N * N * N) (v ((j * max interval 1 : ℕ) * dt)) *
            C.superposeAdj (basis3 N) (N + N * N * N) (v ((j * max interval 1 : ℕ) * dt)))).re| ≤
          S * (vectorErrorDouble (dt * (6 * |J| + |U|)) (j * max interval 1) * (2 + vectorErrorDouble (dt * (6 * |J| + |U|)) (j * max interval 1))) +
          ((N + N * N * N) * (N + N * N * N + 1) / 2 + e.threads (j * max interval 1) + 72 : ℕ) / 2 ^ 52 *
            (18 * ((N + N * N * N : ℕ) : ℝ) * (1 + vectorErrorDouble (dt * (6 * |J| + |U|)) (j * max interval 1)) ^ 2) := by
  have hn53 : N + N * N * N ≤ 2 ^ 53 := by
    have := le_tri (n := N + N * N * N) (by omega)
    have := hthreads 0
    omega
  have hn : N + N * N * N < 2 ^ 64 := lt_of_le_of_lt hn53 (by norm_num)
  obtain ⟨d0, -, -, -, d5, d6, -⟩ := binary64_scales hn hdt1 hdt2
  obtain ⟨fl, M⟩ := binary64_machine
  obtain ⟨r0, r1, r2⟩ := binary64_range
  have hsz := (realBasis_size N).2
  obtain ⟨m, h1, S⟩ := setting3 (fl := id) identity_rounding hN hs (J := J) (U := U) (dt := dt) d0 rfl rfl rfl hst
  have SR := settingR_of S (by norm_num) hn hdt1 hdt2
  have hreg := chain_regular (Chain.Constructed.real (N := N) (1 : ℝ) (by omega) rfl) hN
  have hI : timesIR binary64 m = .val (timesI m) := timesIR_eq binary64_zero fun r hr e he => by
    obtain ⟨i, hi, t, ht, hv⟩ := mem_done (initMatrix_done hreg sort J U h1) r hr e he
    rcases rowList_values J U hi t ((hs _).1.mem_iff.1 ht) with h | h | h <;> rw [hv, h]
    · exact binary64_exact hJ
    · exact binary64_exact hJ.neg
    · exact binary64_exact (hU.half hU')
  have hx0 : 0 ≤ dt * (6 * |J| + |U|) := by positivity
  obtain ⟨s0, s1, -⟩ := slack_small (n := N + N * N * N) (z := 8) (by norm_num) r0 d0 d5 hdt2 d6
  have hE : ∀ k ≤ 2 ^ 24, vectorErrorR (1 / 2 ^ 53) 8 (dt * (6 * |J| + |U|)) (stepSlack dt (rowSlack 8 (1 / 2 ^ 1022) * Real.sqrt (N + N * N * N : ℕ))
      (slack (N + N * N * N) (1 / 2 ^ 1022))) k ≤ vectorErrorDouble (dt * (6 * |J| + |U|)) k :=
    fun k hk => vectorErrorR_binary64 le_rfl hx0 hst s0 s1 hk
  have hc : getConjugate e.conjugation (basis3 N) = conjOf (basis3 N) := parallelModify_eq_map _ _ _ he.conjugation
  obtain ⟨kf, -⟩ := fermiMomentum1DR_ok M (by norm_num) hf0 hf1
  obtain ⟨values, e1, ev, hev, htab⟩ := tableR_ok M (by norm_num) hsin (N := N) (by omega) (twelve_le (by omega)) hf0 hf1 he.table
  obtain ⟨E', hW⟩ := weightsR_ok M (by norm_num) (ev := ringCorrelation filling N) (ev' := ev) htab
  set n := N + N * N * N with hn'
  set E : ℕ → ℕ → ℝ := weight (ringCorrelation filling N) (basis3 N) with hEd
  have hsymE : ∀ i < n, ∀ j < n, E i j = E j i := weight_symm fun a _ b _ => ringCorrelation_symm filling N a b
  obtain ⟨h, s, k, i1, i2, i3, i4, i5, i6⟩ := SR.simulate binary64_arithmetic (tEnd := tEnd) (by rw [Nat.cast_pow, Nat.cast_ofNat]; exact hend) (interval := interval)
    (meas := fun s => (siteOccupation3R binary64 (siteEv ev) (basis3 N) (conjOf (basis3 N)) s.2.2 (e.threads s.1) (e.loop1 s.1)
      (e.loop2 s.1) (e.loop3 s.1)).map fun x => (s, x))
    (fun k y x => |x - (form n E fun i => (List.ofFn y).getD i 0).re| ≤
      ((1 + 1 / 2 ^ 53) ^ (n * (n + 1) / 2 + e.threads k + 72) - 1) * (17 * (n : ℝ) * norm2 y ^ 2 + n)) (by
      intro k w y hy
      have hy1 : norm2 y ≤ 2 ^ 31 := hy.trans (le_trans (by linarith [hE (2 ^ 24) le_rfl]) (vectorErrorDouble_le hx0 hst))
      have hy2 : norm2 y ^ 2 ≤ 2 ^ 62 := (pow_le_pow_left₀ (norm2_nonneg _) hy1 2).trans (by norm_num)
      have l2 := he.loop2 k
      have l3 := he.loop3 k
      rw [hsz] at l2 l3
      have ht := hthreads k
      obtain ⟨b1, b2⟩ := occupation_slack (Q := norm2 y ^ 2) (n := n) (c := n * (n + 1) / 2 + e.threads k) (a := 17) (b := 68) r0 r1 r2 (by omega) hn53
        (by omega) (by positivity) hy2 le_rfl le_rfl
      obtain ⟨x, hx, hx'⟩ := siteOccupation3R_close M hW (by omega) (vec := List.ofFn y) List.length_ofFn hsymE (he.loop1 k) l2 l3 (by omega)
        (S := 17 * (n : ℝ) * norm2 y ^ 2 + n) (by rw [sum_ofFn_sq]; exact b1) b2
      refine ⟨x, ?_, ?_⟩
      · show Res.map _ (siteOccupation3R binary64 (siteEv ev) (basis3 N) (conjOf (basis3 N)) (List.ofFn y) (e.threads k) (e.loop1 k) (e.loop2 k) (e.loop3 k)) = _
        rw [hx]; rfl
      · have er : 3 * 20 + 7 + 5 + n * (n + 1) / 2 + e.threads k = n * (n + 1) / 2 + e.threads k + 72 := by omega
        rw [er] at hx'
        exact hx') w
  refine ⟨m, s, k, h1, ?_, i3, i4, i5, ?_⟩
  · unfold real1dRk4R
    have h2U : 2 * (U / 2) = U := by ring
    simp only [kf, e1, binary64_exact (hU.half hU'), h2U, h1, Res.bind_val, hI, hsz, i1, hc, hev]
    exact i2
  · intro R _ _ C ω Q v hv B hB j hj
    obtain ⟨t, x, hx, htt, y, hP, hy⟩ := i6 j hj
    have hw : ∀ p < n, ∀ q < n, ω (C.basisOp (basis3 N) p * C.basisOpAdj (basis3 N) q) = (E p q : ℂ) := fun p hp q hq =>
      weight_state Q hp hq
    refine ⟨t, x, hx, htt, ?_⟩
    have hrow : ∀ p < n, ∑ q ∈ Finset.range n, |E p q| ≤ B := fun p hp => by
      refine le_of_eq_of_le (Finset.sum_congr rfl fun q hq => ?_) (hB p hp)
      rw [hw p hp q (Finset.mem_range.1 hq), Complex.norm_real, Real.norm_eq_abs]
    have hB0 : 0 ≤ B := (Finset.sum_nonneg fun _ _ => norm_nonneg _).trans (hB 0 (by omega))
    rw [state_superpose C ω _ n _ E hw]
    have hε := (norm2_nonneg _).trans (hy v hv)
    have hq := quadratic_close_slack (by positivity) (by positivity) (by positivity) hB0 hrow (fun q hq => by
      rw [Finset.sum_congr rfl fun p hp => by rw [hsymE p (Finset.mem_range.1 hp) q hq]]
      exact hrow q hq) (flow_norm2 S.pos S.symm hv _) (hy v hv) hP
    rw [show 17 * (n : ℝ) + n = 18 * n by ring] at hq
    exact hq.trans (quadraticErrorF_double (hthreads _) hB0 (by positivity) hε (hE _ (rows_le d0 hend i4 i5 hj)))

/-- **C118, `hubbard_real_1d_kinetic_rk4`**: every number written differs from the filling by at most the given bound. -/
theorem real1dKineticRk4_binary64 (hN : 3 ≤ N) (hs : IsSort sort) {J filling dt tEnd : ℝ} (hJ : IsBinary64 J)
    (hf0 : 0 ≤ filling) (hf1 : filling ≤ 1) (hsin : ∀ x, |sinF x - Real.sin x| ≤ 1 / 2 ^ 53)
    (hdt1 : 1 / 2 ^ 1000 ≤ dt) (hdt2 : dt ≤ 2 ^ 900) (hst : (dt * (2 * |J|)) ^ 2 ≤ 8)
    (hend : tEnd + dt / 16 ≤ 2 ^ 24 * dt) (interval : ℕ) {e : Execution} (he : e.ValidKinetic N)
    (hthreads : ∀ k, N * N + e.threads k + 72 ≤ 2 ^ 53) (w : Work ℂ) :
    ∃ s k, real1dKineticRk4R binary64 sinF sort e w N J dt tEnd interval filling = .val s ∧
      ⌈(tEnd - dt / 16) / dt⌉₊ ≤ k ∧ k ≤ ⌈(tEnd + dt / 16) / dt⌉₊ ∧ s.out.length = k / max interval 1 + 1 ∧
      ∀ S, (∀ a < N, ∑ b ∈ Finset.range N, |ringCorrelation filling N a b| ≤ S) →
      ∀ j < s.out.length, ∃ t x, s.out[j]? = some (t, x) ∧ |t - ((j * max interval 1 : ℕ) : ℝ) * dt| ≤ dt / 16 ∧
        |x - filling| ≤ S * (vectorErrorDouble (dt * (2 * |J|)) (j * max interval 1) * (2 + vectorErrorDouble (dt * (2 * |J|)) (j * max interval 1))) +
          (N * N + e.threads (j * max interval 1) + 72 : ℕ) / 2 ^ 52 *
            (3 * (N : ℝ) * (1 + vectorErrorDouble (dt * (2 * |J|)) (j * max interval 1)) ^ 2) := by
  have hn53 : N ≤ 2 ^ 53 := by
    have : N ≤ N * N := Nat.le_mul_self N
    have := hthreads 0
    omega
  have hn : N < 2 ^ 64 := lt_of_le_of_lt hn53 (by norm_num)
  obtain ⟨d0, -, -, -, d5, d6, -⟩ := binary64_scales hn hdt1 hdt2
  obtain ⟨fl, M⟩ := binary64_machine
  obtain ⟨r0, r1, r2⟩ := binary64_range
  have hu := M.nonneg
  have hsz := (realBasis_size N).1
  obtain ⟨m, h1, S⟩ := setting1 (fl := id) identity_rounding hN hs (J := J) (dt := dt) d0 rfl hst
  have SR := settingR_of S (by norm_num) hn hdt1 hdt2
  have hI : timesIR binary64 m = .val (timesI m) := timesIR_eq binary64_zero fun r hr e he => by
    obtain ⟨i, hi, t, ht, hv⟩ := mem_done (initKineticMatrix_done sort J h1) r hr e he
    have := (hs _).1.mem_iff.1 ht
    simp only [kineticTriplets, List.mem_map] at this
    obtain ⟨_, _, rfl⟩ := this
    rw [hv]; exact binary64_exact hJ.neg
  have hx0 : 0 ≤ dt * (2 * |J|) := by positivity
  obtain ⟨s0, s1, -⟩ := slack_small (n := N) (z := 2) (by norm_num) r0 d0 d5 hdt2 d6
  have hE : ∀ k ≤ 2 ^ 24, vectorErrorR (1 / 2 ^ 53) 2 (dt * (2 * |J|)) (stepSlack dt (rowSlack 2 (1 / 2 ^ 1022) * Real.sqrt (N : ℕ))
      (slack N (1 / 2 ^ 1022))) k ≤ vectorErrorDouble (dt * (2 * |J|)) k :=
    fun k hk => vectorErrorR_binary64 (by norm_num) hx0 hst s0 s1 hk
  have hc : getConjugate e.conjugation (basis1 N) = conjOf (basis1 N) := parallelModify_eq_map _ _ _ he.conjugation
  have hg : ∀ i < N, (basis1 N)[i]? = some (Spec.one i) := fun i hi => ((realBasis_getElem N).1 i hi).1
  obtain ⟨kf, -⟩ := fermiMomentum1DR_ok M (by norm_num) hf0 hf1
  obtain ⟨values, e1, ev, hev, htab⟩ := tableR_ok M (by norm_num) hsin (N := N) (by omega) (twelve_le hn53) hf0 hf1 he.table
  have hcoef : ∀ i < N, ∀ j < N, ∃ x, evAt (basis1 N) (conjOf (basis1 N)) (ev11R binary64 (siteEv ev)) i j = .val x ∧
      ApproxR (1 / 2 ^ 53) 67 x (2 * ringCorrelation filling N i j) (2 * 1) := by
    intro i hi j hj
    obtain ⟨x, hx, -, p⟩ := coefficient_11 M (L := 20) (by norm_num) (htab i hi j hj)
    refine ⟨x, ?_, by rw [mul_one]; exact p⟩
    rw [evAt, vecAt_get (hg i hi), vecAt_get (conj_get (hg j hj))]; exact hx
  choose! E' hE' using hcoef
  obtain ⟨v, hv⟩ := flow_exists N fun i j => m.get i j
  obtain ⟨h, s, k, i1, i2, i3, i4, i5, i6⟩ := SR.simulate binary64_arithmetic (tEnd := tEnd) (by rw [Nat.cast_pow, Nat.cast_ofNat]; exact hend) (interval := interval)
    (meas := fun s => (siteOccupation1R binary64 (siteEv ev) (basis1 N) (conjOf (basis1 N)) s.2.2 (e.threads s.1) (e.loop1 s.1)).map fun x => (s, x))
    (fun k y x => |x - (form N (ringCorrelation filling N) fun i => (List.ofFn y).getD i 0).re| ≤
      ((1 + 1 / 2 ^ 53) ^ (N * N + e.threads k + 72) - 1) * (2 * (N : ℝ) * norm2 y ^ 2 + N)) (by
      intro k w y hy
      have hy1 : norm2 y ≤ 2 ^ 31 := hy.trans (le_trans (by linarith [hE (2 ^ 24) le_rfl]) (vectorErrorDouble_le hx0 hst))
      have hy2 : norm2 y ^ 2 ≤ 2 ^ 62 := (pow_le_pow_left₀ (norm2_nonneg _) hy1 2).trans (by norm_num)
      have l1 := he.loop1 k
      rw [hsz] at l1
      have ht := hthreads k
      obtain ⟨b1, b2⟩ := occupation_slack (Q := norm2 y ^ 2) (n := N) (c := N * N + e.threads k) (a := 2) (b := 4) r0 r1 r2 (by omega) hn53
        (by omega) (by positivity) hy2 (by norm_num) (by norm_num)
      obtain ⟨x, hx, hx'⟩ := siteOccupation1R_close M hE' (vec := List.ofFn y) List.length_ofFn l1 (by omega)
        (S := 2 * (N : ℝ) * norm2 y ^ 2 + N) (by rw [sum_ofFn_sq]; exact b1) b2
      refine ⟨x, ?_, ?_⟩
      · show Res.map _ (siteOccupation1R binary64 (siteEv ev) (basis1 N) (conjOf (basis1 N)) (List.ofFn y) (e.threads k) (e.loop1 k)) = _
        rw [hx]; rfl
      · have er : 67 + 5 + N * N + e.threads k = N * N + e.threads k + 72 := by omega
        rw [er] at hx'
        exact hx') w
  refine ⟨s, k, ?_, i3, i4, i5, ?_⟩
  · unfold real1dKineticRk4R
    simp only [kf, e1, h1, Res.bind_val, hI, hsz, i1, hc, hev]
    exact i2
  · intro B hB j hj
    obtain ⟨t, x, hx, htt, y, hP, hy⟩ := i6 j hj
    refine ⟨t, x, hx, htt, ?_⟩
    have hB0 : 0 ≤ B := (Finset.sum_nonneg fun _ _ => abs_nonneg _).trans (hB 0 (by omega))
    have hε := (norm2_nonneg _).trans (hy v hv)
    have hq := quadratic_close_slack hu (by positivity) (by positivity) hB0 hB (fun q hq => by
      rw [Finset.sum_congr rfl fun p _ => by rw [ringCorrelation_symm filling N p q]]
      exact hB q hq) (flow_norm2 S.pos S.symm hv _) (hy v hv) hP
    rw [kinetic_form hN hs h1 hv, Complex.ofReal_re, show 2 * (N : ℝ) + N = 3 * N by ring] at hq
    exact hq.trans (quadraticErrorF_double (hthreads _) hB0 (by positivity) hε (hE _ (rows_le d0 hend i4 i5 hj)))

end Programs

end Ieompp.IEEE

namespace Ieompp.IEEE

open Ieompp.Spec ODE RealSpace Program

/-- The hypotheses can be met: ten sites and sixteen threads; every execution on one thread is valid. -/
example (N : ℕ) : (10 + 10 * 10 * 10) * (10 + 10 * 10 * 10 + 1) / 2 + 16 + 72 ≤ 2 ^ 53 ∧ (∃ e : Execution, e.Valid N ∧ ∀ k, e.threads k = 1) ∧
    (∃ e : Execution, e.ValidKinetic N ∧ ∀ k, e.threads k = 1) ∧ IsBinary64 1 ∧ ((1 / 100 : ℝ) * (6 * |1| + |1|)) ^ 2 ≤ 8 ∧
    ∃ sinF : ℝ → ℝ, ∀ x, |sinF x - Real.sin x| ≤ 1 / 2 ^ 53 :=
  ⟨by norm_num, ⟨⟨List.range _, List.range' 1 (N / 2), fun _ => 1, fun _ => (loopA true N).map fun p => (0, p),
    fun _ => (loopB N (basis3 N).length).map fun p => (0, p), fun _ => (loopC true N (basis3 N).length).map fun p => (0, p)⟩,
    ⟨List.Perm.refl _, List.Perm.refl _, fun _ => executes_sequential _, fun _ => executes_sequential _, fun _ => executes_sequential _⟩, fun _ => rfl⟩,
    ⟨⟨List.range _, List.range' 1 (N / 2), fun _ => 1, fun _ => (RealSpace.loop1 (basis1 N).length).map fun p => (0, p), fun _ => [], fun _ => []⟩,
    ⟨List.Perm.refl _, List.Perm.refl _, fun _ => executes_sequential _⟩, fun _ => rfl⟩, isBinary64_one, by norm_num, Real.sin, fun x => by simp⟩

end Ieompp.IEEE
