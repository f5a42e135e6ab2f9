import Verif.Props.MomentumRows
import Verif.Props.ProgramFloat

/-!
# C63: when `hubbard_momentum_1d_rk4` prints the particle number, and by how much it is wrong otherwise
-/

set_option autoImplicit false
set_option linter.unusedSectionVars false

namespace Ieompp.Program

open Ieompp.Spec MomentumSpace ODE ComplexConjugate

/-- The error of the Runge–Kutta method in the Euclidean norm, within the stability limit. -/
theorem steps_error_norm2 {n : ℕ} (hn : 1 ≤ n) (m : ℕ → ℕ → ℝ) (B dt : ℝ) (hB : 0 ≤ B) (hdt : 0 ≤ dt) (hst : (dt * B) ^ 2 ≤ 8)
    (hsym : ∀ i < n, ∀ j < n, m i j = m j i) (hM : ∀ i < n, ∑ j ∈ Finset.range n, |m i j| ≤ B) {v : ℝ → ℕ → ℂ} (hv : IsFlow n m v) (k : ℕ) :
    norm2 (((exp4 (dt : ℂ) (mat n fun i j => Complex.I * (m i j : ℂ)) ^ k).mulVec fun p : Fin n => if (p : ℕ) = 0 then 1 else 0)
      - fun p : Fin n => v (k * dt) p) ≤ k * ((dt * B) ^ 5 / 120) := by
  have h0 : (fun p : Fin n => v 0 p) = fun p : Fin n => if (p : ℕ) = 0 then 1 else 0 := by
    funext p; exact hv.start p p.2
  have hflow : ∀ t, HasDerivAt (fun t (p : Fin n) => v t p) ((gen n m).mulVec fun p => v t p) t := fun t =>
    hasDerivAt_pi.2 fun p => by
      refine (hv.flow t p p.2).congr_deriv ?_
      rw [Finset.mul_sum, ← Fin.sum_univ_eq_sum_range (fun q => Complex.I * ((m p q : ℂ) * v t q)) n]
      refine Finset.sum_congr rfl fun j _ => ?_
      show _ = Complex.I * (m p j : ℂ) * v t j
      rw [mul_assoc]
  have h := rk4_linear_error m hsym B hB hM hflow 1 (fun t => by rw [← norm2_eq]; exact flow_norm2 hn hsym hv t) hdt hst k
  rw [h0, ← norm2_eq, mul_one] at h
  exact h

/-- C63 within the stability limit: the error of the second number is the one of the coefficients times the largest row sum of the table. -/
theorem momentum1dRk4_sharp_partial (N : ℕ) (hN : 0 < N) (J U : ℝ) {dt : ℝ} (hdt : 0 ≤ dt) (hst : (dt * (6 * |J| + (N + 1) / 2 * |U|)) ^ 2 ≤ 8) (w : Work ℂ)
    {conjugation energies : List ℕ} (hc : conjugation.Perm (List.range (N * N + 1))) (he : energies.Perm (List.range N)) :
    ∃ second m, momentum1dRk4 conjugation energies w N J U dt = .val ((if bandEnergy N J (N / 2) < 0 then 1 else 0), second) ∧
      initMatrix (Spec.entries N (N / 2)) N (bandEnergy N J) U N = .val m ∧
      ∀ v, IsFlow (N * N + 1) (fun i j => m.get i j) v →
        |second - (seaNumber 1 (fermiSea N J) (Spec.entries N (N / 2)) (v (8 * dt))).re| ≤ momentumError N (dt * (6 * |J| + (N + 1) / 2 * |U|)) := by
  have hq : N / 2 < N := Nat.div_lt_self hN (by norm_num)
  obtain ⟨second, m, e1, -, m1, hsym, e3⟩ := momentum1dRk4_value N hN J U dt w hc he
  refine ⟨second, m, e1, m1, fun v hv => ?_⟩
  have hB : 0 ≤ 6 * |J| + ((N : ℝ) + 1) / 2 * |U| := by positivity
  have hrow : ∀ i < N * N + 1, ∑ j ∈ Finset.range (N * N + 1), |m.get i j| ≤ 6 * |J| + ((N : ℝ) + 1) / 2 * |U| := by
    intro i hi
    have := momentum_row_sum (bandEnergy N J) U hN hq (2 * |J|) (fun k _ => bandEnergy_abs_le N J k) m1 hi
    linarith
  have hy := steps_error_norm2 (by omega) (fun i j => m.get i j) _ dt hB hdt hst hsym hrow hv 8
  rw [Nat.cast_ofNat] at hy
  have hform := form_sea hq (fermiSea N J) 1 (Or.inl rfl) (v (8 * dt))
  rw [Complex.ofReal_one] at hform
  rw [e3, ← hform, ← Complex.sub_re]
  refine (Complex.abs_re_le_norm _).trans (form_error_rows _ (R := 9 * (N : ℝ) + 3) (fun i hi => seaValue_rows (fermiSea N J) hq hi) (fun j hj => ?_) _ _
    (by positivity) (flow_norm2 (by omega) hsym hv _) ?_)
  · refine le_of_eq_of_le (Finset.sum_congr rfl fun i hi => ?_) (seaValue_rows (fermiSea N J) hq hj)
    rw [seaValue_symm 1 hq (Finset.mem_range.1 hi) hj]
  · refine le_of_eq_of_le ?_ hy
    congr 1
    funext p
    rw [ofFn_getD]
    rfl

/-- The momentum `N/2` is occupied in the Fermi sea exactly if the hopping is positive. -/
theorem bandEnergy_half {N : ℕ} (hN : 2 ≤ N) (J : ℝ) : bandEnergy N J (N / 2) < 0 ↔ 0 < J := by
  have hN' : (2 : ℝ) ≤ N := by exact_mod_cast hN
  have hpi := Real.pi_pos
  have hdiv : ((N / 2 : ℕ) : ℝ) = (N - (N % 2 : ℕ)) / 2 := by
    have : (2 : ℝ) * (N / 2 : ℕ) + (N % 2 : ℕ) = N := by exact_mod_cast Nat.div_add_mod N 2
    linarith
  have hmod : ((N % 2 : ℕ) : ℝ) = 0 ∨ (((N % 2 : ℕ) : ℝ) = 1 ∧ (3 : ℝ) ≤ N) := by
    rcases Nat.mod_two_eq_zero_or_one N with h | h
    · left; rw [h]; norm_num
    · right; rw [h]; exact ⟨by norm_num, by exact_mod_cast (by omega : 3 ≤ N)⟩
  have hcos : 0 < Real.cos (latticeMomentum N (N / 2)) := by
    apply Real.cos_pos_of_mem_Ioo
    have e : latticeMomentum N (N / 2) = -(((N % 2 : ℕ) : ℝ) * Real.pi / N) := by
      unfold latticeMomentum
      rw [hdiv]
      have : (N : ℝ) ≠ 0 := by linarith
      field_simp
      ring
    rw [e]
    rcases hmod with h | ⟨h, h3⟩
    · rw [h]; constructor <;> simp <;> linarith
    · rw [h, one_mul]
      have h4 : Real.pi / N ≤ Real.pi / 3 := div_le_div_of_nonneg_left hpi.le (by norm_num) h3
      have h5 : 0 < Real.pi / N := by positivity
      constructor <;> linarith
  unfold bandEnergy
  constructor
  · intro h
    by_contra hJ
    nlinarith
  · intro h
    nlinarith

/-- With a single momentum it is occupied exactly if the hopping is negative. -/
theorem bandEnergy_half_one (J : ℝ) : bandEnergy 1 J (1 / 2) < 0 ↔ J < 0 := by
  rw [show (1 : ℕ) / 2 = 0 from rfl, bandEnergy_one]
  constructor <;> intro h <;> linarith

section
variable (N : ℕ) (hN : 0 < N) (J U : ℝ) {dt : ℝ} (hdt : 0 ≤ dt) (hst : (dt * (6 * |J| + (N + 1) / 2 * |U|)) ^ 2 ≤ 8) (w : Work ℂ)
    {conjugation energies : List ℕ} (hc : conjugation.Perm (List.range (N * N + 1))) (he : energies.Perm (List.range N))
include hN hdt hst hc he

/-- C63, exact error: what the program prints is the particle number plus `2 ν (U t)²`, `t = 8 dt` and `ν` the filling, if the momentum is occupied initially. -/
theorem momentum1dRk4_excess (hb : bandEnergy N J (N / 2) < 0) :
    ∃ second m, momentum1dRk4 conjugation energies w N J U dt = .val (1, second) ∧
      initMatrix (Spec.entries N (N / 2)) N (bandEnergy N J) U N = .val m ∧
      ∀ v, IsFlow (N * N + 1) (fun i j => m.get i j) v →
        |second - (seaNumber (-1) (fermiSea N J) (Spec.entries N (N / 2)) (v (8 * dt))).re -
            2 * (((Finset.range N).filter fun b => bandEnergy N J b < 0).card / N) * (U * (8 * dt)) ^ 2| ≤
          momentumError N (dt * (6 * |J| + (N + 1) / 2 * |U|)) +
            ((U * (8 * dt)) ^ 4 / 6 + |U * (8 * dt)| ^ 5 / 160 + 5 * (2 * |J| * (8 * dt)) / 12 * |U * (8 * dt)| ^ 3) := by
  have hq : N / 2 < N := Nat.div_lt_self hN (by norm_num)
  obtain ⟨second, m, e1, m1, e2⟩ := momentum1dRk4_sharp_partial N hN J U hdt hst w hc he
  rw [if_pos hb] at e1
  refine ⟨second, m, e1, m1, fun v hv => ?_⟩
  have h1 := e2 v hv
  have h2 := seaNumber_error hN hq (fun k _ => bandEnergy_abs_le N J k) m1 hv (FS := fermiSea N J) ((mem_fermiSea hq true).2 hb) (t := 8 * dt) (by positivity)
  have hf : ((Finset.range N).filter fun b => dn b ∈ fermiSea N J) = (Finset.range N).filter fun b => bandEnergy N J b < 0 :=
    Finset.filter_congr fun k hk => mem_fermiSea (Finset.mem_range.1 hk) false
  rw [hf] at h2
  have h3 := abs_add_le (second - (seaNumber 1 (fermiSea N J) (Spec.entries N (N / 2)) (v (8 * dt))).re)
    ((seaNumber 1 (fermiSea N J) (Spec.entries N (N / 2)) (v (8 * dt))).re - (seaNumber (-1) (fermiSea N J) (Spec.entries N (N / 2)) (v (8 * dt))).re -
            2 * (((Finset.range N).filter fun b => bandEnergy N J b < 0).card / N) * (U * (8 * dt)) ^ 2)
  rw [show ∀ a b c d : ℝ, a - b + (b - c - d) = a - c - d from fun a b c d => by ring] at h3
  exact h3.trans (add_le_add h1 h2)

/-- C63, the positive part: if the momentum is empty initially, or without interaction, the second number is the particle number of the exact evolution, up to
the error of the Runge–Kutta method. -/
theorem momentum1dRk4_right (hb : ¬ bandEnergy N J (N / 2) < 0 ∨ U = 0) :
    ∃ second m, momentum1dRk4 conjugation energies w N J U dt = .val ((if bandEnergy N J (N / 2) < 0 then 1 else 0), second) ∧
      initMatrix (Spec.entries N (N / 2)) N (bandEnergy N J) U N = .val m ∧
      ∀ v, IsFlow (N * N + 1) (fun i j => m.get i j) v →
        |second - (seaNumber (-1) (fermiSea N J) (Spec.entries N (N / 2)) (v (8 * dt))).re| ≤ momentumError N (dt * (6 * |J| + (N + 1) / 2 * |U|)) := by
  have hq : N / 2 < N := Nat.div_lt_self hN (by norm_num)
  by_cases hb' : bandEnergy N J (N / 2) < 0
  · have hU : U = 0 := hb.resolve_left fun h => h hb'
    obtain ⟨second, m, e1, m1, e2⟩ := momentum1dRk4_excess N hN J U hdt hst w hc he hb'
    refine ⟨second, m, by rw [if_pos hb']; exact e1, m1, fun v hv => ?_⟩
    have := e2 v hv
    rw [hU] at this ⊢
    simpa using this
  · obtain ⟨second, m, e1, m1, e2⟩ := momentum1dRk4_sharp_partial N hN J U hdt hst w hc he
    refine ⟨second, m, e1, m1, fun v hv => ?_⟩
    rw [← seaNumber_empty hq _ fun h => hb' ((mem_fermiSea hq true).1 h)]
    exact e2 v hv

end

/-- **C63 refuted for all occupied momenta**: with `U ≠ 0` and the momentum `N/2` in the Fermi sea, for every small enough step width the printed number
exceeds the particle number of the exact evolution by at least `(8 U dt)²/N`. The error does not vanish with a higher order of the method. -/
theorem momentum1dRk4_occupied_wrong (N : ℕ) (hN : 0 < N) (J : ℝ) {U : ℝ} (hU : U ≠ 0) (hb : bandEnergy N J (N / 2) < 0) :
    ∃ τ > 0, ∀ dt, 0 < dt → dt < τ → ∀ (w : Work ℂ) (conjugation energies : List ℕ), conjugation.Perm (List.range (N * N + 1)) → energies.Perm (List.range N) →
      ∃ second m, momentum1dRk4 conjugation energies w N J U dt = .val (1, second) ∧
        initMatrix (Spec.entries N (N / 2)) N (bandEnergy N J) U N = .val m ∧
        ∀ v, IsFlow (N * N + 1) (fun i j => m.get i j) v →
          (seaNumber (-1) (fermiSea N J) (Spec.entries N (N / 2)) (v (8 * dt))).re + (8 * U * dt) ^ 2 / N ≤ second := by
  have hq : N / 2 < N := Nat.div_lt_self hN (by norm_num)
  have hU' : 0 < |U| := abs_pos.2 hU
  have hN' : (0 : ℝ) < N := by exact_mod_cast hN
  obtain ⟨B, hB⟩ : ∃ B, B = 6 * |J| + ((N : ℝ) + 1) / 2 * |U| := ⟨_, rfl⟩
  have hB0 : 0 < B := by rw [hB]; positivity
  obtain ⟨K, hK⟩ : ∃ K, K = (9 * (N : ℝ) + 3) * (B ^ 5 / 5) + 4096 * U ^ 4 / 6 + 32768 * |U| ^ 5 / 160 + 80 / 12 * 512 * |J| * |U| ^ 3 := ⟨_, rfl⟩
  have hK0 : 0 < K := by rw [hK]; positivity
  refine ⟨min 1 (min (1 / B) (64 * U ^ 2 / (N * K))), by positivity, fun dt h0 h1 w conjugation energies hc he => ?_⟩
  have t1 : dt < 1 := h1.trans_le (min_le_left _ _)
  have t2 : dt < 1 / B := h1.trans_le ((min_le_right _ _).trans (min_le_left _ _))
  have t3 : dt < 64 * U ^ 2 / (N * K) := h1.trans_le ((min_le_right _ _).trans (min_le_right _ _))
  have t2' : dt * B < 1 := by rwa [lt_div_iff₀ hB0] at t2
  have hx0 : 0 < dt * B := by positivity
  have hst : (dt * B) ^ 2 ≤ 8 := by nlinarith
  obtain ⟨second, m, e1, m1, e2⟩ := momentum1dRk4_excess N hN J U h0.le (by rw [← hB]; exact hst) w hc he hb
  refine ⟨second, m, e1, m1, fun v hv => ?_⟩
  have h := (abs_le.1 (e2 v hv)).1
  rw [← hB] at h
  have hcard : (1 : ℝ) ≤ ((Finset.range N).filter fun b => bandEnergy N J b < 0).card := by
    exact_mod_cast Finset.card_pos.2 ⟨N / 2, Finset.mem_filter.2 ⟨Finset.mem_range.2 hq, hb⟩⟩
  have hlead : 2 * ((8 * U * dt) ^ 2 / N) ≤ 2 * (((Finset.range N).filter fun b => bandEnergy N J b < 0).card / N) * (U * (8 * dt)) ^ 2 := by
    rw [show 2 * ((8 * U * dt) ^ 2 / N) = 2 * (1 / N) * (U * (8 * dt)) ^ 2 by ring]
    gcongr
  have hdt43 : dt ^ 4 ≤ dt ^ 3 := pow_le_pow_of_le_one h0.le t1.le (by norm_num)
  have hdt53 : dt ^ 5 ≤ dt ^ 3 := pow_le_pow_of_le_one h0.le t1.le (by norm_num)
  have herr1 : momentumError N (dt * B) ≤ (9 * (N : ℝ) + 3) * (B ^ 5 / 5) * dt ^ 3 := by
    have hp1 : (dt * B) ^ 5 ≤ 1 := pow_le_one₀ hx0.le t2'.le
    have hp0 : 0 ≤ (dt * B) ^ 5 := by positivity
    have : 8 * ((dt * B) ^ 5 / 120) * (2 + 8 * ((dt * B) ^ 5 / 120)) ≤ (dt * B) ^ 5 / 5 := by nlinarith
    unfold momentumError
    rw [mul_assoc (9 * (N : ℝ) + 3) (B ^ 5 / 5)]
    refine mul_le_mul_of_nonneg_left (this.trans ?_) (by positivity)
    rw [mul_pow]
    have : 0 ≤ B ^ 5 := by positivity
    nlinarith
  have herr2 : (U * (8 * dt)) ^ 4 / 6 ≤ 4096 * U ^ 4 / 6 * dt ^ 3 := by
    rw [show (U * (8 * dt)) ^ 4 / 6 = 4096 * U ^ 4 / 6 * dt ^ 4 by ring]
    gcongr
  have habs : |U * (8 * dt)| = 8 * |U| * dt := by rw [abs_mul, abs_of_pos (by positivity : 0 < 8 * dt)]; ring
  have herr3 : |U * (8 * dt)| ^ 5 / 160 ≤ 32768 * |U| ^ 5 / 160 * dt ^ 3 := by
    rw [habs, show (8 * |U| * dt) ^ 5 / 160 = 32768 * |U| ^ 5 / 160 * dt ^ 5 by ring]
    gcongr
  have herr4 : 5 * (2 * |J| * (8 * dt)) / 12 * |U * (8 * dt)| ^ 3 ≤ 80 / 12 * 512 * |J| * |U| ^ 3 * dt ^ 3 := by
    rw [habs, show 5 * (2 * |J| * (8 * dt)) / 12 * (8 * |U| * dt) ^ 3 = 80 / 12 * 512 * |J| * |U| ^ 3 * dt ^ 4 by ring]
    gcongr
  have hKdt : K * dt ^ 3 ≤ (8 * U * dt) ^ 2 / N := by
    rw [lt_div_iff₀ (by positivity)] at t3
    rw [le_div_iff₀ hN']
    nlinarith [sq_nonneg dt, mul_pos h0 h0]
  have hsum : K * dt ^ 3 = (9 * (N : ℝ) + 3) * (B ^ 5 / 5) * dt ^ 3 + 4096 * U ^ 4 / 6 * dt ^ 3 + 32768 * |U| ^ 5 / 160 * dt ^ 3 +
      80 / 12 * 512 * |J| * |U| ^ 3 * dt ^ 3 := by rw [hK]; ring
  linarith

/-- C63 in terms of the options: with at least two momenta and `J > 0`, `U ≠ 0` the second number is wrong for all small step widths. -/
theorem momentum1dRk4_positive_hopping_wrong (N : ℕ) (hN : 2 ≤ N) {J U : ℝ} (hJ : 0 < J) (hU : U ≠ 0) :
    ∃ τ > 0, ∀ dt, 0 < dt → dt < τ → ∀ (w : Work ℂ) (conjugation energies : List ℕ), conjugation.Perm (List.range (N * N + 1)) → energies.Perm (List.range N) →
      ∃ second m, momentum1dRk4 conjugation energies w N J U dt = .val (1, second) ∧
        initMatrix (Spec.entries N (N / 2)) N (bandEnergy N J) U N = .val m ∧
        (∃ v, IsFlow (N * N + 1) (fun i j => m.get i j) v) ∧
        ∀ v, IsFlow (N * N + 1) (fun i j => m.get i j) v →
          (seaNumber (-1) (fermiSea N J) (Spec.entries N (N / 2)) (v (8 * dt))).re + (8 * U * dt) ^ 2 / N ≤ second := by
  obtain ⟨τ, h0, h⟩ := momentum1dRk4_occupied_wrong N (by omega) J hU ((bandEnergy_half hN J).2 hJ)
  refine ⟨τ, h0, fun dt h1 h2 w c e hc he => ?_⟩
  obtain ⟨second, m, e1, m1, e2⟩ := h dt h1 h2 w c e hc he
  exact ⟨second, m, e1, m1, flow_exists _ _, e2⟩

/-- Non-vacuity of the positive part: 8 momenta, `J = -1`, `U = 2`, the step width 0.01. The error is below one thousandth. -/
example (w : Work ℂ) : ∃ second m, momentum1dRk4 (List.range 65) (List.range 8) w 8 (-1) 2 (1 / 100) = .val (0, second) ∧
    initMatrix (Spec.entries 8 4) 8 (bandEnergy 8 (-1)) 2 8 = .val m ∧ (∃ v, IsFlow 65 (fun i j => m.get i j) v) ∧
      ∀ v, IsFlow 65 (fun i j => m.get i j) v → |second - (seaNumber (-1) (fermiSea 8 (-1)) (Spec.entries 8 4) (v (8 * (1 / 100)))).re| ≤ 1 / 1000 := by
  have hnb : ¬ bandEnergy 8 (-1) (8 / 2) < 0 := by rw [bandEnergy_half (by norm_num)]; norm_num
  obtain ⟨second, m, e1, m1, e2⟩ := momentum1dRk4_right 8 (by norm_num) (-1) 2 (dt := 1 / 100) (by norm_num) (by norm_num [abs_of_pos]) w
    (conjugation := List.range 65) (energies := List.range 8) (List.Perm.refl _) (List.Perm.refl _) (.inl hnb)
  rw [if_neg hnb] at e1
  refine ⟨second, m, e1, m1, flow_exists _ _, fun v hv => (e2 v hv).trans ?_⟩
  unfold momentumError
  norm_num [abs_of_pos]

end Ieompp.Program
