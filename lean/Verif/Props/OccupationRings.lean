import Verif.Props.Occupation
import Mathlib.Analysis.Real.Pi.Leibniz
import Mathlib.Analysis.Calculus.MeanValue
import Mathlib.Analysis.SpecialFunctions.Trigonometric.Deriv

/-!
# C59: the rings with 6, 10, 14, … sites, and all rings at half filling
-/

set_option autoImplicit false
set_option linter.unusedSectionVars false

namespace Ieompp.Program

open Ieompp.Spec RealSpace ComplexConjugate

/-- The partial sums of the series of the square wave, the last term with half the weight. -/
noncomputable def halfWave (n : ℕ) (k : ℝ) : ℝ :=
  (∑ j ∈ Finset.range n, (-1) ^ j * Real.cos ((2 * j + 1) * k) / (2 * j + 1)) + (-1) ^ n * Real.cos ((2 * n + 1) * k) / (2 * (2 * n + 1))

theorem halfWave_pi_sub (n : ℕ) (k : ℝ) : halfWave n (Real.pi - k) = -halfWave n k := by
  have hc : ∀ j : ℕ, Real.cos ((2 * j + 1) * (Real.pi - k)) = -Real.cos ((2 * j + 1) * k) := by
    intro j
    rw [show (2 * (j : ℝ) + 1) * (Real.pi - k) = Real.pi - (2 * j + 1) * k + j * (2 * Real.pi) by ring, Real.cos_add_nat_mul_two_pi, Real.cos_pi_sub]
  unfold halfWave
  rw [neg_add, ← Finset.sum_neg_distrib]
  congr 1
  · exact Finset.sum_congr rfl fun j _ => by rw [hc]; ring
  · rw [hc]; ring

/-! ### At momentum zero: the Leibniz series -/

theorem halfWave_zero_step (n : ℕ) : halfWave (n + 2) 0 = halfWave n 0 + (-1) ^ n * (4 / ((2 * n + 1) * (2 * n + 3) * (2 * n + 5))) := by
  unfold halfWave
  rw [Finset.sum_range_succ, Finset.sum_range_succ, pow_succ, pow_succ]
  simp only [mul_zero, Real.cos_zero]
  push_cast
  have h1 : (2 * (n : ℝ) + 1) ≠ 0 := by positivity
  have h3 : (2 * (n : ℝ) + 3) ≠ 0 := by positivity
  have h5 : (2 * (n : ℝ) + 5) ≠ 0 := by positivity
  have e3 : (2 * ((n : ℝ) + 1) + 1) = 2 * n + 3 := by ring
  have e5 : (2 * ((n : ℝ) + 2) + 1) = 2 * n + 5 := by ring
  rw [e3, e5]
  field_simp
  ring

theorem halfWave_zero_tendsto : Filter.Tendsto (fun n => halfWave n 0) Filter.atTop (nhds (Real.pi / 4)) := by
  have h1 := Real.tendsto_sum_pi_div_four
  have h2 : Filter.Tendsto (fun n : ℕ => (-1 : ℝ) ^ n * Real.cos ((2 * n + 1) * 0) / (2 * (2 * n + 1))) Filter.atTop (nhds 0) := by
    refine squeeze_zero_norm (a := fun n : ℕ => 1 / ((n : ℝ) + 1)) (fun n => ?_) tendsto_one_div_add_atTop_nhds_zero_nat
    rw [mul_zero, Real.cos_zero, mul_one, norm_div, norm_pow, norm_neg, norm_one, one_pow, Real.norm_of_nonneg (by positivity)]
    gcongr
    have : (0 : ℝ) ≤ n := by positivity
    linarith
  have h3 := h1.add h2
  rw [add_zero] at h3
  refine h3.congr fun n => ?_
  unfold halfWave
  simp

/-- For odd `n` the value at zero is too large. -/
theorem halfWave_zero_odd {n : ℕ} (hn : Odd n) : Real.pi / 4 < halfWave n 0 := by
  have hanti : StrictAnti fun i => halfWave (n + 2 * i) 0 := by
    refine strictAnti_nat_of_succ_lt fun i => ?_
    have h := halfWave_zero_step (n + 2 * i)
    rw [show n + 2 * (i + 1) = n + 2 * i + 2 by ring, h, Odd.neg_one_pow (hn.add_even (even_two_mul i))]
    have : (0 : ℝ) < 4 / ((2 * (n + 2 * i : ℕ) + 1) * (2 * (n + 2 * i : ℕ) + 3) * (2 * (n + 2 * i : ℕ) + 5)) := by positivity
    linarith
  have hlim : Filter.Tendsto (fun i => halfWave (n + 2 * i) 0) Filter.atTop (nhds (Real.pi / 4)) :=
    halfWave_zero_tendsto.comp (Filter.tendsto_atTop_mono (fun i => by omega : ∀ i, i ≤ n + 2 * i) Filter.tendsto_id)
  have h1 := hanti.antitone.le_of_tendsto hlim 1
  have h2 := hanti (show 0 < 1 by norm_num)
  simpa using lt_of_le_of_lt h1 h2

/-- For even `n` the value at zero is too small, but by less than `1 / (2n+1)²`. -/
theorem halfWave_zero_even {n : ℕ} (hn : Even n) : Real.pi / 4 < halfWave n 0 + 1 / (2 * n + 1) ^ 2 := by
  have hanti : StrictAnti fun i : ℕ => halfWave (n + 2 * i) 0 + 1 / (2 * (n + 2 * i : ℕ) + 1) ^ 2 := by
    refine strictAnti_nat_of_succ_lt fun i => ?_
    have h := halfWave_zero_step (n + 2 * i)
    rw [show n + 2 * (i + 1) = n + 2 * i + 2 by ring, h, Even.neg_one_pow (hn.add (even_two_mul i)), one_mul]
    generalize n + 2 * i = j
    obtain ⟨x, hx⟩ : ∃ x : ℝ, x = 2 * j + 1 := ⟨_, rfl⟩
    have hx1 : 1 ≤ x := by rw [hx]; have : (0 : ℝ) ≤ j := by positivity
                           linarith
    rw [show (2 * (j : ℝ) + 3) = x + 2 by rw [hx]; ring, show (2 * (j : ℝ) + 5) = x + 4 by rw [hx]; ring,
      show (2 * ((j + 2 : ℕ) : ℝ) + 1) = x + 4 by rw [hx]; push_cast; ring, ← hx]
    have key : 4 / (x * (x + 2) * (x + 4)) < 1 / x ^ 2 - 1 / (x + 4) ^ 2 := by
      have e : 1 / x ^ 2 - 1 / (x + 4) ^ 2 = 8 * (x + 2) / (x ^ 2 * (x + 4) ^ 2) := by field_simp; ring
      rw [e, div_lt_div_iff₀ (by positivity) (by positivity)]
      have h0 : 0 < x * (x + 4) := by positivity
      nlinarith [mul_pos h0 h0, mul_pos h0 (by positivity : 0 < x ^ 2)]
    linarith
  have hlim : Filter.Tendsto (fun i : ℕ => halfWave (n + 2 * i) 0 + 1 / (2 * (n + 2 * i : ℕ) + 1) ^ 2) Filter.atTop (nhds (Real.pi / 4)) := by
    have h1 : Filter.Tendsto (fun i => halfWave (n + 2 * i) 0) Filter.atTop (nhds (Real.pi / 4)) :=
      halfWave_zero_tendsto.comp (Filter.tendsto_atTop_mono (fun i => by omega : ∀ i, i ≤ n + 2 * i) Filter.tendsto_id)
    have h2 : Filter.Tendsto (fun i : ℕ => 1 / (2 * ((n + 2 * i : ℕ) : ℝ) + 1) ^ 2) Filter.atTop (nhds 0) := by
      refine squeeze_zero_norm (a := fun i : ℕ => 1 / ((i : ℝ) + 1)) (fun i => ?_) tendsto_one_div_add_atTop_nhds_zero_nat
      rw [Real.norm_of_nonneg (by positivity)]
      gcongr
      push_cast
      have h0 : (0 : ℝ) ≤ n := by positivity
      have h1 : (0 : ℝ) ≤ i := by positivity
      nlinarith
    have := h1.add h2
    rwa [add_zero] at this
  have h1 := hanti.antitone.le_of_tendsto hlim 1
  have h2 := hanti (show 0 < 1 by norm_num)
  simpa using lt_of_le_of_lt h1 h2

/-! ### At the next momentum -/

theorem sum_alternating_sin (n : ℕ) (k : ℝ) :
    (∑ j ∈ Finset.range n, (-1) ^ j * Real.sin ((2 * j + 1) * k)) * (2 * Real.cos k) = -((-1) ^ n * Real.sin (2 * n * k)) := by
  induction n with
  | zero => simp
  | succ n ih =>
    rw [Finset.sum_range_succ, add_mul, ih, pow_succ]
    have h1 : Real.sin (2 * ((n + 1 : ℕ) : ℝ) * k) = Real.sin ((2 * n + 1) * k) * Real.cos k + Real.cos ((2 * n + 1) * k) * Real.sin k := by
      rw [← Real.sin_add]; congr 1; push_cast; ring
    have h2 : Real.sin (2 * (n : ℝ) * k) = Real.sin ((2 * n + 1) * k) * Real.cos k - Real.cos ((2 * n + 1) * k) * Real.sin k := by
      rw [← Real.sin_sub]; congr 1; ring
    rw [h1, h2]
    ring

theorem halfWave_deriv (n : ℕ) {k : ℝ} (hk : Real.cos k ≠ 0) : HasDerivAt (halfWave n) (-((-1) ^ n * (Real.tan k * Real.cos ((2 * n + 1) * k)) / 2)) k := by
  have hj : ∀ (j : ℕ), HasDerivAt (fun k : ℝ => Real.cos ((2 * j + 1) * k)) (-Real.sin ((2 * j + 1) * k) * (2 * j + 1)) k := by
    intro j
    have h := ((hasDerivAt_id k).const_mul (2 * (j : ℝ) + 1)).cos
    simpa using h
  have hs : HasDerivAt (fun k : ℝ => ∑ j ∈ Finset.range n, (-1 : ℝ) ^ j * Real.cos ((2 * j + 1) * k) / (2 * j + 1))
      (∑ j ∈ Finset.range n, (-1 : ℝ) ^ j * (-Real.sin ((2 * j + 1) * k) * (2 * j + 1)) / (2 * j + 1)) k :=
    HasDerivAt.fun_sum fun j _ => ((hj j).const_mul _).div_const _
  refine (hs.add (((hj n).const_mul ((-1 : ℝ) ^ n)).div_const (2 * (2 * (n : ℝ) + 1)))).congr_deriv ?_
  have e1 : ∑ j ∈ Finset.range n, (-1 : ℝ) ^ j * (-Real.sin ((2 * j + 1) * k) * (2 * j + 1)) / (2 * j + 1) =
      -∑ j ∈ Finset.range n, (-1) ^ j * Real.sin ((2 * j + 1) * k) := by
    rw [← Finset.sum_neg_distrib]
    refine Finset.sum_congr rfl fun j _ => ?_
    have : (2 * (j : ℝ) + 1) ≠ 0 := by positivity
    field_simp
  rw [e1]
  have h := sum_alternating_sin n k
  have h2 : Real.sin (2 * (n : ℝ) * k) = Real.sin ((2 * n + 1) * k) * Real.cos k - Real.cos ((2 * n + 1) * k) * Real.sin k := by
    rw [← Real.sin_sub]; congr 1; ring
  rw [h2] at h
  generalize ∑ j ∈ Finset.range n, (-1) ^ j * Real.sin ((2 * (j : ℝ) + 1) * k) = S at h ⊢
  rw [Real.tan_eq_sin_div_cos]
  have hn : (2 * (n : ℝ) + 1) ≠ 0 := by positivity
  field_simp
  linear_combination (-1 : ℝ) * h

/-- From zero to the next momentum the value grows by at least `1/(2n+1)²`, `n` even. -/
theorem halfWave_next {n : ℕ} (hn : Even n) (hn1 : 1 ≤ n) : halfWave n 0 + 1 / (2 * n + 1) ^ 2 ≤ halfWave n (Real.pi / (2 * n + 1)) := by
  have hp := Real.pi_pos
  obtain ⟨M, hM⟩ : ∃ M : ℝ, M = 2 * n + 1 := ⟨_, rfl⟩
  have hn' : (1 : ℝ) ≤ n := by exact_mod_cast hn1
  have hM3 : 3 ≤ M := by rw [hM]; linarith
  have hM0 : 0 < M := by linarith
  obtain ⟨c, hc⟩ : ∃ c : ℝ, c = Real.pi / (2 * M) := ⟨_, rfl⟩
  have hMc : M * c = Real.pi / 2 := by rw [hc]; field_simp
  have hc0 : 0 < c := by rw [hc]; positivity
  have h2c : 2 * c < Real.pi / 2 := by
    rw [hc]
    rw [show 2 * (Real.pi / (2 * M)) = Real.pi / M by field_simp]
    exact div_lt_div_of_pos_left hp (by norm_num) (by linarith)
  have hcos : ∀ x, -(Real.pi / 2) < x → x < Real.pi / 2 → 0 < Real.cos x := fun x h1 h2 => Real.cos_pos_of_mem_Ioo ⟨h1, h2⟩
  -- tan x - x is monotone
  have htan : ∀ s, 0 ≤ s → s ≤ c → 2 * s ≤ Real.tan (c + s) - Real.tan (c - s) := by
    intro s h0 h1
    have hmono : MonotoneOn (fun x => Real.tan x - x) (Set.Icc 0 (2 * c)) := by
      refine monotoneOn_of_deriv_nonneg (convex_Icc _ _) ?_ ?_ ?_
      · refine ContinuousOn.sub (Real.continuousOn_tan_Ioo.mono fun x hx => ⟨by linarith [hx.1], by linarith [hx.2]⟩) continuousOn_id
      · intro x hx
        rw [interior_Icc] at hx
        exact ((Real.hasDerivAt_tan (hcos x (by linarith [hx.1]) (by linarith [hx.2])).ne').sub (hasDerivAt_id x)).differentiableAt.differentiableWithinAt
      · intro x hx
        rw [interior_Icc] at hx
        have hcx := hcos x (by linarith [hx.1]) (by linarith [hx.2])
        have hd := (Real.hasDerivAt_tan hcx.ne').sub (hasDerivAt_id x)
        have hd' : deriv (fun x => Real.tan x - x) x = 1 / Real.cos x ^ 2 - 1 := hd.deriv
        rw [hd', sub_nonneg, le_div_iff₀ (by positivity), one_mul]
        exact pow_le_one₀ hcx.le (Real.cos_le_one x)
    have := hmono ⟨by linarith, by linarith⟩ ⟨by linarith, by linarith⟩ (by linarith : c - s ≤ c + s)
    simp only at this
    linarith
  have hD : ∀ s, 0 ≤ s → s ≤ c → HasDerivAt (fun s => halfWave n (c + s) - halfWave n (c - s) - (Real.sin (M * s) - M * s * Real.cos (M * s)) / M ^ 2)
      (Real.sin (M * s) * ((Real.tan (c + s) - Real.tan (c - s)) / 2 - s)) s := by
    intro s h0 h1
    have d1 := (halfWave_deriv n (hcos (c + s) (by linarith) (by linarith)).ne').comp s ((hasDerivAt_id s).const_add c)
    have d2 := (halfWave_deriv n (hcos (c - s) (by linarith) (by linarith)).ne').comp s ((hasDerivAt_id s).const_sub c)
    have dm : HasDerivAt (fun s : ℝ => M * s) M s := by simpa using (hasDerivAt_id s).const_mul M
    have d3 := (dm.sin.sub (dm.mul dm.cos)).div_const (M ^ 2)
    refine ((d1.sub d2).sub d3).congr_deriv ?_
    rw [Even.neg_one_pow hn, ← hM]
    have e1 : Real.cos (M * (c + s)) = -Real.sin (M * s) := by
      rw [mul_add, hMc, add_comm, Real.cos_add_pi_div_two]
    have e2 : Real.cos (M * (c - s)) = Real.sin (M * s) := by
      rw [mul_sub, hMc, Real.cos_pi_div_two_sub]
    rw [e1, e2]
    field_simp
    ring
  have hmono : MonotoneOn (fun s => halfWave n (c + s) - halfWave n (c - s) - (Real.sin (M * s) - M * s * Real.cos (M * s)) / M ^ 2) (Set.Icc 0 c) := by
    refine monotoneOn_of_deriv_nonneg (convex_Icc _ _) ?_ ?_ ?_
    · exact fun s hs => (hD s hs.1 hs.2).continuousAt.continuousWithinAt
    · intro s hs
      rw [interior_Icc] at hs
      exact (hD s hs.1.le hs.2.le).differentiableAt.differentiableWithinAt
    · intro s hs
      rw [interior_Icc] at hs
      rw [(hD s hs.1.le hs.2.le).deriv]
      refine mul_nonneg (Real.sin_nonneg_of_nonneg_of_le_pi (by nlinarith [hs.1]) ?_) ?_
      · have := mul_le_mul_of_nonneg_left hs.2.le hM0.le
        linarith
      · linarith [htan s hs.1.le hs.2.le]
  have h := hmono ⟨le_rfl, hc0.le⟩ ⟨hc0.le, le_rfl⟩ hc0.le
  simp only [add_zero, sub_zero, sub_self, mul_zero, Real.sin_zero, zero_mul, zero_div] at h
  rw [hMc, Real.sin_pi_div_two, Real.cos_pi_div_two, mul_zero, sub_zero, hM, show c + c = Real.pi / (2 * n + 1) by rw [hc, hM]; field_simp; ring] at h
  linarith

/-- On every ring of `4 n + 2` sites, `n ≥ 1`, there is a momentum with a value above `π/4`. -/
theorem halfWave_above {n : ℕ} (hn : 1 ≤ n) : ∃ m ≤ 1, Real.pi / 4 < halfWave n (2 * Real.pi * (m : ℕ) / (4 * n + 2 : ℕ)) := by
  rcases Nat.even_or_odd n with h | h
  · refine ⟨1, le_rfl, ?_⟩
    have h1 := halfWave_zero_even h
    have h2 := halfWave_next h hn
    have e : 2 * Real.pi * ((1 : ℕ) : ℝ) / ((4 * n + 2 : ℕ) : ℝ) = Real.pi / (2 * n + 1) := by push_cast; field_simp; ring
    rw [e]
    linarith
  · refine ⟨0, by norm_num, ?_⟩
    rw [Nat.cast_zero, mul_zero, zero_div]
    exact halfWave_zero_odd h

/-! ### The table of the program -/

theorem sum_odd_cos (n : ℕ) (k : ℝ) :
    ∑ d ∈ Finset.range (2 * n), Real.cos (k * (d + 1 : ℕ)) * chainCorrelation (1 / 2 * Real.pi) ((d + 1 : ℕ) : ℝ) =
      1 / Real.pi * ∑ j ∈ Finset.range n, (-1) ^ j * Real.cos ((2 * j + 1) * k) / (2 * j + 1) := by
  induction n with
  | zero => simp
  | succ n ih =>
    rw [show 2 * (n + 1) = 2 * n + 1 + 1 by ring, Finset.sum_range_succ, Finset.sum_range_succ, ih, Finset.sum_range_succ (n := n),
      (half_filling_values n).1, show 2 * n + 1 + 1 = 2 * (n + 1) by ring, (half_filling_values n).2, mul_zero, add_zero,
      show k * ((2 * n + 1 : ℕ) : ℝ) = (2 * n + 1) * k by push_cast; ring]
    ring

/-- The eigenvalue of the table on a ring of `4 n + 2` sites. -/
theorem eigenvalue_two (n : ℕ) (k : ℝ) (m : ℕ) (hk : k * (4 * n + 2 : ℕ) = 2 * Real.pi * m) :
    ∑ b ∈ Finset.range (4 * n + 2), Real.cos (k * b) * ringCorrelation (1 / 2) (4 * n + 2) 0 b = 1 / 2 + 2 / Real.pi * halfWave n k := by
  have e : ∑ b ∈ Finset.range (4 * n + 2), Real.cos (k * b) * ringCorrelation (1 / 2) (4 * n + 2) 0 b =
      ∑ b ∈ Finset.range (4 * n + 2), (fun d : ℕ => Real.cos (k * d) * chainCorrelation (1 / 2 * Real.pi) (d : ℝ)) (ringDistance (4 * n + 2) 0 b) := by
    refine Finset.sum_congr rfl fun b hb => ?_
    rw [cos_ring _ m hk (Finset.mem_range.1 hb)]; rfl
  have hs := sum_ring (M := 2 * n + 1) (by omega) (fun d : ℕ => Real.cos (k * d) * chainCorrelation (1 / 2 * Real.pi) (d : ℝ))
  rw [show 2 * (2 * n + 1) = 4 * n + 2 by ring, show 2 * n + 1 - 1 = 2 * n by omega] at hs
  rw [e, hs, sum_odd_cos]
  rw [(half_filling_values n).1, Nat.cast_zero, chainCorrelation_zero, show k * ((2 * n + 1 : ℕ) : ℝ) = (2 * n + 1) * k by push_cast; ring]
  unfold halfWave
  simp only [mul_zero, Real.cos_zero]
  have : Real.pi ≠ 0 := Real.pi_pos.ne'
  field_simp
  ring

section
variable {N : ℕ} {sched : List ℕ} (hsched : sched.Perm (List.range' 1 (N / 2))) (threads : ℕ) (sc : List ℕ)
    (hsc : sc.Perm (List.range (basis1 N).length)) (s : List Event) (hs : Executes threads (loop1 (basis1 N).length) s)
include hsched hsc hs

/-- C59 is false of the code on rings of 6, 10, 14, … sites as well: at half filling some orbital has an occupation above 1 and another a negative one. -/
theorem occupation_wrong_two (h2 : N % 4 = 2) (h6 : 6 ≤ N) :
    ∃ values, evTable1D (Chain.real (K := ℝ) N 1) (1 / 2) (fermiMomentum1D (1 / 2)) sched = .val values ∧
      (∃ vec : List ℂ, vec.length = (basis1 N).length ∧ ∃ x,
        siteOccupation1 (evFunction (Chain.real (K := ℝ) N 1) values) (basis1 N)
          (getConjugate sc (basis1 N)) vec threads s = .val x ∧ (vec.map fun z => ‖z‖ ^ 2).sum < x) ∧
      ∃ vec : List ℂ, vec.length = (basis1 N).length ∧ ∃ x,
        siteOccupation1 (evFunction (Chain.real (K := ℝ) N 1) values) (basis1 N)
          (getConjugate sc (basis1 N)) vec threads s = .val x ∧ x < 0 := by
  obtain ⟨n, rfl⟩ : ∃ n, N = 4 * n + 2 := ⟨N / 4, by omega⟩
  have hp := Real.pi_pos
  have hNp : (0 : ℝ) < ((4 * n + 2 : ℕ) : ℝ) := by positivity
  obtain ⟨m, hm, hw⟩ := halfWave_above (n := n) (by omega)
  obtain ⟨k, hk⟩ : ∃ k, k = 2 * Real.pi * (m : ℕ) / (4 * n + 2 : ℕ) := ⟨_, rfl⟩
  rw [← hk] at hw
  have k1 : k * (4 * n + 2 : ℕ) = 2 * Real.pi * m := by rw [hk]; field_simp
  have k2 : (Real.pi - k) * (4 * n + 2 : ℕ) = 2 * Real.pi * ((2 * n + 1 - m : ℕ) : ℝ) := by
    rw [sub_mul, k1, Nat.cast_sub (by omega)]; push_cast; ring
  obtain ⟨values, e1, o1⟩ := occupation_planeWave (by omega) (1 / 2) _ _ k1 hsched threads sc hsc s hs
  obtain ⟨values', e2, o2⟩ := occupation_planeWave (by omega) (1 / 2) _ _ k2 hsched threads sc hsc s hs
  obtain rfl : values = values' := by rw [e1] at e2; exact Res.val.inj e2
  rw [eigenvalue_two n _ _ k1] at o1
  rw [eigenvalue_two n _ _ k2, halfWave_pi_sub] at o2
  have hgt : 1 < 1 / 2 + 2 / Real.pi * halfWave n k := by
    have := mul_lt_mul_of_pos_left hw (by positivity : (0 : ℝ) < 2 / Real.pi)
    rw [show 2 / Real.pi * (Real.pi / 4) = 1 / 2 by field_simp; norm_num] at this
    linarith
  refine ⟨values, e1, ⟨_, ?_, _, o1, ?_⟩, ⟨_, ?_, _, o2, ?_⟩⟩
  · simp [planeWave, (realBasis_size _).1]
  · rw [planeWave_norm]; nlinarith
  · simp [planeWave, (realBasis_size _).1]
  · apply mul_neg_of_pos_of_neg hNp; rw [mul_neg]; linarith

/-- **C59 at half filling, exactly**: the occupations of all orbitals lie between 0 and the square of the norm if and only if the ring has at most two sites. -/
theorem occupation_half_filling_iff (hN : 0 < N) :
    ∃ values, evTable1D (Chain.real (K := ℝ) N 1) (1 / 2) (fermiMomentum1D (1 / 2)) sched = .val values ∧
      ((∀ vec : List ℂ, vec.length = (basis1 N).length → ∃ x,
        siteOccupation1 (evFunction (Chain.real (K := ℝ) N 1) values) (basis1 N)
          (getConjugate sc (basis1 N)) vec threads s = .val x ∧ 0 ≤ x ∧ x ≤ (vec.map fun z => ‖z‖ ^ 2).sum) ↔ N ≤ 2) := by
  have hsz := (realBasis_size N).1
  by_cases h2 : N ≤ 2
  · have hc : getConjugate sc (basis1 N) = conjOf (basis1 N) := parallelModify_eq_map _ _ _ hsc
    rw [hsz] at hs
    have hg : ∀ i < N, (basis1 N)[i]? = some (Spec.one i) := fun i hi => ((realBasis_getElem N).1 i hi).1
    obtain ⟨values, e1, ev, hev, htab⟩ := table_ok (N := N) hN (1 / 2) hsched
    refine ⟨values, e1, fun _ => h2, fun _ vec hvec => ?_⟩
    rw [hsz] at hvec
    have key := siteSum1_eq (ev := siteEv ev) (basis := basis1 N) (cb := conjOf (basis1 N)) (E := ringCorrelation (1 / 2) N) (vec := vec)
      (fun i j hi hj => by rw [← (htab i hi j hj).2]; exact code_11 hi hj (hg i hi) (hg j hj)) hvec hs
    refine ⟨_, by rw [hc, hev, siteOccupation1, key, Res.map_val], ?_⟩
    have hd : ∀ i, ringCorrelation (1 / 2) N i i = 1 / 2 := by
      intro i
      unfold ringCorrelation ringDistance
      simp [chainCorrelation_zero]
    rcases Nat.lt_or_ge N 2 with h1 | h1
    · obtain rfl : N = 1 := by omega
      obtain ⟨a, rfl⟩ := List.length_eq_one_iff.1 hvec
      simp only [Finset.sum_range_one, List.getD_cons_zero, List.map_cons, List.map_nil, List.sum_singleton, hd]
      rw [Complex.mul_conj, ← Complex.ofReal_mul, Complex.ofReal_re, Complex.normSq_eq_norm_sq]
      constructor <;> nlinarith [sq_nonneg ‖a‖]
    · obtain rfl : N = 2 := by omega
      obtain ⟨a, b, rfl⟩ := List.length_eq_two.1 hvec
      have ho : ringCorrelation (1 / 2) 2 0 1 = 1 / Real.pi ∧ ringCorrelation (1 / 2) 2 1 0 = 1 / Real.pi := by
        have := (half_filling_values 0).1
        simp only [mul_zero, zero_add, pow_zero, Nat.cast_zero, div_one, mul_one] at this
        unfold ringCorrelation
        rw [show ringDistance 2 0 1 = 1 by decide, show ringDistance 2 1 0 = 1 by decide]
        exact ⟨this, this⟩
      have hpi : 1 / Real.pi ≤ 1 / 2 := one_div_le_one_div_of_le (by norm_num) Real.two_le_pi
      have hpi0 : 0 < 1 / Real.pi := by have := Real.pi_pos; positivity
      have e : (∑ i ∈ Finset.range 2, ∑ j ∈ Finset.range 2, [a, b].getD i 0 * conj ([a, b].getD j 0) * (ringCorrelation (1 / 2) 2 i j : ℂ)).re =
          1 / 2 * (‖a‖ ^ 2 + ‖b‖ ^ 2) + 1 / Real.pi * (2 * (a * conj b).re) := by
        simp only [Finset.sum_range_succ, Finset.sum_range_zero, zero_add, List.getD_cons_zero, List.getD_cons_succ, hd, ho.1, ho.2, Complex.mul_conj]
        simp only [Complex.add_re, Complex.re_mul_ofReal, Complex.normSq_eq_norm_sq, Complex.ofReal_re]
        have : (b * conj a).re = (a * conj b).re := by simp [Complex.mul_re]; ring
        rw [this]; ring
      rw [e]
      have habs : |(a * conj b).re| ≤ ‖a‖ * ‖b‖ := by
        refine (Complex.abs_re_le_norm _).trans (le_of_eq ?_)
        rw [norm_mul, Complex.norm_conj]
      obtain ⟨l1, l2⟩ := abs_le.1 habs
      simp only [List.map_cons, List.map_nil, List.sum_cons, List.sum_nil, add_zero]
      have hsq := sq_nonneg (‖a‖ - ‖b‖)
      have hab : 0 ≤ ‖a‖ * ‖b‖ := by positivity
      constructor <;> nlinarith
  · rcases (by omega : N % 4 = 0 ∨ N % 4 = 2 ∨ N % 2 = 1) with h | h | h
    · obtain ⟨values, e, ⟨vec, hl, x, hx, hlt⟩, -⟩ := occupation_wrong (Nat.dvd_of_mod_eq_zero h) hN hsched threads sc hsc s hs
      refine ⟨values, e, fun hall => ?_, fun h' => absurd h' h2⟩
      obtain ⟨y, hy, -, hy2⟩ := hall vec hl
      rw [hx] at hy; cases hy; linarith
    · obtain ⟨values, e, ⟨vec, hl, x, hx, hlt⟩, -⟩ := occupation_wrong_two hsched threads sc hsc s hs h (by omega)
      refine ⟨values, e, fun hall => ?_, fun h' => absurd h' h2⟩
      obtain ⟨y, hy, -, hy2⟩ := hall vec hl
      rw [hx] at hy; cases hy; linarith
    · obtain ⟨values, e, vec, hl, x, hx, hlt⟩ := occupation_wrong_odd (Nat.odd_iff.2 h) (by omega) hsched threads sc hsc s hs
      refine ⟨values, e, fun hall => ?_, fun h' => absurd h' h2⟩
      obtain ⟨y, hy, hy1, hy2⟩ := hall vec hl
      rw [hx] at hy; cases hy
      rcases hlt with h' | h' <;> linarith

end

/-- The hypotheses are met for 6 sites, one thread and the sequential schedules. -/
example : (List.range' 1 (6 / 2)).Perm (List.range' 1 (6 / 2)) ∧ (List.range (basis1 6).length).Perm (List.range (basis1 6).length) ∧ 6 % 4 = 2 :=
  ⟨List.Perm.refl _, List.Perm.refl _, rfl⟩

end Ieompp.Program
