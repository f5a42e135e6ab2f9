import Verif.Props.Program
import Mathlib.Analysis.SpecialFunctions.Trigonometric.Bounds
import Mathlib.Analysis.Real.Pi.Bounds

/-!
# C59: occupations between 0 and 1
-/

set_option autoImplicit false
set_option linter.unusedSectionVars false

namespace Ieompp.Program

open Ieompp.Spec RealSpace ComplexConjugate

/-- C59 where it holds: for the correlations of a Slater determinant (orbitals: the columns of a unitary matrix, those of
`occ` are occupied), every vector of coefficients and every execution of the loop, the measured occupation lies between 0 and
the square of the norm of the vector. -/
theorem occupation_between {N : ℕ} (u : Matrix (Fin N) (Fin N) ℂ) (hu : u * u.conjTranspose = 1) (occ : Finset (Fin N))
    (ev : ℕ → ℕ → ℝ) (hev : ∀ i j : Fin N, (ev i j : ℂ) = ∑ k ∈ occ, u i k * conj (u j k)) (vec : List ℂ)
    (hv : vec.length = (basis1 N).length) (threads : ℕ) (sc : List ℕ) (hsc : sc.Perm (List.range (basis1 N).length))
    (s : List Event) (hs : Executes threads (loop1 (basis1 N).length) s) :
    ∃ x, siteOccupation1 (siteEv ev) (basis1 N) (getConjugate sc (basis1 N)) vec threads s = .val x ∧
      0 ≤ x ∧ x ≤ (vec.map fun z => ‖z‖ ^ 2).sum := by
  have hsz := (realBasis_size N).1
  have hc : getConjugate sc (basis1 N) = conjOf (basis1 N) := parallelModify_eq_map _ _ _ hsc
  rw [hsz] at hv hs
  have hg : ∀ i < N, (basis1 N)[i]? = some (Spec.one i) := fun i hi => ((realBasis_getElem N).1 i hi).1
  have key := siteSum1_eq (ev := siteEv ev) (basis := basis1 N) (cb := conjOf (basis1 N)) (E := ev)
    (fun i j hi hj => code_11 hi hj (hg i hi) (hg j hj)) hv hs
  set g : Fin N → ℂ := fun k => ∑ i : Fin N, vec.getD i 0 * u i k with hgdef
  have e1 : ∑ i ∈ Finset.range N, ∑ j ∈ Finset.range N, vec.getD i 0 * conj (vec.getD j 0) * (ev i j : ℂ) =
      ((∑ k ∈ occ, ‖g k‖ ^ 2 : ℝ) : ℂ) := by
    rw [← Fin.sum_univ_eq_sum_range (fun i => ∑ j ∈ Finset.range N, vec.getD i 0 * conj (vec.getD j 0) * (ev i j : ℂ)) N]
    simp only [← Fin.sum_univ_eq_sum_range (fun j => _ * conj (vec.getD j 0) * (ev _ j : ℂ)) N, hev, Finset.mul_sum]
    push_cast
    rw [Finset.sum_congr rfl fun i _ => Finset.sum_comm, Finset.sum_comm]
    refine Finset.sum_congr rfl fun k _ => ?_
    rw [← Complex.mul_conj', hgdef, map_sum, Finset.sum_mul_sum]
    refine Finset.sum_congr rfl fun i _ => Finset.sum_congr rfl fun j _ => ?_
    rw [map_mul]; ring
  have e2 : ∑ k, ‖g k‖ ^ 2 = (vec.map fun z => ‖z‖ ^ 2).sum := by
    have hl : (vec.map fun z => ‖z‖ ^ 2).sum = ∑ i : Fin N, ‖vec.getD i 0‖ ^ 2 := by
      rw [Fin.sum_univ_eq_sum_range (fun i => ‖vec.getD i 0‖ ^ 2) N, ← hv]
      clear * -
      induction vec with
      | nil => simp
      | cons a l ih => rw [List.length_cons, Finset.sum_range_succ', List.map_cons, List.sum_cons, ih]; simp [add_comm]
    rw [hl]
    have : ((∑ k, ‖g k‖ ^ 2 : ℝ) : ℂ) = ((∑ i : Fin N, ‖vec.getD i 0‖ ^ 2 : ℝ) : ℂ) := by
      push_cast
      calc ∑ k, (‖g k‖ : ℂ) ^ 2 = ∑ k, ∑ i : Fin N, ∑ j : Fin N, vec.getD i 0 * conj (vec.getD j 0) *
            (u i k * conj (u j k)) := by
            refine Finset.sum_congr rfl fun k _ => ?_
            rw [← Complex.mul_conj', hgdef, map_sum, Finset.sum_mul_sum]
            refine Finset.sum_congr rfl fun i _ => Finset.sum_congr rfl fun j _ => ?_
            rw [map_mul]; ring
        _ = ∑ i : Fin N, ∑ j : Fin N, vec.getD i 0 * conj (vec.getD j 0) * ∑ k, u i k * conj (u j k) := by
            rw [Finset.sum_comm]
            refine Finset.sum_congr rfl fun i _ => ?_
            rw [Finset.sum_comm]
            refine Finset.sum_congr rfl fun j _ => ?_
            rw [Finset.mul_sum]
        _ = _ := by
            refine Finset.sum_congr rfl fun i _ => ?_
            have hus : ∀ j, ∑ k, u i k * conj (u j k) = if i = j then 1 else 0 := fun j => unitary_sum hu i j
            simp only [hus]
            rw [Finset.sum_eq_single i]
            · rw [if_pos rfl, mul_one, Complex.mul_conj']
            · intro j _ hj; rw [if_neg (Ne.symm hj), mul_zero]
            · simp
    exact_mod_cast this
  refine ⟨∑ k ∈ occ, ‖g k‖ ^ 2, ?_, Finset.sum_nonneg fun k _ => by positivity, ?_⟩
  · rw [hc, siteOccupation1, key, Res.map_val, e1, Complex.ofReal_re]
  · rw [← e2]
    exact Finset.sum_le_sum_of_subset_of_nonneg (Finset.subset_univ _) fun k _ _ => by positivity

/-! ## The table of the program is not the table of a state -/

/-- A sum over the distances on a ring with an even number of sites. -/
theorem sum_ring {M : ℕ} (hM : 1 ≤ M) (f : ℕ → ℝ) :
    ∑ b ∈ Finset.range (2 * M), f (ringDistance (2 * M) 0 b) = f 0 + f M + 2 * ∑ d ∈ Finset.range (M - 1), f (d + 1) := by
  obtain ⟨n, rfl⟩ : ∃ n, M = n + 1 := ⟨M - 1, by omega⟩
  have e1 : ∑ b ∈ Finset.range (n + 1), f (ringDistance (2 * (n + 1)) 0 b) = f 0 + ∑ d ∈ Finset.range n, f (d + 1) := by
    rw [Finset.sum_range_succ', add_comm]
    congr 1
    refine Finset.sum_congr rfl fun d hd => ?_
    rw [Finset.mem_range] at hd
    congr 1; unfold ringDistance; omega
  have e2 : ∑ b ∈ Finset.range (n + 1), f (ringDistance (2 * (n + 1)) 0 (n + 1 + b)) =
      f (n + 1) + ∑ d ∈ Finset.range n, f (d + 1) := by
    rw [Finset.sum_range_succ', add_comm]
    congr 1
    · congr 1; unfold ringDistance; omega
    · rw [← Finset.sum_range_reflect (fun d => f (d + 1))]
      refine Finset.sum_congr rfl fun d hd => ?_
      rw [Finset.mem_range] at hd
      congr 1; unfold ringDistance; omega
  rw [two_mul (n + 1), Finset.sum_range_add, ← two_mul, e1, e2, Nat.add_sub_cancel]; ring

/-- The values of the table at half filling. -/
theorem half_filling_values (d : ℕ) : chainCorrelation (1 / 2 * Real.pi) ((2 * d + 1 : ℕ) : ℝ) =
      1 / Real.pi * ((-1) ^ d / (2 * d + 1)) ∧
    chainCorrelation (1 / 2 * Real.pi) ((2 * (d + 1) : ℕ) : ℝ) = 0 := by
  constructor
  · rw [chainCorrelation_eq _ _ (by positivity)]
    have : Real.sin (1 / 2 * Real.pi * ((2 * d + 1 : ℕ) : ℝ)) = (-1) ^ d := by
      rw [show 1 / 2 * Real.pi * ((2 * d + 1 : ℕ) : ℝ) = d * Real.pi + Real.pi / 2 by push_cast; ring, Real.sin_add_pi_div_two,
        Real.cos_nat_mul_pi]
    rw [this]; push_cast; field_simp
  · rw [chainCorrelation_eq _ _ (by positivity)]
    rw [show 1 / 2 * Real.pi * ((2 * (d + 1) : ℕ) : ℝ) = ((d + 1 : ℕ) : ℝ) * Real.pi by push_cast; ring,
      Real.sin_nat_mul_pi, zero_div]

theorem sum_shift {N : ℕ} (hN : 0 < N) (a : ℕ) (g : ℕ → ℝ) :
    ∑ b ∈ Finset.range N, g ((b + a) % N) = ∑ b ∈ Finset.range N, g b := by
  have hinj : Set.InjOn (fun b => (b + a) % N) (Finset.range N : Finset ℕ) := by
    intro x hx y hy hxy
    have h : x + a ≡ y + a [MOD N] := hxy
    have := Nat.ModEq.add_right_cancel' a h
    rw [Finset.coe_range, Set.mem_Iio] at hx hy
    exact Nat.ModEq.eq_of_lt_of_lt this hx hy
  have him : (Finset.range N).image (fun b => (b + a) % N) = Finset.range N := by
    refine Finset.eq_of_subset_of_card_le (fun x hx => ?_) ?_
    · obtain ⟨b, _, rfl⟩ := Finset.mem_image.1 hx
      exact Finset.mem_range.2 (Nat.mod_lt _ hN)
    · rw [Finset.card_image_of_injOn hinj]
  conv_rhs => rw [← him, Finset.sum_image hinj]


/-- A sum over the distances on a ring with an odd number of sites. -/
theorem sum_ring_odd (M : ℕ) (f : ℕ → ℝ) :
    ∑ b ∈ Finset.range (2 * M + 1), f (ringDistance (2 * M + 1) 0 b) = f 0 + 2 * ∑ d ∈ Finset.range M, f (d + 1) := by
  have e1 : ∑ b ∈ Finset.range (M + 1), f (ringDistance (2 * M + 1) 0 b) = f 0 + ∑ d ∈ Finset.range M, f (d + 1) := by
    rw [Finset.sum_range_succ', add_comm]
    congr 1
    refine Finset.sum_congr rfl fun d hd => ?_
    rw [Finset.mem_range] at hd
    congr 1; unfold ringDistance; omega
  have e2 : ∑ b ∈ Finset.range M, f (ringDistance (2 * M + 1) 0 (M + 1 + b)) = ∑ d ∈ Finset.range M, f (d + 1) := by
    rw [← Finset.sum_range_reflect (fun d => f (d + 1))]
    refine Finset.sum_congr rfl fun d hd => ?_
    rw [Finset.mem_range] at hd
    congr 1; unfold ringDistance; omega
  have h := Finset.sum_range_add (fun b => f (ringDistance (2 * M + 1) 0 b)) (M + 1) M
  rw [show M + 1 + M = 2 * M + 1 by ring] at h
  rw [h, e1, e2]; ring

/-! ### Partial sums of the Fourier series of the square wave -/

/-- The partial sums. -/
noncomputable def wave (n : ℕ) (θ : ℝ) : ℝ := ∑ j ∈ Finset.range n, Real.sin ((2 * j + 1) * θ) / (2 * j + 1)

theorem wave_neg (n : ℕ) (θ : ℝ) : wave n (-θ) = -wave n θ := by
  unfold wave
  rw [← Finset.sum_neg_distrib]
  refine Finset.sum_congr rfl fun j _ => ?_
  rw [mul_neg, Real.sin_neg, neg_div]

theorem sum_odd_numbers (n : ℕ) : ∑ j ∈ Finset.range n, (2 * (j : ℝ) + 1) = n ^ 2 := by
  induction n with
  | zero => simp
  | succ n ih => rw [Finset.sum_range_succ, ih]; push_cast; ring

theorem sum_odd_squares (n : ℕ) : ∑ j ∈ Finset.range n, (2 * (j : ℝ) + 1) ^ 2 = (n : ℝ) * (4 * (n : ℝ) ^ 2 - 1) / 3 := by
  induction n with
  | zero => simp
  | succ n ih => rw [Finset.sum_range_succ, ih]; push_cast; ring

/-- The sine lies above the parabola through 0, π/2 (height π/4) and π. -/
theorem sin_above_parabola {u : ℝ} (h0 : 0 < u) (h1 : u < Real.pi) : u - u ^ 2 / Real.pi < Real.sin u := by
  have hp := Real.pi_pos
  have hp4 := Real.pi_lt_d2
  have key : ∀ v : ℝ, 0 < v → v ≤ Real.pi / 2 → v - v ^ 2 / Real.pi < Real.sin v := by
    intro v hv hv2
    refine lt_of_le_of_lt ?_ (Real.sin_gt_sub_cube hv)
    have : v ^ 3 / 6 ≤ v ^ 2 / Real.pi := by
      rw [div_le_div_iff₀ (by norm_num) hp]
      have : v * Real.pi ≤ 6 := by nlinarith
      nlinarith [sq_nonneg v, pow_pos hv 2]
    linarith
  rcases le_total u (Real.pi / 2) with h | h
  · exact key u h0 h
  · have := key (Real.pi - u) (by linarith) (by linarith)
    rw [Real.sin_pi_sub] at this
    have e : Real.pi - u - (Real.pi - u) ^ 2 / Real.pi = u - u ^ 2 / Real.pi := by field_simp; ring
    rwa [e] at this

theorem wave_gibbs {n : ℕ} (hn : 1 ≤ n) : Real.pi / 4 < wave n (Real.pi / (2 * n)) := by
  have hp := Real.pi_pos
  have hn0 : (0 : ℝ) < n := by exact_mod_cast hn
  have e : ∑ j ∈ Finset.range n, (Real.pi / (2 * n) - (2 * (j : ℝ) + 1) * (Real.pi / (4 * n ^ 2))) = Real.pi / 4 := by
    rw [Finset.sum_sub_distrib, ← Finset.sum_mul, sum_odd_numbers, Finset.sum_const, Finset.card_range, nsmul_eq_mul]
    field_simp; ring
  rw [← e]
  refine Finset.sum_lt_sum_of_nonempty ⟨0, Finset.mem_range.2 hn⟩ fun j hj => ?_
  rw [Finset.mem_range] at hj
  have hj1 : ((j : ℝ) + 1) ≤ n := by exact_mod_cast hj
  have hj0 : (0 : ℝ) < 2 * j + 1 := by positivity
  have h := sin_above_parabola (u := (2 * j + 1) * (Real.pi / (2 * n))) (by positivity) (by
    rw [mul_div_assoc', div_lt_iff₀ (by positivity)]; nlinarith)
  rw [lt_div_iff₀ hj0]
  refine lt_of_eq_of_lt ?_ h
  field_simp; ring

/-- A lower bound for the partial sums. -/
theorem wave_cubic (n : ℕ) {θ : ℝ} (h : 0 ≤ θ) : n * θ - 2 / 9 * (n * θ) ^ 3 ≤ wave n θ := by
  have e : ∑ j ∈ Finset.range n, (θ - (2 * (j : ℝ) + 1) ^ 2 * (θ ^ 3 / 6)) = n * θ - n * (4 * n ^ 2 - 1) / 3 * (θ ^ 3 / 6) := by
    rw [Finset.sum_sub_distrib, ← Finset.sum_mul, sum_odd_squares, Finset.sum_const, Finset.card_range, nsmul_eq_mul]
  have h2 : n * θ - 2 / 9 * (n * θ) ^ 3 ≤ n * θ - n * (4 * n ^ 2 - 1) / 3 * (θ ^ 3 / 6) := by
    have : 0 ≤ (n : ℝ) * θ ^ 3 := by positivity
    nlinarith
  refine h2.trans (e ▸ Finset.sum_le_sum fun j _ => ?_)
  have hj0 : (0 : ℝ) < 2 * j + 1 := by positivity
  rw [le_div_iff₀ hj0]
  refine le_trans (le_of_eq ?_) (Real.sin_ge_sub_cube (x := (2 * j + 1) * θ) (by positivity))
  ring

theorem wave_above {n : ℕ} {θ : ℝ} (h0 : 0 ≤ θ) (h1 : Real.pi / 3 ≤ n * θ) (h2 : n * θ ≤ 3 * Real.pi / 7) :
    Real.pi / 4 < wave n θ := by
  refine lt_of_lt_of_le ?_ (wave_cubic n h0)
  have hp1 := Real.pi_gt_d4
  have hp2 := Real.pi_lt_d4
  set α := n * θ
  have a1 : 1.047 ≤ α := by linarith
  have a2 : α ≤ 1.3465 := by linarith
  nlinarith [mul_nonneg (sub_nonneg.2 a1) (sub_nonneg.2 a2), mul_nonneg (mul_nonneg (sub_nonneg.2 a1) (sub_nonneg.2 a2))
    (by linarith : (0 : ℝ) ≤ α)]

/-- Rings of 3, 7, 11, … sites: above 1 at the momentum `π/2 - θ`. -/
theorem wave_above_three {n : ℕ} (hn : 1 ≤ n) : Real.pi / 4 < wave n (3 * Real.pi / (2 * (4 * n - 1))) := by
  have hp := Real.pi_pos
  rcases Nat.lt_or_ge n 2 with h | h
  · obtain rfl : n = 1 := by omega
    have : 3 * Real.pi / (2 * (4 * ((1 : ℕ) : ℝ) - 1)) = Real.pi / 2 := by norm_num; ring
    rw [this]
    unfold wave
    have hp2 := Real.pi_lt_d2
    simp; linarith
  · have hn2 : (2 : ℝ) ≤ n := by exact_mod_cast h
    have hd : (0 : ℝ) < 2 * (4 * n - 1) := by linarith
    refine wave_above (by positivity) ?_ ?_
    · rw [mul_div_assoc', div_le_div_iff₀ (by norm_num) hd]; nlinarith
    · rw [mul_div_assoc', div_le_div_iff₀ hd (by norm_num)]; nlinarith

/-- Rings of 5, 9, 13, … sites: below 0 at the momentum `π/2 + θ`. -/
theorem wave_above_one {n : ℕ} (hn : 1 ≤ n) : Real.pi / 4 < wave n (3 * Real.pi / (2 * (4 * n + 1))) := by
  have hp := Real.pi_pos
  rcases Nat.lt_or_ge n 2 with h | h
  · obtain rfl : n = 1 := by omega
    have hp1 := Real.pi_gt_d2
    have hp2 := Real.pi_lt_d2
    unfold wave
    have e : Real.sin (3 * Real.pi / 10) = wave 1 (3 * Real.pi / (2 * (4 * ((1 : ℕ) : ℝ) + 1))) := by
      unfold wave; norm_num
    have := Real.sin_gt_sub_cube (x := 3 * Real.pi / 10) (by positivity)
    have hc : (3 * Real.pi / 10) ^ 3 ≤ 0.945 ^ 3 := by
      apply pow_le_pow_left₀ (by positivity); linarith
    rw [e] at this
    unfold wave at this
    norm_num at hc
    linarith
  · have hn2 : (2 : ℝ) ≤ n := by exact_mod_cast h
    have hd : (0 : ℝ) < 2 * (4 * n + 1) := by linarith
    refine wave_above (by positivity) ?_ ?_
    · rw [mul_div_assoc', div_le_div_iff₀ (by norm_num) hd]; nlinarith
    · rw [mul_div_assoc', div_le_div_iff₀ hd (by norm_num)]; nlinarith

/-! ### The occupations of plane waves -/

/-- The odd part of the table at half filling. -/
theorem sum_odd (n : ℕ) (θ : ℝ) :
    ∑ d ∈ Finset.range (2 * n), Real.cos ((Real.pi / 2 - θ) * (d + 1 : ℕ)) *
      chainCorrelation (1 / 2 * Real.pi) ((d + 1 : ℕ) : ℝ) = 1 / Real.pi * wave n θ := by
  induction n with
  | zero => simp [wave]
  | succ n ih =>
    rw [show 2 * (n + 1) = 2 * n + 1 + 1 by ring, Finset.sum_range_succ, Finset.sum_range_succ, ih, wave, wave,
      Finset.sum_range_succ (fun i : ℕ => Real.sin ((2 * i + 1) * θ) / (2 * i + 1)) n]
    rw [(half_filling_values n).1, show 2 * n + 1 + 1 = 2 * (n + 1) by ring, (half_filling_values n).2, mul_zero, add_zero]
    have : Real.cos ((Real.pi / 2 - θ) * (2 * n + 1 : ℕ)) = (-1) ^ n * Real.sin ((2 * n + 1) * θ) := by
      rw [show (Real.pi / 2 - θ) * (2 * n + 1 : ℕ) = n * Real.pi + (Real.pi / 2 - (2 * n + 1) * θ) by push_cast; ring,
        Real.cos_add, Real.cos_nat_mul_pi, Real.sin_nat_mul_pi, Real.cos_pi_div_two_sub, zero_mul, sub_zero]
    rw [this]
    have h1 : ((-1 : ℝ) ^ n) * (-1) ^ n = 1 := by rw [← mul_pow]; norm_num
    linear_combination (Real.sin ((2 * n + 1) * θ) / (2 * n + 1) * (1 / Real.pi)) * h1

theorem cos_ring {N : ℕ} (k : ℝ) (m : ℕ) (hk : k * N = 2 * Real.pi * m) {b : ℕ} (hb : b < N) :
    Real.cos (k * b) = Real.cos (k * ringDistance N 0 b) := by
  unfold ringDistance
  rcases le_total b (N - b) with h | h
  · rw [show min (0 - b + (b - 0)) (N - (0 - b + (b - 0))) = b by omega]
  · rw [show min (0 - b + (b - 0)) (N - (0 - b + (b - 0))) = N - b by omega, Nat.cast_sub hb.le, mul_sub, hk,
      ← Real.cos_neg (2 * Real.pi * m - k * b), neg_sub, mul_comm (2 * Real.pi), Real.cos_sub_nat_mul_two_pi]

/-- The eigenvalue of the table on the momentum `π/2 - θ`. -/
theorem eigenvalue {N n : ℕ} (hN : N = 4 * n ∧ 1 ≤ n ∨ N = 4 * n + 1 ∨ N + 1 = 4 * n) (θ : ℝ) (m : ℕ)
    (hk : (Real.pi / 2 - θ) * N = 2 * Real.pi * m) :
    ∑ b ∈ Finset.range N, Real.cos ((Real.pi / 2 - θ) * b) * ringCorrelation (1 / 2) N 0 b =
      1 / 2 + 2 / Real.pi * wave n θ := by
  have e : ∑ b ∈ Finset.range N, Real.cos ((Real.pi / 2 - θ) * b) * ringCorrelation (1 / 2) N 0 b =
      ∑ b ∈ Finset.range N, (fun d : ℕ => Real.cos ((Real.pi / 2 - θ) * d) * chainCorrelation (1 / 2 * Real.pi) (d : ℝ))
        (ringDistance N 0 b) := by
    refine Finset.sum_congr rfl fun b hb => ?_
    rw [cos_ring _ m hk (Finset.mem_range.1 hb)]; rfl
  rw [e]
  have ho := sum_odd n θ
  have h0 : chainCorrelation (1 / 2 * Real.pi) ((0 : ℕ) : ℝ) = 1 / 2 := by rw [Nat.cast_zero, chainCorrelation_zero]
  have h2 : ∀ j : ℕ, 1 ≤ j → chainCorrelation (1 / 2 * Real.pi) ((2 * j : ℕ) : ℝ) = 0 := by
    intro j hj
    obtain ⟨i, rfl⟩ : ∃ i, j = i + 1 := ⟨j - 1, by omega⟩
    exact (half_filling_values i).2
  have hlast : 1 ≤ n → ∑ d ∈ Finset.range (2 * n - 1), Real.cos ((Real.pi / 2 - θ) * (d + 1 : ℕ)) *
      chainCorrelation (1 / 2 * Real.pi) ((d + 1 : ℕ) : ℝ) = 1 / Real.pi * wave n θ := by
    intro hn
    rw [← ho, show 2 * n = 2 * n - 1 + 1 by omega, Finset.sum_range_succ, show 2 * n - 1 + 1 = 2 * n by omega, h2 n hn,
      mul_zero, add_zero]
  rcases hN with ⟨h, hn⟩ | h | h
  · have hs := sum_ring (M := 2 * n) (by omega) (fun d : ℕ => Real.cos ((Real.pi / 2 - θ) * d) *
      chainCorrelation (1 / 2 * Real.pi) (d : ℝ))
    rw [show 2 * (2 * n) = N by omega] at hs
    rw [hs, hlast hn, h0, h2 n hn]; simp; ring
  · have hs := sum_ring_odd (2 * n) (fun d : ℕ => Real.cos ((Real.pi / 2 - θ) * d) *
      chainCorrelation (1 / 2 * Real.pi) (d : ℝ))
    rw [show 2 * (2 * n) + 1 = N by omega] at hs
    rw [hs, ho, h0]; simp; ring
  · have hs := sum_ring_odd (2 * n - 1) (fun d : ℕ => Real.cos ((Real.pi / 2 - θ) * d) *
      chainCorrelation (1 / 2 * Real.pi) (d : ℝ))
    rw [show 2 * (2 * n - 1) + 1 = N by omega] at hs
    rw [hs, hlast (by omega), h0]; simp; ring

/-- The plane wave with momentum `k`. -/
noncomputable def planeWave (N : ℕ) (k : ℝ) : List ℂ := (List.range N).map fun a : ℕ => Complex.exp ((k * a : ℝ) * Complex.I)

theorem planeWave_norm (N : ℕ) (k : ℝ) : ((planeWave N k).map fun z => ‖z‖ ^ 2).sum = N := by
  rw [planeWave, List.map_map, List.map_congr_left (g := fun _ => (1 : ℝ))]
  · simp
  · intro i _
    show ‖Complex.exp ((k * i : ℝ) * Complex.I)‖ ^ 2 = 1
    rw [Complex.norm_exp_ofReal_mul_I, one_pow]

theorem planeWave_sum {N : ℕ} (hN : 0 < N) (filling k : ℝ) (m : ℕ) (hk : k * N = 2 * Real.pi * m) :
    (∑ a ∈ Finset.range N, ∑ b ∈ Finset.range N, (planeWave N k).getD a 0 * conj ((planeWave N k).getD b 0) *
      (ringCorrelation filling N a b : ℂ)).re =
      N * ∑ b ∈ Finset.range N, Real.cos (k * b) * ringCorrelation filling N 0 b := by
  have hget : ∀ i < N, (planeWave N k).getD i 0 = Complex.exp ((k * i : ℝ) * Complex.I) := by
    intro i hi
    simp [planeWave, List.getD_eq_getElem?_getD, hi]
  have hre : ∀ a < N, ∀ b < N, ((planeWave N k).getD a 0 * conj ((planeWave N k).getD b 0) *
      (ringCorrelation filling N a b : ℂ)).re = Real.cos (k * a - k * b) * ringCorrelation filling N a b := by
    intro a ha b hb
    rw [hget a ha, hget b hb, Complex.re_mul_ofReal, ← Complex.exp_conj, ← Complex.exp_add, map_mul, Complex.conj_ofReal,
      Complex.conj_I, show ((k * a : ℝ) : ℂ) * Complex.I + ((k * b : ℝ) : ℂ) * -Complex.I =
        ((k * a - k * b : ℝ) : ℂ) * Complex.I by push_cast; ring, Complex.exp_ofReal_mul_I_re]
  rw [Complex.re_sum, Finset.sum_congr (g := fun _ => ∑ b ∈ Finset.range N, Real.cos (k * b) * ringCorrelation filling N 0 b)
    rfl, Finset.sum_const, Finset.card_range, nsmul_eq_mul]
  intro a ha
  rw [Finset.mem_range] at ha
  rw [Complex.re_sum, Finset.sum_congr rfl fun b hb => hre a ha b (Finset.mem_range.1 hb),
    ← sum_shift hN a (fun b => Real.cos (k * a - k * b) * ringCorrelation filling N a b)]
  refine Finset.sum_congr rfl fun b hb => ?_
  rw [Finset.mem_range] at hb
  have h := ringDistance_shift (s := a) hN hb
  rw [Nat.zero_add, Nat.mod_eq_of_lt ha] at h
  unfold ringCorrelation
  rw [h]
  congr 1
  have hm : ((b + a : ℕ) : ℝ) = (((b + a) % N : ℕ) : ℝ) + N * ((b + a) / N : ℕ) := by
    exact_mod_cast (Nat.mod_add_div (b + a) N).symm
  have : k * a - k * (((b + a) % N : ℕ) : ℝ) = -(k * b - ((m * ((b + a) / N) : ℕ) : ℝ) * (2 * Real.pi)) := by
    push_cast at hm ⊢
    linear_combination k * hm + (((b + a) / N : ℕ) : ℝ) * hk
  rw [this, Real.cos_neg, Real.cos_sub_nat_mul_two_pi]

/-- The occupation the program measures for a plane wave: `N` (the square of the norm) times the eigenvalue of the table. -/
theorem occupation_planeWave {N : ℕ} (hN : 0 < N) (filling k : ℝ) (m : ℕ) (hk : k * N = 2 * Real.pi * m) {sched : List ℕ}
    (hsched : sched.Perm (List.range' 1 (N / 2))) (threads : ℕ)
    (sc : List ℕ) (hsc : sc.Perm (List.range (basis1 N).length)) (s : List Event)
    (hs : Executes threads (loop1 (basis1 N).length) s) :
    ∃ values, evTable1D (Chain.real (K := ℝ) N 1) filling (fermiMomentum1D filling) sched = .val values ∧
      siteOccupation1 (evFunction (Chain.real (K := ℝ) N 1) values) (basis1 N) (getConjugate sc (basis1 N)) (planeWave N k)
        threads s = .val (N * ∑ b ∈ Finset.range N, Real.cos (k * b) * ringCorrelation filling N 0 b) := by
  have hsz := (realBasis_size N).1
  have hc : getConjugate sc (basis1 N) = conjOf (basis1 N) := parallelModify_eq_map _ _ _ hsc
  rw [hsz] at hs
  have hg : ∀ i < N, (basis1 N)[i]? = some (Spec.one i) := fun i hi => ((realBasis_getElem N).1 i hi).1
  obtain ⟨values, e1, ev, hev, htab⟩ := table_ok (N := N) hN filling hsched
  refine ⟨values, e1, ?_⟩
  have key := siteSum1_eq (ev := siteEv ev) (basis := basis1 N) (cb := conjOf (basis1 N)) (E := ringCorrelation filling N)
    (vec := planeWave N k)
    (fun i j hi hj => by rw [← (htab i hi j hj).2]; exact code_11 hi hj (hg i hi) (hg j hj)) (by simp [planeWave]) hs
  rw [hc, hev, siteOccupation1, key, Res.map_val]
  congr 1
  exact planeWave_sum hN filling k m hk

/-- C59 is false of the code: on every ring of 4, 8, 12, 16, … sites at half filling (16 sites and half filling are the
defaults of the program), the table of expectation values of the program assigns to some orbital an occupation above 1 and to
another a negative occupation, whatever the executions of the parallel loops. -/
theorem occupation_wrong {N : ℕ} (h4 : 4 ∣ N) (hN : 0 < N) {sched : List ℕ} (hsched : sched.Perm (List.range' 1 (N / 2)))
    (threads : ℕ) (sc : List ℕ) (hsc : sc.Perm (List.range (basis1 N).length)) (s : List Event)
    (hs : Executes threads (loop1 (basis1 N).length) s) :
    ∃ values, evTable1D (Chain.real (K := ℝ) N 1) (1 / 2) (fermiMomentum1D (1 / 2)) sched = .val values ∧
      (∃ vec : List ℂ, vec.length = (basis1 N).length ∧ ∃ x,
        siteOccupation1 (evFunction (Chain.real (K := ℝ) N 1) values) (basis1 N)
          (getConjugate sc (basis1 N)) vec threads s = .val x ∧ (vec.map fun z => ‖z‖ ^ 2).sum < x) ∧
      ∃ vec : List ℂ, vec.length = (basis1 N).length ∧ ∃ x,
        siteOccupation1 (evFunction (Chain.real (K := ℝ) N 1) values) (basis1 N)
          (getConjugate sc (basis1 N)) vec threads s = .val x ∧ x < 0 := by
  obtain ⟨n, rfl⟩ := h4
  have hn : 1 ≤ n := by omega
  have hn0 : (0 : ℝ) < n := by exact_mod_cast hn
  have hp := Real.pi_pos
  have hw := wave_gibbs hn
  have k1 : (Real.pi / 2 - Real.pi / (2 * n)) * ((4 * n : ℕ) : ℝ) = 2 * Real.pi * ((n - 1 : ℕ) : ℝ) := by
    rw [Nat.cast_sub hn]; push_cast; field_simp; ring
  have k2 : (Real.pi / 2 - -(Real.pi / (2 * n))) * ((4 * n : ℕ) : ℝ) = 2 * Real.pi * ((n + 1 : ℕ) : ℝ) := by
    push_cast; field_simp; ring
  obtain ⟨values, e1, o1⟩ := occupation_planeWave hN (1 / 2) _ _ k1 hsched threads sc hsc s hs
  obtain ⟨values', e2, o2⟩ := occupation_planeWave hN (1 / 2) _ _ k2 hsched threads sc hsc s hs
  obtain rfl : values = values' := by rw [e1] at e2; exact Res.val.inj e2
  rw [eigenvalue (Or.inl ⟨rfl, hn⟩) _ _ k1] at o1
  rw [eigenvalue (Or.inl ⟨rfl, hn⟩) _ _ k2, wave_neg] at o2
  have hgt : 1 < 1 / 2 + 2 / Real.pi * wave n (Real.pi / (2 * n)) := by
    have := mul_lt_mul_of_pos_left hw (by positivity : (0 : ℝ) < 2 / Real.pi)
    rw [show 2 / Real.pi * (Real.pi / 4) = 1 / 2 by field_simp; norm_num] at this
    linarith
  have hNp : (0 : ℝ) < ((4 * n : ℕ) : ℝ) := by exact_mod_cast hN
  refine ⟨values, e1, ⟨_, ?_, _, o1, ?_⟩, ⟨_, ?_, _, o2, ?_⟩⟩
  · simp [planeWave, (realBasis_size _).1]
  · rw [planeWave_norm]; nlinarith
  · simp [planeWave, (realBasis_size _).1]
  · apply mul_neg_of_pos_of_neg hNp; rw [mul_neg]; linarith

/-- C59 is false of the code on rings with an odd number of sites as well, from 3 on: at half filling the occupation of some
orbital lies outside the interval. -/
theorem occupation_wrong_odd {N : ℕ} (hodd : Odd N) (hN : 3 ≤ N) {sched : List ℕ}
    (hsched : sched.Perm (List.range' 1 (N / 2))) (threads : ℕ) (sc : List ℕ)
    (hsc : sc.Perm (List.range (basis1 N).length)) (s : List Event)
    (hs : Executes threads (loop1 (basis1 N).length) s) :
    ∃ values, evTable1D (Chain.real (K := ℝ) N 1) (1 / 2) (fermiMomentum1D (1 / 2)) sched = .val values ∧
      ∃ vec : List ℂ, vec.length = (basis1 N).length ∧ ∃ x,
        siteOccupation1 (evFunction (Chain.real (K := ℝ) N 1) values) (basis1 N)
          (getConjugate sc (basis1 N)) vec threads s = .val x ∧ ((vec.map fun z => ‖z‖ ^ 2).sum < x ∨ x < 0) := by
  have hp := Real.pi_pos
  have hNp : (0 : ℝ) < (N : ℝ) := by exact_mod_cast (by omega : 0 < N)
  have hgt : ∀ w : ℝ, Real.pi / 4 < w → 1 / 2 < 2 / Real.pi * w := by
    intro w hw
    have := mul_lt_mul_of_pos_left hw (by positivity : (0 : ℝ) < 2 / Real.pi)
    rwa [show 2 / Real.pi * (Real.pi / 4) = 1 / 2 by field_simp; norm_num] at this
  obtain ⟨i, hi⟩ := hodd
  rcases Nat.even_or_odd i with ⟨n, hn⟩ | ⟨n', hn'⟩
  · have hn1 : 1 ≤ n := by omega
    have hw := wave_above_one hn1
    have hNn : N = 4 * n + 1 := by omega
    have k2 : (Real.pi / 2 - -(3 * Real.pi / (2 * (4 * n + 1)))) * (N : ℝ) = 2 * Real.pi * ((n + 1 : ℕ) : ℝ) := by
      rw [hNn]; push_cast; field_simp; ring
    obtain ⟨values, e2, o2⟩ := occupation_planeWave (by omega) (1 / 2) _ _ k2 hsched threads sc hsc s hs
    rw [eigenvalue (Or.inr (Or.inl hNn)) _ _ k2, wave_neg] at o2
    refine ⟨values, e2, _, by simp [planeWave, (realBasis_size _).1], _, o2, Or.inr ?_⟩
    apply mul_neg_of_pos_of_neg hNp; rw [mul_neg]; linarith [hgt _ hw]
  · obtain ⟨n, hn⟩ : ∃ n, n = n' + 1 := ⟨_, rfl⟩
    have hn1 : 1 ≤ n := by omega
    have hnr : (1 : ℝ) ≤ n := by exact_mod_cast hn1
    have hw := wave_above_three hn1
    have hNn : N + 1 = 4 * n := by omega
    have hNr : (N : ℝ) = 4 * n - 1 := by
      have : ((N + 1 : ℕ) : ℝ) = ((4 * n : ℕ) : ℝ) := by rw [hNn]
      push_cast at this; linarith
    have k1 : (Real.pi / 2 - 3 * Real.pi / (2 * (4 * n - 1))) * (N : ℝ) = 2 * Real.pi * ((n - 1 : ℕ) : ℝ) := by
      have : (4 * (n : ℝ) - 1) ≠ 0 := by linarith
      rw [hNr, Nat.cast_sub hn1]; push_cast; field_simp; ring
    obtain ⟨values, e1, o1⟩ := occupation_planeWave (by omega) (1 / 2) _ _ k1 hsched threads sc hsc s hs
    rw [eigenvalue (Or.inr (Or.inr hNn)) _ _ k1] at o1
    refine ⟨values, e1, _, by simp [planeWave, (realBasis_size _).1], _, o1, Or.inl ?_⟩
    rw [planeWave_norm]
    nlinarith [hgt _ hw]

/-- The hypotheses are met (one thread; 16 sites are the default of the program). -/
example (N : ℕ) : ∃ s, Executes 1 (loop1 (basis1 N).length) s := ⟨_, executes_sequential _⟩

example : 4 ∣ 16 ∧ Odd 15 := ⟨⟨4, rfl⟩, ⟨7, rfl⟩⟩

end Ieompp.Program
