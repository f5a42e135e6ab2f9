import Verif.Props.JumpProgram
import Verif.Props.RK4Stability

/-!
# C105: the printed coefficients stay bounded exactly for step widths in the stability region
-/

set_option autoImplicit false
set_option linter.unusedSectionVars false

namespace Ieompp.Program

open Ieompp.Spec RealSpace ODE

/-- The coefficient of the `p`-th basis operator in a row of the output (real and imaginary part in neighbouring columns). -/
noncomputable def coefficientOf (xs : List ℝ) (p : ℕ) : ℂ := ⟨xs.getD (2 * p) 0, xs.getD (2 * p + 1) 0⟩

theorem coefficientOf_row {n : ℕ} (y : Fin n → ℂ) (p : Fin n) : coefficientOf (coefficientRow (List.ofFn y)) p = y p := by
  obtain ⟨-, g1, g2⟩ := coefficientRow_get (List.ofFn y) p
  rw [List.getElem?_ofFn, dif_pos p.2, Option.map_some] at g1 g2
  unfold coefficientOf
  rw [List.getD_eq_getElem?_getD, List.getD_eq_getElem?_getD, g1, g2]
  rfl

theorem mem_coefficientRow {l : List ℂ} {x : ℝ} (hx : x ∈ coefficientRow l) : ∃ z ∈ l, x = z.re ∨ x = z.im := by
  unfold coefficientRow at hx
  rw [List.mem_flatMap] at hx
  obtain ⟨z, hz, h⟩ := hx
  exact ⟨z, hz, by simpa using h⟩

/-- If all columns of a matrix have the same sum, so have those of the Runge–Kutta step. -/
theorem sum_exp4 {n : ℕ} (A : Matrix (Fin n) (Fin n) ℂ) (c : ℂ) (hA : ∀ j, ∑ i, A i j = c) (h : ℂ) (k : ℕ) (u : Fin n → ℂ) :
    ∑ i, ((exp4 h A) ^ k).mulVec u i = (exp4 h c) ^ k * ∑ i, u i := by
  have h1 : ∀ u : Fin n → ℂ, ∑ i, A.mulVec u i = c * ∑ i, u i := by
    intro u
    simp only [Matrix.mulVec, dotProduct]
    rw [Finset.sum_comm, Finset.mul_sum]
    refine Finset.sum_congr rfl fun j _ => ?_
    rw [← Finset.sum_mul, hA]
  have h2 : ∀ (j : ℕ) (u : Fin n → ℂ), ∑ i, (A ^ j).mulVec u i = c ^ j * ∑ i, u i := by
    intro j
    induction j with
    | zero => intro u; simp
    | succ j ih =>
      intro u
      rw [pow_succ, ← Matrix.mulVec_mulVec, ih, h1, pow_succ]
      ring
  have h3 : ∀ u : Fin n → ℂ, ∑ i, (exp4 h A).mulVec u i = exp4 h c * ∑ i, u i := by
    intro u
    unfold exp4
    rw [Matrix.sum_mulVec]
    simp only [Finset.sum_apply, Matrix.smul_mulVec, Pi.smul_apply, smul_eq_mul]
    rw [Finset.sum_comm, Finset.sum_mul]
    refine Finset.sum_congr rfl fun j _ => ?_
    rw [← Finset.mul_sum, h2]
    ring
  induction k generalizing u with
  | zero => simp
  | succ k ih =>
    rw [pow_succ, ← Matrix.mulVec_mulVec, ih, h3, pow_succ]
    ring

/-- The modulus of the Runge–Kutta step for an imaginary number. -/
theorem exp4_imaginary (dt a : ℝ) : ‖exp4 (dt : ℂ) (Complex.I * (a : ℂ))‖ ^ 2 = 1 - (dt * a) ^ 6 / 72 + (dt * a) ^ 8 / 576 := by
  have e : exp4 (dt : ℂ) (Complex.I * (a : ℂ)) = ⟨1 - (dt * a) ^ 2 / 2 + (dt * a) ^ 4 / 24, dt * a - (dt * a) ^ 3 / 6⟩ := by
    unfold exp4
    simp only [Finset.sum_range_succ, Finset.sum_range_zero, Nat.factorial, mul_pow]
    have i2 : Complex.I ^ 2 = -1 := Complex.I_sq
    have i3 : Complex.I ^ 3 = -Complex.I := by rw [pow_succ, i2]; ring
    have i4 : Complex.I ^ 4 = 1 := Complex.I_pow_four
    rw [i2, i3, i4]
    apply Complex.ext
    · simp [← Complex.ofReal_pow]
      ring
    · simp [← Complex.ofReal_pow]
      ring
  rw [e, ← Complex.normSq_eq_norm_sq, Complex.normSq_mk]
  ring

/-- Inside the stability region no coefficient exceeds 1. -/
theorem row_bounded {n : ℕ} (hn : 1 ≤ n) (m : Sparse ℝ) (hsym : ∀ p < n, ∀ q < n, m.get p q = m.get q p) {B : ℝ}
    (hB : ∀ i < n, ∑ j ∈ Finset.range n, |m.get i j| ≤ B) (hB0 : 0 ≤ B) {dt : ℝ} (hdt : 0 ≤ dt) (hst : (dt * B) ^ 2 ≤ 8) (k : ℕ) {x : ℝ}
    (hx : x ∈ coefficientRow (List.ofFn ((exp4 (dt : ℂ) (mat n (timesI m)) ^ k).mulVec
          fun p : Fin n => if (p : ℕ) = 0 then 1 else 0))) : |x| ≤ 1 := by
  obtain ⟨z, hz, hxz⟩ := mem_coefficientRow hx
  obtain ⟨p, rfl⟩ := (List.mem_ofFn' _ _).1 hz
  set u : Fin n → ℂ := fun p : Fin n => if (p : ℕ) = 0 then 1 else 0 with hu
  have hnorm : ∀ k, normSq2 ((exp4 (dt : ℂ) (mat n (timesI m)) ^ k).mulVec u) ≤ 1 := by
    intro k
    induction k with
    | zero =>
      rw [pow_zero, Matrix.one_mulVec]
      unfold normSq2
      rw [Finset.sum_congr (g := fun p : Fin n => if (p : ℕ) = 0 then (1 : ℝ) else 0) rfl fun p _ => by
        simp only [hu]; split_ifs <;> simp,
        Fin.sum_univ_eq_sum_range (fun p => if p = 0 then (1 : ℝ) else 0), Finset.sum_ite_eq' (Finset.range n) 0]
      split_ifs <;> norm_num
    | succ k ih =>
      refine le_trans ?_ ih
      rw [pow_succ', ← Matrix.mulVec_mulVec]
      exact exp4_norm_le (fun i j => m.get i j) hsym B dt hB0 hdt hB hst _
  have h1 : ‖((exp4 (dt : ℂ) (mat n (timesI m)) ^ k).mulVec u) p‖ ^ 2 ≤ 1 :=
    le_trans (Finset.single_le_sum (f := fun i => ‖((exp4 (dt : ℂ) (mat n (timesI m)) ^ k).mulVec u) i‖ ^ 2)
      (fun i _ => by positivity) (Finset.mem_univ p)) (hnorm _)
  have h2 : ‖((exp4 (dt : ℂ) (mat n (timesI m)) ^ k).mulVec u) p‖ ≤ 1 := by
    have := norm_nonneg (((exp4 (dt : ℂ) (mat n (timesI m)) ^ k).mulVec u) p)
    nlinarith
  rcases hxz with rfl | rfl
  · exact (Complex.abs_re_le_norm _).trans h2
  · exact (Complex.abs_im_le_norm _).trans h2

/-- The output of the program in terms of the integrator, with the facts about its matrix. -/
theorem kinetic_output {N : ℕ} (hN : 3 ≤ N) (J tEnd : ℝ) {dt : ℝ} (hdt : 0 < dt) {interval : ℕ} (hI : interval < 2 ^ 64)
    {sort : List (Triplet ℝ) → List (Triplet ℝ)} (hs : IsSort sort) (w : Work ℂ) :
    ∃ (m : Sparse ℝ) (s : Sim.State Vars (List ℝ)), real1dKineticRk4Coefficients sort w N J dt tEnd interval = .val s ∧
      (∀ p < N, ∀ q < N, m.get p q = m.get q p) ∧ (∀ i < N, ∑ j ∈ Finset.range N, |m.get i j| ≤ 2 * |J|) ∧
      (∀ i < N, ∑ j ∈ Finset.range N, m.get i j = -(2 * J)) ∧
      s.out = (List.range (⌈tEnd / dt⌉₊ / max interval 1 + 1)).map fun j => (((j * max interval 1 : ℕ) : ℝ) * dt,
        coefficientRow (List.ofFn ((exp4 (dt : ℂ) (mat N (timesI m)) ^ (j * max interval 1)).mulVec
          fun p : Fin N => if (p : ℕ) = 0 then 1 else 0))) := by
  have hsz := (realBasis_size N).1
  have hreg := chain_regular (Chain.Constructed.real (N := N) (1 : ℝ) (by omega) rfl) hN
  obtain ⟨m, h1, h2, _, _, _, _, h3⟩ := initKineticMatrix_ok hreg sort hs J
  have hm : ∀ (f : ℝ → ℝ), f 0 = 0 → ∀ i < N, ∑ j ∈ Finset.range N, f (m.get i j) = 2 * f (-J) := by
    intro f f0 i hi
    rw [Finset.sum_congr (g := fun c => if c ∈ (Chain.real (K := ℝ) N 1).neighbors i then f (-J) else 0) rfl fun c hc => by
      rw [h3 i hi c (Finset.mem_range.1 hc), apply_ite f, f0]]
    rw [sum_neighbors (hreg.nodup i hi) (hreg.lt i hi) (fun _ => f (-J)), List.map_const', List.sum_replicate, hreg.length i hi,
      nsmul_eq_mul]
    norm_num
  have hsym : ∀ p < N, ∀ q < N, m.get p q = m.get q p := by
    intro p hp q hq
    rw [h3 p hp q hq, h3 q hq p hp]
    have : q ∈ (Chain.real (K := ℝ) N 1).neighbors p ↔ p ∈ (Chain.real (K := ℝ) N 1).neighbors q :=
      ⟨hreg.symm p hp q hq, hreg.symm q hq p hp⟩
    simp only [this]
  obtain ⟨s, e1, e2⟩ := simulate_rk4 N m (fun s => .val (coefficientRow s.2.2)) (fun y => coefficientRow (List.ofFn y))
    (fun k w y => rfl) hdt tEnd hI w fun p : Fin N => if (p : ℕ) = 0 then 1 else 0
  refine ⟨m, s, ?_, hsym, fun i hi => ?_, fun i hi => ?_, e2⟩
  · unfold real1dKineticRk4Coefficients
    simp only [h1, Res.bind_val, hsz, initVector_ofFn (n := N) (by omega)]
    exact e1
  · rw [hm abs abs_zero i hi, abs_neg]
  · have := hm id rfl i hi
    simp only [id_eq] at this
    rw [this]
    ring

theorem sum_start {N : ℕ} (hN : 3 ≤ N) : ∑ p : Fin N, (if (p : ℕ) = 0 then (1 : ℂ) else 0) = 1 := by
  rw [Fin.sum_univ_eq_sum_range (fun p => if p = 0 then (1 : ℂ) else 0), Finset.sum_ite_eq' (Finset.range N) 0]
  simp; omega

/-- **C105**, the sum of all coefficients of `hubbard_real_1d_kinetic_rk4_coefficients`: its squared modulus is
`(1 - x⁶/72 + x⁸/576)^k` after `k` steps, with `x = 2 J dt`. -/
theorem kinetic_sum {N : ℕ} (hN : 3 ≤ N) (J tEnd : ℝ) {dt : ℝ} (hdt : 0 < dt) {interval : ℕ} (hI : interval < 2 ^ 64)
    {sort : List (Triplet ℝ) → List (Triplet ℝ)} (hs : IsSort sort) (w : Work ℂ) :
    ∃ s, real1dKineticRk4Coefficients sort w N J dt tEnd interval = .val s ∧ s.out.length = ⌈tEnd / dt⌉₊ / max interval 1 + 1 ∧
      ∀ j < s.out.length, ∃ xs, s.out[j]? = some (((j * max interval 1 : ℕ) : ℝ) * dt, xs) ∧
        ‖∑ p ∈ Finset.range N, coefficientOf xs p‖ ^ 2 =
          (1 - (2 * J * dt) ^ 6 / 72 + (2 * J * dt) ^ 8 / 576) ^ (j * max interval 1) := by
  obtain ⟨m, s, e, hsym, -, hcol, ho⟩ := kinetic_output hN J tEnd hdt hI hs w
  refine ⟨s, e, by rw [ho]; simp, fun j hj => ?_⟩
  rw [ho] at hj ⊢
  simp only [List.length_map, List.length_range] at hj
  refine ⟨_, by rw [List.getElem?_map, List.getElem?_range hj]; rfl, ?_⟩
  rw [← Fin.sum_univ_eq_sum_range, Finset.sum_congr rfl fun p _ => coefficientOf_row _ p,
    sum_exp4 _ (Complex.I * ((-(2 * J) : ℝ) : ℂ)) (fun q => ?_), sum_start hN, mul_one, norm_pow, pow_right_comm,
    exp4_imaginary]
  · congr 1
    ring
  · show ∑ i : Fin N, Complex.I * ((m.get i q : ℝ) : ℂ) = _
    rw [← Finset.mul_sum, ← Complex.ofReal_sum, Fin.sum_univ_eq_sum_range (fun i => m.get i q),
      Finset.sum_congr rfl fun i hi => hsym i (Finset.mem_range.1 hi) q q.2, hcol q q.2]

/-- The exact amplitudes have a sum of modulus one at all times. -/
theorem hopping_sum {N : ℕ} (hN : 0 < N) (J t : ℝ) : ‖∑ p ∈ Finset.range N, hoppingAmplitude N J t p‖ = 1 := by
  have e : ∑ p ∈ Finset.range N, hoppingAmplitude N J t p = Complex.exp (((-(2 * J * t) : ℝ) : ℂ) * Complex.I) := by
    unfold hoppingAmplitude
    rw [← Finset.mul_sum, Finset.sum_comm]
    have : ∀ q ∈ Finset.range N, ∑ p ∈ Finset.range N, Complex.exp (Complex.I * (2 * Real.pi * q / N * p : ℝ)) *
        Complex.exp (-Complex.I * (2 * J * t * Real.cos (2 * Real.pi * q / N) : ℝ)) =
        if q = 0 then (N : ℂ) * Complex.exp (((-(2 * J * t) : ℝ) : ℂ) * Complex.I) else 0 := by
      intro q hq
      rw [← Finset.sum_mul]
      have h := sum_roots hN (Finset.mem_range.1 hq)
      rw [Finset.sum_congr rfl fun (p : ℕ) _ => show Complex.exp (Complex.I * (2 * Real.pi * q / N * p : ℝ)) =
        Complex.exp (Complex.I * (2 * Real.pi * p / N * q : ℝ)) by congr 3; ring, h]
      split_ifs with h0
      · subst h0
        congr 2
        push_cast
        simp
        ring
      · rw [zero_mul]
    rw [Finset.sum_congr rfl this, Finset.sum_ite_eq' (Finset.range N) 0, if_pos (Finset.mem_range.2 hN)]
    have : (N : ℂ) ≠ 0 := by exact_mod_cast hN.ne'
    field_simp
  rw [e, Complex.norm_exp_ofReal_mul_I]

/-- **C105**, exactly, for `hubbard_real_1d_kinetic_rk4_coefficients`: the numbers in the output have a bound that holds for all end times if
and only if `(2 J dt)² ≤ 8`; in this case they are at most 1 in magnitude. -/
theorem kinetic_bounded_iff {N : ℕ} (hN : 3 ≤ N) (J : ℝ) {dt : ℝ} (hdt : 0 < dt) {interval : ℕ} (hI : interval < 2 ^ 64)
    {sort : List (Triplet ℝ) → List (Triplet ℝ)} (hs : IsSort sort) (w : Work ℂ) :
    ((∃ B, ∀ tEnd s, real1dKineticRk4Coefficients sort w N J dt tEnd interval = .val s → ∀ row ∈ s.out, ∀ x ∈ row.2, |x| ≤ B) ↔
      (2 * J * dt) ^ 2 ≤ 8) ∧
    ((2 * J * dt) ^ 2 ≤ 8 → ∀ tEnd s, real1dKineticRk4Coefficients sort w N J dt tEnd interval = .val s → ∀ row ∈ s.out, ∀ x ∈ row.2, |x| ≤ 1) := by
  have hst : (2 * J * dt) ^ 2 ≤ 8 → ∀ tEnd s, real1dKineticRk4Coefficients sort w N J dt tEnd interval = .val s →
      ∀ row ∈ s.out, ∀ x ∈ row.2, |x| ≤ 1 := by
    intro hx tEnd s e row hrow x hmem
    obtain ⟨m, s', e', hsym, hB, -, ho⟩ := kinetic_output hN J tEnd hdt hI hs w
    rw [e] at e'; cases e'
    rw [ho, List.mem_map] at hrow
    obtain ⟨j, -, rfl⟩ := hrow
    refine row_bounded (by omega) m hsym hB (by positivity) hdt.le ?_ _ hmem
    calc (dt * (2 * |J|)) ^ 2 = (2 * J * dt) ^ 2 := by rw [mul_pow, mul_pow, sq_abs]; ring
      _ ≤ 8 := hx
  refine ⟨⟨?_, fun h => ⟨1, hst h⟩⟩, hst⟩
  rintro ⟨B, hB⟩
  by_contra hx
  push Not at hx
  set x := 2 * J * dt with hxd
  have hgrow : 1 < 1 - x ^ 6 / 72 + x ^ 8 / 576 := by
    have h6 : 0 < x ^ 6 := by
      have : x ≠ 0 := by rintro h; rw [h] at hx; norm_num at hx
      positivity
    have : x ^ 8 = x ^ 6 * x ^ 2 := by ring
    rw [this]
    nlinarith
  obtain ⟨k, hk⟩ := pow_unbounded_of_one_lt ((N * (2 * B)) ^ 2) hgrow
  set M := max interval 1 with hM
  have hM1 : 1 ≤ M := le_max_right _ _
  obtain ⟨s, e, hl, hrow⟩ := kinetic_sum hN J ((k * M : ℕ) * dt) hdt hI hs w
  have hlen : k < s.out.length := by
    rw [hl, mul_div_assoc, div_self hdt.ne', mul_one, Nat.ceil_natCast, Nat.mul_div_cancel _ (by omega)]
    omega
  obtain ⟨xs, h1, h2⟩ := hrow k hlen
  rw [← hxd] at h2
  have hall : ∀ y, |xs.getD y 0| ≤ B ∨ xs.getD y 0 = 0 := by
    intro y
    rw [List.getD_eq_getElem?_getD]
    cases hy : xs[y]? with
    | none => exact Or.inr rfl
    | some z => exact Or.inl (hB _ s e _ (List.mem_of_getElem? h1) z (List.mem_of_getElem? hy))
  have hB0 : 0 ≤ B := by
    rcases hall 0 with h | h
    · exact (abs_nonneg _).trans h
    · by_contra hneg
      push Not at hneg
      have hz : ∀ y, xs.getD y 0 = 0 := fun y => (hall y).resolve_left fun h' => by linarith [abs_nonneg (xs.getD y 0)]
      have : ∀ p, coefficientOf xs p = 0 := fun p => by unfold coefficientOf; rw [hz, hz]; rfl
      rw [Finset.sum_congr rfl fun p _ => this p, Finset.sum_const_zero, norm_zero] at h2
      have : 0 < (1 - x ^ 6 / 72 + x ^ 8 / 576) ^ (k * M) := by positivity
      rw [← h2] at this
      norm_num at this
  have hcoef : ∀ p, ‖coefficientOf xs p‖ ≤ 2 * B := by
    intro p
    have hle : ∀ y, |xs.getD y 0| ≤ B := fun y => (hall y).elim id fun h => by rw [h, abs_zero]; exact hB0
    refine (Complex.norm_le_abs_re_add_abs_im _).trans ?_
    have h1 := hle (2 * p)
    have h2 := hle (2 * p + 1)
    show |xs.getD (2 * p) 0| + |xs.getD (2 * p + 1) 0| ≤ 2 * B
    linarith
  have hsum : ‖∑ p ∈ Finset.range N, coefficientOf xs p‖ ≤ N * (2 * B) := by
    refine (norm_sum_le _ _).trans ?_
    refine (Finset.sum_le_sum fun p _ => hcoef p).trans ?_
    simp
  have h3 : ‖∑ p ∈ Finset.range N, coefficientOf xs p‖ ^ 2 ≤ (N * (2 * B)) ^ 2 := by gcongr
  have h4 : (1 - x ^ 6 / 72 + x ^ 8 / 576) ^ k ≤ (1 - x ^ 6 / 72 + x ^ 8 / 576) ^ (k * M) :=
    pow_le_pow_right₀ hgrow.le (Nat.le_mul_of_pos_right k (by omega))
  rw [h2] at h3
  linarith

/-- **C105** for `hubbard_real_1d_rk4_coefficients`: if `dt (6 |J| + |U|) ≤ √8`, all numbers in the output are at most 1 in magnitude, for all
end times. -/
theorem complete_bounded {N : ℕ} (hN : 3 ≤ N) (J U : ℝ) {dt : ℝ} (hdt : 0 < dt) (hst : (dt * (6 * |J| + |U|)) ^ 2 ≤ 8) {interval : ℕ}
    (hI : interval < 2 ^ 64) {sort : List (Triplet ℝ) → List (Triplet ℝ)} (hs : IsSort sort) (w : Work ℂ) (tEnd : ℝ)
    (s : Sim.State Vars (List ℝ)) (e : real1dRk4Coefficients sort w N J U dt tEnd interval = .val s) :
    ∀ row ∈ s.out, ∀ x ∈ row.2, |x| ≤ 1 := by
  intro row hrow x hmem
  have hsz := (realBasis_size N).2
  have hreg := chain_regular (Chain.Constructed.real (N := N) (1 : ℝ) (by omega) rfl) hN
  obtain ⟨m, h1, h2, _, _, _, _, h3, _⟩ := initMatrix_ok hreg sort hs J U
  obtain ⟨m', h1', _, hsym⟩ := initMatrix_symm hreg sort hs J U
  rw [h1] at h1'; cases h1'
  rw [h2] at hsym
  have hB : ∀ i < N + N * N * N, ∑ j ∈ Finset.range (N + N * N * N), |m.get i j| ≤ 6 * |J| + |U| := by
    intro i hi
    rw [Finset.sum_congr rfl fun c _ => by rw [h3 i hi c]]
    refine ((sum_abs_columnSum _ _).trans (row_abs_sum hreg J U hi)).trans (le_of_eq ?_)
    push_cast; ring
  obtain ⟨s', e1, e2⟩ := simulate_rk4 (N + N * N * N) m (fun s => .val (coefficientRow s.2.2)) (fun y => coefficientRow (List.ofFn y))
    (fun k w y => rfl) hdt tEnd hI w fun p : Fin (N + N * N * N) => if (p : ℕ) = 0 then 1 else 0
  have : s = s' := by
    unfold real1dRk4Coefficients at e
    simp only [h1, Res.bind_val, hsz, initVector_ofFn (n := N + N * N * N) (by omega)] at e
    rw [e1] at e
    exact (Res.val.inj e).symm
  subst this
  rw [e2, List.mem_map] at hrow
  obtain ⟨j, -, rfl⟩ := hrow
  exact row_bounded (by omega) m hsym hB (by positivity) hdt.le hst _ hmem

/-- The step width `dt = 2` for `J = 1` is outside of the region, the default `dt = 0.01` inside. -/
example : ¬ (2 * (1 : ℝ) * 2) ^ 2 ≤ 8 ∧ (2 * (1 : ℝ) * (1 / 100)) ^ 2 ≤ 8 := by norm_num

end Ieompp.Program
