import Verif.Props.JumpProgram

/-! # C108: the results become as accurate as desired if the steps are small enough, with the fourth power of the step width -/

set_option autoImplicit false
set_option linter.unusedSectionVars false

namespace Ieompp.Program

open Ieompp.Spec RealSpace ODE

/-- Up to a time `T` the error of sufficiently small steps is at most a constant times `dt⁴`. -/
theorem rk4Error_le {B T dt : ℝ} (hB : 0 ≤ B) (hdt : 0 ≤ dt) (hst : dt * B ≤ 1) {k : ℕ} (hk : k * dt ≤ T) :
    rk4Error B dt k ≤ T * (B ^ 5 / 120) * dt ^ 4 := by
  unfold rk4Error
  have h0 : 0 ≤ dt * B := by positivity
  rw [if_pos (by nlinarith), mul_one]
  have : k * dt * dt ^ 4 * (B ^ 5 / 120) = (k * dt) * (B ^ 5 / 120) * dt ^ 4 := by ring
  rw [this]
  gcongr

/-- The time of every row is at most the end time plus one step. -/
theorem row_time {dt tEnd T : ℝ} (hdt : 0 < dt) (hdt1 : dt ≤ 1) (hT : tEnd ≤ T) (hT0 : 0 ≤ T) {interval j : ℕ}
    (hj : j < ⌈tEnd / dt⌉₊ / max interval 1 + 1) : ((j * max interval 1 : ℕ) : ℝ) * dt ≤ T + 1 := by
  have h1 : j * max interval 1 ≤ ⌈tEnd / dt⌉₊ := by
    calc j * max interval 1 ≤ ⌈tEnd / dt⌉₊ / max interval 1 * max interval 1 := Nat.mul_le_mul_right _ (by omega)
      _ ≤ _ := Nat.div_mul_le_self _ _
  have h2 : ((j * max interval 1 : ℕ) : ℝ) ≤ (⌈tEnd / dt⌉₊ : ℝ) := by exact_mod_cast h1
  have h3 : (⌈tEnd / dt⌉₊ : ℝ) ≤ (⌈T / dt⌉₊ : ℝ) := by exact_mod_cast Nat.ceil_mono (by gcongr)
  have h4 : (⌈T / dt⌉₊ : ℝ) < T / dt + 1 := Nat.ceil_lt_add_one (by positivity)
  calc ((j * max interval 1 : ℕ) : ℝ) * dt ≤ (T / dt + 1) * dt := by gcongr; linarith
    _ = T + dt := by field_simp
    _ ≤ T + 1 := by linarith

/-- The bound that the statements below have in common. -/
theorem quadratic_error {B T dt W : ℝ} (hB : 0 ≤ B) (hT : 0 ≤ T) (hW : 0 ≤ W) (hdt : 0 < dt) (hdt1 : dt * (B + 1) ≤ 1) {k : ℕ}
    (hk : k * dt ≤ T) :
    W * (rk4Error B dt k * (2 + rk4Error B dt k)) ≤ W * (T * (B ^ 5 / 120) * (2 + T * (B ^ 5 / 120))) * dt ^ 4 := by
  have h1 : dt * B ≤ 1 := by nlinarith
  have hd1 : dt ≤ 1 := by nlinarith
  have hdt4 : dt ^ 4 ≤ 1 := pow_le_one₀ hdt.le hd1
  have h2 := rk4Error_le hB hdt.le h1 hk
  have h3 := rk4Error_nonneg hB hdt.le k
  have hK : 0 ≤ T * (B ^ 5 / 120) := by positivity
  have h4 : rk4Error B dt k ≤ T * (B ^ 5 / 120) := h2.trans (by nlinarith)
  calc W * (rk4Error B dt k * (2 + rk4Error B dt k)) ≤ W * ((T * (B ^ 5 / 120) * dt ^ 4) * (2 + T * (B ^ 5 / 120))) := by gcongr
    _ = _ := by ring

/-- **C108**, `hubbard_real_1d_rk4`: up to every time `T` there are a step width and a constant such that for all smaller steps, every end
time up to `T`, interval, execution of the parallel parts and content of the work vectors, every number written differs from the exact one by at most
`K dt⁴`. -/
theorem real1dRk4_convergence {N : ℕ} (hN : 3 ≤ N) (J U filling : ℝ) {T : ℝ} (hT : 0 ≤ T) {sort : List (Triplet ℝ) → List (Triplet ℝ)}
    (hs : IsSort sort) {R : Type} [Ring R] [Algebra ℂ R] (C : CAROn N R) (ω : R →ₗ[ℂ] ℂ) (hω : QuasiFree C ω (ringCorrelation filling N))
    {m : Sparse ℝ} (hm : initMatrix sort N 2 (Chain.real (K := ℝ) N 1).neighbors J U = .val m)
    {v : ℝ → ℕ → ℂ} (hv : IsFlow (N + N * N * N) (fun i j => m.get i j) v) :
    ∃ K δ : ℝ, 0 < δ ∧ ∀ dt, 0 < dt → dt ≤ δ → ∀ tEnd ≤ T, ∀ interval < 2 ^ 64, ∀ e : Execution, e.Valid N → ∀ w,
      ∃ s, real1dRk4 sort e w N J U dt tEnd interval filling = .val s ∧ s.out ≠ [] ∧ ∀ row ∈ s.out,
        |row.2 - (ω (C.superpose (basis3 N) (N + N * N * N) (v row.1) * C.superposeAdj (basis3 N) (N + N * N * N) (v row.1))).re|
          ≤ K * dt ^ 4 := by
  set B := 6 * |J| + |U| with hB
  have hB0 : 0 ≤ B := by positivity
  set W := ∑ p ∈ Finset.range (N + N * N * N), ∑ q ∈ Finset.range (N + N * N * N), ‖ω (C.basisOp (basis3 N) p * C.basisOpAdj (basis3 N) q)‖ with hW
  have hW0 : 0 ≤ W := by positivity
  refine ⟨W * ((T + 1) * (B ^ 5 / 120) * (2 + (T + 1) * (B ^ 5 / 120))), 1 / (B + 1), by positivity, ?_⟩
  intro dt hdt hle tEnd htEnd interval hI e he w
  have hst : dt * (B + 1) ≤ 1 := by rwa [← le_div_iff₀ (by positivity)]
  obtain ⟨m', s, h1, h2, h3, h4⟩ := real1dRk4_correct hN J U filling tEnd hdt hI hs he w
  rw [hm] at h1; cases h1
  refine ⟨s, h2, by intro h0; rw [h0] at h3; simp at h3, fun row hrow => ?_⟩
  obtain ⟨j, hj, rfl⟩ := List.getElem_of_mem hrow
  obtain ⟨x, hx, hb⟩ := h4 C ω hω v hv j hj
  rw [List.getElem?_eq_getElem hj, Option.some_inj] at hx
  rw [hx]
  refine hb.trans (quadratic_error hB0 (by linarith) hW0 hdt hst (row_time hdt (by nlinarith) htEnd hT (by rw [← h3]; exact hj)))

/-- **C108**, `hubbard_real_1d_rk4_jump`. -/
theorem real1dRk4Jump_convergence {N : ℕ} (hN : 3 ≤ N) (J U filling : ℝ) {T : ℝ} (hT : 0 ≤ T) {sort : List (Triplet ℝ) → List (Triplet ℝ)}
    (hs : IsSort sort) {m : Sparse ℝ} (hm : initMatrix sort N 2 (Chain.real (K := ℝ) N 1).neighbors J U = .val m)
    {v : ℝ → ℕ → ℂ} (hv : IsFlow (N + N * N * N) (fun i j => m.get i j) v) :
    ∃ K δ : ℝ, 0 < δ ∧ ∀ dt, 0 < dt → dt ≤ δ → ∀ tEnd ≤ T, ∀ interval < 2 ^ 64, ∀ e : JumpExecution, e.Valid N →
      e.table.Perm (List.range' 1 (N / 2)) → ∀ w,
      ∃ s, real1dRk4Jump sort e w N J U dt tEnd interval filling = .val s ∧ s.out ≠ [] ∧ ∀ row ∈ s.out,
        |row.2 - fermiJump (ringCorrelation filling N) N (fun i => filling * Real.pi * i) (v row.1)| ≤ K * dt ^ 4 := by
  set B := 6 * |J| + |U| with hB
  have hB0 : 0 ≤ B := by positivity
  set W := jumpScale (ringCorrelation filling N) N ^ 2 with hW
  have hW0 : 0 ≤ W := by positivity
  refine ⟨W * ((T + 1) * (B ^ 5 / 120) * (2 + (T + 1) * (B ^ 5 / 120))), 1 / (B + 1), by positivity, ?_⟩
  intro dt hdt hle tEnd htEnd interval hI e he ht w
  have hst : dt * (B + 1) ≤ 1 := by rwa [← le_div_iff₀ (by positivity)]
  obtain ⟨m', s, h1, h2, h3, h4⟩ := real1dRk4Jump_correct hN J U filling tEnd hdt hI hs he ht w
  rw [hm] at h1; cases h1
  refine ⟨s, h2, by intro h0; rw [h0] at h3; simp at h3, fun row hrow => ?_⟩
  obtain ⟨j, hj, rfl⟩ := List.getElem_of_mem hrow
  obtain ⟨x, hx, hb⟩ := h4 v hv j hj
  rw [List.getElem?_eq_getElem hj, Option.some_inj] at hx
  rw [hx]
  refine hb.trans (quadratic_error hB0 (by linarith) hW0 hdt hst (row_time hdt (by nlinarith) htEnd hT (by rw [← h3]; exact hj)))

/-- **C108**, `hubbard_real_2d_rk4_jump` on an `N × N` lattice. -/
theorem real2dRk4Jump_convergence {N : ℕ} (hN : 3 ≤ N) (J U kx ky : ℝ) {T : ℝ} (hT : 0 ≤ T) {sort : List (Triplet ℝ) → List (Triplet ℝ)}
    (hs : IsSort sort) {m : Sparse ℝ} (hm : initMatrix sort (N * N) 4 (Square.real (K := ℝ) N N 1 1).neighbors J U = .val m)
    {v : ℝ → ℕ → ℂ} (hv : IsFlow (N * N + N * N * (N * N) * (N * N)) (fun i j => m.get i j) v) :
    ∃ K δ : ℝ, 0 < δ ∧ ∀ dt, 0 < dt → dt ≤ δ → ∀ tEnd ≤ T, ∀ interval < 2 ^ 64, ∀ e : JumpExecution, e.Valid (N * N) →
      e.table2.Perm (evPairs (N / 2) (N / 2)) → ∀ w,
      ∃ s, real2dRk4Jump sort e w N N J U dt tEnd interval kx ky = .val s ∧ s.out ≠ [] ∧ ∀ row ∈ s.out,
        |row.2 - fermiJump (torusCorrelation N) (N * N) (fun i => kx * (i / N : ℕ) + ky * (i % N : ℕ)) (v row.1)| ≤ K * dt ^ 4 := by
  set B := 12 * |J| + |U| with hB
  have hB0 : 0 ≤ B := by positivity
  set W := jumpScale (torusCorrelation N) (N * N) ^ 2 with hW
  have hW0 : 0 ≤ W := by positivity
  refine ⟨W * ((T + 1) * (B ^ 5 / 120) * (2 + (T + 1) * (B ^ 5 / 120))), 1 / (B + 1), by positivity, ?_⟩
  intro dt hdt hle tEnd htEnd interval hI e he ht w
  have hst : dt * (B + 1) ≤ 1 := by rwa [← le_div_iff₀ (by positivity)]
  obtain ⟨m', s, h1, h2, h3, h4⟩ := real2dRk4Jump_partial hN J U kx ky tEnd hdt hI hs he ht w
  rw [hm] at h1; cases h1
  refine ⟨s, h2, by intro h0; rw [h0] at h3; simp at h3, fun row hrow => ?_⟩
  obtain ⟨j, hj, rfl⟩ := List.getElem_of_mem hrow
  obtain ⟨x, hx, hb⟩ := h4 v hv j hj
  rw [List.getElem?_eq_getElem hj, Option.some_inj] at hx
  rw [hx]
  refine hb.trans (quadratic_error hB0 (by linarith) hW0 hdt hst (row_time hdt (by nlinarith) htEnd hT (by rw [← h3]; exact hj)))

/-- **C108**, `hubbard_real_1d_rk4_coefficients`: the same for every coefficient. -/
theorem real1dRk4Coefficients_convergence {N : ℕ} (hN : 3 ≤ N) (J U : ℝ) {T : ℝ} (hT : 0 ≤ T) {sort : List (Triplet ℝ) → List (Triplet ℝ)}
    (hs : IsSort sort) {m : Sparse ℝ} (hm : initMatrix sort N 2 (Chain.real (K := ℝ) N 1).neighbors J U = .val m)
    {v : ℝ → ℕ → ℂ} (hv : IsFlow (N + N * N * N) (fun i j => m.get i j) v) :
    ∃ K δ : ℝ, 0 < δ ∧ ∀ dt, 0 < dt → dt ≤ δ → ∀ tEnd ≤ T, ∀ interval < 2 ^ 64, ∀ w,
      ∃ s, real1dRk4Coefficients sort w N J U dt tEnd interval = .val s ∧ s.out ≠ [] ∧ ∀ row ∈ s.out, row.2.length = 2 * (N + N * N * N) ∧
        ∀ p < N + N * N * N, ∃ x y, row.2[2 * p]? = some x ∧ row.2[2 * p + 1]? = some y ∧ ‖(⟨x, y⟩ : ℂ) - v row.1 p‖ ≤ K * dt ^ 4 := by
  set B := 6 * |J| + |U| with hB
  have hB0 : 0 ≤ B := by positivity
  refine ⟨(T + 1) * (B ^ 5 / 120), 1 / (B + 1), by positivity, ?_⟩
  intro dt hdt hle tEnd htEnd interval hI w
  have hst : dt * (B + 1) ≤ 1 := by rwa [← le_div_iff₀ (by positivity)]
  obtain ⟨m', s, h1, h2, h3, h4⟩ := real1dRk4Coefficients_correct hN J U tEnd hdt hI hs w
  rw [hm] at h1; cases h1
  refine ⟨s, h2, by intro h0; rw [h0] at h3; simp at h3, fun row hrow => ?_⟩
  obtain ⟨j, hj, rfl⟩ := List.getElem_of_mem hrow
  obtain ⟨xs, hx, hl, hb⟩ := h4 v hv j hj
  rw [List.getElem?_eq_getElem hj, Option.some_inj] at hx
  rw [hx]
  refine ⟨hl, fun p hp => ?_⟩
  obtain ⟨x, y, g1, g2, g3⟩ := hb p hp
  exact ⟨x, y, g1, g2, g3.trans (rk4Error_le hB0 hdt.le (by nlinarith)
    (row_time hdt (by nlinarith) htEnd hT (by rw [← h3]; exact hj)))⟩

/-- **C108**, `hubbard_real_1d_kinetic_rk4_coefficients`, with an explicit constant: for `dt (2|J| + 1) ≤ 1` every coefficient is that of the
particle on the ring up to `(T + 1) (2J)⁵ / 120 · dt⁴`. -/
theorem real1dKineticRk4Coefficients_convergence {N : ℕ} (hN : 3 ≤ N) (J : ℝ) {T : ℝ} (hT : 0 ≤ T)
    {sort : List (Triplet ℝ) → List (Triplet ℝ)} (hs : IsSort sort) {dt : ℝ} (hdt : 0 < dt) (hst : dt * (2 * |J| + 1) ≤ 1) {tEnd : ℝ}
    (htEnd : tEnd ≤ T) {interval : ℕ} (hI : interval < 2 ^ 64) (w : Work ℂ) :
    ∃ s, real1dKineticRk4Coefficients sort w N J dt tEnd interval = .val s ∧ s.out ≠ [] ∧ ∀ row ∈ s.out, row.2.length = 2 * N ∧
      ∀ p < N, ∃ x y, row.2[2 * p]? = some x ∧ row.2[2 * p + 1]? = some y ∧
        ‖(⟨x, y⟩ : ℂ) - hoppingAmplitude N J row.1 p‖ ≤ (T + 1) * ((2 * |J|) ^ 5 / 120) * dt ^ 4 := by
  obtain ⟨s, h2, h3, h4⟩ := real1dKineticRk4Coefficients_correct hN J tEnd hdt hI hs w
  refine ⟨s, h2, by intro h0; rw [h0] at h3; simp at h3, fun row hrow => ?_⟩
  obtain ⟨j, hj, rfl⟩ := List.getElem_of_mem hrow
  obtain ⟨xs, hx, hl, hb⟩ := h4 j hj
  rw [List.getElem?_eq_getElem hj, Option.some_inj] at hx
  rw [hx]
  refine ⟨hl, fun p hp => ?_⟩
  obtain ⟨x, y, g1, g2, g3⟩ := hb p hp
  have hJ : 0 ≤ |J| := abs_nonneg J
  exact ⟨x, y, g1, g2, g3.trans (rk4Error_le (by positivity) hdt.le (by nlinarith)
    (row_time hdt (by nlinarith) htEnd hT (by rw [← h3]; exact hj)))⟩

/-- The hypotheses are met: the flow exists, and the default settings of the kinetic program are in the region. -/
example : (∃ (m : Sparse ℝ) (v : ℝ → ℕ → ℂ),
    initMatrix (fun l => l.mergeSort (fun a b => a.column ≤ b.column)) 4 2 (Chain.real (K := ℝ) 4 1).neighbors 1 2 = .val m ∧
    IsFlow (4 + 4 * 4 * 4) (fun i j => m.get i j) v) ∧ (1 / 100 : ℝ) * (2 * |1| + 1) ≤ 1 := by
  have hreg := chain_regular (Chain.Constructed.real (N := 4) (1 : ℝ) (by norm_num) rfl) (by norm_num)
  obtain ⟨m, h1, _⟩ := initMatrix_ok hreg _ mergeSort_isSort (1 : ℝ) 2
  obtain ⟨v, hv⟩ := flow_exists (4 + 4 * 4 * 4) (fun i j => m.get i j)
  exact ⟨⟨m, v, h1, hv⟩, by norm_num⟩

end Ieompp.Program
