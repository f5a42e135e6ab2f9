import Verif.Props.Convergence
import Verif.Props.StepWidth

/-!
# C105, C108: the kinetic occupation program, and the exact coefficients
-/

set_option autoImplicit false
set_option linter.unusedSectionVars false

namespace Ieompp.Program

open Ieompp.Spec RealSpace ODE

/-- **C108**, `hubbard_real_1d_kinetic_rk4`: the exact occupation of a non-interacting chain is the filling at all times; every number the
program writes differs from it by at most `K dt⁴`. -/
theorem real1dKineticRk4_convergence {N : ℕ} (hN : 3 ≤ N) (J filling : ℝ) {T : ℝ} (hT : 0 ≤ T) {sort : List (Triplet ℝ) → List (Triplet ℝ)}
    (hs : IsSort sort) {R : Type} [Ring R] [Algebra ℂ R] (C : CAROn N R) (ω : R →ₗ[ℂ] ℂ) (hω : QuasiFree C ω (ringCorrelation filling N))
    {m : Sparse ℝ} (hm : initKineticMatrix sort N 2 (Chain.real (K := ℝ) N 1).neighbors J = .val m)
    {v : ℝ → ℕ → ℂ} (hv : IsFlow N (fun i j => m.get i j) v) :
    ∃ K δ : ℝ, 0 < δ ∧ ∀ dt, 0 < dt → dt ≤ δ → ∀ tEnd ≤ T, ∀ interval < 2 ^ 64, ∀ e : Execution, e.ValidKinetic N → ∀ w,
      ∃ s, real1dKineticRk4 sort e w N J dt tEnd interval filling = .val s ∧ s.out ≠ [] ∧ ∀ row ∈ s.out,
        |row.2 - (ω (C.superpose (basis1 N) N (v row.1) * C.superposeAdj (basis1 N) N (v row.1))).re| ≤ K * dt ^ 4 := by
  set B := 2 * |J| with hB
  have hB0 : 0 ≤ B := by positivity
  set W := ∑ a ∈ Finset.range N, ∑ b ∈ Finset.range N, |ringCorrelation filling N a b| with hW
  have hW0 : 0 ≤ W := by positivity
  refine ⟨W * ((T + 1) * (B ^ 5 / 120) * (2 + (T + 1) * (B ^ 5 / 120))), 1 / (B + 1), by positivity, ?_⟩
  intro dt hdt hle tEnd htEnd interval hI e he w
  have hst : dt * (B + 1) ≤ 1 := by rwa [← le_div_iff₀ (by positivity)]
  obtain ⟨m', s, h1, h2, h3, h5, h4⟩ := real1dKineticRk4_correct hN J filling tEnd hdt hI hs he w
  rw [hm] at h1; cases h1
  refine ⟨s, h2, by intro h0; rw [h0] at h3; simp at h3, fun row hrow => ?_⟩
  obtain ⟨j, hj, rfl⟩ := List.getElem_of_mem hrow
  obtain ⟨x, hx, hb⟩ := h4 j hj
  rw [List.getElem?_eq_getElem hj, Option.some_inj] at hx
  rw [hx]
  simp only [h5 C ω hω v hv, Complex.ofReal_re]
  exact hb.trans (quadratic_error hB0 (by linarith) hW0 hdt hst (row_time hdt (by nlinarith) htEnd hT (by rw [← h3]; exact hj)))

/-- **C105**: the exact coefficients of the complete and of the kinetic problem are at most one in magnitude at all times. -/
theorem exact_bounded {N : ℕ} (hN : 3 ≤ N) (J U : ℝ) {sort : List (Triplet ℝ) → List (Triplet ℝ)} (hs : IsSort sort) :
    (∃ m, initMatrix sort N 2 (Chain.real (K := ℝ) N 1).neighbors J U = .val m ∧
      ∀ v, IsFlow (N + N * N * N) (fun i j => m.get i j) v → ∀ t, ∀ p < N + N * N * N, ‖v t p‖ ≤ 1) ∧
    (∃ m, initKineticMatrix sort N 2 (Chain.real (K := ℝ) N 1).neighbors J = .val m ∧
      ∀ v, IsFlow N (fun i j => m.get i j) v → ∀ t, ∀ p < N, ‖v t p‖ ≤ 1) ∧
    ∀ t, ∀ p < N, ‖hoppingAmplitude N J t p‖ ≤ 1 := by
  have hreg := chain_regular (Chain.Constructed.real (N := N) (1 : ℝ) (by omega) rfl) hN
  obtain ⟨m, h1, h2, -⟩ := initMatrix_ok hreg sort hs J U
  obtain ⟨m', h1', -, hsym⟩ := initMatrix_symm hreg sort hs J U
  rw [h1] at h1'; cases h1'
  obtain ⟨k, k1, k2, _, _, _, _, k3⟩ := initKineticMatrix_ok hreg sort hs J
  obtain ⟨k', k1', -, ksym⟩ := initKineticMatrix_symm hreg sort hs J
  rw [k1] at k1'; cases k1'
  rw [h2] at hsym
  rw [k2] at ksym
  exact ⟨⟨m, h1, fun v hv t p hp => flow_le_one _ hsym hv t hp⟩, ⟨k, k1, fun v hv t p hp => flow_le_one _ ksym hv t hp⟩,
    fun t p hp => flow_le_one _ ksym (hopping_flow hN J k3) t hp⟩

/-- The hypotheses are met: a chain of four sites at half filling. -/
example : ∃ (m : Sparse ℝ) (v : ℝ → ℕ → ℂ) (C : CAROn 4 (Module.End ℂ (Finset Mode → ℂ))) (ω : Module.End ℂ (Finset Mode → ℂ) →ₗ[ℂ] ℂ),
    QuasiFree C ω (ringCorrelation (1 / 2) 4) ∧
    initKineticMatrix (fun l => l.mergeSort (fun a b => a.column ≤ b.column)) 4 2 (Chain.real (K := ℝ) 4 1).neighbors 1 = .val m ∧
    IsFlow 4 (fun i j => m.get i j) v := by
  have hreg := chain_regular (Chain.Constructed.real (N := 4) (1 : ℝ) (by norm_num) rfl) (by norm_num)
  obtain ⟨m, h1, _⟩ := initKineticMatrix_ok hreg _ mergeSort_isSort (1 : ℝ)
  obtain ⟨v, hv⟩ := flow_exists 4 (fun i j => m.get i j)
  obtain ⟨C, ω, hω⟩ := quasiFree_exists 4 (ringCorrelation (1 / 2) 4)
  exact ⟨m, v, C, ω, hω, h1, hv⟩

end Ieompp.Program
