import Verif.Props.MomentumDouble
import Verif.Props.MomentumSharp
import Verif.Props.OccupationShipped

/-!
# C114: the error of `hubbard_momentum_1d_rk4` with the shipped options, in `double` arithmetic
-/

set_option autoImplicit false
set_option linter.unusedSectionVars false

namespace Ieompp.Program

open Ieompp.Spec MomentumSpace ODE RealSpace

theorem momentumErrorDouble_mono (N : ℕ) {x y : ℝ} (hx : 0 ≤ x) (hxy : x ≤ y) : momentumErrorDouble N x ≤ momentumErrorDouble N y := by
  have hy : 0 ≤ y := hx.trans hxy
  have h1 : momentumVectorError N x ≤ momentumVectorError N y := by
    unfold momentumVectorError
    gcongr
  have h0 : 0 ≤ momentumVectorError N x := by unfold momentumVectorError; positivity
  have h2 : 0 ≤ momentumVectorError N y := h0.trans h1
  unfold momentumErrorDouble
  simp only
  gcongr

/-- C114, the error: with at least two momenta, `J > 0` and every operation rounded to `double`, the second number is the particle number of the exact evolution
**plus `2 ν (U t)²`**, `t = 8 dt` and `ν` the filling, up to the stated errors. -/
theorem momentum1dRk4_double_excess {cosF : ℝ → ℝ} {N : ℕ} (hN : 2 ≤ N) (hN' : N ≤ 1024) {J U dt : ℝ} (hJp : 0 < J) (hJ : double J = J) (hU : double U = U)
    (hdt : 0 < dt) (hst : dt * (6 * J + (N + 1) / 2 * |U|) ≤ 14 / 5) (hcos : CosRelative cosF (1 / 2 ^ 53)) {conjugation energies : List ℕ}
    (hc : conjugation.Perm (List.range (N * N + 1))) (he : energies.Perm (List.range N)) (w : Work ℂ) :
    ∃ (second : ℝ) (FS : Finset Mode) (m : Sparse ℝ),
      momentum1dRk4F double cosF (double Real.pi) conjugation energies w N J U dt = .val (1, second) ∧
      (∀ k < N, ∀ σ, bandEnergy N J k ≠ 0 → (toLex (k, σ) ∈ FS ↔ bandEnergy N J k < 0)) ∧
      (¬ 4 ∣ N → FS = fermiSea N J) ∧
      initMatrix (Spec.entries N (N / 2)) N (bandEnergy N J) U N = .val m ∧
      ∀ v, IsFlow (N * N + 1) (fun i j => m.get i j) v →
        |second - (seaNumber (-1) FS (Spec.entries N (N / 2)) (v (8 * dt))).re -
            2 * (((Finset.range N).filter fun b => toLex (b, false) ∈ FS).card / N) * (U * (8 * dt)) ^ 2| ≤
          momentumErrorDouble N (dt * (6 * J + (N + 1) / 2 * |U|)) +
            ((U * (8 * dt)) ^ 4 / 6 + |U * (8 * dt)| ^ 5 / 160 + 5 * (2 * J * (8 * dt)) / 12 * |U * (8 * dt)| ^ 3) := by
  obtain ⟨first, second, FS, m, e1, e2, e3, e4, m1, e5⟩ := momentum1dRk4_double_partial (by omega) hN' hJp hJ hU hdt hst hcos hc he w
  have hq : N / 2 < N := Nat.div_lt_self (by omega) (by norm_num)
  have hb : bandEnergy N J (N / 2) < 0 := (bandEnergy_half hN J).2 hJp
  rw [if_pos hb] at e4
  subst e4
  refine ⟨second, FS, m, e1, e2, e3, m1, fun v hv => ?_⟩
  have h1 := e5 v hv
  have h2 := seaNumber_error (by omega) hq (e := 2 * J) (fun k _ => by
    have := bandEnergy_abs_le N J k
    rwa [abs_of_pos hJp] at this) m1 hv (FS := FS) ((e2 _ hq true hb.ne).2 hb) (t := 8 * dt) (by positivity)
  have h3 := abs_add_le (second - (seaNumber 1 FS (Spec.entries N (N / 2)) (v (8 * dt))).re)
    ((seaNumber 1 FS (Spec.entries N (N / 2)) (v (8 * dt))).re - (seaNumber (-1) FS (Spec.entries N (N / 2)) (v (8 * dt))).re -
            2 * (((Finset.range N).filter fun b => toLex (b, false) ∈ FS).card / N) * (U * (8 * dt)) ^ 2)
  rw [show ∀ a b c d : ℝ, a - b + (b - c - d) = a - c - d from fun a b c d => by ring] at h3
  exact h3.trans (add_le_add h1 h2)

/-- Seven of the sixteen momenta of the shipped options have negative energy. -/
theorem bandEnergy_shipped {k : ℕ} (h1 : 5 ≤ k) (h2 : k ≤ 11) : bandEnergy 16 1 k < 0 := by
  have h1' : (5 : ℝ) ≤ k := by exact_mod_cast h1
  have h2' : (k : ℝ) ≤ 11 := by exact_mod_cast h2
  have hpi := Real.pi_pos
  have : 0 < Real.cos (latticeMomentum 16 k) := by
    apply Real.cos_pos_of_mem_Ioo
    unfold latticeMomentum
    push_cast
    constructor <;> nlinarith
  unfold bandEnergy
  linarith

/-- **C114 refuted for the shipped options** (16 momenta, `J = U = 1`, step width 0.01) in `double` arithmetic: whatever the schedules of the parallel loops and
whichever accurate cosine, the second number is too large by at least 0.003. -/
theorem momentum1dRk4_shipped_wrong {cosF : ℝ → ℝ} (hcos : CosRelative cosF (1 / 2 ^ 53)) {conjugation energies : List ℕ}
    (hc : conjugation.Perm (List.range 257)) (he : energies.Perm (List.range 16)) (w : Work ℂ) :
    ∃ (second : ℝ) (FS : Finset Mode) (m : Sparse ℝ),
      momentum1dRk4F double cosF (double Real.pi) conjugation energies w 16 1 1 (double (1 / 100)) = .val (1, second) ∧
      (∀ k < 16, ∀ σ, bandEnergy 16 1 k ≠ 0 → (toLex (k, σ) ∈ FS ↔ bandEnergy 16 1 k < 0)) ∧
      initMatrix (Spec.entries 16 8) 16 (bandEnergy 16 1) 1 16 = .val m ∧
      (∃ v, IsFlow 257 (fun i j => m.get i j) v) ∧
      ∀ v, IsFlow 257 (fun i j => m.get i j) v →
        (seaNumber (-1) FS (Spec.entries 16 8) (v (8 * double (1 / 100)))).re + 3 / 1000 ≤ second := by
  have hone : double 1 = 1 := by
    have := double_fix (m := 1) (e := 0) (by norm_num)
    simpa using this
  have hdt := double_hundredth
  generalize double (1 / 100) = dt at hdt ⊢
  obtain ⟨ha, hb⟩ := abs_le.1 hdt
  have ha' : 0.0099999 ≤ dt := by norm_num at ha ⊢; linarith
  have hb' : dt ≤ 0.0100001 := by norm_num at hb ⊢; linarith
  clear ha hb hdt
  have hx : dt * (6 * 1 + ((16 : ℕ) + 1) / 2 * |(1 : ℝ)|) = dt * 14.5 := by rw [abs_one]; norm_num
  obtain ⟨second, FS, m, e1, e2, -, m1, e3⟩ := momentum1dRk4_double_excess (N := 16) (J := 1) (U := 1) (dt := dt) (by norm_num) (by norm_num) one_pos hone hone
    (by linarith) (by rw [hx]; norm_num at hb' ⊢; linarith) hcos hc he w
  refine ⟨second, FS, m, e1, e2, m1, flow_exists _ _, fun v hv => ?_⟩
  have h := (abs_le.1 (e3 v hv)).1
  rw [hx] at h
  have hcard : (7 : ℝ) ≤ ((Finset.range 16).filter fun b => toLex (b, false) ∈ FS).card := by
    have hsub : Finset.Icc 5 11 ⊆ (Finset.range 16).filter fun b => toLex (b, false) ∈ FS := by
      intro k hk
      rw [Finset.mem_Icc] at hk
      rw [Finset.mem_filter, Finset.mem_range]
      have hneg := bandEnergy_shipped hk.1 hk.2
      exact ⟨by omega, (e2 k (by omega) false hneg.ne).2 hneg⟩
    have := Finset.card_le_card hsub
    rw [Nat.card_Icc] at this
    exact_mod_cast this
  have hE : momentumErrorDouble 16 (dt * 14.5) ≤ 0.0021 := by
    refine (momentumErrorDouble_mono 16 (by positivity) (y := 0.14501) (by norm_num at hb' ⊢; linarith)).trans ?_
    have hexp : Real.exp 0.14501 ≤ 1.2 := (Real.exp_bound_div_one_sub_of_interval (x := 0.14501) (by norm_num) (by norm_num)).trans (by norm_num)
    have hε : momentumVectorError 16 0.14501 ≤ 0.0000063 := by
      unfold momentumVectorError
      have h2 : (0.14501 : ℝ) ^ 5 / 100 * Real.exp 0.14501 ≤ 0.14501 ^ 5 / 100 * 1.2 := mul_le_mul_of_nonneg_left hexp (by positivity)
      have h3 : (((16 : ℕ) : ℝ) ^ 2 + 1) / 2 ^ 39 + 8 * (0.14501 ^ 5 / 100 * 1.2) + 8 * 0.14501 / 2 ^ 46 ≤ 0.0000063 := by norm_num
      linarith
    have h0 : 0 ≤ momentumVectorError 16 0.14501 := by unfold momentumVectorError; positivity
    unfold momentumErrorDouble
    simp only
    generalize momentumVectorError 16 0.14501 = e at hε h0
    have h4 : e * (2 + e) ≤ 0.0000063 * (2 + 0.0000063) := by gcongr
    have h5 : (1 + e) ^ 2 ≤ (1 + 0.0000063) ^ 2 := by gcongr
    norm_num at h4 h5 ⊢
    nlinarith
  have hs : (1 * (8 * dt)) ^ 2 ≥ (0.0799992 : ℝ) ^ 2 := by
    refine pow_le_pow_left₀ (by norm_num) ?_ 2
    norm_num at ha' ⊢; linarith
  have hs1 : |1 * (8 * dt)| ≤ 0.0800008 := by
    rw [abs_of_pos (by linarith)]
    norm_num at hb' ⊢; linarith
  have hlead : 2 * ((7 : ℝ) / (16 : ℕ)) * (0.0799992) ^ 2 ≤
      2 * (((Finset.range 16).filter fun b => toLex (b, false) ∈ FS).card / (16 : ℕ)) * (1 * (8 * dt)) ^ 2 := by
    clear h
    generalize (((Finset.range 16).filter fun b => toLex (b, false) ∈ FS).card : ℝ) = c at hcard
    have h7 : 2 * ((7 : ℝ) / (16 : ℕ)) ≤ 2 * (c / (16 : ℕ)) := by linarith
    exact mul_le_mul h7 hs (by positivity) (by linarith [div_nonneg (by linarith : 0 ≤ c) (by norm_num : (0 : ℝ) ≤ (16 : ℕ))])
  have hr : (1 * (8 * dt)) ^ 4 / 6 + |1 * (8 * dt)| ^ 5 / 160 + 5 * (2 * 1 * (8 * dt)) / 12 * |1 * (8 * dt)| ^ 3 ≤
      0.0800008 ^ 4 / 6 + 0.0800008 ^ 5 / 160 + 5 * (2 * 1 * (8 * 0.0100001)) / 12 * 0.0800008 ^ 3 := by
    have e4 : (1 * (8 * dt)) ^ 4 = |1 * (8 * dt)| ^ 4 := by rw [show 4 = 2 * 2 from rfl, pow_mul, pow_mul, sq_abs]
    rw [e4]
    clear h hlead hE hcard e3 hv
    gcongr
  generalize (seaNumber (-1) FS (Spec.entries 16 (16 / 2)) (v (8 * dt))).re = s at h
  generalize ((((Finset.range 16).filter fun b => toLex (b, false) ∈ FS).card : ℕ) : ℝ) = c at h hlead
  norm_num at hE hlead hr h ⊢
  linarith

end Ieompp.Program
