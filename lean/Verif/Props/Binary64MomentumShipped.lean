import Verif.Props.Binary64MomentumProgram
import Verif.Props.Binary64Nearest
import Verif.Props.MomentumShipped

/-! # C122: the error of `hubbard_momentum_1d_rk4` in IEEE binary64 arithmetic, and where it overflows -/

set_option autoImplicit false
set_option linter.unusedSectionVars false

namespace Ieompp.IEEE

open Ieompp.Spec ODE RealSpace Program MomentumSpace

variable {N : ℕ} {cosF : ℝ → ℝ}

/-- The bound near the default parameters of the program (`N = 16`, `J = U = 1`, `dt = 0.01`). -/
theorem momentumErrorBinary64_default {x : ℝ} (h0 : 0 ≤ x) (hx : x ≤ 0.14501) : momentumErrorBinary64 16 x ≤ 0.0021 := by
  have hexp : Real.exp x ≤ 1.2 := (Real.exp_le_exp.2 hx).trans
    ((Real.exp_bound_div_one_sub_of_interval (x := 0.14501) (by norm_num) (by norm_num)).trans (by norm_num))
  have hε : momentumVectorError 16 x ≤ 0.0000063 := by
    unfold momentumVectorError
    have h1 : x ^ 5 ≤ 0.14501 ^ 5 := pow_le_pow_left₀ h0 hx 5
    have h2 : x ^ 5 / 100 * Real.exp x ≤ 0.14501 ^ 5 / 100 * 1.2 := by gcongr
    have h3 : (((16 : ℕ) : ℝ) ^ 2 + 1) / 2 ^ 39 + 8 * (0.14501 ^ 5 / 100 * 1.2) + 8 * 0.14501 / 2 ^ 46 ≤ 0.0000063 := by norm_num
    have h4 : 8 * x / 2 ^ 46 ≤ 8 * 0.14501 / 2 ^ 46 := by gcongr
    linarith
  have h0' : 0 ≤ momentumVectorError 16 x := by unfold momentumVectorError; positivity
  unfold momentumErrorBinary64
  simp only
  generalize momentumVectorError 16 x = e at hε h0'
  have h4 : e * (2 + e) ≤ 0.0000063 * (2 + 0.0000063) := by gcongr
  have h5 : (1 + e) ^ 2 ≤ (1 + 0.0000063) ^ 2 := by gcongr
  norm_num at h4 h5 ⊢
  nlinarith

/-- C122, the error: with at least two momenta the second number is the particle number of the exact evolution **plus `2 ν (U t)²`**, `t = 8 dt` and `ν` the
filling, up to the stated errors. -/
theorem momentum1dRk4_binary64_excess (hN : 2 ≤ N) (hN' : N ≤ 1024) {J U dt : ℝ} (hJ : IsBinary64 J) (hJ1 : 1 / 2 ^ 1000 ≤ J) (hJ2 : J ≤ 2 ^ 1000)
    (hU : IsBinary64 U) (hU1 : U = 0 ∨ 1 / 2 ^ 1000 ≤ |U|) (hU2 : |U| ≤ 2 ^ 1000) (hdt1 : 1 / 2 ^ 1000 ≤ dt) (hdt2 : dt ≤ 2 ^ 900)
    (hst : dt * (6 * J + (N + 1) / 2 * |U|) ≤ 14 / 5) (hcos : ∀ x, |cosF x - Real.cos x| ≤ 1 / 2 ^ 53) {conjugation energies : List ℕ}
    (hc : conjugation.Perm (List.range (N * N + 1))) (he : energies.Perm (List.range N)) (w : Work ℂ) :
    ∃ (second : ℝ) (FS : Finset Mode) (m : Sparse ℝ),
      momentum1dRk4R binary64 cosF (double Real.pi) conjugation energies w N J U dt = .val (1, second) ∧
      (∀ k < N, ∀ σ, bandEnergy N J k ≠ 0 → (toLex (k, σ) ∈ FS ↔ bandEnergy N J k < 0)) ∧
      (¬ 4 ∣ N → FS = fermiSea N J) ∧
      initMatrix (Spec.entries N (N / 2)) N (bandEnergy N J) U N = .val m ∧
      ∀ v, IsFlow (N * N + 1) (fun i j => m.get i j) v →
        |second - (seaNumber (-1) FS (Spec.entries N (N / 2)) (v (8 * dt))).re -
            2 * (((Finset.range N).filter fun b => toLex (b, false) ∈ FS).card / N) * (U * (8 * dt)) ^ 2| ≤
          momentumErrorBinary64 N (dt * (6 * J + (N + 1) / 2 * |U|)) +
            ((U * (8 * dt)) ^ 4 / 6 + |U * (8 * dt)| ^ 5 / 160 + 5 * (2 * J * (8 * dt)) / 12 * |U * (8 * dt)| ^ 3) := by
  have hJp : 0 < J := lt_of_lt_of_le (one_div_pos.2 (pow_pos two_pos _)) hJ1
  have hdt : 0 < dt := lt_of_lt_of_le (one_div_pos.2 (pow_pos two_pos _)) hdt1
  obtain ⟨first, second, FS, m, e1, e2, e3, e4, m1, e5⟩ := momentum1dRk4_binary64_partial (by omega) hN' hJ hJ1 hJ2 hU hU1 hU2 hdt1 hdt2 hst hcos hc he w
  have hq : N / 2 < N := Nat.div_lt_self (by omega) (by norm_num)
  have hb : bandEnergy N J (N / 2) < 0 := (bandEnergy_half hN J).2 hJp
  rw [if_pos hb] at e4
  subst e4
  refine ⟨second, FS, m, e1, e2, e3, m1, fun v hv => ?_⟩
  have h1 := e5 v hv
  have h2 := seaNumber_error (by omega) hq (e := 2 * J) (fun k _ => by
    have := bandEnergy_abs_le N J k
    rwa [abs_of_pos hJp] at this) m1 hv (FS := FS) ((e2 _ hq true hb.ne).2 hb) (t := 8 * dt) (by positivity)
  have h3 := abs_add_le (second - (seaNumber 1 FS (Spec.entries N (N / 2)) (v (8 * dt))).re)
    ((seaNumber 1 FS (Spec.entries N (N / 2)) (v (8 * dt))).re - (seaNumber (-1) FS (Spec.entries N (N / 2)) (v (8 * dt))).re -
            2 * (((Finset.range N).filter fun b => toLex (b, false) ∈ FS).card / N) * (U * (8 * dt)) ^ 2)
  rw [show ∀ a b c d : ℝ, a - b + (b - c - d) = a - c - d from fun a b c d => by ring] at h3
  exact h3.trans (add_le_add h1 h2)

/-- **C122 refuted for the shipped options** (16 momenta, `J = U = 1`, step width 0.01) in binary64 arithmetic: whatever the schedules of the parallel loops and
whichever accurate cosine, the second number is too large by at least 0.003. -/
theorem momentum1dRk4_binary64_wrong (hcos : ∀ x, |cosF x - Real.cos x| ≤ 1 / 2 ^ 53) {conjugation energies : List ℕ}
    (hc : conjugation.Perm (List.range 257)) (he : energies.Perm (List.range 16)) (w : Work ℂ) :
    ∃ (second : ℝ) (FS : Finset Mode) (m : Sparse ℝ),
      momentum1dRk4R binary64 cosF (double Real.pi) conjugation energies w 16 1 1 (double (1 / 100)) = .val (1, second) ∧
      (∀ k < 16, ∀ σ, bandEnergy 16 1 k ≠ 0 → (toLex (k, σ) ∈ FS ↔ bandEnergy 16 1 k < 0)) ∧
      initMatrix (Spec.entries 16 8) 16 (bandEnergy 16 1) 1 16 = .val m ∧
      (∃ v, IsFlow 257 (fun i j => m.get i j) v) ∧
      ∀ v, IsFlow 257 (fun i j => m.get i j) v →
        (seaNumber (-1) FS (Spec.entries 16 8) (v (8 * double (1 / 100)))).re + 3 / 1000 ≤ second := by
  have hdt := double_hundredth
  generalize double (1 / 100) = dt at hdt ⊢
  obtain ⟨ha, hb⟩ := abs_le.1 hdt
  have ha' : 0.0099999 ≤ dt := by norm_num at ha ⊢; linarith
  have hb' : dt ≤ 0.0100001 := by norm_num at hb ⊢; linarith
  clear ha hb hdt
  have hx : dt * (6 * 1 + ((16 : ℕ) + 1) / 2 * |(1 : ℝ)|) = dt * 14.5 := by rw [abs_one]; norm_num
  have p1 : (1 : ℝ) / 2 ^ 1000 ≤ 1 / 2 ^ 10 := one_div_le_one_div_of_le (pow_pos two_pos _) (pow_le_pow_right₀ one_le_two (by norm_num))
  have p2 : (1 : ℝ) ≤ 2 ^ 1000 := one_le_pow₀ one_le_two
  have p3 : (1 : ℝ) ≤ 2 ^ 900 := one_le_pow₀ one_le_two
  obtain ⟨second, FS, m, e1, e2, -, m1, e3⟩ := momentum1dRk4_binary64_excess (N := 16) (J := 1) (U := 1) (dt := dt) (by norm_num) (by norm_num) isBinary64_one
    (p1.trans (by norm_num)) p2 isBinary64_one (.inr (by rw [abs_one]; exact p1.trans (by norm_num))) (by rw [abs_one]; exact p2)
    (p1.trans (le_trans (by norm_num) ha')) (le_trans (hb'.trans (by norm_num)) p3) (by rw [hx]; norm_num at hb' ⊢; linarith) hcos hc he w
  clear p1 p2 p3
  refine ⟨second, FS, m, e1, e2, m1, flow_exists _ _, fun v hv => ?_⟩
  have h := (abs_le.1 (e3 v hv)).1
  rw [hx] at h
  have hcard : (7 : ℝ) ≤ ((Finset.range 16).filter fun b => toLex (b, false) ∈ FS).card := by
    have hsub : Finset.Icc 5 11 ⊆ (Finset.range 16).filter fun b => toLex (b, false) ∈ FS := by
      intro k hk
      rw [Finset.mem_Icc] at hk
      rw [Finset.mem_filter, Finset.mem_range]
      have hneg := bandEnergy_shipped hk.1 hk.2
      exact ⟨by omega, (e2 k (by omega) false hneg.ne).2 hneg⟩
    have := Finset.card_le_card hsub
    rw [Nat.card_Icc] at this
    exact_mod_cast this
  have hE : momentumErrorBinary64 16 (dt * 14.5) ≤ 0.0021 :=
    momentumErrorBinary64_default (by positivity) (by norm_num at hb' ⊢; linarith)
  have hs : (1 * (8 * dt)) ^ 2 ≥ (0.0799992 : ℝ) ^ 2 := by
    refine pow_le_pow_left₀ (by norm_num) ?_ 2
    norm_num at ha' ⊢; linarith
  have hs1 : |1 * (8 * dt)| ≤ 0.0800008 := by
    rw [abs_of_pos (by linarith)]
    norm_num at hb' ⊢; linarith
  have hlead : 2 * ((7 : ℝ) / (16 : ℕ)) * (0.0799992) ^ 2 ≤
      2 * (((Finset.range 16).filter fun b => toLex (b, false) ∈ FS).card / (16 : ℕ)) * (1 * (8 * dt)) ^ 2 := by
    clear h
    generalize (((Finset.range 16).filter fun b => toLex (b, false) ∈ FS).card : ℝ) = c at hcard
    have h7 : 2 * ((7 : ℝ) / (16 : ℕ)) ≤ 2 * (c / (16 : ℕ)) := by linarith
    exact mul_le_mul h7 hs (by positivity) (by linarith [div_nonneg (by linarith : 0 ≤ c) (by norm_num : (0 : ℝ) ≤ (16 : ℕ))])
  have hr : (1 * (8 * dt)) ^ 4 / 6 + |1 * (8 * dt)| ^ 5 / 160 + 5 * (2 * 1 * (8 * dt)) / 12 * |1 * (8 * dt)| ^ 3 ≤
      0.0800008 ^ 4 / 6 + 0.0800008 ^ 5 / 160 + 5 * (2 * 1 * (8 * 0.0100001)) / 12 * 0.0800008 ^ 3 := by
    have e4 : (1 * (8 * dt)) ^ 4 = |1 * (8 * dt)| ^ 4 := by rw [show 4 = 2 * 2 from rfl, pow_mul, pow_mul, sq_abs]
    rw [e4]
    clear h hlead hE hcard e3 hv
    gcongr
  generalize (seaNumber (-1) FS (Spec.entries 16 (16 / 2)) (v (8 * dt))).re = s at h
  generalize ((((Finset.range 16).filter fun b => toLex (b, false) ∈ FS).card : ℕ) : ℝ) = c at h hlead
  norm_num at hE hlead hr h ⊢
  linarith

/-- The bound on `J` is needed: for `J ≥ 2^1023` the prefactor `-2 J` overflows, and an infinity comes up. -/
theorem momentum1dRk4_binary64_overflow (hN : 1 ≤ N) (hN' : N ≤ 1024) {J : ℝ} (hJ : 2 ^ 1023 ≤ J) (U dt : ℝ) (conjugation : List ℕ) {energies : List ℕ}
    (he : energies.Perm (List.range N)) (w : Work ℂ) :
    momentum1dRk4R binary64 cosF (double Real.pi) conjugation energies w N J U dt = .ub := by
  obtain ⟨π1, π2, π3⟩ := doublePi_setup
  have hq : N / 2 < N := Nat.div_lt_self (by omega) (by norm_num)
  have hub : binary64 (-2 * J) = .ub := by
    rw [binary64_overflow_iff, abs_mul, abs_neg, abs_two, abs_of_nonneg ((pow_pos two_pos 1023).le.trans hJ)]
    have e : (2 : ℝ) ^ 1024 = 2 * 2 ^ 1023 := by rw [pow_succ, mul_comm]
    have p : (0 : ℝ) < 2 ^ 970 := pow_pos two_pos _
    rw [e]
    generalize (2 : ℝ) ^ 1023 = X at *
    generalize (2 : ℝ) ^ 970 = Y at *
    linarith
  have hen : ∀ i, energyR binary64 cosF (Chain.momentumF double (double Real.pi) N) 1 J i = .ub := fun i => by
    unfold energyR
    rw [hub]; rfl
  have hfold : ∀ l : List ℕ, l.foldl (fun (acc : Res (List ℝ)) i => acc.bind fun v =>
      (energyR binary64 cosF (Chain.momentumF double (double Real.pi) N) 1 J i).bind fun x => assignAt v i x) .ub = .ub := by
    intro l
    induction l with
    | nil => rfl
    | cons i l ih => exact ih
  have hd : chainDispersionR binary64 cosF (Chain.momentumF double (double Real.pi) N) J energies = .ub := by
    unfold chainDispersionR storeLoop
    cases energies with
    | nil => have := he.length_eq; simp at this; omega
    | cons i l =>
      rw [List.foldl_cons, Res.bind_val, hen]
      exact hfold l
  unfold momentum1dRk4R
  simp only
  rw [(momentumR_ok π1 π2 hN hN').1, Res.bind_val, momentumBasis3R_ok π1 π2 π3 hN hN' hq, Res.bind_val, hd]
  rfl

/-- The default parameters. -/
example (w : Work ℂ) : ∃ (first second : ℝ) (FS : Finset Mode) (m : Sparse ℝ),
    momentum1dRk4R binary64 Real.cos (double Real.pi) (List.range 257) (List.range 16) w 16 1 1 (1 / 100) = .val (first, second) ∧
    initMatrix (Spec.entries 16 8) 16 (bandEnergy 16 1) 1 16 = .val m ∧
    ∀ v, IsFlow 257 (fun i j => m.get i j) v → |second - (seaNumber 1 FS (Spec.entries 16 8) (v (8 * (1 / 100)))).re| ≤ 0.0021 := by
  have p1 : (1 : ℝ) / 2 ^ 1000 ≤ 1 / 2 ^ 10 := one_div_le_one_div_of_le (pow_pos two_pos _) (pow_le_pow_right₀ one_le_two (by norm_num))
  have p2 : (1 : ℝ) ≤ 2 ^ 1000 := one_le_pow₀ one_le_two
  have p3 : (1 : ℝ) ≤ 2 ^ 900 := one_le_pow₀ one_le_two
  obtain ⟨first, second, FS, m, h1, -, -, -, h2, h3⟩ := momentum1dRk4_binary64_partial (N := 16) (J := 1) (U := 1) (dt := 1 / 100) (cosF := Real.cos)
    (by norm_num) (by norm_num) isBinary64_one (p1.trans (by norm_num)) p2 isBinary64_one (.inr (by rw [abs_one]; exact p1.trans (by norm_num)))
    (by rw [abs_one]; exact p2) (p1.trans (by norm_num)) (le_trans (by norm_num) p3) (by rw [abs_one]; norm_num)
    (fun x => by simp) (conjugation := List.range 257) (energies := List.range 16) (List.Perm.refl _) (List.Perm.refl _) w
  exact ⟨first, second, FS, m, h1, h2, fun v hv => (h3 v hv).trans (momentumErrorBinary64_default (by positivity) (by rw [abs_one]; norm_num))⟩

end Ieompp.IEEE
