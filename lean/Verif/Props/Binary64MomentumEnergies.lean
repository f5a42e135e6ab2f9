import Verif.Props.Binary64MomentumSetup

/-! # C122: the energies -/

set_option autoImplicit false
set_option linter.unusedSectionVars false

namespace Ieompp.IEEE

open Ieompp.Spec MomentumSpace Program

variable {cosF : ℝ → ℝ} {N : ℕ}

/-- The cosine of a lattice momentum that is not a Fermi point. -/
theorem latticeMomentum_gap (hN : 1 ≤ N) {i : ℕ} (hi : i < N) (hF : ¬ FermiPoint N i) : 1 / (N : ℝ) ≤ |Real.cos (latticeMomentum N i)| := by
  have hpi := Real.pi_pos
  have hNr : (1 : ℝ) ≤ N := by exact_mod_cast hN
  have hir : (i : ℝ) ≤ N := by exact_mod_cast hi.le
  have hL := latticeMomentum_abs hN hi
  have e : |latticeMomentum N i| - Real.pi / 2 = Real.pi / 2 / N * |2 * (2 * (i : ℝ) - N)| - Real.pi / 2 / N * N := by
    unfold latticeMomentum
    have h1 : -Real.pi + (i : ℝ) * (2 * Real.pi / N) = Real.pi / 2 / N * (2 * (2 * i - N)) := by field_simp; ring
    rw [h1, abs_mul, abs_of_pos (by positivity : 0 < Real.pi / 2 / (N : ℝ))]
    have h2 : Real.pi / 2 / N * N = Real.pi / 2 := by field_simp
    rw [h2]
  have hgap : Real.pi / 2 / N ≤ |(|latticeMomentum N i| - Real.pi / 2)| := by
    rw [e, ← mul_sub, abs_mul, abs_of_pos (by positivity : 0 < Real.pi / 2 / (N : ℝ))]
    have : (1 : ℝ) ≤ |(|2 * (2 * (i : ℝ) - N)| - N)| := by
      have hz : |2 * (2 * (i : ℤ) - N)| - N ≠ 0 := by
        rw [Hubbard.fermiPoint_iff (by omega)] at hF
        intro h
        rcases abs_cases (2 * (2 * (i : ℤ) - N)) with ⟨h1, -⟩ | ⟨h1, -⟩ <;> rw [h1] at h <;> omega
      exact_mod_cast Int.one_le_abs hz
    exact le_mul_of_one_le_right (by positivity) this
  rw [← Real.cos_abs (latticeMomentum N i)]
  set a := |latticeMomentum N i|
  have ha : 0 ≤ a := abs_nonneg _
  have e2 : Real.cos a = Real.sin (Real.pi / 2 - a) := (Real.sin_pi_div_two_sub a).symm
  have key : ∀ b : ℝ, Real.pi / 2 / N ≤ b → b ≤ Real.pi / 2 → 1 / (N : ℝ) ≤ Real.sin b := by
    intro b hb1 hb2
    refine le_trans ?_ (Real.mul_le_sin ((by positivity : (0 : ℝ) ≤ Real.pi / 2 / N).trans hb1) hb2)
    calc 1 / (N : ℝ) = 2 / Real.pi * (Real.pi / 2 / N) := by field_simp
      _ ≤ 2 / Real.pi * b := by gcongr
  rw [e2]
  rcases le_total a (Real.pi / 2) with h | h
  · rw [abs_sub_comm, abs_of_nonneg (by linarith)] at hgap
    exact (key _ hgap (by linarith)).trans (le_abs_self _)
  · rw [abs_of_nonneg (by linarith)] at hgap
    have := key _ hgap (by linarith)
    rw [← abs_neg, ← Real.sin_neg, neg_sub]
    exact this.trans (le_abs_self _)

/-- Energies close to the band energies have the right signs. -/
theorem energy_sign (hN : 1 ≤ N) (hN' : N ≤ 1024) {J e : ℝ} (hJ : 0 < J) {i : ℕ} (hi : i < N) (hF : ¬ FermiPoint N i)
    (he : |e - bandEnergy N J i| ≤ J / 2 ^ 46) : e < 0 ↔ bandEnergy N J i < 0 := by
  have h1 := latticeMomentum_gap hN hi hF
  have hNr' : (N : ℝ) ≤ 1024 := by exact_mod_cast hN'
  have hNr : (1 : ℝ) ≤ N := by exact_mod_cast hN
  have h2 : 1 / 1024 ≤ 1 / (N : ℝ) := one_div_le_one_div_of_le (by linarith) hNr'
  have h3 : 1 / 1024 ≤ |Real.cos (latticeMomentum N i)| := h2.trans h1
  unfold bandEnergy at *
  rw [abs_le] at he
  norm_num at he h3
  rcases abs_cases (Real.cos (latticeMomentum N i)) with ⟨h4, h5⟩ | ⟨h4, h5⟩
  · rw [h4] at h3
    have h6 : J * (1 / 1024) ≤ J * Real.cos (latticeMomentum N i) := mul_le_mul_of_nonneg_left h3 hJ.le
    constructor <;> intro _ <;> nlinarith
  · rw [h4] at h3
    have h6 : J * (1 / 1024) ≤ J * -Real.cos (latticeMomentum N i) := mul_le_mul_of_nonneg_left h3 hJ.le
    constructor <;> intro _ <;> nlinarith

theorem isBinary64_double {x : ℝ} (hx : IsBinary64 x) : double x = x := by
  obtain ⟨m, e, rfl, hm, -, -⟩ := hx
  exact double_fix hm.le

/-- One energy. -/
theorem energyR_ok (hN : 1 ≤ N) (hN' : N ≤ 1024) (hcos : ∀ x, |cosF x - Real.cos x| ≤ 1 / 2 ^ 53) {J : ℝ} (hJ : IsBinary64 J) (hJ1 : 1 / 2 ^ 1000 ≤ J)
    (hJ2 : J ≤ 2 ^ 1000) {i : ℕ} (hi : i < N) :
    ∃ e, energyR binary64 cosF (Chain.momentumF double (double Real.pi) N) 1 J i = .val e ∧ OnGrid e ∧ |e - bandEnergy N J i| ≤ J / 2 ^ 46 := by
  obtain ⟨p1, p2, p3⟩ := doublePi_setup
  have hJp : 0 < J := lt_of_lt_of_le (by positivity) hJ1
  obtain ⟨c1, c2⟩ := coordinateR_ok p1 p2 p3 hN hN' hi
  have c3 := posF_abs p1 p2 hN hN' hi
  have cd := momentumCosine_double (cosF := cosF) hN (by omega) hcos hi
  have hid : double ((Chain.momentumF double (double Real.pi) N).posF double i * 1) = (Chain.momentumF double (double Real.pi) N).posF double i := by
    rw [mul_one]; unfold Chain.posF; rw [double_idem]
  rw [hid] at cd
  set k := (Chain.momentumF double (double Real.pi) N).posF double i with hk
  have hJ2' : |-2 * J| ≤ 2 ^ 1001 := by
    rw [abs_mul, abs_neg, abs_two, abs_of_pos hJp, pow_succ' (2 : ℝ) 1000]
    exact mul_le_mul_of_nonneg_left hJ2 two_pos.le
  have hpre : double (-2 * J) = -2 * J := by
    rw [show -2 * J = -(2 * J) by ring, double_opposite, double_two_mul, isBinary64_double hJ]
  have htJ : (1 : ℝ) / 2 ^ 1022 ≤ J := (tiny_le (by norm_num)).trans hJ1
  obtain ⟨a1, -, -⟩ := regular_ok (x := -2 * J) (.inr (by
    rw [abs_mul, abs_neg, abs_two, abs_of_pos hJp]
    exact htJ.trans (by clear htJ hJ1 hJ2 hJ2'; linarith))) (by norm_num) hJ2'
  rw [hpre] at a1
  obtain ⟨b1, -, -⟩ := sum_ok (x := k * 1) (by rw [mul_one]; exact c2) (k := 3) (by norm_num) (by rw [mul_one]; norm_num; linarith)
  rw [hid] at b1
  have hc1 := hcos k
  have hc2 := Real.abs_cos_le_one k
  have hcb : |cosF k| ≤ 5 / 4 := by
    rw [abs_le] at hc1 hc2 ⊢
    norm_num at hc1 ⊢
    constructor <;> linarith
  have d1 : binary64 (0 + cosF k) = .val (binary64Value (cosF k)) := by
    rw [zero_add]
    exact binary64_value (hcb.trans (le_trans (by norm_num : (5 / 4 : ℝ) ≤ 2 ^ 1) (pow_le_huge (by norm_num))))
  have d2 : |binary64Value (cosF k) - cosF k| ≤ 5 / 4 * (1 / 2 ^ 53) := by
    refine (binary64Value_err _).trans ?_
    rw [mul_comm]
    exact mul_le_mul_of_nonneg_right (max_le hcb (tiny_le_quarter.trans (by norm_num))) (by norm_num)
  have d3 : |double (cosF k) - cosF k| ≤ 5 / 4 * (1 / 2 ^ 53) := by
    refine (double_err _).trans ?_
    rw [mul_comm]
    exact mul_le_mul_of_nonneg_right hcb (by norm_num)
  set V := binary64Value (cosF k) with hV
  have d4 : |V - Real.cos (latticeMomentum N i)| ≤ 5 / 4 * (1 / 2 ^ 48) := by
    rw [abs_le] at cd d2 d3 ⊢
    norm_num at cd d2 d3 ⊢
    constructor <;> linarith
  have d5 : |V| ≤ 3 / 2 := by
    rw [abs_le] at d2 hcb ⊢
    norm_num at d2 ⊢
    constructor <;> linarith
  have e0 : |-2 * J * V| ≤ 3 * J := by
    rw [abs_mul, abs_mul, abs_neg, abs_two, abs_of_pos hJp]
    nlinarith
  have e1 : binary64 (-2 * J * V) = .val (binary64Value (-2 * J * V)) := by
    refine binary64_value (e0.trans (le_trans ?_ (pow_le_huge (k := 1002) (by norm_num))))
    rw [show (2 : ℝ) ^ 1002 = 4 * 2 ^ 1000 by rw [pow_succ, pow_succ]; ring]
    clear hJ2' hJ1 htJ a1 b1 e0
    generalize (2 : ℝ) ^ 1000 = X at *
    linarith
  have e2 : |binary64Value (-2 * J * V) - -2 * J * V| ≤ 1 / 2 ^ 53 * (3 * J) :=
    (binary64Value_err _).trans (mul_le_mul_of_nonneg_left (max_le e0 (htJ.trans (by clear htJ hJ1 hJ2 hJ2' e0 e1; linarith))) (by norm_num))
  refine ⟨binary64Value (-2 * J * V), ?_, binary64Value_grid _, ?_⟩
  · unfold energyR
    rw [a1, Res.bind_val, c1, Res.bind_val, b1, Res.bind_val, d1, Res.bind_val, e1]
  · have h1 : |-2 * J * V - bandEnergy N J i| ≤ 2 * J * (5 / 4 * (1 / 2 ^ 48)) := by
      unfold bandEnergy
      rw [← mul_sub, abs_mul, abs_mul, abs_neg, abs_two, abs_of_pos hJp]
      exact mul_le_mul_of_nonneg_left d4 (by linarith)
    refine (abs_sub_le _ (-2 * J * V) _).trans ((add_le_add e2 h1).trans ?_)
    norm_num
    linarith

/-- The energies. -/
theorem chainDispersionR_ok (hN : 1 ≤ N) (hN' : N ≤ 1024) (hcos : ∀ x, |cosF x - Real.cos x| ≤ 1 / 2 ^ 53) {J : ℝ} (hJ : IsBinary64 J) (hJ1 : 1 / 2 ^ 1000 ≤ J)
    (hJ2 : J ≤ 2 ^ 1000) {energies : List ℕ} (he : energies.Perm (List.range N)) :
    ∃ values, chainDispersionR binary64 cosF (Chain.momentumF double (double Real.pi) N) J energies = .val values ∧
      (∀ i < N, OnGrid (dispersionFunction values i) ∧ |dispersionFunction values i - bandEnergy N J i| ≤ J / 2 ^ 46) ∧
      ∀ i < N, ¬ FermiPoint N i → (dispersionFunction values i < 0 ↔ bandEnergy N J i < 0) := by
  have hJp : 0 < J := lt_of_lt_of_le (by positivity) hJ1
  choose! E E1 E2 E3 using fun i (hi : i < N) => energyR_ok (cosF := cosF) hN hN' hcos hJ hJ1 hJ2 hi
  obtain ⟨w, e1, e2, e3⟩ := RealSpace.storeLoop_ok (f := energyR binary64 cosF (Chain.momentumF double (double Real.pi) N) 1 J) (g := E) energies
    (List.replicate N 0) (fun i hi => by
      have hi' : i < N := by rw [he.mem_iff] at hi; exact List.mem_range.1 hi
      exact ⟨E1 i hi', by rw [List.length_replicate]; exact hi'⟩)
  have hdf : ∀ i < N, dispersionFunction w i = E i := fun i hi => by
    have e4 := e3 i
    rw [if_pos ⟨by rw [he.mem_iff]; simpa using hi, by simpa using hi⟩] at e4
    unfold dispersionFunction Hubbard.dispersionAt vecAt
    rw [e4]
  refine ⟨w, e1, fun i hi => ?_, fun i hi hF => ?_⟩
  · rw [hdf i hi]; exact ⟨E2 i hi, E3 i hi⟩
  · rw [hdf i hi]; exact energy_sign hN hN' hJp hi hF (E3 i hi)

end Ieompp.IEEE
