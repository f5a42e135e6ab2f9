import Verif.Props.Binary64
import Verif.Props.Binary64Run
import Verif.Props.ProgramDouble

/-! # C117: the coefficient programs in IEEE binary64 arithmetic -/

set_option autoImplicit false
set_option linter.unusedSectionVars false

namespace Ieompp.IEEE

open Ieompp.Spec ODE Program RealSpace

/-! ### Numbers -/

theorem stepError_le {z : ℕ} (hz : z ≤ 14) {x : ℝ} (hx : 0 ≤ x) (h : x ^ 2 ≤ 8) :
    0 ≤ stepError (1 / 2 ^ 53) z x ∧ stepError (1 / 2 ^ 53) z x ≤ (4 * z + 24 : ℕ) * 15 / 2 ^ 52 := by
  obtain ⟨h0, h1⟩ := stepError_double z (by omega) hx
  refine ⟨h0, h1.trans ?_⟩
  have e2 : expPoly x ≤ 15 := expPoly_le hx h
  rw [div_mul_eq_mul_div]
  gcongr

/-- The error of the vector in binary64 arithmetic for matrices with at most eight elements in a row. -/
theorem vectorErrorR_binary64 {z : ℕ} (hz : z ≤ 8) {x τ : ℝ} (hx : 0 ≤ x) (h : x ^ 2 ≤ 8) (hτ0 : 0 ≤ τ) (hτ : τ ≤ 1 / 8) {k : ℕ} (hk : k ≤ 2 ^ 24) :
    vectorErrorR (1 / 2 ^ 53) z x τ k ≤ vectorErrorDouble x k := by
  obtain ⟨h0, h1'⟩ := stepError_le (z := z) (by omega) hx h
  have h1 : stepError (1 / 2 ^ 53) z x ≤ 840 / 2 ^ 52 := by
    refine h1'.trans ?_
    have hz' : ((4 * z + 24 : ℕ) : ℝ) ≤ 56 := by exact_mod_cast (by omega : 4 * z + 24 ≤ 56)
    rw [show (840 : ℝ) = 56 * 15 by norm_num]
    gcongr
  have hk' : (k : ℝ) ≤ 2 ^ 24 := by exact_mod_cast hk
  have h2 : (k : ℝ) * stepError (1 / 2 ^ 53) z x ≤ k * (840 / 2 ^ 52) := mul_le_mul_of_nonneg_left h1 (Nat.cast_nonneg k)
  have h3 := RealSpace.pow_sub_one_le (n := k) h0 (by
    refine h2.trans ?_
    calc (k : ℝ) * (840 / 2 ^ 52) ≤ 2 ^ 24 * (840 / 2 ^ 52) := by gcongr
      _ ≤ 1 := by norm_num)
  have h6 : 0 ≤ (1 + stepError (1 / 2 ^ 53) z x) ^ k - 1 := sub_nonneg.2 (one_le_pow₀ (by linarith))
  unfold vectorErrorR vectorErrorDouble
  have h4 : (k : ℝ) * (1 / 2 ^ 41 + x ^ 5 / 120 * Real.exp x) = k * (1 / 2 ^ 41) + k * (x ^ 5 / 120 * Real.exp x) := by ring
  have h5 : 2 * ((k : ℝ) * (840 / 2 ^ 52)) * (9 / 8) ≤ k * (1 / 2 ^ 41) := by
    have : 2 * ((k : ℝ) * (840 / 2 ^ 52)) * (9 / 8) = k * (1890 / 2 ^ 52) := by ring
    rw [this]
    exact mul_le_mul_of_nonneg_left (by norm_num) (Nat.cast_nonneg k)
  have h7 : ((1 + stepError (1 / 2 ^ 53) z x) ^ k - 1) * (1 + τ) ≤ 2 * ((k : ℝ) * (840 / 2 ^ 52)) * (9 / 8) :=
    mul_le_mul (h3.trans (by linarith)) (by linarith) (by linarith) (by positivity)
  rw [h4]
  linarith

theorem slack_small {n z : ℕ} (hz : z ≤ 14) {dt tiny Q : ℝ} (ht0 : 0 ≤ tiny) (hdt : 0 < dt) (hQ1 : 1 ≤ Q) (hQ : dt ≤ Q) (ht : Q * (tiny * Real.sqrt n) ≤ 1 / 1000) :
    0 ≤ stepSlack dt (rowSlack z tiny * Real.sqrt n) (slack n tiny) ∧ stepSlack dt (rowSlack z tiny * Real.sqrt n) (slack n tiny) ≤ 1 / 8 ∧
      rowSlack z tiny * Real.sqrt n + slack n tiny ≤ 1 / 12 := by
  have hs : 0 ≤ tiny * Real.sqrt n := by positivity
  have hz' : (z : ℝ) ≤ 14 := by exact_mod_cast hz
  have e1 : rowSlack z tiny * Real.sqrt n = 5 * z * (tiny * Real.sqrt n) := by unfold rowSlack; ring
  have e2 : slack n tiny = 2 * (tiny * Real.sqrt n) := by unfold slack; ring
  rw [e1, e2]
  set s := tiny * Real.sqrt n
  have h1 : s ≤ 1 / 1000 := by nlinarith
  have h2 : 5 * z * s ≤ 70 * s := by nlinarith
  have h3 : 0 ≤ 5 * z * s := by positivity
  have h4 : dt * s ≤ 1 / 1000 := le_trans (by nlinarith) ht
  have h5 : dt * (5 * z * s + 2 * s) ≤ dt * (72 * s) := mul_le_mul_of_nonneg_left (by linarith) hdt.le
  unfold stepSlack
  rw [abs_of_pos hdt]
  refine ⟨by positivity, ?_, by linarith⟩
  nlinarith

theorem range_small {z : ℕ} (hz : z ≤ 14) {dt B tiny huge P Q : ℝ} {n steps : ℕ} (hk : steps ≤ 2 ^ 24) (ht0 : 0 ≤ tiny) (hdt : 0 < dt) (hB : 0 ≤ B) (hst : (dt * B) ^ 2 ≤ 8)
    (hP1 : 1 ≤ P) (hP : 1 ≤ P * dt) (hPh : 8192 * P ≤ huge) (hQ1 : 1 ≤ Q) (hQ : dt ≤ Q) (ht : Q * (tiny * Real.sqrt n) ≤ 1 / 1000) :
    stepRange z B (rowSlack z tiny * Real.sqrt n) (slack n tiny) (expPoly (dt * B) * ((1 + stepError (1 / 2 ^ 53) z (dt * B)) ^ steps *
      (1 + stepSlack dt (rowSlack z tiny * Real.sqrt n) (slack n tiny)))) (1 / 2 ^ 53) ≤ huge := by
  obtain ⟨s0, s1, s2⟩ := slack_small (n := n) hz ht0 hdt hQ1 hQ ht
  have hx : 0 ≤ dt * B := by positivity
  obtain ⟨h0, h1'⟩ := stepError_le (z := z) (by omega) hx hst
  have h1 : stepError (1 / 2 ^ 53) z (dt * B) ≤ 1200 / 2 ^ 52 := by
    refine h1'.trans ?_
    have hz' : ((4 * z + 24 : ℕ) : ℝ) ≤ 80 := by exact_mod_cast (by omega : 4 * z + 24 ≤ 80)
    rw [show (1200 : ℝ) = 80 * 15 by norm_num]
    gcongr
  have e15 : expPoly (dt * B) ≤ 15 := expPoly_le hx hst
  have e0 : 0 ≤ expPoly (dt * B) := by unfold expPoly; positivity
  have hp : (1 + stepError (1 / 2 ^ 53) z (dt * B)) ^ steps ≤ 2 := by
    have h2 : (steps : ℝ) * stepError (1 / 2 ^ 53) z (dt * B) ≤ 1 / 2 := by
      have hk' : (steps : ℝ) ≤ 2 ^ 24 := by exact_mod_cast hk
      refine (mul_le_mul hk' h1 h0 (by positivity)).trans ?_
      norm_num
    have := RealSpace.pow_sub_one_le (n := steps) h0 (h2.trans (by norm_num))
    linarith
  have hp0 : 0 ≤ (1 + stepError (1 / 2 ^ 53) z (dt * B)) ^ steps := by positivity
  generalize (1 + stepError (1 / 2 ^ 53) z (dt * B)) ^ steps = D at hp hp0 ⊢
  generalize stepSlack dt (rowSlack z tiny * Real.sqrt n) (slack n tiny) = τ at s0 s1 ⊢
  generalize rowSlack z tiny * Real.sqrt n = q at s2 ⊢
  generalize slack n tiny = σ at s2 ⊢
  generalize expPoly (dt * B) = E at e15 e0 ⊢
  have hY : E * (D * (1 + τ)) ≤ 34 := by
    have : E * (D * (1 + τ)) ≤ 15 * (2 * (9 / 8)) :=
      mul_le_mul e15 (mul_le_mul hp (by linarith) (by linarith) (by norm_num)) (by positivity) (by norm_num)
    linarith
  have hY0 : 0 ≤ E * (D * (1 + τ)) := by positivity
  generalize E * (D * (1 + τ)) = Y at hY hY0 ⊢
  have hB3 : B ≤ 3 * P := by
    have h3 : dt * B ≤ 3 := by nlinarith
    have : dt * B * P ≤ 3 * P := mul_le_mul_of_nonneg_right h3 (by linarith)
    have : B ≤ P * dt * B := by nlinarith
    linarith
  have hT : ((1 : ℝ) + 1 / 2 ^ 53) ^ (4 * z + 24) ≤ 2 := by
    have hz' : ((4 * z + 24 : ℕ) : ℝ) ≤ 80 := by exact_mod_cast (by omega : 4 * z + 24 ≤ 80)
    have h2 : ((4 * z + 24 : ℕ) : ℝ) * (1 / 2 ^ 53) ≤ 1 / 2 := by
      refine (mul_le_mul_of_nonneg_right hz' (by positivity)).trans ?_
      norm_num
    have := RealSpace.pow_sub_one_le (n := 4 * z + 24) (u := (1 : ℝ) / 2 ^ 53) (by positivity) (h2.trans (by norm_num))
    linarith
  have hT0 : 0 ≤ ((1 : ℝ) + 1 / 2 ^ 53) ^ (4 * z + 24) := by positivity
  unfold stepRange
  generalize ((1 : ℝ) + 1 / 2 ^ 53) ^ (4 * z + 24) = T at hT hT0 ⊢
  have h4 : (2 + 12 * B) * Y + 6 * q + 6 * σ ≤ 1300 * P := by nlinarith
  have h5 : T * ((2 + 12 * B) * Y + 6 * q + 6 * σ) ≤ T * (1300 * P) := mul_le_mul_of_nonneg_left h4 hT0
  nlinarith

theorem binary64_scales {n : ℕ} (hn : n < 2 ^ 64) {dt : ℝ} (hdt1 : 1 / 2 ^ 1000 ≤ dt) (hdt2 : dt ≤ 2 ^ 900) :
    0 < dt ∧ (1 : ℝ) ≤ 2 ^ 1000 ∧ 1 ≤ (2 : ℝ) ^ 1000 * dt ∧ 8192 * (2 : ℝ) ^ 1000 ≤ 2 ^ 1023 ∧ (1 : ℝ) ≤ 2 ^ 900 ∧
      (2 : ℝ) ^ 900 * (1 / 2 ^ 1022 * Real.sqrt n) ≤ 1 / 1000 ∧ (1 : ℝ) / 2 ^ 1022 ≤ dt / 6 ∧ (1 : ℝ) / 2 ^ 1022 ≤ 1 / 2 ∧
      ((2 ^ 24 : ℕ) + 1) * dt ≤ 2 ^ 1023 ∧ ((2 ^ 24 : ℕ) : ℝ) + 1 ≤ 2 ^ 1023 := by
  have p1000 : (0 : ℝ) < 2 ^ 1000 := pow_pos two_pos _
  have p900 : (0 : ℝ) < 2 ^ 900 := pow_pos two_pos _
  have p90 : (0 : ℝ) < 2 ^ 90 := pow_pos two_pos _
  have o900 : (1 : ℝ) ≤ 2 ^ 900 := one_le_pow₀ one_le_two
  have o1000 : (1 : ℝ) ≤ 2 ^ 1000 := one_le_pow₀ one_le_two
  have e1 : (2 : ℝ) ^ 1023 = 2 ^ 23 * 2 ^ 1000 := by rw [← pow_add]
  have e2 : (2 : ℝ) ^ 1022 = 2 ^ 22 * 2 ^ 1000 := by rw [← pow_add]
  have e3 : (2 : ℝ) ^ 1000 = 2 ^ 900 * 2 ^ 90 * 2 ^ 10 := by rw [← pow_add, ← pow_add]
  have hs : Real.sqrt n ≤ 2 ^ 32 := by
    rw [Real.sqrt_le_left (by positivity)]
    have : (n : ℝ) < 2 ^ 64 := by exact_mod_cast hn
    refine this.le.trans (le_of_eq ?_)
    rw [← pow_mul]
  have hs0 := Real.sqrt_nonneg (n : ℝ)
  have o90 : (2 : ℝ) ^ 60 ≤ 2 ^ 90 := pow_le_pow_right₀ one_le_two (by norm_num)
  have hd0 : 0 < dt := lt_of_lt_of_le (by positivity) hdt1
  have hd1 : 1 ≤ (2 : ℝ) ^ 1000 * dt := by
    rw [div_le_iff₀ p1000] at hdt1
    linarith [mul_comm dt ((2 : ℝ) ^ 1000)]
  rw [e1, e2]
  clear e1 e2
  generalize (2 : ℝ) ^ 1000 = X at *
  generalize (2 : ℝ) ^ 900 = Z at *
  generalize (2 : ℝ) ^ 90 = W at *
  have hZW : W ≤ Z * W := by nlinarith
  have hX : (2 : ℝ) ^ 60 * 2 ^ 10 ≤ X := by rw [e3]; nlinarith
  refine ⟨hd0, o1000, hd1, by nlinarith, o900, ?_, ?_, ?_, ?_, ?_⟩
  · rw [e3, show Z * (1 / (2 ^ 22 * (Z * W * 2 ^ 10)) * Real.sqrt n) = Real.sqrt n / (2 ^ 32 * W) by field_simp,
      div_le_div_iff₀ (by positivity) (by norm_num)]
    nlinarith
  · rw [div_le_div_iff₀ (by positivity) (by norm_num)]
    nlinarith
  · rw [div_le_div_iff₀ (by positivity) (by norm_num)]
    nlinarith
  · have h6 : dt ≤ X / 2 ^ 60 := by
      rw [le_div_iff₀ (by positivity), e3]
      have : dt * 2 ^ 60 ≤ Z * W := mul_le_mul hdt2 o90 (by positivity) p900.le
      linarith [mul_pos p900 p90]
    push_cast
    nlinarith
  · push_cast
    nlinarith

/-! ### The matrices -/

variable {N : ℕ} {sort : List (Triplet ℝ) → List (Triplet ℝ)}

theorem identity_rounding : Spec.Rounding (id : ℝ → ℝ) 0 := ⟨le_rfl, fun x => by simp⟩

theorem mem_done {L : ℕ → List (Triplet ℝ)} {n : ℕ} {d : List (List (ℕ × ℝ))} (hd : d = (List.range n).map fun r => Sparse.stored (L r)) :
    ∀ r ∈ d, ∀ e ∈ r, ∃ i < n, ∃ t ∈ L i, e.2 = t.value := by
  intro r hr e he
  rw [hd, List.mem_map] at hr
  obtain ⟨i, hi, rfl⟩ := hr
  simp only [Sparse.stored, List.mem_map] at he
  obtain ⟨t, ht, rfl⟩ := he
  exact ⟨i, List.mem_range.1 hi, t, ht, rfl⟩

theorem binary64_zero : binary64 0 = .val 0 := binary64_exact ⟨0, 0, by simp, by norm_num, by norm_num, by norm_num⟩

/-- What the time loop needs, for `binary64`. -/
theorem settingR_of {n z : ℕ} {m : Sparse ℝ} {B dt : ℝ} (S : Setting id n m z B dt) (hz : z ≤ 14) (hn : n < 2 ^ 64) (hdt1 : 1 / 2 ^ 1000 ≤ dt) (hdt2 : dt ≤ 2 ^ 900) :
    SettingR (1 / 2 ^ 53) (1 / 2 ^ 1022) (2 ^ 1023) n m (timesI m) z B dt (2 ^ 24) (rowSlack z (1 / 2 ^ 1022) * Real.sqrt n) (slack n (1 / 2 ^ 1022)) := by
  obtain ⟨c1, c2, c3, c4, c5, c6, c7, c8, c9, c10⟩ := binary64_scales hn hdt1 hdt2
  exact ⟨S.pos, timesI_get m, timesI_columns m, S.symm, S.bound, S.nonneg, S.stored, S.step, S.stable, c7, c8, by norm_num, by norm_num, c9, c10, rfl, rfl,
    range_small hz le_rfl (by positivity) S.step S.nonneg S.stable c2 c3 c4 c5 hdt2 c6⟩

/-- **C117, `hubbard_real_1d_rk4_coefficients`.** In IEEE binary64 arithmetic, with gradual underflow and overflow: neither an infinity nor a NaN comes up
in the run, and every coefficient written differs from that of the exact solution by at most `k (2^-41 + x⁵/120 exp x)` after `k` steps,
`x = dt (6 |J| + |U|)`. -/
theorem real1dRk4Coefficients_binary64 (hN : 3 ≤ N) (hn : N + N * N * N < 2 ^ 64) (hs : IsSort sort) {J U dt tEnd : ℝ} (hJ : IsBinary64 J) (hU : IsBinary64 U)
    (hU' : U = 0 ∨ 1 / 2 ^ 1021 ≤ |U|) (hdt1 : 1 / 2 ^ 1000 ≤ dt) (hdt2 : dt ≤ 2 ^ 900) (hst : (dt * (6 * |J| + |U|)) ^ 2 ≤ 8)
    (hend : tEnd + dt / 16 ≤ 2 ^ 24 * dt) (interval : ℕ) (w : Work ℂ) :
    ∃ m s k, initMatrix sort N 2 (Chain.real (K := ℝ) N 1).neighbors J U = .val m ∧
      real1dRk4CoefficientsR binary64 sort w N J U dt tEnd interval = .val s ∧
      ⌈(tEnd - dt / 16) / dt⌉₊ ≤ k ∧ k ≤ ⌈(tEnd + dt / 16) / dt⌉₊ ∧ s.out.length = k / max interval 1 + 1 ∧
      ∀ v, IsFlow (N + N * N * N) (fun i j => m.get i j) v → ∀ j < s.out.length, ∃ t xs,
        s.out[j]? = some (t, xs) ∧ |t - ((j * max interval 1 : ℕ) : ℝ) * dt| ≤ dt / 16 ∧ xs.length = 2 * (N + N * N * N) ∧
        ∀ p < N + N * N * N, ∃ x y, xs[2 * p]? = some x ∧ xs[2 * p + 1]? = some y ∧
          ‖(⟨x, y⟩ : ℂ) - v ((j * max interval 1 : ℕ) * dt) p‖ ≤ vectorErrorDouble (dt * (6 * |J| + |U|)) (j * max interval 1) := by
  obtain ⟨d0, -, -, -, d5, d6, -⟩ := binary64_scales hn hdt1 hdt2
  have hsz := (realBasis_size N).2
  obtain ⟨m, h1, S⟩ := setting3 (fl := id) identity_rounding hN hs (J := J) (U := U) (dt := dt) d0 rfl rfl rfl hst
  have SR := settingR_of S (by norm_num) hn hdt1 hdt2
  have hreg := chain_regular (Chain.Constructed.real (N := N) (1 : ℝ) (by omega) rfl) hN
  have hI : timesIR binary64 m = .val (timesI m) := timesIR_eq binary64_zero fun r hr e he => by
    obtain ⟨i, hi, t, ht, hv⟩ := mem_done (initMatrix_done hreg sort J U h1) r hr e he
    rcases rowList_values J U hi t ((hs _).1.mem_iff.1 ht) with h | h | h <;> rw [hv, h]
    · exact binary64_exact hJ
    · exact binary64_exact hJ.neg
    · exact binary64_exact (hU.half hU')
  obtain ⟨h, s, k, i1, i2, i3, i4, i5, i6⟩ := SR.simulate binary64_arithmetic (tEnd := tEnd) (by rw [Nat.cast_pow, Nat.cast_ofNat]; exact hend) (interval := interval)
    (meas := fun s => .val (s, coefficientRow s.2.2)) (fun _ y x => x = coefficientRow (List.ofFn y)) (fun k w y _ => ⟨_, rfl, rfl⟩) w
  refine ⟨m, s, k, h1, ?_, i3, i4, i5, ?_⟩
  · unfold real1dRk4CoefficientsR
    have h2U : 2 * (U / 2) = U := by ring
    simp only [binary64_exact (hU.half hU'), Res.bind_val, h2U, h1, hI, hsz, i1]
    exact i2
  · intro v hv j hj
    obtain ⟨t, x, hx, htt, y, hP, hy⟩ := i6 j hj
    obtain ⟨s0, s1, -⟩ := slack_small (n := N + N * N * N) (z := 8) (by norm_num) (by positivity) d0 d5 hdt2 d6
    refine ⟨t, x, hx, htt, by rw [hP, (coefficientRow_get _ 0).1]; simp, fun p hp => ?_⟩
    obtain ⟨-, g1, g2⟩ := coefficientRow_get (List.ofFn y) p
    rw [List.getElem?_ofFn, dif_pos hp, Option.map_some] at g1 g2
    rw [hP]
    refine ⟨_, _, g1, g2, (comp_le_norm2 (y - fun p : Fin (N + N * N * N) => v _ p) ⟨p, hp⟩).trans ((hy v hv).trans ?_)⟩
    exact vectorErrorR_binary64 le_rfl (by positivity) hst s0 s1 (rows_le d0 hend i4 i5 hj)

/-- **C117, `hubbard_real_1d_kinetic_rk4_coefficients`.** -/
theorem real1dKineticRk4Coefficients_binary64 (hN : 3 ≤ N) (hn : N < 2 ^ 64) (hs : IsSort sort) {J dt tEnd : ℝ} (hJ : IsBinary64 J)
    (hdt1 : 1 / 2 ^ 1000 ≤ dt) (hdt2 : dt ≤ 2 ^ 900) (hst : (dt * (2 * |J|)) ^ 2 ≤ 8) (hend : tEnd + dt / 16 ≤ 2 ^ 24 * dt) (interval : ℕ) (w : Work ℂ) :
    ∃ s k, real1dKineticRk4CoefficientsR binary64 sort w N J dt tEnd interval = .val s ∧
      ⌈(tEnd - dt / 16) / dt⌉₊ ≤ k ∧ k ≤ ⌈(tEnd + dt / 16) / dt⌉₊ ∧ s.out.length = k / max interval 1 + 1 ∧
      ∀ j < s.out.length, ∃ t xs,
        s.out[j]? = some (t, xs) ∧ |t - ((j * max interval 1 : ℕ) : ℝ) * dt| ≤ dt / 16 ∧ xs.length = 2 * N ∧
        ∀ p < N, ∃ x y, xs[2 * p]? = some x ∧ xs[2 * p + 1]? = some y ∧
          ‖(⟨x, y⟩ : ℂ) - hoppingAmplitude N J ((j * max interval 1 : ℕ) * dt) p‖ ≤ vectorErrorDouble (dt * (2 * |J|)) (j * max interval 1) := by
  obtain ⟨d0, -, -, -, d5, d6, -⟩ := binary64_scales hn hdt1 hdt2
  have hsz := (realBasis_size N).1
  have hreg := chain_regular (Chain.Constructed.real (N := N) (1 : ℝ) (by omega) rfl) hN
  obtain ⟨m, h1, S⟩ := setting1 (fl := id) identity_rounding hN hs (J := J) (dt := dt) d0 rfl hst
  obtain ⟨m', h1', _, _, _, _, _, h3⟩ := initKineticMatrix_ok hreg sort hs J
  rw [h1] at h1'; cases h1'
  have SR := settingR_of S (by norm_num) hn hdt1 hdt2
  have hI : timesIR binary64 m = .val (timesI m) := timesIR_eq binary64_zero fun r hr e he => by
    obtain ⟨i, hi, t, ht, hv⟩ := mem_done (initKineticMatrix_done sort J h1) r hr e he
    have := (hs _).1.mem_iff.1 ht
    simp only [kineticTriplets, List.mem_map] at this
    obtain ⟨_, _, rfl⟩ := this
    rw [hv]; exact binary64_exact hJ.neg
  obtain ⟨h, s, k, i1, i2, i3, i4, i5, i6⟩ := SR.simulate binary64_arithmetic (tEnd := tEnd) (by rw [Nat.cast_pow, Nat.cast_ofNat]; exact hend) (interval := interval)
    (meas := fun s => .val (s, coefficientRow s.2.2)) (fun _ y x => x = coefficientRow (List.ofFn y)) (fun k w y _ => ⟨_, rfl, rfl⟩) w
  refine ⟨s, k, ?_, i3, i4, i5, ?_⟩
  · unfold real1dKineticRk4CoefficientsR
    simp only [h1, Res.bind_val, hI, hsz, i1]
    exact i2
  · intro j hj
    obtain ⟨t, x, hx, htt, y, hP, hy⟩ := i6 j hj
    obtain ⟨s0, s1, -⟩ := slack_small (n := N) (z := 2) (by norm_num) (by positivity) d0 d5 hdt2 d6
    refine ⟨t, x, hx, htt, by rw [hP, (coefficientRow_get _ 0).1]; simp, fun p hp => ?_⟩
    obtain ⟨-, g1, g2⟩ := coefficientRow_get (List.ofFn y) p
    rw [List.getElem?_ofFn, dif_pos hp, Option.map_some] at g1 g2
    rw [hP]
    refine ⟨_, _, g1, g2, (comp_le_norm2 (y - fun p : Fin N => hoppingAmplitude N J _ p) ⟨p, hp⟩).trans ((hy _ (hopping_flow hN J h3)).trans ?_)⟩
    exact vectorErrorR_binary64 (by norm_num) (by positivity) hst s0 s1 (rows_le d0 hend i4 i5 hj)

end Ieompp.IEEE

namespace Ieompp.IEEE

open Ieompp.Spec

theorem isBinary64_one : IsBinary64 1 := ⟨1, 0, by norm_num, by norm_num, by norm_num, by norm_num⟩

/-- The default parameters of the programs meet the hypotheses of `real1dRk4Coefficients_binary64` ... -/
example : IsBinary64 1 ∧ ((1 : ℝ) = 0 ∨ 1 / 2 ^ 1021 ≤ |(1 : ℝ)|) ∧ (1 : ℝ) / 2 ^ 1000 ≤ 1 / 100 ∧ (1 / 100 : ℝ) ≤ 2 ^ 900 ∧
    ((1 / 100 : ℝ) * (6 * |1| + |1|)) ^ 2 ≤ 8 ∧ (10 : ℝ) + 1 / 100 / 16 ≤ 2 ^ 24 * (1 / 100) ∧ 10 + 10 * 10 * 10 < 2 ^ 64 := by
  refine ⟨isBinary64_one, .inr ?_, ?_, ?_, by norm_num, by norm_num, by norm_num⟩
  · rw [abs_one, div_le_one (pow_pos two_pos _)]
    exact one_le_pow₀ one_le_two
  · refine one_div_le_one_div_of_le (by norm_num) ?_
    calc (100 : ℝ) ≤ 2 ^ 7 := by norm_num
      _ ≤ 2 ^ 1000 := pow_le_pow_right₀ one_le_two (by norm_num)
  · exact le_trans (by norm_num) (one_le_pow₀ (n := 900) one_le_two)

/-- ... and so do extreme ones: `dt = 2^-900`, `J = 2^897`, `U = 2^898`. -/
example : IsBinary64 (2 ^ 897) ∧ IsBinary64 (2 ^ 898) ∧ ((1 / 2 ^ 900 : ℝ) * (6 * |(2 : ℝ) ^ 897| + |(2 : ℝ) ^ 898|)) ^ 2 ≤ 8 := by
  refine ⟨⟨1, 897, ?_, by norm_num, by norm_num, by norm_num⟩, ⟨1, 898, ?_, by norm_num, by norm_num, by norm_num⟩, ?_⟩
  · rw [Int.cast_one, one_mul]; rfl
  · rw [Int.cast_one, one_mul]; rfl
  · have e : (2 : ℝ) ^ 900 = 2 ^ 3 * 2 ^ 897 := by rw [← pow_add]
    have e' : (2 : ℝ) ^ 898 = 2 ^ 1 * 2 ^ 897 := by rw [← pow_add]
    have p : (0 : ℝ) < 2 ^ 897 := pow_pos two_pos _
    rw [e, e', abs_of_pos p, abs_of_pos (by positivity)]
    generalize (2 : ℝ) ^ 897 = X at p ⊢
    rw [show 1 / (2 ^ 3 * X) * (6 * X + 2 ^ 1 * X) = 1 by field_simp; norm_num]
    norm_num

end Ieompp.IEEE
