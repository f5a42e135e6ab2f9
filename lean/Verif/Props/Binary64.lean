import Verif.Spec.Binary64

/-! # C117: facts about binary64 -/

set_option autoImplicit false
set_option linter.unusedSectionVars false

namespace Ieompp.Spec

theorem binary64Value_err (x : ℝ) : |binary64Value x - x| ≤ 1 / 2 ^ 53 * max |x| (1 / 2 ^ 1022) := by
  unfold binary64Value
  split_ifs with h
  · refine le_trans ?_ (mul_le_mul_of_nonneg_left (le_max_right _ _) (by positivity))
    have h1 := abs_sub_roundEven (x * 2 ^ 1074)
    rw [abs_sub_comm] at h1
    have hp : (0 : ℝ) < 2 ^ 1074 := pow_pos two_pos _
    have e : (roundEven (x * 2 ^ 1074) : ℝ) / 2 ^ 1074 - x = ((roundEven (x * 2 ^ 1074) : ℝ) - x * 2 ^ 1074) / 2 ^ 1074 := by
      rw [sub_div, mul_div_assoc, div_self hp.ne', mul_one]
    rw [e, abs_div, abs_of_pos hp, div_le_iff₀ hp]
    refine h1.trans (le_of_eq ?_)
    have e2 : (2 : ℝ) ^ 1074 * 2 = 2 ^ 53 * 2 ^ 1022 := by rw [← pow_succ, ← pow_add]
    have h53 : (0 : ℝ) < 2 ^ 53 := pow_pos two_pos _
    have h1022 : (0 : ℝ) < 2 ^ 1022 := pow_pos two_pos _
    rw [div_mul_div_comm, one_mul, one_div_mul_eq_div, ← e2, eq_div_iff (by positivity)]
    ring
  · exact (double_err x).trans (mul_le_mul_of_nonneg_left (le_max_left _ _) (by positivity))

/-- `double` arithmetic: no overflow occurs up to `2^1023`. -/
theorem binary64_arithmetic : Arithmetic binary64 (1 / 2 ^ 53) (1 / 2 ^ 1022) (2 ^ 1023) := by
  refine ⟨by positivity, by positivity, fun x hx => ⟨binary64Value x, ?_, binary64Value_err x⟩⟩
  unfold binary64
  rw [if_pos]
  have h := binary64Value_err x
  have h1 : |binary64Value x| ≤ |binary64Value x - x| + |x| := by simpa using abs_add_le (binary64Value x - x) x
  have hs : (1 : ℝ) / 2 ^ 1022 ≤ 2 ^ 1023 := by
    refine le_trans (b := 1) ?_ (one_le_pow₀ one_le_two)
    rw [div_le_one (pow_pos two_pos _)]
    exact one_le_pow₀ one_le_two
  have h2 := mul_le_mul_of_nonneg_left (max_le hx hs) (show (0 : ℝ) ≤ 1 / 2 ^ 53 by positivity)
  have e : (2 : ℝ) ^ 1024 = 2 ^ 1023 + 2 ^ 1023 := by rw [pow_succ 2 1023]; ring
  have hp : (0 : ℝ) < 2 ^ 1023 := pow_pos two_pos _
  have h53 : (1 : ℝ) / 2 ^ 53 < 1 := by norm_num
  have h3 : (1 : ℝ) / 2 ^ 53 * 2 ^ 1023 < 1 * 2 ^ 1023 := mul_lt_mul_of_pos_right h53 hp
  rw [one_mul] at h3
  rw [e]
  exact lt_of_le_of_lt h1 (add_lt_add_of_lt_of_le (lt_of_le_of_lt (h.trans h2) h3) hx)

/-- Numbers of the format are not changed by rounding. -/
theorem binary64_exact {x : ℝ} (hx : IsBinary64 x) : binary64 x = .val x := by
  obtain ⟨m, e, rfl, hm, he1, he2⟩ := hx
  have hv : binary64Value (m * 2 ^ e) = m * 2 ^ e := by
    unfold binary64Value
    split_ifs with h
    · obtain ⟨k, hk⟩ : ∃ k : ℕ, e + 1074 = k := ⟨(e + 1074).toNat, by omega⟩
      have e1 : (m : ℝ) * 2 ^ e * 2 ^ 1074 = ((m * 2 ^ k : ℤ) : ℝ) := by
        push_cast
        rw [mul_assoc, ← zpow_natCast, ← zpow_natCast, ← zpow_add₀ two_ne_zero, ← hk]; rfl
      rw [e1, roundEven_intCast, ← e1, mul_div_assoc, div_self (pow_pos two_pos _).ne', mul_one]
    · exact double_fix hm.le
  unfold binary64
  rw [hv, if_pos]
  rw [abs_mul, abs_of_pos (show (0 : ℝ) < 2 ^ e from zpow_pos two_pos e)]
  have h1 : (|m| : ℤ) ≤ 2 ^ 53 - 1 := by omega
  have h2 : |(m : ℝ)| < 2 ^ 53 := by exact_mod_cast hm
  have h3 : (2 : ℝ) ^ e ≤ 2 ^ (971 : ℤ) := zpow_le_zpow_right₀ one_le_two he2
  calc |(m : ℝ)| * 2 ^ e < 2 ^ 53 * 2 ^ e := mul_lt_mul_of_pos_right h2 (zpow_pos two_pos e)
    _ ≤ 2 ^ 53 * 2 ^ (971 : ℤ) := mul_le_mul_of_nonneg_left h3 (by positivity)
    _ = 2 ^ 1024 := by
        rw [← zpow_natCast, ← zpow_natCast, ← zpow_add₀ two_ne_zero]; rfl

theorem IsBinary64.neg {x : ℝ} (hx : IsBinary64 x) : IsBinary64 (-x) := by
  obtain ⟨m, e, rfl, hm, he⟩ := hx
  exact ⟨-m, e, by push_cast; ring, by rwa [abs_neg], he⟩

/-- Half of a number that is not subnormal is again a number of the format. -/
theorem IsBinary64.half {x : ℝ} (hx : IsBinary64 x) (h : x = 0 ∨ 1 / 2 ^ 1021 ≤ |x|) : IsBinary64 (x / 2) := by
  rcases h with rfl | h
  · exact ⟨0, 0, by simp, by norm_num, by norm_num, by norm_num⟩
  obtain ⟨m, e, rfl, hm, he1, he2⟩ := hx
  by_cases he : e = -1074
  · -- the significand is at least 2^53
    exfalso
    subst he
    have h2 : |(m : ℝ)| < 2 ^ 53 := by exact_mod_cast hm
    rw [abs_mul, abs_of_pos (show (0 : ℝ) < 2 ^ (-1074 : ℤ) from zpow_pos two_pos _)] at h
    have : |(m : ℝ)| * 2 ^ (-1074 : ℤ) < 2 ^ 53 * 2 ^ (-1074 : ℤ) := mul_lt_mul_of_pos_right h2 (zpow_pos two_pos _)
    have e2 : (2 : ℝ) ^ 53 * 2 ^ (-1074 : ℤ) = 1 / 2 ^ 1021 := by
      rw [← zpow_natCast, ← zpow_add₀ two_ne_zero, one_div, ← zpow_natCast, ← zpow_neg]; rfl
    exact lt_irrefl _ (h.trans_lt (this.trans_le e2.le))
  · refine ⟨m, e - 1, ?_, hm, by omega, by omega⟩
    rw [zpow_sub₀ two_ne_zero, zpow_one, mul_div_assoc]

/-- The numbers 1, 2 and 0.01 (the `double` next to it). -/
example : IsBinary64 1 ∧ IsBinary64 2 ∧ IsBinary64 (5764607523034235 * 2 ^ (-59 : ℤ)) :=
  ⟨⟨1, 0, by norm_num, by norm_num, by norm_num, by norm_num⟩, ⟨1, 1, by norm_num, by norm_num, by norm_num, by norm_num⟩,
    ⟨5764607523034235, -59, by norm_num, by norm_num, by norm_num, by norm_num⟩⟩

/-- Too large numbers overflow. -/
theorem binary64_overflow : binary64 (2 ^ 1024) = .ub := by
  have hv : binary64Value (2 ^ 1024) = 2 ^ 1024 := by
    unfold binary64Value
    rw [if_neg]
    · have := double_fix (m := 1) (e := 1024) (by norm_num)
      rw [Int.cast_one, one_mul] at this
      have e : (2 : ℝ) ^ (1024 : ℤ) = 2 ^ 1024 := rfl
      rwa [e] at this
    · rw [not_lt, abs_of_pos (pow_pos two_pos _), div_le_iff₀ (pow_pos two_pos _), ← pow_add]
      exact one_le_pow₀ one_le_two
  unfold binary64
  rw [hv, if_neg]
  rw [abs_of_pos (pow_pos two_pos _)]
  exact lt_irrefl _

/-- Too small numbers underflow. -/
theorem binary64_underflow : binary64 (1 / 2 ^ 1080) = .val 0 := by
  have h1080 : (2 : ℝ) ^ 1080 = 2 ^ 1074 * 64 := by rw [show (64 : ℝ) = 2 ^ 6 by norm_num, ← pow_add]
  have hp : (0 : ℝ) < 2 ^ 1074 := pow_pos two_pos _
  have hv : binary64Value (1 / 2 ^ 1080) = 0 := by
    unfold binary64Value
    rw [if_pos]
    · have : roundEven ((1 : ℝ) / 2 ^ 1080 * 2 ^ 1074) = 0 := by
        refine roundEven_eq (Or.inl ?_)
        rw [h1080, Int.cast_zero, sub_zero, div_mul_eq_mul_div, one_mul, div_mul_eq_div_div, div_self hp.ne']
        norm_num [abs_of_pos]
      rw [this]; simp
    · rw [abs_of_pos (by positivity)]
      refine one_div_lt_one_div_of_lt (pow_pos two_pos _) (pow_lt_pow_right₀ one_lt_two (by norm_num))
  unfold binary64
  rw [hv, if_pos]
  rw [abs_zero]; exact pow_pos two_pos _

end Ieompp.Spec
