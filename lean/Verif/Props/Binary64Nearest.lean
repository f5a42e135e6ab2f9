import Verif.Props.Binary64

/-!
# The rounding functions of the specification round to nearest, ties to even

`Spec.double` and `Spec.binary64` are given by formulas. Here they are characterised by what IEEE 754 says: the result is a number of the format, no number
of the format is nearer to the exact value, of two equally near numbers the one with an even last digit is taken, and results are infinite from
`2^1024 - 2^970` on.
-/

set_option autoImplicit false
set_option linter.unusedSectionVars false

namespace Ieompp.IEEE

open Ieompp.Spec

/-- No integer is nearer than the rounded value. -/
theorem roundEven_nearest (r : ℝ) (n : ℤ) : |(roundEven r : ℝ) - r| ≤ |(n : ℝ) - r| := by
  have h := abs_sub_roundEven r
  rw [abs_sub_comm] at h
  by_cases hn : |(n : ℝ) - r| < 1 / 2
  · rw [roundEven_eq (m := n) (.inl (by rwa [abs_sub_comm]))]
  · exact h.trans (not_lt.1 hn)

/-- Of two equally near integers the even one is taken, and the other one is next to it. -/
theorem roundEven_tie {r : ℝ} {n : ℤ} (hn : n ≠ roundEven r) (h : |(n : ℝ) - r| = |(roundEven r : ℝ) - r|) :
    Even (roundEven r) ∧ (n = roundEven r + 1 ∨ n = roundEven r - 1) := by
  have h1 := abs_sub_roundEven r
  rw [abs_sub_comm] at h1
  have h2 : |(roundEven r : ℝ) - r| = 1 / 2 := by
    refine le_antisymm h1 (not_lt.1 fun hlt => hn ?_)
    rw [← h] at hlt
    exact (roundEven_eq (.inl (by rwa [abs_sub_comm]))).symm
  rw [h2] at h
  have hd : n = roundEven r + 1 ∨ n = roundEven r - 1 := by
    rcases abs_choice ((n : ℝ) - r) with a | a <;> rcases abs_choice ((roundEven r : ℝ) - r) with b | b <;> rw [a] at h <;> rw [b] at h2
    · exact absurd (by exact_mod_cast (by linarith : (n : ℝ) = roundEven r)) hn
    · left; exact_mod_cast (by linarith : (n : ℝ) = roundEven r + 1)
    · right; exact_mod_cast (by linarith : (n : ℝ) = roundEven r - 1)
    · exact absurd (by exact_mod_cast (by linarith : (n : ℝ) = roundEven r)) hn
  refine ⟨?_, hd⟩
  by_contra ho
  refine hn (roundEven_eq (.inr ⟨by rw [abs_sub_comm]; exact h, ?_⟩)).symm
  have ho' := Int.not_even_iff_odd.1 ho
  rcases hd with e | e <;> rw [e]
  · exact ho'.add_odd odd_one
  · exact ho'.sub_odd odd_one

/-- The candidates of a rounded value in units `2^e` in which `r` has 53 digits: an integer is nearer than, or as near as, every number of the format. -/
theorem scaled_candidate {r : ℝ} {e : ℤ} (h1 : (2 : ℝ) ^ 52 ≤ |r|) {z : ℝ} (hz : ∃ m f : ℤ, z = m * 2 ^ f ∧ |m| < 2 ^ 53) :
    (∃ n : ℤ, z = n * 2 ^ e) ∨ ∃ n : ℤ, |(n : ℝ) - r| < |z / 2 ^ e - r| := by
  obtain ⟨m, f, rfl, hm⟩ := hz
  have hp : (0 : ℝ) < 2 ^ e := by positivity
  rcases le_or_gt e f with hf | hf
  · left
    obtain ⟨k, hk⟩ := Int.eq_ofNat_of_zero_le (sub_nonneg.2 hf)
    refine ⟨m * 2 ^ k, ?_⟩
    rw [show f = k + e by omega, zpow_add₀ (by norm_num)]
    push_cast
    rw [zpow_natCast]; ring
  · right
    have hz : |(m : ℝ) * 2 ^ f / 2 ^ e| < 2 ^ 52 := by
      have hm' : |(m : ℝ)| < 2 ^ 53 := by exact_mod_cast hm
      have hle : (2 : ℝ) ^ f ≤ 2 ^ e / 2 := by
        rw [le_div_iff₀ two_pos, ← zpow_add_one₀ (by norm_num)]
        exact zpow_le_zpow_right₀ (by norm_num) (by omega)
      rw [abs_div, abs_mul, abs_of_pos hp, abs_of_pos (by positivity : (0 : ℝ) < 2 ^ f), div_lt_iff₀ hp]
      calc |(m : ℝ)| * 2 ^ f ≤ |(m : ℝ)| * (2 ^ e / 2) := by gcongr
        _ < 2 ^ 53 * (2 ^ e / 2) := by gcongr
        _ = 2 ^ 52 * 2 ^ e := by ring
    obtain ⟨z1, z2⟩ := abs_lt.1 hz
    rcases abs_choice r with c | c <;> rw [c] at h1
    · refine ⟨2 ^ 52, ?_⟩
      push_cast
      rw [abs_of_nonpos (by linarith), abs_of_neg (by linarith)]
      linarith
    · refine ⟨-2 ^ 52, ?_⟩
      push_cast
      rw [abs_of_nonneg (by linarith), abs_of_pos (by linarith)]
      linarith

/-- In units of `2^e`. -/
theorem abs_scaled (a b : ℝ) (e : ℤ) : |a * 2 ^ e - b * 2 ^ e| = |a - b| * 2 ^ e := by
  rw [← sub_mul, abs_mul, abs_of_pos (by positivity : (0 : ℝ) < 2 ^ e)]

/-- A rounded value is nearest, and even in a tie, if the rounding is done in units in which all candidates are integers or are farther away. -/
theorem nearest_of_scaled {x r z : ℝ} {e : ℤ} (hx : x = r * 2 ^ e) (hc : (∃ n : ℤ, z = n * 2 ^ e) ∨ ∃ n : ℤ, |(n : ℝ) - r| < |z / 2 ^ e - r|) :
    |(roundEven r : ℝ) * 2 ^ e - x| ≤ |z - x| ∧ (z ≠ roundEven r * 2 ^ e → |z - x| = |(roundEven r : ℝ) * 2 ^ e - x| →
      ∃ m : ℤ, Even m ∧ (roundEven r : ℝ) * 2 ^ e = m * 2 ^ e ∧ (z = (m + 1) * 2 ^ e ∨ z = (m - 1) * 2 ^ e)) := by
  have hp : (0 : ℝ) < 2 ^ e := by positivity
  rw [hx, abs_scaled]
  rcases hc with ⟨n, rfl⟩ | ⟨n, hn⟩
  · rw [abs_scaled]
    refine ⟨mul_le_mul_of_nonneg_right (roundEven_nearest r n) hp.le, fun h1 h2 => ?_⟩
    have h3 : n ≠ roundEven r := fun h => h1 (by rw [h])
    obtain ⟨t1, t2⟩ := roundEven_tie h3 (mul_right_cancel₀ hp.ne' h2)
    refine ⟨roundEven r, t1, rfl, t2.imp (fun h => ?_) fun h => ?_⟩ <;> rw [h] <;> push_cast <;> rfl
  · have hz : z = z / 2 ^ e * 2 ^ e := by field_simp
    rw [hz, abs_scaled]
    have hlt : |(roundEven r : ℝ) - r| < |z / 2 ^ e - r| := (roundEven_nearest r n).trans_lt hn
    exact ⟨mul_le_mul_of_nonneg_right hlt.le hp.le, fun _ h => absurd (mul_right_cancel₀ hp.ne' h) hlt.ne'⟩

/-- **`Spec.double` rounds to nearest, ties to even.** -/
theorem double_nearest (x : ℝ) : (∃ m e : ℤ, double x = m * 2 ^ e ∧ |m| ≤ 2 ^ 53) ∧
    ∀ z : ℝ, (∃ m e : ℤ, z = m * 2 ^ e ∧ |m| < 2 ^ 53) → |double x - x| ≤ |z - x| ∧
      (z ≠ double x → |z - x| = |double x - x| → ∃ m e : ℤ, Even m ∧ double x = m * 2 ^ e ∧ (z = (m + 1) * 2 ^ e ∨ z = (m - 1) * 2 ^ e)) := by
  rcases eq_or_ne x 0 with rfl | hx
  · rw [double_zero]
    refine ⟨⟨0, 0, by simp, by norm_num⟩, fun z _ => ⟨by simp, fun h1 h2 => absurd ?_ h1⟩⟩
    simpa using h2
  obtain ⟨e, m, h1, h2, h3, h4, -⟩ := double_scaled hx
  have hp : (2 : ℝ) ^ e ≠ 0 := by positivity
  have hr : x = x / 2 ^ e * 2 ^ e := by field_simp
  rw [h1]
  refine ⟨⟨m, e, rfl, ?_⟩, fun z hz => ?_⟩
  · have h6 := abs_lt.1 h4
    rw [abs_le, h2]
    exact ⟨le_roundEven_of_le (by push_cast; linarith), roundEven_le_of_le (by push_cast; linarith)⟩
  · obtain ⟨a, b⟩ := nearest_of_scaled hr (scaled_candidate (e := e) h3 hz)
    rw [h2]
    refine ⟨a, fun c d => ?_⟩
    obtain ⟨k, k1, k2, k3⟩ := b c d
    exact ⟨k, e, k1, k2, k3⟩

theorem subnormal_eq (x : ℝ) : (roundEven (x * 2 ^ 1074) : ℝ) / 2 ^ 1074 = roundEven (x * 2 ^ 1074) * 2 ^ (-1074 : ℤ) := by
  rw [zpow_neg, div_eq_mul_inv, show (1074 : ℤ) = ((1074 : ℕ) : ℤ) from rfl, zpow_natCast]

/-- The exponent of the last digit of a number that is not subnormal. -/
theorem normal_exponent {x : ℝ} (h : ¬ |x| < 1 / 2 ^ 1022) : -1074 ≤ Int.log 2 |x| - 52 := by
  rw [not_lt] at h
  have h0 : (0 : ℝ) < 1 / 2 ^ 1022 := div_pos one_pos (pow_pos two_pos _)
  have h1 : ((2 : ℕ) : ℝ) ^ (-1022 : ℤ) ≤ |x| := by
    refine le_trans (le_of_eq ?_) h
    rw [zpow_neg, one_div, show (1022 : ℤ) = ((1022 : ℕ) : ℤ) from rfl, zpow_natCast, Nat.cast_ofNat]
  have := (Int.zpow_le_iff_le_log (b := 2) (by norm_num) (h0.trans_le h)).1 h1
  omega

/-- The value before the check for overflow: nearest, ties to even. -/
theorem binary64Value_nearest (x z : ℝ) (hz : ∃ m e : ℤ, z = m * 2 ^ e ∧ |m| < 2 ^ 53 ∧ -1074 ≤ e) : |binary64Value x - x| ≤ |z - x| ∧
    (z ≠ binary64Value x → |z - x| = |binary64Value x - x| →
      ∃ m e : ℤ, Even m ∧ -1074 ≤ e ∧ binary64Value x = m * 2 ^ e ∧ (z = (m + 1) * 2 ^ e ∨ z = (m - 1) * 2 ^ e)) := by
  obtain ⟨m, f, hm, hm1, hm2⟩ := hz
  unfold binary64Value
  split_ifs with h
  · rw [subnormal_eq]
    have hx : x = x * 2 ^ 1074 * 2 ^ (-1074 : ℤ) := by
      have : (2 : ℝ) ^ 1074 ≠ 0 := (pow_pos two_pos _).ne'
      rw [zpow_neg, mul_assoc]
      rw [show (1074 : ℤ) = ((1074 : ℕ) : ℤ) from rfl, zpow_natCast, mul_inv_cancel₀ this, mul_one]
    obtain ⟨a, b⟩ := nearest_of_scaled (z := z) hx (.inl (by
      obtain ⟨k, hk⟩ := Int.eq_ofNat_of_zero_le (sub_nonneg.2 hm2)
      refine ⟨m * 2 ^ k, ?_⟩
      rw [hm, show f = k + -1074 by omega, zpow_add₀ (by norm_num)]
      push_cast
      rw [zpow_natCast]; ring))
    refine ⟨a, fun c d => ?_⟩
    obtain ⟨k, k1, k2, k3⟩ := b c d
    exact ⟨k, -1074, k1, le_rfl, k2, k3⟩
  · have hx : x ≠ 0 := fun h0 => h (by rw [h0, abs_zero]; exact div_pos one_pos (pow_pos two_pos _))
    obtain ⟨e, k, h1, h2, h3, h4, h5⟩ := double_scaled hx
    have hp : (2 : ℝ) ^ e ≠ 0 := by positivity
    have hr : x = x / 2 ^ e * 2 ^ e := by field_simp
    obtain ⟨a, b⟩ := nearest_of_scaled hr (scaled_candidate (e := e) h3 ⟨m, f, hm, hm1⟩)
    rw [h1, h2]
    refine ⟨a, fun c d => ?_⟩
    obtain ⟨l, l1, l2, l3⟩ := b c d
    exact ⟨l, e, l1, by rw [h5]; exact normal_exponent h, l2, l3⟩

/-- The value before the check for overflow has at most 53 digits and is a multiple of `2^-1074`. -/
theorem binary64Value_digits (x : ℝ) : ∃ m e : ℤ, binary64Value x = m * 2 ^ e ∧ |m| < 2 ^ 53 ∧ -1074 ≤ e ∧ (e ≠ -1074 → 2 ^ 52 ≤ |m|) := by
  unfold binary64Value
  split_ifs with h
  · rw [subnormal_eq]
    refine ⟨_, _, rfl, ?_, le_rfl, fun h => absurd rfl h⟩
    have h1 : |x * 2 ^ 1074| ≤ 2 ^ 52 := by
      have hp : (0 : ℝ) < 2 ^ 1074 := pow_pos two_pos _
      have hp' : (0 : ℝ) < 2 ^ 1022 := pow_pos two_pos _
      rw [abs_mul, abs_of_pos hp, show (2 : ℝ) ^ 1074 = 2 ^ 1022 * 2 ^ 52 by rw [← pow_add]]
      rw [lt_div_iff₀ hp'] at h
      calc |x| * (2 ^ 1022 * 2 ^ 52) = |x| * 2 ^ 1022 * 2 ^ 52 := by ring
        _ ≤ 1 * 2 ^ 52 := mul_le_mul_of_nonneg_right h.le (by positivity)
        _ = 2 ^ 52 := one_mul _
    generalize x * 2 ^ 1074 = r at h1
    obtain ⟨a, b⟩ := abs_le.1 h1
    rw [abs_lt]
    have c1 := le_roundEven_of_le (x := r) (m := -2 ^ 52) (by push_cast; linarith)
    have c2 := roundEven_le_of_le (x := r) (m := 2 ^ 52) (by push_cast; linarith)
    constructor <;> omega
  · have hx : x ≠ 0 := fun h0 => h (by rw [h0, abs_zero]; exact div_pos one_pos (pow_pos two_pos _))
    have he := normal_exponent h
    obtain ⟨e, k, h1, h2, h3, h4, h5⟩ := double_scaled hx
    rw [← h5] at he
    rw [h1]
    have hk : |k| ≤ 2 ^ 53 ∧ 2 ^ 52 ≤ |k| := by
      rw [h2]
      generalize x / 2 ^ e = r at h3 h4
      obtain ⟨a, b⟩ := abs_lt.1 h4
      constructor
      · rw [abs_le]
        exact ⟨le_roundEven_of_le (by push_cast; linarith), roundEven_le_of_le (by push_cast; linarith)⟩
      · rcases abs_choice r with c | c <;> rw [c] at h3
        · exact le_trans (le_roundEven_of_le (m := 2 ^ 52) (by push_cast; linarith)) (le_abs_self _)
        · have := roundEven_le_of_le (x := r) (m := -2 ^ 52) (by push_cast; linarith)
          exact le_trans (by omega) (neg_le_abs _)
    rcases hk.1.lt_or_eq with hlt | heq
    · exact ⟨k, e, rfl, hlt, he, fun _ => hk.2⟩
    · rcases abs_choice k with c | c <;> rw [c] at heq
      · refine ⟨2 ^ 52, e + 1, ?_, by norm_num, by omega, fun _ => by norm_num⟩
        rw [heq, zpow_add_one₀ (by norm_num)]; push_cast; ring
      · refine ⟨-2 ^ 52, e + 1, ?_, by norm_num, by omega, fun _ => by norm_num⟩
        rw [show k = -2 ^ 53 by omega, zpow_add_one₀ (by norm_num)]; push_cast; ring

/-- **`Spec.binary64` is the rounding of IEEE 754: to the nearest number of the format, ties to even.** -/
theorem binary64_nearest {x y : ℝ} (h : binary64 x = .val y) : IsBinary64 y ∧ ∀ z, IsBinary64 z → |y - x| ≤ |z - x| ∧
    (z ≠ y → |z - x| = |y - x| → ∃ m e : ℤ, Even m ∧ -1074 ≤ e ∧ y = m * 2 ^ e ∧ (z = (m + 1) * 2 ^ e ∨ z = (m - 1) * 2 ^ e)) := by
  unfold binary64 at h
  split_ifs at h with h1
  injection h with h
  rw [← h]
  refine ⟨?_, fun z ⟨m, e, z1, z2, z3, _⟩ => binary64Value_nearest x z ⟨m, e, z1, z2, z3⟩⟩
  obtain ⟨m, e, a, b, c, d⟩ := binary64Value_digits x
  refine ⟨m, e, a, b, c, ?_⟩
  by_cases he : e = -1074
  · omega
  rw [a, abs_mul, abs_of_pos (by positivity : (0 : ℝ) < 2 ^ e)] at h1
  have d' : (2 : ℝ) ^ 52 ≤ |(m : ℝ)| := by exact_mod_cast d he
  have h2 : (2 : ℝ) ^ (52 + e) < 2 ^ (1024 : ℤ) := by
    rw [zpow_add₀ (two_ne_zero)]
    refine lt_of_le_of_lt (mul_le_mul_of_nonneg_right ?_ (by positivity)) (h1.trans_eq (by rw [show (1024 : ℤ) = ((1024 : ℕ) : ℤ) from rfl, zpow_natCast]))
    exact le_trans (le_of_eq (by norm_cast)) d'
  have := (zpow_lt_zpow_iff_right₀ (by norm_num)).1 h2
  omega

theorem abs_double (x : ℝ) : |double x| = double |x| := by
  rcases lt_trichotomy x 0 with h | rfl | h
  · have e : double (-x) = -double x := by
      unfold double
      rw [if_neg h.ne, if_neg (neg_ne_zero.2 h.ne), abs_neg]
      have : ∀ r : ℝ, roundEven (-r) = -roundEven r := by
        intro r
        have h1 := abs_sub_roundEven r
        rcases h1.lt_or_eq with h1 | h1
        · exact roundEven_eq (.inl (by push_cast; rw [← abs_neg]; rw [show -(-r - -(roundEven r : ℝ)) = r - roundEven r by ring]; exact h1))
        · refine roundEven_eq (.inr ⟨by push_cast; rw [← abs_neg]; rw [show -(-r - -(roundEven r : ℝ)) = r - roundEven r by ring]; exact h1, ?_⟩)
          rw [even_neg]
          by_contra ho
          have ho' := Int.not_even_iff_odd.1 ho
          rcases abs_choice (r - roundEven r) with c | c <;> rw [c] at h1
          · have := roundEven_eq (x := r) (m := roundEven r + 1) (.inr ⟨by
              push_cast; rw [abs_of_neg (by linarith)]; linarith, ho'.add_odd odd_one⟩)
            omega
          · have := roundEven_eq (x := r) (m := roundEven r - 1) (.inr ⟨by
              push_cast; rw [abs_of_pos (by linarith)]; linarith, ho'.sub_odd odd_one⟩)
            omega
      rw [neg_div, this]; push_cast; ring
    rw [abs_of_neg (double_neg h), abs_of_neg h, e]
  · simp [double_zero]
  · rw [abs_of_pos (double_pos h), abs_of_pos h]

/-- The largest numbers, in terms of the unit `2^k` of their last digit. -/
theorem double_top {k : ℤ} {P x : ℝ} (hP : 0 < P) (h0 : (2 : ℝ) ^ k = 2 * P) (h1 : (2 : ℝ) ^ (k + 52) = 2 ^ 53 * P) (h2 : (2 : ℝ) ^ (k + 53) = 2 ^ 54 * P) :
    (2 ^ 53 * P ≤ |x| → |x| < 2 ^ 54 * P - P → |double x| < 2 ^ 54 * P) ∧ (2 ^ 54 * P - P ≤ |x| → 2 ^ 54 * P ≤ |double x|) := by
  rw [abs_double]
  constructor
  · intro a b
    have hpos : 0 < |x| := lt_of_lt_of_le (by positivity) a
    have hl : Int.log 2 |x| = k + 52 := by
      apply le_antisymm
      · have : Int.log 2 |x| < k + 53 := (Int.lt_zpow_iff_log_lt (b := 2) (by norm_num) hpos).1 (by
          rw [Nat.cast_ofNat, h2]; linarith)
        omega
      · exact (Int.zpow_le_iff_le_log (b := 2) (by norm_num) hpos).1 (by rw [Nat.cast_ofNat, h1]; exact a)
    unfold double
    rw [if_neg hpos.ne', abs_abs, hl, add_sub_cancel_right, h0]
    have hb : |x| / (2 * P) < 2 ^ 53 - 1 / 2 := by rw [div_lt_iff₀ (by positivity)]; linarith
    have h5 : (roundEven (|x| / (2 * P)) : ℝ) ≤ 2 ^ 53 - 1 := by
      have hb2 : roundEven (|x| / (2 * P)) ≤ 2 ^ 53 - 1 := by
        generalize |x| / (2 * P) = r at hb
        unfold roundEven
        split_ifs
        · rw [← Int.lt_add_one_iff, Int.floor_lt]; push_cast; linarith
        · rw [← Int.lt_add_one_iff, Int.floor_lt]; push_cast; linarith
      exact_mod_cast hb2
    generalize (roundEven (|x| / (2 * P)) : ℝ) = n at h5
    nlinarith
  · intro a
    refine le_trans (le_of_eq ?_) (double_monotone a)
    have := double_eq (x := 2 ^ 54 * P - P) (r := 2 ^ 53 - 1 / 2) (e := k) (m := 2 ^ 53) (by
        rw [h1]
        refine le_trans ?_ (le_abs_self _)
        linarith) (by
        rw [h2, abs_of_pos] <;> linarith) (by rw [h0]; ring) (.inr ⟨by norm_num, ⟨2 ^ 52, by norm_num⟩⟩)
    rw [this, h0]; push_cast; ring

/-- The same with the subnormal numbers, `s` the smallest number that is not subnormal. -/
theorem value_top {k : ℤ} {P x s v : ℝ} (hP : 0 < P) (h0 : (2 : ℝ) ^ k = 2 * P) (h1 : (2 : ℝ) ^ (k + 52) = 2 ^ 53 * P) (h2 : (2 : ℝ) ^ (k + 53) = 2 ^ 54 * P)
    (hs : s ≤ P) (hv : ¬ |x| < s → v = double x) (herr : |v - x| ≤ 1 / 2 ^ 53 * max |x| s) : ¬ |v| < 2 ^ 54 * P ↔ 2 ^ 54 * P - P ≤ |x| := by
  obtain ⟨t1, t2⟩ := double_top (x := x) hP h0 h1 h2
  clear h0 h1 h2
  rw [not_lt]
  constructor
  · intro h
    by_contra hlt
    rw [not_le] at hlt
    rcases lt_or_ge |x| (2 ^ 53 * P) with h2 | h2
    · have h4 : max |x| s ≤ 2 ^ 53 * P := max_le h2.le (by linarith)
      have h5 : |v| ≤ |v - x| + |x| := by
        have := abs_add_le (v - x) x
        rwa [sub_add_cancel] at this
      have h6 : 1 / 2 ^ 53 * max |x| s ≤ 1 / 2 ^ 53 * (2 ^ 53 * P) := by gcongr
      linarith
    · rw [hv (not_lt.2 (by linarith))] at h
      exact absurd (t1 h2 hlt) (not_lt.2 h)
  · intro h
    rw [hv (not_lt.2 (by linarith))]
    exact t2 h

/-- **Overflow: exactly the results from `2^1024 - 2^970` on**, half a unit above the largest number of the format. -/
theorem binary64_overflow_iff (x : ℝ) : binary64 x = .ub ↔ 2 ^ 1024 - 2 ^ 970 ≤ |x| := by
  have p970 : (0 : ℝ) < 2 ^ 970 := pow_pos two_pos _
  have e1024 : (2 : ℝ) ^ 1024 = 2 ^ 54 * 2 ^ 970 := by rw [← pow_add]
  have z971 : (2 : ℝ) ^ (971 : ℤ) = 2 * 2 ^ 970 := by rw [show (971 : ℤ) = ((970 + 1 : ℕ) : ℤ) by norm_num, zpow_natCast, pow_succ, mul_comm]
  have z1023 : (2 : ℝ) ^ ((971 : ℤ) + 52) = 2 ^ 53 * 2 ^ 970 := by
    rw [zpow_add₀ (by norm_num), z971, show (2 : ℝ) ^ (52 : ℤ) = 2 ^ 52 by norm_cast, mul_comm, ← mul_assoc, show (2 : ℝ) ^ 52 * 2 = 2 ^ 53 by norm_num]
  have z1024 : (2 : ℝ) ^ ((971 : ℤ) + 53) = 2 ^ 54 * 2 ^ 970 := by
    rw [zpow_add₀ (by norm_num), z971, show (2 : ℝ) ^ (53 : ℤ) = 2 ^ 53 by norm_cast, mul_comm, ← mul_assoc, show (2 : ℝ) ^ 53 * 2 = 2 ^ 54 by norm_num]
  have i1022 : (1 : ℝ) / 2 ^ 1022 ≤ 2 ^ 970 := by
    refine le_trans ?_ (one_le_pow₀ one_le_two)
    rw [div_le_one (pow_pos two_pos _)]
    exact one_le_pow₀ one_le_two
  have h := value_top (x := x) (v := binary64Value x) p970 z971 z1023 z1024 i1022 (fun h => by unfold binary64Value; rw [if_neg h]) (binary64Value_err x)
  unfold binary64
  rw [e1024, ← h]
  split_ifs with c
  · exact ⟨(fun h => nomatch h), fun h => absurd c h⟩
  · exact ⟨fun _ => c, fun _ => rfl⟩

/-- The hypothesis of `binary64_nearest` is met by every operation that does not overflow; here one in the subnormal range. -/
example : binary64 (1 / 2 ^ 1080) = .val 0 ∧ IsBinary64 0 := ⟨binary64_underflow, (binary64_nearest binary64_underflow).1⟩

end Ieompp.IEEE
