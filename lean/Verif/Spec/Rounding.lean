import Mathlib.Data.Real.Archimedean
import Mathlib.Data.Int.Log
import Mathlib.Tactic.Linarith
import Mathlib.Tactic.Ring
import Mathlib.Tactic.FieldSimp
import Mathlib.Tactic.Positivity
import Mathlib.Algebra.Order.Field.Power

/-! # Specification: rounding to 53 binary digits -/

set_option autoImplicit false

namespace Ieompp.Spec

/-- The standard model of floating point arithmetic with unit roundoff `u`. -/
structure Rounding (fl : ℝ → ℝ) (u : ℝ) : Prop where
  nonneg : 0 ≤ u
  err : ∀ x, |fl x - x| ≤ u * |x|

/-- The nearest integer, the even one in case of a tie. -/
noncomputable def roundEven (x : ℝ) : ℤ :=
  if Int.fract x = 1 / 2 ∧ Even ⌊x⌋ then ⌊x⌋ else ⌊x + 1 / 2⌋

/-- Rounding of a real number to 53 significant binary digits (`double` without overflow and underflow), to nearest, ties to even. -/
noncomputable def double (x : ℝ) : ℝ :=
  if x = 0 then 0 else (roundEven (x / (2 : ℝ) ^ (Int.log 2 |x| - 52)) : ℝ) * (2 : ℝ) ^ (Int.log 2 |x| - 52)

theorem abs_sub_roundEven (x : ℝ) : |x - (roundEven x : ℝ)| ≤ 1 / 2 := by
  unfold roundEven
  split_ifs with h
  · rw [Int.self_sub_floor, h.1, abs_of_pos (by norm_num)]
  · have h1 := Int.floor_le (x + 1 / 2)
    have h2 := Int.lt_floor_add_one (x + 1 / 2)
    rw [abs_le]; constructor <;> linarith

theorem roundEven_le_of_le {x : ℝ} {m : ℤ} (h : x ≤ m) : roundEven x ≤ m := by
  unfold roundEven
  split_ifs
  · exact_mod_cast (Int.floor_le x).trans h
  · rw [← Int.lt_add_one_iff, Int.floor_lt]; push_cast; linarith

theorem le_roundEven_of_le {x : ℝ} {m : ℤ} (h : (m : ℝ) ≤ x) : m ≤ roundEven x := by
  unfold roundEven
  split_ifs
  · exact Int.le_floor.2 h
  · rw [Int.le_floor]; linarith

theorem roundEven_intCast (m : ℤ) : roundEven (m : ℝ) = m :=
  le_antisymm (roundEven_le_of_le le_rfl) (le_roundEven_of_le le_rfl)

theorem roundEven_mono {x y : ℝ} (h : x ≤ y) : roundEven x ≤ roundEven y := by
  rcases h.eq_or_lt with rfl | h
  · exact le_rfl
  unfold roundEven
  split_ifs with h1 h2 h2
  · exact Int.floor_le_floor h.le
  · exact Int.floor_le_floor (by linarith)
  · have := Int.self_sub_floor y
    rw [h2.1] at this
    rw [← Int.lt_add_one_iff, Int.floor_lt]; push_cast; linarith
  · exact Int.floor_le_floor (by linarith)

/-- The integer at a distance less than a half, or at a distance of a half and even, is the rounded value. -/
theorem roundEven_eq {x : ℝ} {m : ℤ} (h : |x - m| < 1 / 2 ∨ (|x - m| = 1 / 2 ∧ Even m)) : roundEven x = m := by
  unfold roundEven
  rcases h with h | ⟨h, he⟩
  · obtain ⟨h1, h2⟩ := abs_lt.1 h
    split_ifs with ht
    · have h3 := Int.self_sub_floor x
      rw [ht.1] at h3
      have h4 : ((⌊x⌋ - m : ℤ) : ℝ) < 0 := by push_cast; linarith
      have h5 : (-1 : ℝ) < ((⌊x⌋ - m : ℤ) : ℝ) := by push_cast; linarith
      have h4' : ⌊x⌋ - m < 0 := by exact_mod_cast h4
      have h5' : -1 < ⌊x⌋ - m := by exact_mod_cast h5
      omega
    · rw [Int.floor_eq_iff]; constructor <;> linarith
  · rcases abs_choice (x - m) with hc | hc
    · rw [hc] at h
      have hf : ⌊x⌋ = m := by rw [Int.floor_eq_iff]; constructor <;> linarith
      rw [if_pos ⟨by rw [← Int.self_sub_floor, hf]; exact h, by rw [hf]; exact he⟩, hf]
    · rw [hc] at h
      have hf : ⌊x⌋ = m - 1 := by rw [Int.floor_eq_iff]; push_cast; constructor <;> linarith
      rw [if_neg (by rw [hf]; intro hh; have := hh.2; exact (Int.even_sub_one.1 this) he), Int.floor_eq_iff]
      constructor <;> linarith

/-- The relative error is at most `2^-53`. -/
theorem double_err (x : ℝ) : |double x - x| ≤ 1 / 2 ^ 53 * |x| := by
  unfold double
  split_ifs with h
  · simp [h]
  · set e := Int.log 2 |x| - 52 with he
    have hp : (0 : ℝ) < 2 ^ e := by positivity
    have h1 : (2 : ℝ) ^ (e + 52) ≤ |x| := by
      rw [he, sub_add_cancel]
      exact_mod_cast Int.zpow_log_le_self (b := 2) (r := |x|) (by norm_num) (abs_pos.2 h)
    rw [zpow_add₀ (by norm_num)] at h1
    have h2 := abs_sub_roundEven (x / (2 : ℝ) ^ e)
    have h3 : (roundEven (x / (2 : ℝ) ^ e) : ℝ) * 2 ^ e - x = -((x / 2 ^ e - roundEven (x / 2 ^ e)) * 2 ^ e) := by
      field_simp; ring
    rw [h3, abs_neg, abs_mul, abs_of_pos hp]
    have h4 : |x / 2 ^ e - (roundEven (x / 2 ^ e) : ℝ)| * 2 ^ e ≤ 1 / 2 * 2 ^ e := mul_le_mul_of_nonneg_right h2 hp.le
    refine h4.trans ?_
    have : (2 : ℝ) ^ (52 : ℤ) = 2 ^ 52 := by norm_cast
    rw [this] at h1
    have h5 : (1 : ℝ) / 2 ^ 53 * (2 ^ e * 2 ^ 52) ≤ 1 / 2 ^ 53 * |x| := by gcongr
    refine le_trans (le_of_eq ?_) h5
    ring

theorem double_rounding : Rounding double (1 / 2 ^ 53) := ⟨by positivity, double_err⟩

/-- Evaluation: `x` is `r` units of the last digit and `m` is the integer nearest to `r`. -/
theorem double_eq {x r : ℝ} {e : ℤ} {m : ℤ} (h1 : (2 : ℝ) ^ (e + 52) ≤ |x|) (h2 : |x| < (2 : ℝ) ^ (e + 53))
    (hr : x = r * 2 ^ e) (h : |r - m| < 1 / 2 ∨ (|r - m| = 1 / 2 ∧ Even m)) : double x = m * 2 ^ e := by
  have hx : 0 < |x| := lt_of_lt_of_le (by positivity) h1
  have hx0 : x ≠ 0 := abs_pos.1 hx
  have hl : Int.log 2 |x| = e + 52 := by
    apply le_antisymm
    · have : Int.log 2 |x| < e + 53 := (Int.lt_zpow_iff_log_lt (b := 2) (by norm_num) hx).1 (by exact_mod_cast h2)
      omega
    · exact (Int.zpow_le_iff_le_log (b := 2) (by norm_num) hx).1 (by exact_mod_cast h1)
  unfold double
  rw [if_neg hx0, hl, add_sub_cancel_right]
  have hp : (0 : ℝ) < 2 ^ e := by positivity
  rw [hr, mul_div_cancel_right₀ _ hp.ne', roundEven_eq h]

/-- `x` in units of the last of its 53 digits. -/
theorem double_scaled {x : ℝ} (hx : x ≠ 0) : ∃ (e m : ℤ), double x = m * 2 ^ e ∧ m = roundEven (x / 2 ^ e) ∧
    (2 : ℝ) ^ 52 ≤ |x / 2 ^ e| ∧ |x / 2 ^ e| < 2 ^ 53 ∧ e = Int.log 2 |x| - 52 := by
  refine ⟨Int.log 2 |x| - 52, _, by unfold double; rw [if_neg hx], rfl, ?_, ?_, rfl⟩
  all_goals
    have hp : (0 : ℝ) < 2 ^ (Int.log 2 |x| - 52) := by positivity
    rw [abs_div, abs_of_pos hp]
  · rw [le_div_iff₀ hp, ← zpow_natCast, ← zpow_add₀ (by norm_num)]
    have := Int.zpow_log_le_self (b := 2) (r := |x|) (by norm_num) (abs_pos.2 hx)
    push_cast at this ⊢
    rwa [add_sub_cancel]
  · rw [div_lt_iff₀ hp, ← zpow_natCast, ← zpow_add₀ (by norm_num)]
    have := Int.lt_zpow_succ_log_self (b := 2) (by norm_num) |x|
    push_cast at this ⊢
    rwa [show (53 : ℤ) + (Int.log 2 |x| - 52) = Int.log 2 |x| + 1 by ring]

/-- Rounding does not cross a power of two. -/
theorem double_pow_bounds {x : ℝ} (hx : x ≠ 0) :
    (0 < x → (2 : ℝ) ^ Int.log 2 |x| ≤ double x ∧ double x ≤ 2 ^ (Int.log 2 |x| + 1)) ∧
    (x < 0 → double x ≤ -(2 : ℝ) ^ Int.log 2 |x| ∧ -(2 : ℝ) ^ (Int.log 2 |x| + 1) ≤ double x) := by
  obtain ⟨e, m, h1, h2, h3, h4, h5⟩ := double_scaled hx
  have hp : (0 : ℝ) < 2 ^ e := by positivity
  have e1 : (2 : ℝ) ^ Int.log 2 |x| = 4503599627370496 * 2 ^ e := by
    rw [show Int.log 2 |x| = 52 + e by omega, zpow_add₀ (by norm_num)]; norm_num
  have e2 : (2 : ℝ) ^ (Int.log 2 |x| + 1) = 9007199254740992 * 2 ^ e := by
    rw [show Int.log 2 |x| + 1 = 53 + e by omega, zpow_add₀ (by norm_num)]; norm_num
  rw [e1, e2, h1]
  constructor
  · intro hpos
    rw [abs_of_pos (div_pos hpos hp)] at h3 h4
    constructor
    · apply mul_le_mul_of_nonneg_right _ hp.le
      rw [h2]
      exact_mod_cast le_roundEven_of_le (x := x / 2 ^ e) (m := 4503599627370496) (by push_cast; linarith)
    · apply mul_le_mul_of_nonneg_right _ hp.le
      rw [h2]
      exact_mod_cast roundEven_le_of_le (x := x / 2 ^ e) (m := 9007199254740992) (by push_cast; linarith)
  · intro hneg
    rw [abs_of_neg (div_neg_of_neg_of_pos hneg hp)] at h3 h4
    rw [← neg_mul, ← neg_mul]
    constructor
    · apply mul_le_mul_of_nonneg_right _ hp.le
      rw [h2]
      exact_mod_cast roundEven_le_of_le (x := x / 2 ^ e) (m := -4503599627370496) (by push_cast; linarith)
    · apply mul_le_mul_of_nonneg_right _ hp.le
      rw [h2]
      exact_mod_cast le_roundEven_of_le (x := x / 2 ^ e) (m := -9007199254740992) (by push_cast; linarith)

theorem double_zero : double 0 = 0 := by simp [double]

theorem double_pos {x : ℝ} (h : 0 < x) : 0 < double x :=
  lt_of_lt_of_le (by positivity) ((double_pow_bounds h.ne').1 h).1

theorem double_neg {x : ℝ} (h : x < 0) : double x < 0 :=
  lt_of_le_of_lt ((double_pow_bounds h.ne).2 h).1 (by have : (0:ℝ) < 2 ^ Int.log 2 |x| := by positivity
                                                      linarith)

/-- Rounding is monotone. -/
theorem double_monotone : Monotone double := by
  intro x y hxy
  rcases lt_trichotomy x 0 with hx | rfl | hx
  · rcases lt_or_ge y 0 with hy | hy
    · have hlog : Int.log 2 |y| ≤ Int.log 2 |x| := Int.log_mono_right (abs_pos.2 hy.ne) (by
        rw [abs_of_neg hx, abs_of_neg hy]; linarith)
      rcases hlog.lt_or_eq with hlt | heq
      · have h1 := ((double_pow_bounds hx.ne).2 hx).1
        have h2 := ((double_pow_bounds hy.ne).2 hy).2
        have : (2 : ℝ) ^ (Int.log 2 |y| + 1) ≤ 2 ^ Int.log 2 |x| := zpow_le_zpow_right₀ (by norm_num) (by omega)
        linarith
      · unfold double
        rw [if_neg hx.ne, if_neg hy.ne, heq]
        have hp : (0 : ℝ) < 2 ^ (Int.log 2 |x| - 52) := by positivity
        apply mul_le_mul_of_nonneg_right _ hp.le
        exact_mod_cast roundEven_mono (by gcongr)
    · refine (double_neg hx).le.trans ?_
      rcases hy.eq_or_lt with rfl | hy
      · rw [double_zero]
      · exact (double_pos hy).le
  · rcases hxy.eq_or_lt with rfl | hy
    · exact le_rfl
    · rw [double_zero]; exact (double_pos hy).le
  · have hy : 0 < y := hx.trans_le hxy
    have hlog : Int.log 2 |x| ≤ Int.log 2 |y| := Int.log_mono_right (abs_pos.2 hx.ne') (by
      rw [abs_of_pos hx, abs_of_pos hy]; exact hxy)
    rcases hlog.lt_or_eq with hlt | heq
    · have h1 := ((double_pow_bounds hx.ne').1 hx).2
      have h2 := ((double_pow_bounds hy.ne').1 hy).1
      have : (2 : ℝ) ^ (Int.log 2 |x| + 1) ≤ 2 ^ Int.log 2 |y| := zpow_le_zpow_right₀ (by norm_num) (by omega)
      linarith
    · unfold double
      rw [if_neg hx.ne', if_neg hy.ne', heq]
      have hp : (0 : ℝ) < 2 ^ (Int.log 2 |y| - 52) := by positivity
      apply mul_le_mul_of_nonneg_right _ hp.le
      exact_mod_cast roundEven_mono (by gcongr)

/-- A number with at most 53 digits is not changed. -/
theorem double_fix {m e : ℤ} (hm : |m| ≤ 2 ^ 53) : double (m * 2 ^ e) = m * 2 ^ e := by
  rcases eq_or_ne m 0 with rfl | hm0
  · simp [double]
  have hp : ∀ e : ℤ, (0 : ℝ) < 2 ^ e := fun e => by positivity
  have hx : (m : ℝ) * 2 ^ e ≠ 0 := mul_ne_zero (by exact_mod_cast hm0) (hp e).ne'
  set k := Int.log 2 |(m : ℝ) * 2 ^ e| - 52 with hk
  have h1 : (2 : ℝ) ^ (Int.log 2 |(m : ℝ) * 2 ^ e|) ≤ |(m : ℝ)| * 2 ^ e := by
    have := Int.zpow_log_le_self (b := 2) (r := |(m : ℝ) * 2 ^ e|) (by norm_num) (abs_pos.2 hx)
    rw [abs_mul _ ((2 : ℝ) ^ e), abs_of_pos (hp e)] at this ⊢
    exact_mod_cast this
  have hm' : |(m : ℝ)| ≤ 2 ^ 53 := by exact_mod_cast hm
  have h2 : (2 : ℝ) ^ (k + 52) ≤ 2 ^ (53 + e) := by
    rw [zpow_add₀ (by norm_num) 53 e, hk, sub_add_cancel]
    refine (le_trans h1 (mul_le_mul_of_nonneg_right hm' (hp e).le)).trans (le_of_eq ?_)
    norm_cast
  have h3 : k + 52 ≤ 53 + e := (zpow_le_zpow_iff_right₀ (by norm_num)).1 h2
  unfold double
  rw [if_neg hx, ← hk]
  rcases (show k ≤ e ∨ k = e + 1 by omega) with h | h
  · obtain ⟨n, hn⟩ := Int.eq_ofNat_of_zero_le (sub_nonneg.2 h)
    have : (m : ℝ) * 2 ^ e / 2 ^ k = ((m * 2 ^ n : ℤ) : ℝ) := by
      rw [show e = n + k by omega, zpow_add₀ (by norm_num), ← mul_assoc, mul_div_assoc, div_self (hp k).ne', mul_one]
      push_cast; norm_cast
    rw [this, roundEven_intCast, ← this, div_mul_cancel₀ _ (hp k).ne']
  · -- `|m| = 2^53`
    have hge : (2 : ℝ) ^ (53 + e) ≤ |(m : ℝ)| * 2 ^ e := by
      have : (2 : ℝ) ^ (53 + e) = 2 ^ (k + 52) := by rw [h]; congr 1; ring
      rw [this, hk, sub_add_cancel]
      exact h1
    rw [zpow_add₀ (by norm_num)] at hge
    have hge' := le_of_mul_le_mul_right hge (hp e)
    have hm53 : |m| = 2 ^ 53 := le_antisymm hm (by exact_mod_cast hge')
    have hm2 : ∃ n, m = 2 * n := by
      rcases abs_choice m with hc | hc
      · exact ⟨2 ^ 52, by rw [← hc, hm53]; norm_num⟩
      · exact ⟨-2 ^ 52, by rw [hc] at hm53; omega⟩
    obtain ⟨n, rfl⟩ := hm2
    have : ((2 * n : ℤ) : ℝ) * 2 ^ e / 2 ^ k = (n : ℝ) := by
      rw [h, zpow_add₀ (by norm_num)]; push_cast
      have := (hp e).ne'
      field_simp
    rw [this, roundEven_intCast, ← this, div_mul_cancel₀ _ (hp k).ne']

/-- Rounding is idempotent. -/
theorem double_idem (x : ℝ) : double (double x) = double x := by
  rcases eq_or_ne x 0 with rfl | hx
  · simp [double_zero]
  obtain ⟨e, m, h1, h2, h3, h4, h5⟩ := double_scaled hx
  rw [h1]
  apply double_fix
  have h6 := abs_lt.1 h4
  rw [abs_le, h2]
  constructor
  · exact le_roundEven_of_le (by push_cast; linarith)
  · exact roundEven_le_of_le (by push_cast; linarith)

end Ieompp.Spec
