import Verif.Model.OutputText
import Verif.Spec.OutputText
import Verif.Props.LexicalCast
import Verif.Props.KroneckerNumber

/-! # The text of the result files (C115) -/

set_option autoImplicit false
set_option linter.unusedSectionVars false

namespace Ieompp
namespace OutputText

open Spec
open Ieompp.IO (Text)
open KroneckerNumber (Double padded)
open Main (digitsValue)

/-! ### Rounding to six digits -/

theorem roundEven_nearest (x : ℝ) (k : ℤ) : |x - roundEven x| ≤ |x - k| := by
  rcases lt_or_ge |x - k| (1 / 2) with h | h
  · rw [roundEven_eq (Or.inl h)]
  · exact (abs_sub_roundEven x).trans h

/-- The value of the digits. -/
noncomputable def sixValue (m : ℝ) : ℝ := (sixDigits m).1 * (10 : ℝ) ^ ((sixDigits m).2 - 5)

theorem ten_pow_pos (e : ℤ) : (0 : ℝ) < (10 : ℝ) ^ e := zpow_pos (by norm_num) e

theorem log_bounds {m : ℝ} (hm : 0 < m) : (10 : ℝ) ^ Int.log 10 m ≤ m ∧ m < (10 : ℝ) ^ (Int.log 10 m + 1) := by
  have h1 := Int.zpow_log_le_self (b := 10) (r := m) (by norm_num) hm
  have h2 := Int.lt_zpow_succ_log_self (b := 10) (by norm_num) m
  constructor
  · exact_mod_cast h1
  · exact_mod_cast h2

theorem log_unique {m : ℝ} {e : ℤ} (h1 : (10 : ℝ) ^ e ≤ m) (h2 : m < (10 : ℝ) ^ (e + 1)) : Int.log 10 m = e := by
  have hm : 0 < m := (ten_pow_pos e).trans_le h1
  obtain ⟨l1, l2⟩ := log_bounds hm
  have a : e < Int.log 10 m + 1 := (zpow_lt_zpow_iff_right₀ (by norm_num : (1 : ℝ) < 10)).1 (h1.trans_lt l2)
  have b : Int.log 10 m < e + 1 := (zpow_lt_zpow_iff_right₀ (by norm_num : (1 : ℝ) < 10)).1 (l1.trans_lt h2)
  omega

theorem scaled_bounds {m : ℝ} (hm : 0 < m) : (10 : ℝ) ^ 5 ≤ m / (10 : ℝ) ^ (Int.log 10 m - 5) ∧ m / (10 : ℝ) ^ (Int.log 10 m - 5) < (10 : ℝ) ^ 6 := by
  obtain ⟨h1, h2⟩ := log_bounds hm
  have hp := ten_pow_pos (Int.log 10 m - 5)
  constructor
  · rw [le_div_iff₀ hp, ← zpow_natCast, ← zpow_add₀ (by norm_num)]
    rw [show ((5 : ℕ) : ℤ) + (Int.log 10 m - 5) = Int.log 10 m by push_cast; ring]; exact h1
  · rw [div_lt_iff₀ hp, ← zpow_natCast, ← zpow_add₀ (by norm_num)]
    rw [show ((6 : ℕ) : ℤ) + (Int.log 10 m - 5) = Int.log 10 m + 1 by push_cast; ring]; exact h2

/-- The digits are six digits, and their value is the multiple of the unit of the sixth digit next to the number. -/
theorem sixDigits_spec {m : ℝ} (hm : 0 < m) : 10 ^ 5 ≤ (sixDigits m).1 ∧ (sixDigits m).1 < 10 ^ 6 ∧
    sixValue m = (roundEven (m / (10 : ℝ) ^ (Int.log 10 m - 5)) : ℝ) * (10 : ℝ) ^ (Int.log 10 m - 5) := by
  obtain ⟨h1, h2⟩ := scaled_bounds hm
  set y := m / (10 : ℝ) ^ (Int.log 10 m - 5) with hy
  have r1 : (10 ^ 5 : ℤ) ≤ roundEven y := le_roundEven_of_le (by norm_num at h1 ⊢; exact h1)
  have r2 : roundEven y ≤ (10 ^ 6 : ℤ) := roundEven_le_of_le (by norm_num at h2 ⊢; exact h2.le)
  obtain ⟨n, hn⟩ : ∃ n : ℕ, roundEven y = n := Int.eq_ofNat_of_zero_le (by omega)
  unfold sixValue sixDigits
  simp only [← hy, hn, Int.toNat_natCast]
  rw [hn] at r1 r2
  split_ifs with h
  · refine ⟨le_rfl, by norm_num, ?_⟩
    simp only [h]
    rw [show Int.log 10 m + 1 - 5 = 1 + (Int.log 10 m - 5) by ring, zpow_add₀ (by norm_num)]
    push_cast
    ring
  · exact ⟨by omega, by omega, by push_cast; rfl⟩

theorem sixValue_error {m : ℝ} (hm : 0 < m) : |sixValue m - m| ≤ 1 / 2 * (10 : ℝ) ^ (Int.log 10 m - 5) ∧ |sixValue m - m| ≤ 5 / 10 ^ 6 * m := by
  have hp := ten_pow_pos (Int.log 10 m - 5)
  have h := abs_sub_roundEven (m / (10 : ℝ) ^ (Int.log 10 m - 5))
  have key : |sixValue m - m| ≤ 1 / 2 * (10 : ℝ) ^ (Int.log 10 m - 5) := by
    rw [(sixDigits_spec hm).2.2, abs_sub_comm]
    calc |m - (roundEven (m / (10 : ℝ) ^ (Int.log 10 m - 5)) : ℝ) * (10 : ℝ) ^ (Int.log 10 m - 5)|
        = |m / (10 : ℝ) ^ (Int.log 10 m - 5) - roundEven (m / (10 : ℝ) ^ (Int.log 10 m - 5))| * (10 : ℝ) ^ (Int.log 10 m - 5) := by
          rw [← abs_of_pos hp, ← abs_mul, abs_of_pos hp, sub_mul, div_mul_cancel₀ _ hp.ne']
      _ ≤ _ := mul_le_mul_of_nonneg_right h hp.le
  refine ⟨key, key.trans ?_⟩
  have h1 := (scaled_bounds hm).1
  rw [le_div_iff₀ hp] at h1
  linarith

/-- The digits of a number that is close to a number with six digits. -/
theorem sixDigits_eq {m : ℝ} {n : ℕ} {X : ℤ} (h1 : 10 ^ 5 ≤ n) (h2 : n < 10 ^ 6)
    (h : |m - n * (10 : ℝ) ^ (X - 5)| ≤ 1 / 40 * (10 : ℝ) ^ (X - 5) ∨ (10 : ℝ) ^ X ≤ m ∧ |m - n * (10 : ℝ) ^ (X - 5)| < 1 / 2 * (10 : ℝ) ^ (X - 5)) :
    sixDigits m = (n, X) := by
  have hp := ten_pow_pos (X - 5)
  have hX : (10 : ℝ) ^ X = 10 ^ 5 * (10 : ℝ) ^ (X - 5) := by
    rw [← zpow_natCast, ← zpow_add₀ (by norm_num)]; congr 1; push_cast; ring
  have hX1 : (10 : ℝ) ^ (X + 1) = 10 ^ 6 * (10 : ℝ) ^ (X - 5) := by
    rw [← zpow_natCast, ← zpow_add₀ (by norm_num)]; congr 1; push_cast; ring
  have hn1 : (10 ^ 5 : ℝ) ≤ n := by exact_mod_cast h1
  have hn2 : (n : ℝ) ≤ 10 ^ 6 - 1 := by
    have : n ≤ 10 ^ 6 - 1 := by omega
    calc (n : ℝ) ≤ ((10 ^ 6 - 1 : ℕ) : ℝ) := by exact_mod_cast this
      _ = _ := by norm_num
  have hw : |m - n * (10 : ℝ) ^ (X - 5)| < 1 / 2 * (10 : ℝ) ^ (X - 5) := by
    rcases h with h | h
    · exact h.trans_lt (by nlinarith)
    · exact h.2
  have hup : m < (10 : ℝ) ^ (X + 1) := by
    rw [hX1]
    have := (abs_lt.1 hw).2
    nlinarith
  rcases le_or_gt ((10 : ℝ) ^ X) m with hlow | hlow
  · have hl := log_unique hlow hup
    have hr : roundEven (m / (10 : ℝ) ^ (X - 5)) = (n : ℤ) := by
      apply roundEven_eq
      left
      rw [← mul_lt_mul_iff_left₀ hp]
      calc |m / (10 : ℝ) ^ (X - 5) - ((n : ℤ) : ℝ)| * (10 : ℝ) ^ (X - 5) = |m - n * (10 : ℝ) ^ (X - 5)| := by
            rw [← abs_of_pos hp, ← abs_mul, abs_of_pos hp, sub_mul, div_mul_cancel₀ _ hp.ne']; push_cast; rfl
        _ < _ := hw
    unfold sixDigits
    simp only [hl, hr, Int.toNat_natCast]
    rw [if_neg (by omega)]
  · have h' : |m - n * (10 : ℝ) ^ (X - 5)| ≤ 1 / 40 * (10 : ℝ) ^ (X - 5) := by
      rcases h with h | h
      · exact h
      · exact absurd h.1 (not_le.2 hlow)
    have hn : n = 10 ^ 5 := by
      by_contra hne
      have : (10 ^ 5 + 1 : ℝ) ≤ n := by
        have : 10 ^ 5 + 1 ≤ n := by omega
        exact_mod_cast this
      have := (abs_le.1 h').1
      nlinarith
    subst hn
    have hp6 := ten_pow_pos (X - 6)
    have hX6 : (10 : ℝ) ^ (X - 5) = 10 * (10 : ℝ) ^ (X - 6) := by
      rw [← zpow_one_add₀ (by norm_num)]; congr 1; ring
    have hl : Int.log 10 m = X - 1 := by
      apply log_unique
      · have : (10 : ℝ) ^ X = 10 * (10 : ℝ) ^ (X - 1) := by rw [← zpow_one_add₀ (by norm_num)]; congr 1; ring
        have := (abs_le.1 h').1
        push_cast at this
        have hpp := ten_pow_pos (X - 1)
        nlinarith
      · rw [sub_add_cancel]; exact hlow
    have hr : roundEven (m / (10 : ℝ) ^ (X - 1 - 5)) = ((10 ^ 6 : ℕ) : ℤ) := by
      apply roundEven_eq
      left
      rw [show X - 1 - 5 = X - 6 by ring, ← mul_lt_mul_iff_left₀ hp6]
      calc |m / (10 : ℝ) ^ (X - 6) - (((10 ^ 6 : ℕ) : ℤ) : ℝ)| * (10 : ℝ) ^ (X - 6) = |m - ((10 ^ 5 : ℕ) : ℝ) * (10 : ℝ) ^ (X - 5)| := by
            rw [← abs_of_pos hp6, ← abs_mul, abs_of_pos hp6, sub_mul, div_mul_cancel₀ _ hp6.ne', hX6]; push_cast; congr 1; ring
        _ ≤ _ := h'
        _ < _ := by rw [hX6]; nlinarith
    unfold sixDigits
    simp only [hl, hr, Int.toNat_natCast]
    rw [sub_add_cancel]
    rfl

theorem sixValue_nearest {m : ℝ} (hm : 0 < m) (k j : ℤ) (hk : |k| < 10 ^ 6) : |sixValue m - m| ≤ |(k : ℝ) * (10 : ℝ) ^ j - m| := by
  set e := Int.log 10 m with he
  have hp := ten_pow_pos (e - 5)
  obtain ⟨l1, -⟩ := log_bounds hm
  have hmul : ∀ i : ℤ, |sixValue m - m| ≤ |(i : ℝ) * (10 : ℝ) ^ (e - 5) - m| := by
    intro i
    have key : ∀ z : ℤ, |(z : ℝ) * (10 : ℝ) ^ (e - 5) - m| = |m / (10 : ℝ) ^ (e - 5) - z| * (10 : ℝ) ^ (e - 5) := fun z => by
      rw [abs_sub_comm, ← abs_of_pos hp, ← abs_mul, abs_of_pos hp, sub_mul, div_mul_cancel₀ _ hp.ne']
    rw [(sixDigits_spec hm).2.2, ← he, key, key]
    exact mul_le_mul_of_nonneg_right (roundEven_nearest _ _) hp.le
  rcases le_or_gt ((10 : ℝ) ^ e) ((k : ℝ) * (10 : ℝ) ^ j) with h | h
  · have hk' : (k : ℝ) < 10 ^ 6 := by
      have := (abs_lt.1 hk).2
      exact_mod_cast this
    have hj : e - 6 < j := by
      rw [← zpow_lt_zpow_iff_right₀ (by norm_num : (1 : ℝ) < 10)]
      have h6 : (10 : ℝ) ^ e = 10 ^ 6 * (10 : ℝ) ^ (e - 6) := by
        rw [← zpow_natCast, ← zpow_add₀ (by norm_num)]; congr 1; push_cast; ring
      have := ten_pow_pos j
      rw [h6] at h
      nlinarith
    obtain ⟨d, hd⟩ : ∃ d : ℕ, j = e - 5 + d := ⟨(j - (e - 5)).toNat, by omega⟩
    have := hmul (k * 10 ^ d)
    rw [hd, zpow_add₀ (by norm_num), zpow_natCast]
    push_cast at this
    rwa [mul_assoc, mul_comm ((10 : ℝ) ^ d)] at this
  · have := hmul (10 ^ 5)
    have h5 : (((10 ^ 5 : ℤ)) : ℝ) * (10 : ℝ) ^ (e - 5) = (10 : ℝ) ^ e := by
      rw [show (((10 ^ 5 : ℤ)) : ℝ) = (10 : ℝ) ^ 5 by norm_num, ← zpow_natCast, ← zpow_add₀ (by norm_num)]; congr 1; push_cast; ring
    rw [h5, abs_sub_comm ((10 : ℝ) ^ e), abs_of_nonneg (sub_nonneg.2 l1)] at this
    rw [← he] at l1 this
    have hpos : 0 < m - (k : ℝ) * (10 : ℝ) ^ j := by linarith
    rw [abs_sub_comm ((k : ℝ) * (10 : ℝ) ^ j), abs_of_pos hpos]
    linarith

theorem sixValue_pos {m : ℝ} (hm : 0 < m) : 0 < sixValue m := by
  have := (sixDigits_spec hm).1
  unfold sixValue
  have h : (0 : ℝ) < (sixDigits m).1 := by
    have : 0 < (sixDigits m).1 := by omega
    exact_mod_cast this
  exact mul_pos h (ten_pow_pos _)

theorem sixValue_mono {a b : ℝ} (ha : 0 < a) (h : a ≤ b) : sixValue a ≤ sixValue b := by
  have hb := ha.trans_le h
  obtain ⟨a1, a2⟩ := scaled_bounds ha
  obtain ⟨b1, b2⟩ := scaled_bounds hb
  rw [(sixDigits_spec ha).2.2, (sixDigits_spec hb).2.2]
  rcases (Int.log_mono_right (b := 10) ha h).eq_or_lt with he | he
  · rw [he]
    have hp := ten_pow_pos (Int.log 10 b - 5)
    refine mul_le_mul_of_nonneg_right ?_ hp.le
    exact_mod_cast roundEven_mono (div_le_div_of_nonneg_right h hp.le)
  · have r1 : roundEven (a / (10 : ℝ) ^ (Int.log 10 a - 5)) ≤ (10 ^ 6 : ℤ) := roundEven_le_of_le (by norm_num at a2 ⊢; exact a2.le)
    have r2 : (10 ^ 5 : ℤ) ≤ roundEven (b / (10 : ℝ) ^ (Int.log 10 b - 5)) := le_roundEven_of_le (by norm_num at b1 ⊢; exact b1)
    have r1' : (roundEven (a / (10 : ℝ) ^ (Int.log 10 a - 5)) : ℝ) ≤ 10 ^ 6 := by exact_mod_cast r1
    have r2' : (10 : ℝ) ^ 5 ≤ (roundEven (b / (10 : ℝ) ^ (Int.log 10 b - 5)) : ℝ) := by exact_mod_cast r2
    have hpa := ten_pow_pos (Int.log 10 a - 5)
    have hpb := ten_pow_pos (Int.log 10 b - 5)
    have hab : 10 * (10 : ℝ) ^ (Int.log 10 a - 5) ≤ (10 : ℝ) ^ (Int.log 10 b - 5) := by
      rw [← zpow_one_add₀ (by norm_num)]
      exact zpow_le_zpow_right₀ (by norm_num) (by omega)
    nlinarith

/-! ### The text -/

theorem digits_all (n : ℕ) : (Nat.toDigits 10 n).all Char.isDigit = true ∧ digitsValue (Nat.toDigits 10 n) = n :=
  ⟨(Main.digits_iff.1 (Main.digits_toDigits n)).2.1, (Main.digits_iff.1 (Main.digits_toDigits n)).2.2⟩

theorem digits_length {n : ℕ} (h1 : 10 ^ 5 ≤ n) (h2 : n < 10 ^ 6) : (Nat.toDigits 10 n).length = 6 := by
  have a : (Nat.toDigits 10 n).length ≤ 6 := (Nat.length_toDigits_le_iff (by norm_num) (by norm_num)).2 h2
  have b : ¬ (Nat.toDigits 10 n).length ≤ 5 := fun h => by
    have := (Nat.length_toDigits_le_iff (by norm_num) (by norm_num)).1 h
    omega
  omega

theorem dropWhile_zeros (t : Text) : ∃ k, t = List.replicate k '0' ++ t.dropWhile (· = '0') := by
  induction t with
  | nil => exact ⟨0, rfl⟩
  | cons c t ih =>
    by_cases h : c = '0'
    · obtain ⟨k, hk⟩ := ih
      refine ⟨k + 1, ?_⟩
      rw [List.dropWhile_cons_of_pos (by simpa using h), List.replicate_succ, List.cons_append, ← hk, h]
    · exact ⟨0, by rw [List.dropWhile_cons_of_neg (by simpa using h)]; rfl⟩

theorem stripZeros_spec (t : Text) : ∃ k, t = stripZeros t ++ List.replicate k '0' := by
  obtain ⟨k, hk⟩ := dropWhile_zeros t.reverse
  refine ⟨k, ?_⟩
  unfold stripZeros
  have := congrArg List.reverse hk
  rwa [List.reverse_reverse, List.reverse_append, List.reverse_replicate] at this

theorem value_trailing (t : Text) (k : ℕ) : digitsValue (t ++ List.replicate k '0') = digitsValue t * 10 ^ k := by
  have h := KroneckerNumber.value_zeros k []
  rw [List.append_nil] at h
  rw [Main.digitsValue_append, h, List.length_replicate]
  rfl

/-- Digits, split before the trailing zeros of the second part: the value of a decimal fraction. -/
theorem split_value {a b : Text} (h : (a ++ b).all Char.isDigit = true) :
    a.all Char.isDigit = true ∧ (stripZeros b).all Char.isDigit = true ∧
      (digitsValue (a ++ b) : ℚ) = ((digitsValue a : ℚ) + digitsValue (stripZeros b) / 10 ^ (stripZeros b).length) * 10 ^ b.length := by
  obtain ⟨k, hk⟩ := stripZeros_spec b
  rw [List.all_append, Bool.and_eq_true] at h
  have hb := h.2
  rw [hk, List.all_append, Bool.and_eq_true] at hb
  refine ⟨h.1, hb.1, ?_⟩
  have hl : b.length = (stripZeros b).length + k := by
    conv_lhs => rw [hk]
    rw [List.length_append, List.length_replicate]
  have hv : digitsValue b = digitsValue (stripZeros b) * 10 ^ k := by
    conv_lhs => rw [hk]
    exact value_trailing _ _
  rw [Main.digitsValue_append, hv, hl, pow_add]
  push_cast
  field_simp
  ring

theorem decimal_withPoint {s : ℤ} {r t ip fp ex : Text} {e : ℤ} (hip : ip ≠ []) (h1 : ip.all Char.isDigit = true) (h2 : fp.all Char.isDigit = true)
    (hr : r = withPoint ip fp ++ ex) (hs : Signed t s r) (hex : ExponentText ex e) :
    DecimalText t (s * ((digitsValue ip : ℚ) + digitsValue fp / 10 ^ fp.length) * 10 ^ e) := by
  refine ⟨s, r, ip, digitsValue ip, fp, digitsValue fp, ex, e, hs, Main.digits0_iff.2 ⟨h1, rfl⟩, Main.digits0_iff.2 ⟨h2, rfl⟩, by simp [hip], hex, ?_, rfl⟩
  unfold withPoint at hr
  split_ifs at hr with h
  · exact Or.inr ⟨h, by rw [hr, List.append_nil]⟩
  · exact Or.inl (by rw [hr, List.append_assoc]; rfl)

theorem exponentText_spec (X : ℤ) : ExponentText (exponentText X) X := by
  have hd : Digits (padded 2 X.natAbs) X.natAbs := by
    rw [Main.digits_iff]
    unfold padded
    refine ⟨by simp [Nat.toDigits_ne_nil], ?_, ?_⟩
    · rw [List.all_append, (digits_all _).1, Bool.and_true, List.all_eq_true]
      intro c hc
      rw [List.eq_of_mem_replicate hc]
      decide
    · rw [KroneckerNumber.value_zeros, (digits_all _).2]
  refine Or.inr ⟨_, Or.inl rfl, ?_⟩
  by_cases h : X < 0
  · rw [if_pos h]
    exact ⟨-1, _, _, Or.inr (Or.inr ⟨rfl, rfl⟩), hd, by omega⟩
  · rw [if_neg h]
    exact ⟨1, _, _, Or.inr (Or.inl ⟨rfl, rfl⟩), hd, by omega⟩

/-- The text of the magnitude denotes the six digits with their exponent. -/
theorem writeDigits_value {n : ℕ} (h1 : 10 ^ 5 ≤ n) (h2 : n < 10 ^ 6) (X : ℤ) {t : Text} {s : ℤ} (hs : Signed t s (writeDigits n X)) :
    DecimalText t (s * ((n : ℚ) * (10 : ℚ) ^ (X - 5))) := by
  have hlen := digits_length h1 h2
  obtain ⟨hall, hval⟩ := digits_all n
  set ds := Nat.toDigits 10 n with hds
  have hpow : ∀ k : ℕ, (n : ℚ) = ((digitsValue (ds.take k) : ℚ) + digitsValue (stripZeros (ds.drop k)) / 10 ^ (stripZeros (ds.drop k)).length) * 10 ^ (ds.drop k).length :=
    fun k => by
      have := (split_value (a := ds.take k) (b := ds.drop k) (by rw [List.take_append_drop]; exact hall)).2.2
      rw [List.take_append_drop, hval] at this
      exact this
  have hparts : ∀ k : ℕ, (ds.take k).all Char.isDigit = true ∧ (stripZeros (ds.drop k)).all Char.isDigit = true := fun k =>
    ⟨(split_value (a := ds.take k) (b := ds.drop k) (by rw [List.take_append_drop]; exact hall)).1,
      (split_value (a := ds.take k) (b := ds.drop k) (by rw [List.take_append_drop]; exact hall)).2.1⟩
  have hne : ∀ k : ℕ, ds.take (k + 1) ≠ [] := fun k h => by
    have := congrArg List.length h
    rw [List.length_take, hlen, List.length_nil] at this
    omega
  unfold writeDigits at hs
  simp only [← hds] at hs
  split_ifs at hs with hx h0
  · obtain ⟨k, rfl⟩ : ∃ k : ℕ, X = k := ⟨X.toNat, by omega⟩
    have hk : k < 6 := by omega
    rw [Int.toNat_natCast] at hs
    have := decimal_withPoint (ex := []) (e := 0) (hne k) (hparts (k + 1)).1 (hparts (k + 1)).2 (List.append_nil _).symm hs (Or.inl ⟨rfl, rfl⟩)
    convert this using 1
    rw [hpow (k + 1), List.length_drop, hlen, zpow_zero, mul_one, mul_assoc, ← zpow_natCast (10 : ℚ) (6 - (k + 1)), ← zpow_add₀ (by norm_num),
      show ((6 - (k + 1) : ℕ) : ℤ) + ((k : ℤ) - 5) = 0 by omega, zpow_zero, mul_one]
  · have hz : (List.replicate (-X - 1).toNat '0').all Char.isDigit = true := by
      rw [List.all_eq_true]
      intro c hc
      rw [List.eq_of_mem_replicate hc]
      decide
    have h0' := hparts 0
    rw [List.drop_zero] at h0'
    have hfp : (List.replicate (-X - 1).toNat '0' ++ stripZeros ds).all Char.isDigit = true := by
      rw [List.all_append, hz, h0'.2]; rfl
    have hne' : List.replicate (-X - 1).toNat '0' ++ stripZeros ds ≠ [] := fun h => by
      have h' := hpow 0
      rw [List.take_zero, List.drop_zero, (List.append_eq_nil_iff.1 h).2] at h'
      have : (n : ℚ) = 0 := by rw [h']; simp [digitsValue]
      have : n = 0 := by exact_mod_cast this
      omega
    have hr : '0' :: '.' :: (List.replicate (-X - 1).toNat '0' ++ stripZeros ds) =
        withPoint ['0'] (List.replicate (-X - 1).toNat '0' ++ stripZeros ds) ++ [] := by
      unfold withPoint
      rw [if_neg hne', List.append_nil]
      rfl
    have := decimal_withPoint (ex := []) (e := 0) (ip := ['0']) (by simp) (by decide) hfp hr hs (Or.inl ⟨rfl, rfl⟩)
    convert this using 1
    have h' := hpow 0
    rw [List.take_zero, List.drop_zero, hlen] at h'
    rw [h', KroneckerNumber.value_zeros, List.length_append, List.length_replicate, pow_add, zpow_zero, mul_one,
      show digitsValue ['0'] = 0 by decide, show digitsValue [] = 0 by decide]
    obtain ⟨k, hk⟩ : ∃ k : ℕ, -X - 1 = k := ⟨(-X - 1).toNat, by omega⟩
    rw [hk, Int.toNat_natCast, show X - 5 = -((k : ℤ) + (6 : ℕ)) by omega, zpow_neg, zpow_add₀ (by norm_num), zpow_natCast, zpow_natCast]
    push_cast
    field_simp
    ring
  · have := decimal_withPoint (hne 0) (hparts 1).1 (hparts 1).2 rfl hs (exponentText_spec X)
    convert this using 1
    rw [hpow 1, List.length_drop, hlen]
    rw [show X - 5 = X - (5 : ℕ) by norm_num, zpow_sub₀ (by norm_num), zpow_natCast]
    field_simp

theorem signed_text (x : Double) (r : Text) : Signed ((if x.negative then ['-'] else []) ++ r) (if x.negative then -1 else 1) r := by
  cases x.negative
  · exact Or.inl ⟨rfl, rfl⟩
  · exact Or.inr (Or.inr ⟨rfl, rfl⟩)

/-- The number that is written for `x`. -/
noncomputable def written (x : Double) : ℚ :=
  if x.magnitude = 0 then 0
  else (if x.negative then -1 else 1) * (((sixDigits x.magnitude).1 : ℚ) * (10 : ℚ) ^ ((sixDigits x.magnitude).2 - 5))

theorem written_real (x : Double) : (written x : ℝ) = if x.magnitude = 0 then 0 else (if x.negative then -1 else 1) * sixValue x.magnitude := by
  unfold written sixValue
  split_ifs <;> push_cast <;> rfl

theorem writeDouble_text (x : Double) : DecimalText (writeDouble x) (written x) := by
  unfold writeDouble written
  by_cases h : x.magnitude = 0
  · rw [if_pos h, if_pos h]
    exact ⟨_, ['0'], ['0'], 0, [], 0, [], 0, signed_text x _, Main.digits0_iff.2 (by decide), Or.inl ⟨rfl, rfl⟩, by simp, Or.inl ⟨rfl, rfl⟩,
      Or.inr ⟨rfl, rfl⟩, by simp⟩
  · rw [if_neg h, if_neg h]
    have hpos : 0 < x.magnitude := lt_of_le_of_ne x.nonneg (Ne.symm h)
    obtain ⟨h1, h2, -⟩ := sixDigits_spec hpos
    have := writeDigits_value h1 h2 (sixDigits x.magnitude).2 (signed_text x _)
    convert this using 2
    split_ifs <;> norm_num

theorem value_eq (x : Double) : x.value = (if x.negative then -1 else 1) * x.magnitude := by
  unfold Double.value; split_ifs <;> ring

theorem sign_abs (x : Double) (y : ℝ) : |(if x.negative then -1 else 1) * y - x.value| = |y - x.magnitude| := by
  rw [value_eq]
  split_ifs
  · rw [show -1 * y - -1 * x.magnitude = -(y - x.magnitude) by ring, abs_neg]
  · rw [one_mul, one_mul]

/-- **C115**: the text of a number denotes a number with six significant digits, and no such number is closer. -/
theorem writeDouble_nearest (x : Double) : ∃ v, DecimalText (writeDouble x) v ∧ Nearest6 x.value v := by
  refine ⟨written x, writeDouble_text x, ?_, ?_⟩
  · unfold written
    split_ifs with h h'
    · exact ⟨0, 0, by norm_num, by norm_num⟩
    all_goals
      have hpos : 0 < x.magnitude := lt_of_le_of_ne x.nonneg (Ne.symm h)
      obtain ⟨h1, h2, -⟩ := sixDigits_spec hpos
    · exact ⟨-((sixDigits x.magnitude).1 : ℤ), _, by rw [abs_neg, Nat.abs_cast]; exact_mod_cast h2, by push_cast; ring⟩
    · exact ⟨((sixDigits x.magnitude).1 : ℤ), _, by rw [Nat.abs_cast]; exact_mod_cast h2, by push_cast; ring⟩
  · rintro w ⟨k, j, hk, rfl⟩
    rw [written_real]
    split_ifs with h h'
    · have hv : x.value = 0 := by rw [value_eq, h, mul_zero]
      rw [hv, sub_zero, abs_zero]
      exact abs_nonneg _
    all_goals have hpos : 0 < x.magnitude := lt_of_le_of_ne x.nonneg (Ne.symm h)
    · have h1 := sign_abs x (sixValue x.magnitude)
      rw [if_pos h'] at h1
      rw [h1]
      refine (sixValue_nearest hpos (-k) j (by rwa [abs_neg])).trans (le_of_eq ?_)
      have h2 := sign_abs x (((-k : ℤ) : ℝ) * (10 : ℝ) ^ j)
      rw [if_pos h'] at h2
      rw [← h2]
      push_cast
      congr 1
      ring
    · have h1 := sign_abs x (sixValue x.magnitude)
      rw [if_neg h'] at h1
      rw [h1]
      refine (sixValue_nearest hpos k j hk).trans (le_of_eq ?_)
      have h2 := sign_abs x ((k : ℝ) * (10 : ℝ) ^ j)
      rw [if_neg h', one_mul] at h2
      rw [← h2]
      push_cast
      rfl

/-- **C115**: the relative error is at most 5 in the sixth digit after the first. -/
theorem written_error (x : Double) : |(written x : ℝ) - x.value| ≤ 5 / 10 ^ 6 * |x.value| := by
  have hv : |x.value| = x.magnitude := by
    rw [value_eq, abs_mul, abs_of_nonneg x.nonneg]
    split_ifs <;> simp
  rw [hv, written_real]
  by_cases h : x.magnitude = 0
  · rw [if_pos h, value_eq, h]; simp
  · have hpos : 0 < x.magnitude := lt_of_le_of_ne x.nonneg (Ne.symm h)
    rw [if_neg h, sign_abs]
    exact (sixValue_error hpos).2

theorem written_mono_aux {x y : Double} (h : x.value ≤ y.value) (hx : 0 < x.value) : (written x : ℝ) ≤ written y := by
  have pos : ∀ z : Double, 0 < z.value → z.negative = false ∧ z.magnitude = z.value := fun z hz => by
    unfold Double.value at hz ⊢
    have := z.nonneg
    split_ifs at hz ⊢ with hn
    · linarith
    · exact ⟨by simpa using hn, rfl⟩
  obtain ⟨x1, x2⟩ := pos x hx
  obtain ⟨y1, y2⟩ := pos y (hx.trans_le h)
  rw [written_real, written_real, x1, y1, x2, y2, if_neg hx.ne', if_neg (hx.trans_le h).ne']
  simpa using sixValue_mono hx h

theorem written_sign (x : Double) : (0 < x.value → (0 : ℝ) < written x) ∧ (x.value < 0 → (written x : ℝ) < 0) ∧ (x.value = 0 → (written x : ℝ) = 0) := by
  have h0 := x.nonneg
  rw [written_real]
  unfold Double.value
  rcases h0.eq_or_lt with h | h
  · rw [← h]; simp
  · have := sixValue_pos h
    rw [if_neg h.ne']
    split_ifs with hn
    · refine ⟨fun hh => ?_, fun _ => ?_, fun hh => ?_⟩ <;> linarith
    · refine ⟨fun _ => ?_, fun hh => ?_, fun hh => ?_⟩ <;> linarith

/-- The same number with the other sign. -/
def opposite (x : Double) : Double := ⟨!x.negative, x.magnitude, x.nonneg⟩

theorem opposite_value (x : Double) : (opposite x).value = -x.value ∧ (written (opposite x) : ℝ) = -written x := by
  constructor
  · rw [value_eq, value_eq]; unfold opposite; cases x.negative <;> simp
  · rw [written_real, written_real]; unfold opposite; cases x.negative <;> by_cases h : x.magnitude = 0 <;> simp [h]

/-- **C115**: the order of numbers is not inverted. -/
theorem written_mono {x y : Double} (h : x.value ≤ y.value) : written x ≤ written y := by
  rw [← Rat.cast_le (K := ℝ)]
  obtain ⟨x1, x2, x3⟩ := written_sign x
  obtain ⟨y1, y2, y3⟩ := written_sign y
  rcases lt_trichotomy x.value 0 with hx | hx | hx
  · rcases lt_trichotomy y.value 0 with hy | hy | hy
    · have := written_mono_aux (x := opposite y) (y := opposite x) (by rw [(opposite_value x).1, (opposite_value y).1]; linarith)
        (by rw [(opposite_value y).1]; linarith)
      rw [(opposite_value x).2, (opposite_value y).2] at this
      linarith
    · rw [y3 hy]; exact (x2 hx).le
    · exact ((x2 hx).trans (y1 hy)).le
  · rcases (hx ▸ h).eq_or_lt with hy | hy
    · rw [x3 hx, y3 hy.symm]
    · rw [x3 hx]; exact (y1 hy).le
  · exact written_mono_aux h hx

/-- **C115**: two numbers are told apart in the file if they differ by more than 1 in the fifth digit after the first. -/
theorem written_distinct {x y : Double} (h : 1 / 10 ^ 5 * max |x.value| |y.value| < |y.value - x.value|) : written x ≠ written y := by
  intro he
  have h1 := written_error x
  have h2 := written_error y
  rw [he] at h1
  have h3 : |y.value - x.value| ≤ |(written y : ℝ) - x.value| + |(written y : ℝ) - y.value| := by
    calc |y.value - x.value| = |((written y : ℝ) - x.value) - ((written y : ℝ) - y.value)| := by congr 1; ring
      _ ≤ _ := abs_sub _ _
  have h4 := le_max_left |x.value| |y.value|
  have h5 := le_max_right |x.value| |y.value|
  linarith

end OutputText
end Ieompp
