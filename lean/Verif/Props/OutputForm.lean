import Verif.Props.OutputRows

/-! # The form of the numbers in the result files (C115): when an exponent is written, no superfluous zeros, whole numbers -/

set_option autoImplicit false
set_option linter.unusedSectionVars false

namespace Ieompp
namespace OutputText

open Spec
open Ieompp.IO (Text)
open KroneckerNumber (Double padded)
open Main (digitsValue)

theorem stripZeros_last (t : Text) : (stripZeros t).getLast? ≠ some '0' := by
  unfold stripZeros
  rw [List.getLast?_reverse]
  intro h
  have := List.head?_dropWhile_not (fun c : Char => decide (c = '0')) t.reverse
  rw [h] at this
  simp at this

theorem stripZeros_nil {t : Text} (h : stripZeros t = []) : ∃ k, t = List.replicate k '0' := by
  obtain ⟨k, hk⟩ := stripZeros_spec t
  exact ⟨k, by rw [hk, h, List.nil_append]⟩

theorem stripZeros_zeros (k : ℕ) : stripZeros (List.replicate k '0') = [] := by
  unfold stripZeros
  rw [List.reverse_replicate, List.reverse_eq_nil_iff, List.dropWhile_eq_nil_iff]
  intro c hc
  simp [List.eq_of_mem_replicate hc]

theorem stripZeros_digits {t : Text} (h : t.all Char.isDigit = true) : (stripZeros t).all Char.isDigit = true := by
  obtain ⟨k, hk⟩ := stripZeros_spec t
  rw [hk, List.all_append, Bool.and_eq_true] at h
  exact h.1

/-- The parts of the text of a magnitude. -/
theorem writeDigits_parts {n : ℕ} (h1 : 10 ^ 5 ≤ n) (h2 : n < 10 ^ 6) (X : ℤ) : ∃ ip fp : Text,
    ip ≠ [] ∧ ip.all Char.isDigit = true ∧ fp.all Char.isDigit = true ∧ fp.getLast? ≠ some '0' ∧
      writeDigits n X = withPoint ip fp ++ if -4 ≤ X ∧ X < 6 then [] else exponentText X := by
  have hd := (digits_all n).1
  have hl := digits_length h1 h2
  have hsub : ∀ k, ((Nat.toDigits 10 n).take (k + 1)) ≠ [] ∧ ((Nat.toDigits 10 n).take k).all Char.isDigit = true ∧
      (stripZeros ((Nat.toDigits 10 n).drop k)).all Char.isDigit = true := by
    intro k
    rw [List.all_eq_true] at hd
    refine ⟨?_, List.all_eq_true.2 fun c hc => hd c (List.mem_of_mem_take hc), stripZeros_digits (List.all_eq_true.2 fun c hc => hd c (List.mem_of_mem_drop hc))⟩
    intro h
    have := congrArg List.length h
    rw [List.length_take, hl, List.length_nil] at this
    omega
  unfold writeDigits
  by_cases hX : -4 ≤ X ∧ X < 6
  · simp only [if_pos hX, List.append_nil]
    by_cases h0 : 0 ≤ X
    · rw [if_pos h0]
      exact ⟨_, _, (hsub _).1, (hsub _).2.1, (hsub _).2.2, stripZeros_last _, rfl⟩
    · rw [if_neg h0]
      have hne : stripZeros (Nat.toDigits 10 n) ≠ [] := by
        intro h
        obtain ⟨k, hk⟩ := stripZeros_nil h
        have hv := (digits_all n).2
        have hz := value_trailing [] k
        rw [List.nil_append] at hz
        rw [hk, hz] at hv
        have : digitsValue ([] : Text) = 0 := rfl
        rw [this] at hv
        omega
      refine ⟨['0'], List.replicate (-X - 1).toNat '0' ++ stripZeros (Nat.toDigits 10 n), by simp, by decide, ?_, ?_, ?_⟩
      · rw [List.all_append, stripZeros_digits hd, Bool.and_true, List.all_eq_true]
        intro c hc
        rw [List.eq_of_mem_replicate hc]; decide
      · rw [List.getLast?_append, List.getLast?_eq_some_getLast hne, Option.some_or, ← List.getLast?_eq_some_getLast hne]
        exact stripZeros_last _
      · unfold withPoint
        rw [if_neg (by simp [hne])]
        rfl
  · simp only [if_neg hX]
    exact ⟨_, _, (hsub 0).1, (hsub 1).2.1, (hsub 1).2.2, stripZeros_last _, rfl⟩

theorem digits_no {t : Text} (h : t.all Char.isDigit = true) {c : Char} (hc : c.isDigit = false) : c ∉ t := by
  intro hm
  rw [List.all_eq_true] at h
  rw [h c hm] at hc
  exact absurd hc (by simp)

/-- The exponent of the first digit, from the value. -/
theorem sixDigits_range {m : ℝ} (hm : 0 < m) : (-4 ≤ (sixDigits m).2 ∧ (sixDigits m).2 < 6) ↔ 1 / 10 ^ 4 ≤ sixValue m ∧ sixValue m < 10 ^ 6 := by
  obtain ⟨h1, h2, -⟩ := sixDigits_spec hm
  have hv : sixValue m = ((sixDigits m).1 : ℝ) * (10 : ℝ) ^ ((sixDigits m).2 - 5) := rfl
  set n := (sixDigits m).1 with hn
  set X := (sixDigits m).2 with hX
  clear_value n X
  have n1 : (10 : ℝ) ^ 5 ≤ n := by exact_mod_cast h1
  have n2 : (n : ℝ) < 10 ^ 6 := by exact_mod_cast h2
  have hp := ten_pow_pos (X - 5)
  have lo : (10 : ℝ) ^ X ≤ sixValue m := by
    rw [hv, show X = ((5 : ℕ) : ℤ) + (X - 5) by push_cast; ring, zpow_add₀ (by norm_num), zpow_natCast]
    rw [show ((5 : ℕ) : ℤ) + (X - 5) - 5 = X - 5 by push_cast; ring]
    exact mul_le_mul_of_nonneg_right n1 hp.le
  have hi : sixValue m < (10 : ℝ) ^ (X + 1) := by
    rw [hv, show X + 1 = ((6 : ℕ) : ℤ) + (X - 5) by push_cast; ring, zpow_add₀ (by norm_num), zpow_natCast]
    exact mul_lt_mul_of_pos_right n2 hp
  have ten : (1 : ℝ) < 10 := by norm_num
  have e4 : (1 : ℝ) / 10 ^ 4 = (10 : ℝ) ^ (-4 : ℤ) := by norm_num
  have e6 : (10 : ℝ) ^ 6 = (10 : ℝ) ^ (6 : ℤ) := by norm_num
  rw [e4, e6]
  constructor
  · rintro ⟨ha, hb⟩
    exact ⟨(zpow_le_zpow_right₀ ten.le ha).trans lo, hi.trans_le (zpow_le_zpow_right₀ ten.le (by omega))⟩
  · rintro ⟨ha, hb⟩
    have a := (zpow_lt_zpow_iff_right₀ ten).1 (ha.trans_lt hi)
    have b := (zpow_lt_zpow_iff_right₀ ten).1 (lo.trans_lt hb)
    exact ⟨by omega, b⟩

theorem written_abs (x : Double) (h : x.magnitude ≠ 0) : |(written x : ℝ)| = sixValue x.magnitude := by
  have hpos : 0 < x.magnitude := lt_of_le_of_ne x.nonneg (Ne.symm h)
  rw [written_real, if_neg h]
  have := sixValue_pos hpos
  split_ifs
  · rw [neg_one_mul, abs_neg, abs_of_pos this]
  · rw [one_mul, abs_of_pos this]

theorem value_zero_iff (x : Double) : x.value = 0 ↔ x.magnitude = 0 := by
  rw [value_eq]
  split_ifs <;> simp

theorem writeDouble_parts (x : Double) (h : x.value ≠ 0) : ∃ ip fp : Text,
    ip ≠ [] ∧ ip.all Char.isDigit = true ∧ fp.all Char.isDigit = true ∧ fp.getLast? ≠ some '0' ∧
      writeDouble x = ((if x.negative then ['-'] else []) ++ withPoint ip fp) ++
        if 1 / 10 ^ 4 ≤ |(written x : ℝ)| ∧ |(written x : ℝ)| < 10 ^ 6 then [] else exponentText (sixDigits x.magnitude).2 := by
  rw [Ne, value_zero_iff] at h
  have hpos : 0 < x.magnitude := lt_of_le_of_ne x.nonneg (Ne.symm h)
  obtain ⟨h1, h2, -⟩ := sixDigits_spec hpos
  obtain ⟨ip, fp, a, b, c, d, e⟩ := writeDigits_parts h1 h2 (sixDigits x.magnitude).2
  refine ⟨ip, fp, a, b, c, d, ?_⟩
  unfold writeDouble
  rw [if_neg h, e, written_abs x h, List.append_assoc]
  simp only [sixDigits_range hpos]

theorem mantissa_no_e (neg : Bool) {ip fp : Text} (h1 : ip.all Char.isDigit = true) (h2 : fp.all Char.isDigit = true) :
    'e' ∉ (if neg then ['-'] else []) ++ withPoint ip fp := by
  have a := digits_no h1 (c := 'e') (by decide)
  have b := digits_no h2 (c := 'e') (by decide)
  unfold withPoint
  cases neg <;> split_ifs <;> simp [a, b]

/-- **C115**: a number is written with an exponent exactly if the number that is written is below 0.0001 or at least a million in magnitude (and not 0). -/
theorem writeDouble_exponent (x : Double) :
    'e' ∈ writeDouble x ↔ x.value ≠ 0 ∧ (|(written x : ℝ)| < 1 / 10 ^ 4 ∨ 10 ^ 6 ≤ |(written x : ℝ)|) := by
  by_cases h : x.value = 0
  · have h' := (value_zero_iff x).1 h
    simp only [h, ne_eq, not_true_eq_false, false_and, iff_false]
    unfold writeDouble
    rw [if_pos h']
    cases x.negative <;> decide
  · obtain ⟨ip, fp, -, b, c, -, e⟩ := writeDouble_parts x h
    have hm := mantissa_no_e x.negative b c
    rw [e]
    by_cases hr : 1 / 10 ^ 4 ≤ |(written x : ℝ)| ∧ |(written x : ℝ)| < 10 ^ 6
    · rw [if_pos hr, List.append_nil]
      refine iff_of_false hm ?_
      rintro ⟨-, h1 | h1⟩
      · exact absurd hr.1 (not_le.2 h1)
      · exact absurd hr.2 (not_lt.2 h1)
    · rw [if_neg hr]
      refine iff_of_true (by simp [exponentText]) ⟨h, ?_⟩
      by_contra hc
      push Not at hc
      exact hr ⟨hc.1, hc.2⟩

/-- **C115**: no superfluous zeros: a fraction that is written (after a point, before the exponent) ends with a digit other than 0. -/
theorem writeDouble_fraction (x : Double) (h : '.' ∈ writeDouble x) :
    ∃ c, ((writeDouble x).takeWhile (· ≠ 'e')).getLast? = some c ∧ c.isDigit = true ∧ c ≠ '0' := by
  by_cases h0 : x.value = 0
  · have h' := (value_zero_iff x).1 h0
    unfold writeDouble at h
    rw [if_pos h'] at h
    have hn : '.' ∉ (if x.negative then ['-'] else []) ++ ['0'] := by cases x.negative <;> decide
    exact absurd h hn
  · obtain ⟨ip, fp, -, b, c, d, e⟩ := writeDouble_parts x h0
    have hm := mantissa_no_e x.negative b c
    have hexp : ∀ X, '.' ∉ exponentText X := by
      intro X hX
      obtain h1 | ⟨y, h1, s, r, ds, h3, h4, -⟩ := exponentText_spec X
      · rw [h1.1] at hX; exact absurd hX (by simp)
      · have hX' := hX
        unfold exponentText padded at hX
        have hd := (digits_all X.natAbs).1
        have := digits_no hd (c := '.') (by decide)
        simp only [List.mem_cons, List.mem_append, List.mem_replicate] at hX
        obtain hX | hX | hX | hX := hX
        · exact absurd hX (by decide)
        · split_ifs at hX <;> exact absurd hX (by decide)
        · exact absurd hX.2 (by decide)
        · exact this hX
    have hfp : fp ≠ [] := by
      rintro rfl
      rw [e] at h
      rcases List.mem_append.1 h with h1 | h1
      · have ha := digits_no b (c := '.') (by decide)
        revert h1
        unfold withPoint
        cases x.negative <;> simp [ha]
      · split_ifs at h1
        · exact absurd h1 (by simp)
        · exact hexp _ h1
    have htake : (writeDouble x).takeWhile (· ≠ 'e') = (if x.negative then ['-'] else []) ++ withPoint ip fp := by
      rw [e, List.takeWhile_append_of_pos]
      · by_cases hr : 1 / 10 ^ 4 ≤ |(written x : ℝ)| ∧ |(written x : ℝ)| < 10 ^ 6
        · rw [if_pos hr, List.takeWhile_nil, List.append_nil]
        · rw [if_neg hr]; simp [exponentText]
      · intro a ha
        simp only [decide_eq_true_eq]
        rintro rfl
        exact hm ha
    refine ⟨fp.getLast hfp, ?_, (List.all_eq_true.1 c) _ (List.getLast_mem hfp), ?_⟩
    · rw [htake]
      unfold withPoint
      rw [if_neg hfp, ← List.append_assoc, List.getLast?_append]
      rw [show '.' :: fp = ['.'] ++ fp from rfl, List.getLast?_append, List.getLast?_eq_some_getLast hfp]
      rfl
    · intro hc
      rw [List.getLast?_eq_some_getLast hfp, hc] at d
      exact d rfl

/-! ### Whole numbers -/

theorem toDigits_shift {j : ℕ} (hj : 0 < j) : ∀ k, Nat.toDigits 10 (j * 10 ^ k) = Nat.toDigits 10 j ++ List.replicate k '0'
  | 0 => by simp
  | k + 1 => by
    have h := Nat.toDigits_append_toDigits (b := 10) (n := j * 10 ^ k) (d := 0) (by norm_num) (by positivity) (by norm_num)
    rw [show 10 * (j * 10 ^ k) + 0 = j * 10 ^ (k + 1) by ring] at h
    rw [← h, toDigits_shift hj k, List.append_assoc, List.replicate_succ']
    rfl

theorem writeDigits_natural {j e : ℕ} (h1 : 10 ^ e ≤ j) (h2 : j < 10 ^ (e + 1)) (he : e ≤ 5) : writeDigits (j * 10 ^ (5 - e)) e = IO.printNat j := by
  have hj : 0 < j := lt_of_lt_of_le (by positivity) h1
  have hl : (Nat.toDigits 10 j).length = e + 1 := by
    have a : (Nat.toDigits 10 j).length ≤ e + 1 := (Nat.length_toDigits_le_iff (by norm_num) (by omega)).2 h2
    by_contra hc
    rcases Nat.eq_zero_or_pos e with rfl | hp
    · have : (Nat.toDigits 10 j) ≠ [] := Nat.toDigits_ne_nil
      have := List.length_pos_iff.2 this
      omega
    · have := (Nat.length_toDigits_le_iff (b := 10) (k := e) (n := j) (by norm_num) hp).1 (by omega)
      omega
  unfold writeDigits
  rw [toDigits_shift hj]
  simp only
  rw [if_pos ⟨by omega, by omega⟩, if_pos (by omega), Int.toNat_natCast, ← hl, List.take_left, List.drop_left, stripZeros_zeros]
  simp [withPoint, IO.printNat]

/-- **C115**: a whole number below a million is written as the number itself: its decimal digits, without point or exponent. -/
theorem natural_text {x : Double} {j : ℕ} (h : x.value = j) (hs : x.negative = false) (hj : j < 10 ^ 6) : writeDouble x = IO.printNat j := by
  rcases Nat.eq_zero_or_pos j with rfl | hp
  · rw [writeDouble_zero (by simpa using h) hs]; decide
  · set e := Nat.log 10 j with he
    have h1 : 10 ^ e ≤ j := Nat.pow_log_le_self 10 hp.ne'
    have h2 : j < 10 ^ (e + 1) := Nat.lt_pow_succ_log_self (by norm_num) j
    have he5 : e ≤ 5 := by
      by_contra hc
      have : 10 ^ 6 ≤ 10 ^ e := Nat.pow_le_pow_right (by norm_num) (by omega)
      omega
    rw [← writeDigits_natural h1 h2 he5]
    have hpow : (10 : ℕ) ^ e * 10 ^ (5 - e) = 10 ^ 5 := by rw [← pow_add]; congr 1; omega
    have hpow' : (10 : ℕ) ^ (e + 1) * 10 ^ (5 - e) = 10 ^ 6 := by rw [← pow_add]; congr 1; omega
    refine writeDouble_digits (by rw [h]; exact_mod_cast hp) ?_ ?_ (Or.inl ?_)
    · rw [← hpow]; exact Nat.mul_le_mul_right _ h1
    · rw [← hpow']; exact Nat.mul_lt_mul_of_pos_right h2 (by positivity)
    · have hz : ((j * 10 ^ (5 - e) : ℕ) : ℝ) * (10 : ℝ) ^ ((e : ℤ) - 5) = j := by
        have h5 : (e : ℤ) - 5 = -((5 - e : ℕ) : ℤ) := by omega
        rw [h5, zpow_neg, zpow_natCast]
        push_cast
        field_simp
      rw [hz, h, sub_self, abs_zero]
      have := ten_pow_pos ((e : ℤ) - 5)
      positivity

/-- The hypotheses are met: a whole number. -/
example : writeDouble (ofReal 123456) = "123456".toList := by
  have h : (ofReal 123456).value = (123456 : ℕ) := by rw [ofReal_value]; norm_num
  have hs : (ofReal 123456).negative = false := by simp [ofReal]
  rw [natural_text h hs (by norm_num)]
  decide

end OutputText
end Ieompp
