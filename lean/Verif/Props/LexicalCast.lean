import Verif.Model.LexicalCast
import Verif.Spec.LexicalCast
import Verif.Spec.Main
import Verif.Props.MainRuns
import Mathlib.Data.Nat.Digits.Defs
import Mathlib.Tactic.Ring
import Mathlib.Tactic.FieldSimp

/-! # C103, C104: the texts of options as numbers -/

set_option autoImplicit false
set_option linter.unusedSectionVars false

namespace Ieompp.Main

open IO App Spec

theorem isDigit_iff {c : Char} : c.isDigit = true ↔ ∃ d < 10, c = Nat.digitChar d := by
  constructor
  · intro h
    simp only [Char.isDigit, ge_iff_le, Bool.and_eq_true, decide_eq_true_eq] at h
    have h1 := UInt32.le_iff_toNat_le.1 h.1
    have h2 := UInt32.le_iff_toNat_le.1 h.2
    have e : c.val.toNat = c.toNat := rfl
    simp at h1 h2
    refine ⟨c.toNat - 48, by omega, ?_⟩
    apply Char.toNat_inj.1
    rw [Nat.toNat_digitChar_of_lt_ten (by omega)]
    omega
  · rintro ⟨d, hd, rfl⟩
    interval_cases d <;> decide

theorem digitsValue_snoc (ds : Text) (d : ℕ) (hd : d < 10) : digitsValue (ds ++ [Nat.digitChar d]) = 10 * digitsValue ds + d := by
  simp only [digitsValue, List.foldl_append, List.foldl_cons, List.foldl_nil]
  rw [Nat.toNat_digitChar_of_lt_ten hd, show '0'.toNat = 48 by decide]
  omega

/-- The model's reading of digits against the specification. -/
theorem digits_iff {ds : Text} {n : ℕ} : Digits ds n ↔ ds ≠ [] ∧ ds.all Char.isDigit = true ∧ digitsValue ds = n := by
  constructor
  · intro h
    induction h with
    | single d hd =>
      refine ⟨by simp, ?_, ?_⟩
      · simpa using isDigit_iff.2 ⟨d, hd, rfl⟩
      · simpa [digitsValue] using digitsValue_snoc [] d hd
    | snoc h d hd ih =>
      refine ⟨by simp, ?_, ?_⟩
      · rw [List.all_append, ih.2.1]
        simpa using isDigit_iff.2 ⟨d, hd, rfl⟩
      · rw [digitsValue_snoc _ _ hd, ih.2.2]
  · induction ds using List.reverseRecOn generalizing n with
    | nil => rintro ⟨h, -⟩; exact absurd rfl h
    | append_singleton ds c ih =>
      rintro ⟨-, h, rfl⟩
      rw [List.all_append, Bool.and_eq_true] at h
      obtain ⟨d, hd, rfl⟩ := isDigit_iff.1 (by simpa using h.2)
      rw [digitsValue_snoc _ _ hd]
      by_cases e : ds = []
      · subst e
        simpa [digitsValue] using Digits.single d hd
      · exact (ih ⟨e, h.1, rfl⟩).snoc d hd

theorem digits_unique {ds : Text} {n m : ℕ} (h : Digits ds n) (h' : Digits ds m) : n = m :=
  (digits_iff.1 h).2.2.symm.trans (digits_iff.1 h').2.2

theorem digits_toDigits (n : ℕ) : Digits (Nat.toDigits 10 n) n := by
  rw [digits_iff]
  refine ⟨Nat.toDigits_ne_nil, ?_, ?_⟩
  · rw [List.all_eq_true]
    exact fun c hc => Nat.isDigit_of_mem_toDigits (b := 10) (by norm_num) (by norm_num) hc
  · have := Nat.ofDigitChars_ten_toDigits (n := n)
    rwa [Nat.ofDigitChars_eq_foldl] at this

theorem digits_head {ds : Text} {n : ℕ} (h : Digits ds n) : ∃ c r, ds = c :: r ∧ c.isDigit = true := by
  obtain ⟨h1, h2, -⟩ := digits_iff.1 h
  cases ds with
  | nil => exact absurd rfl h1
  | cons c r => exact ⟨c, r, rfl, by simp at h2; exact h2.1⟩

/-- What `takeSign` does with a text that begins with a sign (or with no sign). -/
theorem takeSign_signed {t : Text} {s : ℤ} {r : Text} (h : Signed t s r) (hr : r.head? ≠ some '-' ∧ r.head? ≠ some '+') :
    takeSign t = (decide (s = -1), r) ∧ (s = 1 ∨ s = -1) := by
  rcases h with ⟨rfl, rfl⟩ | ⟨rfl, rfl⟩ | ⟨rfl, rfl⟩
  · refine ⟨?_, Or.inl rfl⟩
    cases t with
    | nil => rfl
    | cons c t =>
      rw [takeSign]
      · rfl
      · rintro t' h
        cases h
        exact hr.1 rfl
      · rintro t' h
        cases h
        exact hr.2 rfl
  · exact ⟨rfl, Or.inl rfl⟩
  · exact ⟨rfl, Or.inr rfl⟩

theorem takeSign_spec (t : Text) : Signed t (if (takeSign t).1 then -1 else 1) (takeSign t).2 := by
  unfold takeSign
  split
  · exact Or.inr (Or.inr ⟨rfl, rfl⟩)
  · exact Or.inr (Or.inl ⟨rfl, rfl⟩)
  · exact Or.inl ⟨rfl, rfl⟩

theorem isDigit_not_sign {c : Char} (h : c.isDigit = true) : c ≠ '-' ∧ c ≠ '+' ∧ c ≠ '.' ∧ c ≠ 'e' ∧ c ≠ 'E' := by
  refine ⟨?_, ?_, ?_, ?_, ?_⟩ <;> rintro rfl <;> revert h <;> decide

/-- The integer that a text denotes is read from it. -/
theorem readExponentDigits_iff {t : Text} {z : ℤ} : readExponentDigits t = some z ↔ IntText t z := by
  constructor
  · intro h
    unfold readExponentDigits at h
    simp only at h
    split_ifs at h with h1 h2 <;> cases h
    · refine ⟨-1, (takeSign t).2, _, ?_, digits_iff.2 ⟨h1.1, h1.2, rfl⟩, by simp⟩
      have := takeSign_spec t
      rwa [if_pos h2] at this
    · refine ⟨1, (takeSign t).2, _, ?_, digits_iff.2 ⟨h1.1, h1.2, rfl⟩, by simp⟩
      have := takeSign_spec t
      rwa [if_neg h2] at this
  · rintro ⟨s, r, n, hs, hd, rfl⟩
    obtain ⟨c, r', rfl, hc⟩ := digits_head hd
    obtain ⟨h1, h2, h3⟩ := digits_iff.1 hd
    obtain ⟨e, h4⟩ := takeSign_signed hs (by
      have := isDigit_not_sign hc
      simp [this.1, this.2.1])
    unfold readExponentDigits
    simp only [e]
    rw [if_pos ⟨h1, h2⟩, h3]
    rcases h4 with rfl | rfl <;> simp

theorem lexicalNat_eq (t : Text) : lexicalNat t = (readExponentDigits t).bind fun z =>
    if z.natAbs < 2 ^ 64 then some ((z % (2 ^ 64 : ℤ)).toNat) else none := by
  unfold lexicalNat readExponentDigits
  simp only
  by_cases h : (takeSign t).2 ≠ [] ∧ (takeSign t).2.all Char.isDigit = true
  · rw [if_pos h, if_pos h]
    cases (takeSign t).1
    · simp only [Bool.false_eq_true, if_false, Option.bind_some, Int.natAbs_natCast]
      split_ifs with h1
      · congr 1
        omega
      · rfl
    · simp only [if_true, Option.bind_some, Int.natAbs_neg, Int.natAbs_natCast]
      split_ifs with h1
      · congr 1
        omega
      · rfl
  · rw [if_neg h, if_neg h]; rfl

/-- **C103**, exactly: a text is accepted as the value of a count if and only if it is an integer in decimal notation, with an optional sign, whose
magnitude is below `2 ^ 64`; the count is that integer modulo `2 ^ 64`. -/
theorem count_iff {rnd : ℚ → ℝ} {t : Text} {n : ℕ} :
    (lexicalConv rnd).nat t = some n ↔ ∃ z : ℤ, IntText t z ∧ |z| < 2 ^ 64 ∧ (n : ℤ) = z % 2 ^ 64 := by
  show lexicalNat t = some n ↔ _
  rw [lexicalNat_eq]
  constructor
  · intro h
    rw [Option.bind_eq_some_iff] at h
    obtain ⟨z, hz, h⟩ := h
    split_ifs at h with h1
    cases h
    exact ⟨z, readExponentDigits_iff.1 hz, by rw [Int.abs_eq_natAbs]; omega, by omega⟩
  · rintro ⟨z, hz, h1, h2⟩
    rw [readExponentDigits_iff.2 hz, Option.bind_some, if_pos (by rw [Int.abs_eq_natAbs] at h1; omega)]
    congr 1
    omega

theorem intText_unique {t : Text} {z z' : ℤ} (h : IntText t z) (h' : IntText t z') : z = z' :=
  Option.some.inj ((readExponentDigits_iff.2 h).symm.trans (readExponentDigits_iff.2 h'))

/-- **C103**: when a text is accepted as a count, the count is the number which was written exactly if that number is not negative. -/
theorem count_partial {rnd : ℚ → ℝ} {t : Text} {n : ℕ} (h : (lexicalConv rnd).nat t = some n) :
    ∃ z : ℤ, IntText t z ∧ ((n : ℤ) = z ↔ 0 ≤ z) ∧ (z < 0 → (n : ℤ) = 2 ^ 64 + z) ∧ n < 2 ^ 64 := by
  obtain ⟨z, hz, h1, h2⟩ := count_iff.1 h
  have := abs_lt.1 h1
  exact ⟨z, hz, by omega, by omega, by omega⟩

/-- **C103**: every count that fits can be given: `printNat n` is read as `n`. -/
theorem count_roundtrip (rnd : ℚ → ℝ) {n : ℕ} (hn : n < 2 ^ 64) : (lexicalConv rnd).nat (printNat n) = some n :=
  count_iff.2 ⟨n, ⟨1, _, n, Or.inl ⟨rfl, rfl⟩, digits_toDigits n, by simp⟩, by rw [abs_of_nonneg (by omega)]; omega, by omega⟩

/-- **C103** refuted: a negative number `-k` is accepted as a count and taken as `2 ^ 64 - k`. -/
theorem count_negative (rnd : ℚ → ℝ) {k : ℕ} (h0 : 0 < k) (hk : k < 2 ^ 64) :
    (lexicalConv rnd).nat ('-' :: printNat k) = some (2 ^ 64 - k) :=
  count_iff.2 ⟨-k, ⟨-1, _, k, Or.inr (Or.inr ⟨rfl, rfl⟩), digits_toDigits k, by simp⟩, by rw [abs_neg, abs_of_nonneg (by omega)]; omega, by omega⟩

/-! ### Numbers -/

theorem digits0_iff {ds : Text} {n : ℕ} : Digits0 ds n ↔ ds.all Char.isDigit = true ∧ digitsValue ds = n := by
  unfold Digits0
  rw [digits_iff]
  by_cases h : ds = []
  · subst h
    simp [digitsValue, eq_comm]
  · simp [h]

theorem digitsValue_append (a b : Text) : digitsValue (a ++ b) = digitsValue a * 10 ^ b.length + digitsValue b := by
  induction b using List.reverseRecOn with
  | nil => simp [digitsValue]
  | append_singleton b c ih =>
    have : ∀ x : Text, digitsValue (x ++ [c]) = 10 * digitsValue x + (c.toNat - '0'.toNat) := by
      intro x; simp [digitsValue]
    rw [← List.append_assoc, this, ih, this, List.length_append, List.length_singleton, pow_succ]
    ring

theorem exponentText_iff {t : Text} {e : ℤ} : readExponent t = some e ↔ ExponentText t e := by
  unfold ExponentText
  cases t with
  | nil => simp [readExponent, eq_comm]
  | cons c t =>
    rw [readExponent]
    constructor
    · intro h
      split_ifs at h with hc
      refine Or.inr ⟨t, ?_, readExponentDigits_iff.1 h⟩
      rcases hc with rfl | rfl
      · exact Or.inl rfl
      · exact Or.inr rfl
    · rintro (⟨h, -⟩ | ⟨r, h | h, hi⟩)
      · cases h
      · cases h
        rw [if_pos (Or.inl rfl)]
        exact readExponentDigits_iff.2 hi
      · cases h
        rw [if_pos (Or.inr rfl)]
        exact readExponentDigits_iff.2 hi

theorem exponentText_head {t : Text} {e : ℤ} (h : ExponentText t e) : t = [] ∨ ∃ c r, t = c :: r ∧ (c = 'e' ∨ c = 'E') := by
  rcases h with ⟨rfl, -⟩ | ⟨r, rfl | rfl, -⟩
  · exact Or.inl rfl
  · exact Or.inr ⟨_, r, rfl, Or.inl rfl⟩
  · exact Or.inr ⟨_, r, rfl, Or.inr rfl⟩

theorem span_digits {ds r : Text} (h : ds.all Char.isDigit = true) (hr : r = [] ∨ ∃ c r', r = c :: r' ∧ c.isDigit = false) :
    (ds ++ r).takeWhile Char.isDigit = ds ∧ (ds ++ r).dropWhile Char.isDigit = r := by
  rw [List.all_eq_true] at h
  rw [List.takeWhile_append_of_pos h, List.dropWhile_append_of_pos h]
  rcases hr with rfl | ⟨c, r', rfl, hc⟩
  · simp
  · simp [hc]

theorem decimal_value (i f : ℕ) (e : ℤ) (k : ℕ) (s : ℚ) :
    s * ((i * 10 ^ k + f : ℕ) : ℚ) * (10 : ℚ) ^ (e - k) = s * (i + f / 10 ^ k) * 10 ^ e := by
  rw [zpow_sub₀ (by norm_num), zpow_natCast]
  push_cast
  have : (10 : ℚ) ^ k ≠ 0 := by positivity
  field_simp

theorem takeFraction_spec (rest : Text) : (takeFraction rest).1.all Char.isDigit = true ∧
    (rest = '.' :: ((takeFraction rest).1 ++ (takeFraction rest).2) ∨ (takeFraction rest).1 = [] ∧ rest = (takeFraction rest).2) := by
  unfold takeFraction
  split
  · exact ⟨List.all_takeWhile, Or.inl (by rw [List.takeWhile_append_dropWhile])⟩
  · exact ⟨rfl, Or.inr ⟨rfl, rfl⟩⟩

/-- What is read from a text is the number it denotes. -/
theorem readDecimal_iff {t : Text} {x : ℚ} : readDecimal t = some x ↔ DecimalText t x := by
  constructor
  · intro h
    unfold readDecimal at h
    simp only at h
    by_cases h0 : (takeSign t).2.takeWhile Char.isDigit ++ (takeFraction ((takeSign t).2.dropWhile Char.isDigit)).1 = []
    · rw [if_pos h0] at h
      cases h
    rw [if_neg h0, Option.map_eq_some_iff] at h
    obtain ⟨e, he, rfl⟩ := h
    set ip := (takeSign t).2.takeWhile Char.isDigit with hip
    set rest := (takeSign t).2.dropWhile Char.isDigit with hrest
    have hr : (takeSign t).2 = ip ++ rest := (List.takeWhile_append_dropWhile).symm
    have hfp := takeFraction_spec rest
    refine ⟨if (takeSign t).1 then -1 else 1, (takeSign t).2, ip, digitsValue ip, (takeFraction rest).1, digitsValue (takeFraction rest).1,
      (takeFraction rest).2, e, takeSign_spec t, digits0_iff.2 ⟨List.all_takeWhile, rfl⟩, digits0_iff.2 ⟨hfp.1, rfl⟩, h0, exponentText_iff.1 he, ?_, ?_⟩
    · rcases hfp.2 with h | ⟨h, h'⟩
      · exact Or.inl (by rw [hr]; conv_lhs => rw [h])
      · exact Or.inr ⟨h, by rw [hr]; conv_lhs => rw [h']⟩
    · rw [digitsValue_append, decimal_value]
      split_ifs <;> simp
  · rintro ⟨s, r, ip, i, fp, f, ex, e, hs, hi, hf, hne, he, hr, rfl⟩
    obtain ⟨hi1, rfl⟩ := digits0_iff.1 hi
    obtain ⟨hf1, rfl⟩ := digits0_iff.1 hf
    have hex := exponentText_head he
    have hexd : ex = [] ∨ ∃ c r', ex = c :: r' ∧ c.isDigit = false := by
      rcases hex with rfl | ⟨c, r', rfl, rfl | rfl⟩
      · exact Or.inl rfl
      · exact Or.inr ⟨_, _, rfl, by decide⟩
      · exact Or.inr ⟨_, _, rfl, by decide⟩
    have hhead : r.head? ≠ some '-' ∧ r.head? ≠ some '+' := by
      cases ip with
      | cons c ip =>
        have hc : c.isDigit = true := by simp at hi1; exact hi1.1
        have := isDigit_not_sign hc
        rcases hr with rfl | ⟨-, rfl⟩ <;> simp [this.1, this.2.1]
      | nil =>
        rcases hr with rfl | ⟨rfl, rfl⟩
        · simp
        · simp at hne
    obtain ⟨hts, hs1⟩ := takeSign_signed hs hhead
    have hsplit : r.takeWhile Char.isDigit = ip ∧ takeFraction (r.dropWhile Char.isDigit) = (fp, ex) := by
      rcases hr with rfl | ⟨rfl, rfl⟩
      · obtain ⟨h1, h2⟩ := span_digits (r := '.' :: (fp ++ ex)) hi1 (Or.inr ⟨_, _, rfl, by decide⟩)
        obtain ⟨h3, h4⟩ := span_digits hf1 hexd
        refine ⟨h1, ?_⟩
        rw [h2, takeFraction, h3, h4]
      · obtain ⟨h1, h2⟩ := span_digits hi1 hexd
        refine ⟨h1, ?_⟩
        rw [h2]
        rcases hex with rfl | ⟨c, r', rfl, rfl | rfl⟩ <;> rfl
    unfold readDecimal
    simp only [hts, hsplit.1, hsplit.2, if_neg hne, exponentText_iff.2 he, Option.map_some]
    rw [digitsValue_append, decimal_value]
    rcases hs1 with rfl | rfl <;> simp

/-- **C104**, exactly: a text is accepted as the value of a number option if and only if it is a number in decimal notation below the
largest `double` (up to half a unit in its last place); the value is this number, rounded once. -/
theorem number_iff {rnd : ℚ → ℝ} {t : Text} {x : ℝ} :
    (lexicalConv rnd).num t = some x ↔ ∃ y : ℚ, DecimalText t y ∧ |y| < 2 ^ 1024 - 2 ^ 970 ∧ x = rnd y := by
  show lexicalNum rnd t = some x ↔ _
  unfold lexicalNum
  rw [Option.bind_eq_some_iff]
  constructor
  · rintro ⟨y, hy, h⟩
    split_ifs at h with h1
    cases h
    exact ⟨y, readDecimal_iff.1 hy, h1, rfl⟩
  · rintro ⟨y, hy, h1, rfl⟩
    exact ⟨y, readDecimal_iff.2 hy, by rw [overflowBound, if_pos h1]⟩

/-- **C104**: a text denotes at most one number. -/
theorem decimalText_unique {t : Text} {x y : ℚ} (h : DecimalText t x) (h' : DecimalText t y) : x = y :=
  Option.some.inj ((readDecimal_iff.2 h).symm.trans (readDecimal_iff.2 h'))

/-- **C104**: every finite decimal number can be given, e.g. `m / 10 ^ k` as `m` with the exponent `-k`. -/
theorem number_roundtrip (rnd : ℚ → ℝ) (m k : ℕ) (hm : (m : ℚ) < 2 ^ 1024 - 2 ^ 970) :
    (lexicalConv rnd).num (printNat m ++ "e-".toList ++ printNat k) = some (rnd (m / 10 ^ k)) ∧
    (lexicalConv rnd).num ("-".toList ++ printNat m ++ "e-".toList ++ printNat k) = some (rnd (-(m / 10 ^ k))) := by
  have he : ExponentText ("e-".toList ++ printNat k) (-k) := by
    rw [show "e-".toList = ['e', '-'] by decide]
    exact Or.inr ⟨_, Or.inl rfl, -1, _, k, Or.inr (Or.inr ⟨rfl, rfl⟩), digits_toDigits k, by simp⟩
  have hd : Digits0 (printNat m) m := Or.inr (digits_toDigits m)
  have hb : |(m : ℚ) / 10 ^ k| < 2 ^ 1024 - 2 ^ 970 := by
    rw [abs_of_nonneg (by positivity)]
    have h1 : (m : ℚ) / 10 ^ k ≤ m := div_le_self (by positivity) (one_le_pow₀ (by norm_num))
    exact lt_of_le_of_lt h1 hm
  have hne : printNat m ++ [] ≠ [] := by
    rw [List.append_nil]
    exact Nat.toDigits_ne_nil
  constructor
  · refine number_iff.2 ⟨m / 10 ^ k, ⟨1, _, printNat m, m, [], 0, _, -k, Or.inl ⟨rfl, rfl⟩, hd, Or.inl ⟨rfl, rfl⟩, hne, he, Or.inr ⟨rfl, ?_⟩, ?_⟩, hb, rfl⟩
    · rw [List.append_assoc]
    · simp [zpow_neg, div_eq_mul_inv]
  · refine number_iff.2 ⟨-(m / 10 ^ k), ⟨-1, printNat m ++ ("e-".toList ++ printNat k), printNat m, m, [], 0, _, -k, Or.inr (Or.inr ⟨rfl, ?_⟩), hd, Or.inl ⟨rfl, rfl⟩, hne, he, Or.inr ⟨rfl, rfl⟩, ?_⟩,
      by rwa [abs_neg], rfl⟩
    · rw [show "-".toList = ['-'] by decide, List.append_assoc, List.append_assoc]; rfl
    · simp [zpow_neg, div_eq_mul_inv]

/-! ### The programs -/

theorem lexicalNum_isSome (rnd : ℚ → ℝ) (t : Text) : (lexicalNum rnd t).isSome = (readDecimal t).any fun x => decide (|x| < overflowBound) := by
  unfold lexicalNum
  cases readDecimal t with
  | none => rfl
  | some x =>
    simp only [Option.bind_some, Option.any_some]
    by_cases h : |x| < overflowBound
    · simp [h]
    · simp [h]

theorem lexicalConv_ok (rnd : ℚ → ℝ) (k : Kind) (t : Text) : (lexicalConv rnd).ok k t = match k with
    | .nat => (lexicalNat t).isSome
    | .num => (readDecimal t).any fun x => decide (|x| < overflowBound)
    | .text => true := by
  cases k
  · rfl
  · exact lexicalNum_isSome rnd t
  · rfl

/-- **C103**, **C104**: the default values of all programs are accepted. -/
theorem lexical_defaults (rnd : ℚ → ℝ) : DefaultsConvert progReal1dRk4 kindsReal1dRk4 (lexicalConv rnd) ∧
    DefaultsConvert progReal1dKineticRk4 kindsReal1dKineticRk4 (lexicalConv rnd) ∧
    DefaultsConvert progReal1dRk4Coefficients kindsReal1dRk4Coefficients (lexicalConv rnd) ∧
    DefaultsConvert progReal1dKineticRk4Coefficients kindsReal1dKineticRk4Coefficients (lexicalConv rnd) ∧
    DefaultsConvert progReal1dRk4Jump kindsReal1dRk4Jump (lexicalConv rnd) ∧ DefaultsConvert progReal2dRk4Jump kindsReal2dRk4Jump (lexicalConv rnd) ∧
    DefaultsConvert progMomentum1dRk4 kindsMomentum1dRk4 (lexicalConv rnd) := by
  refine ⟨?_, ?_, ?_, ?_, ?_, ?_, ?_⟩ <;> unfold DefaultsConvert <;> simp only [lexicalConv_ok] <;> decide +kernel

theorem programKinds_good (rnd : ℚ → ℝ) {pk : Prog × List (Text × Kind)} (hp : pk ∈ programKinds) :
    pk.1 ∈ programs ∧ DefaultsConvert pk.1 pk.2 (lexicalConv rnd) ∧ kindOf pk.2 "out".toList = .text := by
  have hd := lexical_defaults rnd
  simp only [programKinds, List.mem_cons, List.not_mem_nil, or_false] at hp
  rcases hp with rfl | rfl | rfl | rfl | rfl | rfl | rfl
  · exact ⟨by simp [programs], hd.1, by decide⟩
  · exact ⟨by simp [programs], hd.2.1, by decide⟩
  · exact ⟨by simp [programs], hd.2.2.1, by decide⟩
  · exact ⟨by simp [programs], hd.2.2.2.1, by decide⟩
  · exact ⟨by simp [programs], hd.2.2.2.2.1, by decide⟩
  · exact ⟨by simp [programs], hd.2.2.2.2.2.1, by decide⟩
  · exact ⟨by simp [programs], hd.2.2.2.2.2.2, by decide⟩

/-- **C103**, **C104**: a program called with `--k=t` for one of its options ends with an exception, and before any file is written, if the
text is not accepted. -/
theorem program_rejects (rnd : ℚ → ℝ) {pk : Prog × List (Text × Kind)} (hp : pk ∈ programKinds) {k t : Text} (hk : k ∈ pk.1.own.map Prod.fst)
    (ht : t ≠ []) (hok : (lexicalConv rnd).ok (kindOf pk.2 k) t = false) (env : Env) (fs : FS) :
    construct pk.1.options (fun k t => (lexicalConv rnd).ok (kindOf pk.2 k) t) env fs ["--".toList ++ k ++ "=".toList ++ t] = .val none := by
  obtain ⟨h1, h2, h3⟩ := programKinds_good rnd hp
  have hg := programs_good h1 (valid := fun k t => (lexicalConv rnd).ok (kindOf pk.2 k) t) h2 (by
    show (lexicalConv rnd).ok (kindOf pk.2 outName) _ = true
    rw [show outName = "out".toList by decide, h3]; rfl)
  have hk0 : k ≠ [] := by
    have : ∀ pk ∈ programKinds, ∀ k ∈ pk.1.own.map Prod.fst, k ≠ [] := by decide
    exact this pk hp k hk
  have hparse : parseArgs pk.1.options ["--".toList ++ k ++ "=".toList ++ t] = some [⟨k, [t]⟩] := by
    have e : "--".toList ++ k ++ "=".toList ++ t = longArg (k, t) := by
      rw [show "--".toList = ['-', '-'] by decide, show "=".toList = ['='] by decide]; rfl
    rw [e]
    have := parseArgs_longArg hg [(k, t)] (fun o ho => by
      cases List.mem_singleton.1 ho
      obtain ⟨x, hx, e⟩ := List.mem_map.1 hk
      refine ⟨ht, Or.inr ⟨⟨x.1, true, some x.2⟩, ?_, e, rfl⟩⟩
      simp only [Prog.options, programOptions, List.mem_append, List.mem_map]
      exact Or.inr ⟨x, hx, rfl⟩) []
    simpa [parseArgs] using this
  unfold construct parseCommandLineOptions store
  rw [hparse]
  simp only [Option.bind_some]
  rw [show storeLoop (fun k t => (lexicalConv rnd).ok (kindOf pk.2 k) t) VM.empty.final [⟨k, [t]⟩] VM.empty.value = none by
    simp [storeLoop, hk0, VM.empty, App.discard, hok]]
  rfl

/-- A program called with `--k=t` for one of its options sees the text `t`, if it is accepted. -/
theorem program_option (rnd : ℚ → ℝ) {pk : Prog × List (Text × Kind)} (hp : pk ∈ programKinds) {k t : Text} (hk : k ∈ pk.1.own.map Prod.fst)
    (ht : t ≠ []) (hok : (lexicalConv rnd).ok (kindOf pk.2 k) t = true) (env : Env) (fs : FS) :
    ∃ a, construct pk.1.options (fun k t => (lexicalConv rnd).ok (kindOf pk.2 k) t) env fs ["--".toList ++ k ++ "=".toList ++ t] =
      .val (some (.app a)) ∧ parameter a k = some t := by
  have h1 := programKinds_good rnd hp
  obtain ⟨a, ha, h2, -⟩ := program_starts h1.1 (valid := fun k t => (lexicalConv rnd).ok (kindOf pk.2 k) t) h1.2.1
    (by show (lexicalConv rnd).ok (kindOf pk.2 "out".toList) _ = true; rw [h1.2.2]; rfl) env fs [(k, t)]
    (fun o ho => by cases List.mem_singleton.1 ho; exact ⟨ht, hok, Or.inr hk⟩) (by simp)
  exact ⟨a, ha, h2 _ (List.mem_singleton_self _)⟩

/-- **C103** refuted for all programs: called with `--k=-n` for any of its counts (`N`, `Nx`, `Ny`, `measurement_interval`), a program
starts, and takes `2 ^ 64 - n` as the value. -/
theorem program_negative_count (rnd : ℚ → ℝ) {pk : Prog × List (Text × Kind)} (hp : pk ∈ programKinds) {k : String}
    (hk : k.toList ∈ pk.1.own.map Prod.fst) (hkind : kindOf pk.2 k.toList = .nat) {n : ℕ} (h0 : 0 < n) (hn : n < 2 ^ 64) (env : Env) (fs : FS) :
    ∃ a, construct pk.1.options (fun k t => (lexicalConv rnd).ok (kindOf pk.2 k) t) env fs ["--".toList ++ k.toList ++ "=-".toList ++ printNat n] =
      .val (some (.app a)) ∧ NatSetting (lexicalConv rnd) a k (2 ^ 64 - n) := by
  have h := count_negative rnd h0 hn
  obtain ⟨a, ha, h2⟩ := program_option rnd hp hk (t := '-' :: printNat n) (by simp) (by
    rw [hkind]
    show ((lexicalConv rnd).nat _).isSome = true
    rw [h]; rfl) env fs
  refine ⟨a, ?_, _, h2, h⟩
  rw [← ha]
  congr 2
  rw [show "=-".toList = "=".toList ++ ['-'] by decide]
  simp

/-- **C103**: called with `--k=n` for any of its counts, a program takes `n` as the value. -/
theorem program_count (rnd : ℚ → ℝ) {pk : Prog × List (Text × Kind)} (hp : pk ∈ programKinds) {k : String}
    (hk : k.toList ∈ pk.1.own.map Prod.fst) (hkind : kindOf pk.2 k.toList = .nat) {n : ℕ} (hn : n < 2 ^ 64) (env : Env) (fs : FS) :
    ∃ a, construct pk.1.options (fun k t => (lexicalConv rnd).ok (kindOf pk.2 k) t) env fs ["--".toList ++ k.toList ++ "=".toList ++ printNat n] =
      .val (some (.app a)) ∧ NatSetting (lexicalConv rnd) a k n := by
  have h := count_roundtrip rnd hn
  obtain ⟨a, ha, h2⟩ := program_option rnd hp hk (t := printNat n) Nat.toDigits_ne_nil (by
    rw [hkind]
    show ((lexicalConv rnd).nat _).isSome = true
    rw [h]; rfl) env fs
  exact ⟨a, ha, _, h2, h⟩

/-- **C104**: called with `--k=t` for any of its number options and a text in decimal notation, a program takes the (rounded) number as the value. -/
theorem program_number (rnd : ℚ → ℝ) {pk : Prog × List (Text × Kind)} (hp : pk ∈ programKinds) {k : String}
    (hk : k.toList ∈ pk.1.own.map Prod.fst) (hkind : kindOf pk.2 k.toList = .num) {t : Text} {y : ℚ} (hy : DecimalText t y)
    (hb : |y| < 2 ^ 1024 - 2 ^ 970) (env : Env) (fs : FS) :
    ∃ a, construct pk.1.options (fun k t => (lexicalConv rnd).ok (kindOf pk.2 k) t) env fs ["--".toList ++ k.toList ++ "=".toList ++ t] =
      .val (some (.app a)) ∧ NumSetting (lexicalConv rnd) a k (rnd y) := by
  have h : (lexicalConv rnd).num t = some (rnd y) := number_iff.2 ⟨y, hy, hb, rfl⟩
  have ht : t ≠ [] := by
    rintro rfl
    have := readDecimal_iff.2 hy
    have e : readDecimal [] = none := rfl
    rw [e] at this
    cases this
  obtain ⟨a, ha, h2⟩ := program_option rnd hp hk ht (by
    rw [hkind]
    show ((lexicalConv rnd).num _).isSome = true
    rw [h]; rfl) env fs
  exact ⟨a, ha, _, h2, h⟩

/-- Texts that are not accepted as counts: `1.5`, `1e3`, `0x10`, `16 `, `18446744073709551616`; and one that is: `-1`. -/
example : ∀ t ∈ ["1.5".toList, "1e3".toList, "0x10".toList, "16 ".toList, "18446744073709551616".toList], ∀ rnd, (lexicalConv rnd).ok .nat t = false := by
  intro t ht rnd
  show (lexicalNat t).isSome = false
  revert t
  decide +kernel

/-- Every program has a count and a number option. -/
example : ∀ pk ∈ programKinds, (∃ k ∈ pk.1.own.map Prod.fst, kindOf pk.2 k = .nat) ∧ ∃ k ∈ pk.1.own.map Prod.fst, kindOf pk.2 k = .num := by
  decide

/-- **C94** without assumptions about the conversion: `hubbard_real_1d_rk4` without arguments, with exact arithmetic. -/
theorem real1dRk4_default_run_lexical (m : Machine) (hs : IsSort m.sort) (he : ∀ N, (m.exec N).Valid N) (env : Env) (fs : FS) :
    ∃ a s acts head, mainReal1dRk4 (lexicalConv fun q => (q : ℝ)) m env fs [] = .val (.finished a (s, acts)) ∧
      a.outputPath = "hubbard_real_1d_rk4.txt".toList ∧
      a.fs a.outputPath = some head ∧ s.out.map Prod.fst = [0, 1, 2, 3, 4, 5, 6, 7, 8, 9, 10] ∧
      ∀ old d, Durability.Run True (Durability.Disk.start old) acts d → d.file = fileText head (fun t x => tabRow [m.shw t, m.shw x]) s.out := by
  have num : ∀ (t : Text) (y : ℚ), readDecimal t = some y → |y| < overflowBound → (lexicalConv fun q => (q : ℝ)).num t = some (y : ℝ) :=
    fun t y h hb => number_iff.2 ⟨y, readDecimal_iff.1 h, hb, rfl⟩
  refine real1dRk4_default_run _ (lexical_defaults _).1 (fun t n h => ?_) m hs he (by decide +kernel) (by decide +kernel) ?_ ?_ env fs
  · obtain ⟨-, -, -, -, h⟩ := count_partial h
    exact h
  · rw [num _ (1 / 100) (by decide +kernel) (by decide +kernel)]
    norm_num
  · rw [num _ 10 (by decide +kernel) (by decide +kernel)]
    norm_num

end Ieompp.Main
