import Verif.Model.KroneckerNumber
import Verif.Props.Kronecker
import Verif.Props.SymbolicIndex
import Verif.Props.LexicalCast

/-! # C107: Kronecker deltas of numbers -/

set_option autoImplicit false
set_option linter.unusedSectionVars false

namespace Ieompp
namespace KroneckerNumber

open IO (Text)

/-- **C107**, integers: two deltas are equal exactly if they are of the same two numbers, in whatever order. -/
theorem makeInt_eq_iff (a b c d : ℤ) :
    (makeInt a b).eqB (makeInt c d) = true ↔ (a = c ∧ b = d) ∨ (a = d ∧ b = c) := by
  have inj : ∀ i j : ℤ, Symbolic.toString' i = Symbolic.toString' j ↔ i = j := fun i j => ⟨Symbolic.toString'_inj, fun e => by rw [e]⟩
  simp only [makeInt, Kronecker.eqB, Bool.or_eq_true, Bool.and_eq_true, beq_iff_eq, inj]

/-- **C107**, `bool`. -/
theorem makeBool_eq_iff (a b c d : Bool) :
    (makeBool a b).eqB (makeBool c d) = true ↔ (a = c ∧ b = d) ∨ (a = d ∧ b = c) := by
  rw [makeBool, makeBool, makeInt_eq_iff]
  cases a <;> cases b <;> cases c <;> cases d <;> simp

theorem point_not_digit (n : ℕ) : '.' ∉ Nat.toDigits 10 n := by
  intro h
  have := Nat.isDigit_of_mem_toDigits (b := 10) (by decide) (by decide) h
  revert this
  decide

theorem split_at {c : Char} : ∀ {a a' b b' : Text}, c ∉ a → c ∉ a' → a ++ c :: b = a' ++ c :: b' → a = a' ∧ b = b'
  | [], [], _, _, _, _, h => ⟨rfl, by simpa using h⟩
  | [], x :: a', _, _, _, h2, h => absurd (by simp only [List.nil_append, List.cons_append, List.cons.injEq] at h; rw [h.1]; simp) h2
  | x :: a, [], _, _, h1, _, h => absurd (by simp only [List.nil_append, List.cons_append, List.cons.injEq] at h; rw [h.1]; simp) h1
  | x :: a, y :: a', b, b', h1, h2, h => by
    simp only [List.cons_append, List.cons.injEq] at h
    obtain ⟨e1, e2⟩ := split_at (c := c) (fun m => h1 (List.mem_cons_of_mem _ m)) (fun m => h2 (List.mem_cons_of_mem _ m)) h.2
    exact ⟨by rw [h.1, e1], e2⟩

theorem value_zeros (k : ℕ) (t : Text) : Main.digitsValue (List.replicate k '0' ++ t) = Main.digitsValue t := by
  have : Main.digitsValue (List.replicate k '0') = 0 := by
    unfold Main.digitsValue
    induction k with
    | zero => rfl
    | succ k ih => rw [List.replicate_succ, List.foldl_cons]; simpa using ih
  rw [Main.digitsValue_append, this, zero_mul, zero_add]

theorem padded_inj {w m n : ℕ} (h : padded w m = padded w n) : m = n := by
  have h1 := congrArg Main.digitsValue h
  unfold padded at h1
  rw [value_zeros, value_zeros] at h1
  have e : ∀ n, Main.digitsValue (Nat.toDigits 10 n) = n := fun n => (Main.digits_iff.1 (Main.digits_toDigits n)).2.2
  rwa [e, e] at h1

/-- The text of a `double` determines its sign and its magnitude in millionths, and nothing else. -/
theorem toStringDouble_eq_iff (x y : Double) :
    toStringDouble x = toStringDouble y ↔ x.negative = y.negative ∧ x.millionths = y.millionths := by
  constructor
  · intro h
    unfold toStringDouble at h
    have key : ∀ {m n m' n' : ℕ}, Nat.toDigits 10 m ++ ['.'] ++ padded 6 n = Nat.toDigits 10 m' ++ ['.'] ++ padded 6 n' → m = m' ∧ n = n' := by
      intro m n m' n' h
      rw [List.append_assoc, List.append_assoc] at h
      obtain ⟨e1, e2⟩ := split_at (point_not_digit m) (point_not_digit m') h
      exact ⟨IO.toDigits_inj e1, padded_inj e2⟩
    have fin : x.millionths / 10 ^ 6 = y.millionths / 10 ^ 6 ∧ x.millionths % 10 ^ 6 = y.millionths % 10 ^ 6 → x.millionths = y.millionths := by
      intro ⟨h1, h2⟩
      rw [← Nat.div_add_mod x.millionths (10 ^ 6), ← Nat.div_add_mod y.millionths (10 ^ 6), h1, h2]
    have neg : ∀ {m n : ℕ} {t : Text}, '-' :: t = Nat.toDigits 10 m ++ ['.'] ++ padded 6 n → False := by
      intro m n t h
      cases hd : Nat.toDigits 10 m with
      | nil => rw [hd] at h; simp at h
      | cons c l =>
        rw [hd] at h
        simp only [List.cons_append, List.cons.injEq] at h
        exact Symbolic.minus_not_digit m (by rw [hd, h.1]; simp)
    rcases hx : x.negative <;> rcases hy : y.negative <;>
      simp only [hx, hy, Bool.false_eq_true, if_true, if_false, List.nil_append, List.append_assoc, List.singleton_append, List.cons_append,
        List.cons.injEq, true_and] at h
    · exact ⟨rfl, fin (key (by simpa using h))⟩
    · exact (neg (t := Nat.toDigits 10 (y.millionths / 10 ^ 6) ++ '.' :: padded 6 (y.millionths % 10 ^ 6)) (by simpa using h.symm)).elim
    · exact (neg (t := Nat.toDigits 10 (x.millionths / 10 ^ 6) ++ '.' :: padded 6 (x.millionths % 10 ^ 6)) (by simpa using h)).elim
    · exact ⟨rfl, fin (key (by simpa using h))⟩
  · rintro ⟨h1, h2⟩
    unfold toStringDouble
    rw [h1, h2]

theorem padded_length {w n : ℕ} (h : n < 10 ^ w) (hw : 0 < w) : (padded w n).length = w := by
  unfold padded
  have : (Nat.toDigits 10 n).length ≤ w := (Nat.length_toDigits_le_iff (by norm_num) hw).2 h
  simp; omega

/-- **C107**: what the text of a `double` is: sign, digits, point and six more digits, which are the number to within half a millionth. -/
theorem toStringDouble_text (x : Double) : ∃ ds fs : Text, toStringDouble x = (if x.negative then ['-'] else []) ++ ds ++ '.' :: fs ∧
    fs.length = 6 ∧ ds ≠ [] ∧ ds.all Char.isDigit = true ∧ fs.all Char.isDigit = true ∧
    |(if x.negative then -1 else 1) * ((Main.digitsValue (ds ++ fs) : ℝ) / 10 ^ 6) - x.value| ≤ 1 / 2 * (1 / 10) ^ 6 := by
  have hval : ∀ y : ℝ, |(if x.negative then -1 else 1) * y - x.value| = |y - x.magnitude| := by
    intro y
    unfold Double.value
    cases x.negative
    · simp
    · simp only [if_true]
      rw [← abs_neg]; congr 1; ring
  have hd : ∀ n, (Nat.toDigits 10 n).all Char.isDigit = true ∧ Nat.toDigits 10 n ≠ [] ∧ Main.digitsValue (Nat.toDigits 10 n) = n := fun n =>
    ⟨(Main.digits_iff.1 (Main.digits_toDigits n)).2.1, (Main.digits_iff.1 (Main.digits_toDigits n)).1,
      (Main.digits_iff.1 (Main.digits_toDigits n)).2.2⟩
  have hl := padded_length (w := 6) (n := x.millionths % 10 ^ 6) (Nat.mod_lt _ (by norm_num)) (by norm_num)
  refine ⟨Nat.toDigits 10 (x.millionths / 10 ^ 6), padded 6 (x.millionths % 10 ^ 6), ?_, hl, (hd _).2.1, (hd _).1, ?_, ?_⟩
  · unfold toStringDouble
    simp
  · unfold padded
    rw [List.all_append, (hd _).1, Bool.and_true, List.all_replicate]
    split_ifs <;> rfl
  · rw [hval, Main.digitsValue_append, hl, (hd _).2.2]
    have : Main.digitsValue (padded 6 (x.millionths % 10 ^ 6)) = x.millionths % 10 ^ 6 := by
      unfold padded
      rw [value_zeros, (hd _).2.2]
    rw [this, Nat.mul_comm, Nat.div_add_mod]
    have h1 := Spec.abs_sub_roundEven (x.magnitude * 10 ^ 6)
    have h0 : 0 ≤ Spec.roundEven (x.magnitude * 10 ^ 6) := by
      have := x.nonneg
      unfold Spec.roundEven
      split_ifs
      · exact Int.floor_nonneg.2 (by positivity)
      · exact Int.floor_nonneg.2 (by positivity)
    have h2 : ((x.millionths : ℕ) : ℝ) = ((Spec.roundEven (x.magnitude * 10 ^ 6) : ℤ) : ℝ) := by
      unfold Double.millionths
      rw [← Int.cast_natCast, Int.toNat_of_nonneg h0]
    rw [h2, abs_sub_comm, show x.magnitude - ((Spec.roundEven (x.magnitude * 10 ^ 6) : ℤ) : ℝ) / 10 ^ 6 =
      (x.magnitude * 10 ^ 6 - (Spec.roundEven (x.magnitude * 10 ^ 6) : ℤ)) / 10 ^ 6 by field_simp, abs_div, abs_of_pos (by norm_num : (0 : ℝ) < 10 ^ 6)]
    rw [div_le_iff₀ (by norm_num)]
    refine h1.trans (le_of_eq ?_)
    norm_num

/-- **C107**, `double`, exactly: deltas are equal if and only if the numbers agree in sign bit and after rounding to six decimals. -/
theorem makeDouble_eq_iff (a b c d : Double) : (makeDouble a b).eqB (makeDouble c d) = true ↔
    ((a.negative = c.negative ∧ a.millionths = c.millionths) ∧ (b.negative = d.negative ∧ b.millionths = d.millionths)) ∨
    ((a.negative = d.negative ∧ a.millionths = d.millionths) ∧ (b.negative = c.negative ∧ b.millionths = c.millionths)) := by
  simp only [makeDouble, Kronecker.eqB, Bool.or_eq_true, Bool.and_eq_true, beq_iff_eq, toStringDouble_eq_iff]

theorem millionths_small {x : Double} (h : x.magnitude < 1 / 2 * (1 / 10) ^ 6) : x.millionths = 0 := by
  unfold Double.millionths
  have : Spec.roundEven (x.magnitude * 10 ^ 6) ≤ 0 := by
    unfold Spec.roundEven
    have h0 : x.magnitude * 10 ^ 6 < 1 / 2 := by
      calc x.magnitude * 10 ^ 6 < 1 / 2 * (1 / 10) ^ 6 * 10 ^ 6 := by gcongr
        _ = 1 / 2 := by norm_num
    split_ifs with q
    · exact Int.lt_add_one_iff.1 (Int.floor_lt.2 (by push_cast; linarith))
    · exact Int.lt_add_one_iff.1 (Int.floor_lt.2 (by push_cast; linarith))
  omega

/-- **C107** is false for `double`: different numbers give equal deltas, and the two zeros, which are equal numbers, give different ones. -/
theorem makeDouble_wrong : (∃ a b c : Double, a.value ≠ b.value ∧ (makeDouble a c).eqB (makeDouble b c) = true) ∧
    ∃ a b c : Double, a.value = b.value ∧ (makeDouble a c).eqB (makeDouble b c) = false := by
  have hz : (⟨false, 0, le_rfl⟩ : Double).millionths = 0 := millionths_small (by norm_num)
  have hz' : (⟨true, 0, le_rfl⟩ : Double).millionths = 0 := millionths_small (by norm_num)
  have hs : (⟨false, 1 / 10 ^ 7, by positivity⟩ : Double).millionths = 0 := millionths_small (by norm_num)
  refine ⟨⟨⟨false, 1 / 10 ^ 7, by positivity⟩, ⟨false, 0, le_rfl⟩, ⟨false, 0, le_rfl⟩, ?_, ?_⟩, ⟨⟨false, 0, le_rfl⟩, ⟨true, 0, le_rfl⟩,
    ⟨false, 0, le_rfl⟩, ?_, ?_⟩⟩
  · simp [Double.value]
  · rw [makeDouble_eq_iff, hz, hs]; simp
  · simp [Double.value]
  · rw [← Bool.not_eq_true, makeDouble_eq_iff]; simp

/-- Numbers with different texts. -/
example : makeInt 12 (-3) = ⟨"12".toList, "-3".toList⟩ ∧ (makeInt 12 (-3)).eqB (makeInt (-3) 12) = true ∧ (makeInt 1 2).eqB (makeInt 1 3) = false ∧
    makeBool true false = ⟨"1".toList, "0".toList⟩ := by decide

end KroneckerNumber
end Ieompp
