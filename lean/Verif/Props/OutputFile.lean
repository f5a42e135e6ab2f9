import Verif.Props.OutputText
import Verif.Props.SimulationFloat

/-! # The table in the result files (C115, C116) -/

set_option autoImplicit false
set_option linter.unusedSectionVars false

namespace Ieompp
namespace OutputText

open Spec
open Ieompp.IO (Text)
open KroneckerNumber (Double padded)
open Main (digitsValue)

/-! ### Rows and columns -/

theorem cells_append {c : Char} : ∀ {a : Text} (b : Text), c ∉ a → cells c (a ++ c :: b) = a :: cells c b
  | [], b, _ => by simp [cells]
  | x :: a, b, h => by
    have hx : x ≠ c := fun e => h (by simp [e])
    have ih := cells_append (a := a) b fun hm => h (List.mem_cons_of_mem _ hm)
    rw [List.cons_append, cells, if_neg hx, ih]

theorem cells_single {c : Char} : ∀ {a : Text}, c ∉ a → cells c a = [a]
  | [], _ => rfl
  | x :: a, h => by
    have hx : x ≠ c := fun e => h (by simp [e])
    rw [cells, if_neg hx, cells_single fun hm => h (List.mem_cons_of_mem _ hm)]

theorem digits0_chars {ds : Text} {n : ℕ} (h : Digits0 ds n) : ∀ c ∈ ds, c.isDigit = true :=
  List.all_eq_true.1 (Main.digits0_iff.1 h).1

theorem signed_chars {t r : Text} {s : ℤ} (h : Signed t s r) {c : Char} (hc : c ∈ t) : c = '+' ∨ c = '-' ∨ c ∈ r := by
  rcases h with ⟨-, rfl⟩ | ⟨-, rfl⟩ | ⟨-, rfl⟩
  · exact Or.inr (Or.inr hc)
  · rcases List.mem_cons.1 hc with h | h
    · exact Or.inl h
    · exact Or.inr (Or.inr h)
  · rcases List.mem_cons.1 hc with h | h
    · exact Or.inr (Or.inl h)
    · exact Or.inr (Or.inr h)

/-- The characters of a number. -/
theorem decimal_chars {t : Text} {v : ℚ} (h : DecimalText t v) {c : Char} (hc : c ∈ t) :
    c.isDigit = true ∨ c = '+' ∨ c = '-' ∨ c = '.' ∨ c = 'e' ∨ c = 'E' := by
  obtain ⟨s, r, ip, i, fp, f, ex, e, h1, h2, h3, -, h5, h6, -⟩ := h
  have hex : ∀ c ∈ ex, c.isDigit = true ∨ c = '+' ∨ c = '-' ∨ c = 'e' ∨ c = 'E' := by
    intro c hc
    rcases h5 with ⟨rfl, -⟩ | ⟨r', hr', s', q, n, hs', hq, -⟩
    · simp at hc
    · have hcr : c = 'e' ∨ c = 'E' ∨ c ∈ r' := by
        rcases hr' with rfl | rfl <;> rcases List.mem_cons.1 hc with h | h <;> tauto
      rcases hcr with h | h | h
      · tauto
      · tauto
      · rcases signed_chars hs' h with h | h | h
        · tauto
        · tauto
        · exact Or.inl (List.all_eq_true.1 (Main.digits_iff.1 hq).2.1 c h)
  rcases signed_chars h1 hc with h | h | h
  · tauto
  · tauto
  · have : c ∈ ip ∨ c = '.' ∨ c ∈ fp ∨ c ∈ ex := by
      rcases h6 with rfl | ⟨-, rfl⟩
      · simpa using h
      · rcases List.mem_append.1 h with h | h <;> tauto
    rcases this with h | h | h | h
    · exact Or.inl (digits0_chars h2 c h)
    · tauto
    · exact Or.inl (digits0_chars h3 c h)
    · rcases hex c h with h | h | h | h | h <;> tauto

theorem writeDouble_chars (x : Double) : '\t' ∉ writeDouble x ∧ '\n' ∉ writeDouble x := by
  constructor <;> intro h <;> have := decimal_chars (writeDouble_text x) h <;> revert this <;> decide

theorem row_cells : ∀ (x : Text) (xs : List Text), '\t' ∉ x → (∀ y ∈ xs, '\t' ∉ y) → cells '\t' (x ++ xs.flatMap fun y => '\t' :: y) = x :: xs
  | x, [], hx, _ => by rw [List.flatMap_nil, List.append_nil, cells_single hx]
  | x, y :: ys, hx, h => by
    rw [List.flatMap_cons, List.cons_append, cells_append _ hx, row_cells y ys (h y (by simp)) fun z hz => h z (by simp [hz])]

theorem rows_cells (ls : List Text) (h : ∀ l ∈ ls, '\n' ∉ l) : cells '\n' (ls.flatMap fun l => l ++ ['\n']) = ls ++ [[]] := by
  induction ls with
  | nil => rfl
  | cons l ls ih =>
    rw [List.flatMap_cons, List.append_assoc, List.singleton_append, cells_append _ (h l (by simp)), ih fun z hz => h z (by simp [hz])]
    rfl

theorem readTable_lines (rows : List (Text × List Text)) (h : ∀ r ∈ rows, ∀ y ∈ r.1 :: r.2, '\t' ∉ y ∧ '\n' ∉ y) :
    readTable (rows.flatMap fun r => r.1 ++ r.2.flatMap (fun y => '\t' :: y) ++ ['\n']) = rows.map fun r => r.1 :: r.2 := by
  have hn : ∀ l ∈ rows.map (fun r => r.1 ++ r.2.flatMap fun y => '\t' :: y), '\n' ∉ l := by
    intro l hl hm
    obtain ⟨r, hr, rfl⟩ := List.mem_map.1 hl
    rcases List.mem_append.1 hm with hm | hm
    · exact (h r hr r.1 (by simp)).2 hm
    · obtain ⟨y, hy, hm⟩ := List.mem_flatMap.1 hm
      rcases List.mem_cons.1 hm with hm | hm
      · revert hm; decide
      · exact (h r hr y (by simp [hy])).2 hm
  have := rows_cells _ hn
  rw [List.flatMap_map] at this
  unfold readTable
  rw [this, List.dropLast_concat, List.map_map]
  refine List.map_congr_left fun r hr => ?_
  exact row_cells _ _ (h r hr r.1 (by simp)).1 fun y hy => (h r hr y (by simp [hy])).1

/-- **C115**: the cells of the file are the texts of the numbers, row by row and column by column. -/
theorem tableText_cells (rows : List (Double × List Double)) :
    readTable (tableText rows) = rows.map fun r => writeDouble r.1 :: r.2.map writeDouble := by
  have := readTable_lines (rows.map fun r => (writeDouble r.1, r.2.map writeDouble)) (by
    intro r hr y hy
    obtain ⟨q, -, rfl⟩ := List.mem_map.1 hr
    rcases List.mem_cons.1 hy with rfl | hy
    · exact writeDouble_chars _
    · obtain ⟨z, -, rfl⟩ := List.mem_map.1 hy
      exact writeDouble_chars _)
  rw [List.flatMap_map, List.map_map] at this
  unfold tableText writeRow
  simpa only [List.flatMap_map, Function.comp_def] using this

/-- The number zero, without a sign. -/
def zero : Double := ⟨false, 0, le_rfl⟩

theorem writeDouble_zero {x : Double} (h : x.value = 0) (hs : x.negative = false) : writeDouble x = ['0'] := by
  have : x.magnitude = 0 := by rw [value_eq, hs] at h; simpa using h
  unfold writeDouble
  rw [this, hs]; simp

theorem simulationText_eq (out : List (Double × List Double)) (first : Double × List Double) :
    simulationText (first :: out) = tableText ((zero, first.2) :: out) := by
  unfold simulationText tableText
  rw [List.flatMap_cons]
  unfold writeFirstRow writeRow
  rw [writeDouble_zero rfl rfl]
  rfl

/-- **C115**: the same for the rows of a simulation; the time of the first row is written as the integer 0. -/
theorem simulationText_cells (first : Double × List Double) (out : List (Double × List Double)) :
    readTable (simulationText (first :: out)) = (['0'] :: first.2.map writeDouble) :: out.map fun r => writeDouble r.1 :: r.2.map writeDouble := by
  rw [simulationText_eq, tableText_cells, List.map_cons, writeDouble_zero rfl rfl]

/-- A cell of the file shows the number `x`: its text is the nearest decimal number with six significant digits. -/
def Shows (t : Text) (x : ℝ) : Prop := ∃ v, DecimalText t v ∧ Nearest6 x v

/-- **C115**: reading the file gives the table of the numbers, every number as the nearest one with six significant digits. -/
theorem tableText_shows (rows : List (Double × List Double)) :
    List.Forall₂ (List.Forall₂ Shows) (readTable (tableText rows)) (rows.map fun r => r.1.value :: r.2.map Double.value) := by
  rw [tableText_cells, List.forall₂_map_left_iff, List.forall₂_map_right_iff]
  refine List.forall₂_same.2 fun r _ => List.Forall₂.cons (writeDouble_nearest _) ?_
  rw [List.forall₂_map_left_iff, List.forall₂_map_right_iff]
  exact List.forall₂_same.2 fun x _ => writeDouble_nearest x

/-- **C115**: the same for the file of a simulation, whose first row belongs to time 0. -/
theorem simulationText_shows (first : Double × List Double) (out : List (Double × List Double)) (h : first.1.value = 0) :
    List.Forall₂ (List.Forall₂ Shows) (readTable (simulationText (first :: out))) ((first :: out).map fun r => r.1.value :: r.2.map Double.value) := by
  have := tableText_shows ((zero, first.2) :: out)
  rw [← simulationText_eq] at this
  have hz : zero.value = first.1.value := by rw [h, value_eq]; simp [zero]
  simpa only [List.map_cons, hz] using this

/-! ### Reading and writing again -/

/-- **C115**: a file that is read with correctly rounded conversions to `double` and written again is the same file. -/
theorem writeDouble_again {x y : Double} (hs : y.negative = x.negative) (hy : y.value = double (written x)) : writeDouble y = writeDouble x := by
  have hr := (double_rounding).err (written x : ℝ)
  rw [← hy, written_real, value_eq, hs] at hr
  by_cases h : x.magnitude = 0
  · have : y.magnitude = 0 := by
      rw [if_pos h, sub_zero, abs_zero, mul_zero] at hr
      have h0 := abs_nonpos_iff.1 hr
      rcases mul_eq_zero.1 h0 with h0 | h0
      · split_ifs at h0 <;> norm_num at h0
      · exact h0
    unfold writeDouble
    rw [hs, h, this]
  · have hx : 0 < x.magnitude := lt_of_le_of_ne x.nonneg (Ne.symm h)
    obtain ⟨h1, h2, -⟩ := sixDigits_spec hx
    have hv := sixValue_pos hx
    have hd : |y.magnitude - sixValue x.magnitude| ≤ 1 / 2 ^ 53 * sixValue x.magnitude := by
      rw [if_neg h, ← mul_sub, abs_mul, abs_mul] at hr
      have : |(if x.negative = true then (-1 : ℝ) else 1)| = 1 := by split_ifs <;> norm_num
      rwa [this, one_mul, one_mul, abs_of_pos hv] at hr
    have h2' : ((sixDigits x.magnitude).1 : ℝ) < 10 ^ 6 := by exact_mod_cast h2
    have hp := ten_pow_pos ((sixDigits x.magnitude).2 - 5)
    have hu : 1 / 2 ^ 53 * sixValue x.magnitude ≤ 1 / 40 * (10 : ℝ) ^ ((sixDigits x.magnitude).2 - 5) := by
      unfold sixValue
      nlinarith
    have key := sixDigits_eq h1 h2 (Or.inl (hd.trans hu))
    have hy0 : y.magnitude ≠ 0 := by
      intro h0
      rw [h0, zero_sub, abs_neg, abs_of_pos hv] at hd
      linarith
    unfold writeDouble
    rw [hs, if_neg h, if_neg hy0, key]

end OutputText
end Ieompp
