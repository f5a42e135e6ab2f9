import Verif.Spec.SpecialOutput
import Verif.Props.OutputLink
import Verif.Props.ExtendedText
import Verif.Spec.Binary64
import Verif.Props.OutputForm

/-! # C136: infinities and NaN in the result files -/

set_option autoImplicit false
set_option exponentiation.threshold 2000
set_option linter.unusedSectionVars false

namespace Ieompp
namespace OutputText

open Spec
open Ieompp.IO (Text)
open KroneckerNumber (Double)

/-! ### One cell -/

theorem inf_text (s : Bool) : SpecialText (writeValue (.inf s)) (.inf s) := Main.lexicalSpecial_iff.1 (by cases s <;> rfl)

theorem nan_text (s : Bool) : SpecialText (writeValue (.nan s)) .nan := Main.lexicalSpecial_iff.1 (by cases s <;> rfl)

/-- **C136**: every cell says the value that was written. -/
theorem writeValue_says (x : Value) : Says (writeValue x) x.toExt := by
  cases x with
  | fin x => exact writeDouble_nearest x
  | inf s => exact inf_text s
  | nan s => exact nan_text s

/-- **C136**: a text says at most one thing, as long as it is not about two finite numbers: whether a cell is a number, an infinity (and which one) or undefined can be read off
it. -/
theorem says_unique {t : Text} {v w : Ext} (hv : Says t v) (hw : Says t w) : v = w ∨ ∃ x y, v = .fin x ∧ w = .fin y := by
  have hs : ∀ {a b : Ext}, SpecialText t a → SpecialText t b → a = b := fun h1 h2 => by
    have e1 := Main.lexicalSpecial_iff.2 h1
    have e2 := Main.lexicalSpecial_iff.2 h2
    rw [e1] at e2
    exact Option.some.inj e2
  have hd : ∀ {a : Ext} {q : ℚ}, SpecialText t a → ¬ DecimalText t q := fun h1 h2 => by
    have := Main.special_not_decimal h1
    rw [Main.readDecimal_iff.2 h2] at this
    cases this
  cases v <;> cases w
  · exact Or.inr ⟨_, _, rfl, rfl⟩
  · obtain ⟨q, h, -⟩ := hv; exact absurd h (hd hw)
  · obtain ⟨q, h, -⟩ := hv; exact absurd h (hd hw)
  · obtain ⟨q, h, -⟩ := hw; exact absurd h (hd hv)
  · exact Or.inl (hs hv hw)
  · exact Or.inl (hs hv hw)
  · obtain ⟨q, h, -⟩ := hw; exact absurd h (hd hv)
  · exact Or.inl (hs hv hw)
  · exact Or.inl (hs hv hw)

/-- The largest finite `double`. -/
noncomputable def largest : Double := ⟨false, 2 ^ 1024 - 2 ^ 971, by norm_num⟩

theorem written_largest : written largest = 179769 * 10 ^ 303 := by
  have h : sixDigits (2 ^ 1024 - 2 ^ 971) = (179769, 308) := by
    apply sixDigits_eq (by norm_num) (by norm_num)
    right
    rw [show ((308 : ℤ) - 5) = ((303 : ℕ) : ℤ) by norm_num, show (308 : ℤ) = ((308 : ℕ) : ℤ) by norm_num, zpow_natCast, zpow_natCast]
    constructor
    · norm_num
    · rw [abs_lt]; constructor <;> norm_num
  unfold written largest
  dsimp only
  rw [h, if_neg (by norm_num)]
  norm_num

theorem binary64_le {x : ℝ} (h : IsBinary64 x) : |x| ≤ 2 ^ 1024 - 2 ^ 971 := by
  obtain ⟨m, e, rfl, hm, -, he⟩ := h
  rw [abs_mul, abs_of_pos (zpow_pos two_pos e : (0 : ℝ) < 2 ^ e)]
  have hm' : |(m : ℝ)| ≤ 2 ^ 53 - 1 := by
    rw [← Int.cast_abs]
    have : |m| ≤ 2 ^ 53 - 1 := by omega
    exact_mod_cast this
  have h2 : (2 : ℝ) ^ e ≤ 2 ^ 971 := by
    rw [← zpow_natCast]
    exact zpow_le_zpow_right₀ one_le_two (by exact_mod_cast he)
  calc |(m : ℝ)| * 2 ^ e ≤ (2 ^ 53 - 1) * 2 ^ 971 := mul_le_mul hm' h2 (zpow_pos two_pos e).le (by norm_num)
    _ = 2 ^ 1024 - 2 ^ 971 := by rw [sub_mul, one_mul, ← pow_add]

/-- The number written for a finite `double` is not so large that `strtod` would overflow on it. -/
theorem written_bound {d : Double} (hd : |d.value| ≤ 2 ^ 1024 - 2 ^ 971) : |written d| < 2 ^ 1024 - 2 ^ 970 := by
  have hv : largest.value = 2 ^ 1024 - 2 ^ 971 := by simp [largest, Double.value]
  have key : ∀ e : Double, e.value ≤ 2 ^ 1024 - 2 ^ 971 → written e < 2 ^ 1024 - 2 ^ 970 := fun e he => by
    have := written_mono (x := e) (y := largest) (by rw [hv]; exact he)
    rw [written_largest] at this
    exact this.trans_lt (by norm_num)
  rw [abs_lt]
  have h2 := key (opposite d) (by rw [(opposite_value d).1]; exact (neg_le_abs _).trans hd)
  have h3 : written (opposite d) = -written d := by
    have := (opposite_value d).2
    exact_mod_cast this
  rw [h3] at h2
  exact ⟨by linarith, key d ((le_abs_self _).trans hd)⟩

/-- **C136**: what the programs write they accept as an option, as the same value (a finite number with six digits). -/
theorem lexicalExt_writeValue (rnd : ℚ → ℝ) (x : Value) :
    (∀ d, x = .fin d → IsBinary64 d.value → Main.lexicalExt rnd (writeValue x) = some (.fin (rnd (written d)))) ∧
      ((∀ d, x ≠ .fin d) → Main.lexicalExt rnd (writeValue x) = some x.toExt) := by
  constructor
  · rintro d rfl hd
    exact Main.lexicalExt_iff.2 (Or.inr ⟨written d, writeDouble_text d, written_bound (binary64_le hd), rfl⟩)
  · intro h
    cases x with
    | fin d => exact absurd rfl (h d)
    | inf s => exact Main.lexicalExt_iff.2 (Or.inl (inf_text s))
    | nan s => exact Main.lexicalExt_iff.2 (Or.inl (nan_text s))

example : IsBinary64 largest.value := ⟨2 ^ 53 - 1, 971, by norm_num [largest, Double.value], by norm_num, by norm_num, by norm_num⟩

/-- **C136**: a cell begins with a minus sign exactly for a negative number, a negative infinity or a NaN with the sign bit set (with the zero of either sign as the `double` has
it). -/
theorem writeValue_minus (x : Value) :
    (writeValue x).head? = some '-' ↔ match x with | .fin d => d.negative = true | .inf s => s = true | .nan s => s = true := by
  cases x with
  | inf s => cases s <;> simp [writeValue]
  | nan s => cases s <;> simp [writeValue]
  | fin d =>
    show (writeDouble d).head? = some '-' ↔ d.negative = true
    by_cases h0 : d.value = 0
    · have hm := (value_zero_iff d).1 h0
      unfold writeDouble
      rw [if_pos hm]
      cases d.negative <;> simp
    · obtain ⟨ip, fp, a, b, -, -, e⟩ := writeDouble_parts d h0
      rw [e]
      cases hn : d.negative with
      | true => simp
      | false =>
        cases ip with
        | nil => exact absurd rfl a
        | cons c r =>
          have hc : c ≠ '-' := by
            rintro rfl
            rw [List.all_cons] at b
            simp at b
          simp [withPoint, hc]

/-- **C136**: a cell that is cut short by a crash, and stood for an infinity or NaN, is not read as anything else. -/
theorem writeValue_cut {x : Value} (hx : ∀ d, x ≠ .fin d) {t : Text} (ht : t <+: writeValue x) (hne : t ≠ writeValue x) (v : Ext) : ¬ Says t v := by
  have e := List.prefix_iff_eq_take.1 ht
  have hlt : t.length < (writeValue x).length := lt_of_le_of_ne ht.length_le fun h => hne (ht.eq_of_length h)
  have hl : (writeValue x).length ≤ 4 := by
    cases x with
    | fin d => exact absurd rfl (hx d)
    | inf s => cases s <;> decide
    | nan s => cases s <;> decide
  have key : Main.lexicalSpecial t = none ∧ Main.readDecimal t = none := by
    rw [e]
    generalize t.length = n at *
    have hn : n < 4 := by omega
    cases x with
    | fin d => exact absurd rfl (hx d)
    | inf s => cases s <;> interval_cases n <;> first | exact ⟨rfl, rfl⟩ | (exfalso; revert hlt; decide)
    | nan s => cases s <;> interval_cases n <;> first | exact ⟨rfl, rfl⟩ | (exfalso; revert hlt; decide)
  intro h
  cases v with
  | fin y =>
    obtain ⟨q, hq, -⟩ := h
    have := Main.readDecimal_iff.2 hq
    rw [key.2] at this
    cases this
  | inf s =>
    have := Main.lexicalSpecial_iff.2 h
    rw [key.1] at this
    cases this
  | nan =>
    have := Main.lexicalSpecial_iff.2 h
    rw [key.1] at this
    cases this

/-- Every value can be written. -/
theorem exists_value (e : Ext) : ∃ v : Value, v.toExt = e := by
  cases e with
  | fin x =>
    refine ⟨.fin ⟨decide (x < 0), |x|, abs_nonneg x⟩, ?_⟩
    show Ext.fin (Double.value _) = _
    congr 1
    unfold Double.value
    by_cases h : x < 0
    · simp [h, abs_of_neg h]
    · simp [h, abs_of_nonneg (not_lt.1 h)]
  | inf s => exact ⟨.inf s, rfl⟩
  | nan => exact ⟨.nan true, rfl⟩

theorem exists_values (l : List Ext) : ∃ vs : List Value, vs.map Value.toExt = l := by
  induction l with
  | nil => exact ⟨[], rfl⟩
  | cons e l ih =>
    obtain ⟨v, h⟩ := exists_value e
    obtain ⟨vs, hs⟩ := ih
    exact ⟨v :: vs, by rw [List.map_cons, h, hs]⟩

/-- Every output can be written. -/
theorem exists_rendersX {O : Type*} (numbers : O → List Ext) (out : List (Ext × O)) : ∃ rows, RendersX numbers rows out := by
  induction out with
  | nil => exact ⟨[], rfl⟩
  | cons r out ih =>
    obtain ⟨v, h⟩ := exists_value r.1
    obtain ⟨vs, hs⟩ := exists_values (numbers r.2)
    obtain ⟨rows, hr⟩ := ih
    refine ⟨(v, vs) :: rows, ?_⟩
    unfold RendersX at hr ⊢
    rw [List.map_cons, List.map_cons, hr, h, hs]

/-! ### The whole file -/

theorem writeValue_chars (x : Value) : '\t' ∉ writeValue x ∧ '\n' ∉ writeValue x := by
  cases x with
  | fin x => exact writeDouble_chars x
  | inf s => cases s <;> decide
  | nan s => cases s <;> decide

theorem writeValue_head (x : Value) (t : Text) : (writeValue x ++ t).head? ≠ some '#' := by
  cases x with
  | fin x => exact writeDouble_head x t
  | inf s => cases s <;> simp [writeValue]
  | nan s => cases s <;> simp [writeValue]

/-- A file that consists of comments and of rows. -/
theorem file_cells {head : List Text} (hh : ∀ l ∈ head, '\n' ∉ l ∧ l.head? = some '#') (rows : List (Text × List Text))
    (h : ∀ r ∈ rows, ∀ y ∈ r.1 :: r.2, '\t' ∉ y ∧ '\n' ∉ y) (h' : ∀ r ∈ rows, ∀ t, (r.1 ++ t).head? ≠ some '#') :
    readData ((head.flatMap fun l => l ++ ['\n']) ++ rows.flatMap fun r => r.1 ++ r.2.flatMap (fun y => '\t' :: y) ++ ['\n']) = rows.map fun r => r.1 :: r.2 := by
  have hn : ∀ l ∈ rows.map (fun r => r.1 ++ r.2.flatMap fun y => '\t' :: y), '\n' ∉ l := by
    intro l hl hm
    obtain ⟨r, hr, rfl⟩ := List.mem_map.1 hl
    rcases List.mem_append.1 hm with hm | hm
    · exact (h r hr r.1 (by simp)).2 hm
    · obtain ⟨y, hy, hm⟩ := List.mem_flatMap.1 hm
      rcases List.mem_cons.1 hm with hm | hm
      · revert hm; decide
      · exact (h r hr y (by simp [hy])).2 hm
  have e := completeLines_append _ hn []
  rw [List.append_nil, List.flatMap_map] at e
  rw [readData_eq, completeLines_append _ fun l hl => (hh l hl).1, List.filter_append,
    List.filter_eq_nil_iff.2 fun l hl => by simp [(hh l hl).2], List.nil_append, e, List.filter_append]
  have e2 : (rows.map fun r => r.1 ++ r.2.flatMap fun y => '\t' :: y).filter (fun l => l.head? ≠ some '#') = rows.map fun r => r.1 ++ r.2.flatMap fun y => '\t' :: y := by
    refine List.filter_eq_self.2 fun l hl => ?_
    obtain ⟨r, hr, rfl⟩ := List.mem_map.1 hl
    exact decide_eq_true (h' r hr _)
  rw [e2, completeLines_eq]
  show ((_ ++ []).map _ : List (List Text)) = _
  rw [List.append_nil, List.map_map]
  refine List.map_congr_left fun r hr => ?_
  exact row_cells _ _ (h r hr r.1 (by simp)).1 fun y hy => (h r hr y (by simp [hy])).1

theorem headerLines_ok {platform all : List (Text × Text)} (hp : ∀ l ∈ platform, '\n' ∉ l.1 ∧ '\n' ∉ l.2) (ha : ∀ l ∈ all, '\n' ∉ l.1 ∧ '\n' ∉ l.2) :
    ∀ l ∈ headerLines platform all, '\n' ∉ l ∧ l.head? = some '#' := by
  intro l hl
  unfold headerLines at hl
  rcases List.mem_append.1 hl with hl | hl
  · rcases List.mem_append.1 hl with hl | hl
    · obtain ⟨x, hx, rfl⟩ := List.mem_map.1 hl
      have := hp x hx
      simp [this.1, this.2]
    · rcases List.mem_cons.1 hl with rfl | hl
      · simp
      · rw [List.mem_singleton] at hl
        rw [hl]; decide
  · obtain ⟨x, hx, rfl⟩ := List.mem_map.1 hl
    have := ha x hx
    simp [this.1, this.2]

/-- **C136**: the table in the output file of a simulation, header included: row by row the cells that were written, the time of the first row as `0`. -/
theorem outputFileX_cells {platform all : List (Text × Text)} (hp : ∀ l ∈ platform, '\n' ∉ l.1 ∧ '\n' ∉ l.2) (ha : ∀ l ∈ all, '\n' ∉ l.1 ∧ '\n' ∉ l.2)
    (first : Value × List Value) (rest : List (Value × List Value)) :
    readData (App.headerText platform all ++ simulationTextX (first :: rest)) = (['0'] :: first.2.map writeValue) :: rest.map fun r => writeValue r.1 :: r.2.map writeValue := by
  have hc : ∀ (x : Text) (vs : List Value), '\t' ∉ x ∧ '\n' ∉ x → ∀ y ∈ x :: vs.map writeValue, '\t' ∉ y ∧ '\n' ∉ y := by
    intro x vs hx y hy
    rcases List.mem_cons.1 hy with rfl | hy
    · exact hx
    · obtain ⟨z, -, rfl⟩ := List.mem_map.1 hy
      exact writeValue_chars z
  have := file_cells (headerLines_ok hp ha) ((['0'], first.2.map writeValue) :: rest.map fun r => (writeValue r.1, r.2.map writeValue)) (by
    intro r hr
    rcases List.mem_cons.1 hr with rfl | hr
    · exact hc ['0'] _ (by decide)
    · obtain ⟨q, -, rfl⟩ := List.mem_map.1 hr
      exact hc _ _ (writeValue_chars _)) (by
    intro r hr t
    rcases List.mem_cons.1 hr with rfl | hr
    · simp
    · obtain ⟨q, -, rfl⟩ := List.mem_map.1 hr
      exact writeValue_head _ t)
  rw [headerText_lines]
  rw [List.flatMap_cons, List.map_cons, List.map_map] at this
  have e : simulationTextX (first :: rest) = ['0'] ++ (first.2.map writeValue).flatMap (fun y => '\t' :: y) ++ ['\n'] ++
      rest.flatMap fun r => writeValue r.1 ++ (r.2.map writeValue).flatMap (fun y => '\t' :: y) ++ ['\n'] := by
    unfold simulationTextX writeFirstRowX writeRowX
    simp only [List.flatMap_map]
    rfl
  rw [e]
  rw [List.flatMap_map (f := fun r : Value × List Value => (writeValue r.1, r.2.map writeValue))] at this
  exact this

/-- **C136**: the file says the values of the output, row by row and column by column. -/
theorem outputFileX_says {O : Type*} {numbers : O → List Ext} {rows : List (Value × List Value)} {o : O} {out : List (Ext × O)}
    (h : RendersX numbers rows ((.fin 0, o) :: out)) {platform all : List (Text × Text)} (hp : ∀ l ∈ platform, '\n' ∉ l.1 ∧ '\n' ∉ l.2)
    (ha : ∀ l ∈ all, '\n' ∉ l.1 ∧ '\n' ∉ l.2) :
    List.Forall₂ (List.Forall₂ Says) (readData (App.headerText platform all ++ simulationTextX rows)) (((.fin 0, o) :: out).map fun r => r.1 :: numbers r.2) := by
  cases rows with
  | nil => simp [RendersX] at h
  | cons first rest =>
    have hs : ∀ vs : List Value, List.Forall₂ Says (vs.map writeValue) (vs.map Value.toExt) := fun vs => by
      rw [List.forall₂_map_left_iff, List.forall₂_map_right_iff]
      exact List.forall₂_same.2 fun x _ => writeValue_says x
    unfold RendersX at h
    rw [List.map_cons, List.map_cons, List.cons.injEq] at h
    obtain ⟨h1, h2⟩ := h
    have e1 : first.2.map Value.toExt = numbers o := (Prod.mk.inj h1).2
    rw [outputFileX_cells hp ha, List.map_cons]
    refine List.Forall₂.cons (List.Forall₂.cons ?_ (e1 ▸ hs _)) ?_
    · have := writeDouble_nearest zero
      rw [writeDouble_zero rfl rfl] at this
      have hz : zero.value = 0 := by rw [value_eq]; simp [zero]
      rw [hz] at this
      exact this
    · have e2 : (out.map fun r => r.1 :: numbers r.2) = rest.map fun r => r.1.toExt :: r.2.map Value.toExt := by
        have := congrArg (List.map fun r : Ext × List Ext => r.1 :: r.2) h2
        rw [List.map_map, List.map_map] at this
        exact this.symm
      rw [e2, List.forall₂_map_left_iff, List.forall₂_map_right_iff]
      exact List.forall₂_same.2 fun r _ => List.Forall₂.cons (writeValue_says _) (hs _)

theorem onlyFirstRow {O : Type*} {numbers : O → List Ext} {rows : List (Value × List Value)} {out : List (Ext × O)} (h : RendersX numbers rows out)
    {x0 y : O} {n w : ℕ} (ho : out.map Prod.snd = x0 :: List.replicate n y) (hy : numbers y = List.replicate w .nan)
    {platform all : List (Text × Text)} (hp : ∀ l ∈ platform, '\n' ∉ l.1 ∧ '\n' ∉ l.2) (ha : ∀ l ∈ all, '\n' ∉ l.1 ∧ '\n' ∉ l.2) :
    OnlyFirstRow (numbers x0) n w (readData (App.headerText platform all ++ simulationTextX rows)) := by
  have h2 : rows.map (fun r => r.2.map Value.toExt) = numbers x0 :: List.replicate n (List.replicate w .nan) := by
    have := congrArg (List.map Prod.snd) h
    rw [List.map_map, List.map_map] at this
    have e : (out.map fun r => numbers r.2) = (out.map Prod.snd).map numbers := by rw [List.map_map]; rfl
    have e' : rows.map (fun r => r.2.map Value.toExt) = out.map fun r => numbers r.2 := this
    rw [e', e, ho, List.map_cons, List.map_replicate, hy]
  cases rows with
  | nil => simp at h2
  | cons first rest =>
    rw [List.map_cons, List.cons.injEq] at h2
    refine ⟨_, _, outputFileX_cells hp ha first rest, ?_, ?_, ?_⟩
    · rw [← h2.1, List.forall₂_map_left_iff, List.forall₂_map_right_iff]
      exact List.forall₂_same.2 fun x _ => writeValue_says x
    · have := congrArg List.length h2.2
      rw [List.length_map, List.length_replicate] at this
      rw [List.length_map, this]
    · intro l hl
      obtain ⟨r, hr, rfl⟩ := List.mem_map.1 hl
      have hr' : r.2.map Value.toExt = List.replicate w .nan := by
        have : r.2.map Value.toExt ∈ List.replicate n (List.replicate w Ext.nan) := by
          rw [← h2.2]; exact List.mem_map_of_mem (f := fun r : Value × List Value => r.2.map Value.toExt) hr
        exact List.eq_of_mem_replicate this
      refine ⟨_, _, rfl, ?_, fun z hz => ?_⟩
      · have := congrArg List.length hr'
        rw [List.length_map, List.length_replicate] at this
        rw [List.length_map, this]
      · obtain ⟨v, hv, rfl⟩ := List.mem_map.1 hz
        have e : v.toExt = .nan := by
          have : v.toExt ∈ List.replicate w Ext.nan := by rw [← hr']; exact List.mem_map_of_mem hv
          exact List.eq_of_mem_replicate this
        have hs := writeValue_says v
        rw [e] at hs
        refine ⟨hs, fun q hq => ?_⟩
        have := Main.special_not_decimal hs
        rw [Main.readDecimal_iff.2 hq] at this
        cases this

/-- The two lines of `hubbard_momentum_1d_rk4`. -/
theorem momentumTextX_says (x y : Value) : ∃ a b, readTable (momentumTextX x y) = [[a], [b]] ∧ Says a x.toExt ∧ Says b y.toExt := by
  refine ⟨_, _, ?_, writeValue_says x, writeValue_says y⟩
  have := readTable_lines [(writeValue x, []), (writeValue y, [])] (by
    intro r hr z hz
    rcases List.mem_cons.1 hr with rfl | hr
    · rw [List.mem_singleton.1 hz]; exact writeValue_chars x
    · rw [List.mem_singleton.1 hr] at hz
      rw [List.mem_singleton.1 hz]; exact writeValue_chars y)
  simp only [List.flatMap_cons, List.flatMap_nil, List.append_nil, List.map_cons, List.map_nil] at this
  exact this

end OutputText
end Ieompp
