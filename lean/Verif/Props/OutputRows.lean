import Verif.Props.OutputFile
import Verif.Props.OutputTimes
import Verif.Props.OccupationShipped

/-! # C116: the times in the result files -/

set_option autoImplicit false
set_option linter.unusedSectionVars false

namespace Ieompp
namespace OutputText

open Spec
open Ieompp.IO (Text)
open KroneckerNumber (Double padded)

/-! ### Text of numbers that are close to a short decimal number -/

theorem writeDouble_digits {x : Double} (hx : 0 < x.value) {n : ℕ} {X : ℤ} (h1 : 10 ^ 5 ≤ n) (h2 : n < 10 ^ 6)
    (h : |x.value - n * (10 : ℝ) ^ (X - 5)| ≤ 1 / 40 * (10 : ℝ) ^ (X - 5) ∨
      (10 : ℝ) ^ X ≤ x.value ∧ |x.value - n * (10 : ℝ) ^ (X - 5)| < 1 / 2 * (10 : ℝ) ^ (X - 5)) : writeDouble x = writeDigits n X := by
  have hm := x.nonneg
  have hneg : x.negative = false := by
    by_contra hc
    rw [value_eq, if_pos (by simpa using hc)] at hx
    linarith
  have hv : x.value = x.magnitude := by rw [value_eq, hneg]; simp
  rw [hv] at h hx
  have := sixDigits_eq h1 h2 h
  unfold writeDouble
  rw [hneg, this, if_neg hx.ne']
  rfl

/-- Every real number is the value of some `Double`. -/
noncomputable def ofReal (x : ℝ) : Double := ⟨decide (x < 0), |x|, abs_nonneg x⟩

theorem ofReal_value (x : ℝ) : (ofReal x).value = x := by
  rw [value_eq]
  unfold ofReal
  by_cases h : x < 0
  · simp [h, abs_of_neg h]
  · simp [h, abs_of_nonneg (not_lt.1 h)]

theorem renders_exists {O : Type*} (numbers : O → List ℝ) (out : List (ℝ × O)) : ∃ rows, Renders numbers rows out := by
  refine ⟨out.map fun r => (ofReal r.1, (numbers r.2).map ofReal), ?_⟩
  unfold Renders
  rw [List.map_map]
  refine List.map_congr_left fun r _ => ?_
  simp [ofReal_value, Function.comp_def]

theorem renders_times {O : Type*} {numbers : O → List ℝ} {rows : List (Double × List Double)} {out : List (ℝ × O)} (h : Renders numbers rows out) :
    rows.map (fun r => r.1.value) = out.map Prod.fst := by
  have := congrArg (List.map Prod.fst) h
  simpa [List.map_map, Function.comp_def] using this

/-! ### The times -/

variable {H O : Type*}

theorem double_steps : 32 * ((2 ^ 24 : ℕ) : ℝ) ^ 2 * (1 / 2 ^ 53) ≤ 1 := by norm_num

/-- The times of the rows, for a run in `double` arithmetic. -/
theorem rows_times {step : H → Res H} {measure : H → Res (H × O)} {dt tEnd : ℝ} {interval : ℕ} {h0 : H} {s : Sim.State H O} (hdt : 0 < dt)
    (hend : tEnd + dt / 16 ≤ 2 ^ 24 * dt) (h : Sim.simulateF double step measure dt tEnd interval h0 = .val s)
    {numbers : O → List ℝ} {rows : List (Double × List Double)} (hr : Renders numbers rows s.out) :
    ∃ n ≤ 2 ^ 24, (∀ k < n, Sim.Spec.time double dt k < tEnd) ∧ tEnd ≤ Sim.Spec.time double dt n ∧ rows.length = n / max interval 1 + 1 ∧
      ∀ j (hj : j < rows.length), rows[j].1.value = Sim.Spec.time double dt (j * max interval 1) := by
  obtain ⟨n, hn, h1, h2, -, h3⟩ := Sim.simulateF_times double_rounding hdt double_steps (by norm_num) (by norm_num at hend ⊢; linarith) h
  rw [← renders_times hr] at h3
  refine ⟨n, hn, h1, h2, ?_, fun j hj => ?_⟩
  · have := congrArg List.length h3
    simpa using this
  · have := congrArg (fun l => l[j]?) h3
    simp only [List.getElem?_map, List.getElem?_eq_getElem hj, Option.map_some] at this
    have hl : j < n / max interval 1 + 1 := by
      have := congrArg List.length h3
      simp only [List.length_map, List.length_range] at this
      omega
    rw [List.getElem?_range hl] at this
    simpa using this

/-- The number in the first column of a row of the file. -/
def HasTime (row : List Text) (v : ℚ) : Prop := ∃ t rest, row = t :: rest ∧ DecimalText t v

theorem file_rows {rows : List (Double × List Double)} (h0 : ∀ h : 0 < rows.length, rows[0].1.value = 0) :
    List.Forall₂ HasTime (readTable (simulationText rows)) (rows.map fun r => written r.1) := by
  cases rows with
  | nil => exact List.Forall₂.nil
  | cons first out =>
    have hz : first.1.value = 0 := h0 (by simp)
    rw [simulationText_cells, List.map_cons]
    refine List.Forall₂.cons ⟨_, _, rfl, ?_⟩ ?_
    · have : written first.1 = 0 := by
        have := (written_sign first.1).2.2 hz
        exact_mod_cast this
      rw [this]
      have hw := writeDouble_text zero
      rw [writeDouble_zero rfl rfl] at hw
      have : written zero = 0 := if_pos rfl
      rwa [this] at hw
    · rw [List.forall₂_map_left_iff, List.forall₂_map_right_iff]
      exact List.forall₂_same.2 fun r _ => ⟨_, _, rfl, writeDouble_text r.1⟩

/-- **C116**: for every simulation program, in `double` arithmetic: if the time between two measurements is more than `1/87500` of the end time, then the times in the file increase from
row to row, so that every row can be found by its time, and the `j`-th time is within 1/16 of a step and six digits of `j` times that interval. -/
theorem file_times_partial {step : H → Res H} {measure : H → Res (H × O)} {dt tEnd : ℝ} {interval : ℕ} {h0 : H} {s : Sim.State H O} (hdt : 0 < dt)
    (hend : tEnd + dt / 16 ≤ 2 ^ 24 * dt) (h : Sim.simulateF double step measure dt tEnd interval h0 = .val s)
    {numbers : O → List ℝ} {rows : List (Double × List Double)} (hr : Renders numbers rows s.out)
    (hwide : tEnd + 2 * dt < 87500 * (max interval 1 : ℕ) * dt) :
    ∃ vs : List ℚ, List.Forall₂ HasTime (readTable (simulationText rows)) vs ∧ vs.length = s.out.length ∧ vs.Pairwise (· < ·) ∧
      ∀ j (hj : j < vs.length), |(vs[j] : ℝ) - (j * max interval 1 : ℕ) * dt| ≤ dt / 16 + 5 / 10 ^ 6 * ((j * max interval 1 : ℕ) * dt + dt / 16) := by
  obtain ⟨n, hn, h1, h2, h3, h4⟩ := rows_times hdt hend h hr
  have hlen : rows.length = s.out.length := by
    have := congrArg List.length (renders_times hr)
    simpa using this
  set I := max interval 1 with hI
  have hI1 : 1 ≤ I := le_max_right _ _
  have hjn : ∀ j < rows.length, j * I ≤ n := fun j hj => by
    calc j * I ≤ n / I * I := Nat.mul_le_mul_right _ (by omega)
      _ ≤ n := Nat.div_mul_le_self _ _
  have hclose : ∀ j (hj : j < rows.length), |rows[j].1.value - (j * I : ℕ) * dt| ≤ dt / 16 := fun j hj => by
    rw [h4 j hj]
    exact Sim.time_close double_rounding hdt double_steps ((hjn j hj).trans hn)
  refine ⟨rows.map fun r => written r.1, file_rows fun h => ?_, by rw [List.length_map, hlen], ?_, ?_⟩
  · rw [h4 0 h, Nat.zero_mul]; rfl
  · rw [List.pairwise_iff_getElem]
    intro i j hi hj hij
    rw [List.length_map] at hi hj
    rw [List.getElem_map, List.getElem_map]
    have ci := abs_le.1 (hclose i hi)
    have cj := abs_le.1 (hclose j hj)
    have hn1 : 1 ≤ n := by
      have := hjn j hj
      have : 1 * 1 ≤ j * I := Nat.mul_le_mul (by omega) hI1
      omega
    have htop : (n : ℝ) * dt ≤ tEnd + dt + dt / 16 := by
      have := h1 (n - 1) (by omega)
      have hc := abs_le.1 (Sim.time_close double_rounding hdt double_steps (by omega : n - 1 ≤ 2 ^ 24))
      rw [Nat.cast_sub hn1] at hc
      push_cast at hc
      linarith
    have hgap : ((i * I : ℕ) : ℝ) * dt + (I : ℝ) * dt ≤ (j * I : ℕ) * dt := by
      rw [← add_mul]
      refine mul_le_mul_of_nonneg_right ?_ hdt.le
      exact_mod_cast (by nlinarith : i * I + I ≤ j * I)
    have hjt : ((j * I : ℕ) : ℝ) * dt ≤ n * dt := by
      refine mul_le_mul_of_nonneg_right ?_ hdt.le
      exact_mod_cast hjn j hj
    have hi0 : (0 : ℝ) ≤ ((i * I : ℕ) : ℝ) * dt := by positivity
    have hIdt : dt ≤ (I : ℝ) * dt := by
      have : (1 : ℝ) ≤ I := by exact_mod_cast hI1
      nlinarith
    have hlt : rows[i].1.value < rows[j].1.value := by linarith
    refine lt_of_le_of_ne (written_mono hlt.le) (written_distinct ?_)
    rw [abs_of_pos (by linarith : 0 < rows[j].1.value - rows[i].1.value)]
    have hm : max |rows[i].1.value| |rows[j].1.value| ≤ tEnd + 2 * dt := by
      refine max_le (abs_le.2 ⟨?_, ?_⟩) (abs_le.2 ⟨?_, ?_⟩) <;> linarith
    linarith
  · intro j hj
    rw [List.length_map] at hj
    rw [List.getElem_map]
    have c := hclose j hj
    have e := written_error rows[j].1
    have hj0 : (0 : ℝ) ≤ ((j * I : ℕ) : ℝ) * dt := by positivity
    have hv : |rows[j].1.value| ≤ (j * I : ℕ) * dt + dt / 16 := by
      have := abs_le.1 c
      exact abs_le.2 ⟨by linarith, by linarith⟩
    calc _ ≤ |(written rows[j].1 : ℝ) - rows[j].1.value| + |rows[j].1.value - (j * I : ℕ) * dt| := abs_sub_le _ _ _
      _ ≤ 5 / 10 ^ 6 * ((j * I : ℕ) * dt + dt / 16) + dt / 16 := by
        refine add_le_add (e.trans ?_) c
        gcongr
      _ = _ := by ring

/-- **C116 is false in general**: with the default step width 0.01, measurements in every step (`--measurement_interval=1`) and an end time beyond 10000.005, the rows 1000000 and 1000001 of every
simulation program have the same time in the file. -/
theorem file_times_equal {step : H → Res H} {measure : H → Res (H × O)} {tEnd : ℝ} {interval : ℕ} {h0 : H} {s : Sim.State H O} (hi : interval ≤ 1)
    (hlong : 10000005 / 1000 ≤ tEnd) (hend : tEnd ≤ 160000) (h : Sim.simulateF double step measure (double (1 / 100)) tEnd interval h0 = .val s)
    {numbers : O → List ℝ} {rows : List (Double × List Double)} (hr : Renders numbers rows s.out) :
    ∃ r r', (readTable (simulationText rows))[1000000]? = some ("10000".toList :: r) ∧ (readTable (simulationText rows))[1000001]? = some ("10000".toList :: r') := by
  have hdt := Program.double_hundredth
  generalize double (1 / 100) = dt at hdt h
  obtain ⟨ha, hb⟩ := abs_le.1 hdt
  have hdt0 : 0 < dt := by norm_num at ha; linarith
  obtain ⟨n, hn, h1, h2, h3, h4⟩ := rows_times hdt0 (by norm_num at ha hb ⊢; linarith) h hr
  have hI : max interval 1 = 1 := by omega
  rw [hI] at h3 h4
  have herr : ∀ k ≤ 1000001, |Sim.Spec.time double dt k - k * dt| ≤ 1 / 10 ^ 5 := fun k hk => by
    have hk' : (k : ℝ) ≤ 1000001 := by exact_mod_cast hk
    refine (Sim.time_error double_rounding hdt0 double_steps k (by omega)).trans ?_
    have h2 : (k : ℝ) ^ 2 ≤ 1000001 ^ 2 := by gcongr
    have h3 : dt ≤ 2 / 100 := by norm_num at hb; linarith
    calc 2 * (1 / 2 ^ 53) * (k : ℝ) ^ 2 * dt ≤ 2 * (1 / 2 ^ 53) * 1000001 ^ 2 * (2 / 100) := by gcongr
      _ ≤ 1 / 10 ^ 5 := by norm_num
  have e0 := abs_le.1 (herr 1000000 (by norm_num))
  have e1 := abs_le.1 (herr 1000001 (by norm_num))
  norm_num at e0 e1 ha hb
  have hn1 : 1000001 ≤ n := by
    by_contra hc
    have hkn : n ≤ 1000000 := by omega
    have hn' : (n : ℝ) ≤ 1000000 := by exact_mod_cast hkn
    have en := abs_le.1 (herr n (by omega))
    norm_num at en
    have : (n : ℝ) * dt ≤ 1000000 * dt := by gcongr
    linarith
  have l0 : 1000000 < rows.length := by rw [h3]; omega
  have l1 : 1000001 < rows.length := by rw [h3]; omega
  have v0 := h4 1000000 l0
  have v1 := h4 1000001 l1
  rw [Nat.mul_one] at v0 v1
  have w : writeDigits 100000 4 = "10000".toList := by decide
  have w0 : writeDouble rows[1000000].1 = "10000".toList := by
    rw [← w]
    refine writeDouble_digits (by linarith) (by norm_num) (by norm_num) (Or.inl ?_)
    norm_num
    rw [abs_le]; constructor <;> linarith
  have w1 : writeDouble rows[1000001].1 = "10000".toList := by
    rw [← w]
    refine writeDouble_digits (by linarith) (by norm_num) (by norm_num) (Or.inr ⟨?_, ?_⟩)
    · norm_num; linarith
    · norm_num
      rw [abs_lt]; constructor <;> linarith
  clear h3 h4 v0 v1
  cases rows with
  | nil => simp at l0
  | cons first out =>
    rw [List.getElem_cons_succ] at w0 w1
    rw [simulationText_cells, List.getElem?_cons_succ, List.getElem?_cons_succ, List.getElem?_map, List.getElem?_map,
      List.getElem?_eq_getElem (by rw [List.length_cons] at l0; omega), List.getElem?_eq_getElem (by rw [List.length_cons] at l1; omega)]
    exact ⟨_, _, by rw [Option.map_some, w0], by rw [Option.map_some, w1]⟩

/-- A number of the file is as far from the exact value as the computed number, up to half a unit in the sixth digit. -/
theorem written_accuracy {x : Double} {y ε : ℝ} (h : |x.value - y| ≤ ε) : |(written x : ℝ) - y| ≤ ε + 5 / 10 ^ 6 * (|y| + ε) := by
  have h1 := written_error x
  have h2 : |x.value| ≤ |y| + ε := by
    calc |x.value| = |y + (x.value - y)| := by congr 1; ring
      _ ≤ |y| + |x.value - y| := abs_add_le _ _
      _ ≤ _ := by linarith
  calc _ ≤ |(written x : ℝ) - x.value| + |x.value - y| := abs_sub_le _ _ _
    _ ≤ 5 / 10 ^ 6 * (|y| + ε) + ε := by
      refine add_le_add (h1.trans ?_) h
      gcongr
    _ = _ := by ring

/-! ### The file that `hubbard_real_1d_kinetic_rk4` writes as it is shipped -/

theorem half_text {x : Double} (h : |x.value - 1 / 2| ≤ 1 / 10 ^ 7) : writeDouble x = "0.5".toList := by
  obtain ⟨ha, hb⟩ := abs_le.1 h
  have w : writeDigits 500000 (-1) = "0.5".toList := by decide
  rw [← w]
  refine writeDouble_digits (by norm_num at ha; linarith) (by norm_num) (by norm_num) (Or.inr ⟨?_, ?_⟩)
  · norm_num at ha ⊢; linarith
  · norm_num at ha hb ⊢
    rw [abs_lt]; constructor <;> linarith

theorem integer_text {x : Double} {j : ℕ} (h1 : 1 ≤ j) (h2 : j ≤ 10) (h : |x.value - j| ≤ 1 / 10 ^ 8) : writeDouble x = IO.printNat j := by
  obtain ⟨ha, hb⟩ := abs_le.1 h
  have hj : (1 : ℝ) ≤ j := by exact_mod_cast h1
  norm_num at ha hb
  by_cases h10 : j = 10
  · subst h10
    have w : writeDigits 100000 1 = IO.printNat 10 := by decide
    rw [← w]
    refine writeDouble_digits (by linarith) (by norm_num) (by norm_num) (Or.inl ?_)
    norm_num at ha hb ⊢
    rw [abs_le]; constructor <;> linarith
  · have hj9 : j ≤ 9 := by omega
    have w : writeDigits (j * 10 ^ 5) 0 = IO.printNat j := by
      have : ∀ j : Fin 10, 1 ≤ j.val → writeDigits (j.val * 10 ^ 5) 0 = IO.printNat j.val := by decide
      exact this ⟨j, by omega⟩ h1
    rw [← w]
    refine writeDouble_digits (by linarith) (by omega) (by omega) (Or.inl ?_)
    push_cast
    norm_num
    rw [abs_le]; constructor <;> linarith

end OutputText
end Ieompp
