import Verif.Model.MomentumText
import Verif.Props.Binary64Files
import Verif.Props.Binary64Shipped
import Verif.Props.OutputForm
import Verif.Props.Binary64MomentumShipped

/-! # C131, C132: the files of the coefficient programs and the output of `hubbard_momentum_1d_rk4`, in binary64 with underflow and overflow -/

set_option autoImplicit false
set_option linter.unusedSectionVars false

namespace Ieompp.IEEE

open Ieompp.Spec Program ODE RealSpace OutputText
open Ieompp.IO (Text)
open KroneckerNumber (Double)

variable {sort : List (Triplet ℝ) → List (Triplet ℝ)} {cosF : ℝ → ℝ} {N : ℕ}

/-! ### The cells of the file of a simulation -/

theorem simulation_cells {O : Type*} {numbers : O → List ℝ} {rows : List (Double × List Double)} {out : List (ℝ × O)} (h : Renders numbers rows out) :
    (readTable (simulationText rows)).length = out.length ∧
      ∀ (j : ℕ) (t : ℝ) (o : O), out[j]? = some (t, o) → ∃ tt texts, (readTable (simulationText rows))[j]? = some (tt :: texts) ∧
        (j = 0 ∧ tt = ['0'] ∨ TextOf tt t) ∧ List.Forall₂ TextOf texts (numbers o) := by
  have hl : rows.length = out.length := by
    have := congrArg List.length h
    simpa using this
  refine ⟨?_, fun j t o ho => ?_⟩
  · rw [← hl]
    cases rows with
    | nil => rfl
    | cons first rest => rw [simulationText_cells]; simp
  · have hj := congrArg (fun l => l[j]?) h
    simp only [List.getElem?_map, ho, Option.map_some] at hj
    obtain ⟨r, hr, hv⟩ := Option.map_eq_some_iff.1 hj
    obtain ⟨e1, e2⟩ := Prod.mk.injEq .. ▸ hv
    have hf : List.Forall₂ TextOf (r.2.map writeDouble) (numbers o) := by
      rw [← e2, List.forall₂_map_left_iff, List.forall₂_map_right_iff]
      exact List.forall₂_same.2 fun x _ => ⟨x, rfl, rfl⟩
    cases rows with
    | nil => simp at hr
    | cons first rest =>
      rw [simulationText_cells]
      cases j with
      | zero =>
        rw [List.getElem?_cons_zero] at hr
        cases hr
        exact ⟨_, _, by rw [List.getElem?_cons_zero], Or.inl ⟨rfl, rfl⟩, hf⟩
      | succ j =>
        rw [List.getElem?_cons_succ] at hr
        exact ⟨_, _, by rw [List.getElem?_cons_succ, List.getElem?_map, hr, Option.map_some], Or.inr ⟨_, e1, rfl⟩, hf⟩

/-- Two texts for the real and the imaginary part of a number. -/
theorem complex_texts {ta tb : Text} {x y ε : ℝ} {z : ℂ} (ha : TextOf ta x) (hb : TextOf tb y) (he : ‖(⟨x, y⟩ : ℂ) - z‖ ≤ ε) :
    ∃ a b : ℚ, DecimalText ta a ∧ DecimalText tb b ∧ ‖(⟨a, b⟩ : ℂ) - z‖ ≤ ε + 5 / 10 ^ 6 * (‖z‖ + ε) := by
  obtain ⟨c, rfl, rfl⟩ := ha
  obtain ⟨d, rfl, rfl⟩ := hb
  refine ⟨written c, written d, writeDouble_text c, writeDouble_text d, ?_⟩
  have h1 : ‖(⟨written c, written d⟩ : ℂ) - ⟨c.value, d.value⟩‖ ≤ 5 / 10 ^ 6 * ‖(⟨c.value, d.value⟩ : ℂ)‖ := by
    have hc := written_error c
    have hd := written_error d
    refine le_of_sq_le_sq ?_ (by positivity)
    rw [mul_pow, ← Complex.normSq_eq_norm_sq, ← Complex.normSq_eq_norm_sq, Complex.normSq_apply, Complex.normSq_apply]
    simp only [Complex.sub_re, Complex.sub_im]
    have sc := mul_self_le_mul_self (abs_nonneg _) hc
    have sd := mul_self_le_mul_self (abs_nonneg _) hd
    rw [abs_mul_abs_self] at sc sd
    have mc := abs_mul_abs_self c.value
    have md := abs_mul_abs_self d.value
    nlinarith
  have h2 : ‖(⟨c.value, d.value⟩ : ℂ)‖ ≤ ‖z‖ + ε := by
    have := norm_sub_norm_le (⟨c.value, d.value⟩ : ℂ) z
    linarith
  calc _ ≤ ‖(⟨written c, written d⟩ : ℂ) - ⟨c.value, d.value⟩‖ + ‖(⟨c.value, d.value⟩ : ℂ) - z‖ := norm_sub_le_norm_sub_add_norm_sub _ _ _
    _ ≤ 5 / 10 ^ 6 * (‖z‖ + ε) + ε := by
      refine add_le_add (h1.trans ?_) he
      gcongr
    _ = _ := by ring

theorem simulation_time {tt : Text} {t τ δ : ℝ} {j : ℕ} (h : j = 0 ∧ tt = ['0'] ∨ TextOf tt t) (h0 : j = 0 → τ = 0) (hτ : 0 ≤ τ) (he : |t - τ| ≤ δ) :
    ∃ v, DecimalText tt v ∧ |(v : ℝ) - τ| ≤ δ + 5 / 10 ^ 6 * (τ + δ) := by
  have hδ : 0 ≤ δ := (abs_nonneg _).trans he
  rcases h with ⟨hj, rfl⟩ | h
  · refine ⟨0, ?_, ?_⟩
    · have := writeDouble_text zero
      rw [writeDouble_zero rfl rfl] at this
      have hz : written zero = 0 := by unfold written; rw [if_pos (show zero.magnitude = 0 from rfl)]
      rwa [hz] at this
    · rw [h0 hj]
      simp
      positivity
  · have := textOf_close h he
    rwa [abs_of_nonneg hτ] at this

/-- A row of a file with coefficients. -/
theorem coefficient_row {rows : List (Double × List Double)} {out : List (ℝ × List ℝ)} (hr : Renders (fun xs => xs) rows out) {j n : ℕ} {t τ δ ε : ℝ} {xs : List ℝ}
    {v : ℕ → ℂ} (ho : out[j]? = some (t, xs)) (h0 : j = 0 → τ = 0) (hτ : 0 ≤ τ) (he : |t - τ| ≤ δ) (hl : xs.length = 2 * n)
    (hx : ∀ p < n, ∃ x y, xs[2 * p]? = some x ∧ xs[2 * p + 1]? = some y ∧ ‖(⟨x, y⟩ : ℂ) - v p‖ ≤ ε) :
    ∃ tt texts, (readTable (simulationText rows))[j]? = some (tt :: texts) ∧
      (∃ q : ℚ, DecimalText tt q ∧ |(q : ℝ) - τ| ≤ δ + 5 / 10 ^ 6 * (τ + δ)) ∧ texts.length = 2 * n ∧
      ∀ p < n, ∃ ta tb, ∃ a b : ℚ, texts[2 * p]? = some ta ∧ texts[2 * p + 1]? = some tb ∧ DecimalText ta a ∧ DecimalText tb b ∧
        ‖(⟨a, b⟩ : ℂ) - v p‖ ≤ ε + 5 / 10 ^ 6 * (‖v p‖ + ε) := by
  obtain ⟨tt, texts, h1, h2, h3⟩ := (simulation_cells hr).2 j t xs ho
  have hlen : texts.length = xs.length := h3.length_eq
  refine ⟨tt, texts, h1, simulation_time h2 h0 hτ he, hlen.trans hl, fun p hp => ?_⟩
  obtain ⟨x, y, hx1, hx2, hx3⟩ := hx p hp
  have get : ∀ {i : ℕ} {x : ℝ}, xs[i]? = some x → ∃ ta, texts[i]? = some ta ∧ TextOf ta x := by
    intro i x hi
    obtain ⟨hlt, rfl⟩ := List.getElem?_eq_some_iff.1 hi
    exact ⟨texts[i], List.getElem?_eq_getElem (by omega), h3.get (by omega) hlt⟩
  obtain ⟨ta, a1, a2⟩ := get hx1
  obtain ⟨tb, b1, b2⟩ := get hx2
  obtain ⟨a, b, e1, e2, e3⟩ := complex_texts a2 b2 hx3
  exact ⟨ta, tb, a, b, a1, b1, e1, e2, e3⟩

/-- **C131 for `hubbard_real_1d_rk4_coefficients`**: every row of the file has a time and `2 (N + N³)` further numbers; the time and the coefficients read from the text are right up to the
errors of C117 and half a unit of the sixth digit. -/
theorem real1dRk4Coefficients_file_binary64 (hN : 3 ≤ N) (hn : N + N * N * N < 2 ^ 64) (hs : IsSort sort) {J U dt tEnd : ℝ} (hJ : IsBinary64 J) (hU : IsBinary64 U)
    (hU' : U = 0 ∨ 1 / 2 ^ 1021 ≤ |U|) (hdt1 : 1 / 2 ^ 1000 ≤ dt) (hdt2 : dt ≤ 2 ^ 900) (hst : (dt * (6 * |J| + |U|)) ^ 2 ≤ 8)
    (hend : tEnd + dt / 16 ≤ 2 ^ 24 * dt) (interval : ℕ) (w : Work ℂ) :
    ∃ m s k, initMatrix sort N 2 (Chain.real (K := ℝ) N 1).neighbors J U = .val m ∧
      real1dRk4CoefficientsR binary64 sort w N J U dt tEnd interval = .val s ∧
      ⌈(tEnd - dt / 16) / dt⌉₊ ≤ k ∧ k ≤ ⌈(tEnd + dt / 16) / dt⌉₊ ∧
      ∀ rows, Renders (fun xs => xs) rows s.out → (readTable (simulationText rows)).length = k / max interval 1 + 1 ∧
        ∀ v, IsFlow (N + N * N * N) (fun i j => m.get i j) v → ∀ j < k / max interval 1 + 1, ∀ τ ε, τ = ((j * max interval 1 : ℕ) : ℝ) * dt →
          ε = vectorErrorDouble (dt * (6 * |J| + |U|)) (j * max interval 1) →
          ∃ tt texts, (readTable (simulationText rows))[j]? = some (tt :: texts) ∧
            (∃ q : ℚ, DecimalText tt q ∧ |(q : ℝ) - τ| ≤ dt / 16 + 5 / 10 ^ 6 * (τ + dt / 16)) ∧ texts.length = 2 * (N + N * N * N) ∧
            ∀ p < N + N * N * N, ∃ ta tb, ∃ a b : ℚ, texts[2 * p]? = some ta ∧ texts[2 * p + 1]? = some tb ∧ DecimalText ta a ∧ DecimalText tb b ∧
              ‖(⟨a, b⟩ : ℂ) - v τ p‖ ≤ ε + 5 / 10 ^ 6 * (‖v τ p‖ + ε) := by
  obtain ⟨m, s, k, h1, h2, h3, h4, h5, h6⟩ := real1dRk4Coefficients_binary64 hN hn hs hJ hU hU' hdt1 hdt2 hst hend interval w
  have hd0 : 0 ≤ dt := le_trans (le_of_lt (one_div_pos.2 (pow_pos two_pos _))) hdt1
  refine ⟨m, s, k, h1, h2, h3, h4, fun rows hr => ⟨(simulation_cells hr).1.trans h5, fun v hv j hj τ ε hτ hε => ?_⟩⟩
  obtain ⟨t, xs, r1, r2, r3, r4⟩ := h6 v hv j (by rw [h5]; exact hj)
  rw [← hτ] at r2 r4
  rw [← hε] at r4
  exact coefficient_row hr r1 (fun h0 => by rw [hτ, h0]; simp) (by rw [hτ]; exact mul_nonneg (Nat.cast_nonneg _) hd0) r2 r3 r4

/-- **C131 for `hubbard_real_1d_kinetic_rk4_coefficients`**: as above, with `2 N` numbers, the amplitudes of a free particle on the ring. -/
theorem real1dKineticRk4Coefficients_file_binary64 (hN : 3 ≤ N) (hn : N < 2 ^ 64) (hs : IsSort sort) {J dt tEnd : ℝ} (hJ : IsBinary64 J)
    (hdt1 : 1 / 2 ^ 1000 ≤ dt) (hdt2 : dt ≤ 2 ^ 900) (hst : (dt * (2 * |J|)) ^ 2 ≤ 8) (hend : tEnd + dt / 16 ≤ 2 ^ 24 * dt) (interval : ℕ) (w : Work ℂ) :
    ∃ s k, real1dKineticRk4CoefficientsR binary64 sort w N J dt tEnd interval = .val s ∧
      ⌈(tEnd - dt / 16) / dt⌉₊ ≤ k ∧ k ≤ ⌈(tEnd + dt / 16) / dt⌉₊ ∧
      ∀ rows, Renders (fun xs => xs) rows s.out → (readTable (simulationText rows)).length = k / max interval 1 + 1 ∧
        ∀ j < k / max interval 1 + 1, ∀ τ ε, τ = ((j * max interval 1 : ℕ) : ℝ) * dt → ε = vectorErrorDouble (dt * (2 * |J|)) (j * max interval 1) →
          ∃ tt texts, (readTable (simulationText rows))[j]? = some (tt :: texts) ∧
            (∃ q : ℚ, DecimalText tt q ∧ |(q : ℝ) - τ| ≤ dt / 16 + 5 / 10 ^ 6 * (τ + dt / 16)) ∧ texts.length = 2 * N ∧
            ∀ p < N, ∃ ta tb, ∃ a b : ℚ, texts[2 * p]? = some ta ∧ texts[2 * p + 1]? = some tb ∧ DecimalText ta a ∧ DecimalText tb b ∧
              ‖(⟨a, b⟩ : ℂ) - hoppingAmplitude N J τ p‖ ≤ ε + 5 / 10 ^ 6 * (‖hoppingAmplitude N J τ p‖ + ε) := by
  obtain ⟨s, k, h2, h3, h4, h5, h6⟩ := real1dKineticRk4Coefficients_binary64 hN hn hs hJ hdt1 hdt2 hst hend interval w
  have hd0 : 0 ≤ dt := le_trans (le_of_lt (one_div_pos.2 (pow_pos two_pos _))) hdt1
  refine ⟨s, k, h2, h3, h4, fun rows hr => ⟨(simulation_cells hr).1.trans h5, fun j hj τ ε hτ hε => ?_⟩⟩
  obtain ⟨t, xs, r1, r2, r3, r4⟩ := h6 j (by rw [h5]; exact hj)
  rw [← hτ] at r2 r4
  rw [← hε] at r4
  exact coefficient_row (v := fun p => hoppingAmplitude N J τ p) hr r1 (fun h0 => by rw [hτ, h0]; simp) (by rw [hτ]; exact mul_nonneg (Nat.cast_nonneg _) hd0) r2 r3 r4

/-! ### The momentum program -/

theorem momentumText_cells (first second : Double) : readTable (momentumText first second) = [[writeDouble first], [writeDouble second]] := by
  have h : momentumText first second = tableText [(first, []), (second, [])] := by
    simp [momentumText, tableText, writeRow]
  rw [h, tableText_cells]
  rfl

theorem written_unit {d : Double} {P : Prop} [Decidable P] (h : d.value = if P then 1 else 0) : written d = if P then 1 else 0 := by
  split_ifs at h ⊢ with hp
  · rw [written_of_digits (n := 10 ^ 5) (X := 0) (by rw [h]; norm_num) (by norm_num) (by norm_num) (by rw [h]; norm_num)]
    norm_num
  · have hm : d.magnitude = 0 := by
      rw [value_eq] at h
      rcases mul_eq_zero.1 h with h1 | h1
      · split_ifs at h1 <;> norm_num at h1
      · exact h1
    simp [written, hm]

/-- **C132 for `hubbard_momentum_1d_rk4`**: two lines. The number in the first is exactly 1 or 0, the initial occupation of the momentum; the number in the second is the matrix element of
C122 up to its error and half a unit of the sixth digit. -/
theorem momentum1dRk4_text_binary64_partial (hN : 1 ≤ N) (hN' : N ≤ 1024) {J U dt : ℝ} (hJ : IsBinary64 J) (hJ1 : 1 / 2 ^ 1000 ≤ J) (hJ2 : J ≤ 2 ^ 1000)
    (hU : IsBinary64 U) (hU1 : U = 0 ∨ 1 / 2 ^ 1000 ≤ |U|) (hU2 : |U| ≤ 2 ^ 1000) (hdt1 : 1 / 2 ^ 1000 ≤ dt) (hdt2 : dt ≤ 2 ^ 900)
    (hst : dt * (6 * J + (N + 1) / 2 * |U|) ≤ 14 / 5) (hcos : ∀ x, |cosF x - Real.cos x| ≤ 1 / 2 ^ 53) {conjugation energies : List ℕ}
    (hc : conjugation.Perm (List.range (N * N + 1))) (he : energies.Perm (List.range N)) (w : Work ℂ) :
    ∃ (first second : ℝ) (FS : Finset Mode) (m : Sparse ℝ),
      momentum1dRk4R binary64 cosF (double Real.pi) conjugation energies w N J U dt = .val (first, second) ∧
      (∀ k < N, ∀ σ, bandEnergy N J k ≠ 0 → (toLex (k, σ) ∈ FS ↔ bandEnergy N J k < 0)) ∧
      MomentumSpace.initMatrix (MomentumSpace.Spec.entries N (N / 2)) N (bandEnergy N J) U N = .val m ∧
      ∀ x y : Double, x.value = first → y.value = second → ∃ ta tb, ∃ b : ℚ, readTable (momentumText x y) = [[ta], [tb]] ∧
        DecimalText ta (if bandEnergy N J (N / 2) < 0 then 1 else 0) ∧ DecimalText tb b ∧
        ∀ v, IsFlow (N * N + 1) (fun i j => m.get i j) v → ∀ E ε, E = (seaNumber 1 FS (MomentumSpace.Spec.entries N (N / 2)) (v (8 * dt))).re →
          ε = momentumErrorBinary64 N (dt * (6 * J + (N + 1) / 2 * |U|)) → |(b : ℝ) - E| ≤ ε + 5 / 10 ^ 6 * (|E| + ε) := by
  obtain ⟨first, second, FS, m, h1, h2, -, h4, h5, h6⟩ := momentum1dRk4_binary64_partial hN hN' hJ hJ1 hJ2 hU hU1 hU2 hdt1 hdt2 hst hcos hc he w
  refine ⟨first, second, FS, m, h1, h2, h5, fun x y hx hy => ⟨_, _, written y, momentumText_cells x y, ?_, writeDouble_text y, fun v hv E ε hE hε => ?_⟩⟩
  · rw [← hx] at h4
    have := writeDouble_text x
    rwa [written_unit h4] at this
  · have := h6 v hv
    rw [← hE, ← hε, ← hy] at this
    exact written_accuracy this

/-- **C132: what `hubbard_momentum_1d_rk4` prints without options is wrong.** The first line is `1`; the number in the second line exceeds the occupation of the exact solution by 0.003, up to the
sixth digit. -/
theorem momentum1dRk4_text_binary64_wrong (hcos : ∀ x, |cosF x - Real.cos x| ≤ 1 / 2 ^ 53) {conjugation energies : List ℕ}
    (hc : conjugation.Perm (List.range 257)) (he : energies.Perm (List.range 16)) (w : Work ℂ) :
    ∃ (second : ℝ) (FS : Finset Mode) (m : Sparse ℝ),
      momentum1dRk4R binary64 cosF (double Real.pi) conjugation energies w 16 1 1 (double (1 / 100)) = .val (1, second) ∧
      (∀ k < 16, ∀ σ, bandEnergy 16 1 k ≠ 0 → (toLex (k, σ) ∈ FS ↔ bandEnergy 16 1 k < 0)) ∧
      MomentumSpace.initMatrix (MomentumSpace.Spec.entries 16 8) 16 (bandEnergy 16 1) 1 16 = .val m ∧
      (∃ v, IsFlow 257 (fun i j => m.get i j) v) ∧
      ∀ x y : Double, x.value = 1 → y.value = second → ∃ tb, ∃ b : ℚ, readTable (momentumText x y) = [["1".toList], [tb]] ∧ DecimalText tb b ∧
        ∀ v, IsFlow 257 (fun i j => m.get i j) v → (seaNumber (-1) FS (MomentumSpace.Spec.entries 16 8) (v (8 * double (1 / 100)))).re + 3 / 1000 ≤ b + 6 / 10 ^ 6 * |(b : ℝ)| := by
  obtain ⟨second, FS, m, h1, h2, h3, h4, h5⟩ := momentum1dRk4_binary64_wrong hcos hc he w
  refine ⟨second, FS, m, h1, h2, h3, h4, fun x y hx hy => ⟨_, written y, ?_, writeDouble_text y, fun v hv => ?_⟩⟩
  · rw [momentumText_cells]
    have hneg : x.negative = false := by
      by_contra hcon
      rw [value_eq, if_pos (by simpa using hcon)] at hx
      have := x.nonneg
      linarith
    have := natural_text (x := x) (j := 1) (by rw [hx]; norm_num) hneg (by norm_num)
    rw [this]
    rfl
  · have h := h5 v hv
    have hw := written_error y
    rw [← hy] at h
    set E := (seaNumber (-1) FS (MomentumSpace.Spec.entries 16 8) (v (8 * double (1 / 100)))).re
    have h7 := (abs_le.1 hw).1
    have h8 : |y.value| ≤ |(written y : ℝ)| + 5 / 10 ^ 6 * |y.value| := by
      have := abs_sub_abs_le_abs_sub y.value (written y : ℝ)
      rw [abs_sub_comm] at this
      linarith
    have h9 := abs_nonneg (written y : ℝ)
    norm_num at h7 h8 ⊢
    linarith

/-! ### Examples -/

/-- The hypotheses of the theorem on the kinetic program can be met. -/
example (hs : IsSort sort) (w : Work ℂ) : ∃ s, real1dKineticRk4CoefficientsR binary64 sort w 16 1 (double (1 / 100)) 10 100 = .val s ∧
    ∃ rows, Renders (fun xs => xs) rows s.out := by
  have hdt := double_hundredth
  generalize double (1 / 100) = dt at hdt
  obtain ⟨ha, hb⟩ := abs_le.1 hdt
  obtain ⟨hr1, hr2⟩ := hundredth_range hdt
  have hdt0 : 0 < dt := by clear hr1 hr2; norm_num at ha; linarith
  obtain ⟨s, k, h, -⟩ := real1dKineticRk4Coefficients_file_binary64 (N := 16) (J := 1) (tEnd := 10) (by norm_num) (by norm_num) hs isBinary64_one hr1 hr2 (by
    clear hr1 hr2
    have : dt * (2 * |1|) ≤ 1 := by norm_num at hb ⊢; linarith
    calc (dt * (2 * |1|)) ^ 2 ≤ 1 ^ 2 := by gcongr
      _ ≤ 8 := by norm_num) (by clear hr1 hr2; norm_num at ha hb ⊢; linarith) 100 w
  exact ⟨s, h, renders_exists _ _⟩

/-- The hypotheses of the theorem on the momentum program can be met. -/
example (w : Work ℂ) : ∃ second, momentum1dRk4R binary64 Real.cos (double Real.pi) (List.range 257) (List.range 16) w 16 1 1 (double (1 / 100)) = .val (1, second) :=
  let ⟨second, _, _, h, _⟩ := momentum1dRk4_text_binary64_wrong (cosF := Real.cos) (fun x => by simp) (List.Perm.refl _) (List.Perm.refl _) w
  ⟨second, h⟩

end Ieompp.IEEE
