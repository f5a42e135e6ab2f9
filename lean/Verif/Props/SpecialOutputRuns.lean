import Verif.Props.SpecialOutput
import Verif.Props.ExtendedRuns
import Verif.Props.ExtendedOccupationRuns
import Verif.Props.ExtendedJumpRuns
import Verif.Props.ExtendedMomentum

/-! # C136: the output files of programs with parameters that are not finite -/

set_option autoImplicit false
set_option linter.unusedSectionVars false

namespace Ieompp
namespace OutputText

open Spec Program IEEE
open Ieompp.IO (Text)
open KroneckerNumber (Double)

variable {N : ℕ} {sort : List (Triplet Ext) → List (Triplet Ext)} {platform all : List (Text × Text)} {sinF cosF : ℝ → ℝ}

/-- The contents of the output file. -/
noncomputable abbrev fileX (platform all : List (Text × Text)) (rows : List (Value × List Value)) : Text := App.headerText platform all ++ simulationTextX rows

/-- **C136 for `hubbard_real_1d_rk4_coefficients`** with a coupling that is not finite: after the first row, which shows the initial vector, there are only NaN. -/
theorem real1dRk4CoefficientsX_file (hp : HeaderTexts platform) (ha : HeaderTexts all) (hN : 3 ≤ N) (hs : IsSort sort) {J U : Ext} (hbad : J.NotFinite ∨ U.NotFinite) {dt tEnd : ℝ}
    (hdt1 : 1 / 2 ^ 1000 ≤ dt) (hdt2 : dt ≤ 2 ^ 900) (hend : tEnd + dt / 16 ≤ 2 ^ 24 * dt) (interval : ℕ) :
    ∃ s k, real1dRk4CoefficientsX binary64 sort N J U (.fin dt) (.fin tEnd) interval = .val s ∧ ⌈(tEnd - dt / 16) / dt⌉₊ ≤ k ∧ k ≤ ⌈(tEnd + dt / 16) / dt⌉₊ ∧
      ∀ rows, RendersX id rows s.out → OnlyFirstRow (.fin 1 :: List.replicate (2 * (N + N ^ 3) - 1) (.fin 0)) (k / max interval 1) (2 * (N + N ^ 3))
        (readData (fileX platform all rows)) := by
  obtain ⟨s, k, e, k1, k2, -, r⟩ := real1dRk4CoefficientsX_nan hN hs hbad hdt1 hdt2 hend interval
  exact ⟨s, k, e, k1, k2, fun rows hr => onlyFirstRow hr r rfl hp ha⟩

/-- **C136 for `hubbard_real_1d_kinetic_rk4_coefficients`**. -/
theorem real1dKineticRk4CoefficientsX_file (hp : HeaderTexts platform) (ha : HeaderTexts all) (hN : 3 ≤ N) (hs : IsSort sort) {J : Ext} (hbad : J.NotFinite) {dt tEnd : ℝ}
    (hdt1 : 1 / 2 ^ 1000 ≤ dt) (hdt2 : dt ≤ 2 ^ 900) (hend : tEnd + dt / 16 ≤ 2 ^ 24 * dt) (interval : ℕ) :
    ∃ s k, real1dKineticRk4CoefficientsX binary64 sort N J (.fin dt) (.fin tEnd) interval = .val s ∧ ⌈(tEnd - dt / 16) / dt⌉₊ ≤ k ∧ k ≤ ⌈(tEnd + dt / 16) / dt⌉₊ ∧
      ∀ rows, RendersX id rows s.out → OnlyFirstRow (.fin 1 :: List.replicate (2 * N - 1) (.fin 0)) (k / max interval 1) (2 * N) (readData (fileX platform all rows)) := by
  obtain ⟨s, k, e, k1, k2, -, r⟩ := real1dKineticRk4CoefficientsX_nan hN hs hbad hdt1 hdt2 hend interval
  exact ⟨s, k, e, k1, k2, fun rows hr => onlyFirstRow hr r rfl hp ha⟩

/-- **C136 for `hubbard_real_1d_rk4`** with a coupling that is not finite: `x0` is the value of the first row, the same for all couplings. -/
theorem real1dRk4X_coupling_file (hp : HeaderTexts platform) (ha : HeaderTexts all) {e : Execution} (hN : 3 ≤ N) (he : e.Valid N) (filling : Ext) :
    ∃ x0, ∀ sort, IsSort sort → ∀ (J U : Ext), J.NotFinite ∨ U.NotFinite → ∀ dt tEnd : ℝ, 1 / 2 ^ 1000 ≤ dt → dt ≤ 2 ^ 900 → tEnd + dt / 16 ≤ 2 ^ 24 * dt → ∀ interval : ℕ,
      ∃ s k, real1dRk4X binary64 sinF sort e N J U (.fin dt) (.fin tEnd) interval filling = .val s ∧ ⌈(tEnd - dt / 16) / dt⌉₊ ≤ k ∧ k ≤ ⌈(tEnd + dt / 16) / dt⌉₊ ∧
        ∀ rows, RendersX (fun x => [x]) rows s.out → OnlyFirstRow [x0] (k / max interval 1) 1 (readData (fileX platform all rows)) := by
  obtain ⟨x0, h⟩ := real1dRk4X_outcomes (rnd := binary64) (sinF := sinF) hN he filling
  refine ⟨x0, fun sort hs J U hbad dt tEnd h1 h2 h3 interval => ?_⟩
  obtain ⟨s, k, e, k1, k2, -, r⟩ := (h sort hs J U (.fin dt) (.fin tEnd) interval).2.2 rfl hbad dt tEnd rfl rfl h1 h2 h3
  exact ⟨s, k, e, k1, k2, fun rows hr => onlyFirstRow hr r rfl hp ha⟩

/-- **C136 for `hubbard_real_1d_kinetic_rk4`**. -/
theorem real1dKineticRk4X_coupling_file (hp : HeaderTexts platform) (ha : HeaderTexts all) {e : Execution} (hN : 3 ≤ N) (he : e.ValidKinetic N) (filling : Ext) :
    ∃ x0, ∀ sort, IsSort sort → ∀ (J : Ext), J.NotFinite → ∀ dt tEnd : ℝ, 1 / 2 ^ 1000 ≤ dt → dt ≤ 2 ^ 900 → tEnd + dt / 16 ≤ 2 ^ 24 * dt → ∀ interval : ℕ,
      ∃ s k, real1dKineticRk4X binary64 sinF sort e N J (.fin dt) (.fin tEnd) interval filling = .val s ∧ ⌈(tEnd - dt / 16) / dt⌉₊ ≤ k ∧ k ≤ ⌈(tEnd + dt / 16) / dt⌉₊ ∧
        ∀ rows, RendersX (fun x => [x]) rows s.out → OnlyFirstRow [x0] (k / max interval 1) 1 (readData (fileX platform all rows)) := by
  obtain ⟨x0, h⟩ := real1dKineticRk4X_outcomes (rnd := binary64) (sinF := sinF) hN he filling
  refine ⟨x0, fun sort hs J hbad dt tEnd h1 h2 h3 interval => ?_⟩
  obtain ⟨s, k, e, k1, k2, -, r⟩ := (h sort hs J (.fin dt) (.fin tEnd) interval).2.2 rfl hbad dt tEnd rfl rfl h1 h2 h3
  exact ⟨s, k, e, k1, k2, fun rows hr => onlyFirstRow hr r rfl hp ha⟩

/-- **C136 for `hubbard_real_1d_rk4_jump`**. -/
theorem real1dRk4JumpX_coupling_file (hp : HeaderTexts platform) (ha : HeaderTexts all) {e : JumpExecution} (hN : 3 ≤ N) (he : e.Valid N)
    (ht : e.table.Perm (List.range' 1 (N / 2))) (filling : Ext) :
    ∃ x0, ∀ sort, IsSort sort → ∀ (J U : Ext), J.NotFinite ∨ U.NotFinite → ∀ dt tEnd : ℝ, 1 / 2 ^ 1000 ≤ dt → dt ≤ 2 ^ 900 → tEnd + dt / 16 ≤ 2 ^ 24 * dt → ∀ interval : ℕ,
      ∃ s k, real1dRk4JumpX binary64 sinF cosF sort e N J U (.fin dt) (.fin tEnd) interval filling = .val s ∧ ⌈(tEnd - dt / 16) / dt⌉₊ ≤ k ∧ k ≤ ⌈(tEnd + dt / 16) / dt⌉₊ ∧
        ∀ rows, RendersX (fun x => [x]) rows s.out → OnlyFirstRow [x0] (k / max interval 1) 1 (readData (fileX platform all rows)) := by
  obtain ⟨x0, h⟩ := real1dRk4JumpX_outcomes (rnd := binary64) (sinF := sinF) (cosF := cosF) hN he ht filling
  refine ⟨x0, fun sort hs J U hbad dt tEnd h1 h2 h3 interval => ?_⟩
  obtain ⟨s, k, e, k1, k2, -, r⟩ := (h sort hs J U (.fin dt) (.fin tEnd) interval).2.2 rfl hbad dt tEnd rfl rfl h1 h2 h3
  exact ⟨s, k, e, k1, k2, fun rows hr => onlyFirstRow hr r rfl hp ha⟩

/-- **C136 for `hubbard_real_2d_rk4_jump`** on square lattices. -/
theorem real2dRk4JumpX_coupling_file_partial (hp : HeaderTexts platform) (ha : HeaderTexts all) {e : JumpExecution} (hN : 3 ≤ N) (he : e.Valid (N * N))
    (ht : e.table2.Perm (RealSpace.evPairs (N / 2) (N / 2))) (kx ky : Ext) :
    ∃ x0, ∀ sort, IsSort sort → ∀ (J U : Ext), J.NotFinite ∨ U.NotFinite → ∀ dt tEnd : ℝ, 1 / 2 ^ 1000 ≤ dt → dt ≤ 2 ^ 900 → tEnd + dt / 16 ≤ 2 ^ 24 * dt → ∀ interval : ℕ,
      ∃ s k, real2dRk4JumpX binary64 sinF cosF sort e N N J U (.fin dt) (.fin tEnd) interval kx ky = .val s ∧ ⌈(tEnd - dt / 16) / dt⌉₊ ≤ k ∧ k ≤ ⌈(tEnd + dt / 16) / dt⌉₊ ∧
        ∀ rows, RendersX (fun x => [x]) rows s.out → OnlyFirstRow [x0] (k / max interval 1) 1 (readData (fileX platform all rows)) := by
  obtain ⟨x0, h⟩ := real2dRk4JumpX_outcomes_partial (rnd := binary64) (sinF := sinF) (cosF := cosF) hN he ht kx ky
  refine ⟨x0, fun sort hs J U hbad dt tEnd h1 h2 h3 interval => ?_⟩
  obtain ⟨s, k, e, k1, k2, -, r⟩ := (h sort hs J U (.fin dt) (.fin tEnd) interval).2.2 rfl hbad dt tEnd rfl rfl h1 h2 h3
  exact ⟨s, k, e, k1, k2, fun rows hr => onlyFirstRow hr r rfl hp ha⟩

/-- **C136** for a filling that is not finite: not even the first row holds a number after its time. The same for the other programs with `real1dKineticRk4X_filling`,
`real1dRk4JumpX_filling` and `real2dRk4JumpX_momentum_partial`. -/
theorem real1dRk4X_filling_file (hp : HeaderTexts platform) (ha : HeaderTexts all) {e : Execution} (hN : 3 ≤ N) (hs : IsSort sort) (he : e.Valid N) {filling : Ext}
    (hf : filling.NotFinite) (J U : Ext) {dt tEnd : ℝ} (hdt1 : 1 / 2 ^ 1000 ≤ dt) (hdt2 : dt ≤ 2 ^ 900) (hend : tEnd + dt / 16 ≤ 2 ^ 24 * dt) (interval : ℕ) :
    ∃ s k, real1dRk4X binary64 sinF sort e N J U (.fin dt) (.fin tEnd) interval filling = .val s ∧ ⌈(tEnd - dt / 16) / dt⌉₊ ≤ k ∧ k ≤ ⌈(tEnd + dt / 16) / dt⌉₊ ∧
      ∀ rows, RendersX (fun x => [x]) rows s.out → OnlyFirstRow [.nan] (k / max interval 1) 1 (readData (fileX platform all rows)) := by
  obtain ⟨s, k, e, k1, k2, r⟩ := real1dRk4X_filling (sinF := sinF) hN hs he hf J U hdt1 hdt2 hend interval
  rw [List.replicate_succ] at r
  exact ⟨s, k, e, k1, k2, fun rows hr => onlyFirstRow hr r rfl hp ha⟩

/-- **C136 for `hubbard_momentum_1d_rk4`** with `--J=nan`: the two lines show 0 and 0, like a lattice without electrons; nothing in them tells that the hopping was no number. -/
theorem momentum1dRk4X_text_nan (hN : 1 ≤ N) (hN' : N ≤ 1024) (U dt : Ext) {conjugation energies : List ℕ}
    (hc : conjugation.Perm (List.range (N * N + 1))) (he : energies.Perm (List.range N)) :
    ∃ first second, MomentumSpace.momentum1dRk4X binary64 cosF (double Real.pi) conjugation energies N .nan U dt = .val (first, second) ∧
      ∀ x y : Value, x.toExt = first → y.toExt = second → ∃ a b, readTable (momentumTextX x y) = [[a], [b]] ∧ DecimalText a 0 ∧ DecimalText b 0 := by
  refine ⟨_, _, momentum1dRk4X_hopping_nan hN hN' U dt hc he, fun x y hx hy => ?_⟩
  have hz : ∀ v : Value, v.toExt = .fin 0 → DecimalText (writeValue v) 0 := by
    intro v hv
    cases v with
    | fin d =>
      have hd : d.value = 0 := Ext.fin.inj hv
      have h1 := writeDouble_text d
      have h2 := (written_sign d).2.2 hd
      rw [Rat.cast_eq_zero.1 h2] at h1
      exact h1
    | inf s => cases hv
    | nan s => cases hv
  have := readTable_lines [(writeValue x, []), (writeValue y, [])] (by
    intro r hr z hz
    rcases List.mem_cons.1 hr with rfl | hr
    · rw [List.mem_singleton.1 hz]; exact writeValue_chars x
    · rw [List.mem_singleton.1 hr] at hz
      rw [List.mem_singleton.1 hz]; exact writeValue_chars y)
  simp only [List.flatMap_cons, List.flatMap_nil, List.append_nil, List.map_cons, List.map_nil] at this
  exact ⟨_, _, this, hz x hx, hz y hy⟩

/-- **C136 for `hubbard_momentum_1d_rk4`** with an interaction or a step width that is not finite: the second line is NaN. -/
theorem momentum1dRk4X_text_rest (hN : 2 ≤ N) (hN' : N ≤ 1024) (hcos : ∀ x, |cosF x - Real.cos x| ≤ 1 / 2 ^ 53) {J : ℝ} (hJ : IsBinary64 J) (hJ1 : 1 / 2 ^ 1000 ≤ J)
    (hJ2 : J ≤ 2 ^ 1000) {U dt : Ext} (hbad : U.NotFinite ∨ dt.NotFinite) {conjugation energies : List ℕ}
    (hc : conjugation.Perm (List.range (N * N + 1))) (he : energies.Perm (List.range N)) :
    ∃ first second, MomentumSpace.momentum1dRk4X binary64 cosF (double Real.pi) conjugation energies N (.fin J) U dt = .val (first, second) ∧
      ∀ x y : Value, x.toExt = first → y.toExt = second → ∃ a b, readTable (momentumTextX x y) = [[a], [b]] ∧ Says a (.fin 1) ∧ SpecialText b .nan := by
  refine ⟨_, _, momentum1dRk4X_rest hN hN' hcos hJ hJ1 hJ2 hbad hc he, fun x y hx hy => ?_⟩
  obtain ⟨a, b, h, h1, h2⟩ := momentumTextX_says x y
  rw [hx] at h1
  rw [hy] at h2
  exact ⟨a, b, h, h1, h2⟩

/-- The hypotheses are met, and there are such files: ten sites, `U = inf`, 2020 coefficients; every order of the rows and every choice of the signs of the NaN. -/
example : ∃ s k, real1dRk4CoefficientsX binary64 sorted 10 (.fin 1) (.inf false) (.fin (1 / 100)) (.fin 1) 1 = .val s ∧ 99 ≤ k ∧ (∃ rows, RendersX id rows s.out) ∧
    ∀ rows, RendersX id rows s.out → OnlyFirstRow (.fin 1 :: List.replicate 2019 (.fin 0)) k 2020
      (readData (fileX [("# compiler".toList, "GCC".toList)] [("U".toList, "inf".toList)] rows)) := by
  obtain ⟨s, k, e, k1, -, r⟩ := real1dRk4CoefficientsX_file (N := 10) (sort := sorted) (platform := [("# compiler".toList, "GCC".toList)]) (all := [("U".toList, "inf".toList)])
    (by unfold HeaderTexts; decide) (by unfold HeaderTexts; decide) (by norm_num) sorted_isSort (J := .fin 1) (U := .inf false) (Or.inr (Or.inr ⟨false, rfl⟩)) usual_step.1 usual_step.2 (tEnd := 1) (by norm_num) 1
  rw [max_self, Nat.div_one] at r
  exact ⟨s, k, e, usual_steps k1, exists_rendersX _ _, r⟩

end OutputText
end Ieompp
