import Verif.Model.SmallProgramsFloat
import Verif.Props.SmallPrograms
import Verif.Props.FermiFloat
import Verif.Props.ProgramDouble

/-! # C111: the band structure written by the dispersion program in `double` arithmetic -/

set_option autoImplicit false
set_option linter.unusedSectionVars false

namespace Ieompp.Program

open Ieompp.Spec RealSpace
open MomentumSpace (vecAt)

variable {fl cosF : ℝ → ℝ} {u p : ℝ} {N : ℕ}

/-- The rows of the program, with the computed numbers. -/
theorem dispersion1dF_rows (fl cosF : ℝ → ℝ) (p : ℝ) {energies : List ℕ} (he : energies.Perm (List.range N)) :
    ∃ rows, dispersion1dF fl cosF p energies N = .val rows ∧ rows.length = N ∧
      ∀ i < N, rows[i]? = some ((Chain.momentumF fl p N).posF fl i,
        fl (fl (-2) * fl (cosF (fl ((Chain.momentumF fl p N).posF fl i * 1))))) := by
  obtain ⟨w, e1, e2, e3⟩ := storeLoop_ok
    (f := fun i => Res.val (fl (fl (-2 * 1) * (Hubbard.chainVectors (Chain.realF fl N 1)).foldl
      (fun val vec => fl (val + cosF ((fun a b => fl (a * b)) ((Chain.momentumF fl p N).posF fl i) vec))) 0))) energies
    (List.replicate N 0) (fun i hi => ⟨rfl, by rw [he.mem_iff] at hi; simpa using hi⟩)
  set f : ℕ → ℝ × ℝ := fun i => ((Chain.momentumF fl p N).posF fl i,
        fl (fl (-2) * fl (cosF (fl ((Chain.momentumF fl p N).posF fl i * 1))))) with hf
  have hrow : ∀ i < N, (Hubbard.dispersionAt w i).map (fun e => ((Chain.momentumF fl p N).posF fl i, e)) = .val (f i) := by
    intro i hi
    have e4 := e3 i
    rw [if_pos ⟨by rw [he.mem_iff]; simpa using hi, by simpa using hi⟩] at e4
    unfold Hubbard.dispersionAt vecAt
    rw [e4]
    simp [Res.map, Res.bind, hf, Hubbard.chainVectors, Chain.realF]
  refine ⟨(List.range N).map f, ?_, by simp, fun i hi => by simp [hi, hf]⟩
  unfold dispersion1dF Hubbard.chainDispersionF Hubbard.dispersionF
  have hsz : (Chain.momentumF fl p N).size = N := rfl
  simp only [hsz]
  rw [e1, Res.bind_val, List.map_congr_left (g := fun i => Res.val (f i)) fun i hi => hrow i (List.mem_range.1 hi)]
  rw [show (List.range N).map (fun i => Res.val (f i)) = ((List.range N).map f).map Res.val by simp [List.map_map]]
  exact MomentumSpace.collect_val _

/-- **C111, `hubbard_dispersion_1d` in `double` arithmetic.** For every number `1 ≤ N ≤ 9·10^13` of momenta, every schedule of the parallel loop and every
`std::cos` that is accurate to `2^-53`: the program writes one row per momentum; the momentum is off by at most `2^-48` and stays inside
`[-π, π)`, the energy is off by at most `2^-47`; the momenta are strictly increasing. -/
theorem dispersion1d_double (hN : 1 ≤ N) (hN' : N ≤ 90071992547409) (hcos : ∀ x, |cosF x - Real.cos x| ≤ 1 / 2 ^ 53) {energies : List ℕ}
    (he : energies.Perm (List.range N)) :
    ∃ rows, dispersion1dF double cosF (double Real.pi) energies N = .val rows ∧ rows.length = N ∧
      (∀ i < N, ∃ k e, rows[i]? = some (k, e) ∧ |k - latticeMomentum N i| ≤ 1 / 2 ^ 48 ∧ -Real.pi ≤ k ∧ k < Real.pi ∧
        |e - -2 * Real.cos (latticeMomentum N i)| ≤ 1 / 2 ^ 47) ∧
      ∀ i j, i < j → j < N → ∃ a b, rows[i]? = some a ∧ rows[j]? = some b ∧ a.1 < b.1 := by
  rw [Hubbard.doublePi_eq]
  obtain ⟨rows, h1, h2, h3⟩ := dispersion1dF_rows (N := N) double cosF doublePi he
  have hp := Hubbard.doublePi_pos
  have hp1 := Hubbard.doublePi_lt
  have hp2 := Hubbard.doublePi_close
  have hpi := Real.pi_lt_d2
  have hNr : (1 : ℝ) ≤ N := by exact_mod_cast hN
  have hNr' : (N : ℝ) ≤ 90071992547409 := by exact_mod_cast hN'
  have hu : 100 * ((N : ℝ) * (1 / 2 ^ 53)) ≤ 1 := by
    rw [mul_one_div, mul_div_assoc', div_le_one (by positivity)]
    norm_num; linarith
  have hclose := fun i (hi : i < N) => Chain.posF_close double_rounding hp (by omega) hu hi
  set P : ℕ → ℝ := fun i => (Chain.momentumF double doublePi N).posF double i with hP
  have hPi : ∀ i, (Chain.momentumF double doublePi N).posF double i = P i := fun i => rfl
  simp only [hPi] at h3 hclose
  have hd : (N : ℝ) * (2 * doublePi / N) = 2 * doublePi := by field_simp
  set d := 2 * doublePi / (N : ℝ) with hdd
  have hd0 : 0 < d := by positivity
  -- the spacing is larger than the errors
  have hgap : 12 * (1 / 2 ^ 53 * (2 * doublePi)) < d := by
    rw [← hd]
    have : 12 * (1 / 2 ^ 53 * ((N : ℝ) * d)) = 12 * (N * (1 / 2 ^ 53)) * d := by ring
    rw [this]
    have : 12 * ((N : ℝ) * (1 / 2 ^ 53)) < 1 := by linarith
    nlinarith
  set δ := 3 * (1 / 2 ^ 53 * (2 * doublePi)) with hδ
  have hδ' : δ ≤ 20 / 2 ^ 53 := by
    rw [hδ]; have : doublePi ≤ 3.15 := by linarith
    norm_num; linarith
  have hlow : ∀ i < N, -doublePi ≤ P i := by
    intro i _
    have e1 : double (-doublePi) = -doublePi := by rw [double_opposite, ← Hubbard.doublePi_eq, double_idem]
    rw [← e1]
    refine double_monotone ?_
    show -doublePi ≤ -doublePi + double (i * (Chain.momentumF double doublePi N).dx)
    have : 0 ≤ double (i * (Chain.momentumF double doublePi N).dx) := by
      rw [← double_zero]
      refine double_monotone (mul_nonneg (Nat.cast_nonneg i) ?_)
      show 0 ≤ double (2 * doublePi / N)
      rw [← double_zero]
      exact double_monotone hd0.le
    linarith
  refine ⟨rows, h1, h2, fun i hi => ?_, fun i j hij hj => ?_⟩
  · refine ⟨_, _, h3 i hi, ?_, ?_, ?_, ?_⟩
    all_goals
      have hi' : (i : ℝ) + 1 ≤ N := by exact_mod_cast hi
      have hi0 : (0 : ℝ) ≤ i := Nat.cast_nonneg i
      have hc := abs_le.1 (hclose i hi)
      have hk : |P i - latticeMomentum N i| ≤ 22 / 2 ^ 53 := by
        have hfrac0 : 0 ≤ (i : ℝ) / N := by positivity
        have hfrac1 : (i : ℝ) / N ≤ 1 := by rw [div_le_one (by linarith)]; linarith
        have e1 : (i : ℝ) * d = (i / N) * (2 * doublePi) := by rw [hdd]; ring
        have e2 : latticeMomentum N i = -Real.pi + (i / N) * (2 * Real.pi) := by unfold latticeMomentum; ring
        rw [e1] at hc
        have e3 : (22 : ℝ) / 2 ^ 53 = 20 / 2 ^ 53 + 1 / 2 ^ 52 := by norm_num
        rw [e2, e3, abs_le]
        constructor <;> nlinarith
    · exact hk.trans (by norm_num)
    · linarith [hlow i hi]
    · have : (i : ℝ) * d + d ≤ 2 * doublePi := by rw [← hd]; nlinarith
      linarith
    · have hidem : double (P i * 1) = P i := by rw [mul_one]; exact double_idem _
      rw [hidem]
      have h2f : double (-2) = -2 := by
        have := double_fix (m := -2) (e := 0) (by norm_num)
        simpa using this
      rw [h2f]
      have c1 := abs_le.1 (hcos (P i))
      have c2 := Real.abs_cos_le_one (P i)
      have c3 := abs_le.1 (Real.abs_cos_sub_cos_le (P i) (latticeMomentum N i))
      have hk' := hk
      have hbc : |cosF (P i)| ≤ 1 + 1 / 2 ^ 53 := by
        rw [abs_le] at c2 ⊢; constructor <;> linarith
      have r1 := abs_le.1 (double_err (cosF (P i)))
      have hb1 : 1 / 2 ^ 53 * |cosF (P i)| ≤ 2 / 2 ^ 53 := by
        calc 1 / 2 ^ 53 * |cosF (P i)| ≤ 1 / 2 ^ 53 * (1 + 1 / 2 ^ 53) := by gcongr
          _ ≤ _ := by norm_num
      have hbd : |double (cosF (P i))| ≤ 2 := by
        rw [abs_le] at hbc ⊢; norm_num at hbc r1 hb1 ⊢; constructor <;> linarith
      have r2 := abs_le.1 (double_err (-2 * double (cosF (P i))))
      have hb2 : 1 / 2 ^ 53 * |-2 * double (cosF (P i))| ≤ 4 / 2 ^ 53 := by
        rw [abs_mul, abs_neg, abs_two]
        calc 1 / 2 ^ 53 * (2 * |double (cosF (P i))|) ≤ 1 / 2 ^ 53 * (2 * 2) := by gcongr
          _ = _ := by norm_num
      rw [abs_le]
      norm_num at hk' c1 hb1 hb2 r1 r2 ⊢
      constructor <;> linarith
  · refine ⟨_, _, h3 i (hij.trans hj), h3 j hj, ?_⟩
    show P i < P j
    have a1 := abs_le.1 (hclose i (hij.trans hj))
    have a2 := abs_le.1 (hclose j hj)
    have : (i : ℝ) + 1 ≤ j := by exact_mod_cast hij
    nlinarith

/-- The program of the repository has 1024 momenta. -/
example (cosF : ℝ → ℝ) (hcos : ∀ x, |cosF x - Real.cos x| ≤ 1 / 2 ^ 53) : ∃ rows,
    dispersion1dF double cosF (double Real.pi) (List.range 1024) 1024 = .val rows ∧ rows.length = 1024 :=
  let ⟨rows, h1, h2, _⟩ := dispersion1d_double (N := 1024) (by norm_num) (by norm_num) hcos (List.Perm.refl _)
  ⟨rows, h1, h2⟩

end Ieompp.Program
