import Verif.Model.Binary64Small
import Verif.Props.Binary64MomentumEnergies
import Verif.Props.DispersionFloat

/-! # C125: `hubbard_dispersion_1d` in binary64 arithmetic -/

set_option autoImplicit false
set_option linter.unusedSectionVars false

namespace Ieompp.IEEE

open Ieompp.Spec MomentumSpace

variable {N : ℕ} {cosF : ℝ → ℝ}

/-- The lattice of a large Brillouin zone. -/
theorem momentumR_large (hN : 1 ≤ N) (hN' : N ≤ 90071992547409) :
    momentumR binary64 (double Real.pi) N = .val (Chain.momentumF double (double Real.pi) N) ∧ OnGrid (Chain.momentumF double (double Real.pi) N).dx ∧
      1 / 2 ^ 50 ≤ (Chain.momentumF double (double Real.pi) N).dx ∧ (Chain.momentumF double (double Real.pi) N).dx ≤ 2 ^ 3 := by
  obtain ⟨hp, hp', hg⟩ := doublePi_setup
  set p := double Real.pi
  have hNr : (1 : ℝ) ≤ N := by exact_mod_cast hN
  have hNr' : (N : ℝ) ≤ 90071992547409 := by exact_mod_cast hN'
  have h0 : 0 < 2 * p / (N : ℝ) := by positivity
  have h3 : 1 / 2 ^ 50 ≤ 2 * p / (N : ℝ) := by
    rw [div_le_div_iff₀ (by norm_num) (by linarith)]
    norm_num
    linarith
  have h4 : 2 * p / (N : ℝ) ≤ 2 ^ 3 := by
    rw [div_le_iff₀ (by linarith)]
    nlinarith
  obtain ⟨r1, r2, r3⟩ := regular_ok (x := 2 * p / (N : ℝ)) (k := 3) (.inr (by rw [abs_of_pos h0]; exact (tiny_le (by norm_num)).trans h3)) (by norm_num)
    (by rw [abs_of_pos h0]; exact h4)
  have hlow : 1 / 2 ^ 50 ≤ double (2 * p / (N : ℝ)) := by
    have e : double (1 / 2 ^ 50) = 1 / 2 ^ 50 := by
      have := double_fix (m := 1) (e := -50) (by norm_num)
      norm_num at this ⊢
      exact this
    rw [← e]
    exact double_monotone h3
  refine ⟨?_, r2, hlow, (le_abs_self _).trans r3⟩
  unfold momentumR divR
  rw [binary64_exact (isBinary64_nat (by omega)), Res.bind_val, if_neg (by positivity), r1]
  rfl

theorem coordinateR_large (hN : 1 ≤ N) (hN' : N ≤ 90071992547409) {i : ℕ} (hi : i < N) :
    coordinateR binary64 (Chain.momentumF double (double Real.pi) N).xMin (Chain.momentumF double (double Real.pi) N).dx i =
        .val ((Chain.momentumF double (double Real.pi) N).posF double i) ∧
      OnGrid ((Chain.momentumF double (double Real.pi) N).posF double i) := by
  obtain ⟨-, -, d1, d2⟩ := momentumR_large hN hN'
  obtain ⟨hp, hp', hg⟩ := doublePi_setup
  unfold Chain.posF
  have e : (Chain.momentumF double (double Real.pi) N).xMin = -double Real.pi := rfl
  rw [e]
  set p := double Real.pi
  set dx := (Chain.momentumF double p N).dx with hdx
  have hir' : (i : ℝ) ≤ 2 ^ 47 := by
    have : i ≤ 2 ^ 47 := by omega
    exact_mod_cast this
  have hd0 : 0 < dx := lt_of_lt_of_le (by norm_num) d1
  obtain ⟨r1, r2, r3⟩ := regular_ok (x := (i : ℝ) * dx) (k := 50) (by
      rcases Nat.eq_zero_or_pos i with h | h
      · left; rw [h]; simp
      · right
        have hir : (1 : ℝ) ≤ i := by exact_mod_cast h
        rw [abs_of_pos (by positivity)]
        refine (tiny_le (k := 50) (by norm_num)).trans ?_
        nlinarith) (by norm_num) (by
      rw [abs_of_nonneg (by positivity)]
      calc (i : ℝ) * dx ≤ 2 ^ 47 * 2 ^ 3 := mul_le_mul hir' d2 hd0.le (by positivity)
        _ = 2 ^ 50 := by norm_num)
  obtain ⟨s1, s2, -⟩ := sum_ok (x := -p + double (i * dx)) (hg.neg.add r2) (k := 51) (by norm_num) (by
    have := abs_add_le (-p) (double (i * dx))
    rw [abs_neg, abs_of_pos (by linarith : 0 < p)] at this
    norm_num at r3 ⊢; linarith)
  refine ⟨?_, s2⟩
  unfold coordinateR
  rw [binary64_exact (isBinary64_nat (by omega)), Res.bind_val, r1, Res.bind_val, s1]

theorem posF_abs_large (hN : 1 ≤ N) (hN' : N ≤ 90071992547409) {i : ℕ} (hi : i < N) :
    |(Chain.momentumF double (double Real.pi) N).posF double i| ≤ 2 ^ 3 := by
  obtain ⟨hp, hp', hg⟩ := doublePi_setup
  have hNr' : (N : ℝ) ≤ 90071992547409 := by exact_mod_cast hN'
  have := Chain.posF_bound (u := 1 / 2 ^ 53) double_rounding (by linarith : 0 < double Real.pi) hN (by norm_num; linarith) hi
  norm_num
  linarith

/-- The energies: no operation underflows or overflows. -/
theorem energyR_large (hN : 1 ≤ N) (hN' : N ≤ 90071992547409) (hb : ∀ x, IsBinary64 (cosF x)) (hcos : ∀ x, |cosF x - Real.cos x| ≤ 1 / 2 ^ 53) {i : ℕ} (hi : i < N) :
    energyR binary64 cosF (Chain.momentumF double (double Real.pi) N) 1 1 i =
      .val (double (double (-2) * double (cosF (double ((Chain.momentumF double (double Real.pi) N).posF double i * 1))))) := by
  obtain ⟨c1, c2⟩ := coordinateR_large hN hN' hi
  have c3 := posF_abs_large hN hN' hi
  unfold energyR
  rw [c1]
  set k := (Chain.momentumF double (double Real.pi) N).posF double i
  have h2 : double (-2) = -2 := by
    have := double_fix (m := -2) (e := 0) (by norm_num)
    simpa using this
  have g2 : OnGrid (-2 * 1 : ℝ) := by
    have := onGrid_digits (m := -2) (e := 0) (by norm_num)
    simpa using this
  obtain ⟨s1, -, -⟩ := sum_ok (x := (-2 * 1 : ℝ)) g2 (k := 3) (by norm_num) (by norm_num [abs_le])
  obtain ⟨s2, -, -⟩ := sum_ok (x := k * 1) (by rwa [mul_one]) (k := 3) (by norm_num) (by rwa [mul_one])
  rw [mul_one] at s1 s2
  rw [show (-2 * 1 : ℝ) = -2 by norm_num, s1, Res.bind_val, Res.bind_val, mul_one, s2, Res.bind_val, h2]
  set c := cosF (double k)
  have hc1 : |c| ≤ 2 ^ 1 := by
    have a1 := abs_le.1 (hcos (double k))
    have a2 := abs_le.1 (Real.abs_cos_le_one (double k))
    rw [abs_le]
    norm_num at a1 ⊢
    constructor <;> linarith [a1.1, a1.2, a2.1, a2.2]
  have gc : OnGrid c := IsBinary64.grid (hb _)
  obtain ⟨s3, g3, b3⟩ := sum_ok (x := 0 + c) (by rwa [zero_add]) (k := 1) (by norm_num) (by rwa [zero_add])
  rw [s3, Res.bind_val, zero_add]
  rw [zero_add] at g3 b3
  have g4 : OnGrid (-2 * double c) := by
    have : -2 * double c = -(double c + double c) := by ring
    rw [this]; exact (g3.add g3).neg
  obtain ⟨s4, -, -⟩ := sum_ok (x := -2 * double c) g4 (k := 2) (by norm_num) (by
    rw [abs_mul, abs_neg, abs_two]
    norm_num at b3 ⊢
    linarith)
  exact s4

theorem storeLoop_congr {τ : Type*} {f g : ℕ → Res τ} : ∀ (l : List ℕ) (r : Res (List τ)), (∀ i ∈ l, f i = g i) →
    l.foldl (fun (acc : Res (List τ)) i => acc.bind fun v => (f i).bind fun x => RealSpace.assignAt v i x) r =
      l.foldl (fun (acc : Res (List τ)) i => acc.bind fun v => (g i).bind fun x => RealSpace.assignAt v i x) r
  | [], _, _ => rfl
  | i :: l, r, h => by
    rw [List.foldl_cons, List.foldl_cons, h i (by simp)]
    exact storeLoop_congr l _ fun j hj => h j (by simp [hj])

/-- The program is the program without underflow and overflow. -/
theorem dispersion1dR_eq (hN : 1 ≤ N) (hN' : N ≤ 90071992547409) (hb : ∀ x, IsBinary64 (cosF x)) (hcos : ∀ x, |cosF x - Real.cos x| ≤ 1 / 2 ^ 53)
    {energies : List ℕ} (he : energies.Perm (List.range N)) :
    dispersion1dR binary64 cosF (double Real.pi) energies N = Program.dispersion1dF double cosF (double Real.pi) energies N := by
  have hm := (momentumR_large hN hN').1
  unfold dispersion1dR Program.dispersion1dF
  rw [hm, Res.bind_val]
  have hE : chainDispersionR binary64 cosF (Chain.momentumF double (double Real.pi) N) 1 energies =
      Hubbard.chainDispersionF double cosF (double Real.pi) N 1 energies := by
    unfold chainDispersionR Hubbard.chainDispersionF Hubbard.dispersionF
    refine storeLoop_congr energies _ fun i hi => ?_
    rw [energyR_large hN hN' hb hcos (by simpa using (he.mem_iff.1 hi))]
    simp [Hubbard.chainVectors, Chain.realF]
  rw [hE]
  congr 1
  funext values
  congr 1
  refine List.map_congr_left fun i hi => ?_
  rw [(coordinateR_large hN hN' (List.mem_range.1 hi)).1, Res.bind_val]

/-- **C125, `hubbard_dispersion_1d` in binary64 arithmetic, with underflow and overflow.** For every number `1 ≤ N ≤ 9·10^13` of momenta, every schedule of the
parallel loop and every `std::cos` that returns `double`s and is accurate to `2^-53`: no infinity and no NaN comes up, and the program writes one row per momentum;
the momentum is off by at most `2^-48` and stays inside `[-π, π)`, the energy is off by at most `2^-47`; the momenta are strictly increasing. -/
theorem dispersion1d_binary64 (hN : 1 ≤ N) (hN' : N ≤ 90071992547409) (hb : ∀ x, IsBinary64 (cosF x)) (hcos : ∀ x, |cosF x - Real.cos x| ≤ 1 / 2 ^ 53)
    {energies : List ℕ} (he : energies.Perm (List.range N)) :
    ∃ rows, dispersion1dR binary64 cosF (double Real.pi) energies N = .val rows ∧ rows.length = N ∧
      (∀ i < N, ∃ k e, rows[i]? = some (k, e) ∧ |k - latticeMomentum N i| ≤ 1 / 2 ^ 48 ∧ -Real.pi ≤ k ∧ k < Real.pi ∧
        |e - -2 * Real.cos (latticeMomentum N i)| ≤ 1 / 2 ^ 47) ∧
      ∀ i j, i < j → j < N → ∃ a b, rows[i]? = some a ∧ rows[j]? = some b ∧ a.1 < b.1 := by
  rw [dispersion1dR_eq hN hN' hb hcos he]
  exact Program.dispersion1d_double hN hN' hcos he

theorem cosine_rounded (x : ℝ) : IsBinary64 (binary64Value (Real.cos x)) ∧ |binary64Value (Real.cos x) - Real.cos x| ≤ 1 / 2 ^ 53 := by
  have h := Real.abs_cos_le_one x
  refine ⟨?_, (binary64Value_err _).trans ?_⟩
  · have h1 := binary64_value (x := Real.cos x) (h.trans (one_le_pow₀ one_le_two))
    exact (binary64_nearest h1).1
  · have : max |Real.cos x| (1 / 2 ^ 1022) ≤ 1 := max_le h (tiny_le_quarter.trans (by norm_num))
    calc (1 : ℝ) / 2 ^ 53 * max |Real.cos x| (1 / 2 ^ 1022) ≤ 1 / 2 ^ 53 * 1 := mul_le_mul_of_nonneg_left this (by positivity)
      _ = _ := mul_one _

/-- The hypotheses can be met: the correctly rounded cosine, 1024 momenta (the number of the program). -/
example : ∃ rows, dispersion1dR binary64 (fun x => binary64Value (Real.cos x)) (double Real.pi) (List.range 1024) 1024 = .val rows ∧ rows.length = 1024 :=
  let ⟨rows, h1, h2, _⟩ := dispersion1d_binary64 (N := 1024) (by norm_num) (by norm_num) (fun x => (cosine_rounded x).1) (fun x => (cosine_rounded x).2) (List.Perm.refl _)
  ⟨rows, h1, h2⟩

end Ieompp.IEEE
