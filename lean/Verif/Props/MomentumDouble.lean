import Verif.Props.MomentumFloat
import Verif.Props.MomentumRows
import Verif.Props.FormSchur
import Verif.Spec.MomentumFloat

/-! # C114: the program `hubbard_momentum_1d_rk4` in `double` arithmetic -/

set_option autoImplicit false
set_option linter.unusedSectionVars false

namespace Ieompp.Program

open Ieompp.Spec MomentumSpace ODE RealSpace
open Hubbard (doublePi_eq)

variable {cosF : ℝ → ℝ} {N : ℕ}

theorem mem_seaOf {e : ℕ → ℝ} {k : ℕ} (hk : k < N) (σ : Bool) : toLex (k, σ) ∈ seaOf N e ↔ e k < 0 := by
  unfold seaOf
  simp only [Finset.mem_biUnion, Finset.mem_filter, Finset.mem_range, Finset.mem_insert, Finset.mem_singleton,
    EmbeddingLike.apply_eq_iff_eq, Prod.mk.injEq]
  constructor
  · rintro ⟨k', ⟨_, h⟩, h' | h'⟩ <;> rw [h'.1] <;> exact h
  · intro h
    refine ⟨k, ⟨hk, h⟩, ?_⟩
    cases σ <;> simp

theorem seaOf_congr {e e' : ℕ → ℝ} (h : ∀ k < N, e k < 0 ↔ e' k < 0) : seaOf N e = seaOf N e' := by
  unfold seaOf
  congr 1
  refine Finset.filter_congr fun k hk => h k (Finset.mem_range.1 hk)

theorem latticeMomentum_abs (hN : 1 ≤ N) {i : ℕ} (hi : i < N) : |latticeMomentum N i| ≤ Real.pi := by
  have hpi := Real.pi_pos
  have hNr : (0 : ℝ) < N := by exact_mod_cast hN
  have hi' : (i : ℝ) ≤ N := by exact_mod_cast hi.le
  unfold latticeMomentum
  have h1 : (i : ℝ) * (2 * Real.pi / N) = i / N * (2 * Real.pi) := by ring
  have h2 : (i : ℝ) / N ≤ 1 := by rw [div_le_one hNr]; exact hi'
  have h3 : 0 ≤ (i : ℝ) / N := by positivity
  rw [h1, abs_le]
  constructor <;> nlinarith

theorem inFermiSea_band (hN : 1 ≤ N) {J : ℝ} (hJ : 0 < J) {i : ℕ} (hi : i < N) : InFermiSea N i ↔ bandEnergy N J i < 0 := by
  have hpi := Real.pi_pos
  have h := Hubbard.cos_pos_iff_abs (x := latticeMomentum N i) (by have := latticeMomentum_abs hN hi; linarith)
  have e : InFermiSea N i ↔ |latticeMomentum N i| < Real.pi / 2 := Iff.rfl
  rw [e, ← h]
  unfold bandEnergy
  constructor
  · intro h; nlinarith
  · intro h; by_contra h'; push Not at h'; nlinarith

theorem fermiPoint_band {J : ℝ} {i : ℕ} (h : FermiPoint N i) : bandEnergy N J i = 0 := by
  have e : |latticeMomentum N i| = Real.pi / 2 := h
  unfold bandEnergy
  rw [← Real.cos_abs, e, Real.cos_pi_div_two, mul_zero]

theorem double_two_mul (x : ℝ) : double (2 * x) = 2 * double x := by
  have := double_half (2 * x)
  rw [mul_div_cancel_left₀ _ (by norm_num : (2 : ℝ) ≠ 0)] at this
  linarith

/-- The computed cosines. -/
theorem momentumCosine_double (hN : 1 ≤ N) (hN' : N ≤ 90071992547409) (hcos' : ∀ x, |cosF x - Real.cos x| ≤ 1 / 2 ^ 53) {i : ℕ} (hi : i < N) :
    |double (cosF (double ((Chain.momentumF double (double Real.pi) N).posF double i * 1))) - Real.cos (latticeMomentum N i)| ≤ 1 / 2 ^ 48 := by
  obtain ⟨rows, r1, -, r3⟩ := dispersion1dF_rows (N := N) double cosF (double Real.pi) (List.Perm.refl (List.range N))
  obtain ⟨rows', s1, -, s3, -⟩ := dispersion1d_double hN hN' hcos' (List.Perm.refl (List.range N))
  rw [r1] at s1
  cases s1
  obtain ⟨k, e, t1, -, -, -, t2⟩ := s3 i hi
  rw [r3 i hi] at t1
  simp only [Option.some.injEq, Prod.mk.injEq] at t1
  set C := double (cosF (double ((Chain.momentumF double (double Real.pi) N).posF double i * 1))) with hC
  have h3 : double (double (-2) * C) = -2 * C := by
    have : double (-2) = -2 := by
      have := double_fix (m := -2) (e := 0) (by norm_num)
      simpa using this
    rw [this, show -2 * C = -(2 * C) by ring, double_opposite, double_two_mul, hC]
    simp only [double_idem]
  rw [← t1.2, h3] at t2
  rw [abs_le] at t2 ⊢
  norm_num at t2 ⊢
  constructor <;> linarith

/-- The energies computed by the program. -/
theorem momentumEnergies_double (hN : 1 ≤ N) (hN' : N ≤ 90071992547409) (hcos : CosRelative cosF (1 / 2 ^ 53)) {J : ℝ} (hJ : double J = J)
    {energies : List ℕ} (he : energies.Perm (List.range N)) :
    ∃ values, Hubbard.chainDispersionF double cosF (double Real.pi) N J energies = .val values ∧
      (∀ i < N, |dispersionFunction values i - bandEnergy N J i| ≤ |J| / 2 ^ 46) ∧
      (0 < J → ∀ i < N, ¬ FermiPoint N i → (dispersionFunction values i < 0 ↔ bandEnergy N J i < 0)) := by
  have hcos' : ∀ x, |cosF x - Real.cos x| ≤ 1 / 2 ^ 53 := fun x =>
    (hcos x).trans (mul_le_of_le_one_right (by positivity) (Real.abs_cos_le_one x))
  obtain ⟨w, e1, e2, e3⟩ := storeLoop_ok
    (f := fun i => Res.val (double (double (-2 * J) * (Hubbard.chainVectors (Chain.realF double N 1)).foldl
      (fun val vec => double (val + cosF ((fun a b => double (a * b)) ((Chain.momentumF double (double Real.pi) N).posF double i) vec))) 0))) energies
    (List.replicate N 0) (fun i hi => ⟨rfl, by rw [he.mem_iff] at hi; simpa using hi⟩)
  have hv : Hubbard.chainDispersionF double cosF (double Real.pi) N J energies = .val w := by
    unfold Hubbard.chainDispersionF Hubbard.dispersionF
    exact e1
  set C : ℕ → ℝ := fun i => double (cosF (double ((Chain.momentumF double (double Real.pi) N).posF double i * 1))) with hC
  have hval : ∀ i < N, Hubbard.dispersionAt w i = .val (double (double (-2 * J) * C i)) := by
    intro i hi
    have e4 := e3 i
    rw [if_pos ⟨by rw [he.mem_iff]; simpa using hi, by simpa using hi⟩] at e4
    unfold Hubbard.dispersionAt vecAt
    rw [e4]
    simp [hC, Hubbard.chainVectors, Chain.realF]
  have hdf : ∀ i < N, dispersionFunction w i = double (double (-2 * J) * C i) := fun i hi => by
    unfold dispersionFunction; rw [hval i hi]
  refine ⟨w, hv, fun i hi => ?_, fun hJp i hi hF => ?_⟩
  · rw [hdf i hi]
    have h2 : double (-2 * J) = -2 * J := by
      rw [show -2 * J = -(2 * J) by ring, double_opposite, double_two_mul, hJ]
    rw [h2]
    have hc : |C i - Real.cos (latticeMomentum N i)| ≤ 1 / 2 ^ 48 := momentumCosine_double hN hN' hcos' hi
    have c1 := Real.abs_cos_le_one (latticeMomentum N i)
    have r := double_err (-2 * J * C i)
    have hCb : |C i| ≤ 2 := by
      rw [abs_le] at hc c1 ⊢
      norm_num at hc
      constructor <;> linarith
    have hj := abs_nonneg J
    have hr : |double (-2 * J * C i) - -2 * J * C i| ≤ |J| * (4 / 2 ^ 53) := by
      refine r.trans ?_
      rw [abs_mul, abs_mul, abs_neg, abs_two]
      calc (1 : ℝ) / 2 ^ 53 * (2 * |J| * |C i|) ≤ 1 / 2 ^ 53 * (2 * |J| * 2) := by gcongr
        _ = _ := by ring
    have hd : |-2 * J * C i - bandEnergy N J i| ≤ |J| * (2 / 2 ^ 48) := by
      unfold bandEnergy
      rw [← mul_sub, abs_mul, abs_mul, abs_neg, abs_two]
      calc 2 * |J| * |C i - Real.cos (latticeMomentum N i)| ≤ 2 * |J| * (1 / 2 ^ 48) := by gcongr
        _ = _ := by ring
    have := abs_sub_le (double (-2 * J * C i)) (-2 * J * C i) (bandEnergy N J i)
    refine this.trans ((add_le_add hr hd).trans ?_)
    rw [← mul_add, div_eq_mul_inv]
    exact mul_le_mul_of_nonneg_left (by norm_num) hj
  · obtain ⟨b, b1, b2⟩ := Hubbard.occupiedF_double_partial (by omega) hN' hcos (by norm_num) hJp he hi hF true
    unfold Hubbard.occupiedF at b1
    rw [← doublePi_eq, hv, Res.bind_val, hval i hi, Res.map_val] at b1
    simp only [Res.val.injEq] at b1
    rw [hdf i hi, ← inFermiSea_band hN hJp hi, ← b2, ← b1]
    unfold FermiSea.isInitiallyOccupied
    simp

/-! ### The matrix -/

theorem diagonal_bound {q : ℕ} (hN : 0 < N) (hq : q < N) {eps : ℕ → ℝ} {U j : ℝ} (he : ∀ k < N, |eps k| ≤ 2 * j) (hj : 0 ≤ j) {r : ℕ}
    (hr : r ≤ N * N) : |diagonal N q eps U r| ≤ 6 * j + |U| / 2 := by
  have hU : |U / 2| = |U| / 2 := by rw [abs_div, abs_two]
  unfold diagonal
  split_ifs with h
  · refine (abs_add_le _ _).trans ?_
    rw [hU]; linarith [he q hq]
  · have h1 := he ((r - 1) / N) (Nat.div_lt_of_lt_mul (by omega))
    have h2 := he ((r - 1) % N) (Nat.mod_lt _ hN)
    have h3 := he _ (third_lt hN q ((r - 1) / N) ((r - 1) % N))
    rw [← hU]
    refine (abs_add_le _ _).trans (add_le_add ((abs_sub _ _).trans ?_) le_rfl)
    have := abs_add_le (eps ((r - 1) / N)) (eps ((r - 1) % N))
    linarith

theorem three_roundings {a b c a' b' c' h j w : ℝ} (ha : |a' - a| ≤ j / 2 ^ 46) (hb : |b' - b| ≤ j / 2 ^ 46) (hc : |c' - c| ≤ j / 2 ^ 46)
    (ha2 : |a| ≤ 2 * j) (hb2 : |b| ≤ 2 * j) (hc2 : |c| ≤ 2 * j) (hh : |h| ≤ w) (hj : 0 ≤ j) :
    |double (double (double (a' + b') - c') + h) - (a + b - c + h)| ≤ (6 * j + w) / 2 ^ 46 := by
  have hw : 0 ≤ w := (abs_nonneg _).trans hh
  have r1 := double_err (a' + b')
  have r2 := double_err (double (a' + b') - c')
  have r3 := double_err (double (double (a' + b') - c') + h)
  set x1 := double (a' + b') with hx1
  set x2 := double (x1 - c') with hx2
  set x3 := double (x2 + h) with hx3
  have b1 : |a' + b'| ≤ 5 * j := by rw [abs_le] at *; norm_num at *; constructor <;> linarith
  have q1 : 1 / 2 ^ 53 * |a' + b'| ≤ 5 * j / 2 ^ 53 := by
    calc (1 : ℝ) / 2 ^ 53 * |a' + b'| ≤ 1 / 2 ^ 53 * (5 * j) := by gcongr
      _ = _ := by ring
  have r1' := r1.trans q1
  have b2 : |x1 - c'| ≤ 9 * j := by rw [abs_le] at b1 r1' hc hc2 ⊢; norm_num at *; constructor <;> linarith
  have q2 : 1 / 2 ^ 53 * |x1 - c'| ≤ 9 * j / 2 ^ 53 := by
    calc (1 : ℝ) / 2 ^ 53 * |x1 - c'| ≤ 1 / 2 ^ 53 * (9 * j) := by gcongr
      _ = _ := by ring
  have r2' := r2.trans q2
  have b3 : |x2 + h| ≤ 10 * j + w := by rw [abs_le] at b2 r2' hh ⊢; norm_num at *; constructor <;> linarith
  have q3 : 1 / 2 ^ 53 * |x2 + h| ≤ (10 * j + w) / 2 ^ 53 := by
    calc (1 : ℝ) / 2 ^ 53 * |x2 + h| ≤ 1 / 2 ^ 53 * (10 * j + w) := by gcongr
      _ = _ := by ring
  have r3' := r3.trans q3
  rw [abs_le] at r1' r2' r3' ha hb hc ⊢
  norm_num at r1' r2' r3' ha hb hc ⊢
  constructor <;> linarith

theorem diagonalF_close {q : ℕ} (hN : 0 < N) (hq : q < N) {eps eps' : ℕ → ℝ} {U j : ℝ} (hU : double U = U) (hj : 0 ≤ j)
    (he : ∀ k < N, |eps k| ≤ 2 * j) (hd : ∀ k < N, |eps' k - eps k| ≤ j / 2 ^ 46) {r : ℕ} (hr : r ≤ N * N) :
    |diagonalF double N q eps' U r - diagonal N q eps U r| ≤ (6 * j + |U| / 2) / 2 ^ 46 := by
  have hU2 : |U / 2| = |U| / 2 := by rw [abs_div, abs_two]
  have hUh : double (U / 2) = U / 2 := by rw [double_half, hU]
  unfold diagonal diagonalF
  rw [hUh]
  split_ifs with h
  · have r1 := double_err (eps' q + U / 2)
    have h1 := he q hq
    have h2 := hd q hq
    have hUn := abs_nonneg U
    have b1 : |eps' q + U / 2| ≤ 3 * j + |U| / 2 := by
      rw [← hU2]
      refine (abs_add_le _ _).trans (add_le_add ?_ le_rfl)
      rw [abs_le] at *; norm_num at *; constructor <;> linarith
    have q1 : 1 / 2 ^ 53 * |eps' q + U / 2| ≤ (3 * j + |U| / 2) / 2 ^ 53 := by
      calc (1 : ℝ) / 2 ^ 53 * |eps' q + U / 2| ≤ 1 / 2 ^ 53 * (3 * j + |U| / 2) := by gcongr
        _ = _ := by ring
    have r1' := r1.trans q1
    rw [abs_le] at r1' h2 ⊢
    norm_num at r1' h2 ⊢
    constructor <;> linarith
  · exact three_roundings (hd _ (Nat.div_lt_of_lt_mul (by omega))) (hd _ (Nat.mod_lt _ hN)) (hd _ (third_lt hN q _ _))
      (he _ (Nat.div_lt_of_lt_mul (by omega))) (he _ (Nat.mod_lt _ hN)) (he _ (third_lt hN q _ _)) (le_of_eq hU2) hj

/-- The computed matrix: the hypotheses of the time evolution, and the distance to the exact matrix. -/
theorem momentumMatrix_double {q : ℕ} (hN : 0 < N) (hN' : N ≤ 1024) (hq : q < N) {eps eps' : ℕ → ℝ} {U j dt : ℝ} (hU : double U = U) (hj : 0 ≤ j)
    (he : ∀ k < N, |eps k| ≤ 2 * j) (hd : ∀ k < N, |eps' k - eps k| ≤ j / 2 ^ 46) (hdt : 0 < dt) (hst : dt * (6 * j + (N + 1) / 2 * |U|) ≤ 14 / 5) :
    ∃ m m', initMatrix (Spec.entries N q) N eps U N = .val m ∧ initMatrixF double (Spec.entries N q) N eps' U N = .val m' ∧
      (∀ i < N * N + 1, ∀ j < N * N + 1, m.get i j = m.get j i) ∧
      Setting double (N * N + 1) m' (N * N + 1) ((6 * j + (N + 1) / 2 * |U|) * (1 + 1 / 2 ^ 46)) dt ∧
      ∀ i < N * N + 1, ∑ k ∈ Finset.range (N * N + 1), |m'.get i k - m.get i k| ≤ (6 * j + (N + 1) / 2 * |U|) / 2 ^ 46 := by
  obtain ⟨m, m', h1, h2, h3, h4, h5, h6⟩ := initMatrixF_elements double hN q eps eps' U
  have hNr : (1 : ℝ) ≤ N := by exact_mod_cast hN
  have hK : 1 ≤ N * N := Nat.mul_pos hN hN
  have hUn := abs_nonneg U
  have h2N : double (2 * (N : ℝ)) = 2 * N := by
    have := double_fix (m := 2 * N) (e := 0) (by rw [abs_of_nonneg (by positivity)]; norm_num; omega)
    simpa using this
  rw [h2N] at h4 h6
  set B : ℝ := 6 * j + (N + 1) / 2 * |U| with hB
  have hB0 : 0 ≤ B := by positivity
  have ho : ((N * N : ℕ) : ℝ) * |U / (2 * (N : ℝ))| = N / 2 * |U| := by
    rw [abs_div, abs_of_pos (by linarith : (0 : ℝ) < 2 * N)]; push_cast; field_simp
  have hoe : |double (U / (2 * (N : ℝ))) - U / (2 * (N : ℝ))| ≤ 1 / 2 ^ 53 * |U / (2 * (N : ℝ))| := double_err _
  have hod : ((N * N : ℕ) : ℝ) * |double (U / (2 * (N : ℝ))) - U / (2 * (N : ℝ))| ≤ (N / 2 * |U|) / 2 ^ 46 := by
    have := mul_le_mul_of_nonneg_left hoe (Nat.cast_nonneg (α := ℝ) (N * N))
    have e : ((N * N : ℕ) : ℝ) * (1 / 2 ^ 53 * |U / (2 * (N : ℝ))|) = N / 2 * |U| / 2 ^ 53 := by rw [← ho]; ring
    rw [e] at this
    refine this.trans ?_
    have : 0 ≤ (N : ℝ) / 2 * |U| := by positivity
    rw [div_le_div_iff₀ (by positivity) (by positivity)]
    norm_num; linarith
  have hdiag := fun r (hr : r ≤ N * N) => diagonalF_close hN hq hU hj he hd hr
  have hdiag0 := fun r (hr : r ≤ N * N) => diagonal_bound (U := U) hN hq he hj hr
  have hsplit : B = (6 * j + |U| / 2) + N / 2 * |U| := by rw [hB]; ring
  have hsym : ∀ (g : ℕ → ℕ → ℝ) (D : ℕ → ℝ) (o : ℝ), (∀ i ≤ N * N, ∀ j ≤ N * N, g i j = if i = j then D i else if i = 0 ∨ j = 0 then o else 0) →
      ∀ i < N * N + 1, ∀ j < N * N + 1, g i j = g j i := by
    intro g D o hg i hi j hj
    rw [hg i (by omega) j (by omega), hg j (by omega) i (by omega)]
    by_cases h : i = j
    · subst h; rfl
    · rw [if_neg h, if_neg (Ne.symm h)]
      simp only [or_comm]
  have hdiff : ∀ i < N * N + 1, ∑ k ∈ Finset.range (N * N + 1), |m'.get i k - m.get i k| ≤ B / 2 ^ 46 := by
    intro i hi
    have := arrow_row_sum (K := N * N) (g := fun i k => m'.get i k - m.get i k) (D := fun r => diagonalF double N q eps' U r - diagonal N q eps U r)
      (o := double (U / (2 * (N : ℝ))) - U / (2 * (N : ℝ))) (fun i hi j hj => by
        rw [h3 i hi j hj, h4 i hi j hj]; split_ifs <;> simp) hK hdiag hod hi
    refine this.trans (le_of_eq ?_)
    rw [hsplit]; ring
  have hrow : ∀ i < N * N + 1, ∑ k ∈ Finset.range (N * N + 1), |m.get i k| ≤ B := by
    intro i hi
    have := arrow_row_sum (K := N * N) h3 hK hdiag0 (le_of_eq ho) hi
    rw [hsplit]; exact this
  refine ⟨m, m', h1, h2, hsym _ _ _ h3, ?_, hdiff⟩
  refine ⟨by omega, timesIF_eq double_rounding m' fun i e he => ?_, hsym _ _ _ h4, fun i hi => ?_, by positivity, h5, hdt, ?_⟩
  · rcases h6 i e he with h | ⟨r, -, h⟩
    · rw [h, double_idem]
    · rw [h]
      unfold diagonalF
      split_ifs <;> rw [double_idem]
  · have := add_le_add (hrow i hi) (hdiff i hi)
    rw [← Finset.sum_add_distrib] at this
    refine (Finset.sum_le_sum fun k _ => ?_).trans (this.trans (le_of_eq (by ring)))
    have := abs_add_le (m.get i k) (m'.get i k - m.get i k)
    rwa [add_sub_cancel] at this
  · have h0 : 0 ≤ dt * B := by positivity
    have : dt * (B * (1 + 1 / 2 ^ 46)) ≤ 2.81 := by
      rw [← mul_assoc]
      norm_num; linarith
    have h0' : 0 ≤ dt * (B * (1 + 1 / 2 ^ 46)) := by positivity
    nlinarith

/-! ### The program -/

theorem momentumVector_parts {x x' : ℝ} (hN : 1 ≤ N) (hN' : N ≤ 1024) (hx : 0 ≤ x) (hst : x ≤ 14 / 5) (hx' : x' = x * (1 + 1 / 2 ^ 46)) :
    0 ≤ rk4StepRounding (1 / 2 ^ 53) (N * N + 1) x' ∧ rk4StepRounding (1 / 2 ^ 53) (N * N + 1) x' ≤ ((N : ℝ) ^ 2 + 1) * (420 / 2 ^ 52) ∧
      ((1 + rk4StepRounding (1 / 2 ^ 53) (N * N + 1) x') ^ 8 - 1) * (11 / 10) ≤ ((N : ℝ) ^ 2 + 1) / 2 ^ 39 ∧
      x' ^ 5 / 120 * Real.exp x' ≤ x ^ 5 / 100 * Real.exp x := by
  have hx'0 : 0 ≤ x' := by rw [hx']; positivity
  have hle : x' ≤ x + 1 / 2 ^ 40 := by
    rw [hx']; norm_num; linarith
  have h8 : x' ^ 2 ≤ 8 := by
    have : x' ≤ 2.81 := by norm_num at hle; linarith
    nlinarith
  set n : ℝ := (N : ℝ) ^ 2 + 1 with hn
  have hnn : (((N * N + 1 : ℕ) : ℝ)) = n := by push_cast; rw [hn]; ring
  have hNr : (1 : ℝ) ≤ N := by exact_mod_cast hN
  have hNr' : (N : ℝ) ≤ 1024 := by exact_mod_cast hN'
  have hn1 : 1 ≤ n := by nlinarith
  have hn2 : n ≤ 2 ^ 21 := by nlinarith
  have hcast : ((4 * (N * N + 1) + 24 : ℕ) : ℝ) = 4 * n + 24 := by rw [← hnn]; push_cast; ring
  have h1 : rk4StepRounding (1 / 2 ^ 53) (N * N + 1) x' ≤ n * (420 / 2 ^ 52) := by
    unfold rk4StepRounding
    have e1 : ((1 : ℝ) + 1 / 2 ^ 53) ^ (4 * (N * N + 1) + 24) - 1 ≤ (28 * n) / 2 ^ 52 := by
      have := RealSpace.pow_sub_one_le (n := 4 * (N * N + 1) + 24) (u := (1 : ℝ) / 2 ^ 53) (by positivity) (by
        rw [mul_one_div, div_le_one (by positivity), hcast]
        norm_num at hn2 ⊢; linarith)
      refine this.trans ?_
      rw [hcast]
      norm_num; linarith
    have e2 := expPoly_le hx'0 h8
    calc _ ≤ (28 * n) / 2 ^ 52 * (15 : ℝ) := mul_le_mul e1 e2 (by positivity) (by positivity)
      _ = _ := by ring
  have h0 : 0 ≤ rk4StepRounding (1 / 2 ^ 53) (N * N + 1) x' := by
    unfold rk4StepRounding
    refine mul_nonneg (sub_nonneg.2 (one_le_pow₀ ?_)) (by positivity)
    norm_num
  have h3 := RealSpace.pow_sub_one_le (n := 8) h0 (by
    refine (mul_le_mul_of_nonneg_left h1 (by positivity)).trans ?_
    norm_num at hn2 ⊢; linarith)
  have h4 : x' ^ 5 / 120 * Real.exp x' ≤ x ^ 5 / 100 * Real.exp x := by
    have a1 : x' ^ 5 ≤ x ^ 5 * 1.0001 := by
      rw [hx', mul_pow]
      exact mul_le_mul_of_nonneg_left (by norm_num) (by positivity)
    have a2 : Real.exp x' ≤ Real.exp x * 1.0001 := by
      refine (Real.exp_le_exp.2 hle).trans ?_
      rw [Real.exp_add]
      refine mul_le_mul_of_nonneg_left ?_ (Real.exp_pos x).le
      have := Real.abs_exp_sub_one_le (x := (1 : ℝ) / 2 ^ 40) (by rw [abs_of_pos (by positivity)]; norm_num)
      rw [abs_of_pos (by positivity : (0 : ℝ) < 1 / 2 ^ 40)] at this
      have := (abs_le.1 this).2
      norm_num at this ⊢; linarith
    have hp : 0 ≤ x ^ 5 * Real.exp x := by positivity
    calc x' ^ 5 / 120 * Real.exp x' ≤ (x ^ 5 * 1.0001) / 120 * (Real.exp x * 1.0001) := by gcongr
      _ = x ^ 5 * Real.exp x * (1.0001 ^ 2 / 120) := by ring
      _ ≤ x ^ 5 * Real.exp x * (1 / 100) := mul_le_mul_of_nonneg_left (by norm_num) hp
      _ = _ := by ring
  have h5 : 2 * (((8 : ℕ) : ℝ) * rk4StepRounding (1 / 2 ^ 53) (N * N + 1) x') * (11 / 10) ≤ n / 2 ^ 39 := by
    push_cast
    norm_num at h1 ⊢; linarith
  exact ⟨h0, h1, (mul_le_mul_of_nonneg_right h3 (by norm_num)).trans h5, h4⟩

theorem momentumVector_bound {x x' : ℝ} (hN : 1 ≤ N) (hN' : N ≤ 1024) (hx : 0 ≤ x) (hst : x ≤ 14 / 5) (hx' : x' = x * (1 + 1 / 2 ^ 46)) :
    vectorErrorF (1 / 2 ^ 53) (N * N + 1) x' 8 ≤ ((N : ℝ) ^ 2 + 1) / 2 ^ 39 + 8 * (x ^ 5 / 100 * Real.exp x) := by
  obtain ⟨h0, -, h3, h4⟩ := momentumVector_parts hN hN' hx hst hx'
  have h5 : 0 ≤ (1 + rk4StepRounding (1 / 2 ^ 53) (N * N + 1) x') ^ 8 - 1 := sub_nonneg.2 (one_le_pow₀ (by linarith))
  unfold vectorErrorF
  push_cast
  linarith

/-- **C114, `hubbard_momentum_1d_rk4` in `double` arithmetic.** For every number of momenta up to 1024, all `J > 0` and `U` that are `double` numbers, every step width
with `dt (6 J + (N+1)/2 |U|) ≤ 2.8`, all schedules of the parallel loops and every `std::cos` with relative error `2^-53`: the program prints two numbers. The
Fermi sea in use has both spins of every momentum with negative energy and none with positive energy (and is exactly the Fermi sea of the tight binding chain
if 4 does not divide `N`). The first number is exactly 1 or 0. The second is the matrix element (with the sign that C63 refutes) for the exact solution of the
exact equations of motion, to within `momentumErrorDouble`. -/
theorem momentum1dRk4_double_partial (hN : 1 ≤ N) (hN' : N ≤ 1024) {J U dt : ℝ} (hJp : 0 < J) (hJ : double J = J) (hU : double U = U) (hdt : 0 < dt)
    (hst : dt * (6 * J + (N + 1) / 2 * |U|) ≤ 14 / 5) (hcos : CosRelative cosF (1 / 2 ^ 53)) {conjugation energies : List ℕ}
    (hc : conjugation.Perm (List.range (N * N + 1))) (he : energies.Perm (List.range N)) (w : Work ℂ) :
    ∃ (first second : ℝ) (FS : Finset Mode) (m : Sparse ℝ),
      momentum1dRk4F double cosF (double Real.pi) conjugation energies w N J U dt = .val (first, second) ∧
      (∀ k < N, ∀ σ, bandEnergy N J k ≠ 0 → (toLex (k, σ) ∈ FS ↔ bandEnergy N J k < 0)) ∧
      (¬ 4 ∣ N → FS = fermiSea N J) ∧
      first = (if bandEnergy N J (N / 2) < 0 then 1 else 0) ∧
      initMatrix (Spec.entries N (N / 2)) N (bandEnergy N J) U N = .val m ∧
      ∀ v, IsFlow (N * N + 1) (fun i j => m.get i j) v →
        |second - (seaNumber 1 FS (Spec.entries N (N / 2)) (v (8 * dt))).re| ≤ momentumErrorDouble N (dt * (6 * J + (N + 1) / 2 * |U|)) := by
  have hfl := double_rounding
  have hNp : 0 < N := by omega
  have hN64 : N ≤ 90071992547409 := by omega
  set q := N / 2 with hqd
  have hq : q < N := Nat.div_lt_self hNp (by norm_num)
  obtain ⟨values, d1, d2, d3⟩ := momentumEnergies_double hN hN64 hcos hJ he
  rw [abs_of_pos hJp] at d2
  obtain ⟨m, m', m1, m2, m3, S, m4⟩ := momentumMatrix_double (dt := dt) hNp hN' hq hU hJp.le (eps := bandEnergy N J) (fun k _ => by
    have := bandEnergy_abs_le N J k
    rwa [abs_of_pos hJp] at this) d2 hdt hst
  set FS := seaOf N (dispersionFunction values) with hFS
  have hFSmem : ∀ k < N, ∀ σ, toLex (k, σ) ∈ FS ↔ dispersionFunction values k < 0 := fun k hk σ => mem_seaOf hk σ
  have htable := nonVanishing_eq (K := ℝ) (disp := dispersionFunction values) (eF := 0) hFSmem hq
  obtain ⟨n, hn⟩ : ∃ n, n = N * N + 1 := ⟨_, rfl⟩
  rw [← hn] at htable S m4 m3 hc ⊢
  have hn1 : 1 ≤ n := by omega
  obtain ⟨w', y, y1, y2⟩ := S.vector hfl w 8
  obtain ⟨x, x1, x2⟩ := particleNumberF_close (FS := FS) hfl hn hq y
  have hone : double 1 = 1 := by
    have := double_fix (m := 1) (e := 0) (by norm_num)
    simpa using this
  have hunit := particleNumberF_unit (FS := FS) hfl hone hn hq
  have hqF : ¬ FermiPoint N q := by
    rw [Hubbard.fermiPoint_iff hNp]
    omega
  refine ⟨_, x, FS, m, ?_, fun k hk σ hne => ?_, fun h4 => ?_, rfl, m1, fun v hv => ?_⟩
  · unfold momentum1dRk4F
    simp only
    rw [momentumBasisF_double (by rw [doublePi_eq]; exact Hubbard.doublePi_pos) hNp hN64 hq,
      momentumBasis_eq (double Real.pi) (by rw [doublePi_eq]; exact Hubbard.doublePi_pos) N hNp (N / 2), ← hqd, Res.bind_val, d1, Res.bind_val]
    have hsz : (Chain.momentumF double (double Real.pi) N).size = N := rfl
    have hsz' : (Chain.realF double N 1).size = N := rfl
    rw [hsz, hsz', m2, Res.bind_val, entries_length, ← hn, initVector_ofFn hn1, Res.bind_val,
      show RealSpace.getConjugate conjugation (Spec.entries N q) = conjBasis (Spec.entries N q) from
        parallelModify_eq_map _ _ _ (by rw [entries_length, ← hn]; exact hc), htable, Res.bind_val]
    change (particleNumberF double (List.ofFn (unit0 n)) _).bind _ = _
    rw [hunit, Res.bind_val]
    change (integrateF double n dt _ _ 8 w (List.ofFn (unit0 n))).bind _ = _
    rw [y1, Res.bind_val, x1, Res.map_val]
    congr 2
    have hup : up q ∈ FS ↔ bandEnergy N J q < 0 := (hFSmem q hq true).trans (d3 hJp q hq hqF)
    simp only [hup]
  · rw [hFSmem k hk σ]
    exact d3 hJp k hk fun h => hne (fermiPoint_band h)
  · rw [hFS]
    refine seaOf_congr fun k hk => d3 hJp k hk fun h => h4 ?_
    rw [Hubbard.fermiPoint_iff hNp] at h
    omega
  · obtain ⟨v', hv'⟩ := flow_exists n fun i j => m'.get i j
    have hder : ∀ (g : Sparse ℝ) (v : ℝ → ℕ → ℂ), IsFlow n (fun i j => g.get i j) v → ∀ t, HasDerivAt (fun t (p : Fin n) => v t p)
        (fun i : Fin n => ∑ j : Fin n, Complex.I * (g.get i j : ℂ) * v t j) t := by
      intro g v hv t
      refine hasDerivAt_pi.2 fun p => (hv.flow t p p.2).congr_deriv ?_
      rw [Finset.mul_sum, ← Fin.sum_univ_eq_sum_range (fun q => Complex.I * ((g.get p q : ℂ) * v t q)) n]
      exact Finset.sum_congr rfl fun j _ => by rw [mul_assoc]
    set B : ℝ := 6 * J + (N + 1) / 2 * |U| with hB
    have hB0 : 0 ≤ B := by positivity
    have hstart : ∀ (g : Sparse ℝ) (v : ℝ → ℕ → ℂ), IsFlow n (fun i j => g.get i j) v → (fun p : Fin n => v 0 p) = unit0 n := by
      intro g v hv
      funext p; exact hv.start p p.2
    have hpert := solutions_close (n := n) (fun i j => m.get i j) (fun i j => m'.get i j) m3 S.symm (by positivity : 0 ≤ B / 2 ^ 46) m4
      (fun t (p : Fin n) => v t p) (fun t (p : Fin n) => v' t p) (hder m v hv) (hder m' v' hv') (by rw [hstart m v hv, hstart m' v' hv']) (8 * dt)
    rw [hstart m v hv, norm2_unit0 hn1, abs_of_pos (by positivity)] at hpert
    have hyv' := y2 v' hv'
    have hyv : norm2 (y - fun p : Fin n => v (8 * dt) p) ≤ momentumVectorError N (dt * B) := by
      have h1 := norm2_sub_le y (fun p : Fin n => v' (8 * dt) p) (fun p : Fin n => v (8 * dt) p)
      have h2 := momentumVector_bound (N := N) hN hN' (x := dt * B) (by positivity) hst rfl
      rw [← hn, mul_assoc] at h2
      rw [Nat.cast_ofNat] at hyv'
      unfold momentumVectorError
      have h3 : B / 2 ^ 46 * 1 * (8 * dt) = 8 * (dt * B) / 2 ^ 46 := by ring
      rw [h3] at hpert
      linarith [h1, h2, hyv', hpert]
    have hquad := quadratic_close_rows (n := n) (E := fun i j => seaValue (1 : ℝ) FS (Spec.entries N q) i j) (u := 1 / 2 ^ 53) (A := 18 * n)
      (R := 9 * N + 3) (by positivity) (by positivity) (by positivity)
      (fun i hi => by rw [hn]; exact seaValue_rows FS hq (by rw [← hn]; exact hi))
      (fun j hj => by
        rw [hn] at hj ⊢
        refine le_of_eq_of_le (Finset.sum_congr rfl fun i hi => ?_) (seaValue_rows FS hq hj)
        rw [seaValue_symm 1 hq (Finset.mem_range.1 hi) hj])
      (flow_norm2 hn1 m3 hv (8 * dt)) hyv x2
    have hform := form_sea hq FS 1 (Or.inl rfl) (v (8 * dt))
    rw [Complex.ofReal_one, ← hn] at hform
    rw [← hform]
    refine hquad.trans ?_
    have hε : 0 ≤ momentumVectorError N (dt * B) := (norm2_nonneg _).trans hyv
    have hNr' : (N : ℝ) ≤ 1024 := by exact_mod_cast hN'
    have hr : 3 + n ^ 2 ≤ 2 ^ 53 := by
      have : n ≤ 2097152 := by
        have := Nat.mul_le_mul hN' hN'
        omega
      calc 3 + n ^ 2 ≤ 3 + 2097152 ^ 2 := by gcongr
        _ ≤ 2 ^ 53 := by norm_num
    refine (quadraticErrorF_double hr (by positivity) (by positivity) hε le_rfl).trans ?_
    have hnr : ((N : ℝ) ^ 2 + 1) = n := by rw [hn]; push_cast; ring
    unfold momentumErrorDouble
    simp only [hnr]
    refine le_of_eq ?_
    push_cast; ring

/-- The bound for the default parameters of the program (`N = 16`, `J = U = 1`, `dt = 0.01`). -/
theorem momentumErrorDouble_default : momentumErrorDouble 16 (1 / 100 * (6 * 1 + ((16 : ℕ) + 1) / 2 * |(1 : ℝ)|)) ≤ 2 / 1000 := by
  have hx : (1 / 100 * (6 * 1 + ((16 : ℕ) + 1) / 2 * |(1 : ℝ)|)) = 0.145 := by rw [abs_one]; norm_num
  have hexp : Real.exp 0.145 ≤ 1.2 := by
    have h1 := Real.exp_bound_div_one_sub_of_interval (x := 0.145) (by norm_num) (by norm_num)
    exact h1.trans (by norm_num)
  have hε : momentumVectorError 16 0.145 ≤ 0.0000063 := by
    unfold momentumVectorError
    have h2 : (0.145 : ℝ) ^ 5 / 100 * Real.exp 0.145 ≤ 0.145 ^ 5 / 100 * 1.2 := mul_le_mul_of_nonneg_left hexp (by positivity)
    have h3 : (((16 : ℕ) : ℝ) ^ 2 + 1) / 2 ^ 39 + 8 * (0.145 ^ 5 / 100 * 1.2) + 8 * 0.145 / 2 ^ 46 ≤ 0.0000063 := by norm_num
    linarith
  have h0 : 0 ≤ momentumVectorError 16 0.145 := by unfold momentumVectorError; positivity
  rw [hx]
  unfold momentumErrorDouble
  simp only
  generalize momentumVectorError 16 0.145 = e at hε h0
  have h4 : e * (2 + e) ≤ 0.0000063 * (2 + 0.0000063) := by gcongr
  have h5 : (1 + e) ^ 2 ≤ (1 + 0.0000063) ^ 2 := by gcongr
  norm_num at h4 h5 ⊢
  nlinarith

/-- The hypotheses of the main theorem hold for the default parameters, and the bound is then 0.002: with `J = U = 1`, 16 momenta and the step width 0.01 the second
number is within 0.002 of the exact value. -/
example (w : Work ℂ) : ∃ (first second : ℝ) (FS : Finset Mode) (m : Sparse ℝ),
    momentum1dRk4F double Real.cos (double Real.pi) (List.range 257) (List.range 16) w 16 1 1 (1 / 100) = .val (first, second) ∧
    initMatrix (Spec.entries 16 8) 16 (bandEnergy 16 1) 1 16 = .val m ∧
    ∀ v, IsFlow 257 (fun i j => m.get i j) v → |second - (seaNumber 1 FS (Spec.entries 16 8) (v (8 * (1 / 100)))).re| ≤ 2 / 1000 := by
  have hone : double 1 = 1 := by
    have := double_fix (m := 1) (e := 0) (by norm_num)
    simpa using this
  obtain ⟨first, second, FS, m, h1, -, -, -, h2, h3⟩ := momentum1dRk4_double_partial (N := 16) (J := 1) (U := 1) (dt := 1 / 100) (cosF := Real.cos)
    (by norm_num) (by norm_num) one_pos hone hone (by norm_num) (by rw [abs_one]; norm_num)
    (fun x => by simp) (conjugation := List.range 257) (energies := List.range 16) (List.Perm.refl _) (List.Perm.refl _) w
  exact ⟨first, second, FS, m, h1, h2, fun v hv => (h3 v hv).trans momentumErrorDouble_default⟩

end Ieompp.Program
