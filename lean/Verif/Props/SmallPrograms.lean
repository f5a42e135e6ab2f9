import Verif.Spec.MomentumProgram
import Verif.Props.Dispersion
import Verif.Props.Basis
import Verif.Model.SmallPrograms
import Verif.Spec.SmallPrograms
import Verif.Props.Program
import Verif.Props.JumpProgram
import Verif.Props.Dispersion

/-! # C64, C65: the programs `hubbard_trivial` and `hubbard_dispersion_1d` -/

set_option autoImplicit false
set_option linter.unusedSectionVars false

namespace Ieompp.Program

open Ieompp.Spec ODE
open MomentumSpace (vecAt)

/-! ## The exact solution -/

theorem trivial_flow (J U : ℝ) : IsFlow 4 (trivialMatrix J U) (trivialAmplitude J U) := by
  set w := trivialFrequency J U with hw
  have hlin : ∀ (c : ℂ) (t : ℝ), HasDerivAt (fun t : ℝ => c * (t : ℂ)) c t := by
    intro c t
    have := (Complex.ofRealCLM.hasDerivAt (x := t)).const_mul c
    simpa using this
  have hexp : ∀ t : ℝ, HasDerivAt (fun t : ℝ => Complex.exp (Complex.I * U * t / 2))
      (Complex.exp (Complex.I * U * t / 2) * (Complex.I * U / 2)) t := fun t => ((hlin (Complex.I * U) t).div_const 2).cexp
  have hcos : ∀ t : ℝ, HasDerivAt (fun t : ℝ => Complex.cos (w * t)) (-Complex.sin (w * t) * w) t := fun t =>
    (Complex.hasDerivAt_cos _).comp t (hlin w t)
  have hsin : ∀ t : ℝ, HasDerivAt (fun t : ℝ => Complex.sin (w * t)) (Complex.cos (w * t) * w) t := fun t =>
    (Complex.hasDerivAt_sin _).comp t (hlin w t)
  -- (2 J² + U²/4) / w = w
  have hww : 2 * ((J : ℂ) * (J / w)) + (U : ℂ) / 2 * (U / (2 * w)) = w := by
    have h : (2 * J ^ 2 + U ^ 2 / 4) / w = w := Real.div_sqrt
    have h' : ((2 * J ^ 2 + U ^ 2 / 4 : ℝ) : ℂ) / w = w := by rw [← Complex.ofReal_div, h]
    push_cast at h'
    linear_combination h'
  have hJw : (w : ℂ) * (J / w) = J := by
    by_cases h0 : w = 0
    · have : 2 * J ^ 2 + U ^ 2 / 4 = 0 := by
        rw [hw] at h0
        exact (Real.sqrt_eq_zero (by positivity)).1 h0
      have hJ : J = 0 := by nlinarith [sq_nonneg J, sq_nonneg U]
      rw [hJ]; simp
    · have : (w : ℂ) ≠ 0 := by exact_mod_cast h0
      field_simp
  have hUw : (w : ℂ) * (U / (2 * w)) = U / 2 := by
    by_cases h0 : w = 0
    · have : 2 * J ^ 2 + U ^ 2 / 4 = 0 := by
        rw [hw] at h0
        exact (Real.sqrt_eq_zero (by positivity)).1 h0
      have hU : U = 0 := by nlinarith [sq_nonneg J, sq_nonneg U]
      rw [hU]; simp
    · have : (w : ℂ) ≠ 0 := by exact_mod_cast h0
      field_simp
  constructor
  · intro p hp
    interval_cases p <;> simp [trivialAmplitude]
  · intro t p hp
    simp only [Finset.sum_range_succ, Finset.sum_range_zero, zero_add]
    have a0 : ∀ t, trivialAmplitude J U t 0 = Complex.exp (Complex.I * U * t / 2) * Complex.cos (w * t) := fun _ => rfl
    have a1 : ∀ t, trivialAmplitude J U t 1 =
        Complex.exp (Complex.I * U * t / 2) * -(Complex.I * (J / w) * Complex.sin (w * t)) := fun _ => rfl
    have a2 : ∀ t, trivialAmplitude J U t 2 =
        Complex.exp (Complex.I * U * t / 2) * -(Complex.I * (J / w) * Complex.sin (w * t)) := fun _ => rfl
    have a3 : ∀ t, trivialAmplitude J U t 3 =
        Complex.exp (Complex.I * U * t / 2) * (Complex.I * (U / (2 * w)) * Complex.sin (w * t)) := fun _ => rfl
    interval_cases p
    · simp only [a0, a1, a2, a3, trivialMatrix, List.getD_cons_zero, List.getD_cons_succ]
      refine ((hexp t).mul (hcos t)).congr_deriv ?_
      push_cast
      linear_combination (Complex.exp (Complex.I * U * t / 2) * Complex.sin (w * t)) * hww -
        Complex.exp (Complex.I * U * t / 2) * Complex.sin (w * t) *
          (2 * ((J : ℂ) * (J / w)) + (U : ℂ) / 2 * (U / (2 * w))) * Complex.I_sq
    · simp only [a0, a1, a2, a3, trivialMatrix, List.getD_cons_zero, List.getD_cons_succ]
      refine ((hexp t).mul ((hsin t).const_mul (Complex.I * (J / w))).neg).congr_deriv ?_
      simp only [Pi.neg_apply]
      push_cast
      linear_combination (-(Complex.I * Complex.exp (Complex.I * U * t / 2) * Complex.cos (w * t))) * hJw
    · simp only [a0, a1, a2, a3, trivialMatrix, List.getD_cons_zero, List.getD_cons_succ]
      refine ((hexp t).mul ((hsin t).const_mul (Complex.I * (J / w))).neg).congr_deriv ?_
      simp only [Pi.neg_apply]
      push_cast
      linear_combination (-(Complex.I * Complex.exp (Complex.I * U * t / 2) * Complex.cos (w * t))) * hJw
    · simp only [a0, a1, a2, a3, trivialMatrix, List.getD_cons_zero, List.getD_cons_succ]
      refine ((hexp t).mul ((hsin t).const_mul (Complex.I * (U / (2 * w))))).congr_deriv ?_
      push_cast
      linear_combination (Complex.I * Complex.exp (Complex.I * U * t / 2) * Complex.cos (w * t)) * hUw

/-! ## The rows -/

/-- What the double loop adds up: `Σ |h_i|² c_i + Σ_{i≠j} h_i h_j e_ij`, without complex conjugation. -/
theorem trivialParticleNumber_eq (a b c d : ℂ) : trivialParticleNumber [a, b, c, d] = .val
    ((Complex.normSq a + Complex.normSq b + Complex.normSq c) / 2 + Complex.normSq d / 4 +
      2 * (a * b + a * c + b * c) * ((1 / Real.pi : ℝ) : ℂ) + a * d / 2 + (b + c) * d * ((1 / Real.pi : ℝ) : ℂ)) := by
  simp only [trivialParticleNumber, List.range_succ, List.range_zero, List.nil_append, List.flatMap_append, List.flatMap_cons,
    List.flatMap_nil, List.map_append, List.map_cons, List.map_nil, List.append_nil, List.cons_append, List.foldl_cons,
    List.foldl_nil, trivialTerm, vecAt, List.getElem?_cons_zero, List.getElem?_cons_succ, Res.bind_val, Res.map_val]
  congr 1
  norm_num
  ring

theorem trivialRow_eq (t : ℝ) (y : Fin 4 → ℂ) : ∃ z, trivialRow t (List.ofFn y) = .val
    [t, (y 0).re, (y 0).im, (y 1).re, (y 1).im, (y 2).re, (y 2).im, (y 3).re, (y 3).im, z.re, z.im] ∧
    trivialParticleNumber (List.ofFn y) = .val z := by
  have e : List.ofFn y = [y 0, y 1, y 2, y 3] := by simp [List.ofFn_succ]
  rw [e]
  refine ⟨_, ?_, trivialParticleNumber_eq _ _ _ _⟩
  unfold trivialRow
  rw [trivialParticleNumber_eq]
  rfl

theorem trivialLoop_eq (J U dt : ℝ) (u : Fin 4 → ℂ) : ∀ (left i : ℕ) (w : Work ℂ),
    ∃ rows, trivialLoop J U dt left i w (List.ofFn ((exp4 (dt : ℂ) (gen 4 (trivialMatrix J U)) ^ i).mulVec u)) = .val rows ∧
      rows.length = left + 1 ∧ ∀ j ≤ left, ∀ y, y = (exp4 (dt : ℂ) (gen 4 (trivialMatrix J U)) ^ (i + j)).mulVec u →
        ∃ z, trivialParticleNumber (List.ofFn y) = .val z ∧ rows[j]? = some
          [((i + j : ℕ) : ℝ) * dt, (y 0).re, (y 0).im, (y 1).re, (y 1).im, (y 2).re, (y 2).im, (y 3).re, (y 3).im, z.re, z.im]
  | 0, i, w => by
    obtain ⟨z, e1, e2⟩ := trivialRow_eq (i * dt) ((exp4 (dt : ℂ) (gen 4 (trivialMatrix J U)) ^ i).mulVec u)
    refine ⟨[_], by rw [trivialLoop, e1, Res.map_val], rfl, fun j hj y hy => ?_⟩
    obtain rfl : j = 0 := by omega
    rw [add_zero] at hy ⊢
    exact ⟨z, by rw [hy]; exact e2, by rw [hy]; rfl⟩
  | left + 1, i, w => by
    obtain ⟨z, e1, e2⟩ := trivialRow_eq (i * dt) ((exp4 (dt : ℂ) (gen 4 (trivialMatrix J U)) ^ i).mulVec u)
    obtain ⟨w', e3⟩ := stepMatrix_correct 4 (dt : ℂ) (fun i j => Complex.I * (trivialMatrix J U i j : ℂ)) w
      ((exp4 (dt : ℂ) (gen 4 (trivialMatrix J U)) ^ i).mulVec u)
    rw [Matrix.mulVec_mulVec, ← pow_succ'] at e3
    obtain ⟨rows, e4, e5, e6⟩ := trivialLoop_eq J U dt u left (i + 1) w'
    refine ⟨_ :: rows, by rw [trivialLoop, e1, Res.bind_val, e3, Res.bind_val, e4, Res.map_val], by simp [e5],
      fun j hj y hy => ?_⟩
    cases j with
    | zero =>
      rw [add_zero] at hy ⊢
      exact ⟨z, by rw [hy]; exact e2, by rw [hy]; rfl⟩
    | succ j =>
      obtain ⟨z, e7, e8⟩ := e6 j (by omega) y (by rw [hy]; congr 2; omega)
      refine ⟨z, e7, ?_⟩
      rw [List.getElem?_cons_succ, e8, show i + 1 + j = i + (j + 1) by omega]

theorem trivialMatrix_symm (J U : ℝ) : ∀ i < 4, ∀ j < 4, trivialMatrix J U i j = trivialMatrix J U j i := by
  intro i hi j hj
  interval_cases i <;> interval_cases j <;> rfl

theorem trivialMatrix_rows (J U : ℝ) : ∀ i < 4, ∑ j ∈ Finset.range 4, |trivialMatrix J U i j| ≤ 2 * |J| + |U| := by
  intro i hi
  have h2 : |U / 2| = |U| / 2 := by rw [abs_div, abs_two]
  have hJ := abs_nonneg J
  have hU := abs_nonneg U
  simp only [Finset.sum_range_succ, Finset.sum_range_zero, zero_add]
  interval_cases i <;> simp [trivialMatrix, h2] <;> linarith

/-- C64 (the coefficients): for all couplings, step widths and numbers of steps the program `hubbard_trivial` writes
`steps + 1` rows; row `i` starts with the time `i dt` and has real and imaginary part of the four coefficients, which differ
from those of the exact solution, given in closed form, by at most an error of fourth order which grows linearly with the
time; the last two numbers are `Σ |h_i|² c_i + Σ_{i≠j} h_i h_j e_ij`. Missing: the particle number is `Σ_ij h_i h_j^* e_ij`,
see `trivial_wrong`. -/
theorem trivial_partial (J U : ℝ) {dt : ℝ} (hdt : 0 ≤ dt) (steps : ℕ) (w : Work ℂ) :
    ∃ rows, trivial w J U dt steps = .val rows ∧ rows.length = steps + 1 ∧
      ∀ i ≤ steps, ∃ (h : Fin 4 → ℂ) (z : ℂ), rows[i]? = some
          [(i : ℝ) * dt, (h 0).re, (h 0).im, (h 1).re, (h 1).im, (h 2).re, (h 2).im, (h 3).re, (h 3).im, z.re, z.im] ∧
        (∀ p : Fin 4, ‖h p - trivialAmplitude J U (i * dt) p‖ ≤ rk4Error (2 * |J| + |U|) dt i) ∧
        z = (Complex.normSq (h 0) + Complex.normSq (h 1) + Complex.normSq (h 2)) / 2 + Complex.normSq (h 3) / 4 +
          2 * (h 0 * h 1 + h 0 * h 2 + h 1 * h 2) * ((1 / Real.pi : ℝ) : ℂ) + h 0 * h 3 / 2 +
          (h 1 + h 2) * h 3 * ((1 / Real.pi : ℝ) : ℂ) := by
  set u : Fin 4 → ℂ := fun p : Fin 4 => if (p : ℕ) = 0 then 1 else 0 with hu
  obtain ⟨rows, e1, e2, e3⟩ := trivialLoop_eq J U dt u steps 0 w
  rw [pow_zero, Matrix.one_mulVec] at e1
  refine ⟨rows, ?_, e2, fun i hi => ?_⟩
  · unfold trivial
    rw [initVector_ofFn (by norm_num), Res.bind_val]
    exact e1
  · obtain ⟨z, z1, z2⟩ := e3 i hi _ rfl
    rw [zero_add] at z1 z2
    refine ⟨_, z, z2, fun p => ?_, ?_⟩
    · exact steps_error (trivialMatrix J U) _ dt (by positivity) hdt (trivialMatrix_symm J U) (trivialMatrix_rows J U)
        (trivial_flow J U) i p
    · set y := (exp4 (dt : ℂ) (gen 4 (trivialMatrix J U)) ^ i).mulVec u
      have e : List.ofFn y = [y 0, y 1, y 2, y 3] := by simp [List.ofFn_succ]
      rw [e, trivialParticleNumber_eq] at z1
      exact (Res.val.inj z1).symm

/-- The vectors the program reaches for `J = U = 1`. -/
noncomputable def krylov (x y : ℂ) : Fin 4 → ℂ := ![x, -y, -y, y / 2]

theorem krylov_gen (x y : ℂ) : (gen 4 (trivialMatrix 1 1)).mulVec (krylov x y) =
    krylov (Complex.I * (x / 2 + 9 / 4 * y)) (Complex.I * (x + y / 2)) := by
  ext i
  show ∑ j : Fin 4, Complex.I * (trivialMatrix 1 1 i j : ℂ) * krylov x y j = _
  rw [Fin.sum_univ_four]
  fin_cases i <;> simp [trivialMatrix, krylov] <;> ring

/-- C64 is false as far as the particle number is concerned: the second row of the file (for any number of steps) has a
negative imaginary part in the last column, since one of the factors is not conjugated. -/
theorem trivial_wrong (steps : ℕ) (hs : 1 ≤ steps) (w : Work ℂ) : ∃ rows row x, trivial w 1 1 (1 / 100) steps = .val rows ∧
    rows[1]? = some row ∧ row[10]? = some x ∧ x < 0 := by
  set u : Fin 4 → ℂ := fun p : Fin 4 => if (p : ℕ) = 0 then 1 else 0 with hu
  obtain ⟨rows, e1, e2, e3⟩ := trivialLoop_eq 1 1 (1 / 100) u steps 0 w
  rw [pow_zero, Matrix.one_mulVec] at e1
  obtain ⟨z, z1, z2⟩ := e3 1 hs _ rfl
  refine ⟨rows, _, z.im, ?_, z2, rfl, ?_⟩
  · unfold trivial
    rw [initVector_ofFn (by norm_num), Res.bind_val]
    exact e1
  · rw [zero_add, pow_one] at z1
    have hk : u = krylov 1 0 := by
      ext i; fin_cases i <;> simp [hu, krylov]
    have hI2 : Complex.I ^ 2 = -1 := Complex.I_sq
    have hI3 : Complex.I ^ 3 = -Complex.I := by rw [pow_succ, hI2]; ring
    have hI4 : Complex.I ^ 4 = 1 := Complex.I_pow_four
    have hy : (exp4 (((1 / 100 : ℝ)) : ℂ) (gen 4 (trivialMatrix 1 1))).mulVec u =
        krylov (⟨1 - 5 / 4 * (1 / 100) ^ 2 + 17 / 48 * (1 / 100) ^ 4, 1 / 200 - 7 / 12 * (1 / 100) ^ 3⟩)
          (⟨-1 / 2 * (1 / 100) ^ 2 + 5 / 24 * (1 / 100) ^ 4, 1 / 100 - 1 / 2 * (1 / 100) ^ 3⟩) := by
      unfold exp4
      rw [hk, Matrix.sum_mulVec]
      simp only [Finset.sum_range_succ, Finset.sum_range_zero, zero_add, Matrix.smul_mulVec, pow_succ', pow_zero, mul_one,
        ← Matrix.mulVec_mulVec, krylov_gen, Matrix.one_mulVec]
      have kadd : ∀ a b c d : ℂ, krylov a b + krylov c d = krylov (a + c) (b + d) := by
        intro a b c d; ext i; fin_cases i <;> simp [krylov] <;> ring
      have ksmul : ∀ a b c : ℂ, c • krylov a b = krylov (c * a) (c * b) := by
        intro a b c; ext i; fin_cases i <;> simp [krylov] <;> ring
      simp only [ksmul, kadd]
      congr 1
      · apply Complex.ext <;> norm_num [Nat.factorial]
      · apply Complex.ext <;> norm_num [Nat.factorial]
    rw [hy] at z1
    have e : ∀ x y, List.ofFn (krylov x y) = [x, -y, -y, y / 2] := by intro x y; simp [List.ofFn_succ, krylov]
    rw [e, trivialParticleNumber_eq] at z1
    rw [← Res.val.inj z1]
    have hp : 1 / Real.pi > 1 / 4 := one_div_lt_one_div_of_lt Real.pi_pos (by linarith [Real.pi_lt_d2])
    generalize hq : 1 / Real.pi = q at hp
    simp only [Complex.add_im, Complex.mul_im, Complex.neg_im, Complex.neg_re, Complex.add_re, Complex.mul_re,
      Complex.ofReal_re, Complex.ofReal_im, Complex.div_ofNat_im, Complex.div_ofNat_re, Complex.re_ofNat, Complex.im_ofNat]
    nlinarith

/-- C65: `hubbard_dispersion_1d` writes one row per point of the Brillouin zone, in increasing order of the momentum: the
momentum and the tight-binding energy for unit hopping, for every size and every schedule of the parallel loop. The rows
`i` and `N - i` have the same energy. -/
theorem dispersion1d_correct (N : ℕ) {energies : List ℕ} (he : energies.Perm (List.range N)) :
    ∃ rows, dispersion1d energies N = .val rows ∧ rows.length = N ∧
      (∀ i < N, rows[i]? = some (latticeMomentum N i, -2 * Real.cos (latticeMomentum N i))) ∧
      rows.Pairwise (fun a b => a.1 < b.1) ∧ (∀ r ∈ rows, -Real.pi ≤ r.1 ∧ r.1 < Real.pi ∧ |r.2| ≤ 2) ∧
      ∀ i j, i < N → j < N → i + j = N → rows[i]?.map Prod.snd = rows[j]?.map Prod.snd := by
  obtain ⟨values, e1, _, e3⟩ := Hubbard.dispersion_values (fun a b : ℝ => a * b) N (Chain.momentum Real.pi N).pos
    (Hubbard.chainVectors (Chain.real N 1)) 1 he
  set f : ℕ → ℝ × ℝ := fun i => (latticeMomentum N i, -2 * Real.cos (latticeMomentum N i)) with hf
  have hrow : ∀ i < N, (Hubbard.dispersionAt values i).map (fun e => ((Chain.momentum Real.pi N).pos i, e)) = .val (f i) := by
    intro i hi
    rw [e3 i hi]
    simp [Res.map, Res.bind, Spec.tightBinding, Hubbard.chainVectors, Chain.real, latticeMomentum, Hubbard.momentum_pos, hf]
  refine ⟨(List.range N).map f, ?_, by simp, ?_, ?_, ?_, ?_⟩
  · unfold dispersion1d
    have hsz : (Chain.momentum Real.pi N).size = N := rfl
    simp only [hsz]
    rw [e1, Res.bind_val, List.map_congr_left (g := fun i => Res.val (f i)) fun i hi => hrow i (List.mem_range.1 hi)]
    rw [show (List.range N).map (fun i => Res.val (f i)) = ((List.range N).map f).map Res.val by simp [List.map_map]]
    exact MomentumSpace.collect_val _
  · intro i hi
    simp [hi, hf]
  · rw [List.pairwise_map]
    refine List.pairwise_lt_range.imp_of_mem fun {a b} ha hb h => ?_
    have hN : (0 : ℝ) < N := by exact_mod_cast (Nat.zero_le _).trans_lt (List.mem_range.1 ha)
    have : (a : ℝ) < b := by exact_mod_cast h
    have hp : 0 < 2 * Real.pi / N := by positivity
    simp only [hf, latticeMomentum]
    nlinarith
  · intro r hr
    obtain ⟨i, hi, rfl⟩ := List.mem_map.1 hr
    have hi' := List.mem_range.1 hi
    have hN : (0 : ℝ) < N := by exact_mod_cast (Nat.zero_le _).trans_lt hi'
    have hlt : (i : ℝ) < N := by exact_mod_cast hi'
    have hp : 0 < 2 * Real.pi / N := by positivity
    have e : (N : ℝ) * (2 * Real.pi / N) = 2 * Real.pi := by field_simp
    refine ⟨?_, ?_, ?_⟩
    · simp only [hf, latticeMomentum]
      have : (0 : ℝ) ≤ i * (2 * Real.pi / N) := by positivity
      linarith
    · simp only [hf, latticeMomentum]
      nlinarith
    · simp only [hf]
      rw [abs_mul, abs_neg, abs_two]
      linarith [Real.abs_cos_le_one (latticeMomentum N i)]
  · intro i j hi hj hij
    have hN : (N : ℝ) ≠ 0 := by exact_mod_cast (by omega : N ≠ 0)
    simp only [List.getElem?_map, List.getElem?_range hi, List.getElem?_range hj, Option.map_some, hf]
    have : latticeMomentum N j = -latticeMomentum N i := by
      unfold latticeMomentum
      have : (j : ℝ) = N - i := by rw [← hij]; push_cast; ring
      rw [this]; field_simp; ring
    rw [this, Real.cos_neg]

/-- Non-trivial: the loop of the constructor run backwards. -/
example : ∃ rows, dispersion1d [3, 2, 1, 0] 4 = .val rows ∧ rows.length = 4 :=
  have ⟨rows, h1, h2, _⟩ := dispersion1d_correct 4 (energies := [3, 2, 1, 0]) (by decide)
  ⟨rows, h1, h2⟩

end Ieompp.Program
