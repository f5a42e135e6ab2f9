import Verif.Model.SmallProgramsFloat
import Verif.Props.SmallPrograms
import Verif.Props.TheoryFloat
import Verif.Props.ProgramDouble

/-! # C113: the program `hubbard_trivial` in `double` arithmetic -/

set_option autoImplicit false
set_option linter.unusedSectionVars false

namespace Ieompp.Program

open Ieompp.Spec RealSpace ODE
open MomentumSpace (vecAt)

variable {fl : ℝ → ℝ} {u : ℝ}

/-! ### The particle number -/

theorem addRealF_close (hfl : Rounding fl u) {k : ℕ} {a' a : ℂ} {b' b A B : ℝ} (ha : ApproxC u k a' a A) (hb : ApproxR u k b' b B) :
    ApproxC u (k + 1) (addRealF fl a' b') (a + (b : ℂ)) (A + B) := by
  have hu := hfl.nonneg
  have hbC := hb.toC
  refine ⟨?_, (norm_add_le _ _).trans (add_le_add ha.2 hbC.2)⟩
  have h1 : ‖addRealF fl a' b' - (a' + (b' : ℂ))‖ ≤ u * ‖a' + (b' : ℂ)‖ := by
    have e : addRealF fl a' b' - (a' + (b' : ℂ)) = ((fl (a'.re + b') - (a'.re + b') : ℝ) : ℂ) := by
      apply Complex.ext <;> simp [addRealF]
    rw [e, Complex.norm_real, Real.norm_eq_abs]
    refine (hfl.err _).trans (mul_le_mul_of_nonneg_left ?_ hu)
    have := Complex.abs_re_le_norm (a' + (b' : ℂ))
    simpa using this
  have h2 : ‖a' + (b' : ℂ) - (a + (b : ℂ))‖ ≤ ((1 + u) ^ k - 1) * (A + B) := by
    rw [add_sub_add_comm, mul_add]
    exact (norm_add_le _ _).trans (add_le_add ha.1 hbC.1)
  have h3 : ‖a' + (b' : ℂ)‖ ≤ (1 + u) ^ k * (A + B) := by
    rw [mul_add]
    exact (norm_add_le _ _).trans (add_le_add (approxC_le ha) (approxC_le hbC))
  have h4 := mul_le_mul_of_nonneg_left h3 hu
  have h5 := norm_sub_le_norm_sub_add_norm_sub (addRealF fl a' b') (a' + (b' : ℂ)) (a + (b : ℂ))
  have : ((1 + u) ^ (k + 1) - 1) * (A + B) = u * ((1 + u) ^ k * (A + B)) + ((1 + u) ^ k - 1) * (A + B) := by rw [pow_succ]; ring
  linarith

/-- The exact value of the terms of the double loop. -/
noncomputable def trivialExact (y : ℕ → ℂ) (i j : ℕ) : ℂ :=
  if i = j then (((Complex.normSq (y i)) * (if i < 3 then 0.5 else 0.25) : ℝ) : ℂ)
  else ((if i < 3 ∧ j < 3 then 1 / Real.pi else if i = 0 ∨ j = 0 then 0.25 else 1 / Real.pi * 0.5 : ℝ) : ℂ) * (y i * y j)

theorem approxR_piInv (hfl : Rounding fl u) (hu1 : u ≤ 1 / 1000) : ApproxR u 3 (fl (1 / fl Real.pi)) (1 / Real.pi) (1 / 2) := by
  have hu := hfl.nonneg
  have hpi := Real.pi_gt_three
  have h := ApproxR.div hfl (ApproxR.exact (u := u) 1) (approxR_pos hfl Real.pi_pos.le) Real.pi_pos (by rw [pow_one]; linarith)
  refine h.mono hu (by omega) ?_
  rw [abs_one, div_le_div_iff₀ (by positivity) (by norm_num)]
  linarith

theorem trivialTermF_close (hfl : Rounding fl u) (hu1 : u ≤ 1 / 1000) {h : List ℂ} {y : ℕ → ℂ} (hy : ∀ i < 4, h[i]? = some (y i))
    {i j : ℕ} (hi : i < 4) (hj : j < 4) {k : ℕ} (hk : 9 ≤ k) {a' a : ℂ} {A : ℝ} (ha : ApproxC u k a' a A) :
    ∃ x, trivialTermF fl h a' i j = .val x ∧ ApproxC u (k + 1) x (a + trivialExact y i j) (A + 1 / 2 * (‖y i‖ * ‖y j‖)) := by
  have hu := hfl.nonneg
  have e : trivialTermF fl h a' i j = (vecAt h i).bind fun hi => (vecAt h j).bind fun hj => .val (if i = j then
      if i < 3 then addRealF fl a' (fl (normF fl hi * 0.5)) else addRealF fl a' (fl (normF fl hi * 0.25))
    else if i < 3 ∧ j < 3 then addC fl a' (ODE.scaleC fl (fl (1 / fl Real.pi)) (mulC fl hi hj))
    else if i = 0 ∨ j = 0 then addC fl a' (ODE.scaleC fl 0.25 (mulC fl hi hj))
    else addC fl a' (ODE.scaleC fl (fl (1 / fl Real.pi)) (ODE.scaleC fl 0.5 (mulC fl hi hj)))) := rfl
  have v1 : vecAt h i = .val (y i) := by unfold vecAt; rw [hy i hi]
  have v2 : vecAt h j = .val (y j) := by unfold vecAt; rw [hy j hj]
  rw [e, v1, Res.bind_val, v2, Res.bind_val]
  refine ⟨_, rfl, ?_⟩
  have m1 := approxC_mul hfl (approxC_exact (u := u) (y i)) (approxC_exact (u := u) (y j))
  unfold trivialExact
  by_cases hij : i = j
  · rw [if_pos hij, if_pos hij, ← hij]
    have n1 := approx_norm hfl (y i)
    have key : ∀ c : ℝ, 0 ≤ c → c ≤ 1 / 2 → ApproxC u (k + 1) (addRealF fl a' (fl (normF fl (y i) * c))) (a + ((Complex.normSq (y i) * c : ℝ) : ℂ))
        (A + 1 / 2 * (‖y i‖ * ‖y i‖)) := by
      intro c hc0 hc
      have n2 := ApproxR.mul hfl n1 (ApproxR.exact (u := u) c)
      rw [abs_of_nonneg hc0] at n2
      refine addRealF_close hfl ha (n2.mono hu (by omega) ?_)
      rw [mul_comm (1 / 2 : ℝ)]
      exact mul_le_mul_of_nonneg_left hc (by positivity)
    split_ifs
    · exact key 0.5 (by norm_num) (by norm_num)
    · exact key 0.25 (by norm_num) (by norm_num)
  · rw [if_neg hij, if_neg hij]
    have pi := approxR_piInv hfl hu1
    have fin : ∀ {l : ℕ} {b' b : ℂ} {B : ℝ}, ApproxC u l b' b B → l ≤ 9 → B ≤ 1 / 2 * (‖y i‖ * ‖y j‖) →
        ApproxC u (k + 1) (addC fl a' b') (a + b) (A + 1 / 2 * (‖y i‖ * ‖y j‖)) := by
      intro l b' b B h1 h2 h3
      exact ha.add hfl ((approxC_bound hu h1 h3).mono hu (by omega))
    split_ifs
    · have := approxC_scaleR hfl pi m1
      exact fin this (by omega) le_rfl
    · have := approxC_scaleR hfl (ApproxR.exact (u := u) 0.25) m1
      refine fin this (by omega) (mul_le_mul_of_nonneg_right ?_ (by positivity))
      rw [abs_of_pos] <;> norm_num
    · have := approxC_scaleR hfl pi (approxC_scaleR hfl (ApproxR.exact (u := u) 0.5) m1)
      have e1 : (((1 / Real.pi * 0.5 : ℝ)) : ℂ) * (y i * y j) = ((1 / Real.pi : ℝ) : ℂ) * (((0.5 : ℝ) : ℂ) * (y i * y j)) := by push_cast; ring
      rw [e1]
      refine fin this (by omega) (mul_le_mul_of_nonneg_left ?_ (by norm_num))
      rw [abs_of_pos (by norm_num)]
      nlinarith [mul_nonneg (norm_nonneg (y i)) (norm_nonneg (y j))]

theorem trivialFold_close (hfl : Rounding fl u) (hu1 : u ≤ 1 / 1000) {h : List ℂ} {y : ℕ → ℂ} (hy : ∀ i < 4, h[i]? = some (y i)) :
    ∀ (l : List (ℕ × ℕ)), (∀ p ∈ l, p.1 < 4 ∧ p.2 < 4) → ∀ {k : ℕ}, 9 ≤ k → ∀ {a' a : ℂ} {A : ℝ}, ApproxC u k a' a A →
    ∃ x, l.foldl (fun (acc : Res ℂ) p => acc.bind fun ev => trivialTermF fl h ev p.1 p.2) (.val a') = .val x ∧
      ApproxC u (k + l.length) x (a + (l.map fun p => trivialExact y p.1 p.2).sum) (A + (l.map fun p => 1 / 2 * (‖y p.1‖ * ‖y p.2‖)).sum)
  | [], _, k, _, a', a, A, ha => ⟨a', rfl, by simpa using ha⟩
  | p :: l, hp, k, hk, a', a, A, ha => by
    obtain ⟨x, h1, h2⟩ := trivialTermF_close hfl hu1 hy (hp p (by simp)).1 (hp p (by simp)).2 hk ha
    obtain ⟨z, h3, h4⟩ := trivialFold_close hfl hu1 hy l (fun q hq => hp q (by simp [hq])) (by omega : 9 ≤ k + 1) h2
    refine ⟨z, by rw [List.foldl_cons, Res.bind_val, h1]; exact h3, ?_⟩
    rw [List.length_cons, show k + (l.length + 1) = k + 1 + l.length by ring, List.map_cons, List.map_cons, List.sum_cons, List.sum_cons,
      ← add_assoc, ← add_assoc]
    exact h4

/-- The computed number and the number of the specification. -/
theorem trivialParticleNumberF_close (hfl : Rounding fl u) (hu1 : u ≤ 1 / 1000) (y : Fin 4 → ℂ) :
    ∃ z, trivialParticleNumberF fl (List.ofFn y) = .val z ∧
      ‖z - trivialWritten y‖ ≤ ((1 + u) ^ 25 - 1) * (1 / 2 * (∑ p, ‖y p‖) ^ 2) := by
  set Y : ℕ → ℂ := fun i => if h : i < 4 then y ⟨i, h⟩ else 0 with hY
  obtain ⟨z, h1, h2⟩ := trivialFold_close hfl hu1 (h := List.ofFn y) (y := Y) (fun i hi => by
    rw [List.getElem?_ofFn, dif_pos hi, hY]; simp [hi]) ((List.range 4).flatMap fun i => (List.range 4).map fun j => (i, j)) (by
    intro p hp
    simp only [List.mem_flatMap, List.mem_map, List.mem_range] at hp
    obtain ⟨i, hi, j, hj, rfl⟩ := hp
    exact ⟨hi, hj⟩) (le_refl 9) ((approxC_exact (u := u) (0 : ℂ)).mono hfl.nonneg (by omega))
  have e0 : Y 0 = y 0 := rfl
  have e1 : Y 1 = y 1 := rfl
  have e2 : Y 2 = y 2 := rfl
  have e3 : Y 3 = y 3 := rfl
  refine ⟨z, h1, ?_⟩
  have hlen : ((List.range 4).flatMap fun i => (List.range 4).map fun j => (i, j)).length = 16 := by decide
  have hsum : (0 : ℂ) + (((List.range 4).flatMap fun i => (List.range 4).map fun j => (i, j)).map fun p => trivialExact Y p.1 p.2).sum =
      trivialWritten y := by
    simp only [List.range_succ, List.range_zero, List.nil_append, List.flatMap_append, List.flatMap_cons, List.flatMap_nil, List.map_append,
      List.map_cons, List.map_nil, List.append_nil, List.cons_append, List.sum_cons, List.sum_nil, trivialExact, e0, e1, e2, e3]
    norm_num [trivialWritten]
    ring
  have hA : ‖(0 : ℂ)‖ + (((List.range 4).flatMap fun i => (List.range 4).map fun j => (i, j)).map fun p => 1 / 2 * (‖Y p.1‖ * ‖Y p.2‖)).sum =
      1 / 2 * (∑ p, ‖y p‖) ^ 2 := by
    simp only [List.range_succ, List.range_zero, List.nil_append, List.flatMap_append, List.flatMap_cons, List.flatMap_nil, List.map_append,
      List.map_cons, List.map_nil, List.append_nil, List.cons_append, List.sum_cons, List.sum_nil, e0, e1, e2, e3, Fin.sum_univ_four, norm_zero]
    ring
  have := h2.1
  rw [hsum, hA, hlen] at this
  exact this

theorem trivialRowF_close (hfl : Rounding fl u) (hu1 : u ≤ 1 / 1000) (t : ℝ) (y : Fin 4 → ℂ) : ∃ z, trivialRowF fl t (List.ofFn y) = .val
    [t, (y 0).re, (y 0).im, (y 1).re, (y 1).im, (y 2).re, (y 2).im, (y 3).re, (y 3).im, z.re, z.im] ∧
    ‖z - trivialWritten y‖ ≤ ((1 + u) ^ 25 - 1) * (1 / 2 * (∑ p, ‖y p‖) ^ 2) := by
  obtain ⟨z, h1, h2⟩ := trivialParticleNumberF_close hfl hu1 y
  refine ⟨z, ?_, h2⟩
  have e : List.ofFn y = [y 0, y 1, y 2, y 3] := by simp [List.ofFn_succ]
  unfold trivialRowF
  rw [h1, e]
  rfl

/-! ### The coefficients -/

/-- `M *= 1i` is exact. -/
theorem trivialMatrixF_eq (hfl : Rounding fl u) {J U : ℝ} (hJ : fl (-J) = -J) (hU : fl (U / 2) = U / 2) :
    trivialMatrixF fl J U = fun i j => Complex.I * (trivialMatrix J U i j : ℂ) := by
  have hz := fl_zero hfl
  funext i j
  have e : trivialMatrix J (2 * fl (U / 2)) i j = trivialMatrix J U i j := by rw [hU, mul_div_cancel₀ _ (by norm_num : (2 : ℝ) ≠ 0)]
  have hf : fl (trivialMatrix J U i j) = trivialMatrix J U i j := by
    rcases i with _ | _ | _ | _ | i <;> rcases j with _ | _ | _ | _ | j <;> simp [trivialMatrix, hJ, hU, hz]
  unfold trivialMatrixF mulC
  rw [e]
  apply Complex.ext <;> simp [hz, hf]

/-- The rows of the file, given the vectors of the time loop. -/
theorem trivialLoopF_rows (hfl : Rounding fl u) (hu1 : u ≤ 1 / 1000) {J U dt : ℝ} {cols : ℕ → List ℕ} {W : ℕ → Work ℂ} {Y : ℕ → Fin 4 → ℂ}
    (hY : ∀ k, stepMatrixF fl 4 dt (trivialMatrixF fl J U) cols (W k) (List.ofFn (Y k)) = .val (W (k + 1), List.ofFn (Y (k + 1)))) :
    ∀ (left i : ℕ), ∃ rows, trivialLoopF fl cols J U dt left i (W i) (List.ofFn (Y i)) = .val rows ∧ rows.length = left + 1 ∧
      ∀ j ≤ left, ∃ z, rows[j]? = some [fl ((i + j : ℕ) * dt), (Y (i + j) 0).re, (Y (i + j) 0).im, (Y (i + j) 1).re, (Y (i + j) 1).im,
          (Y (i + j) 2).re, (Y (i + j) 2).im, (Y (i + j) 3).re, (Y (i + j) 3).im, z.re, z.im] ∧
        ‖z - trivialWritten (Y (i + j))‖ ≤ ((1 + u) ^ 25 - 1) * (1 / 2 * (∑ p, ‖Y (i + j) p‖) ^ 2)
  | 0, i => by
    obtain ⟨z, e1, e2⟩ := trivialRowF_close hfl hu1 (fl (i * dt)) (Y i)
    refine ⟨[_], by rw [trivialLoopF, e1, Res.map_val], rfl, fun j hj => ?_⟩
    obtain rfl : j = 0 := by omega
    exact ⟨z, rfl, e2⟩
  | left + 1, i => by
    obtain ⟨z, e1, e2⟩ := trivialRowF_close hfl hu1 (fl (i * dt)) (Y i)
    obtain ⟨rows, e4, e5, e6⟩ := trivialLoopF_rows hfl hu1 hY left (i + 1)
    refine ⟨_ :: rows, by rw [trivialLoopF, e1, Res.bind_val, hY i, Res.bind_val, e4, Res.map_val], by simp [e5], fun j hj => ?_⟩
    cases j with
    | zero => exact ⟨z, rfl, e2⟩
    | succ j =>
      obtain ⟨z, e7, e8⟩ := e6 j (by omega)
      have : i + 1 + j = i + (j + 1) := by omega
      rw [this] at e7 e8
      exact ⟨z, by rw [List.getElem?_cons_succ, e7], e8⟩

/-- The order in which the four products of a row are added. -/
def ColumnOrder (cols : ℕ → List ℕ) : Prop := ∀ i < 4, (cols i).Perm (List.range 4)

/-- **C113, `hubbard_trivial` in `double` arithmetic.** For all couplings and step widths inside the stability region, up to `2^24` steps and every order of
the additions: `steps + 1` rows; row `i` starts with the rounded time `i dt` and has real and imaginary part of the four coefficients, which are off by at
most `vectorErrorDouble` from the exact solution, given in closed form, at time `i dt`; the last two numbers are the number of the specification for these
coefficients, to within `2^-48 (Σ |h_p|)²`. -/
theorem trivial_double {J U dt : ℝ} (hJ : double J = J) (hU : double U = U) (hdt : 0 < dt) (hst : (dt * (2 * |J| + |U|)) ^ 2 ≤ 8)
    {cols : ℕ → List ℕ} (hc : ColumnOrder cols) {steps : ℕ} (hsteps : steps ≤ 2 ^ 24) (w : Work ℂ) :
    ∃ rows, trivialF double cols w J U dt steps = .val rows ∧ rows.length = steps + 1 ∧
      ∀ i ≤ steps, ∃ (h : Fin 4 → ℂ) (z : ℂ), rows[i]? = some
          [double (i * dt), (h 0).re, (h 0).im, (h 1).re, (h 1).im, (h 2).re, (h 2).im, (h 3).re, (h 3).im, z.re, z.im] ∧
        norm2 (fun p : Fin 4 => h p - trivialAmplitude J U (i * dt) p) ≤ vectorErrorDouble (dt * (2 * |J| + |U|)) i ∧
        ‖z - trivialWritten h‖ ≤ 1 / 2 ^ 48 * (∑ p, ‖h p‖) ^ 2 := by
  have hfl := double_rounding
  have hM := trivialMatrixF_eq (J := J) (U := U) hfl (by rw [double_opposite, hJ]) (by rw [double_half, hU])
  have hflow := trivial_flow J U
  have hS : Stored 4 (fun i j => Complex.I * (trivialMatrix J U i j : ℂ)) cols 4 :=
    ⟨fun i hi => (hc i hi).nodup_iff.2 List.nodup_range, fun i hi j hj => by simpa using (hc i hi).mem_iff.1 hj,
      fun i hi j hj _ => (hc i hi).mem_iff.2 (by simpa using hj), fun i hi => by rw [(hc i hi).length_eq]; simp⟩
  have h0 : (fun p : Fin 4 => trivialAmplitude J U 0 p) = fun p : Fin 4 => if (p : ℕ) = 0 then 1 else 0 := by
    funext p; exact hflow.start p p.2
  have hn0 : norm2 (fun p : Fin 4 => trivialAmplitude J U 0 p) = 1 := by
    rw [h0]; simp [norm2, Fin.sum_univ_four]
  have hvec := fun k => rk4_total_error hfl (trivialMatrix J U) (trivialMatrix_symm J U) (2 * |J| + |U|) dt (by positivity) hdt.le (trivialMatrix_rows J U) hst hS
      (fun t (p : Fin 4) => trivialAmplitude J U t p) (fun t => hasDerivAt_pi.2 fun p => by
        have := hflow.flow t p p.2
        refine this.congr_deriv ?_
        rw [Fin.sum_univ_eq_sum_range (fun j => Complex.I * (trivialMatrix J U p j : ℂ) * trivialAmplitude J U t j) 4, Finset.mul_sum]
        exact Finset.sum_congr rfl fun j _ => by ring) w k
  rw [hn0] at hvec
  choose W Y hY hE using hvec
  have hstep : ∀ k, stepMatrixF double 4 dt (trivialMatrixF double J U) cols (W k) (List.ofFn (Y k)) = .val (W (k + 1), List.ofFn (Y (k + 1))) := by
    intro k
    have := hY (k + 1)
    rw [integrateF_succ, hY k, Res.bind_val] at this
    rw [hM]; exact this
  obtain ⟨rows, r1, r2, r3⟩ := trivialLoopF_rows hfl (by norm_num) (J := J) (U := U) (dt := dt) (cols := cols) hstep steps 0
  refine ⟨rows, ?_, r2, fun i hi => ?_⟩
  · unfold trivialF
    rw [initVector_ofFn (by norm_num), Res.bind_val]
    have := hY 0
    simp only [integrateF, Res.val.injEq, Prod.mk.injEq] at this
    rw [← h0, this.2, this.1]
    exact r1
  · obtain ⟨z, z1, z2⟩ := r3 i hi
    rw [zero_add] at z1 z2
    refine ⟨Y i, z, z1, ?_, z2.trans ?_⟩
    · have := hE i
      rw [mul_one] at this
      have hd := vectorErrorF_double (z := 4) (by norm_num) (x := dt * (2 * |J| + |U|)) (by positivity) hst (hi.trans hsteps)
      refine le_trans (le_of_eq ?_) (this.trans hd)
      rfl
    · have : (1 + 1 / 2 ^ 53 : ℝ) ^ 25 - 1 ≤ 1 / 2 ^ 47 := by norm_num
      have := mul_le_mul_of_nonneg_right this (by positivity : (0 : ℝ) ≤ 1 / 2 * (∑ p, ‖Y i p‖) ^ 2)
      refine this.trans (le_of_eq ?_)
      rw [← mul_assoc]; congr 1; norm_num

/-! ### The program as shipped: `J = U = 1`, `dt = 0.01`, 2000 steps -/

theorem trivialFrequency_one : trivialFrequency 1 1 = 3 / 2 := by
  unfold trivialFrequency
  rw [show (2 * 1 ^ 2 + 1 ^ 2 / 4 : ℝ) = (3 / 2) ^ 2 by norm_num]
  exact Real.sqrt_sq (by norm_num)

theorem trivialAmplitude_norm (t : ℝ) (p : ℕ) : ‖trivialAmplitude 1 1 t p‖ ≤ 1 := by
  unfold trivialAmplitude
  simp only [trivialFrequency_one]
  have e1 : ‖Complex.exp (Complex.I * ((1 : ℝ) : ℂ) * t / 2)‖ = 1 := by
    rw [show Complex.I * ((1 : ℝ) : ℂ) * t / 2 = ((t / 2 : ℝ) : ℂ) * Complex.I by push_cast; ring]
    exact Complex.norm_exp_ofReal_mul_I _
  have e2 : ‖Complex.cos (((3 / 2 : ℝ) : ℂ) * t)‖ ≤ 1 := by
    rw [← Complex.ofReal_mul, ← Complex.ofReal_cos, Complex.norm_real]
    exact Real.abs_cos_le_one _
  have e3 : ‖Complex.sin (((3 / 2 : ℝ) : ℂ) * t)‖ ≤ 1 := by
    rw [← Complex.ofReal_mul, ← Complex.ofReal_sin, Complex.norm_real]
    exact Real.abs_sin_le_one _
  rw [norm_mul, e1, one_mul]
  split_ifs
  · exact e2
  · rw [norm_mul, norm_mul, Complex.norm_I, one_mul]
    have : ‖(((1 : ℝ) : ℂ)) / (2 * ((3 / 2 : ℝ) : ℂ))‖ = 1 / 3 := by
      rw [show (((1 : ℝ) : ℂ)) / (2 * ((3 / 2 : ℝ) : ℂ)) = ((1 / 3 : ℝ) : ℂ) by push_cast; norm_num, Complex.norm_real]; norm_num
    rw [this]; linarith
  · rw [norm_neg, norm_mul, norm_mul, Complex.norm_I, one_mul]
    have : ‖(((1 : ℝ) : ℂ)) / (((3 / 2 : ℝ) : ℂ))‖ = 2 / 3 := by
      rw [show (((1 : ℝ) : ℂ)) / (((3 / 2 : ℝ) : ℂ)) = ((2 / 3 : ℝ) : ℂ) by push_cast; norm_num, Complex.norm_real]; norm_num
    rw [this]; linarith

theorem trivialAmplitude_lipschitz (t s : ℝ) {p : ℕ} (hp : p < 4) : ‖trivialAmplitude 1 1 t p - trivialAmplitude 1 1 s p‖ ≤ 3 * |t - s| := by
  have h := (convex_univ (𝕜 := ℝ) (E := ℝ)).norm_image_sub_le_of_norm_hasDerivWithin_le (f := fun t => trivialAmplitude 1 1 t p) (C := 3) (x := s) (y := t)
    (f' := fun t => Complex.I * ∑ q ∈ Finset.range 4, (trivialMatrix 1 1 p q : ℂ) * trivialAmplitude 1 1 t q)
    (fun t _ => ((trivial_flow 1 1).flow t p hp).hasDerivWithinAt) (fun t _ => by
      rw [norm_mul, Complex.norm_I, one_mul]
      refine (norm_sum_le _ _).trans ?_
      have h1 := trivialMatrix_rows 1 1 p hp
      have h2 : ∑ q ∈ Finset.range 4, ‖(trivialMatrix 1 1 p q : ℂ) * trivialAmplitude 1 1 t q‖ ≤ ∑ q ∈ Finset.range 4, |trivialMatrix 1 1 p q| := by
        refine Finset.sum_le_sum fun q _ => ?_
        rw [norm_mul, Complex.norm_real, Real.norm_eq_abs]
        exact mul_le_of_le_one_right (abs_nonneg _) (trivialAmplitude_norm t q)
      refine h2.trans (h1.trans ?_)
      norm_num) (Set.mem_univ _) (Set.mem_univ _)
  simpa [Real.norm_eq_abs] using h

theorem normSq_sub_le {a b : ℂ} {ε : ℝ} (h : ‖a - b‖ ≤ ε) (hε : ε ≤ 1) (hb : ‖b‖ ≤ 1) :
    ‖(Complex.normSq a : ℂ) - (Complex.normSq b : ℂ)‖ ≤ 3 * ε := by
  have ha : ‖a‖ ≤ 1 + ε := by have := norm_add_le (a - b) b; rw [sub_add_cancel] at this; linarith
  rw [← Complex.ofReal_sub, Complex.norm_real, Real.norm_eq_abs, Complex.normSq_eq_norm_sq, Complex.normSq_eq_norm_sq]
  have h1 : |‖a‖ - ‖b‖| ≤ ε := (abs_norm_sub_norm_le a b).trans h
  rw [show ‖a‖ ^ 2 - ‖b‖ ^ 2 = (‖a‖ - ‖b‖) * (‖a‖ + ‖b‖) by ring, abs_mul, abs_of_nonneg (by positivity : 0 ≤ ‖a‖ + ‖b‖)]
  calc |‖a‖ - ‖b‖| * (‖a‖ + ‖b‖) ≤ ε * 3 := mul_le_mul h1 (by linarith) (by positivity) ((abs_nonneg _).trans h1)
    _ = _ := by ring

theorem mul_sub_le {a b c d : ℂ} {ε : ℝ} (h : ‖a - b‖ ≤ ε) (h' : ‖c - d‖ ≤ ε) (hε : ε ≤ 1) (hb : ‖b‖ ≤ 1) (hd : ‖d‖ ≤ 1) :
    ‖a * c - b * d‖ ≤ 3 * ε := by
  have hc : ‖c‖ ≤ 2 := by have := norm_add_le (c - d) d; rw [sub_add_cancel] at this; linarith
  rw [show a * c - b * d = (a - b) * c + b * (c - d) by ring]
  refine (norm_add_le _ _).trans ?_
  rw [norm_mul, norm_mul]
  have h1 := mul_le_mul h hc (norm_nonneg _) ((norm_nonneg _).trans h)
  have h2 := mul_le_mul hb h' (norm_nonneg _) (by norm_num)
  linarith

theorem trivialWritten_lipschitz {h v : Fin 4 → ℂ} {ε : ℝ} (hε : ε ≤ 1) (hh : ∀ p, ‖h p - v p‖ ≤ ε) (hv : ∀ p, ‖v p‖ ≤ 1) :
    ‖trivialWritten h - trivialWritten v‖ ≤ 15 * ε := by
  have q : ‖(((1 / Real.pi : ℝ)) : ℂ)‖ ≤ 1 / 3 := by
    rw [Complex.norm_real, Real.norm_eq_abs, abs_of_pos (by positivity)]
    exact one_div_le_one_div_of_le (by norm_num) Real.pi_gt_three.le
  set Q : ℂ := ((1 / Real.pi : ℝ) : ℂ) with hQ
  have n := fun p => normSq_sub_le (hh p) hε (hv p)
  have m := fun p r => mul_sub_le (hh p) (hh r) hε (hv p) (hv r)
  have e : trivialWritten h - trivialWritten v =
      (1 / 2 : ℂ) * (Complex.normSq (h 0) - Complex.normSq (v 0) : ℂ) + (1 / 2 : ℂ) * (Complex.normSq (h 1) - Complex.normSq (v 1) : ℂ) +
      (1 / 2 : ℂ) * (Complex.normSq (h 2) - Complex.normSq (v 2) : ℂ) + (1 / 4 : ℂ) * (Complex.normSq (h 3) - Complex.normSq (v 3) : ℂ) +
      (2 * Q) * (h 0 * h 1 - v 0 * v 1) + (2 * Q) * (h 0 * h 2 - v 0 * v 2) + (2 * Q) * (h 1 * h 2 - v 1 * v 2) +
      (1 / 2 : ℂ) * (h 0 * h 3 - v 0 * v 3) + Q * (h 1 * h 3 - v 1 * v 3) + Q * (h 2 * h 3 - v 2 * v 3) := by
    unfold trivialWritten
    ring
  have hε0 : 0 ≤ ε := (norm_nonneg _).trans (hh 0)
  have step : ∀ (c x : ℂ) (C : ℝ), ‖c‖ ≤ C → ‖x‖ ≤ 3 * ε → ‖c * x‖ ≤ C * (3 * ε) := by
    intro c x C h1 h2
    rw [norm_mul]; exact mul_le_mul h1 h2 (norm_nonneg _) ((norm_nonneg _).trans h1)
  have c1 : ‖(1 / 2 : ℂ)‖ ≤ 1 / 2 := by simp
  have c2 : ‖(1 / 4 : ℂ)‖ ≤ 1 / 4 := by simp
  have c3 : ‖(2 * Q : ℂ)‖ ≤ 2 / 3 := by rw [norm_mul, Complex.norm_two]; linarith
  rw [e]
  have t1 := step _ _ _ c1 (n 0)
  have t2 := step _ _ _ c1 (n 1)
  have t3 := step _ _ _ c1 (n 2)
  have t4 := step _ _ _ c2 (n 3)
  have t5 := step _ _ _ c3 (m 0 1)
  have t6 := step _ _ _ c3 (m 0 2)
  have t7 := step _ _ _ c3 (m 1 2)
  have t8 := step _ _ _ c1 (m 0 3)
  have t9 := step _ _ _ q (m 1 3)
  have t10 := step _ _ _ q (m 2 3)
  refine (norm_add_le_of_le (norm_add_le_of_le (norm_add_le_of_le (norm_add_le_of_le (norm_add_le_of_le (norm_add_le_of_le (norm_add_le_of_le
    (norm_add_le_of_le (norm_add_le_of_le t1 t2) t3) t4) t5) t6) t7) t8) t9) t10).trans ?_
  linarith

/-- The imaginary part of the number written for the exact solution. -/
theorem trivialWritten_im (t : ℝ) : (trivialWritten fun p => trivialAmplitude 1 1 t p).im =
    Real.cos t * (Real.sin (3 / 2 * t) * Real.cos (3 / 2 * t)) * (1 / 6 - 8 / 3 * (1 / Real.pi)) -
      Real.sin t * (4 / 9 * (1 / Real.pi) * Real.sin (3 / 2 * t) ^ 2) := by
  set c := Real.cos (3 / 2 * t) with hc
  set s := Real.sin (3 / 2 * t) with hs
  set Q := 1 / Real.pi with hQ
  have hcC : Complex.cos (((3 / 2 : ℝ) : ℂ) * t) = (c : ℂ) := by rw [hc, Complex.ofReal_cos, Complex.ofReal_mul]
  have hsC : Complex.sin (((3 / 2 : ℝ) : ℂ) * t) = (s : ℂ) := by rw [hs, Complex.ofReal_sin, Complex.ofReal_mul]
  set E := Complex.exp (Complex.I * ((1 : ℝ) : ℂ) * t / 2) with hE
  have hEE : E * E = (Real.cos t : ℂ) + (Real.sin t : ℂ) * Complex.I := by
    rw [hE, ← Complex.exp_add, show Complex.I * ((1 : ℝ) : ℂ) * t / 2 + Complex.I * ((1 : ℝ) : ℂ) * t / 2 = (t : ℂ) * Complex.I by push_cast; ring,
      Complex.exp_mul_I, Complex.ofReal_cos, Complex.ofReal_sin]
  have v0 : trivialAmplitude 1 1 t ((0 : Fin 4) : ℕ) = E * c := by
    show E * _ = _
    rw [if_pos (by decide), trivialFrequency_one, hcC]
  have v1 : trivialAmplitude 1 1 t ((1 : Fin 4) : ℕ) = E * (-(2 / 3 : ℝ) * s * Complex.I) := by
    show E * _ = _
    rw [if_neg (by decide), if_neg (by decide), trivialFrequency_one, hsC]
    push_cast; ring
  have v2 : trivialAmplitude 1 1 t ((2 : Fin 4) : ℕ) = E * (-(2 / 3 : ℝ) * s * Complex.I) := by
    show E * _ = _
    rw [if_neg (by decide), if_neg (by decide), trivialFrequency_one, hsC]
    push_cast; ring
  have v3 : trivialAmplitude 1 1 t ((3 : Fin 4) : ℕ) = E * ((1 / 3 : ℝ) * s * Complex.I) := by
    show E * _ = _
    rw [if_neg (by decide), if_pos (by decide), trivialFrequency_one, hsC]
    push_cast; ring
  have key : (trivialWritten fun p => trivialAmplitude 1 1 t p) =
      (((Complex.normSq (trivialAmplitude 1 1 t ((0 : Fin 4) : ℕ)) + Complex.normSq (trivialAmplitude 1 1 t ((1 : Fin 4) : ℕ)) +
        Complex.normSq (trivialAmplitude 1 1 t ((2 : Fin 4) : ℕ))) / 2 + Complex.normSq (trivialAmplitude 1 1 t ((3 : Fin 4) : ℕ)) / 4 : ℝ) : ℂ) +
      (E * E) * (((-(4 / 9) * Q * s ^ 2 : ℝ) : ℂ) + ((s * c * (1 / 6 - 8 / 3 * Q) : ℝ) : ℂ) * Complex.I) := by
    unfold trivialWritten
    beta_reduce
    rw [v0, v1, v2, v3, ← hQ]
    have hI : Complex.I ^ 2 = -1 := Complex.I_sq
    clear_value Q E c s
    push_cast
    linear_combination (4 / 9 * Q * s ^ 2 * E ^ 2) * hI
  rw [key, hEE, Complex.add_im, Complex.ofReal_im, zero_add]
  simp only [Complex.mul_im, Complex.add_im, Complex.add_re, Complex.mul_re, Complex.ofReal_re, Complex.ofReal_im, Complex.I_re, Complex.I_im]
  ring

/-- The shipped program computes the coefficients and the number correctly, up to `10^-6` and `10^-5`. -/
theorem trivial_shipped {cols : ℕ → List ℕ} (hc : ColumnOrder cols) (w : Work ℂ) :
    ∃ rows, trivialF double cols w 1 1 (double (1 / 100)) 2000 = .val rows ∧ rows.length = 2001 ∧
      ∀ i : ℕ, i ≤ 2000 → ∃ (t : ℝ) (h : Fin 4 → ℂ) (z : ℂ), rows[i]? = some
          [t, (h 0).re, (h 0).im, (h 1).re, (h 1).im, (h 2).re, (h 2).im, (h 3).re, (h 3).im, z.re, z.im] ∧ |t - (i : ℝ) / 100| ≤ 1 / 2 ^ 45 ∧
        (∀ p : Fin 4, ‖h p - trivialAmplitude 1 1 ((i : ℝ) / 100) p‖ ≤ 1 / 10 ^ 6) ∧
        ‖z - trivialWritten (fun p => trivialAmplitude 1 1 ((i : ℝ) / 100) p)‖ ≤ 1 / 10 ^ 5 := by
  have h1 : double (1 : ℝ) = 1 := by have := double_fix (m := 1) (e := 0) (by norm_num); simpa using this
  set d := double (1 / 100) with hd
  have hd1 := double_err (1 / 100)
  rw [← hd, abs_of_pos (by norm_num : (0 : ℝ) < 1 / 100)] at hd1
  obtain ⟨d1, d2⟩ := abs_le.1 hd1
  have d3 : 0 < d := double_pos (by norm_num)
  have d4 : d ≤ 1001 / 100000 := by norm_num at d2 ⊢; linarith
  have hB : (2 * |(1 : ℝ)| + |1|) = 3 := by norm_num
  obtain ⟨rows, r1, r2, r3⟩ := trivial_double h1 h1 d3 (by rw [hB]; nlinarith) hc (steps := 2000) (by norm_num) w
  rw [hB] at r3
  refine ⟨rows, r1, r2, fun i hi => ?_⟩
  obtain ⟨h, z, e1, e2, e3⟩ := r3 i hi
  have hi' : (i : ℝ) ≤ 2000 := by exact_mod_cast hi
  have hi0 : (0 : ℝ) ≤ i := Nat.cast_nonneg i
  have harg := theoryArgument_double (k := i) (by omega) 1
  have hst : theoryStep = 1 / 100 := by unfold theoryStep; norm_num
  rw [hst, ← hd] at harg
  simp only [one_mul, Nat.cast_one] at harg
  -- the error of the vector
  have herr : vectorErrorDouble (d * 3) i ≤ 45 / 10 ^ 8 := by
    unfold vectorErrorDouble
    have x1 : d * 3 ≤ 3003 / 100000 := by linarith
    have x0 : 0 ≤ d * 3 := by positivity
    have x2 : Real.exp (d * 3) ≤ 1.04 := by
      have := Real.exp_bound' (x := d * 3) x0 (by linarith) (n := 2) (by norm_num)
      norm_num [Finset.sum_range_succ, Nat.factorial] at this
      nlinarith
    have x3 : (d * 3) ^ 5 ≤ (3003 / 100000) ^ 5 := by gcongr
    calc (i : ℝ) * (1 / 2 ^ 41 + (d * 3) ^ 5 / 120 * Real.exp (d * 3)) ≤ 2000 * (1 / 2 ^ 41 + (3003 / 100000) ^ 5 / 120 * 1.04) := by gcongr
      _ ≤ _ := by norm_num
  have htime : |(i : ℝ) * d - i / 100| ≤ 1 / 10 ^ 9 := by
    rw [show (i : ℝ) * d - i / 100 = i * (d - 1 / 100) by ring, abs_mul, abs_of_nonneg hi0]
    calc (i : ℝ) * |d - 1 / 100| ≤ 2000 * (1 / 2 ^ 53 * (1 / 100)) := mul_le_mul hi' hd1 (abs_nonneg _) (by norm_num)
      _ ≤ _ := by norm_num
  have hcomp : ∀ p : Fin 4, ‖h p - trivialAmplitude 1 1 ((i : ℝ) / 100) p‖ ≤ 5 / 10 ^ 7 := by
    intro p
    have c1 : ‖h p - trivialAmplitude 1 1 (i * d) p‖ ≤ norm2 (fun p : Fin 4 => h p - trivialAmplitude 1 1 (i * d) p) := by
      unfold norm2
      rw [← Real.sqrt_sq (norm_nonneg (h p - trivialAmplitude 1 1 (i * d) p))]
      exact Real.sqrt_le_sqrt (Finset.single_le_sum (f := fun p : Fin 4 => ‖h p - trivialAmplitude 1 1 (i * d) p‖ ^ 2) (fun _ _ => by positivity)
        (Finset.mem_univ p))
    have c2 := trivialAmplitude_lipschitz (i * d) ((i : ℝ) / 100) p.2
    have c3 := norm_sub_le_norm_sub_add_norm_sub (h p) (trivialAmplitude 1 1 (i * d) p) (trivialAmplitude 1 1 ((i : ℝ) / 100) p)
    norm_num at htime herr ⊢
    linarith
  refine ⟨_, h, z, e1, harg, fun p => (hcomp p).trans (by norm_num), ?_⟩
  have hv := fun p : Fin 4 => trivialAmplitude_norm ((i : ℝ) / 100) p
  have l1 := trivialWritten_lipschitz (h := h) (v := fun p => trivialAmplitude 1 1 ((i : ℝ) / 100) p) (ε := 5 / 10 ^ 7) (by norm_num) hcomp hv
  have l2 := norm_sub_le_norm_sub_add_norm_sub z (trivialWritten h) (trivialWritten fun p => trivialAmplitude 1 1 ((i : ℝ) / 100) p)
  have l3 : ∑ p, ‖h p‖ ≤ 8 := by
    have : ∀ p ∈ (Finset.univ : Finset (Fin 4)), ‖h p‖ ≤ 2 := by
      intro p _
      have := norm_add_le (h p - trivialAmplitude 1 1 ((i : ℝ) / 100) p) (trivialAmplitude 1 1 ((i : ℝ) / 100) p)
      rw [sub_add_cancel] at this
      have h5 := hcomp p
      have h6 := hv p
      norm_num at h5
      linarith
    refine (Finset.sum_le_sum this).trans ?_
    simp; norm_num
  have l4 : 1 / 2 ^ 48 * (∑ p, ‖h p‖) ^ 2 ≤ 1 / 2 ^ 48 * 8 ^ 2 := by gcongr
  norm_num at l1 l4 ⊢
  linarith

/-- **C113 is false for the particle number of the shipped program**: in row 50 (time 1/2) of the file of the real program, in `double` arithmetic,
the imaginary part of the "particle number" is below `-1/5`. -/
theorem trivial_shipped_wrong {cols : ℕ → List ℕ} (hc : ColumnOrder cols) (w : Work ℂ) :
    ∃ (rows : List (List ℝ)) (row : List ℝ) (x : ℝ), trivialF double cols w 1 1 (double (1 / 100)) 2000 = .val rows ∧ rows[50]? = some row ∧ row[10]? = some x ∧ x ≤ -1 / 5 := by
  obtain ⟨rows, r1, -, r3⟩ := trivial_shipped hc w
  obtain ⟨t, h, z, e1, -, -, e4⟩ := r3 50 (by norm_num)
  refine ⟨rows, _, z.im, r1, e1, rfl, ?_⟩
  have e5 := (Complex.abs_im_le_norm _).trans e4
  rw [Complex.sub_im, trivialWritten_im, show ((50 : ℕ) : ℝ) / 100 = 1 / 2 by norm_num, show (3 / 2 : ℝ) * (1 / 2) = 3 / 4 by norm_num] at e5
  have c1 := Real.one_sub_sq_div_two_le_cos (x := 1 / 2)
  have c2 := Real.one_sub_sq_div_two_le_cos (x := 3 / 4)
  have s1 := Real.sin_gt_sub_cube (x := 3 / 4) (by norm_num)
  have s2 : 0 ≤ Real.sin (1 / 2) := Real.sin_nonneg_of_nonneg_of_le_pi (by norm_num) (by linarith [Real.pi_gt_three])
  have q1 : (1 / 3.15 : ℝ) ≤ 1 / Real.pi := one_div_le_one_div_of_le Real.pi_pos (by linarith [Real.pi_lt_d2])
  set C1 := Real.cos (1 / 2)
  set C2 := Real.cos (3 / 4)
  set S := Real.sin (3 / 4)
  set Q := 1 / Real.pi
  norm_num at c1 c2 s1 q1
  have p1 : 0.6 ≤ S := by linarith
  have p2 : 0.7 ≤ C2 := by linarith
  have p3 : 0.8 ≤ C1 := by linarith
  have p4 : (0.42 : ℝ) ≤ S * C2 := by nlinarith
  have p5 : (0.33 : ℝ) ≤ C1 * (S * C2) := by nlinarith
  have p6 : (0.65 : ℝ) ≤ 8 / 3 * Q - 1 / 6 := by linarith
  have p7 : (0.21 : ℝ) ≤ C1 * (S * C2) * (8 / 3 * Q - 1 / 6) := by nlinarith
  have p8 : 0 ≤ Real.sin (1 / 2) * (4 / 9 * Q * S ^ 2) := by positivity
  have p9 := (abs_le.1 e5).2
  norm_num at p9 ⊢
  nlinarith

/-- The hypotheses can be met. -/
example : ColumnOrder fun _ => List.range 4 := fun _ _ => List.Perm.refl _

end Ieompp.Program
