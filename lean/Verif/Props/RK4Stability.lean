import Verif.Props.RK4Order
import Verif.Props.Flow
import Mathlib.LinearAlgebra.Matrix.ConjTranspose
import Mathlib.LinearAlgebra.Matrix.DotProduct
import Mathlib.Algebra.Order.BigOperators.Ring.Finset

/-! # C55: the integration of the equations of motion does not increase the norm -/

set_option autoImplicit false
set_option linter.unusedSectionVars false

namespace Ieompp.ODE

open Ieompp.Spec Matrix ComplexConjugate

variable {n : ℕ}

/-- `Σ |v_i|²`. -/
noncomputable def normSq2 (v : Fin n → ℂ) : ℝ := ∑ i, ‖v i‖ ^ 2

theorem normSq2_dot (v : Fin n → ℂ) : star v ⬝ᵥ v = (normSq2 v : ℂ) := by
  unfold normSq2 dotProduct
  push_cast
  refine Finset.sum_congr rfl fun i _ => ?_
  rw [Pi.star_apply, Complex.star_def, ← Complex.normSq_eq_conj_mul_self, Complex.normSq_eq_norm_sq]; push_cast; rfl

theorem herm_move {X : Matrix (Fin n) (Fin n) ℂ} (hX : Xᴴ = X) (a b : Fin n → ℂ) :
    star (X.mulVec a) ⬝ᵥ b = star a ⬝ᵥ X.mulVec b := by
  rw [star_mulVec, hX, dotProduct_mulVec]

/-- The moments `⟨u, X^k u⟩` are real, and `⟨X^j u, X^k u⟩` depends on `j + k` only. -/
theorem herm_moment {X : Matrix (Fin n) (Fin n) ℂ} (hX : Xᴴ = X) (u : Fin n → ℂ) (j k : ℕ) :
    star ((X ^ j).mulVec u) ⬝ᵥ (X ^ k).mulVec u = ((star u ⬝ᵥ (X ^ (j + k)).mulVec u).re : ℂ) := by
  have h1 : ∀ j k, star ((X ^ j).mulVec u) ⬝ᵥ (X ^ k).mulVec u = star u ⬝ᵥ (X ^ (j + k)).mulVec u := by
    intro j k
    have hj : (X ^ j)ᴴ = X ^ j := by rw [conjTranspose_pow, hX]
    rw [herm_move hj, mulVec_mulVec, ← pow_add]
  rw [h1]
  have hreal : conj (star u ⬝ᵥ (X ^ (j + k)).mulVec u) = star u ⬝ᵥ (X ^ (j + k)).mulVec u := by
    have hs : (X ^ (j + k))ᴴ = X ^ (j + k) := by rw [conjTranspose_pow, hX]
    change star _ = _
    rw [← star_dotProduct, herm_move hs]
  exact (Complex.conj_eq_iff_re.1 hreal).symm

/-- The norm after a step with the skew-adjoint generator `i X` (step width absorbed in `X`). -/
theorem step_norm {X : Matrix (Fin n) (Fin n) ℂ} (hX : Xᴴ = X) (u : Fin n → ℂ) :
    normSq2 ((exp4 (1 : ℂ) (Complex.I • X)).mulVec u) =
      normSq2 u - normSq2 ((X ^ 3).mulVec u) / 72 + normSq2 ((X ^ 4).mulVec u) / 576 := by
  have hx : exp4 (1 : ℂ) (Complex.I • X) = 1 + Complex.I • X + (-1 / 2 : ℂ) • X ^ 2 + (-Complex.I / 6) • X ^ 3 +
      (1 / 24 : ℂ) • X ^ 4 := by
    unfold exp4
    simp only [Finset.sum_range_succ, Finset.sum_range_zero, smul_pow, smul_smul, Nat.factorial]
    have i2 : Complex.I ^ 2 = -1 := Complex.I_sq
    have i3 : Complex.I ^ 3 = -Complex.I := by rw [pow_succ, i2]; ring
    have i4 : Complex.I ^ 4 = 1 := Complex.I_pow_four
    rw [i2, i3, i4]
    norm_num
    rw [← neg_smul]
    congr 3
    ring
  set S : ℕ → ℝ := fun k => (star u ⬝ᵥ (X ^ k).mulVec u).re with hS
  have hm : ∀ j k, star ((X ^ j).mulVec u) ⬝ᵥ (X ^ k).mulVec u = (S (j + k) : ℂ) := herm_moment hX u
  have n0 : (normSq2 u : ℂ) = S 0 := by
    rw [← normSq2_dot]; have := hm 0 0; simpa using this
  have nk : ∀ k, (normSq2 ((X ^ k).mulVec u) : ℂ) = S (k + k) := fun k => by rw [← normSq2_dot, hm]
  have hu : u = (X ^ 0).mulVec u := by simp
  have h1 : X.mulVec u = (X ^ 1).mulVec u := by simp
  have key : (normSq2 ((exp4 (1 : ℂ) (Complex.I • X)).mulVec u) : ℂ) = S 0 - S 6 / 72 + S 8 / 576 := by
    rw [← normSq2_dot, hx]
    simp only [add_mulVec, smul_mulVec, one_mulVec, star_add, star_smul, add_dotProduct, dotProduct_add, smul_dotProduct,
      dotProduct_smul, h1]
    have e0 : ∀ k, star u ⬝ᵥ (X ^ k).mulVec u = (S k : ℂ) := fun k => by
      have := hm 0 k; simpa using this
    have e0' : ∀ k, star ((X ^ k).mulVec u) ⬝ᵥ u = (S k : ℂ) := fun k => by
      have := hm k 0; simpa using this
    have e00 : star u ⬝ᵥ u = (S 0 : ℂ) := by have := hm 0 0; simpa using this
    simp only [hm, e0, e0', e00, smul_eq_mul, Complex.star_def, map_div₀, map_neg, map_one, Complex.conj_I,
      Complex.conj_ofNat]
    ring_nf
    simp only [Complex.I_sq]
    ring
  have h3 := nk 3
  have h4 := nk 4
  norm_num at h3 h4
  have : (normSq2 ((exp4 (1 : ℂ) (Complex.I • X)).mulVec u) : ℂ) =
      ((normSq2 u - normSq2 ((X ^ 3).mulVec u) / 72 + normSq2 ((X ^ 4).mulVec u) / 576 : ℝ) : ℂ) := by
    rw [key]; push_cast; rw [n0, h3, h4]
  exact_mod_cast this

/-- Schur's test: a symmetric matrix with absolute row sums at most `B` does not stretch vectors by more than `B`. -/
theorem schur_test (m : Fin n → Fin n → ℝ) (hsym : ∀ i j, m i j = m j i) (B : ℝ)
    (hB : ∀ i, ∑ j, |m i j| ≤ B) (v : Fin n → ℂ) :
    normSq2 (fun i => ∑ j, (m i j : ℂ) * v j) ≤ B ^ 2 * normSq2 v := by
  by_cases hn : Nonempty (Fin n)
  swap
  · rw [not_nonempty_iff] at hn; simp [normSq2]
  have hB0 : 0 ≤ B := le_trans (Finset.sum_nonneg fun j _ => abs_nonneg _) (hB hn.some)
  have row : ∀ i, ‖∑ j, (m i j : ℂ) * v j‖ ^ 2 ≤ B * ∑ j, |m i j| * ‖v j‖ ^ 2 := by
    intro i
    have h1 : ‖∑ j, (m i j : ℂ) * v j‖ ≤ ∑ j, |m i j| * ‖v j‖ := by
      refine (norm_sum_le _ _).trans (le_of_eq (Finset.sum_congr rfl fun j _ => ?_))
      rw [norm_mul, Complex.norm_real, Real.norm_eq_abs]
    have h2 : (∑ j, |m i j| * ‖v j‖) ^ 2 ≤ (∑ j, |m i j|) * ∑ j, |m i j| * ‖v j‖ ^ 2 := by
      have := Finset.sum_mul_sq_le_sq_mul_sq Finset.univ (fun j => Real.sqrt |m i j|) (fun j => Real.sqrt |m i j| * ‖v j‖)
      simp only [mul_pow, Real.sq_sqrt (abs_nonneg _), ← mul_assoc, Real.mul_self_sqrt (abs_nonneg _)] at this
      exact this
    calc ‖∑ j, (m i j : ℂ) * v j‖ ^ 2 ≤ (∑ j, |m i j| * ‖v j‖) ^ 2 := by gcongr
      _ ≤ (∑ j, |m i j|) * ∑ j, |m i j| * ‖v j‖ ^ 2 := h2
      _ ≤ B * ∑ j, |m i j| * ‖v j‖ ^ 2 :=
          mul_le_mul_of_nonneg_right (hB i) (Finset.sum_nonneg fun j _ => by positivity)
  unfold normSq2
  calc ∑ i, ‖∑ j, (m i j : ℂ) * v j‖ ^ 2 ≤ ∑ i, B * ∑ j, |m i j| * ‖v j‖ ^ 2 := Finset.sum_le_sum fun i _ => row i
    _ = B * ∑ j, (∑ i, |m i j|) * ‖v j‖ ^ 2 := by
        rw [← Finset.mul_sum, Finset.sum_comm]; simp only [Finset.sum_mul]
    _ ≤ B * ∑ j, B * ‖v j‖ ^ 2 := by
        refine mul_le_mul_of_nonneg_left (Finset.sum_le_sum fun j _ => ?_) hB0
        refine mul_le_mul_of_nonneg_right ?_ (by positivity)
        rw [Finset.sum_congr rfl (fun i _ => by rw [hsym i j] : ∀ i ∈ Finset.univ, |m i j| = |m j i|)]
        exact hB j
    _ = B ^ 2 * ∑ j, ‖v j‖ ^ 2 := by rw [← Finset.mul_sum]; ring

/-- One step with `i M` for a real symmetric matrix with absolute row sums at most `B` and `dt B ≤ √8`. -/
theorem exp4_norm_le (m : ℕ → ℕ → ℝ) (hsym : ∀ i < n, ∀ j < n, m i j = m j i) (B dt : ℝ) (hB0 : 0 ≤ B) (hdt : 0 ≤ dt)
    (hB : ∀ i < n, ∑ j ∈ Finset.range n, |m i j| ≤ B) (hst : (dt * B) ^ 2 ≤ 8) (u : Fin n → ℂ) :
    normSq2 ((exp4 (dt : ℂ) (mat n fun i j => Complex.I * (m i j : ℂ))).mulVec u) ≤ normSq2 u := by
  set X : Matrix (Fin n) (Fin n) ℂ := Matrix.of fun i j => ((dt * m i j : ℝ) : ℂ) with hXdef
  have hX : Xᴴ = X := by
    ext i j
    rw [conjTranspose_apply, hXdef]
    simp only [of_apply, Complex.star_def, Complex.conj_ofReal]
    rw [hsym j j.2 i i.2]
  have he : exp4 (dt : ℂ) (mat n fun i j => Complex.I * (m i j : ℂ)) = exp4 (1 : ℂ) (Complex.I • X) := by
    unfold exp4
    refine Finset.sum_congr rfl fun k _ => ?_
    have : Complex.I • X = (dt : ℂ) • mat n fun i j => Complex.I * (m i j : ℂ) := by
      ext i j; simp [hXdef, mat]; ring
    rw [this, smul_pow, smul_smul, one_pow]
    congr 1; ring
  rw [he, step_norm hX]
  have hs : normSq2 ((X ^ 4).mulVec u) ≤ 8 * normSq2 ((X ^ 3).mulVec u) := by
    have e : (X ^ 4).mulVec u = fun i : Fin n => ∑ j : Fin n, ((dt * m i j : ℝ) : ℂ) * ((X ^ 3).mulVec u) j := by
      rw [pow_succ', ← mulVec_mulVec]; rfl
    rw [e]
    refine (schur_test (fun i j : Fin n => dt * m i j) (fun i j => by rw [hsym i i.2 j j.2]) (dt * B) (fun i => ?_) _).trans ?_
    · simp only [abs_mul, abs_of_nonneg hdt, ← Finset.mul_sum]
      refine mul_le_mul_of_nonneg_left ?_ hdt
      rw [Fin.sum_univ_eq_sum_range (fun j => |m i j|) n]
      exact hB i i.2
    · refine mul_le_mul_of_nonneg_right hst ?_
      exact Finset.sum_nonneg fun i _ => by positivity
  have h0 : 0 ≤ normSq2 ((X ^ 3).mulVec u) := Finset.sum_nonneg fun i _ => by positivity
  linarith

/-- C55: with a real symmetric matrix `M`, integrating `v' = i M v` with `dt · (largest absolute row sum) ≤ √8` never
increases the norm of the vector, for any number of steps. -/
theorem rk4_stable (m : ℕ → ℕ → ℝ) (hsym : ∀ i < n, ∀ j < n, m i j = m j i) (B dt : ℝ) (hB0 : 0 ≤ B) (hdt : 0 ≤ dt)
    (hB : ∀ i < n, ∑ j ∈ Finset.range n, |m i j| ≤ B) (hst : (dt * B) ^ 2 ≤ 8) (w : Work ℂ) (u : Fin n → ℂ) (k : ℕ) :
    ∃ (w' : Work ℂ) (y : Fin n → ℂ), integrate n (dt : ℂ) (fun i j => Complex.I * (m i j : ℂ)) k w (List.ofFn u) =
      .val (w', List.ofFn y) ∧ ∑ i, ‖y i‖ ^ 2 ≤ ∑ i, ‖u i‖ ^ 2 := by
  obtain ⟨w', e⟩ := integrate_correct (dt : ℂ) (fun i j => Complex.I * (m i j : ℂ)) k w u
  refine ⟨w', _, e, ?_⟩
  clear e
  induction k with
  | zero => simp
  | succ k ih =>
    refine le_trans ?_ ih
    rw [pow_succ', ← mulVec_mulVec]
    exact exp4_norm_le m hsym B dt hB0 hdt hB hst _

end Ieompp.ODE

namespace Ieompp.RealSpace

open Ieompp.Spec ODE

theorem sum_abs_columnSum (n : ℕ) : ∀ l : List (Triplet ℝ),
    ∑ c ∈ Finset.range n, |columnSum l c| ≤ (l.map fun t => |t.value|).sum
  | [] => by simp [columnSum]
  | t :: l => by
    have ih := sum_abs_columnSum n l
    have h : ∀ c, |columnSum (t :: l) c| ≤ (if t.column = c then |t.value| else 0) + |columnSum l c| := by
      intro c
      unfold columnSum
      rw [List.filter_cons]
      split_ifs with h1 h2 h2
      · rw [List.map_cons, List.sum_cons]; exact abs_add_le _ _
      · simp at h1; exact absurd h1 h2
      · simp at h1; exact absurd h2 h1
      · rw [zero_add]
    calc ∑ c ∈ Finset.range n, |columnSum (t :: l) c|
        ≤ ∑ c ∈ Finset.range n, ((if t.column = c then |t.value| else 0) + |columnSum l c|) :=
          Finset.sum_le_sum fun c _ => h c
      _ = (∑ c ∈ Finset.range n, if t.column = c then |t.value| else 0) + ∑ c ∈ Finset.range n, |columnSum l c| :=
          Finset.sum_add_distrib
      _ ≤ |t.value| + (l.map fun t => |t.value|).sum := by
          refine add_le_add ?_ ih
          rw [Finset.sum_ite_eq]
          split_ifs
          · exact le_rfl
          · exact abs_nonneg _
      _ = ((t :: l).map fun t => |t.value|).sum := by rw [List.map_cons, List.sum_cons]

theorem abs_sum_const {z : ℕ} (l : List ℕ) (hl : l.length = z) (f : ℕ → Triplet ℝ) (J : ℝ) (hf : ∀ x, |(f x).value| = |J|) :
    ((l.map f).map fun t => |t.value|).sum = z * |J| := by
  rw [List.map_map, List.map_congr_left (f := (fun t : Triplet ℝ => |t.value|) ∘ f) (g := fun _ => |J|) (fun x _ => hf x)]
  simp [hl]

variable {N z : ℕ} {nb : ℕ → List ℕ}

theorem row_abs_sum (h : RegularLattice N z nb) (J U : ℝ) {row : ℕ} (hr : row < N + N * N * N) :
    ((rowList N nb J U row).map fun t => |t.value|).sum ≤ 3 * z * |J| + |U| := by
  have hz : 0 ≤ (z : ℝ) * |J| := by positivity
  have hU : |U / 2| = |U| / 2 := by rw [abs_div, abs_two]
  by_cases hN : row < N
  · have e' : rowList N nb J U row = oneTriplets N nb J U row := by
      unfold rowList; rw [rowTriplets_one nb J U hN]; rfl
    rw [e']
    unfold oneTriplets
    rw [List.map_append, List.sum_append, abs_sum_const _ (h.length row hN) _ J (fun x => by simp)]
    simp only [List.map_cons, List.map_nil, List.sum_cons, List.sum_nil, hU]
    linarith
  · obtain ⟨a, b, c, ha, hb, hc, rfl⟩ := (realBasis_index_bijective N).2.1 row (by omega) hr
    have e' : rowList N nb J U (get3opIndex N a b c) = threeTriplets N nb J U (get3opIndex N a b c) a b c := by
      unfold rowList; rw [rowTriplets_three nb J U ha hb hc]; rfl
    rw [e']
    unfold threeTriplets
    simp only [List.map_append, List.sum_append]
    rw [abs_sum_const _ (h.length a ha) _ J (fun x => by simp), abs_sum_const _ (h.length b hb) _ J (fun x => by simp),
      abs_sum_const _ (h.length c hc) _ J (fun x => by simp)]
    have hUn := abs_nonneg U
    split_ifs <;> simp only [List.map_cons, List.map_nil, List.sum_cons, List.sum_nil, hU] <;> linarith

/-- C55 for the programs: on every regular lattice (coordination number `z`), with `dt (3 z |J| + |U|) ≤ √8`, no number of
Runge–Kutta steps with `i M`, `M` the complete matrix, increases the norm of the coefficient vector. -/
theorem matrix_rk4_stable (h : RegularLattice N z nb) (sort : List (Triplet ℝ) → List (Triplet ℝ)) (hs : IsSort sort)
    (J U dt : ℝ) (hdt : 0 ≤ dt) (hst : (dt * (3 * z * |J| + |U|)) ^ 2 ≤ 8) :
    ∃ m, initMatrix sort N z nb J U = .val m ∧ m.rows = N + N * N * N ∧
      ∀ (w : Work ℂ) (u : Fin m.rows → ℂ) (k : ℕ), ∃ (w' : Work ℂ) (y : Fin m.rows → ℂ),
        integrate m.rows (dt : ℂ) (fun i j => Complex.I * (m.get i j : ℂ)) k w (List.ofFn u) = .val (w', List.ofFn y) ∧
        ∑ i, ‖y i‖ ^ 2 ≤ ∑ i, ‖u i‖ ^ 2 := by
  obtain ⟨m, h1, h2, _, _, _, _, h3, _⟩ := initMatrix_ok h sort hs J U
  obtain ⟨m', h1', _, h4⟩ := initMatrix_symm h sort hs J U
  rw [h1] at h1'
  cases h1'
  refine ⟨m, h1, h2, fun w u k => ?_⟩
  refine rk4_stable (fun i j => m.get i j) h4 (3 * z * |J| + |U|) dt (by positivity) hdt (fun i hi => ?_) hst w u k
  rw [h2] at hi
  rw [Finset.sum_congr rfl fun c _ => by rw [h3 i hi c]]
  exact (sum_abs_columnSum _ _).trans (row_abs_sum h J U hi)

/-- The default parameters of the programs (`J = U = 1`, `dt = 0.01`, chain) meet the hypothesis with room to spare. -/
example : ((1 / 100 : ℝ) * (3 * (2 : ℕ) * |1| + |1|)) ^ 2 ≤ 8 := by norm_num

end Ieompp.RealSpace
