import Verif.Props.StepWidth
import Mathlib.Analysis.Matrix.Spectrum

/-!
# C105: the exact condition on the step width for the complete program

The coefficients stay bounded if and only if every frequency that is contained in the initial operator lies in the stability region.
-/

set_option autoImplicit false
set_option linter.unusedSectionVars false

namespace Ieompp.Program

open Ieompp.Spec RealSpace ODE Matrix

variable {n : ℕ}

/-- The component of an eigenvector is multiplied by the eigenvalue. -/
theorem eigen_dot {A : Matrix (Fin n) (Fin n) ℂ} (hA : Aᴴ = A) {w : Fin n → ℂ} {l : ℝ} (hw : A.mulVec w = (l : ℂ) • w) (u : Fin n → ℂ) :
    star w ⬝ᵥ A.mulVec u = (l : ℂ) * (star w ⬝ᵥ u) := by
  rw [← herm_move hA, hw, star_smul, smul_dotProduct, smul_eq_mul, Complex.star_def, Complex.conj_ofReal]

theorem eigen_dot_pow {A : Matrix (Fin n) (Fin n) ℂ} (hA : Aᴴ = A) {w : Fin n → ℂ} {l : ℝ} (hw : A.mulVec w = (l : ℂ) • w) (j : ℕ) (u : Fin n → ℂ) :
    star w ⬝ᵥ (A ^ j).mulVec u = (l : ℂ) ^ j * (star w ⬝ᵥ u) := by
  induction j with
  | zero => simp
  | succ j ih => rw [pow_succ', ← mulVec_mulVec, eigen_dot hA hw, ih, pow_succ']; ring

theorem eigen_dot_exp4 {A : Matrix (Fin n) (Fin n) ℂ} (hA : Aᴴ = A) {w : Fin n → ℂ} {l : ℝ} (hw : A.mulVec w = (l : ℂ) • w) (dt : ℝ) (u : Fin n → ℂ) :
    star w ⬝ᵥ (exp4 (dt : ℂ) (Complex.I • A)).mulVec u = exp4 (dt : ℂ) (Complex.I * (l : ℂ)) * (star w ⬝ᵥ u) := by
  unfold exp4
  rw [Matrix.sum_mulVec, dotProduct_sum, Finset.sum_mul]
  refine Finset.sum_congr rfl fun j _ => ?_
  rw [smul_pow, smul_smul, smul_mulVec, dotProduct_smul, eigen_dot_pow hA hw, smul_eq_mul, smul_eq_mul, mul_pow]
  ring

theorem eigen_dot_steps {A : Matrix (Fin n) (Fin n) ℂ} (hA : Aᴴ = A) {w : Fin n → ℂ} {l : ℝ} (hw : A.mulVec w = (l : ℂ) • w) (dt : ℝ) (k : ℕ) (u : Fin n → ℂ) :
    star w ⬝ᵥ (exp4 (dt : ℂ) (Complex.I • A) ^ k).mulVec u = exp4 (dt : ℂ) (Complex.I * (l : ℂ)) ^ k * (star w ⬝ᵥ u) := by
  induction k with
  | zero => simp
  | succ k ih => rw [pow_succ', ← mulVec_mulVec, eigen_dot_exp4 hA hw, ih, pow_succ']; ring

/-- An orthonormal basis of eigenvectors: the squared norm of a vector is the sum of the squared moduli of its components. -/
theorem eigen_basis {A : Matrix (Fin n) (Fin n) ℂ} (hA : Aᴴ = A) :
    ∃ (l : Fin n → ℝ) (w : Fin n → Fin n → ℂ), (∀ a, A.mulVec (w a) = (l a : ℂ) • w a) ∧ ∀ u, ∑ a, ‖star (w a) ⬝ᵥ u‖ ^ 2 = normSq2 u := by
  have hH : A.IsHermitian := hA
  refine ⟨hH.eigenvalues, fun a => (hH.eigenvectorBasis a).ofLp, fun a => ?_, fun u => ?_⟩
  · have := hH.mulVec_eigenvectorBasis a
    rw [this]
    ext i
    simp
  · have h := hH.eigenvectorBasis.sum_sq_norm_inner_right (WithLp.toLp 2 u)
    rw [EuclideanSpace.norm_sq_eq] at h
    unfold normSq2
    rw [← h]
    refine Finset.sum_congr rfl fun a _ => ?_
    rw [EuclideanSpace.inner_eq_star_dotProduct, dotProduct_comm]

/-- The norm after `k` steps, frequency by frequency. -/
theorem normSq2_steps {A : Matrix (Fin n) (Fin n) ℂ} (hA : Aᴴ = A) {l : Fin n → ℝ} {w : Fin n → Fin n → ℂ} (hw : ∀ a, A.mulVec (w a) = (l a : ℂ) • w a)
    (hp : ∀ u, ∑ a, ‖star (w a) ⬝ᵥ u‖ ^ 2 = normSq2 u) (dt : ℝ) (k : ℕ) (u : Fin n → ℂ) :
    normSq2 ((exp4 (dt : ℂ) (Complex.I • A) ^ k).mulVec u) =
      ∑ a, (1 - (dt * l a) ^ 6 / 72 + (dt * l a) ^ 8 / 576) ^ k * ‖star (w a) ⬝ᵥ u‖ ^ 2 := by
  rw [← hp]
  refine Finset.sum_congr rfl fun a _ => ?_
  rw [eigen_dot_steps hA (hw a), norm_mul, mul_pow, norm_pow, pow_right_comm, exp4_imaginary]

theorem growth_le {x : ℝ} (hx : x ^ 2 ≤ 8) : 0 ≤ 1 - x ^ 6 / 72 + x ^ 8 / 576 ∧ 1 - x ^ 6 / 72 + x ^ 8 / 576 ≤ 1 := by
  have e := exp4_imaginary 1 x
  rw [one_mul] at e
  refine ⟨by rw [← e]; positivity, ?_⟩
  have : x ^ 8 = x ^ 6 * x ^ 2 := by ring
  have h6 : 0 ≤ x ^ 6 := by positivity
  rw [this]
  nlinarith

theorem growth_gt {x : ℝ} (hx : 8 < x ^ 2) : 1 < 1 - x ^ 6 / 72 + x ^ 8 / 576 := by
  have h6 : 0 < x ^ 6 := by
    have : x ≠ 0 := by rintro h; rw [h] at hx; norm_num at hx
    positivity
  have : x ^ 8 = x ^ 6 * x ^ 2 := by ring
  rw [this]
  nlinarith

/-- The real symmetric matrix that a program integrates has the frequency `l`, and the initial operator (the first one of the basis) contains it: there is a vector `w`, an eigenvector for `l`, which is not orthogonal to the first
unit vector. -/
def HasFrequency (n : ℕ) (m : ℕ → ℕ → ℝ) (l : ℝ) : Prop :=
  ∃ w : ℕ → ℂ, (∀ i < n, ∑ j ∈ Finset.range n, (m i j : ℂ) * w j = (l : ℂ) * w i) ∧ w 0 ≠ 0

/-- The matrix with real elements, as a complex one. -/
noncomputable def realMat (n : ℕ) (m : ℕ → ℕ → ℝ) : Matrix (Fin n) (Fin n) ℂ := Matrix.of fun i j => (m i j : ℂ)

theorem realMat_herm {m : ℕ → ℕ → ℝ} (hsym : ∀ p < n, ∀ q < n, m p q = m q p) : (realMat n m)ᴴ = realMat n m := by
  ext i j
  simp [realMat, hsym j j.2 i i.2]

theorem realMat_timesI (m : Sparse ℝ) : mat n (timesI m) = Complex.I • realMat n fun i j => m.get i j := by
  ext i j
  simp [realMat, mat, timesI]

/-- The first unit vector. -/
def start (n : ℕ) : Fin n → ℂ := fun p => if (p : ℕ) = 0 then 1 else 0

theorem dot_start {n : ℕ} (hn : 1 ≤ n) (w : Fin n → ℂ) : star w ⬝ᵥ start n = star (w ⟨0, hn⟩) := by
  unfold dotProduct start
  rw [Finset.sum_eq_single ⟨0, hn⟩]
  · simp
  · intro b _ hb
    rw [if_neg fun h => hb (Fin.ext h), mul_zero]
  · simp

theorem hasFrequency_of {n : ℕ} (hn : 1 ≤ n) {m : ℕ → ℕ → ℝ} {l : ℝ} {w : Fin n → ℂ} (hw : (realMat n m).mulVec w = (l : ℂ) • w)
    (h0 : star w ⬝ᵥ start n ≠ 0) : HasFrequency n m l := by
  refine ⟨fun i => if h : i < n then w ⟨i, h⟩ else 0, fun i hi => ?_, ?_⟩
  · have := congrFun hw ⟨i, hi⟩
    simp only [mulVec, dotProduct, realMat, Matrix.of_apply, Pi.smul_apply, smul_eq_mul] at this
    beta_reduce
    rw [dif_pos hi, ← this, ← Fin.sum_univ_eq_sum_range (fun j => (m i j : ℂ) * if h : j < n then w ⟨j, h⟩ else 0)]
    refine Finset.sum_congr rfl fun j _ => ?_
    rw [dif_pos j.2]
  · rw [dot_start hn] at h0
    beta_reduce
    rw [dif_pos (by omega)]
    exact fun h => h0 (by rw [h, star_zero])

theorem hasFrequency_vector {n : ℕ} (hn : 1 ≤ n) {m : ℕ → ℕ → ℝ} {l : ℝ} (h : HasFrequency n m l) :
    ∃ w : Fin n → ℂ, (realMat n m).mulVec w = (l : ℂ) • w ∧ star w ⬝ᵥ start n ≠ 0 := by
  obtain ⟨w, hw, h0⟩ := h
  refine ⟨fun i => w i, ?_, ?_⟩
  · ext i
    simp only [mulVec, dotProduct, realMat, Matrix.of_apply, Pi.smul_apply, smul_eq_mul]
    rw [Fin.sum_univ_eq_sum_range (fun j => (m i j : ℂ) * w j)]
    exact hw i i.2
  · rw [dot_start hn]
    exact fun h => h0 (star_eq_zero.1 h)

theorem normSq2_start {n : ℕ} (hn : 1 ≤ n) : normSq2 (start n) = 1 := by
  unfold normSq2 start
  rw [Finset.sum_congr (g := fun p : Fin n => if (p : ℕ) = 0 then (1 : ℝ) else 0) rfl fun p _ => by split_ifs <;> simp,
    Fin.sum_univ_eq_sum_range (fun p => if p = 0 then (1 : ℝ) else 0), Finset.sum_ite_eq' (Finset.range n) 0, if_pos (Finset.mem_range.2 (by omega))]

/-- If all frequencies of the initial operator are in the stability region, the norm does not grow. -/
theorem stable_norm {n : ℕ} (hn : 1 ≤ n) {m : ℕ → ℕ → ℝ} (hsym : ∀ p < n, ∀ q < n, m p q = m q p) {dt : ℝ}
    (h : ∀ l, HasFrequency n m l → (dt * l) ^ 2 ≤ 8) (k : ℕ) : normSq2 ((exp4 (dt : ℂ) (Complex.I • realMat n m) ^ k).mulVec (start n)) ≤ 1 := by
  have hA := realMat_herm hsym
  obtain ⟨l, w, hw, hp⟩ := eigen_basis hA
  rw [normSq2_steps hA hw hp]
  refine le_of_le_of_eq (b := ∑ a, ‖star (w a) ⬝ᵥ start n‖ ^ 2) (Finset.sum_le_sum fun a _ => ?_) (by rw [hp, normSq2_start hn])
  by_cases h0 : star (w a) ⬝ᵥ start n = 0
  · rw [h0, norm_zero]; norm_num
  · obtain ⟨g0, g1⟩ := growth_le (h _ (hasFrequency_of hn (hw a) h0))
    exact mul_le_of_le_one_left (by positivity) (pow_le_one₀ g0 g1)

/-- The mean square of the frequencies of the initial operator is the sum of the squares in the first column. -/
theorem frequency_square {n : ℕ} (hn : 1 ≤ n) {m : ℕ → ℕ → ℝ} (hsym : ∀ p < n, ∀ q < n, m p q = m q p) {c : ℝ}
    (h : ∀ l, HasFrequency n m l → l ^ 2 ≤ c) : ∑ i ∈ Finset.range n, m i 0 ^ 2 ≤ c := by
  have hA := realMat_herm hsym
  obtain ⟨l, w, hw, hp⟩ := eigen_basis hA
  have e : normSq2 ((realMat n m).mulVec (start n)) = ∑ i ∈ Finset.range n, m i 0 ^ 2 := by
    unfold normSq2
    rw [← Fin.sum_univ_eq_sum_range (fun i => m i 0 ^ 2)]
    refine Finset.sum_congr rfl fun i _ => ?_
    have : (realMat n m).mulVec (start n) i = (m i 0 : ℂ) := by
      unfold mulVec dotProduct start
      rw [Finset.sum_eq_single ⟨0, hn⟩]
      · simp [realMat]
      · intro b _ hb
        rw [if_neg fun h => hb (Fin.ext h), mul_zero]
      · simp
    rw [this, Complex.norm_real, Real.norm_eq_abs, sq_abs]
  rw [← e, ← hp]
  have : ∀ a, ‖star (w a) ⬝ᵥ (realMat n m).mulVec (start n)‖ ^ 2 ≤ c * ‖star (w a) ⬝ᵥ start n‖ ^ 2 := fun a => by
    rw [eigen_dot hA (hw a), norm_mul, mul_pow, Complex.norm_real, Real.norm_eq_abs, sq_abs]
    by_cases h0 : star (w a) ⬝ᵥ start n = 0
    · rw [h0, norm_zero]; norm_num
    · exact mul_le_mul_of_nonneg_right (h _ (hasFrequency_of hn (hw a) h0)) (by positivity)
  calc _ ≤ ∑ a, c * ‖star (w a) ⬝ᵥ start n‖ ^ 2 := Finset.sum_le_sum fun a _ => this a
    _ = c := by rw [← Finset.mul_sum, hp, normSq2_start hn, mul_one]

/-- A frequency of the initial operator outside of the stability region makes the components grow beyond all bounds. -/
theorem unstable {n : ℕ} (hn : 1 ≤ n) {m : ℕ → ℕ → ℝ} (hsym : ∀ p < n, ∀ q < n, m p q = m q p) {dt l : ℝ} (hl : HasFrequency n m l) (h8 : 8 < (dt * l) ^ 2) (B : ℝ) :
    ∃ K, ∀ k ≥ K, ∃ p, B < ‖(exp4 (dt : ℂ) (Complex.I • realMat n m) ^ k).mulVec (start n) p‖ := by
  obtain ⟨w, hw, h0⟩ := hasFrequency_vector hn hl
  have hg := growth_gt h8
  set c := ‖star w ⬝ᵥ start n‖ with hc
  have hcpos : 0 < c := norm_pos_iff.2 h0
  set S := ∑ p, ‖w p‖ with hS
  have hS0 : 0 ≤ S := Finset.sum_nonneg fun p _ => norm_nonneg _
  obtain ⟨K, hK⟩ := pow_unbounded_of_one_lt ((S * |B| / c) ^ 2) hg
  refine ⟨K, fun k hk => ?_⟩
  by_contra hcon
  push Not at hcon
  have hB0 : 0 ≤ B := (norm_nonneg _).trans (hcon ⟨0, hn⟩)
  have h1 := eigen_dot_steps (realMat_herm hsym) hw dt k (start n)
  have h2 : ‖star w ⬝ᵥ (exp4 (dt : ℂ) (Complex.I • realMat n m) ^ k).mulVec (start n)‖ ≤ S * B := by
    unfold dotProduct
    refine (norm_sum_le _ _).trans ?_
    rw [hS, Finset.sum_mul]
    refine Finset.sum_le_sum fun p _ => ?_
    rw [norm_mul, Pi.star_apply, norm_star]
    exact mul_le_mul_of_nonneg_left (hcon p) (norm_nonneg _)
  rw [h1, norm_mul, ← hc] at h2
  have h3 : ‖exp4 (dt : ℂ) (Complex.I * (l : ℂ)) ^ k‖ ≤ S * |B| / c := by rw [le_div_iff₀ hcpos, abs_of_nonneg hB0]; exact h2
  have h4 : ‖exp4 (dt : ℂ) (Complex.I * (l : ℂ)) ^ k‖ ^ 2 ≤ (S * |B| / c) ^ 2 := by gcongr
  rw [norm_pow, pow_right_comm, exp4_imaginary] at h4
  have h5 := pow_le_pow_right₀ hg.le hk
  linarith

/-! ### The program -/

/-- A sum over the elements of a row whose columns are distinct. -/
theorem sum_columnSum (f : ℝ → ℝ) (f0 : f 0 = 0) (n : ℕ) : ∀ (l : List (Triplet ℝ)), (l.map Triplet.column).Nodup → (∀ t ∈ l, t.column < n) →
    ∑ c ∈ Finset.range n, f (columnSum l c) = (l.map fun t => f t.value).sum
  | [], _, _ => by simp [columnSum, f0]
  | t :: l, hn, hb => by
    rw [List.map_cons, List.nodup_cons] at hn
    have hz : columnSum l t.column = 0 := by
      unfold columnSum
      rw [List.filter_eq_nil_iff.2 fun x hx => by
        simp only [decide_eq_true_eq]
        exact fun h => hn.1 (List.mem_map.2 ⟨x, hx, h⟩)]
      rfl
    have hc : ∀ c, columnSum (t :: l) c = if c = t.column then t.value else columnSum l c := fun c => by
      by_cases h : c = t.column
      · subst h
        rw [if_pos rfl]
        have : columnSum (t :: l) t.column = t.value + columnSum l t.column := by simp [columnSum]
        rw [this, hz, add_zero]
      · rw [if_neg h]
        unfold columnSum
        rw [List.filter_cons_of_neg (by simpa using fun h' => h h'.symm)]
    rw [List.map_cons, List.sum_cons, ← sum_columnSum f f0 n l hn.2 fun x hx => hb x (by simp [hx]),
      ← Finset.add_sum_erase _ _ (Finset.mem_range.2 (hb t (by simp))), ← Finset.add_sum_erase (Finset.range n) (fun c => f (columnSum l c)) (Finset.mem_range.2 (hb t (by simp)))]
    beta_reduce
    rw [hc, if_pos rfl, hz, f0, zero_add]
    congr 1
    refine Finset.sum_congr rfl fun c hc' => ?_
    rw [hc, if_neg (Finset.ne_of_mem_erase hc')]

/-- The sum of the squares of the elements in the first column of the complete matrix. -/
theorem first_column {N : ℕ} (hN : 3 ≤ N) {sort : List (Triplet ℝ) → List (Triplet ℝ)} (hs : IsSort sort) (J U : ℝ) {m : Sparse ℝ}
    (h : initMatrix sort N 2 (Chain.real (K := ℝ) N 1).neighbors J U = .val m) :
    (∀ p < N + N * N * N, ∀ q < N + N * N * N, m.get p q = m.get q p) ∧ ∑ i ∈ Finset.range (N + N * N * N), m.get i 0 ^ 2 = 2 * J ^ 2 + U ^ 2 / 2 := by
  have hreg := chain_regular (Chain.Constructed.real (N := N) (1 : ℝ) (by omega) rfl) hN
  obtain ⟨m', h1, h2, _, _, _, _, h3, _⟩ := initMatrix_ok hreg sort hs J U
  rw [h] at h1; cases h1
  obtain ⟨m', h1', _, hsym⟩ := initMatrix_symm hreg sort hs J U
  rw [h] at h1'; cases h1'
  rw [h2] at hsym
  refine ⟨hsym, ?_⟩
  have h0 : 0 < N + N * N * N := by omega
  obtain ⟨-, r1, r2, -⟩ := row_columns hreg J U h0
  rw [Finset.sum_congr rfl fun i hi => by rw [hsym i (Finset.mem_range.1 hi) 0 h0, h3 0 h0 i],
    sum_columnSum (fun x => x ^ 2) (by norm_num) _ _ r1 r2]
  have e' : rowList N (Chain.real (K := ℝ) N 1).neighbors J U 0 = oneTriplets N (Chain.real (K := ℝ) N 1).neighbors J U 0 := by
    unfold rowList; rw [rowTriplets_one _ J U (by omega)]; rfl
  rw [e']
  unfold oneTriplets
  rw [List.map_append, List.sum_append, List.map_map]
  have hlen := hreg.length 0 (by omega)
  rw [show ((fun t : Triplet ℝ => t.value ^ 2) ∘ fun n => (⟨0, n, -J⟩ : Triplet ℝ)) = fun _ => J ^ 2 by funext n; simp, List.map_const', hlen]
  simp
  ring

/-- The output of `hubbard_real_1d_rk4_coefficients` in terms of the integrator. -/
theorem complete_output {N : ℕ} (hN : 3 ≤ N) (J U tEnd : ℝ) {dt : ℝ} (hdt : 0 < dt) {interval : ℕ} (hI : interval < 2 ^ 64)
    {sort : List (Triplet ℝ) → List (Triplet ℝ)} (hs : IsSort sort) (w : Work ℂ) {m : Sparse ℝ}
    (hm : initMatrix sort N 2 (Chain.real (K := ℝ) N 1).neighbors J U = .val m) :
    ∃ s : Sim.State Vars (List ℝ), real1dRk4Coefficients sort w N J U dt tEnd interval = .val s ∧
      s.out = (List.range (⌈tEnd / dt⌉₊ / max interval 1 + 1)).map fun j => (((j * max interval 1 : ℕ) : ℝ) * dt,
        coefficientRow (List.ofFn ((exp4 (dt : ℂ) (Complex.I • realMat (N + N * N * N) fun i j => m.get i j) ^ (j * max interval 1)).mulVec
          (start (N + N * N * N))))) := by
  have hsz := (realBasis_size N).2
  obtain ⟨s, e1, e2⟩ := simulate_rk4 (N + N * N * N) m (fun s => .val (coefficientRow s.2.2)) (fun y => coefficientRow (List.ofFn y))
    (fun k w y => rfl) hdt tEnd hI w (start (N + N * N * N))
  rw [realMat_timesI] at e2
  refine ⟨s, ?_, e2⟩
  unfold real1dRk4Coefficients
  simp only [hm, Res.bind_val, hsz, initVector_ofFn (n := N + N * N * N) (by omega)]
  exact e1

/-- **C105**, exactly, for `hubbard_real_1d_rk4_coefficients`: the numbers in the output have a bound that holds for all end times if and only if all frequencies `l` of the initial operator
satisfy `(dt l)² ≤ 8`; in this case they are at most 1 in magnitude. -/
theorem complete_bounded_iff {N : ℕ} (hN : 3 ≤ N) (J U : ℝ) {dt : ℝ} (hdt : 0 < dt) {interval : ℕ} (hI : interval < 2 ^ 64)
    {sort : List (Triplet ℝ) → List (Triplet ℝ)} (hs : IsSort sort) (w : Work ℂ) :
    ∃ m, initMatrix sort N 2 (Chain.real (K := ℝ) N 1).neighbors J U = .val m ∧
      ((∃ B, ∀ tEnd s, real1dRk4Coefficients sort w N J U dt tEnd interval = .val s → ∀ row ∈ s.out, ∀ x ∈ row.2, |x| ≤ B) ↔
        ∀ l, HasFrequency (N + N * N * N) (fun i j => m.get i j) l → (dt * l) ^ 2 ≤ 8) ∧
      ((∀ l, HasFrequency (N + N * N * N) (fun i j => m.get i j) l → (dt * l) ^ 2 ≤ 8) →
        ∀ tEnd s, real1dRk4Coefficients sort w N J U dt tEnd interval = .val s → ∀ row ∈ s.out, ∀ x ∈ row.2, |x| ≤ 1) := by
  have hreg := chain_regular (Chain.Constructed.real (N := N) (1 : ℝ) (by omega) rfl) hN
  obtain ⟨m, hm, -⟩ := initMatrix_ok hreg sort hs J U
  obtain ⟨hsym, -⟩ := first_column hN hs J U hm
  have hn : 1 ≤ N + N * N * N := by omega
  have hst : (∀ l, HasFrequency (N + N * N * N) (fun i j => m.get i j) l → (dt * l) ^ 2 ≤ 8) →
      ∀ tEnd s, real1dRk4Coefficients sort w N J U dt tEnd interval = .val s → ∀ row ∈ s.out, ∀ x ∈ row.2, |x| ≤ 1 := by
    intro h tEnd s e row hrow x hx
    obtain ⟨s', e', ho⟩ := complete_output hN J U tEnd hdt hI hs w hm
    rw [e] at e'; cases e'
    rw [ho, List.mem_map] at hrow
    obtain ⟨j, -, rfl⟩ := hrow
    obtain ⟨z, hz, hxz⟩ := mem_coefficientRow hx
    obtain ⟨p, rfl⟩ := (List.mem_ofFn' _ _).1 hz
    have h1 := stable_norm hn hsym h (j * max interval 1)
    generalize (exp4 (dt : ℂ) (Complex.I • realMat (N + N * N * N) fun i j => m.get i j) ^ (j * max interval 1)).mulVec (start (N + N * N * N)) = v at h1 hxz
    have h2 : ‖v p‖ ^ 2 ≤ 1 := le_trans (Finset.single_le_sum (f := fun i => ‖v i‖ ^ 2) (fun i _ => by positivity) (Finset.mem_univ p)) h1
    have h3 : ‖v p‖ ≤ 1 := by nlinarith [norm_nonneg (v p)]
    rcases hxz with rfl | rfl
    · exact (Complex.abs_re_le_norm _).trans h3
    · exact (Complex.abs_im_le_norm _).trans h3
  refine ⟨m, hm, ⟨?_, fun h => ⟨1, hst h⟩⟩, hst⟩
  rintro ⟨B, hB⟩ l hl
  by_contra h8
  push Not at h8
  obtain ⟨K, hK⟩ := unstable hn hsym hl h8 (2 * B)
  set M := max interval 1 with hM
  have hM1 : 1 ≤ M := le_max_right _ _
  obtain ⟨s, e, ho⟩ := complete_output hN J U ((K * M : ℕ) * dt) hdt hI hs w hm
  obtain ⟨p, hp⟩ := hK (K * M) (Nat.le_mul_of_pos_right K (by omega))
  have hmem : (((K * M : ℕ) : ℝ) * dt, coefficientRow (List.ofFn ((exp4 (dt : ℂ) (Complex.I • realMat (N + N * N * N) fun i j => m.get i j) ^ (K * M)).mulVec
      (start (N + N * N * N))))) ∈ s.out := by
    rw [ho, List.mem_map]
    refine ⟨K, ?_, rfl⟩
    rw [mul_div_assoc, div_self hdt.ne', mul_one, Nat.ceil_natCast, Nat.mul_div_cancel _ (by omega), List.mem_range]
    omega
  have hrow := hB _ s e _ hmem
  generalize (exp4 (dt : ℂ) (Complex.I • realMat (N + N * N * N) fun i j => m.get i j) ^ (K * M)).mulVec (start (N + N * N * N)) = v at hp hrow
  obtain ⟨-, g1, g2⟩ := coefficientRow_get (List.ofFn v) p
  rw [List.getElem?_ofFn, dif_pos p.2, Option.map_some] at g1 g2
  have b1 := hrow _ (List.mem_of_getElem? g1)
  have b2 := hrow _ (List.mem_of_getElem? g2)
  have := Complex.norm_le_abs_re_add_abs_im (v p)
  have : ‖v p‖ ≤ 2 * B := by
    refine this.trans ?_
    simp only [Fin.eta] at b1 b2
    linarith
  linarith

/-- **C105 for the complete program**: if `dt² (2 J² + U²/2) > 8`, the coefficients grow beyond all bounds. -/
theorem complete_unbounded {N : ℕ} (hN : 3 ≤ N) (J U : ℝ) {dt : ℝ} (hdt : 0 < dt) (h8 : 8 < dt ^ 2 * (2 * J ^ 2 + U ^ 2 / 2)) {interval : ℕ} (hI : interval < 2 ^ 64)
    {sort : List (Triplet ℝ) → List (Triplet ℝ)} (hs : IsSort sort) (w : Work ℂ) (B : ℝ) :
    ∃ tEnd s row x, real1dRk4Coefficients sort w N J U dt tEnd interval = .val s ∧ row ∈ s.out ∧ x ∈ row.2 ∧ B < |x| := by
  by_contra hcon
  push Not at hcon
  obtain ⟨m, hm, hiff, -⟩ := complete_bounded_iff hN J U hdt hI hs w
  obtain ⟨hsym, hcol⟩ := first_column hN hs J U hm
  have hf := hiff.1 ⟨B, fun tEnd s e row hrow x hx => hcon tEnd s row x e hrow hx⟩
  have := frequency_square (by omega) hsym (c := 8 / dt ^ 2) fun l hl => by
    rw [le_div_iff₀ (by positivity)]
    have := hf l hl
    nlinarith
  rw [hcol, le_div_iff₀ (by positivity)] at this
  linarith

/-- The condition is met for the default couplings and the step width 2. -/
example : (8 : ℝ) < 2 ^ 2 * (2 * 1 ^ 2 + 1 ^ 2 / 2) := by norm_num

end Ieompp.Program
