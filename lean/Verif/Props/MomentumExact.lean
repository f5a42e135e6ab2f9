import Verif.Props.MomentumProgram
import Verif.Props.StarFlow

/-!
# C63: what the momentum-space program computes instead of the particle number

The table of expectation values belongs to the operators `2 x y z + δ x`, the equations of motion to `2 x y z - δ x`. Here the difference between the two
matrix elements is determined for every number of momenta: it vanishes if the momentum is not in the Fermi sea, and is `2 ν (U t)²` up to terms of
higher order, `ν` the filling, if it is.
-/

set_option autoImplicit false
set_option linter.unusedSectionVars false

namespace Ieompp.Program

open Ieompp.Spec MomentumSpace ODE ComplexConjugate

/-! ### The difference of the tables -/

section
variable (FS : Finset Mode)

/-- The matrix elements between a three-operator word and `c†_q`. -/
theorem ev_three_one {N q a b : ℕ} (hq : q < N) (ha : a < N) (hb : b < N) :
    ev ℝ FS (RealSpace.Spec.three a b (third N q a b) ++ Monomial.conjugate (RealSpace.Spec.one q)) =
      if a = q ∧ up q ∈ FS ∧ dn b ∈ FS then 1 else 0 := by
  rw [ev_append, adjVec_one]
  by_cases hup : up q ∈ FS
  swap
  · rw [if_neg hup, map_zero, Pi.zero_apply, if_neg fun h => hup h.2.1]
  rw [if_pos hup, map_smul, Pi.smul_apply, fockMono_ket_adj]
  by_cases haq : a = q
  · subst haq
    rw [(third_eq_second hq ha hb).2 rfl, adjVec_diag]
    by_cases hd : dn b ∈ FS
    · rw [if_pos hd, if_pos ⟨rfl, hup, hd⟩, adjVec_one, if_pos hup, Pi.smul_apply, ket, if_pos rfl, smul_eq_mul, smul_eq_mul, mul_one, ← Int.cast_mul,
        jwSign_sq, Int.cast_one]
    · rw [if_neg hd, if_neg fun h => hd h.2.2, Pi.zero_apply, smul_zero]
  · rw [if_neg fun h => haq h.1]
    have hbc : b ≠ third N q a b := fun h => haq ((third_eq_second hq ha hb).1 h.symm)
    rcases adjVec_off (K := ℝ) FS a b _ hbc with h | ⟨-, -, h3, e, -, h4⟩
    · rw [h, Pi.zero_apply, smul_zero]
    · rw [h4, Pi.smul_apply, ket, if_neg, smul_zero, smul_zero]
      intro heq
      have h5 : dn (third N q a b) ∈ toggle (up q) FS := by
        rw [heq, mem_toggle, if_pos rfl, mem_toggle, if_neg (fun h => hbc (by simpa [dn] using h.symm)), dn_mem_toggle_up]
        exact h3
      exact h3 ((dn_mem_toggle_up _ _ _).1 h5)

theorem ev_one_one {a q : ℕ} : ev ℝ FS (RealSpace.Spec.one a ++ Monomial.conjugate (RealSpace.Spec.one q)) = if a = q ∧ up q ∈ FS then 1 else 0 := by
  rw [ev_append, adjVec_one]
  by_cases hup : up q ∈ FS
  swap
  · rw [if_neg hup, map_zero, Pi.zero_apply, if_neg fun h => hup h.2]
  rw [if_pos hup, map_smul, Pi.smul_apply, fockMono_ket_adj, adjVec_one]
  by_cases haq : a = q
  · subst haq
    rw [if_pos hup, if_pos ⟨rfl, hup⟩, Pi.smul_apply, ket, if_pos rfl, smul_eq_mul, smul_eq_mul, mul_one, ← Int.cast_mul, jwSign_sq, Int.cast_one]
  · rw [if_neg (c := a = q ∧ up q ∈ FS) fun h => haq h.1]
    by_cases h : up a ∈ FS
    · rw [if_pos h, Pi.smul_apply, ket, if_neg, smul_zero, smul_zero]
      intro heq
      have h1 : up a ∈ toggle (up q) FS := by
        rw [mem_toggle, if_neg (fun h => haq (by simpa [up] using h))]; exact h
      rw [heq, mem_toggle, if_pos rfl] at h1
      exact h1 h
    · rw [if_neg h, Pi.zero_apply, smul_zero]

/-- Does the index belong to one of the operators `c†_q (2 n_b ± 1)`? -/
def isDiagonal (N q i : ℕ) : Prop := ∃ b < N, i = get3opIndex N q b

open Classical in
/-- The correction of the operators: `A_i^+ = A_i^- + 2 δ_i c†_q`. -/
noncomputable def shiftWeight (N q i : ℕ) : ℝ := if isDiagonal N q i then 1 else 0

/-- `⟨A_i^0 c_q⟩`, where `A_i^0 = c†_q` or `2 x y z`. -/
noncomputable def overlap (N q i : ℕ) : ℝ :=
  if i = 0 then (if up q ∈ FS then 1 else 0)
  else 2 * (if (i - 1) / N = q ∧ up q ∈ FS ∧ dn ((i - 1) % N) ∈ FS then 1 else 0)

theorem get3opIndex_div {N a b : ℕ} (hb : b < N) : (get3opIndex N a b - 1) / N = a ∧ (get3opIndex N a b - 1) % N = b := by
  unfold get3opIndex
  rw [show 1 + a * N + b - 1 = b + N * a by rw [mul_comm N a]; omega]
  exact ⟨by rw [Nat.add_mul_div_left _ _ (by omega), Nat.div_eq_of_lt hb, zero_add], by rw [Nat.add_mul_mod_self_left, Nat.mod_eq_of_lt hb]⟩

theorem shiftWeight_three {N q a b : ℕ} (hb : b < N) : shiftWeight N q (get3opIndex N a b) = if a = q then 1 else 0 := by
  unfold shiftWeight
  by_cases h : a = q
  · rw [if_pos h, if_pos ⟨b, hb, by rw [h]⟩]
  · rw [if_neg h, if_neg]
    rintro ⟨b', hb', he⟩
    have h1 := (get3opIndex_div (N := N) (a := a) hb).1
    rw [he, (get3opIndex_div hb').1] at h1
    exact h h1.symm

theorem shiftWeight_zero (N q : ℕ) : shiftWeight N q 0 = 0 := by
  unfold shiftWeight
  rw [if_neg]
  rintro ⟨b, -, h⟩
  unfold get3opIndex at h
  omega

theorem overlap_three {N q a b : ℕ} (hb : b < N) : overlap FS N q (get3opIndex N a b) = 2 * if a = q ∧ up q ∈ FS ∧ dn b ∈ FS then 1 else 0 := by
  unfold overlap
  rw [if_neg (by unfold get3opIndex; omega), (get3opIndex_div hb).1, (get3opIndex_div hb).2]

/-- The two tables differ by a matrix of rank two. -/
theorem seaValue_difference {N q : ℕ} (hq : q < N) {i j : ℕ} (hi : i < N * N + 1) (hj : j < N * N + 1) :
    seaValue (1 : ℝ) FS (Spec.entries N q) i j = seaValue (-1 : ℝ) FS (Spec.entries N q) i j +
      2 * (shiftWeight N q i * overlap FS N q j + overlap FS N q i * shiftWeight N q j) := by
  have key : ∀ i j : ℕ, i < N * N + 1 → j < N * N + 1 → (j = 0 ∨ i ≠ 0) → seaValue (1 : ℝ) FS (Spec.entries N q) i j = seaValue (-1 : ℝ) FS (Spec.entries N q) i j +
      2 * (shiftWeight N q i * overlap FS N q j + overlap FS N q i * shiftWeight N q j) := by
    intro i j hi hj hij
    have o0 : overlap FS N q 0 = if up q ∈ FS then 1 else 0 := rfl
    by_cases h0 : i = 0
    · subst h0
      rcases hij with rfl | h
      · rw [sea_00, sea_00, shiftWeight_zero]; ring
      · exact absurd rfl h
    obtain ⟨a, b, ha, hb, rfl⟩ := index_surj N h0 hi
    have hd : (b = third N q a b) = (a = q) := propext ⟨fun h => (third_eq_second hq ha hb).1 h.symm, fun h => ((third_eq_second hq ha hb).2 h).symm⟩
    by_cases h0' : j = 0
    · subst h0'
      rw [sea_I0 1 (entries_getElem N q ha hb), sea_I0 (-1) (entries_getElem N q ha hb), shiftWeight_three hb, shiftWeight_zero, o0, ev_one_one]
      simp only [hd]
      by_cases haq : a = q <;> by_cases hup : up q ∈ FS <;> simp [haq, hup]
      ring
    · obtain ⟨a', b', ha', hb', rfl⟩ := index_surj N h0' hj
      have hd' : (b' = third N q a' b') = (a' = q) := propext ⟨fun h => (third_eq_second hq ha' hb').1 h.symm, fun h => ((third_eq_second hq ha' hb').2 h).symm⟩
      have t1 := ev_three_one FS hq ha hb
      have t2 := ev_three_one FS hq ha' hb'
      have t3 : ev ℝ FS (RealSpace.Spec.one q ++ Monomial.conjugate (RealSpace.Spec.three a' b' (third N q a' b'))) = if a' = q ∧ up q ∈ FS ∧ dn b' ∈ FS then 1 else 0 := by
        have h1 := seaValue_symm (FS := FS) (N := N) (q := q) (0 : ℝ) hq (i := 0) (by omega) hj
        rw [sea_0I 0 (entries_getElem N q ha' hb'), sea_I0 0 (entries_getElem N q ha' hb'), ite_self, zero_mul, zero_mul, add_zero, add_zero, t2] at h1
        linarith
      rw [sea_IJ 1 (entries_getElem N q ha hb) (entries_getElem N q ha' hb'), sea_IJ (-1) (entries_getElem N q ha hb) (entries_getElem N q ha' hb'),
        shiftWeight_three hb, shiftWeight_three hb', overlap_three FS hb, overlap_three FS hb']
      simp only [hd, hd']
      by_cases haq : a = q <;> by_cases haq' : a' = q
      · rw [haq] at t1 ⊢
        rw [haq'] at t2 t3 ⊢
        rw [t1, t3]
        simp only [if_true]
        ring
      · rw [haq] at t1 ⊢
        rw [t3]
        simp only [if_true, if_neg haq']
        ring
      · rw [haq'] at t2 ⊢
        rw [t1]
        simp only [if_true, if_neg haq]
        ring
      · simp only [if_neg haq, if_neg haq']
        ring
  by_cases h : j = 0 ∨ i ≠ 0
  · exact key i j hi hj h
  · push Not at h
    rw [seaValue_symm 1 hq hi hj, seaValue_symm (-1) hq hi hj, key j i hj hi (.inl h.2)]
    ring

end

theorem sum_range_mul {α : Type*} [AddCommMonoid α] (f : ℕ → α) (M N : ℕ) :
    ∑ i ∈ Finset.range (M * N), f i = ∑ a ∈ Finset.range M, ∑ b ∈ Finset.range N, f (a * N + b) := by
  induction M with
  | zero => simp
  | succ M ih => rw [Nat.succ_mul, Finset.sum_range_add, ih, Finset.sum_range_succ]

/-- Sums over the basis. -/
theorem sum_basis {α : Type*} [AddCommMonoid α] (f : ℕ → α) (N : ℕ) :
    ∑ i ∈ Finset.range (N * N + 1), f i = f 0 + ∑ a ∈ Finset.range N, ∑ b ∈ Finset.range N, f (get3opIndex N a b) := by
  rw [Finset.sum_range_succ', add_comm, sum_range_mul (fun i => f (i + 1))]
  congr 1
  refine Finset.sum_congr rfl fun a _ => Finset.sum_congr rfl fun b _ => ?_
  unfold get3opIndex
  congr 1; omega

/-- **The error of the quantity that the program approximates**, for arbitrary coefficients `v`. `S` is the sum of the coefficients of the operators
`c†_q (2 n_b - 1)`. -/
theorem seaNumber_difference {N q : ℕ} (hq : q < N) (FS : Finset Mode) (v : ℕ → ℂ) :
    seaNumber 1 FS (Spec.entries N q) v = seaNumber (-1) FS (Spec.entries N q) v +
      if up q ∈ FS then ((4 * ((∑ b ∈ Finset.range N, v (get3opIndex N q b)) *
        conj (v 0 + 2 * ∑ b ∈ (Finset.range N).filter (fun b => dn b ∈ FS), v (get3opIndex N q b))).re : ℝ) : ℂ) else 0 := by
  have h1 := form_sea hq FS 1 (.inl rfl) v
  have h2 := form_sea hq FS (-1) (.inr rfl) v
  rw [Complex.ofReal_one] at h1
  rw [Complex.ofReal_neg, Complex.ofReal_one] at h2
  rw [← h1, ← h2]
  have hS : ∑ i ∈ Finset.range (N * N + 1), v i * (shiftWeight N q i : ℂ) = ∑ b ∈ Finset.range N, v (get3opIndex N q b) := by
    rw [sum_basis, shiftWeight_zero, Complex.ofReal_zero, mul_zero, zero_add, Finset.sum_eq_single_of_mem q (Finset.mem_range.2 hq)]
    · exact Finset.sum_congr rfl fun b hb => by rw [shiftWeight_three (Finset.mem_range.1 hb), if_pos rfl, Complex.ofReal_one, mul_one]
    · intro a _ haq
      exact Finset.sum_eq_zero fun b hb => by rw [shiftWeight_three (Finset.mem_range.1 hb), if_neg haq, Complex.ofReal_zero, mul_zero]
  have hG : ∑ i ∈ Finset.range (N * N + 1), v i * (overlap FS N q i : ℂ) =
      if up q ∈ FS then v 0 + 2 * ∑ b ∈ (Finset.range N).filter (fun b => dn b ∈ FS), v (get3opIndex N q b) else 0 := by
    rw [sum_basis, Finset.sum_eq_single_of_mem q (Finset.mem_range.2 hq)]
    · have h0 : overlap FS N q 0 = if up q ∈ FS then 1 else 0 := rfl
      rw [h0, Finset.sum_congr rfl fun b hb => by rw [overlap_three FS (Finset.mem_range.1 hb)], Finset.sum_filter, Finset.mul_sum]
      by_cases hup : up q ∈ FS
      · simp only [hup, if_true, true_and, Complex.ofReal_one, mul_one]
        congr 1
        refine Finset.sum_congr rfl fun b _ => ?_
        by_cases hd : dn b ∈ FS <;> simp [hd, mul_comm]
      · simp [hup]
    · intro a _ haq
      exact Finset.sum_eq_zero fun b hb => by rw [overlap_three FS (Finset.mem_range.1 hb), if_neg fun h => haq h.1]; simp
  have hD : form (N * N + 1) (fun i j => seaValue (1 : ℝ) FS (Spec.entries N q) i j) v =
      form (N * N + 1) (fun i j => seaValue (-1 : ℝ) FS (Spec.entries N q) i j) v +
        2 * ((∑ i ∈ Finset.range (N * N + 1), v i * (shiftWeight N q i : ℂ)) * conj (∑ i ∈ Finset.range (N * N + 1), v i * (overlap FS N q i : ℂ)) +
          (∑ i ∈ Finset.range (N * N + 1), v i * (overlap FS N q i : ℂ)) * conj (∑ i ∈ Finset.range (N * N + 1), v i * (shiftWeight N q i : ℂ))) := by
    unfold form
    rw [map_sum, map_sum, Finset.sum_mul_sum, Finset.sum_mul_sum, ← Finset.sum_add_distrib, Finset.mul_sum, ← Finset.sum_add_distrib]
    refine Finset.sum_congr rfl fun i hi => ?_
    rw [← Finset.sum_add_distrib, Finset.mul_sum, ← Finset.sum_add_distrib]
    refine Finset.sum_congr rfl fun j hj => ?_
    beta_reduce
    rw [seaValue_difference FS hq (Finset.mem_range.1 hi) (Finset.mem_range.1 hj), map_mul, map_mul, Complex.conj_ofReal, Complex.conj_ofReal]
    push_cast
    ring
  rw [hD, hS, hG]
  congr 1
  by_cases hup : up q ∈ FS
  · rw [if_pos hup, if_pos hup]
    generalize (∑ b ∈ Finset.range N, v (get3opIndex N q b)) = S
    generalize (v 0 + 2 * ∑ b ∈ (Finset.range N).filter (fun b => dn b ∈ FS), v (get3opIndex N q b)) = G
    have : S * conj G + G * conj S = ((2 * (S * conj G).re : ℝ) : ℂ) := by
      have h := Complex.add_conj (S * conj G)
      rw [map_mul, Complex.conj_conj] at h
      rw [← h]; ring
    rw [this]
    push_cast; ring
  · rw [if_neg hup, if_neg hup]; simp

/-- If the momentum is empty in the Fermi sea, the program's quantity is the particle number. -/
theorem seaNumber_empty {N q : ℕ} (hq : q < N) (FS : Finset Mode) (hup : up q ∉ FS) (v : ℕ → ℂ) :
    seaNumber 1 FS (Spec.entries N q) v = seaNumber (-1) FS (Spec.entries N q) v := by
  rw [seaNumber_difference hq, if_neg hup, add_zero]

/-! ### The difference for the solution of the equations of motion -/

section
variable {N q : ℕ} {eps : ℕ → ℝ} {U : ℝ} {m : Sparse ℝ} {v : ℝ → ℕ → ℂ}

/-- In a rotating frame the equations of motion couple the level `c†_q` to `N²` others. -/
theorem momentum_star (hN : 0 < N) (hm : initMatrix (Spec.entries N q) N eps U N = .val m) (hv : IsFlow (N * N + 1) (fun i j => m.get i j) v) :
    StarFlow (Finset.range N ×ˢ Finset.range N) (U / (2 * N)) (fun p => eps p.1 + eps p.2 - eps (third N q p.1 p.2) - eps q)
      (fun t => Complex.exp (-((eps q + U / 2 : ℝ) * t) * Complex.I) * v t 0)
      (fun p t => Complex.exp (-((eps q + U / 2 : ℝ) * t) * Complex.I) * v t (get3opIndex N p.1 p.2)) := by
  obtain ⟨m', h1, m2, m3, -, -, -, -, -, g1, g2, g3, g4⟩ := momentumMatrix_ok hN q eps U
  rw [hm] at h1
  cases h1
  obtain ⟨m', s1, hsym⟩ := momentumMatrix_symm hN q eps U
  rw [hm] at s1
  cases s1
  rw [m2, m3] at hsym
  set a := eps q + U / 2 with ha
  have he : ∀ t : ℝ, HasDerivAt (fun t : ℝ => Complex.exp (-((a : ℝ) * t) * Complex.I)) (Complex.exp (-((a : ℝ) * t) * Complex.I) * (-(a : ℂ) * Complex.I)) t := by
    intro t
    have h1 : HasDerivAt (fun t : ℝ => -((a : ℂ) * (t : ℂ)) * Complex.I) (-(a : ℂ) * Complex.I) t := by
      have := (((Complex.ofRealCLM.hasDerivAt (x := t)).const_mul (a : ℂ)).neg).mul_const Complex.I
      simpa using this
    exact h1.cexp
  have hlt : ∀ i1 < N, ∀ i2 < N, get3opIndex N i1 i2 < N * N + 1 := by
    intro i1 h1 i2 h2
    unfold get3opIndex
    have : i1 * N + N ≤ N * N := by rw [← Nat.succ_mul]; exact Nat.mul_le_mul_right N h1
    omega
  have hcast : ∀ x : ℝ, ((x : ℝ) : ℂ) = (x : ℂ) := fun _ => rfl
  refine ⟨?_, ?_, ?_, ?_, ?_⟩
  · beta_reduce
    rw [hv.start 0 (by omega)]; simp
  · rintro ⟨i1, i2⟩ hp
    rw [Finset.mem_product, Finset.mem_range, Finset.mem_range] at hp
    beta_reduce
    rw [hv.start _ (hlt i1 hp.1 i2 hp.2), if_neg (by unfold get3opIndex; omega), mul_zero]
  · intro t
    refine ((he t).mul (hv.flow t 0 (by omega))).congr_deriv ?_
    rw [sum_basis, g1, Finset.sum_product]
    have : ∑ x ∈ Finset.range N, ∑ y ∈ Finset.range N, ((m.get 0 (get3opIndex N x y) : ℝ) : ℂ) * v t (get3opIndex N x y) =
        ((U / (2 * N) : ℝ) : ℂ) * ∑ x ∈ Finset.range N, ∑ y ∈ Finset.range N, v t (get3opIndex N x y) := by
      rw [Finset.mul_sum]
      refine Finset.sum_congr rfl fun x hx => ?_
      rw [Finset.mul_sum]
      refine Finset.sum_congr rfl fun y hy => ?_
      rw [g2 x (Finset.mem_range.1 hx) y (Finset.mem_range.1 hy)]
    rw [this]
    simp only [← Finset.mul_sum]
    ring
  · rintro ⟨i1, i2⟩ hp t
    rw [Finset.mem_product, Finset.mem_range, Finset.mem_range] at hp
    refine ((he t).mul (hv.flow t _ (hlt i1 hp.1 i2 hp.2))).congr_deriv ?_
    rw [sum_basis, g3 i1 hp.1 i2 hp.2, Finset.sum_eq_single_of_mem i1 (Finset.mem_range.2 hp.1), Finset.sum_eq_single_of_mem i2 (Finset.mem_range.2 hp.2),
      g4 i1 hp.1 i2 hp.2 i1 hp.1 i2 hp.2, if_pos ⟨rfl, rfl⟩]
    · rw [ha, show siteMod ((i1 : ℤ) + i2 - q) N = third N q i1 i2 from rfl]
      push_cast
      ring
    · intro y hy hne
      rw [g4 i1 hp.1 i2 hp.2 i1 hp.1 y (Finset.mem_range.1 hy), if_neg fun h => hne h.2.symm, Complex.ofReal_zero, zero_mul]
    · intro x hx hne
      refine Finset.sum_eq_zero fun y hy => ?_
      rw [g4 i1 hp.1 i2 hp.2 x (Finset.mem_range.1 hx) y (Finset.mem_range.1 hy), if_neg fun h => hne h.1.symm, Complex.ofReal_zero, zero_mul]
  · intro t
    have hn : ‖Complex.exp (-((a : ℝ) * t) * Complex.I)‖ = 1 := by
      have := Complex.norm_exp_ofReal_mul_I (-(a * t))
      push_cast at this
      exact this
    rw [norm_mul, hn, one_mul]
    have h := flow_norm (N * N + 1) _ hsym v hv.flow t 0
    have h0 : ∑ p ∈ Finset.range (N * N + 1), ‖v 0 p‖ ^ 2 = 1 := by
      rw [Finset.sum_eq_single_of_mem 0 (by simp), hv.start 0 (by omega)]
      · simp
      · intro p hp hp0
        rw [hv.start p (Finset.mem_range.1 hp), if_neg hp0]; simp
    rw [h0] at h
    have h1 : ‖v t 0‖ ^ 2 ≤ 1 := by
      rw [← h]
      exact Finset.single_le_sum (f := fun p => ‖v t p‖ ^ 2) (fun p _ => by positivity) (Finset.mem_range.2 (by omega))
    exact (sq_le_one_iff₀ (norm_nonneg _)).1 h1

/-- **The error for the exact solution.** If the momentum is in the Fermi sea, the quantity approximated by the program is larger than the particle number
by `2 ν (U t)²`, up to terms of fourth order; `ν` is the number of occupied momenta divided by `N`. -/
theorem seaNumber_error (hN : 0 < N) (hq : q < N) {e : ℝ} (he : ∀ k < N, |eps k| ≤ e) (hm : initMatrix (Spec.entries N q) N eps U N = .val m)
    (hv : IsFlow (N * N + 1) (fun i j => m.get i j) v) {FS : Finset Mode} (hup : up q ∈ FS) {t : ℝ} (ht : 0 ≤ t) :
    |(seaNumber 1 FS (Spec.entries N q) (v t)).re - (seaNumber (-1) FS (Spec.entries N q) (v t)).re -
        2 * (((Finset.range N).filter fun b => dn b ∈ FS).card / N) * (U * t) ^ 2| ≤
      (U * t) ^ 4 / 6 + |U * t| ^ 5 / 160 + 5 * (e * t) / 12 * |U * t| ^ 3 := by
  have S := momentum_star hN hm hv
  set I := Finset.range N ×ˢ Finset.range N with hI
  have hcard : (I.card : ℝ) = N ^ 2 := by rw [hI, Finset.card_product, Finset.card_range]; push_cast; ring
  set a := eps q + U / 2 with ha
  set μ := U / (2 * (N : ℝ)) with hμ
  have hN' : (0 : ℝ) < N := by exact_mod_cast hN
  have hNμ : N * |μ| = |U| / 2 := by rw [hμ, abs_div, abs_of_pos (by positivity : (0 : ℝ) < 2 * N)]; field_simp
  have hκ : (I.card : ℝ) * μ ^ 2 = U ^ 2 / 4 := by rw [hcard, hμ]; field_simp; ring
  set δ : ℕ × ℕ → ℝ := fun p => eps p.1 + eps p.2 - eps (third N q p.1 p.2) - eps q with hδ
  have hD : ∀ p ∈ I, |δ p| ≤ 4 * e := by
    rintro ⟨x, y⟩ hp
    rw [hI, Finset.mem_product, Finset.mem_range, Finset.mem_range] at hp
    have h1 := abs_le.1 (he x hp.1)
    have h2 := abs_le.1 (he y hp.2)
    have h3 := abs_le.1 (he _ (third_lt hN q x y))
    have h4 := abs_le.1 (he q hq)
    rw [abs_le, hδ]
    constructor <;> simp only <;> linarith [h1.1, h1.2, h2.1, h2.2, h3.1, h3.2, h4.1, h4.2]
  have hres : ∀ b < N, (q, b) ∈ I ∧ δ (q, b) = 0 := by
    intro b hb
    refine ⟨by rw [hI, Finset.mem_product, Finset.mem_range, Finset.mem_range]; exact ⟨hq, hb⟩, ?_⟩
    rw [hδ]; simp only
    rw [(third_eq_second hq hq hb).2 rfl]; ring
  set E := Complex.exp (-((a : ℝ) * t) * Complex.I) with hE
  have hEn : ‖E‖ = 1 := by
    have := Complex.norm_exp_ofReal_mul_I (-(a * t))
    push_cast at this
    exact this
  have hEE : E * conj E = 1 := by rw [Complex.mul_conj, Complex.normSq_eq_norm_sq, hEn]; simp
  have hE0 : E ≠ 0 := fun h => by rw [h, norm_zero] at hEn; exact zero_ne_one hEn
  set z := v t (get3opIndex N q 0) with hz
  have heq : ∀ b < N, v t (get3opIndex N q b) = z := by
    intro b hb
    have := S.resonant_eq (hres b hb).1 (hres 0 hN).1 (hres b hb).2 (hres 0 hN).2 t
    exact mul_left_cancel₀ hE0 this
  have i1 := S.interference hD (hres 0 hN).1 (hres 0 hN).2 ht
  obtain ⟨i2, i3⟩ := S.resonant_sq (hres 0 hN).1 (hres 0 hN).2 ht
  have e1 : (E * z * conj (E * v t 0)) = z * conj (v t 0) := by
    rw [map_mul, show E * z * (conj E * conj (v t 0)) = E * conj E * (z * conj (v t 0)) by ring, hEE, one_mul]
  change |(E * z * conj (E * v t 0)).re| ≤ _ at i1
  change ‖E * z‖ ^ 2 ≤ _ at i2
  change _ ≤ ‖E * z‖ ^ 2 at i3
  rw [e1] at i1
  rw [norm_mul, hEn, one_mul] at i2 i3
  have hsum : ∑ b ∈ Finset.range N, v t (get3opIndex N q b) = N * z := by
    rw [Finset.sum_congr rfl fun b hb => heq b (Finset.mem_range.1 hb), Finset.sum_const, Finset.card_range, nsmul_eq_mul]
  set n := ((Finset.range N).filter fun b => dn b ∈ FS).card with hn
  have hsum' : ∑ b ∈ (Finset.range N).filter (fun b => dn b ∈ FS), v t (get3opIndex N q b) = n * z := by
    rw [Finset.sum_congr rfl fun b hb => heq b (Finset.mem_range.1 (Finset.mem_filter.1 hb).1), Finset.sum_const, nsmul_eq_mul]
  have hnN : (n : ℝ) ≤ N := by
    have := Finset.card_filter_le (Finset.range N) fun b => dn b ∈ FS
    rw [Finset.card_range] at this
    exact_mod_cast this
  have key : (seaNumber 1 FS (Spec.entries N q) (v t)).re = (seaNumber (-1) FS (Spec.entries N q) (v t)).re +
      (4 * N * (z * conj (v t 0)).re + 8 * N * n * ‖z‖ ^ 2) := by
    rw [seaNumber_difference hq, if_pos hup, hsum, hsum', Complex.add_re, Complex.ofReal_re]
    congr 1
    have : (N : ℂ) * z * conj (v t 0 + 2 * (n * z)) = ((N : ℝ) : ℂ) * (z * conj (v t 0)) + ((2 * N * n * ‖z‖ ^ 2 : ℝ) : ℂ) := by
      rw [map_add, map_mul, map_mul, Complex.conj_ofNat, Complex.conj_natCast]
      push_cast
      linear_combination (2 * N * n : ℂ) * Complex.mul_conj' z
    rw [this, Complex.add_re, Complex.re_ofReal_mul, Complex.ofReal_re]
    ring
  rw [key]
  have f1 : |4 * N * (z * conj (v t 0)).re| ≤ |U * t| ^ 5 / 160 + 5 * (e * t) / 12 * |U * t| ^ 3 := by
    rw [abs_mul, abs_of_nonneg (by positivity : (0 : ℝ) ≤ 4 * N)]
    refine (mul_le_mul_of_nonneg_left i1 (by positivity)).trans (le_of_eq ?_)
    rw [hκ, abs_mul, abs_of_nonneg ht]
    have : 4 * N * (|μ| * (U ^ 2 / 4) * (U ^ 2 / 4 / 20 * t ^ 5 + 5 * (4 * e) / 24 * t ^ 4)) =
        4 * (N * |μ|) * (U ^ 2 / 4) * (U ^ 2 / 4 / 20 * t ^ 5 + 5 * (4 * e) / 24 * t ^ 4) := by ring
    rw [this, hNμ, ← sq_abs U]
    ring
  rw [hκ] at i3
  have hμ2 : (N : ℝ) * n * (μ ^ 2 * t ^ 2) = n / N * (U * t) ^ 2 / 4 := by rw [hμ]; field_simp; ring
  have f2 : 8 * N * n * ‖z‖ ^ 2 ≤ 2 * (n / N) * (U * t) ^ 2 := by
    have h : 8 * (N * n) * ‖z‖ ^ 2 ≤ 8 * (N * n) * (μ ^ 2 * t ^ 2) := mul_le_mul_of_nonneg_left i2 (by positivity)
    linarith
  have f3 : 2 * (n / N) * (U * t) ^ 2 - (U * t) ^ 4 / 6 ≤ 8 * N * n * ‖z‖ ^ 2 := by
    have h : 8 * (N * n) * (μ ^ 2 * t ^ 2 - μ ^ 2 * (U ^ 2 / 4 / 3) * t ^ 4) ≤ 8 * (N * n) * ‖z‖ ^ 2 := mul_le_mul_of_nonneg_left i3 (by positivity)
    have h2 : 8 * (N * n) * (μ ^ 2 * t ^ 2 - μ ^ 2 * (U ^ 2 / 4 / 3) * t ^ 4) = 8 * (N * n * (μ ^ 2 * t ^ 2)) * (1 - (U * t) ^ 2 / 12) := by ring
    rw [h2, hμ2] at h
    have h3 : (n : ℝ) / N ≤ 1 := by rw [div_le_one hN']; exact hnN
    have h4 : (n : ℝ) / N * (U * t) ^ 4 ≤ 1 * (U * t) ^ 4 := mul_le_mul_of_nonneg_right h3 (by positivity)
    have h5 : 8 * (n / N * (U * t) ^ 2 / 4) * (1 - (U * t) ^ 2 / 12) = 2 * (n / N) * (U * t) ^ 2 - n / N * (U * t) ^ 4 / 6 := by ring
    rw [h5] at h
    linarith
  have h0 : 0 ≤ (U * t) ^ 4 / 6 := by positivity
  obtain ⟨f4, f5⟩ := abs_le.1 f1
  rw [abs_le]
  constructor <;> linarith

end

end Ieompp.Program
