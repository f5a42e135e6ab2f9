import Verif.Props.ExpectationValue

/-! # C40: the dispersion -/

set_option autoImplicit false
set_option linter.unusedSectionVars false

namespace Ieompp.Hubbard

open Real RealSpace
open MomentumSpace (vecAt)

theorem foldl_cos {V : Type*} (dot : V → V → ℝ) (k : V) : ∀ (l : List V) (x : ℝ),
    l.foldl (fun val vec => val + cos (dot k vec)) x = x + (l.map fun a => cos (dot k a)).sum
  | [], x => by simp
  | a :: l, x => by rw [List.foldl_cons, foldl_cos dot k l, List.map_cons, List.sum_cons, add_assoc]

/-- C40: whatever the schedule of the parallel loop, the constructor stays in range and every lookup of a momentum index
returns the tight binding energy of that momentum. -/
theorem dispersion_values {V : Type*} (dot : V → V → ℝ) (n : ℕ) (k : ℕ → V) (vectors : List V) (J : ℝ) {sched : List ℕ}
    (hs : sched.Perm (List.range n)) :
    ∃ values, dispersion dot n k vectors J sched = .val values ∧ values.length = n ∧
      ∀ i < n, dispersionAt values i = .val (Spec.tightBinding dot vectors J (k i)) := by
  obtain ⟨w, e1, e2, e3⟩ := storeLoop_ok
    (f := fun i => Res.val (-2 * J * vectors.foldl (fun val vec => val + cos (dot (k i) vec)) 0)) sched
    (List.replicate n 0) (fun i hi => ⟨rfl, by rw [hs.mem_iff] at hi; simpa using hi⟩)
  refine ⟨w, e1, by simpa using e2, fun i hi => ?_⟩
  unfold dispersionAt vecAt
  rw [e3 i, if_pos ⟨by rw [hs.mem_iff]; simpa using hi, by simpa using hi⟩]
  simp only
  rw [foldl_cos, zero_add]; rfl

/-- C40: the energy lies within `± 2 d |J|`, for `d` lattice vectors. -/
theorem dispersion_bounded {V : Type*} (dot : V → V → ℝ) (vectors : List V) (J : ℝ) (k : V) :
    |Spec.tightBinding dot vectors J k| ≤ 2 * vectors.length * |J| := by
  have h : |(vectors.map fun a => cos (dot k a)).sum| ≤ vectors.length := by
    induction vectors with
    | nil => simp
    | cons a l ih =>
      rw [List.map_cons, List.sum_cons, List.length_cons]
      push_cast
      linarith [abs_add_le (cos (dot k a)) (l.map fun a => cos (dot k a)).sum, abs_cos_le_one (dot k a)]
  unfold Spec.tightBinding
  rw [abs_mul, abs_mul, abs_neg, abs_two]
  nlinarith [abs_nonneg J]

/-- C40: the band edges are attained (the bound cannot be improved): at `k·a = 0` and, with the opposite sign, at
`k·a = π` for all lattice vectors. -/
theorem dispersion_edges {V : Type*} (dot : V → V → ℝ) (vectors : List V) (J : ℝ) (k : V) :
    ((∀ a ∈ vectors, dot k a = 0) → Spec.tightBinding dot vectors J k = -(2 * vectors.length * J)) ∧
    ((∀ a ∈ vectors, dot k a = π) → Spec.tightBinding dot vectors J k = 2 * vectors.length * J) := by
  unfold Spec.tightBinding
  constructor
  · intro h
    rw [List.map_congr_left (g := fun _ => (1 : ℝ)) (fun a ha => by rw [h a ha, cos_zero])]
    simp; ring
  · intro h
    rw [List.map_congr_left (g := fun _ => (-1 : ℝ)) (fun a ha => by rw [h a ha, cos_pi])]
    simp; ring

/-- C40: the energy is even in the momentum and has the reciprocal lattice as periods. -/
theorem dispersion_even_periodic {V : Type*} (dot : V → V → ℝ) (vectors : List V) (J : ℝ) (k k' : V) :
    ((∀ a ∈ vectors, dot k' a = -dot k a) → Spec.tightBinding dot vectors J k' = Spec.tightBinding dot vectors J k) ∧
    ((∀ a ∈ vectors, ∃ m : ℤ, dot k' a = dot k a + m * (2 * π)) →
      Spec.tightBinding dot vectors J k' = Spec.tightBinding dot vectors J k) := by
  unfold Spec.tightBinding
  constructor
  · intro h
    rw [List.map_congr_left (fun a ha => by rw [h a ha, cos_neg])]
  · intro h
    rw [List.map_congr_left (fun a ha => by obtain ⟨m, hm⟩ := h a ha; rw [hm, cos_add_int_mul_two_pi])]

/-! ### On the lattices of the library -/

/-- The momenta of a chain. -/
theorem momentum_pos (N i : ℕ) : (Chain.momentum π N).pos i = -π + i * (2 * π / N) := rfl

/-- C40 on the chain (the Brillouin zone `PeriodicChain(N)` and the lattice `PeriodicChain(N, dx)`): the table holds
`-2 J cos(k dx)`, every value is within `± 2|J|`, opposite momenta (indices `i` and `N - i`) have the same energy. -/
theorem dispersion_chain (N : ℕ) (hN : 0 < N) (J : ℝ) {sched : List ℕ} (hs : sched.Perm (List.range N)) :
    ∃ values, dispersion (fun a b => a * b) N (Chain.momentum π N).pos (chainVectors (Chain.real N 1)) J sched = .val values ∧
      ∀ i < N, ∃ e, dispersionAt values i = .val e ∧ e = -2 * J * cos ((Chain.momentum π N).pos i) ∧ |e| ≤ 2 * |J| ∧
        dispersionAt values ((N - i) % N) = .val e := by
  obtain ⟨values, e1, _, e3⟩ := dispersion_values (fun a b : ℝ => a * b) N (Chain.momentum π N).pos
    (chainVectors (Chain.real N 1)) J hs
  refine ⟨values, e1, fun i hi => ⟨_, e3 i hi, by simp [Spec.tightBinding, chainVectors, Chain.real], ?_, ?_⟩⟩
  · simpa [chainVectors] using dispersion_bounded (fun a b : ℝ => a * b) (chainVectors (Chain.real N 1)) J ((Chain.momentum π N).pos i)
  · rw [e3 _ (Nat.mod_lt _ hN)]
    congr 1
    have hN' : (N : ℝ) ≠ 0 := by exact_mod_cast hN.ne'
    by_cases h0 : i = 0
    · subst h0; simp
    · rw [Nat.mod_eq_of_lt (by omega)]
      simp only [Spec.tightBinding, chainVectors, Chain.real, momentum_pos, List.map_cons, List.map_nil, mul_one]
      rw [Nat.cast_sub hi.le, show -π + ((N : ℝ) - i) * (2 * π / N) = -(-π + i * (2 * π / N)) by field_simp; ring, cos_neg]

/-- C40 on the square lattice. -/
theorem dispersion_square (Nx Ny : ℕ) (J : ℝ) {sched : List ℕ} (hs : sched.Perm (List.range (Nx * Ny))) :
    ∃ values, dispersion dot2 (Nx * Ny) (Square.momentum π Nx Ny).pos (squareVectors (Square.real Nx Ny 1 1)) J sched = .val values ∧
      ∀ i < Nx * Ny, ∃ e, dispersionAt values i = .val e ∧ |e| ≤ 4 * |J| ∧
        e = -2 * J * (cos ((Square.momentum π Nx Ny).pos i).1 + cos ((Square.momentum π Nx Ny).pos i).2) := by
  obtain ⟨values, e1, _, e3⟩ := dispersion_values dot2 (Nx * Ny) (Square.momentum π Nx Ny).pos
    (squareVectors (Square.real Nx Ny 1 1)) J hs
  refine ⟨values, e1, fun i hi => ⟨_, e3 i hi, ?_, by simp [Spec.tightBinding, squareVectors, Square.real, dot2]⟩⟩
  have := dispersion_bounded dot2 (squareVectors (Square.real Nx Ny 1 1)) J ((Square.momentum π Nx Ny).pos i)
  simp [squareVectors] at this ⊢
  linarith

/-! ### The dispersion is the spectrum of the hopping -/

/-- The plane wave of momentum `k` at site `x`. -/
noncomputable def planeWave (k : ℝ) (x : ℕ) : ℂ := Complex.exp (k * x * Complex.I)

theorem planeWave_add (k : ℝ) (x y : ℕ) : planeWave k (x + y) = planeWave k x * planeWave k y := by
  unfold planeWave; rw [← Complex.exp_add]; push_cast; ring_nf

theorem planeWave_zero (k : ℝ) : planeWave k 0 = 1 := by simp [planeWave]

theorem planeWave_ne (k : ℝ) (x : ℕ) : planeWave k x ≠ 0 := Complex.exp_ne_zero _

theorem planeWave_period (N : ℕ) (hN : 0 < N) (i : ℕ) : planeWave ((Chain.momentum π N).pos i) N = (-1) ^ N := by
  have hN' : (N : ℂ) ≠ 0 := by exact_mod_cast hN.ne'
  unfold planeWave
  rw [momentum_pos]
  push_cast
  rw [show (-(π : ℂ) + i * (2 * π / N)) * N * Complex.I = (N : ℂ) * (-(π * Complex.I)) + i * (2 * π * Complex.I) by
    field_simp, Complex.exp_add, Complex.exp_nat_mul, Complex.exp_neg, Complex.exp_pi_mul_I,
    Complex.exp_nat_mul_two_pi_mul_I]
  norm_num

theorem planeWave_cos (k : ℝ) : planeWave k 1 + (planeWave k 1)⁻¹ = 2 * (cos k : ℝ) := by
  unfold planeWave
  rw [← Complex.exp_neg]
  push_cast
  rw [Complex.two_cos, mul_one]
  ring_nf

/-- The two neighbours of a site contribute `2 cos k` times the value at the site, if the plane wave has period `N`. -/
theorem planeWave_ring {k : ℝ} {N x : ℕ} (hx : x < N) (hp : planeWave k N = 1) :
    planeWave k (if x > 0 then x - 1 else N - 1) + planeWave k (if x < N - 1 then x + 1 else 0) =
      2 * (cos k : ℝ) * planeWave k x := by
  have h1 : planeWave k (if x > 0 then x - 1 else N - 1) * planeWave k 1 = planeWave k x := by
    rw [← planeWave_add]
    split_ifs with h
    · congr 1; omega
    · rw [show N - 1 + 1 = N by omega, hp, show x = 0 by omega, planeWave_zero]
  have h2 : planeWave k (if x < N - 1 then x + 1 else 0) = planeWave k x * planeWave k 1 := by
    split_ifs with h
    · exact planeWave_add _ _ _
    · rw [← planeWave_add, show x + 1 = N by omega, hp, planeWave_zero]
  have h3 : planeWave k (if x > 0 then x - 1 else N - 1) = planeWave k x * (planeWave k 1)⁻¹ := by
    rw [← h1, mul_assoc, mul_inv_cancel₀ (planeWave_ne _ _), mul_one]
  rw [h2, h3, ← planeWave_cos]; ring

theorem real_neighbors (N x : ℕ) : (Chain.real (K := ℝ) N 1).neighbors x =
    [if x > 0 then x - 1 else N - 1, if x < N - 1 then x + 1 else 0] := rfl

/-- For an even number of sites, every plane wave whose momentum is in the Brillouin zone grid is an eigenvector of the
hopping `-J` along the `neighbors` of the lattice, and the tabulated dispersion is its eigenvalue. -/
theorem dispersion_eigenvalue_partial (N : ℕ) (hN : 0 < N) (heven : Even N) (J : ℝ) {sched : List ℕ}
    (hs : sched.Perm (List.range N)) :
    ∃ values, dispersion (fun a b => a * b) N (Chain.momentum π N).pos (chainVectors (Chain.real N 1)) J sched = .val values ∧
      ∀ i < N, ∃ e, dispersionAt values i = .val e ∧ ∀ x < N,
        (((Chain.real (K := ℝ) N 1).neighbors x).map fun y => -(J : ℂ) * planeWave ((Chain.momentum π N).pos i) y).sum =
          (e : ℂ) * planeWave ((Chain.momentum π N).pos i) x := by
  obtain ⟨values, e1, e2⟩ := dispersion_chain N hN J hs
  refine ⟨values, e1, fun i hi => ?_⟩
  obtain ⟨e, h1, h2, _⟩ := e2 i hi
  refine ⟨e, h1, fun x hx => ?_⟩
  have hp : planeWave ((Chain.momentum π N).pos i) N = 1 := by rw [planeWave_period N hN, heven.neg_one_pow]
  have := planeWave_ring hx hp
  simp only [real_neighbors, List.map_cons, List.map_nil, List.sum_cons, List.sum_nil, add_zero, ← mul_add]
  rw [this, h2]
  push_cast; ring

/-- Finding: for an odd number of sites the momenta of `PeriodicChain(N)` are those of antiperiodic boundary conditions:
no plane wave of the grid is an eigenvector of the hopping along the lattice's `neighbors`, with any eigenvalue. -/
theorem dispersion_odd_wrong (N : ℕ) (hN : 3 ≤ N) (hodd : Odd N) (J : ℝ) (hJ : J ≠ 0) (i : ℕ) :
    ¬ ∃ e : ℂ, ∀ x < N,
      (((Chain.real (K := ℝ) N 1).neighbors x).map fun y => -(J : ℂ) * planeWave ((Chain.momentum π N).pos i) y).sum =
        e * planeWave ((Chain.momentum π N).pos i) x := by
  rintro ⟨e, h⟩
  set k := (Chain.momentum π N).pos i with hk
  have hp : planeWave k N = -1 := by rw [hk, planeWave_period N (by omega), hodd.neg_one_pow]
  have hJ' : (J : ℂ) ≠ 0 := by exact_mod_cast hJ
  have a0 := h 0 (by omega)
  have a1 := h 1 (by omega)
  simp only [real_neighbors, List.map_cons, List.map_nil, List.sum_cons, List.sum_nil, add_zero, ← mul_add,
    gt_iff_lt, lt_self_iff_false, if_false, Nat.zero_lt_one, if_true, Nat.sub_self, zero_add] at a0 a1
  rw [if_pos (by omega)] at a0 a1
  have e2 : planeWave k 2 = planeWave k 1 * planeWave k 1 := planeWave_add k 1 1
  have e3 : planeWave k (N - 1) * planeWave k 1 = -1 := by rw [← planeWave_add, show N - 1 + 1 = N by omega, hp]
  rw [planeWave_zero] at a0 a1
  have e4 : (1 + 1 : ℕ) = 2 := rfl
  rw [e4, e2] at a1
  have hne := planeWave_ne k 1
  have key : (J : ℂ) * (planeWave k (N - 1) * planeWave k 1) = J := by
    linear_combination (-planeWave k 1) * a0 + a1
  rw [e3] at key
  exact hJ' (by linear_combination (-1 / 2 : ℂ) * key)

/-- The hypotheses are met by a chain of four sites; its energies are `2J, 0, -2J, 0`. -/
example : Even 4 ∧ [3, 1, 0, 2].Perm (List.range 4) ∧ -2 * (1 : ℝ) * cos ((Chain.momentum π 4).pos 2) = -2 := by
  refine ⟨by decide, by decide, ?_⟩
  rw [momentum_pos, show -π + ((2 : ℕ) : ℝ) * (2 * π / (4 : ℕ)) = 0 by push_cast; ring, cos_zero]; norm_num

end Ieompp.Hubbard
