import Verif.Props.Symmetry

/-! # C106: the output of the programs respects the symmetries of the lattice -/

set_option autoImplicit false
set_option linter.unusedSectionVars false

namespace Ieompp.Program

open Ieompp.Spec RealSpace ODE

/-! ## The integrator commutes with symmetries -/

theorem exp4_semiconj {R : Type*} [Ring R] [Algebra ℂ R] (h : ℂ) {P A B : R} (e : SemiconjBy P A B) : SemiconjBy P (exp4 h A) (exp4 h B) := by
  unfold exp4 SemiconjBy
  rw [Finset.mul_sum, Finset.sum_mul]
  refine Finset.sum_congr rfl fun j _ => ?_
  rw [mul_smul_comm, smul_mul_assoc, (e.pow_right j).eq]

/-- If `B (π i) (π j) s_j = s_i A i j`, then integrating with `B` gives `s` times the permuted result of `A`. -/
theorem evolve_move {n : ℕ} (π : Equiv.Perm (Fin n)) (s : Fin n → ℂ) {A B : Matrix (Fin n) (Fin n) ℂ}
    (hAB : ∀ i j, B (π i) (π j) * s j = s i * A i j) {u u' : Fin n → ℂ} (hu : ∀ j, u' (π j) = s j * u j) (h : ℂ) (k : ℕ) (j : Fin n) :
    ((exp4 h B) ^ k).mulVec u' (π j) = s j * ((exp4 h A) ^ k).mulVec u j := by
  set P : Matrix (Fin n) (Fin n) ℂ := Matrix.of fun i j => if i = π j then s j else 0 with hP
  have hv : ∀ (v : Fin n → ℂ) j, P.mulVec v (π j) = s j * v j := by
    intro v j
    simp only [Matrix.mulVec, dotProduct, hP, Matrix.of_apply, ite_mul, zero_mul, EmbeddingLike.apply_eq_iff_eq, Finset.sum_ite_eq,
      Finset.mem_univ, if_true]
  have hPA : SemiconjBy P A B := by
    unfold SemiconjBy
    ext i j
    obtain ⟨i, rfl⟩ := π.surjective i
    rw [Matrix.mul_apply, Matrix.mul_apply]
    have e1 : ∑ x, P (π i) x * A x j = s i * A i j := hv (fun x => A x j) i
    have e2 : ∑ x, B (π i) x * P x j = B (π i) (π j) * s j := by
      simp only [hP, Matrix.of_apply, mul_ite, mul_zero, Finset.sum_ite_eq', Finset.mem_univ, if_true]
    rw [e1, e2, hAB]
  have hk := ((exp4_semiconj h hPA).pow_right k).eq
  have hu' : u' = P.mulVec u := by
    ext i
    obtain ⟨i, rfl⟩ := π.surjective i
    rw [hv, hu]
  rw [hu', Matrix.mulVec_mulVec, ← hk, ← Matrix.mulVec_mulVec, hv]

/-- If the real matrix is replaced by its negative, all results become complex conjugates. -/
theorem evolve_conj {n : ℕ} {A B : Matrix (Fin n) (Fin n) ℂ} (hAB : ∀ i j, B i j = (starRingEnd ℂ) (A i j)) {u : Fin n → ℂ}
    (hu : ∀ j, (starRingEnd ℂ) (u j) = u j) (dt : ℝ) (k : ℕ) (j : Fin n) :
    ((exp4 (dt : ℂ) B) ^ k).mulVec u j = (starRingEnd ℂ) (((exp4 (dt : ℂ) A) ^ k).mulVec u j) := by
  have hB : B = (starRingEnd ℂ).mapMatrix A := by ext i j; exact hAB i j
  have he : exp4 (dt : ℂ) B = (starRingEnd ℂ).mapMatrix (exp4 (dt : ℂ) A) := by
    rw [hB]
    unfold exp4
    rw [map_sum]
    refine Finset.sum_congr rfl fun j _ => ?_
    rw [← map_pow]
    ext a b
    simp only [Matrix.smul_apply, RingHom.mapMatrix_apply, Matrix.map_apply, smul_eq_mul, map_mul, map_div₀, map_pow, Complex.conj_ofReal,
      map_natCast]
    rw [← RingHom.mapMatrix_apply, ← map_pow]
    rfl
  rw [he, ← map_pow, RingHom.mapMatrix_apply]
  generalize (exp4 (dt : ℂ) A) ^ k = M
  simp only [Matrix.mulVec, dotProduct, Matrix.map_apply, map_sum, map_mul, hu]

/-! ## The coefficient programs -/

/-- The output of a coefficient program in terms of the integrator. -/
theorem kinetic_rows {N : ℕ} (hN : 3 ≤ N) (J tEnd : ℝ) {dt : ℝ} (hdt : 0 < dt) {interval : ℕ} (hI : interval < 2 ^ 64)
    {sort : List (Triplet ℝ) → List (Triplet ℝ)} (hs : IsSort sort) (w : Work ℂ) :
    ∃ (m : Sparse ℝ) (s : Sim.State Vars (List ℝ)), real1dKineticRk4Coefficients sort w N J dt tEnd interval = .val s ∧
      (∀ p < N, ∀ q < N, m.get p q = if q ∈ (Chain.real (K := ℝ) N 1).neighbors p then -J else 0) ∧
      s.out = (List.range (⌈tEnd / dt⌉₊ / max interval 1 + 1)).map fun j => (((j * max interval 1 : ℕ) : ℝ) * dt,
        coefficientRow (List.ofFn ((exp4 (dt : ℂ) (mat N (timesI m)) ^ (j * max interval 1)).mulVec
          fun p : Fin N => if (p : ℕ) = 0 then 1 else 0))) := by
  have hsz := (realBasis_size N).1
  have hreg := chain_regular (Chain.Constructed.real (N := N) (1 : ℝ) (by omega) rfl) hN
  obtain ⟨m, h1, h2, _, _, _, _, h3⟩ := initKineticMatrix_ok hreg sort hs J
  obtain ⟨s, e1, e2⟩ := simulate_rk4 N m (fun s => .val (coefficientRow s.2.2)) (fun y => coefficientRow (List.ofFn y))
    (fun k w y => rfl) hdt tEnd hI w fun p : Fin N => if (p : ℕ) = 0 then 1 else 0
  refine ⟨m, s, ?_, h3, e2⟩
  unfold real1dKineticRk4Coefficients
  simp only [h1, Res.bind_val, hsz, initVector_ofFn (n := N) (by omega)]
  exact e1

theorem complete_rows {N : ℕ} (hN : 3 ≤ N) (J U tEnd : ℝ) {dt : ℝ} (hdt : 0 < dt) {interval : ℕ} (hI : interval < 2 ^ 64)
    {sort : List (Triplet ℝ) → List (Triplet ℝ)} (hs : IsSort sort) (w : Work ℂ) :
    ∃ (m : Sparse ℝ) (s : Sim.State Vars (List ℝ)), real1dRk4Coefficients sort w N J U dt tEnd interval = .val s ∧
      (∀ x y : Label, x.Valid N → y.Valid N → m.get (x.pos N) (y.pos N) = element (Chain.real (K := ℝ) N 1).neighbors J U x y) ∧
      s.out = (List.range (⌈tEnd / dt⌉₊ / max interval 1 + 1)).map fun j => (((j * max interval 1 : ℕ) : ℝ) * dt,
        coefficientRow (List.ofFn ((exp4 (dt : ℂ) (mat (N + N * N * N) (timesI m)) ^ (j * max interval 1)).mulVec
          fun p : Fin (N + N * N * N) => if (p : ℕ) = 0 then 1 else 0))) := by
  have hsz := (realBasis_size N).2
  have hreg := chain_regular (Chain.Constructed.real (N := N) (1 : ℝ) (by omega) rfl) hN
  obtain ⟨m, h1, h2, _, _, _, _, _, h3⟩ := initMatrix_ok hreg sort hs J U
  obtain ⟨s, e1, e2⟩ := simulate_rk4 (N + N * N * N) m (fun s => .val (coefficientRow s.2.2)) (fun y => coefficientRow (List.ofFn y))
    (fun k w y => rfl) hdt tEnd hI w fun p : Fin (N + N * N * N) => if (p : ℕ) = 0 then 1 else 0
  refine ⟨m, s, ?_, h3, e2⟩
  unfold real1dRk4Coefficients
  simp only [h1, Res.bind_val, hsz, initVector_ofFn (n := N + N * N * N) (by omega)]
  exact e1

/-- A symmetry of the sites permutes the sites. -/
theorem site_perm {N : ℕ} {nb : ℕ → List ℕ} {σ τ : ℕ → ℕ} (h : LatticeSymmetry N nb σ τ) :
    ∃ π : Equiv.Perm (Fin N), ∀ p : Fin N, (π p : ℕ) = σ p :=
  ⟨⟨fun p => ⟨σ p, h.lt p p.2⟩, fun p => ⟨τ p, h.lt' p p.2⟩, fun p => Fin.ext (h.left p p.2), fun p => Fin.ext (h.right p p.2)⟩,
    fun _ => rfl⟩

/-- A symmetry of the sites permutes the basis. -/
theorem label_perm {N : ℕ} {nb : ℕ → List ℕ} {σ τ : ℕ → ℕ} (h : LatticeSymmetry N nb σ τ) :
    ∃ π : Equiv.Perm (Fin (N + N * N * N)), ∀ (p : Fin (N + N * N * N)) (x : Label), x.Valid N → x.pos N = p →
      (π p : ℕ) = (x.move σ).pos N := by
  choose lab hv hp using fun p : Fin (N + N * N * N) => label_of_lt p.2
  set f : Fin (N + N * N * N) → Fin (N + N * N * N) := fun p => ⟨((lab p).move σ).pos N, label_pos_lt (move_valid h (hv p))⟩ with hf
  have hinj : Function.Injective f := by
    intro p q e
    have e1 : ((lab p).move σ).pos N = ((lab q).move σ).pos N := congrArg Fin.val e
    rw [pos_inj (move_valid h (hv p)) (move_valid h (hv q)), move_inj h (hv p) (hv q)] at e1
    exact Fin.ext (by rw [← hp p, ← hp q, e1])
  refine ⟨Equiv.ofBijective f (Finite.injective_iff_bijective.1 hinj), fun p x hx e => ?_⟩
  have : lab p = x := (pos_inj (hv p) hx).1 (by rw [hp p, e])
  rw [← this]
  rfl

theorem pos_zero {N : ℕ} (hN : 3 ≤ N) {x : Label} : x.pos N = 0 ↔ x = .one 0 := by
  cases x with
  | one i => simp [Label.pos]
  | three a b c => simp only [Label.pos, reduceCtorEq, iff_false]; omega

theorem reflect_zero {N : ℕ} (_ : 3 ≤ N) : reflect N 0 = 0 := by unfold reflect; simp

theorem reflect_eq_zero {N a : ℕ} (ha : a < N) : reflect N a = 0 ↔ a = 0 := by
  unfold reflect
  constructor
  · intro h
    by_contra h0
    rw [Nat.mod_eq_of_lt (by omega)] at h
    omega
  · rintro rfl; simp

/-- **C106**, `hubbard_real_1d_kinetic_rk4_coefficients`: in every row of the output, sites at the same distance from site 0 have
the same coefficient. -/
theorem kineticCoefficients_reflection {N : ℕ} (hN : 3 ≤ N) (J tEnd : ℝ) {dt : ℝ} (hdt : 0 < dt) {interval : ℕ} (hI : interval < 2 ^ 64)
    {sort : List (Triplet ℝ) → List (Triplet ℝ)} (hs : IsSort sort) (w : Work ℂ) :
    ∃ s, real1dKineticRk4Coefficients sort w N J dt tEnd interval = .val s ∧
      ∀ row ∈ s.out, ∀ p < N, coefficientOf row.2 (reflect N p) = coefficientOf row.2 p := by
  obtain ⟨m, s, e, hm, ho⟩ := kinetic_rows hN J tEnd hdt hI hs w
  refine ⟨s, e, fun row hrow p hp => ?_⟩
  have hsymm := (chain_symmetries (Chain.Constructed.real (N := N) (1 : ℝ) (by omega) rfl)).2
  obtain ⟨π, hπ⟩ := site_perm hsymm
  rw [ho, List.mem_map] at hrow
  obtain ⟨j, -, rfl⟩ := hrow
  have e1 := coefficientOf_row ((exp4 (dt : ℂ) (mat N (timesI m)) ^ (j * max interval 1)).mulVec
          fun p : Fin N => if (p : ℕ) = 0 then 1 else 0) ⟨p, hp⟩
  have e2 := coefficientOf_row ((exp4 (dt : ℂ) (mat N (timesI m)) ^ (j * max interval 1)).mulVec
          fun p : Fin N => if (p : ℕ) = 0 then 1 else 0) (π ⟨p, hp⟩)
  rw [hπ] at e2
  simp only at e1 e2 ⊢
  rw [e1, e2, evolve_move π (fun _ => 1) (A := mat N (timesI m)) (u := fun p : Fin N => if (p : ℕ) = 0 then 1 else 0) ?_ ?_, one_mul]
  · intro a b
    show Complex.I * ((m.get (π a) (π b) : ℝ) : ℂ) * 1 = 1 * (Complex.I * ((m.get a b : ℝ) : ℂ))
    rw [hm _ (π a).2 _ (π b).2, hm a a.2 b b.2, hπ, hπ]
    simp only [hsymm.neighbors a a.2 b b.2, mul_one, one_mul]
  · intro a
    simp only [hπ, reflect_eq_zero a.2, one_mul]

/-- The common part of the statements about the complete program: two runs with related matrices have related output. -/
theorem complete_related {N : ℕ} (hN : 3 ≤ N) (J U J' U' tEnd : ℝ) {dt : ℝ} (hdt : 0 < dt) {interval : ℕ} (hI : interval < 2 ^ 64)
    {sort sort' : List (Triplet ℝ) → List (Triplet ℝ)} (hs : IsSort sort) (hs' : IsSort sort') (w w' : Work ℂ) {σ τ : ℕ → ℕ}
    (hσ : LatticeSymmetry N (Chain.real (K := ℝ) N 1).neighbors σ τ) (h0 : σ 0 = 0) (f : Label → ℝ) (hf : f (.one 0) = 1)
    (hel : ∀ x y : Label, x.Valid N → y.Valid N →
      element (Chain.real (K := ℝ) N 1).neighbors J' U' (x.move σ) (y.move σ) * f y =
        f x * element (Chain.real (K := ℝ) N 1).neighbors J U x y) :
    ∃ s s', real1dRk4Coefficients sort w N J U dt tEnd interval = .val s ∧
      real1dRk4Coefficients sort' w' N J' U' dt tEnd interval = .val s' ∧
      List.Forall₂ (fun row row' => row'.1 = row.1 ∧ ∀ x : Label, x.Valid N →
        coefficientOf row'.2 ((x.move σ).pos N) = f x * coefficientOf row.2 (x.pos N)) s.out s'.out := by
  obtain ⟨m, s, e, hm, ho⟩ := complete_rows hN J U tEnd hdt hI hs w
  obtain ⟨m', s', e', hm', ho'⟩ := complete_rows hN J' U' tEnd hdt hI hs' w'
  refine ⟨s, s', e, e', ?_⟩
  obtain ⟨π, hπ⟩ := label_perm hσ
  choose lab hv hp using fun p : Fin (N + N * N * N) => label_of_lt p.2
  rw [ho, ho', List.forall₂_map_left_iff, List.forall₂_map_right_iff, List.forall₂_same]
  intro j _
  refine ⟨rfl, fun x hx => ?_⟩
  set u : Fin (N + N * N * N) → ℂ := fun p => if (p : ℕ) = 0 then 1 else 0 with hu
  have e1 := coefficientOf_row ((exp4 (dt : ℂ) (mat (N + N * N * N) (timesI m)) ^ (j * max interval 1)).mulVec u) ⟨x.pos N, label_pos_lt hx⟩
  have e2 := coefficientOf_row ((exp4 (dt : ℂ) (mat (N + N * N * N) (timesI m')) ^ (j * max interval 1)).mulVec u)
    (π ⟨x.pos N, label_pos_lt hx⟩)
  rw [hπ _ x hx rfl] at e2
  simp only at e1 e2 ⊢
  rw [e1, e2, evolve_move π (fun p => (f (lab p) : ℂ)) (A := mat (N + N * N * N) (timesI m)) (u := u) ?_ ?_]
  · have : lab ⟨x.pos N, label_pos_lt hx⟩ = x := (pos_inj (hv _) hx).1 (hp _)
    simp only [this]
  · intro a b
    show Complex.I * ((m'.get (π a) (π b) : ℝ) : ℂ) * (f (lab b) : ℂ) = (f (lab a) : ℂ) * (Complex.I * ((m.get a b : ℝ) : ℂ))
    rw [hπ a (lab a) (hv a) (hp a), hπ b (lab b) (hv b) (hp b), hm' _ _ (move_valid hσ (hv a)) (move_valid hσ (hv b))]
    have := hm _ _ (hv a) (hv b)
    rw [hp, hp] at this
    rw [this]
    have h := hel _ _ (hv a) (hv b)
    have h' := congrArg (fun r : ℝ => (r : ℂ)) h
    push_cast at h'
    rw [mul_assoc, h']
    ring
  · intro a
    simp only [hu]
    rw [hπ a (lab a) (hv a) (hp a)]
    have e3 : ((a : ℕ) = 0) ↔ lab a = .one 0 := by rw [← hp a]; exact pos_zero hN
    have e4 : ((lab a).move σ).pos N = 0 ↔ lab a = .one 0 := by
      rw [pos_zero hN, show Label.one 0 = (Label.one 0).move σ by simp [Label.move, h0]]
      exact (move_inj hσ (hv a) (show (Label.one 0).Valid N from (by omega : 0 < N))).trans (by simp [Label.move, h0])
    simp only [e3, e4]
    split_ifs with q
    · rw [q, hf]; simp
    · simp

/-- **C106**, `hubbard_real_1d_rk4_coefficients`, reflection: in every row, basis operators which are mirror images have the same
coefficient. -/
theorem coefficients_reflection {N : ℕ} (hN : 3 ≤ N) (J U tEnd : ℝ) {dt : ℝ} (hdt : 0 < dt) {interval : ℕ} (hI : interval < 2 ^ 64)
    {sort : List (Triplet ℝ) → List (Triplet ℝ)} (hs : IsSort sort) (w : Work ℂ) :
    ∃ s, real1dRk4Coefficients sort w N J U dt tEnd interval = .val s ∧ ∀ row ∈ s.out, ∀ x : Label, x.Valid N →
      coefficientOf row.2 ((x.move (reflect N)).pos N) = coefficientOf row.2 (x.pos N) := by
  have hsymm := (chain_symmetries (Chain.Constructed.real (N := N) (1 : ℝ) (by omega) rfl)).2
  obtain ⟨s, s', e, e', h⟩ := complete_related hN J U J U tEnd hdt hI hs hs w w hsymm (reflect_zero hN) (fun _ => 1) rfl
    (fun x y hx hy => by rw [element_move hsymm J U hx hy, mul_one, one_mul])
  rw [e] at e'; cases e'
  refine ⟨s, e, fun row hrow x hx => ?_⟩
  have h' : ∀ r ∈ s.out, (r.1 = r.1 ∧ ∀ x : Label, x.Valid N → coefficientOf r.2 ((x.move (reflect N)).pos N) =
    ((1 : ℝ) : ℂ) * coefficientOf r.2 (x.pos N)) := List.forall₂_same.1 h
  rw [(h' row hrow).2 x hx, Complex.ofReal_one, one_mul]

theorem chain_id {N : ℕ} (hN : 3 ≤ N) : LatticeSymmetry N (Chain.real (K := ℝ) N 1).neighbors id id :=
  chain_of_ring (Chain.Constructed.real (N := N) (1 : ℝ) (by omega) rfl) (ring_id N)

theorem move_id (x : Label) : x.move id = x := by cases x <;> rfl

/-- On a ring with an even number of sites neighbours have different parity. -/
theorem parity_neighbor {N : ℕ} (hN : 3 ≤ N) (he : Even N) {a b : ℕ} (ha : a < N) (hb : b < N)
    (h : b ∈ (Chain.real (K := ℝ) N 1).neighbors a) : ((-1 : ℝ)) ^ b = -(-1) ^ a := by
  rw [(chain_neighboring_iff (Chain.Constructed.real (N := N) (1 : ℝ) (by omega) rfl) a b ha hb).2,
    mod_cases (x := a + 1) (by omega), mod_cases (x := b + 1) (by omega)] at h
  rcases h with h | h
  · split_ifs at h with q
    · rw [h, pow_succ]; ring
    · have : N = a + 1 := by omega
      have h2 : ((-1 : ℝ)) ^ (a + 1) = 1 := by rw [← this]; exact he.neg_one_pow
      rw [pow_succ] at h2
      rw [h, this, Nat.sub_self, pow_zero]
      linarith
  · split_ifs at h with q
    · rw [h, pow_succ]; ring
    · have : N = b + 1 := by omega
      have h2 : ((-1 : ℝ)) ^ (b + 1) = 1 := by rw [← this]; exact he.neg_one_pow
      rw [pow_succ] at h2
      rw [h, this, Nat.sub_self, pow_zero]
      linarith

theorem sign_one (i : ℕ) : (((Label.one i).sign : ℤ) : ℝ) = (-1) ^ i := by simp [Label.sign]
theorem sign_three (a b c : ℕ) : (((Label.three a b c).sign : ℤ) : ℝ) = (-1) ^ a * (-1) ^ b * (-1) ^ c := by
  simp [Label.sign, pow_add]

theorem neg_one_cube (i : ℕ) : ((-1 : ℝ)) ^ i * (-1) ^ i * (-1) ^ i = (-1) ^ i := by
  rw [← pow_add, Even.neg_one_pow ⟨i, rfl⟩, one_mul]

theorem element_sign {N : ℕ} (hN : 3 ≤ N) (he : Even N) (J U : ℝ) {x y : Label} (hx : x.Valid N) (hy : y.Valid N) :
    element (Chain.real (K := ℝ) N 1).neighbors (-J) U x y * (y.sign : ℝ) =
      (x.sign : ℝ) * element (Chain.real (K := ℝ) N 1).neighbors J U x y := by
  have hp := fun {a b : ℕ} (ha : a < N) (hb : b < N) => parity_neighbor hN he (a := a) (b := b) ha hb
  cases x with
  | one i =>
    cases y with
    | one j =>
      simp only [sign_one, element]
      by_cases h1 : j ∈ (Chain.real (K := ℝ) N 1).neighbors i
      · rw [if_pos h1, if_pos h1, hp hx hy h1]
        split_ifs with h2
        · subst h2
          have := hp hx hx h1
          have : ((-1 : ℝ)) ^ i = 0 := by linarith
          rw [this]; ring
        · ring
      · rw [if_neg h1, if_neg h1]
        split_ifs with h2
        · rw [h2]; ring
        · ring
    | three a b c =>
      simp only [sign_one, sign_three, element]
      split_ifs with h
      · obtain ⟨rfl, rfl, rfl⟩ := h
        rw [neg_one_cube]; ring
      · ring
  | three a b c =>
    cases y with
    | one i =>
      simp only [sign_one, sign_three, element]
      split_ifs with h
      · obtain ⟨rfl, rfl, rfl⟩ := h
        rw [neg_one_cube]; ring
      · ring
    | three a' b' c' =>
      have hpa := hp hx.1 hy.1
      have hpb := hp hx.2.1 hy.2.1
      have hpc := hp hx.2.2 hy.2.2
      rw [sign_three, sign_three]
      have t1 : (if a' ∈ (Chain.real (K := ℝ) N 1).neighbors a ∧ b' = b ∧ c' = c then - -J else 0) * ((-1) ^ a' * (-1) ^ b' * (-1) ^ c') =
          ((-1) ^ a * (-1) ^ b * (-1) ^ c) * (if a' ∈ (Chain.real (K := ℝ) N 1).neighbors a ∧ b' = b ∧ c' = c then -J else 0) := by
        split_ifs with h
        · obtain ⟨h, rfl, rfl⟩ := h; rw [hpa h]; ring
        · ring
      have t2 : (if a' = a ∧ b' ∈ (Chain.real (K := ℝ) N 1).neighbors b ∧ c' = c then - -J else 0) * ((-1) ^ a' * (-1) ^ b' * (-1) ^ c') =
          ((-1) ^ a * (-1) ^ b * (-1) ^ c) * (if a' = a ∧ b' ∈ (Chain.real (K := ℝ) N 1).neighbors b ∧ c' = c then -J else 0) := by
        split_ifs with h
        · obtain ⟨rfl, h, rfl⟩ := h; rw [hpb h]; ring
        · ring
      have t3 : (if a' = a ∧ b' = b ∧ c' ∈ (Chain.real (K := ℝ) N 1).neighbors c then -J else 0) * ((-1) ^ a' * (-1) ^ b' * (-1) ^ c') =
          ((-1) ^ a * (-1) ^ b * (-1) ^ c) * (if a' = a ∧ b' = b ∧ c' ∈ (Chain.real (K := ℝ) N 1).neighbors c then J else 0) := by
        split_ifs with h
        · obtain ⟨rfl, rfl, h⟩ := h; rw [hpc h]; ring
        · ring
      have t4 : (if a' = a ∧ b' = b ∧ c' = c then U / 2 else 0) * ((-1) ^ a' * (-1) ^ b' * (-1) ^ c') =
          ((-1) ^ a * (-1) ^ b * (-1) ^ c) * (if a' = a ∧ b' = b ∧ c' = c then U / 2 else 0) := by
        split_ifs with h
        · obtain ⟨rfl, rfl, rfl⟩ := h; ring
        · ring
      simp only [element]
      rw [add_mul, add_mul, add_mul, mul_add, mul_add, mul_add, t1, t2, t3, t4]

/-- **C106**, `hubbard_real_1d_rk4_coefficients`, sign of the hopping: for an even number of sites, a run with `-J` has the same rows,
up to the sign `(-1)^i` of a coefficient at site `i` (`(-1)^(a+b+c)` for three operators). -/
theorem coefficients_negative_hopping {N : ℕ} (hN : 3 ≤ N) (hEven : Even N) (J U tEnd : ℝ) {dt : ℝ} (hdt : 0 < dt) {interval : ℕ}
    (hI : interval < 2 ^ 64) {sort : List (Triplet ℝ) → List (Triplet ℝ)} (hs : IsSort sort) (w : Work ℂ) :
    ∃ s s', real1dRk4Coefficients sort w N J U dt tEnd interval = .val s ∧
      real1dRk4Coefficients sort w N (-J) U dt tEnd interval = .val s' ∧
      List.Forall₂ (fun row row' => row'.1 = row.1 ∧ ∀ x : Label, x.Valid N →
        coefficientOf row'.2 (x.pos N) = x.sign * coefficientOf row.2 (x.pos N)) s.out s'.out := by
  obtain ⟨s, s', e, e', h⟩ := complete_related hN J U (-J) U tEnd hdt hI hs hs w w (chain_id hN) rfl (fun x => (x.sign : ℝ))
    (by simp [Label.sign]) (fun x y hx hy => by rw [move_id, move_id]; exact element_sign hN hEven J U hx hy)
  refine ⟨s, s', e, e', h.imp fun row row' hr => ⟨hr.1, fun x hx => ?_⟩⟩
  have := hr.2 x hx
  rw [move_id] at this
  rw [this]
  push_cast
  rfl

theorem element_neg (nb : ℕ → List ℕ) (J U : ℝ) (x y : Label) : element nb (-J) (-U) x y = -element nb J U x y := by
  cases x with
  | one i =>
    cases y with
    | one j => simp only [element]; split_ifs <;> ring
    | three a b c => simp only [element]; split_ifs <;> ring
  | three a b c =>
    cases y with
    | one j => simp only [element]; split_ifs <;> ring
    | three a' b' c' =>
      simp only [element, neg_add]
      congr 1
      · congr 1
        · congr 1
          · split_ifs <;> ring
          · split_ifs <;> ring
        · split_ifs <;> ring
      · split_ifs <;> ring

/-- **C106**, `hubbard_real_1d_rk4_coefficients`, sign of all energies: a run with `-J` and `-U` has the complex conjugate
coefficients. -/
theorem coefficients_negative_energies {N : ℕ} (hN : 3 ≤ N) (J U tEnd : ℝ) {dt : ℝ} (hdt : 0 < dt) {interval : ℕ}
    (hI : interval < 2 ^ 64) {sort : List (Triplet ℝ) → List (Triplet ℝ)} (hs : IsSort sort) (w : Work ℂ) :
    ∃ s s', real1dRk4Coefficients sort w N J U dt tEnd interval = .val s ∧
      real1dRk4Coefficients sort w N (-J) (-U) dt tEnd interval = .val s' ∧
      List.Forall₂ (fun row row' => row'.1 = row.1 ∧ ∀ p < N + N * N * N,
        coefficientOf row'.2 p = (starRingEnd ℂ) (coefficientOf row.2 p)) s.out s'.out := by
  obtain ⟨m, s, e, hm, ho⟩ := complete_rows hN J U tEnd hdt hI hs w
  obtain ⟨m', s', e', hm', ho'⟩ := complete_rows hN (-J) (-U) tEnd hdt hI hs w
  refine ⟨s, s', e, e', ?_⟩
  rw [ho, ho', List.forall₂_map_left_iff, List.forall₂_map_right_iff, List.forall₂_same]
  intro j _
  refine ⟨rfl, fun p hp => ?_⟩
  set u : Fin (N + N * N * N) → ℂ := fun p => if (p : ℕ) = 0 then 1 else 0 with hu
  have e1 := coefficientOf_row ((exp4 (dt : ℂ) (mat (N + N * N * N) (timesI m)) ^ (j * max interval 1)).mulVec u) ⟨p, hp⟩
  have e2 := coefficientOf_row ((exp4 (dt : ℂ) (mat (N + N * N * N) (timesI m')) ^ (j * max interval 1)).mulVec u) ⟨p, hp⟩
  simp only at e1 e2 ⊢
  rw [e1, e2, evolve_conj (A := mat (N + N * N * N) (timesI m)) ?_ ?_]
  · intro a b
    obtain ⟨x, hx, ex⟩ := label_of_lt a.2
    obtain ⟨y, hy, ey⟩ := label_of_lt b.2
    show Complex.I * ((m'.get a b : ℝ) : ℂ) = (starRingEnd ℂ) (Complex.I * ((m.get a b : ℝ) : ℂ))
    rw [← ex, ← ey, hm x y hx hy, hm' x y hx hy, element_neg, map_mul, Complex.conj_I, Complex.conj_ofReal]
    push_cast
    ring
  · intro a
    simp only [hu]
    split_ifs <;> simp

/-- **C106**, sign of the interaction: for an even number of sites, the moduli of all coefficients are the same for repulsive and
attractive interaction of the same strength. -/
theorem coefficients_negative_interaction {N : ℕ} (hN : 3 ≤ N) (hEven : Even N) (J U tEnd : ℝ) {dt : ℝ} (hdt : 0 < dt) {interval : ℕ}
    (hI : interval < 2 ^ 64) {sort : List (Triplet ℝ) → List (Triplet ℝ)} (hs : IsSort sort) (w : Work ℂ) :
    ∃ s s', real1dRk4Coefficients sort w N J U dt tEnd interval = .val s ∧
      real1dRk4Coefficients sort w N J (-U) dt tEnd interval = .val s' ∧
      List.Forall₂ (fun row row' => row'.1 = row.1 ∧ ∀ x : Label, x.Valid N →
        coefficientOf row'.2 (x.pos N) = x.sign * (starRingEnd ℂ) (coefficientOf row.2 (x.pos N))) s.out s'.out := by
  obtain ⟨s, t, e1, e2, h1⟩ := coefficients_negative_hopping hN hEven J U tEnd hdt hI hs w
  obtain ⟨t', s', e2', e3, h2⟩ := coefficients_negative_energies hN (-J) U tEnd hdt hI hs w
  rw [e2] at e2'; cases e2'
  rw [neg_neg] at e3
  refine ⟨s, s', e1, e3, ?_⟩
  rw [List.forall₂_iff_get] at h1 h2 ⊢
  refine ⟨h1.1.trans h2.1, fun i hi hi' => ?_⟩
  have a1 := h1.2 i hi (by omega)
  have a2 := h2.2 i (by omega) hi'
  refine ⟨a2.1.trans a1.1, fun x hx => ?_⟩
  rw [a2.2 _ (label_pos_lt hx), a1.2 x hx, map_mul, map_intCast]

/-! ## The Fermi jump on the square lattice -/

theorem sum_move {N : ℕ} {nb : ℕ → List ℕ} {σ τ : ℕ → ℕ} (h : LatticeSymmetry N nb σ τ) {A : Type*} [AddCommMonoid A] (f : ℕ → A) :
    ∑ i ∈ Finset.range N, f (σ i) = ∑ i ∈ Finset.range N, f i :=
  Finset.sum_bij' (fun a _ => σ a) (fun a _ => τ a) (fun a ha => Finset.mem_range.2 (h.lt a (Finset.mem_range.1 ha)))
    (fun a ha => Finset.mem_range.2 (h.lt' a (Finset.mem_range.1 ha))) (fun a ha => h.left a (Finset.mem_range.1 ha))
    (fun a ha => h.right a (Finset.mem_range.1 ha)) (fun _ _ => rfl)

/-- Symmetric coefficients have a symmetric normal-ordered form, and the jump is that with the moved phases. -/
theorem fermiJump_move {N : ℕ} {nb : ℕ → List ℕ} {σ τ : ℕ → ℕ} (h : LatticeSymmetry N nb σ τ) {ev : ℕ → ℕ → ℝ}
    (hev : ∀ a < N, ∀ b < N, ev (σ a) (σ b) = ev a b) {v : ℕ → ℂ}
    (hv : ∀ x : Label, x.Valid N → v ((x.move σ).pos N) = v (x.pos N)) (phase : ℕ → ℝ) :
    fermiJump ev N (fun i => phase (σ i)) v = fermiJump ev N phase v := by
  have hno : ∀ i < N, normalOrderedCoefficient ev N v (σ i) = normalOrderedCoefficient ev N v i := by
    intro i hi
    unfold normalOrderedCoefficient
    congr 1
    · exact hv (.one i) hi
    · rw [← sum_move h]
      refine Finset.sum_congr rfl fun j hj => ?_
      rw [← sum_move h]
      refine Finset.sum_congr rfl fun k hk => ?_
      have hj := Finset.mem_range.1 hj
      have hk := Finset.mem_range.1 hk
      rw [hev j hj k hk, show v (N + N * N * σ i + N * σ j + σ k) = v (N + N * N * i + N * j + k) from hv (.three i j k) ⟨hi, hj, hk⟩]
      simp only [LatticeSymmetry.inj h hj hk]
  unfold fermiJump
  rw [← sum_move h (fun i => Complex.exp (Complex.I * phase i) * normalOrderedCoefficient ev N v i)]
  refine congrArg (fun z : ℂ => ‖z‖ ^ 2) (Finset.sum_congr rfl fun i hi => ?_)
  simp only [hno i (Finset.mem_range.1 hi)]

theorem fermiJump_phase {N : ℕ} {ev : ℕ → ℕ → ℝ} {v : ℕ → ℂ} {phase phase' : ℕ → ℝ}
    (h : ∀ i < N, Complex.exp (Complex.I * phase i) = Complex.exp (Complex.I * phase' i)) :
    fermiJump ev N phase v = fermiJump ev N phase' v := by
  unfold fermiJump
  rw [Finset.sum_congr rfl fun i hi => by rw [h i (Finset.mem_range.1 hi)]]

/-- The rows of `hubbard_real_2d_rk4_jump` on an `N × N` lattice, in terms of the integrator. -/
theorem jump2d_rows {N : ℕ} (hN : 3 ≤ N) (J U tEnd : ℝ) {dt : ℝ} (hdt : 0 < dt) {interval : ℕ}
    (hI : interval < 2 ^ 64) {sort : List (Triplet ℝ) → List (Triplet ℝ)} (hs : IsSort sort) :
    ∃ y : ℕ → ℕ → ℂ,
      (∀ σ τ, LatticeSymmetry (N * N) (Square.real (K := ℝ) N N 1 1).neighbors σ τ → σ 0 = 0 →
        ∀ k, ∀ x : Label, x.Valid (N * N) → y k ((x.move σ).pos (N * N)) = y k (x.pos (N * N))) ∧
      ∀ (kx ky : ℝ) (e : JumpExecution), e.Valid (N * N) → e.table2.Perm (evPairs (N / 2) (N / 2)) → ∀ w : Work ℂ,
        ∃ s, real2dRk4Jump sort e w N N J U dt tEnd interval kx ky = .val s ∧
          s.out = (List.range (⌈tEnd / dt⌉₊ / max interval 1 + 1)).map fun j => (((j * max interval 1 : ℕ) : ℝ) * dt,
            fermiJump (torusCorrelation N) (N * N) (fun i => kx * (i / N : ℕ) + ky * (i % N : ℕ)) (y (j * max interval 1))) := by
  have hNN : 1 ≤ N * N := Nat.mul_pos (by omega) (by omega)
  have hreg := square_regular
    (Square.Constructed.real (s := Square.real (K := ℝ) N N 1 1) (Nx := N) (Ny := N) 1 1 (by omega) (by omega) rfl) hN
  obtain ⟨m, h1, h2, _, _, _, _, _, h3⟩ := initMatrix_ok hreg sort hs J U
  have hsz := (realBasis_size (N * N)).2
  generalize hM : N * N + N * N * (N * N) * (N * N) = n at *
  set u : Fin n → ℂ := fun p => if (p : ℕ) = 0 then 1 else 0 with hu
  refine ⟨fun k p => (List.ofFn ((exp4 (dt : ℂ) (mat n (timesI m)) ^ k).mulVec u)).getD p 0, ?_, ?_⟩
  · intro σ τ hσ h0 k x hx
    obtain ⟨π, hπ⟩ : ∃ π : Equiv.Perm (Fin n), ∀ (p : Fin n) (x : Label), x.Valid (N * N) → x.pos (N * N) = p →
      (π p : ℕ) = (x.move σ).pos (N * N) := hM ▸ label_perm hσ
    have hl : x.pos (N * N) < n := hM ▸ label_pos_lt hx
    have e2 := ofFn_getD ((exp4 (dt : ℂ) (mat n (timesI m)) ^ k).mulVec u) (π ⟨x.pos (N * N), hl⟩)
    rw [hπ _ x hx rfl] at e2
    show (List.ofFn ((exp4 (dt : ℂ) (mat n (timesI m)) ^ k).mulVec u)).getD ((x.move σ).pos (N * N)) 0 =
      (List.ofFn ((exp4 (dt : ℂ) (mat n (timesI m)) ^ k).mulVec u)).getD (x.pos (N * N)) 0
    rw [e2, show (List.ofFn ((exp4 (dt : ℂ) (mat n (timesI m)) ^ k).mulVec u)).getD (x.pos (N * N)) 0 =
      ((exp4 (dt : ℂ) (mat n (timesI m)) ^ k).mulVec u) ⟨x.pos (N * N), hl⟩ from ofFn_getD _ ⟨_, hl⟩]
    rw [evolve_move π (fun _ => 1) (A := mat n (timesI m)) (u := u) ?_ ?_, one_mul]
    · intro a b
      obtain ⟨x, hx, ex⟩ := label_of_lt (N := N * N) (p := a) (by rw [hM]; exact a.2)
      obtain ⟨y, hy, ey⟩ := label_of_lt (N := N * N) (p := b) (by rw [hM]; exact b.2)
      show Complex.I * ((m.get (π a) (π b) : ℝ) : ℂ) * 1 = 1 * (Complex.I * ((m.get a b : ℝ) : ℂ))
      rw [hπ a x hx ex, hπ b y hy ey, h3 _ _ (move_valid hσ hx) (move_valid hσ hy), element_move hσ J U hx hy, ← h3 x y hx hy, ex, ey,
        one_mul, mul_one]
    · intro a
      obtain ⟨x, hx, ex⟩ := label_of_lt (N := N * N) (p := a) (by rw [hM]; exact a.2)
      have hz : (Label.one 0).Valid (N * N) := hNN
      have e4 : (π a : ℕ) = 0 ↔ (a : ℕ) = 0 := by
        have z1 : ∀ y : Label, y.Valid (N * N) → (y.pos (N * N) = 0 ↔ y = .one 0) := fun y hy => pos_inj hy hz
        rw [hπ a x hx ex, ← ex, z1 _ (move_valid hσ hx), z1 x hx]
        rw [show Label.one 0 = (Label.one 0).move σ by simp [Label.move, h0]]
        exact (move_inj hσ hx hz).trans (by simp [Label.move, h0])
      simp only [hu, e4, one_mul]
  · intro kx ky e he ht w
    obtain ⟨values, e1, ev, hev, htab⟩ := table2_ok (N := N) (by omega) ht
    have hph : (fun i : ℕ => Hubbard.dot2 (kx, ky) ((Square.real (K := ℝ) N N 1 1).pos i)) =
        fun i : ℕ => kx * (i / N : ℕ) + ky * (i % N : ℕ) := by
      funext i
      show kx * (0 + ((i / N : ℕ) : ℝ) * 1) + ky * (0 + ((i % N : ℕ) : ℝ) * 1) = _
      rw [zero_add, zero_add, mul_one, mul_one]
    set phase : ℕ → ℝ := fun i : ℕ => kx * (i / N : ℕ) + ky * (i % N : ℕ) with hphase
    set f : List ℂ := (List.range (N * N)).map (phaseFactor phase) with hf
    have hfc : jumpCtor (N * N) phase e.coefficients = .val f := jumpCtor_ok (N * N) phase _ he.coefficients
    obtain ⟨s, g1, g2⟩ := simulateM_rk4 n m (measureJump (siteEv ev) (basis3 (N * N)) (N * N) f e)
      (fun st => ∀ v ∈ st, v.length = N * N) (fun y => fermiJump ev (N * N) phase fun p => (List.ofFn y).getD p 0) (by
        intro k w y st hst
        obtain ⟨w', g1, g2⟩ := jumpCall_ok ev (c := ⟨N * N, phase, List.ofFn y, e.threads k, e.coefficients, e.normalOrder k, e.sum k⟩)
          ⟨by simp [hsz], he.coefficients, he.normalOrder k, he.sum k⟩ st (fun v hv => (hst v hv).ge)
        refine ⟨some w', ?_, ?_⟩
        · unfold measureJump
          simp only
          rw [hf, g1, Res.map_val, jump_eq]
        · rintro v ⟨⟩
          rw [g2]
          cases st with
          | none => rfl
          | some a => exact hst a rfl)
      hdt tEnd hI w u none (by simp)
    refine ⟨s, ?_, ?_⟩
    · unfold real2dRk4Jump
      have hsize : (Square.real (K := ℝ) N N 1 1).size = N * N := rfl
      have hn1 : 1 ≤ n := by omega
      simp only [hph, hsize, e1, h1, hfc, Res.bind_val, hev, hsz, initVector_ofFn hn1]
      exact g1
    · rw [g2]
      refine List.map_congr_left fun j _ => ?_
      rw [(fermiJump_congr (ev' := torusCorrelation N) (fun a ha b hb => (htab a ha b hb).2) phase _).1]

/-- The correlations only depend on distances. -/
theorem ringDistance_reflect {N a b : ℕ} (ha : a < N) (hb : b < N) : ringDistance N (reflect N a) (reflect N b) = ringDistance N a b := by
  have h1 : ∀ a < N, reflect N a = if a = 0 then 0 else N - a := by
    intro a ha
    unfold reflect
    split_ifs with h
    · rw [h, Nat.sub_zero, Nat.mod_self]
    · exact Nat.mod_eq_of_lt (by omega)
  rw [h1 a ha, h1 b hb]
  unfold ringDistance
  split_ifs <;> omega

theorem squareCorrelation_symm (x y : ℕ) : squareCorrelation x y = squareCorrelation y x := by
  rw [squareCorrelation_eq, squareCorrelation_eq]
  rcases eq_or_ne x y with rfl | hxy
  · rfl
  · unfold evValue2D
    have e : (if x > y then x - y else y - x) = if y > x then y - x else x - y := by split_ifs <;> omega
    simp only [if_neg hxy, if_neg hxy.symm, Nat.add_comm x y, e]

theorem torusCorrelation_reflect {N : ℕ} {a b : ℕ} (ha : a < N * N) (hb : b < N * N) :
    torusCorrelation N (onTorus N (reflect N) id a) (onTorus N (reflect N) id b) = torusCorrelation N a b := by
  obtain ⟨x, y, hx, hy, rfl⟩ := torus_site ha
  obtain ⟨x', y', hx', hy', rfl⟩ := torus_site hb
  unfold torusCorrelation onTorus
  simp only [id_eq, (torus_coord hy).1, (torus_coord hy).2, (torus_coord hy').1, (torus_coord hy').2, ringDistance_reflect hx hx']

theorem torusCorrelation_diagonal {N : ℕ} {a b : ℕ} (ha : a < N * N)
    (hb : b < N * N) : torusCorrelation N (diagonal N a) (diagonal N b) = torusCorrelation N a b := by
  obtain ⟨x, y, hx, hy, rfl⟩ := torus_site ha
  obtain ⟨x', y', hx', hy', rfl⟩ := torus_site hb
  unfold torusCorrelation diagonal
  rw [(torus_coord hy).1, (torus_coord hy).2, (torus_coord hy').1, (torus_coord hy').2, (torus_coord hx).1, (torus_coord hx).2,
    (torus_coord hx').1, (torus_coord hx').2, squareCorrelation_symm]

/-- **C106**, `hubbard_real_2d_rk4_jump` on an `N × N` lattice: exchanging the two components of the momentum changes no number in the
output; neither does the reflection of the first component of a momentum of the lattice (a multiple of `2π/N`), whatever the
threads do. -/
theorem jump2d_symmetry {N : ℕ} (hN : 3 ≤ N) (J U tEnd : ℝ) {dt : ℝ} (hdt : 0 < dt) {interval : ℕ}
    (hI : interval < 2 ^ 64) {sort : List (Triplet ℝ) → List (Triplet ℝ)} (hs : IsSort sort) {e e' : JumpExecution}
    (he : e.Valid (N * N)) (ht : e.table2.Perm (evPairs (N / 2) (N / 2))) (he' : e'.Valid (N * N))
    (ht' : e'.table2.Perm (evPairs (N / 2) (N / 2))) (w w' : Work ℂ) (kx ky : ℝ) :
    (∃ s s', real2dRk4Jump sort e w N N J U dt tEnd interval kx ky = .val s ∧
      real2dRk4Jump sort e' w' N N J U dt tEnd interval ky kx = .val s' ∧ s.out = s'.out) ∧
    ∀ n : ℤ, kx * N = 2 * Real.pi * n → ∃ s s', real2dRk4Jump sort e w N N J U dt tEnd interval kx ky = .val s ∧
      real2dRk4Jump sort e' w' N N J U dt tEnd interval (-kx) ky = .val s' ∧ s.out = s'.out := by
  obtain ⟨y, hy, hrun⟩ := jump2d_rows hN J U tEnd hdt hI hs
  have hsq := square_symmetries
    (Square.Constructed.real (s := Square.real (K := ℝ) N N 1 1) (Nx := N) (Ny := N) 1 1 (by omega) (by omega) rfl)
  obtain ⟨s, e1, o1⟩ := hrun kx ky e he ht w
  constructor
  · obtain ⟨s', e2, o2⟩ := hrun ky kx e' he' ht' w'
    refine ⟨s, s', e1, e2, ?_⟩
    rw [o1, o2]
    refine List.map_congr_left fun j _ => ?_
    have hd := hsq.2.2.2
    rw [← fermiJump_move hd (fun a ha b hb => torusCorrelation_diagonal ha hb) (hy _ _ hd (by unfold diagonal; simp) _)
      (fun i => ky * (i / N : ℕ) + kx * (i % N : ℕ))]
    congr 1
    refine fermiJump_phase fun i hi => ?_
    obtain ⟨p, q, hp, hq, rfl⟩ := torus_site hi
    unfold diagonal
    rw [(torus_coord hq).1, (torus_coord hq).2, (torus_coord hp).1, (torus_coord hp).2, add_comm]
  · intro n hn
    obtain ⟨s', e2, o2⟩ := hrun (-kx) ky e' he' ht' w'
    refine ⟨s, s', e1, e2, ?_⟩
    rw [o1, o2]
    refine List.map_congr_left fun j _ => ?_
    have hd := hsq.2.1
    rw [← fermiJump_move hd (fun a ha b hb => torusCorrelation_reflect ha hb) (hy _ _ hd (by unfold onTorus; simp [reflect]) _)
      (fun i => -kx * (i / N : ℕ) + ky * (i % N : ℕ))]
    congr 1
    refine fermiJump_phase fun i hi => ?_
    obtain ⟨p, q, hp, hq, rfl⟩ := torus_site hi
    unfold onTorus
    rw [(torus_coord hq).1, (torus_coord hq).2, id, (torus_coord hq).1, (torus_coord hq).2]
    unfold reflect
    by_cases h0 : p = 0
    · subst h0; simp
    · rw [Nat.mod_eq_of_lt (by omega), Nat.cast_sub hp.le]
      have : (Complex.I * ((-kx * ((N : ℝ) - p) + ky * q : ℝ) : ℂ)) = Complex.I * ((kx * p + ky * q : ℝ) : ℂ) + ((-n : ℤ) : ℂ) * (2 * Real.pi * Complex.I) := by
        have : (-kx * ((N : ℝ) - p) + ky * q : ℝ) = (kx * p + ky * q : ℝ) - 2 * Real.pi * n := by rw [← hn]; ring
        rw [this]
        push_cast
        ring
      rw [this, Complex.exp_periodic.int_mul]

/-- A chain of six sites with interaction and a momentum of the 4 × 4 lattice: sites 1 and 5, and (0, 0, 1) and (0, 0, 5), are mirror images;
the last has sign -1. -/
example : (∃ s, real1dRk4Coefficients (fun l => l.mergeSort (fun a b => a.column ≤ b.column)) ⟨[], [], [], []⟩ 6 1 2 (1 / 100) 1 10 = .val s ∧
      ∀ row ∈ s.out, coefficientOf row.2 5 = coefficientOf row.2 1 ∧ coefficientOf row.2 11 = coefficientOf row.2 7) ∧
    (Label.three 0 0 5).pos 6 = 11 ∧ (Label.three 0 0 1).sign = -1 ∧ (Real.pi / 2) * (4 : ℕ) = 2 * Real.pi * (1 : ℤ) := by
  refine ⟨?_, by decide, by decide, by push_cast; ring⟩
  obtain ⟨s, e, h⟩ := coefficients_reflection (N := 6) (by norm_num) 1 2 1 (dt := 1 / 100) (by norm_num) (interval := 10) (by norm_num)
    mergeSort_isSort ⟨[], [], [], []⟩
  exact ⟨s, e, fun row hrow => ⟨h row hrow (.one 1) (by simp [Label.Valid]), h row hrow (.three 0 0 1) (by simp [Label.Valid])⟩⟩

end Ieompp.Program
