import Verif.Model.Program
import Verif.Spec.Program
import Verif.Props.Simulation
import Verif.Props.RK4Stability
import Verif.Props.RK4Order
import Verif.Props.RK4Linear
import Verif.Props.KineticTheory
import Verif.Props.Slater
import Verif.Props.Flow
import Mathlib.Analysis.Complex.ExponentialBounds

/-!
# C58, C60: the simulation programs as a whole
-/

set_option autoImplicit false
set_option linter.unusedSectionVars false

namespace Ieompp.Program

open Ieompp.Spec RealSpace ODE ComplexConjugate

/-! ## Flows -/

/-- The exact flow exists (for every matrix) -/
theorem flow_exists (n : ℕ) (M : ℕ → ℕ → ℝ) : ∃ v, IsFlow n M v := by
  set A : Matrix (Fin n) (Fin n) ℂ := mat n fun i j => Complex.I * (M i j : ℂ) with hA
  set u : Fin n → ℂ := fun i => if (i : ℕ) = 0 then 1 else 0 with hu
  set v : ℝ → Fin n → ℂ := fun t => NormedSpace.exp (t • op A) u with hv
  have hd : ∀ t, HasDerivAt v (A.mulVec (v t)) t := by
    intro t
    have h1 : HasDerivAt (fun s : ℝ => NormedSpace.exp (s • op A)) (op A * NormedSpace.exp (t • op A)) t :=
      hasDerivAt_exp_smul_const' (𝕂 := ℝ) (op A) t
    have h2 := h1.clm_apply (hasDerivAt_const t u)
    refine h2.congr_deriv ?_
    rw [map_zero, add_zero, ContinuousLinearMap.mul_apply, op_apply]
  refine ⟨fun t p => if h : p < n then v t ⟨p, h⟩ else 0, ?_, ?_⟩
  · intro p hp
    rw [dif_pos hp]
    show (NormedSpace.exp ((0 : ℝ) • op A)) u ⟨p, hp⟩ = _
    have h0 : (0 : ℝ) • op A = 0 := by ext; simp
    rw [h0, NormedSpace.exp_zero]
    rfl
  · intro t p hp
    have h1 := (hasDerivAt_pi.1 (hd t)) ⟨p, hp⟩
    simp only [dif_pos hp]
    refine h1.congr_deriv ?_
    show ∑ j : Fin n, A ⟨p, hp⟩ j * v t j = _
    rw [Finset.mul_sum, ← Fin.sum_univ_eq_sum_range (fun q => Complex.I * ((M p q : ℂ) * if h : q < n then v t ⟨q, h⟩ else 0)) n]
    refine Finset.sum_congr rfl fun j _ => ?_
    rw [dif_pos j.2]
    show Complex.I * (M p j : ℂ) * v t j = _
    rw [mul_assoc]

/-- After `k` steps each component differs from the exact flow by at most `rk4Error`. -/
theorem steps_error {n : ℕ} (m : ℕ → ℕ → ℝ) (B dt : ℝ) (hB : 0 ≤ B) (hdt : 0 ≤ dt)
    (hsym : ∀ i < n, ∀ j < n, m i j = m j i) (hM : ∀ i < n, ∑ j ∈ Finset.range n, |m i j| ≤ B) {v : ℝ → ℕ → ℂ} (hv : IsFlow n m v) (k : ℕ) (i : Fin n) :
    ‖((exp4 (dt : ℂ) (mat n fun i j => Complex.I * (m i j : ℂ)) ^ k).mulVec fun p : Fin n => if (p : ℕ) = 0 then 1 else 0) i
      - v (k * dt) i‖ ≤ rk4Error B dt k := by
  set u : Fin n → ℂ := fun p : Fin n => if (p : ℕ) = 0 then 1 else 0 with hu
  have h0 : (fun p : Fin n => v 0 p) = u := by
    funext p; exact hv.start p p.2
  have hflow : ∀ t, HasDerivAt (fun t (p : Fin n) => v t p) ((gen n m).mulVec fun p => v t p) t := fun t =>
    hasDerivAt_pi.2 fun p => by
      refine (hv.flow t p p.2).congr_deriv ?_
      rw [Finset.mul_sum, ← Fin.sum_univ_eq_sum_range (fun q => Complex.I * ((m p q : ℂ) * v t q)) n]
      refine Finset.sum_congr rfl fun j _ => ?_
      show _ = Complex.I * (m p j : ℂ) * v t j
      rw [mul_assoc]
  unfold rk4Error
  split_ifs with hst
  · have hone : ∀ t, ‖eucl fun p : Fin n => v t p‖ ≤ 1 := by
      intro t
      have h := flow_norm n m hsym v hv.flow t 0
      have h1 : ‖eucl fun p : Fin n => v t p‖ ^ 2 = ‖eucl u‖ ^ 2 := by
        rw [eucl_sq, eucl_sq, ← h0]
        unfold normSq2
        rw [Fin.sum_univ_eq_sum_range (fun p => ‖v t p‖ ^ 2) n, Fin.sum_univ_eq_sum_range (fun p => ‖v 0 p‖ ^ 2) n, h]
      have h2 : ‖eucl u‖ ^ 2 ≤ 1 := by
        rw [eucl_sq]
        unfold normSq2
        rw [Finset.sum_congr rfl fun (p : Fin n) _ => (by rw [hu]; simp only; split_ifs <;> simp :
          ‖u p‖ ^ 2 = if (p : ℕ) = 0 then (1 : ℝ) else 0), Fin.sum_univ_eq_sum_range (fun p => if p = 0 then (1 : ℝ) else 0) n,
          Finset.sum_ite_eq']
        split_ifs <;> norm_num
      nlinarith [norm_nonneg (eucl fun p : Fin n => v t p)]
    have h := rk4_linear_error m hsym B hB hM hflow 1 hone hdt hst k
    have h1 := (eucl_comp _ i).trans h
    rw [h0] at h1
    refine h1.trans (le_of_eq (by ring))
  obtain ⟨w', y, e, h⟩ := rk4_converges (n := n) (fun i j => Complex.I * (m i j : ℂ)) B dt hB hdt
    (fun i => by
      simp only [norm_mul, Complex.norm_I, one_mul, Complex.norm_real, Real.norm_eq_abs]
      rw [Fin.sum_univ_eq_sum_range (fun j => |m i j|) n]
      exact hM i i.2)
    (fun t p => v t p)
    (fun t => hflow t)
    1 (fun i => by
      have := hv.start i i.2
      rw [this]; split_ifs <;> simp) k ⟨[], [], [], []⟩
  obtain ⟨w'', e'⟩ := integrate_correct (n := n) (dt : ℂ) (fun i j => Complex.I * (m i j : ℂ)) k ⟨[], [], [], []⟩ u
  rw [h0, e'] at e
  have e2 : List.ofFn ((exp4 (dt : ℂ) (mat n fun i j => Complex.I * (m i j : ℂ)) ^ k).mulVec u) = List.ofFn y := by
    injection e with e; exact (Prod.mk.inj e).2
  have e3 := List.ofFn_injective e2
  rw [e3]
  exact (h i).trans (le_of_eq (by ring))

/-- Components of the exact flow stay in the unit disc. -/
theorem flow_le_one {n : ℕ} (m : ℕ → ℕ → ℝ) (hsym : ∀ p < n, ∀ q < n, m p q = m q p) {v : ℝ → ℕ → ℂ} (hv : IsFlow n m v)
    (t : ℝ) {p : ℕ} (hp : p < n) : ‖v t p‖ ≤ 1 := by
  have h := flow_norm n m hsym v hv.flow t 0
  have h0 : ∑ p ∈ Finset.range n, ‖v 0 p‖ ^ 2 ≤ 1 := by
    rw [Finset.sum_congr rfl fun p hp => by rw [hv.start p (Finset.mem_range.1 hp)]]
    calc ∑ p ∈ Finset.range n, ‖(if p = 0 then 1 else 0 : ℂ)‖ ^ 2
        = ∑ p ∈ Finset.range n, if p = 0 then (1 : ℝ) else 0 := Finset.sum_congr rfl fun p _ => by split_ifs <;> simp
      _ ≤ 1 := by rw [Finset.sum_ite_eq']; split_ifs <;> norm_num
  have h1 : ‖v t p‖ ^ 2 ≤ 1 := by
    refine le_trans ?_ (h.le.trans h0)
    exact Finset.single_le_sum (f := fun p => ‖v t p‖ ^ 2) (fun i _ => by positivity) (Finset.mem_range.2 hp)
  nlinarith [norm_nonneg (v t p)]

/-! ## The time loop with the integrator -/

/-- The quadratic form of the measurements. -/
noncomputable def form (n : ℕ) (E : ℕ → ℕ → ℝ) (y : ℕ → ℂ) : ℂ :=
  ∑ i ∈ Finset.range n, ∑ j ∈ Finset.range n, y i * conj (y j) * (E i j : ℂ)

theorem form_error (n : ℕ) (E : ℕ → ℕ → ℝ) (y v : ℕ → ℂ) (ε : ℝ) (hy : ∀ i < n, ‖y i - v i‖ ≤ ε)
    (hv : ∀ i < n, ‖v i‖ ≤ 1) :
    ‖form n E y - form n E v‖ ≤ (∑ i ∈ Finset.range n, ∑ j ∈ Finset.range n, |E i j|) * (ε * (2 + ε)) := by
  unfold form
  rw [← Finset.sum_sub_distrib, Finset.sum_mul]
  refine (norm_sum_le _ _).trans (Finset.sum_le_sum fun i hi => ?_)
  rw [← Finset.sum_sub_distrib, Finset.sum_mul]
  refine (norm_sum_le _ _).trans (Finset.sum_le_sum fun j hj => ?_)
  rw [Finset.mem_range] at hi hj
  have hε : 0 ≤ ε := (norm_nonneg _).trans (hy i hi)
  have e : y i * conj (y j) * (E i j : ℂ) - v i * conj (v j) * (E i j : ℂ) =
      ((y i - v i) * conj (y j) + v i * conj (y j - v j)) * (E i j : ℂ) := by rw [map_sub]; ring
  rw [e, norm_mul, Complex.norm_real, Real.norm_eq_abs, mul_comm]
  refine mul_le_mul_of_nonneg_left ?_ (abs_nonneg _)
  have hyj : ‖y j‖ ≤ 1 + ε := by
    calc ‖y j‖ = ‖v j + (y j - v j)‖ := by ring_nf
      _ ≤ ‖v j‖ + ‖y j - v j‖ := norm_add_le _ _
      _ ≤ 1 + ε := add_le_add (hv j hj) (hy j hj)
  calc ‖(y i - v i) * conj (y j) + v i * conj (y j - v j)‖
      ≤ ‖y i - v i‖ * ‖y j‖ + ‖v i‖ * ‖y j - v j‖ := by
        refine (norm_add_le _ _).trans (le_of_eq ?_)
        rw [norm_mul, norm_mul, Complex.norm_conj, Complex.norm_conj]
    _ ≤ ε * (1 + ε) + 1 * ε := by
        have := hy i hi; have := hy j hj; have := hv i hi
        gcongr
    _ = ε * (2 + ε) := by ring

/-- The time loop with the integrator: termination and output. -/
theorem simulate_rk4 {O : Type*} (n : ℕ) (sp : Sparse ℝ) (meas : Vars → Res O) (q : (Fin n → ℂ) → O)
    (hq : ∀ k w y, meas (k, w, List.ofFn y) = .val (q y)) {dt : ℝ} (hdt : 0 < dt) (tEnd : ℝ) {interval : ℕ}
    (hI : interval < 2 ^ 64) (w : Work ℂ) (u : Fin n → ℂ) :
    ∃ s, Sim.simulate (stepVars n dt sp) meas dt tEnd interval (0, w, List.ofFn u) = .val s ∧
      s.out = (List.range (⌈tEnd / dt⌉₊ / max interval 1 + 1)).map fun j =>
        (((j * max interval 1 : ℕ) : ℝ) * dt,
          q ((exp4 (dt : ℂ) (mat n (timesI sp)) ^ (j * max interval 1)).mulVec u)) := by
  have hstep : ∀ (k : ℕ) (w : Work ℂ), ∃ w', stepVars n dt sp
      (k, w, List.ofFn ((exp4 (dt : ℂ) (mat n (timesI sp)) ^ k).mulVec u)) =
      .val (k + 1, w', List.ofFn ((exp4 (dt : ℂ) (mat n (timesI sp)) ^ (k + 1)).mulVec u)) := by
    intro k w
    obtain ⟨w', e⟩ := stepMatrix_correct n (dt : ℂ) (timesI sp) w ((exp4 (dt : ℂ) (mat n (timesI sp)) ^ k).mulVec u)
    refine ⟨w', ?_⟩
    unfold stepVars
    rw [e, Res.map_val, Matrix.mulVec_mulVec, ← pow_succ']
  choose nxt hn using hstep
  let W : ℕ → Work ℂ := fun k => Nat.rec w (fun k w => nxt k w) k
  obtain ⟨s, h1, -, -, h2⟩ := Sim.simulate_output (step := stepVars n dt sp) (measure := meas) (tEnd := tEnd) hdt hI
    (h := fun k => (k, W k, List.ofFn ((exp4 (dt : ℂ) (mat n (timesI sp)) ^ k).mulVec u)))
    (o := fun k => q ((exp4 (dt : ℂ) (mat n (timesI sp)) ^ k).mulVec u))
    (fun k _ => hn k (W k)) (fun k _ => hq k (W k) _)
  refine ⟨s, ?_, h2⟩
  rw [← h1]
  simp only [pow_zero, Matrix.one_mulVec]
  rfl

/-- The whole of a program, given the quadratic form of its measurement. -/
theorem simulate_error {n : ℕ} (hn : 1 ≤ n) (sp : Sparse ℝ) (hsym : ∀ p < n, ∀ q < n, sp.get p q = sp.get q p) (B : ℝ)
    (hB : 0 ≤ B) (hM : ∀ i < n, ∑ j ∈ Finset.range n, |sp.get i j| ≤ B) (meas : Vars → Res ℝ) (E : ℕ → ℕ → ℝ)
    (hmeas : ∀ k w (vec : List ℂ), vec.length = n → meas (k, w, vec) = .val (form n E fun i => vec.getD i 0).re)
    {dt : ℝ} (hdt : 0 < dt) (tEnd : ℝ) {interval : ℕ} (hI : interval < 2 ^ 64) (w : Work ℂ) :
    ∃ h s, initVector n = .val h ∧ Sim.simulate (stepVars n dt sp) meas dt tEnd interval (0, w, h) = .val s ∧
      s.out.length = ⌈tEnd / dt⌉₊ / max interval 1 + 1 ∧
      ∀ v, IsFlow n (fun i j => sp.get i j) v → ∀ j < s.out.length, ∃ x,
        s.out[j]? = some (((j * max interval 1 : ℕ) : ℝ) * dt, x) ∧
        |x - (form n E (v ((j * max interval 1 : ℕ) * dt))).re| ≤
          (∑ i ∈ Finset.range n, ∑ j ∈ Finset.range n, |E i j|) *
            (rk4Error B dt (j * max interval 1) * (2 + rk4Error B dt (j * max interval 1))) := by
  obtain ⟨h, e, hl, hh⟩ := initVector_correct hn
  set u : Fin n → ℂ := fun p : Fin n => if (p : ℕ) = 0 then 1 else 0 with hu
  have hhu : h = List.ofFn u := by
    apply List.ext_getElem?
    intro i
    by_cases hi : i < n
    · rw [hh i hi, List.getElem?_ofFn]; simp [hi, hu]
    · rw [List.getElem?_eq_none (by omega), List.getElem?_eq_none (by simp; omega)]
  obtain ⟨s, hs, ho⟩ := simulate_rk4 n sp meas (fun y => (form n E fun i => (List.ofFn y).getD i 0).re)
    (fun k w y => hmeas k w _ (by simp)) hdt tEnd hI w u
  refine ⟨h, s, e, by rw [hhu]; exact hs, by rw [ho]; simp, fun v hv j hj => ?_⟩
  rw [ho] at hj ⊢
  simp only [List.length_map, List.length_range] at hj
  refine ⟨(form n E fun i => (List.ofFn ((exp4 (dt : ℂ) (mat n (timesI sp)) ^ (j * max interval 1)).mulVec u)).getD i 0).re,
    ?_, ?_⟩
  · rw [List.getElem?_map, List.getElem?_range hj]; rfl
  · rw [← Complex.sub_re]
    refine (Complex.abs_re_le_norm _).trans (form_error n E _ _ _ ?_ ?_)
    · intro i hi
      have := steps_error (fun i j => sp.get i j) B dt hB hdt.le hsym hM hv (j * max interval 1) ⟨i, hi⟩
      rw [show (List.ofFn ((exp4 (dt : ℂ) (mat n (timesI sp)) ^ (j * max interval 1)).mulVec u)).getD i 0 =
        ((exp4 (dt : ℂ) (mat n (timesI sp)) ^ (j * max interval 1)).mulVec u) ⟨i, hi⟩ from ofFn_getD _ ⟨i, hi⟩]
      exact this
    · intro i hi
      exact flow_le_one _ hsym hv _ hi

/-! ## The table of expectation values -/

/-- Hypotheses on how the parallel parts of the program happen to be executed: the parallel loops do every iteration once,
the blocks of the iterations are distributed over the threads and interleaved in any way. -/
structure Execution.Valid (e : Execution) (N : ℕ) : Prop where
  conjugation : e.conjugation.Perm (List.range (basis3 N).length)
  table : e.table.Perm (List.range' 1 (N / 2))
  loop1 : ∀ k, Executes (e.threads k) (loopA true N) (e.loop1 k)
  loop2 : ∀ k, Executes (e.threads k) (loopB N (basis3 N).length) (e.loop2 k)
  loop3 : ∀ k, Executes (e.threads k) (loopC true N (basis3 N).length) (e.loop3 k)

/-- The same for the kinetic program. -/
structure Execution.ValidKinetic (e : Execution) (N : ℕ) : Prop where
  conjugation : e.conjugation.Perm (List.range (basis1 N).length)
  table : e.table.Perm (List.range' 1 (N / 2))
  loop1 : ∀ k, Executes (e.threads k) (RealSpace.loop1 (basis1 N).length) (e.loop1 k)

theorem ringDistance_spec {N a b : ℕ} (ha : a < N) (hb : b < N) : IsRingDist N a b (ringDistance N a b) := by
  unfold IsRingDist ringDistance; omega

theorem ringCorrelation_symm (filling : ℝ) (N a b : ℕ) : ringCorrelation filling N a b = ringCorrelation filling N b a := by
  unfold ringCorrelation ringDistance; rw [Nat.add_comm (a - b)]

/-- The table of the program, by site. -/
theorem table_ok {N : ℕ} (hN : 1 ≤ N) (filling : ℝ) {sched : List ℕ} (hs : sched.Perm (List.range' 1 (N / 2))) :
    ∃ values, evTable1D (Chain.real (K := ℝ) N 1) filling (fermiMomentum1D filling) sched = .val values ∧
      ∃ ev : ℕ → ℕ → ℝ, evFunction (Chain.real (K := ℝ) N 1) values = siteEv ev ∧
        ∀ a < N, ∀ b < N, evLookup1D (Chain.real (K := ℝ) N 1) values a b = .val (ringCorrelation filling N a b) ∧
          ev a b = ringCorrelation filling N a b := by
  obtain ⟨values, e, h⟩ := expectationValue1D (Chain.Constructed.real (N := N) 1 hN rfl) one_ne_zero filling hs
  refine ⟨values, e, fun a b => match evLookup1D (Chain.real (K := ℝ) N 1) values a b with | .val x => x | _ => 0, rfl, ?_⟩
  intro a ha b hb
  have h1 := (h a b _ ha hb (ringDistance_spec ha hb)).1
  have h2 : evLookup1D (Chain.real (K := ℝ) N 1) values a b = .val (ringCorrelation filling N a b) := by
    rw [h1]; unfold ringCorrelation
    rw [show (Chain.real (K := ℝ) N 1).dx = 1 from rfl, mul_one]
  exact ⟨h2, by simp only [h2]⟩

theorem weight_congr {N : ℕ} {ev ev' : ℕ → ℕ → ℝ} (h : ∀ a < N, ∀ b < N, ev a b = ev' a b) :
    ∀ p < N + N * N * N, ∀ q < N + N * N * N, weight ev (basis3 N) p q = weight ev' (basis3 N) p q := by
  intro p hp q hq
  rcases basis3_cases hp with ⟨i, hpi, hi, e⟩ | ⟨a, b, c, _, ha, hb, hc, e⟩ <;>
    rcases basis3_cases hq with ⟨j, hqj, hj, e'⟩ | ⟨a', b', c', _, ha', hb', hc', e'⟩ <;>
    rw [weight, weight, e, e']
  · exact h _ hi _ hj
  · simp only [Spec.one, Spec.three]; rw [h c' hc' b' hb', h i hi a' ha']
  · simp only [Spec.one, Spec.three]; rw [h b hb c hc, h a ha j hj]
  · simp only [Spec.three]
    rw [h c' hc' b' hb', h b hb c hc, h c' hc' c hc, h a ha a' ha', h b hb b' hb']

theorem state_superpose {N : ℕ} {R : Type*} [Ring R] [Algebra ℂ R] (C : CAROn N R) (ω : R →ₗ[ℂ] ℂ)
    (basis : List HMonomial) (n : ℕ) (v : ℕ → ℂ) (E : ℕ → ℕ → ℝ)
    (hE : ∀ p < n, ∀ q < n, ω (C.basisOp basis p * C.basisOpAdj basis q) = (E p q : ℂ)) :
    ω (C.superpose basis n v * C.superposeAdj basis n v) = form n E v := by
  unfold CAROn.superpose CAROn.superposeAdj form
  rw [Finset.sum_mul_sum, map_sum]
  refine Finset.sum_congr rfl fun i hi => ?_
  rw [map_sum]
  refine Finset.sum_congr rfl fun j hj => ?_
  rw [smul_mul_assoc, mul_smul_comm, map_smul, map_smul, smul_eq_mul, smul_eq_mul,
    hE i (Finset.mem_range.1 hi) j (Finset.mem_range.1 hj)]; ring

theorem norm_state_sum {N : ℕ} {R : Type*} [Ring R] [Algebra ℂ R] (C : CAROn N R) (ω : R →ₗ[ℂ] ℂ)
    (basis : List HMonomial) (n : ℕ) (E : ℕ → ℕ → ℝ)
    (hE : ∀ p < n, ∀ q < n, ω (C.basisOp basis p * C.basisOpAdj basis q) = (E p q : ℂ)) :
    ∑ p ∈ Finset.range n, ∑ q ∈ Finset.range n, ‖ω (C.basisOp basis p * C.basisOpAdj basis q)‖ =
      ∑ p ∈ Finset.range n, ∑ q ∈ Finset.range n, |E p q| := by
  refine Finset.sum_congr rfl fun i hi => Finset.sum_congr rfl fun j hj => ?_
  rw [hE i (Finset.mem_range.1 hi) j (Finset.mem_range.1 hj), Complex.norm_real, Real.norm_eq_abs]

/-! ## C58 -/

/-- C58: the program `hubbard_real_1d_rk4` as a whole. For every number of sites `N ≥ 3`, all `J`, `U`, filling, step width
`dt > 0`, end time and measuring interval, every way the parallel parts are executed, every implementation of `std::sort` and
every content of the integrator's work vectors: the program terminates without out-of-range access, writes one row for
every `interval`-th step up to the end time, and the number in the row for the time `t` approximates the expectation value
`⟨A(t) A(t)†⟩` of `A(t) = Σ v_p(t) A_p`, where `v' = i M v`, `v(0) = e_0`, `M` is the matrix of the program (the projected
Liouvillian, C27/C28) and the state is quasi-free with the correlations of the Fermi gas; the error is of fourth order in
`dt`. -/
theorem real1dRk4_correct {N : ℕ} (hN : 3 ≤ N) (J U filling tEnd : ℝ) {dt : ℝ} (hdt : 0 < dt) {interval : ℕ}
    (hI : interval < 2 ^ 64) {sort : List (Triplet ℝ) → List (Triplet ℝ)} (hs : IsSort sort) {e : Execution}
    (he : e.Valid N) (w : Work ℂ) :
    ∃ m s, initMatrix sort N 2 (Chain.real (K := ℝ) N 1).neighbors J U = .val m ∧
      real1dRk4 sort e w N J U dt tEnd interval filling = .val s ∧
      s.out.length = ⌈tEnd / dt⌉₊ / max interval 1 + 1 ∧
      ∀ {R : Type} [Ring R] [Algebra ℂ R] (C : CAROn N R) (ω : R →ₗ[ℂ] ℂ),
        QuasiFree C ω (ringCorrelation filling N) →
      ∀ v, IsFlow (N + N * N * N) (fun i j => m.get i j) v →
      ∀ j < s.out.length, ∃ x, s.out[j]? = some (((j * max interval 1 : ℕ) : ℝ) * dt, x) ∧
        |x - (ω (C.superpose (basis3 N) (N + N * N * N) (v ((j * max interval 1 : ℕ) * dt)) *
            C.superposeAdj (basis3 N) (N + N * N * N) (v ((j * max interval 1 : ℕ) * dt)))).re| ≤
          (∑ p ∈ Finset.range (N + N * N * N), ∑ q ∈ Finset.range (N + N * N * N),
            ‖ω (C.basisOp (basis3 N) p * C.basisOpAdj (basis3 N) q)‖) *
          (rk4Error (6 * |J| + |U|) dt (j * max interval 1) * (2 + rk4Error (6 * |J| + |U|) dt (j * max interval 1))) := by
  have hsz := (realBasis_size N).2
  have hcc := Chain.Constructed.real (N := N) (1 : ℝ) (by omega) rfl
  have hreg := chain_regular hcc hN
  obtain ⟨values, e1, ev, hev, htab⟩ := table_ok (by omega) filling he.table
  obtain ⟨m, h1, h2, _, _, _, _, h3, _⟩ := initMatrix_ok hreg sort hs J U
  obtain ⟨m', h1', _, hsym⟩ := initMatrix_symm hreg sort hs J U
  rw [h1] at h1'; cases h1'
  rw [h2] at hsym
  have hc : getConjugate e.conjugation (basis3 N) = conjOf (basis3 N) := parallelModify_eq_map _ _ _ he.conjugation
  set n := N + N * N * N with hn
  set E : ℕ → ℕ → ℝ := weight ev (basis3 N) with hE
  have hes : ∀ a < N, ∀ b < N, ev a b = ev b a := fun a ha b hb => by
    rw [(htab a ha b hb).2, (htab b hb a ha).2, ringCorrelation_symm]
  have hm : ∀ i < n, ∑ j ∈ Finset.range n, |m.get i j| ≤ 6 * |J| + |U| := by
    intro i hi
    rw [Finset.sum_congr rfl fun c _ => by rw [h3 i hi c]]
    refine ((sum_abs_columnSum _ _).trans (row_abs_sum hreg J U hi)).trans (le_of_eq ?_)
    push_cast; ring
  obtain ⟨h, s, i1, i2, i3, i4⟩ := simulate_error (n := n) (by omega) m hsym (6 * |J| + |U|) (by positivity) hm
    (fun s => siteOccupation3 (siteEv ev) (basis3 N) (conjOf (basis3 N)) s.2.2 true (e.threads s.1) (e.loop1 s.1)
      (e.loop2 s.1) (e.loop3 s.1)) E (by
      intro k w vec hv
      have l2 := he.loop2 k
      have l3 := he.loop3 k
      rw [hsz] at l2 l3
      have key := siteSum3_eq (weights_ok ev N) (by omega) hv (fun _ => weight_symm hes) (he.loop1 k) l2 l3
      show siteOccupation3 _ _ _ _ _ _ _ _ _ = _
      rw [siteOccupation3, key, Res.map_val]; rfl) hdt tEnd hI w
  refine ⟨m, s, h1, ?_, i3, ?_⟩
  · unfold real1dRk4
    simp only [e1, h1, Res.bind_val, hsz, i1, hc, hev]
    exact i2
  · intro R _ _ C ω Q v hv j hj
    obtain ⟨x, hx, hb⟩ := i4 v hv j hj
    have hw : ∀ p < n, ∀ q < n, ω (C.basisOp (basis3 N) p * C.basisOpAdj (basis3 N) q) = (E p q : ℂ) := by
      intro p hp q hq
      rw [weight_state Q hp hq, hE, weight_congr (fun a ha b hb => (htab a ha b hb).2) p hp q hq]
    refine ⟨x, hx, ?_⟩
    rw [state_superpose C ω _ n _ E hw, norm_state_sum C ω _ n E hw]
    exact hb

/-! ## C60 -/

theorem ringDistance_shift {N a b s : ℕ} (ha : a < N) (hb : b < N) :
    ringDistance N ((a + s) % N) ((b + s) % N) = ringDistance N a b := by
  have hN : 0 < N := by omega
  have hs := Nat.mod_lt s hN
  rw [← Nat.add_mod_mod a s N, ← Nat.add_mod_mod b s N]
  set t := s % N
  have h1 : (a + t) % N = if a + t < N then a + t else a + t - N := by
    split_ifs with h
    · exact Nat.mod_eq_of_lt h
    · rw [Nat.mod_eq_sub_mod (by omega), Nat.mod_eq_of_lt (by omega)]
  have h2 : (b + t) % N = if b + t < N then b + t else b + t - N := by
    split_ifs with h
    · exact Nat.mod_eq_of_lt h
    · rw [Nat.mod_eq_sub_mod (by omega), Nat.mod_eq_of_lt (by omega)]
  rw [h1, h2]
  unfold ringDistance
  split_ifs <;> omega

theorem sum_neighbors {N : ℕ} {S : Type*} [AddCommMonoid S] {l : List ℕ} (hd : l.Nodup) (hl : ∀ x ∈ l, x < N) (f : ℕ → S) :
    ∑ r ∈ Finset.range N, (if r ∈ l then f r else 0) = (l.map f).sum := by
  rw [← Finset.sum_filter, show (Finset.range N).filter (· ∈ l) = l.toFinset by
    ext x; simp only [Finset.mem_filter, Finset.mem_range, List.mem_toFinset]
    exact ⟨fun h => h.2, fun h => ⟨hl x h, h⟩⟩, List.sum_toFinset f hd]

/-- Hopping on the ring and the correlations commute. -/
theorem hopping_correlation_comm {N : ℕ} (hN : 3 ≤ N) (filling : ℝ) {a b : ℕ} (ha : a < N) (hb : b < N) :
    (((Chain.real (K := ℝ) N 1).neighbors a).map fun r => ringCorrelation filling N r b).sum =
      (((Chain.real (K := ℝ) N 1).neighbors b).map fun r => ringCorrelation filling N a r).sum := by
  have hcc := Chain.Constructed.real (N := N) (1 : ℝ) (by omega) rfl
  have hnb : ∀ x < N, (Chain.real (K := ℝ) N 1).neighbors x = [(x + N - 1) % N, (x + 1) % N] := by
    intro x hx
    unfold Chain.neighbors
    show [if x > 0 then x - 1 else N - 1, if x < N - 1 then x + 1 else 0] = _
    congr 1
    · split_ifs with h
      · rw [Nat.mod_eq_sub_mod (by omega), Nat.mod_eq_of_lt (by omega)]; omega
      · rw [Nat.mod_eq_of_lt (by omega)]; omega
    · congr 1
      split_ifs with h
      · rw [Nat.mod_eq_of_lt (by omega)]
      · rw [show x + 1 = N by omega, Nat.mod_self]
  rw [hnb a ha, hnb b hb]
  simp only [List.map_cons, List.map_nil, List.sum_cons, List.sum_nil, add_zero]
  have h1 : ringDistance N ((a + N - 1) % N) b = ringDistance N a ((b + 1) % N) := by
    rw [← ringDistance_shift (s := 1) (Nat.mod_lt _ (by omega)) hb, Nat.mod_add_mod,
      show a + N - 1 + 1 = a + N by omega, Nat.add_mod_right, Nat.mod_eq_of_lt ha]
  have h2 : ringDistance N ((a + 1) % N) b = ringDistance N a ((b + N - 1) % N) := by
    rw [← ringDistance_shift (a := a) (s := 1) ha (Nat.mod_lt (b + N - 1) (by omega)), Nat.mod_add_mod,
      show b + N - 1 + 1 = b + N by omega, Nat.add_mod_right, Nat.mod_eq_of_lt hb]
  unfold ringCorrelation
  rw [h1, h2, add_comm]

/-- The quadratic form is constant along the flow if its matrix commutes with that of the flow. -/
theorem form_const {n : ℕ} {m E : ℕ → ℕ → ℝ} (hm : ∀ p < n, ∀ q < n, m p q = m q p)
    (hc : ∀ p < n, ∀ q < n, ∑ r ∈ Finset.range n, m p r * E r q = ∑ r ∈ Finset.range n, E p r * m r q)
    {v : ℝ → ℕ → ℂ} (hv : IsFlow n m v) (t : ℝ) : form n E (v t) = form n E (v 0) := by
  have hd : ∀ t, HasDerivAt (fun t => form n E (v t)) 0 t := by
    intro t
    have h1 : HasDerivAt (fun t => form n E (v t)) (∑ i ∈ Finset.range n, ∑ j ∈ Finset.range n,
        ((Complex.I * ∑ q ∈ Finset.range n, (m i q : ℂ) * v t q) * conj (v t j) +
          v t i * conj (Complex.I * ∑ q ∈ Finset.range n, (m j q : ℂ) * v t q)) * (E i j : ℂ)) t := by
      unfold form
      refine HasDerivAt.fun_sum fun i hi => HasDerivAt.fun_sum fun j hj => ?_
      exact ((hv.flow t i (Finset.mem_range.1 hi)).mul
        (HasDerivAt.star (hv.flow t j (Finset.mem_range.1 hj)))).mul_const _
    refine h1.congr_deriv ?_
    have e1 : ∑ i ∈ Finset.range n, ∑ j ∈ Finset.range n,
        ((Complex.I * ∑ q ∈ Finset.range n, (m i q : ℂ) * v t q) * conj (v t j)) * (E i j : ℂ) =
        Complex.I * ∑ q ∈ Finset.range n, ∑ j ∈ Finset.range n, v t q * conj (v t j) *
          ((∑ r ∈ Finset.range n, m q r * E r j : ℝ) : ℂ) := by
      simp only [Complex.ofReal_sum, Complex.ofReal_mul, Finset.mul_sum, Finset.sum_mul]
      rw [Finset.sum_congr rfl fun i _ => Finset.sum_comm, Finset.sum_comm]
      refine Finset.sum_congr rfl fun q hq => ?_
      rw [Finset.sum_comm]
      refine Finset.sum_congr rfl fun j hj => Finset.sum_congr rfl fun i hi => ?_
      rw [hm q (Finset.mem_range.1 hq) i (Finset.mem_range.1 hi)]; ring
    have e2 : ∑ i ∈ Finset.range n, ∑ j ∈ Finset.range n,
        (v t i * conj (Complex.I * ∑ q ∈ Finset.range n, (m j q : ℂ) * v t q)) * (E i j : ℂ) =
        -Complex.I * ∑ i ∈ Finset.range n, ∑ q ∈ Finset.range n, v t i * conj (v t q) *
          ((∑ r ∈ Finset.range n, E i r * m r q : ℝ) : ℂ) := by
      simp only [Complex.ofReal_sum, Complex.ofReal_mul, Finset.mul_sum, Finset.sum_mul, map_mul, map_sum, Complex.conj_I,
        Complex.conj_ofReal]
      refine Finset.sum_congr rfl fun i hi => ?_
      rw [Finset.sum_comm]
      refine Finset.sum_congr rfl fun q hq => Finset.sum_congr rfl fun j hj => ?_
      ring
    simp only [add_mul, Finset.sum_add_distrib]
    rw [e1, e2, Finset.sum_congr rfl fun p hp => Finset.sum_congr rfl fun q hq => by
      rw [hc p (Finset.mem_range.1 hp) q (Finset.mem_range.1 hq)]]
    ring
  exact is_const_of_deriv_eq_zero (fun t => (hd t).differentiableAt) (fun t => (hd t).deriv) t 0

theorem form_unit {n : ℕ} (hn : 1 ≤ n) (E : ℕ → ℕ → ℝ) (y : ℕ → ℂ) (hy : ∀ p < n, y p = if p = 0 then 1 else 0) :
    form n E y = (E 0 0 : ℂ) := by
  unfold form
  rw [Finset.sum_congr rfl fun i hi => Finset.sum_congr rfl fun j hj => by
    rw [hy i (Finset.mem_range.1 hi), hy j (Finset.mem_range.1 hj)]]
  rw [Finset.sum_eq_single 0 (fun i _ h => by simp [h]) (fun h => by simp at h; omega),
    Finset.sum_eq_single 0 (fun i _ h => by simp [h]) (fun h => by simp at h; omega)]
  simp

/-- C60: the program `hubbard_real_1d_kinetic_rk4` as a whole. For every number of sites `N ≥ 3`, all parameters, executions
of the parallel parts and contents of the work vectors it terminates without out-of-range access and writes one row for every
`interval`-th step up to the end time. The exact solution of the problem it integrates is the filling, at all times (for the
matrix of the program, the correlations of its table and the initial vector, in every quasi-free state with these
correlations), and each number written differs from the filling by at most an error of fourth order in `dt`. -/
theorem real1dKineticRk4_correct {N : ℕ} (hN : 3 ≤ N) (J filling tEnd : ℝ) {dt : ℝ} (hdt : 0 < dt) {interval : ℕ}
    (hI : interval < 2 ^ 64) {sort : List (Triplet ℝ) → List (Triplet ℝ)} (hs : IsSort sort) {e : Execution}
    (he : e.ValidKinetic N) (w : Work ℂ) :
    ∃ m s, initKineticMatrix sort N 2 (Chain.real (K := ℝ) N 1).neighbors J = .val m ∧
      real1dKineticRk4 sort e w N J dt tEnd interval filling = .val s ∧
      s.out.length = ⌈tEnd / dt⌉₊ / max interval 1 + 1 ∧
      (∀ {R : Type} [Ring R] [Algebra ℂ R] (C : CAROn N R) (ω : R →ₗ[ℂ] ℂ), QuasiFree C ω (ringCorrelation filling N) →
        ∀ v, IsFlow N (fun i j => m.get i j) v → ∀ t,
          ω (C.superpose (basis1 N) N (v t) * C.superposeAdj (basis1 N) N (v t)) = (filling : ℂ)) ∧
      ∀ j < s.out.length, ∃ x, s.out[j]? = some (((j * max interval 1 : ℕ) : ℝ) * dt, x) ∧
        |x - filling| ≤ (∑ a ∈ Finset.range N, ∑ b ∈ Finset.range N, |ringCorrelation filling N a b|) *
          (rk4Error (2 * |J|) dt (j * max interval 1) * (2 + rk4Error (2 * |J|) dt (j * max interval 1))) := by
  have hsz := (realBasis_size N).1
  have hcc := Chain.Constructed.real (N := N) (1 : ℝ) (by omega) rfl
  have hreg := chain_regular hcc hN
  obtain ⟨values, e1, ev, hev, htab⟩ := table_ok (by omega) filling he.table
  obtain ⟨m, h1, h2, _, _, _, _, h3⟩ := initKineticMatrix_ok hreg sort hs J
  obtain ⟨m', h1', _, hsym⟩ := initKineticMatrix_symm hreg sort hs J
  rw [h1] at h1'; cases h1'
  rw [h2] at hsym
  have hc : getConjugate e.conjugation (basis1 N) = conjOf (basis1 N) := parallelModify_eq_map _ _ _ he.conjugation
  set E : ℕ → ℕ → ℝ := ringCorrelation filling N with hE
  have hg : ∀ i < N, (basis1 N)[i]? = some (Spec.one i) := fun i hi => ((realBasis_getElem N).1 i hi).1
  have hm : ∀ i < N, ∑ j ∈ Finset.range N, |m.get i j| ≤ 2 * |J| := by
    intro i hi
    rw [Finset.sum_congr (g := fun c => if c ∈ (Chain.real (K := ℝ) N 1).neighbors i then |J| else 0) rfl fun c hc => by
      rw [h3 i hi c (Finset.mem_range.1 hc), apply_ite abs, abs_neg, abs_zero]]
    rw [sum_neighbors (hreg.nodup i hi) (hreg.lt i hi) (fun _ => |J|), List.map_const', List.sum_replicate, hreg.length i hi,
      nsmul_eq_mul]
    norm_num
  have hcomm : ∀ p < N, ∀ q < N, ∑ r ∈ Finset.range N, m.get p r * E r q = ∑ r ∈ Finset.range N, E p r * m.get r q := by
    intro p hp q hq
    rw [Finset.sum_congr (g := fun r => if r ∈ (Chain.real (K := ℝ) N 1).neighbors p then -J * E r q else 0) rfl
      fun r hr => by rw [h3 p hp r (Finset.mem_range.1 hr), ite_mul, zero_mul],
      sum_neighbors (hreg.nodup p hp) (hreg.lt p hp) (fun r => -J * E r q)]
    rw [Finset.sum_congr (g := fun r => if r ∈ (Chain.real (K := ℝ) N 1).neighbors q then E p r * -J else 0) rfl
      fun r hr => by rw [hsym r (Finset.mem_range.1 hr) q hq, h3 q hq r (Finset.mem_range.1 hr), mul_ite, mul_zero],
      sum_neighbors (hreg.nodup q hq) (hreg.lt q hq) (fun r => E p r * -J)]
    rw [List.sum_map_mul_left, List.sum_map_mul_right, hopping_correlation_comm hN filling hp hq, mul_comm]
  have hexact : ∀ v, IsFlow N (fun i j => m.get i j) v → ∀ t, form N E (v t) = (filling : ℂ) := by
    intro v hv t
    rw [form_const hsym hcomm hv t, form_unit (by omega) E _ hv.start]
    have : E 0 0 = filling := by
      rw [hE]; unfold ringCorrelation ringDistance; simp [chainCorrelation_zero]
    rw [this]
  obtain ⟨h, s, i1, i2, i3, i4⟩ := simulate_error (n := N) (by omega) m hsym (2 * |J|) (by positivity) hm
    (fun s => siteOccupation1 (siteEv ev) (basis1 N) (conjOf (basis1 N)) s.2.2 (e.threads s.1) (e.loop1 s.1)) E (by
      intro k w vec hv
      have l1 := he.loop1 k
      rw [hsz] at l1
      have key := siteSum1_eq (ev := siteEv ev) (basis := basis1 N) (cb := conjOf (basis1 N)) (E := E)
        (fun i j hi hj => by rw [← (htab i hi j hj).2]; exact code_11 hi hj (hg i hi) (hg j hj)) hv l1
      show siteOccupation1 _ _ _ _ _ _ = _
      rw [siteOccupation1, key, Res.map_val]; rfl) hdt tEnd hI w
  refine ⟨m, s, h1, ?_, i3, ?_, ?_⟩
  · unfold real1dKineticRk4
    simp only [e1, h1, Res.bind_val, hsz, i1, hc, hev]
    exact i2
  · intro R _ _ C ω Q v hv t
    rw [state_superpose C ω _ N _ E (fun p hp q hq => ?_), hexact v hv t]
    obtain ⟨E', e', _, hE'⟩ := coef_11 Q hp hq (hg p hp) (hg q hq)
    rw [hE', e']
  · intro j hj
    obtain ⟨v, hv⟩ := flow_exists N (fun i j => m.get i j)
    obtain ⟨x, hx, hb⟩ := i4 v hv j hj
    rw [hexact v hv, Complex.ofReal_re] at hb
    exact ⟨x, hx, hb⟩

/-- Non-vacuity of C58 and C60: for every number of sites there is a valid execution (one thread, program order), a
quasi-free functional with the correlations of the program, and (for every matrix) a flow. -/
example (N : ℕ) (filling : ℝ) (m : Sparse ℝ) : (∃ e : Execution, e.Valid N) ∧ (∃ e : Execution, e.ValidKinetic N) ∧
    (∃ (C : CAROn N (Module.End ℂ (Finset Mode → ℂ))) (ω : Module.End ℂ (Finset Mode → ℂ) →ₗ[ℂ] ℂ),
      QuasiFree C ω (ringCorrelation filling N)) ∧
    (∃ v, IsFlow (N + N * N * N) (fun i j => m.get i j) v) ∧ ∃ v, IsFlow N (fun i j => m.get i j) v := by
  refine ⟨⟨⟨List.range _, List.range' 1 (N / 2), fun _ => 1, fun _ => (loopA true N).map fun p => (0, p),
    fun _ => (loopB N (basis3 N).length).map fun p => (0, p), fun _ => (loopC true N (basis3 N).length).map fun p => (0, p)⟩,
    List.Perm.refl _, List.Perm.refl _, fun _ => executes_sequential _, fun _ => executes_sequential _,
    fun _ => executes_sequential _⟩,
    ⟨⟨List.range _, List.range' 1 (N / 2), fun _ => 1, fun _ => (RealSpace.loop1 (basis1 N).length).map fun p => (0, p),
    fun _ => [], fun _ => []⟩, List.Perm.refl _, List.Perm.refl _, fun _ => executes_sequential _⟩,
    quasiFree_exists N _, flow_exists _ _, flow_exists _ _⟩

/-- The error bounds are small at all times of interest: for the kinetic program with `J = 1`, `dt = 1/100` below `10⁻⁶` at
the time 100; for the interacting program with the default parameters `J = U = 1`, `dt = 1/100` below `2·10⁻⁴` at the time 100. -/
example : rk4Error (2 * |1|) (1 / 100) 10000 ≤ 1 / 10 ^ 6 ∧ rk4Error (6 * |1| + |1|) (1 / 100) 10000 ≤ 2 / 10 ^ 4 := by
  unfold rk4Error
  constructor <;> norm_num

theorem rk4Error_nonneg {B dt : ℝ} (hB : 0 ≤ B) (hdt : 0 ≤ dt) (k : ℕ) : 0 ≤ rk4Error B dt k := by
  unfold rk4Error
  split_ifs <;> positivity

end Ieompp.Program
