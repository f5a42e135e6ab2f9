import Verif.Model.KineticTheory
import Verif.Lemmas.Bessel
import Verif.Props.ExpectationValue
import Verif.Props.SiteOccupation
import Verif.Props.Chain
import Mathlib.Analysis.Complex.RealDeriv
import Mathlib.Tactic.IntervalCases

/-!
# C49, C50: initial vector, closed form of the kinetic problem
-/

set_option autoImplicit false
set_option linter.unusedSectionVars false

namespace Ieompp.Program

open Ieompp.Spec RealSpace MomentumSpace

/-! ## C49 -/

/-- **C49**: for every basis with at least one element, the start vector has coefficient 1 for the first element and 0 for
all others. -/
theorem initVector_correct {size : ℕ} (h : 1 ≤ size) :
    ∃ v, initVector size = .val v ∧ v.length = size ∧ ∀ i < size, v[i]? = some (if i = 0 then 1 else 0) := by
  obtain ⟨n, rfl⟩ := Nat.exists_eq_succ_of_ne_zero (by omega : size ≠ 0)
  refine ⟨1 :: List.replicate n 0, ?_, by simp, ?_⟩
  · unfold initVector assignAt
    rw [if_pos (by simp)]
    rfl
  · intro i hi
    cases i with
    | zero => simp
    | succ i => simp [List.getElem?_replicate]; omega

/-- **C49** (refutation of the corner case): for an empty basis the assignment is out of range. -/
theorem initVector_empty_ub : initVector 0 = .ub := by
  unfold initVector assignAt; rw [if_neg (by simp)]

theorem initVector_getD {size : ℕ} {v : List ℂ} (h : initVector size = .val v) (i : ℕ) :
    v.getD i 0 = if i = 0 then 1 else 0 := by
  by_cases hs : 1 ≤ size
  · obtain ⟨v', e, hl, hv⟩ := initVector_correct hs
    rw [h] at e
    cases e
    by_cases hi : i < size
    · rw [List.getD_eq_getElem?_getD, hv i hi]; simp
    · rw [List.getD_eq_getElem?_getD, List.getElem?_eq_none (by omega), if_neg (by omega)]; simp
  · have : size = 0 := by omega
    subst this
    rw [initVector_empty_ub] at h; cases h

/-- **C49**: in terms of operators: the start vector represents the observed operator `c†_{0,↑}` in both real-space bases. -/
theorem initVector_observed {N : ℕ} (hN : 1 ≤ N) {R : Type*} [Ring R] [Algebra ℂ R] (C : CAROn N R) :
    (∃ v, initVector (basis1 N).length = .val v ∧ C.combination (basis1 N) v = C.cr (0, true)) ∧
    (∃ v, initVector (basis3 N).length = .val v ∧ C.combination (basis3 N) v = C.cr (0, true)) := by
  obtain ⟨h1, h2⟩ := realBasis_size N
  have key : ∀ (B : List HMonomial), 1 ≤ B.length → B[0]? = some (RealSpace.Spec.one 0) →
      ∃ v, initVector B.length = .val v ∧ C.combination B v = C.cr (0, true) := by
    intro B hB h0
    obtain ⟨v, e, hl, -⟩ := initVector_correct hB
    refine ⟨v, e, ?_⟩
    unfold CAROn.combination
    rw [Finset.sum_eq_single 0]
    · rw [initVector_getD e, if_pos rfl, one_smul]
      unfold CAROn.basisOp
      rw [h0]
      rfl
    · intro i _ hi
      rw [initVector_getD e, if_neg hi, zero_smul]
    · intro h; rw [Finset.mem_range] at h; omega
  exact ⟨key _ (by omega) ((realBasis_getElem N).1 0 hN).1, key _ (by omega) ((realBasis_getElem N).1 0 hN).2⟩

/-- **C49**: the start vector of the momentum-space program represents `c†_{q,↑}`. -/
theorem initVector_observed_momentum {K : Type*} [Field K] [LinearOrder K] [IsStrictOrderedRing K] [FloorRing K]
    (pi : K) (hpi : 0 < pi) (N : ℕ) (hN : 0 < N) (q : ℕ) :
    ∃ B v, MomentumSpace.basis3 q (Chain.momentum pi N) = .val B ∧ initVector B.length = .val v ∧
      B[0]? = some (RealSpace.Spec.one q) ∧ ∀ i < B.length, v[i]? = some (if i = 0 then 1 else 0) := by
  obtain ⟨B, e, hl, h0, -⟩ := momentumBasis_getElem pi hpi N hN q
  obtain ⟨v, ev, -, hv⟩ := initVector_correct (size := B.length) (by omega)
  exact ⟨B, v, e, ev, h0, hv⟩

/-- **C49**: hence the first measured value is the correlation of the site with itself, for every execution. -/
theorem siteOccupation_initial {N : ℕ} (hN : 1 ≤ N) (ev : ℕ → ℕ → ℝ) (hev : ∀ a < N, ∀ b < N, ev a b = ev b a)
    (sc : List ℕ) (hsc : sc.Perm (List.range (basis3 N).length)) (exploit : Bool) (threads : ℕ) (s1 s2 s3 : List Event)
    (h1 : Executes threads (loopA exploit N) s1) (h2 : Executes threads (loopB N (basis3 N).length) s2)
    (h3 : Executes threads (loopC exploit N (basis3 N).length) s3) :
    ∃ v, initVector (basis3 N).length = .val v ∧
      siteOccupation3 (siteEv ev) (basis3 N) (getConjugate sc (basis3 N)) v exploit threads s1 s2 s3 = .val (ev 0 0) := by
  have hsz := (realBasis_size N).2
  obtain ⟨v, e, hl, -⟩ := initVector_correct (size := (basis3 N).length) (by omega)
  refine ⟨v, e, ?_⟩
  have hc : getConjugate sc (basis3 N) = conjOf (basis3 N) := parallelModify_eq_map _ _ _ hsc
  have key := siteSum3_eq (weights_ok ev N) (by omega) (by rw [hl, hsz]) (fun _ => weight_symm hev) h1 (by rwa [hsz] at h2)
    (by rwa [hsz] at h3)
  rw [hc, siteOccupation3, key, Res.map_val]
  have : ∑ i ∈ Finset.range (N + N * N * N), ∑ j ∈ Finset.range (N + N * N * N),
      v.getD i 0 * (starRingEnd ℂ) (v.getD j 0) * (weight ev (basis3 N) i j : ℂ) = (ev 0 0 : ℂ) := by
    rw [Finset.sum_eq_single 0, Finset.sum_eq_single 0]
    · rw [initVector_getD e, if_pos rfl, map_one, one_mul, one_mul]
      unfold weight
      rw [one_cases hN]
      rfl
    · intro j _ hj; rw [initVector_getD e j, if_neg hj]; simp
    · intro h; rw [Finset.mem_range] at h; omega
    · intro i _ hi
      refine Finset.sum_eq_zero fun j _ => ?_
      rw [initVector_getD e i, if_neg hi]; simp
    · intro h; rw [Finset.mem_range] at h; omega
  rw [this, Complex.ofReal_re]

/-! ## C50 -/

/-- **C50**: `minus_i_power` is the power of `-i`, for every exponent. -/
theorem minusIPower_eq (p : ℕ) : minusIPower p = (-Complex.I) ^ p := by
  have h4 : (-Complex.I) ^ 4 = 1 := by
    rw [neg_pow, Complex.I_pow_four]; norm_num
  conv_rhs => rw [← Nat.div_add_mod p 4, pow_add, pow_mul, h4, one_pow, one_mul]
  unfold minusIPower
  have h := Nat.mod_lt p (by norm_num : 0 < 4)
  generalize p % 4 = r at h
  interval_cases r <;> simp [pow_succ]

/-- The coefficient of the program for a site at (signed) distance `d` on the infinite chain. -/
noncomputable def chainSolution (d : ℤ) (t : ℝ) : ℂ := (besselJ d.natAbs (2 * t) : ℂ) * minusIPower d.natAbs

theorem chainSolution_eq (d : ℤ) (t : ℝ) : chainSolution d t = (-Complex.I) ^ d * (besselJ d (2 * t) : ℂ) := by
  unfold chainSolution
  rw [minusIPower_eq, mul_comm]
  obtain ⟨n, rfl | rfl⟩ := Int.eq_nat_or_neg d
  · simp
  · rw [Int.natAbs_neg, Int.natAbs_natCast, besselJ_neg]
    push_cast
    rw [zpow_neg, zpow_natCast, zpow_natCast, ← mul_assoc]
    congr 1
    rw [eq_comm, inv_mul_eq_iff_eq_mul₀ (pow_ne_zero _ (neg_ne_zero.2 Complex.I_ne_zero)), ← mul_pow]
    simp

/-- **C50**: with the Bessel functions, the coefficients `(-i)^d J_d(2t)` are the exact solution of the flow equation of the
kinetic Hamiltonian (`J = 1`) on the infinite chain, `∂_t h_d = -i (h_{d-1} + h_{d+1})`, which starts at `h_d(0) = δ_{d0}`. -/
theorem theory_solves_infinite_chain (d : ℤ) (t : ℝ) :
    HasDerivAt (chainSolution d) (-Complex.I * (chainSolution (d - 1) t + chainSolution (d + 1) t)) t ∧
    chainSolution d 0 = if d = 0 then 1 else 0 := by
  constructor
  · have hb : HasDerivAt (fun t : ℝ => besselJ d (2 * t)) (besselJ (d - 1) (2 * t) - besselJ (d + 1) (2 * t)) t := by
      have h1 := (besselJ_hasDerivAt d (2 * t)).comp t ((hasDerivAt_id t).const_mul (2 : ℝ))
      refine h1.congr_deriv ?_
      simp
    have h2 := (hb.ofReal_comp).const_mul ((-Complex.I) ^ d)
    have h3 : chainSolution d = fun t : ℝ => (-Complex.I) ^ d * ((besselJ d (2 * t) : ℝ) : ℂ) := funext (chainSolution_eq d)
    rw [h3]
    refine h2.congr_deriv ?_
    have hI : (-Complex.I) ≠ 0 := neg_ne_zero.2 Complex.I_ne_zero
    rw [chainSolution_eq, chainSolution_eq, zpow_sub_one₀ hI, zpow_add_one₀ hI]
    push_cast
    have hII : Complex.I * Complex.I = -1 := Complex.I_mul_I
    rw [Complex.inv_def] <;> simp
    linear_combination ((-Complex.I) ^ d * (besselJ (d - 1) (2 * t) : ℂ) - (-Complex.I) ^ d * (besselJ (d + 1) (2 * t) : ℂ)) * hII
  · rw [chainSolution_eq, mul_zero, besselJ_zero]
    by_cases hd : d = 0
    · subst hd; simp
    · simp [hd]

theorem dist_zero (N : ℕ) (i : ℕ) (hi : i < N) : (Chain.real (K := ℝ) N 1).latticeDistance 0 i = min i (N - i) := by
  unfold Chain.latticeDistance
  simp only [Chain.real]
  split_ifs <;> simp <;> omega

/-- The coefficient of the program for site `i` of the ring of `N` sites, with the Bessel functions. -/
noncomputable def ringSolution (N i : ℕ) (t : ℝ) : ℂ := theoryCoefficient (fun n x => besselJ n x) (Chain.real N 1) i t

theorem ringSolution_eq {N i : ℕ} (hi : i < N) (d : ℤ) (hd : d.natAbs = min i (N - i)) :
    ringSolution N i = chainSolution d := by
  ext t
  unfold ringSolution theoryCoefficient chainSolution
  rw [dist_zero N i hi, hd]

/-- **C50** (partial): on the ring of the program the coefficients solve the flow equation at every site whose neighbours
have distances one more and one less, i.e. away from the antipode of site 0. Missing: the antipode, where the closed form
is not a solution, see `theory_ring_wrong`. -/
theorem theory_solves_ring_partial {N i : ℕ} (hi : i < N) (h : 2 * i + 2 ≤ N ∨ N + 2 ≤ 2 * i) (t : ℝ) :
    HasDerivAt (ringSolution N i)
      (-Complex.I * (ringSolution N ((i + N - 1) % N) t + ringSolution N ((i + 1) % N) t)) t ∧
    ringSolution N i 0 = if i = 0 then 1 else 0 := by
  have hN : 2 ≤ N := by omega
  rcases h with h | h
  · have e0 := ringSolution_eq hi (i : ℤ) (by simp; omega)
    have e1 := ringSolution_eq (N := N) (i := (i + 1) % N) (Nat.mod_lt _ (by omega)) ((i : ℤ) + 1) (by
      rw [Nat.mod_eq_of_lt (by omega)]; omega)
    have e2 := ringSolution_eq (N := N) (i := (i + N - 1) % N) (Nat.mod_lt _ (by omega)) ((i : ℤ) - 1) (by
      rcases Nat.eq_zero_or_pos i with rfl | hp
      · rw [Nat.mod_eq_of_lt (by omega)]; omega
      · rw [show i + N - 1 = (i - 1) + N by omega, Nat.add_mod_right, Nat.mod_eq_of_lt (by omega)]; omega)
    rw [e0, e1, e2]
    obtain ⟨h1, h2⟩ := theory_solves_infinite_chain (i : ℤ) t
    refine ⟨h1, ?_⟩
    rw [h2]; simp
  · have e0 := ringSolution_eq hi ((i : ℤ) - N) (by omega)
    have e1 := ringSolution_eq (N := N) (i := (i + 1) % N) (Nat.mod_lt _ (by omega)) ((i : ℤ) - N + 1) (by
      rcases Nat.lt_or_ge (i + 1) N with hp | hp
      · rw [Nat.mod_eq_of_lt (by omega)]; omega
      · rw [show i + 1 = N by omega, Nat.mod_self]; omega)
    have e2 := ringSolution_eq (N := N) (i := (i + N - 1) % N) (Nat.mod_lt _ (by omega)) ((i : ℤ) - N - 1) (by
      rw [show i + N - 1 = (i - 1) + N by omega, Nat.add_mod_right, Nat.mod_eq_of_lt (by omega)]; omega)
    rw [e0, e1, e2]
    obtain ⟨h1, h2⟩ := theory_solves_infinite_chain ((i : ℤ) - N) t
    refine ⟨h1, ?_⟩
    rw [h2, if_neg (by omega), if_neg (by omega)]

/-- **C50** (refutation for the finite ring): on every ring with an even number of at least four sites — the program uses
128 — the closed form violates the flow equation at the antipode of site 0 at some time. -/
theorem theory_ring_wrong {d : ℕ} (hd : 2 ≤ d) :
    ∃ t : ℝ, ¬ HasDerivAt (ringSolution (2 * d) d)
      (-Complex.I * (ringSolution (2 * d) ((d + 2 * d - 1) % (2 * d)) t + ringSolution (2 * d) ((d + 1) % (2 * d)) t)) t := by
  obtain ⟨x, hx⟩ := besselJ_ne_zero d
  refine ⟨x / 2, ?_⟩
  have e0 := ringSolution_eq (N := 2 * d) (i := d) (by omega) (d : ℤ) (by simp; omega)
  have e1 := ringSolution_eq (N := 2 * d) (i := (d + 1) % (2 * d)) (Nat.mod_lt _ (by omega)) ((d : ℤ) - 1) (by
    rw [Nat.mod_eq_of_lt (by omega)]; omega)
  have e2 := ringSolution_eq (N := 2 * d) (i := (d + 2 * d - 1) % (2 * d)) (Nat.mod_lt _ (by omega)) ((d : ℤ) - 1) (by
    rw [show d + 2 * d - 1 = (d - 1) + 2 * d by omega, Nat.add_mod_right, Nat.mod_eq_of_lt (by omega)]; omega)
  rw [e0, e1, e2]
  intro h
  have huniq := h.unique (theory_solves_infinite_chain (d : ℤ) (x / 2)).1
  have hI : (-Complex.I) ≠ 0 := neg_ne_zero.2 Complex.I_ne_zero
  have hu := mul_left_cancel₀ hI huniq
  have hu2 : chainSolution ((d : ℤ) - 1) (x / 2) = chainSolution ((d : ℤ) + 1) (x / 2) := add_left_cancel hu
  rw [chainSolution_eq, chainSolution_eq, show (2 : ℝ) * (x / 2) = x by ring,
    show (d : ℤ) + 1 = ((d : ℤ) - 1) + 2 by ring, zpow_add₀ hI, mul_assoc] at hu2
  have hu3 := mul_left_cancel₀ (zpow_ne_zero _ hI) hu2
  have h2 : (-Complex.I) ^ (2 : ℤ) = -1 := by
    rw [show (2 : ℤ) = ((2 : ℕ) : ℤ) from rfl, zpow_natCast, neg_pow, Complex.I_sq]; norm_num
  rw [h2, show ((d : ℤ) - 1) + 2 = (d : ℤ) + 1 by ring] at hu3
  have hre : besselJ ((d : ℤ) - 1) x = - besselJ ((d : ℤ) + 1) x := by
    have : ((besselJ ((d : ℤ) - 1) x : ℝ) : ℂ) = ((- besselJ ((d : ℤ) + 1) x : ℝ) : ℂ) := by
      rw [hu3]; push_cast; ring
    exact Complex.ofReal_injective this
  have hrec := besselJ_rec (d : ℤ) x
  rw [hre] at hrec
  apply hx
  have : (2 * ((d : ℤ) : ℝ)) ≠ 0 := by
    have : (0 : ℝ) < d := by exact_mod_cast (by omega : 0 < d)
    push_cast; positivity
  have h0 : 2 * ((d : ℤ) : ℝ) * besselJ d x = 0 := by rw [← hrec]; ring
  exact (mul_eq_zero.1 h0).resolve_left this

theorem theoryCoefficientConj_eq (bessel : ℕ → ℝ → ℝ) (c : Chain ℝ) (i : ℕ) (t : ℝ) :
    theoryCoefficientConj bessel c i t = (starRingEnd ℂ) (theoryCoefficient bessel c i t) := by
  unfold theoryCoefficientConj theoryCoefficient
  rw [map_mul, Complex.conj_ofReal]

/-- **C50**: the number written for time `t`, for every number of sites, every number of threads and every execution. -/
theorem theoryValue_eq (bessel : ℕ → ℝ → ℝ) {N : ℕ} (hN : 0 < N) {sched : List ℕ} (hs : sched.Perm (List.range' 1 (N / 2)))
    (threads : ℕ) {s : List Event} (h : Executes threads (pairsRect 0 N 0 N) s) (t : ℝ) :
    theoryValue bessel (Chain.real N 1) sched threads s t = .val (∑ i ∈ Finset.range N, ∑ j ∈ Finset.range N,
      ((if (Chain.real (K := ℝ) N 1).latticeDistance i j = 0 then 1 else
          Real.sin (0.5 * (Chain.real (K := ℝ) N 1).latticeDistance i j) /
            (Real.pi * (Chain.real (K := ℝ) N 1).latticeDistance i j) : ℝ) : ℂ) *
        (theoryCoefficient bessel (Chain.real N 1) i t * (starRingEnd ℂ) (theoryCoefficient bessel (Chain.real N 1) j t))) := by
  have hc : (Chain.real (K := ℝ) N 1).Constructed N := .real 1 hN rfl
  obtain ⟨values, e, hl, hv⟩ := evTable1D_ok hc 1 0.5 hs
  unfold theoryValue
  rw [e, Res.bind_val]
  obtain ⟨r, h1, -, h3⟩ := runLoop_executes (body := fun i j => (evLookup1D (Chain.real (K := ℝ) N 1) values i j).bind fun ev =>
      .val ((ev : ℂ) * (theoryCoefficient bessel (Chain.real N 1) i t * theoryCoefficientConj bessel (Chain.real N 1) j t)))
    (g := fun i j => ((if (Chain.real (K := ℝ) N 1).latticeDistance i j = 0 then 1 else
          Real.sin (0.5 * (Chain.real (K := ℝ) N 1).latticeDistance i j) /
            (Real.pi * (Chain.real (K := ℝ) N 1).latticeDistance i j) : ℝ) : ℂ) *
        (theoryCoefficient bessel (Chain.real N 1) i t * (starRingEnd ℂ) (theoryCoefficient bessel (Chain.real N 1) j t)))
    h (List.replicate threads 0) (by simp) (by
      intro p hp
      rw [mem_pairsRect (Nat.zero_le _) (Nat.zero_le _)] at hp
      obtain ⟨-, -, -, hm⟩ := chain_distance_metric hc p.1 p.2 p.2 (by omega) (by omega) (by omega)
      unfold evLookup1D vecAt
      rw [hv _ (by omega)]
      simp only [Res.bind_val, theoryCoefficientConj_eq]
      have hdx : (Chain.real (K := ℝ) N 1).dx = 1 := rfl
      rw [hdx]
      simp only [mul_one])
  rw [h1, Res.map_val, h3]
  have := sum_pairsRect 0 N 0 N (Nat.zero_le _) (Nat.zero_le _)
    (fun i j => ((if (Chain.real (K := ℝ) N 1).latticeDistance i j = 0 then 1 else
          Real.sin (0.5 * (Chain.real (K := ℝ) N 1).latticeDistance i j) /
            (Real.pi * (Chain.real (K := ℝ) N 1).latticeDistance i j) : ℝ) : ℂ) *
        (theoryCoefficient bessel (Chain.real N 1) i t * (starRingEnd ℂ) (theoryCoefficient bessel (Chain.real N 1) j t)))
  rw [this]
  simp

/-- **C50** (refutation for the reference state): the program passes `1.` as filling and `0.5` as Fermi momentum, so that at
`t = 0` it writes the site occupation 1; the half-filled state it is meant to be compared with has 1/2. -/
theorem theory_initial_wrong {N : ℕ} (hN : 0 < N) {sched : List ℕ} (hs : sched.Perm (List.range' 1 (N / 2)))
    (threads : ℕ) {s : List Event} (h : Executes threads (pairsRect 0 N 0 N) s) :
    theoryValue (fun n x => besselJ n x) (Chain.real N 1) sched threads s 0 = .val 1 ∧
      (1 : ℝ) ≠ Spec.chainCorrelation (0.5 * Real.pi) 0 := by
  constructor
  · rw [theoryValue_eq _ hN hs threads h 0]
    have h0 : ∀ i < N, theoryCoefficient (fun n x => besselJ n x) (Chain.real N 1) i 0 = if i = 0 then 1 else 0 := by
      intro i hi
      have := (theory_solves_infinite_chain ((min i (N - i) : ℕ) : ℤ) 0).2
      rw [← ringSolution_eq hi _ (by rw [Int.natAbs_natCast])] at this
      unfold ringSolution at this
      rw [this]
      have : ((min i (N - i) : ℕ) : ℤ) = 0 ↔ i = 0 := by omega
      simp only [this]
    congr 1
    rw [Finset.sum_eq_single 0, Finset.sum_eq_single 0]
    · rw [h0 0 hN]
      have : (Chain.real (K := ℝ) N 1).latticeDistance 0 0 = 0 := by rw [dist_zero N 0 hN]; simp
      rw [this]; simp
    · intro j hj hj0
      rw [h0 j (Finset.mem_range.1 hj), if_neg hj0]; simp
    · intro h; simp at h; omega
    · intro i hi hi0
      refine Finset.sum_eq_zero fun j _ => ?_
      rw [h0 i (Finset.mem_range.1 hi), if_neg hi0]; simp
    · intro h; simp at h; omega
  · unfold Spec.chainCorrelation
    simp
    have hp := Real.pi_pos
    intro h
    field_simp at h
    norm_num at h

/-- The number written for the time `t`: the double sum over the 128 sites. -/
noncomputable def theorySum (bessel : ℕ → ℝ → ℝ) (t : ℝ) : ℂ :=
  ∑ i ∈ Finset.range 128, ∑ j ∈ Finset.range 128,
    ((if (Chain.real (K := ℝ) 128 1).latticeDistance i j = 0 then 1 else
        Real.sin (0.5 * (Chain.real (K := ℝ) 128 1).latticeDistance i j) /
          (Real.pi * (Chain.real (K := ℝ) 128 1).latticeDistance i j) : ℝ) : ℂ) *
      (theoryCoefficient bessel (Chain.real 128 1) i t * (starRingEnd ℂ) (theoryCoefficient bessel (Chain.real 128 1) j t))

theorem theorySum_im (bessel : ℕ → ℝ → ℝ) (t : ℝ) : (theorySum bessel t).im = 0 := by
  rw [← Complex.conj_eq_iff_im]
  unfold theorySum
  rw [map_sum]
  simp only [map_sum, map_mul, Complex.conj_ofReal, Complex.conj_conj]
  rw [Finset.sum_comm]
  refine Finset.sum_congr rfl fun i hi => Finset.sum_congr rfl fun j hj => ?_
  have hc : (Chain.real (K := ℝ) 128 1).Constructed 128 := .real 1 (by norm_num) rfl
  have := (chain_distance_metric hc j i i (Finset.mem_range.1 hj) (Finset.mem_range.1 hi) (Finset.mem_range.1 hi)).1
  rw [this]
  ring

/-- **C50**: the whole program, for every execution: it writes 10000 rows, the `k`-th with the time `k / 100`, the double sum
for this time and the imaginary part 0. -/
theorem kineticTheory_file (bessel : ℕ → ℝ → ℝ) {sched : List ℕ} (hs : sched.Perm (List.range' 1 64)) (threads : ℕ)
    {s : List Event} (h : Executes threads (pairsRect 0 128 0 128) s) :
    ∃ rows, kineticTheory bessel sched threads s = .val rows ∧ rows.length = 10000 ∧
      ∀ k : ℕ, k < 10000 → rows[k]? = some ((k : ℝ) / 100, (theorySum bessel ((k : ℝ) / 100)).re, 0) := by
  have key : ∀ n, theoryFile bessel sched threads s n = .val ((List.range n).map fun k : ℕ =>
      ((k : ℝ) / 100, (theorySum bessel ((k : ℝ) / 100)).re, (0 : ℝ))) := by
    intro n
    induction n with
    | zero => rfl
    | succ n ih =>
      have e : (n : ℝ) * theoryStep = (n : ℝ) / 100 := by unfold theoryStep; ring
      have hv := theoryValue_eq bessel (N := 128) (by norm_num) hs threads h ((n : ℝ) / 100)
      rw [theoryFile, ih, Res.bind_val, e]
      unfold theorySites
      rw [hv, Res.map_val, List.range_succ, List.map_append]
      have := theorySum_im bessel ((n : ℝ) / 100)
      simp only [List.map_cons, List.map_nil]
      rw [← this]
      rfl
  refine ⟨_, key theorySteps, by simp [theorySteps], fun k hk => ?_⟩
  rw [List.getElem?_map, List.getElem?_range (by simpa [theorySteps] using hk)]
  rfl

/-- The hypotheses can be met: three sites, one thread, sequential execution. -/
example : theoryValue (fun n x => besselJ n x) (Chain.real 3 1) [1] 1 ((pairsRect 0 3 0 3).map fun p => (0, p)) 0 = .val 1 := by
  refine (theory_initial_wrong (by norm_num) (by simp) 1 ⟨?_, ?_⟩).1
  · rw [List.map_map]; simp [Function.comp_def]
  · intro e he
    obtain ⟨p, -, rfl⟩ := List.mem_map.1 he
    simp

end Ieompp.Program
