import Verif.Props.ProgramDouble
import Verif.Props.JumpProgram
import Verif.Props.ParallelFloat

/-!
# C110: the programs which write the Fermi jump, in floating point arithmetic

The parts: Fourier coefficients, normal-ordered coefficients, sum.
-/

set_option autoImplicit false
set_option linter.unusedSectionVars false

namespace Ieompp.RealSpace

open MomentumSpace (vecAt opAt)
open ODE (ApproxC)

variable {fl sinF cosF : ℝ → ℝ} {u : ℝ}

/-! ### Products and sums of approximations -/

theorem approxC_le {k : ℕ} {x' x : ℂ} {A : ℝ} (h : ApproxC u k x' x A) : ‖x'‖ ≤ (1 + u) ^ k * A := by
  have h1 : ‖x'‖ ≤ ‖x' - x‖ + ‖x‖ := by simpa using norm_add_le (x' - x) x
  have h2 := h.1
  have h3 := h.2
  have : ((1 + u) ^ k - 1) * A = (1 + u) ^ k * A - A := by ring
  linarith

theorem approxC_exact (x : ℂ) : ApproxC u 0 x x ‖x‖ := ⟨by simp, le_rfl⟩

theorem approxC_bound (hu : 0 ≤ u) {k : ℕ} {x' x : ℂ} {A B : ℝ} (h : ApproxC u k x' x A) (hB : A ≤ B) : ApproxC u k x' x B :=
  ⟨h.1.trans (mul_le_mul_of_nonneg_left hB (sub_nonneg.2 (one_le_pow₀ (by linarith)))), h.2.trans hB⟩

/-- A product before it is rounded. -/
theorem approxC_prod {k l : ℕ} {x' x y' y : ℂ} {A B : ℝ} (hx : ApproxC u k x' x A) (hy : ApproxC u l y' y B) :
    ApproxC u (k + l) (x' * y') (x * y) (A * B) := by
  have hA : 0 ≤ A := (norm_nonneg _).trans hx.2
  have hB : 0 ≤ B := (norm_nonneg _).trans hy.2
  refine ⟨?_, by rw [norm_mul]; exact mul_le_mul hx.2 hy.2 (norm_nonneg _) hA⟩
  have e : x' * y' - x * y = (x' - x) * y' + x * (y' - y) := by ring
  have h1 : ‖(x' - x) * y'‖ ≤ ((1 + u) ^ k - 1) * A * ((1 + u) ^ l * B) := by
    rw [norm_mul]
    exact mul_le_mul hx.1 (approxC_le hy) (norm_nonneg _) ((norm_nonneg _).trans hx.1)
  have h2 : ‖x * (y' - y)‖ ≤ A * (((1 + u) ^ l - 1) * B) := by
    rw [norm_mul]
    exact mul_le_mul hx.2 hy.1 (norm_nonneg _) hA
  rw [e, pow_add]
  refine (norm_add_le _ _).trans ((add_le_add h1 h2).trans (le_of_eq ?_))
  ring

theorem approxC_mul (hfl : Spec.Rounding fl u) {k l : ℕ} {x' x y' y : ℂ} {A B : ℝ} (hx : ApproxC u k x' x A) (hy : ApproxC u l y' y B) :
    ApproxC u (k + l + 4) (mulC fl x' y') (x * y) (A * B) := by
  have hu := hfl.nonneg
  have hA : 0 ≤ A := (norm_nonneg _).trans hx.2
  have h1 := (ApproxC.mul hfl x' y').1
  obtain ⟨h2, h3⟩ := approxC_prod hx hy
  refine ⟨?_, h3⟩
  have h4 : ‖x'‖ * ‖y'‖ ≤ (1 + u) ^ (k + l) * (A * B) := by
    rw [pow_add]
    refine (mul_le_mul (approxC_le hx) (approxC_le hy) (norm_nonneg _) (by positivity)).trans (le_of_eq (by ring))
  have h5 : 0 ≤ (1 + u) ^ 4 - 1 := sub_nonneg.2 (one_le_pow₀ (by linarith))
  have h6 := mul_le_mul_of_nonneg_left h4 h5
  have h7 := norm_sub_le_norm_sub_add_norm_sub (mulC fl x' y') (x' * y') (x * y)
  have : ((1 + u) ^ (k + l + 4) - 1) * (A * B) = ((1 + u) ^ 4 - 1) * ((1 + u) ^ (k + l) * (A * B)) + ((1 + u) ^ (k + l) - 1) * (A * B) := by
    rw [pow_add _ (k + l) 4]; ring
  linarith

theorem approxC_scale (hfl : Spec.Rounding fl u) {k : ℕ} {c' c C : ℝ} (hc : ApproxR u k c' c C) (z : ℂ) :
    ApproxC u (k + 1) (ODE.scaleC fl c' z) ((c : ℂ) * z) (C * ‖z‖) := by
  have hu := hfl.nonneg
  have h1 := ODE.scaleC_err hfl c' z
  have h2 := approxC_prod hc.toC (approxC_exact (u := u) z)
  rw [add_zero] at h2
  have h3 := approxC_le h2
  have h4 := mul_le_mul_of_nonneg_left h3 hu
  have h5 := norm_sub_le_norm_sub_add_norm_sub (ODE.scaleC fl c' z) ((c' : ℂ) * z) ((c : ℂ) * z)
  refine ⟨?_, h2.2⟩
  have h6 := h2.1
  have : ((1 + u) ^ (k + 1) - 1) * (C * ‖z‖) = u * ((1 + u) ^ k * (C * ‖z‖)) + ((1 + u) ^ k - 1) * (C * ‖z‖) := by
    rw [pow_succ]; ring
  linarith

/-- A sum which is accumulated term by term. -/
theorem foldl_close (hfl : Spec.Rounding fl u) {α : Type*} {f : Res ℂ → α → Res ℂ} {t' t : α → ℂ} {T : α → ℝ} {k : ℕ} :
    ∀ (l : List α), (∀ p ∈ l, ∀ x, f (.val x) p = .val (addC fl x (t' p))) → (∀ p ∈ l, ApproxC u k (t' p) (t p) (T p)) →
    ∀ (q : ℕ) (a' a : ℂ) (A : ℝ), k ≤ q → ApproxC u q a' a A →
    ∃ x, l.foldl f (.val a') = .val x ∧ ApproxC u (q + l.length) x (a + (l.map t).sum) (A + (l.map T).sum)
  | [], _, _, q, a', a, A, _, h => ⟨a', rfl, by simpa using h⟩
  | p :: l, hf, ht, q, a', a, A, hq, h => by
    obtain ⟨x, h1, h2⟩ := foldl_close hfl l (fun p hp => hf p (by simp [hp])) (fun p hp => ht p (by simp [hp])) (q + 1) _ _ _ (by omega)
      (h.add hfl ((ht p (by simp)).mono hfl.nonneg hq))
    refine ⟨x, by rw [List.foldl_cons, hf p (by simp)]; exact h1, ?_⟩
    rw [List.length_cons, show q + (l.length + 1) = q + 1 + l.length by ring, List.map_cons, List.map_cons, List.sum_cons, List.sum_cons,
      ← add_assoc, ← add_assoc]
    exact h2

/-! ### The Fourier coefficients -/

/-- A computed Fourier coefficient: the phase is off by at most `D u`. -/
theorem phaseFactorF_close (hu : 0 ≤ u) (hsin : ∀ x, |sinF x - Real.sin x| ≤ u) (hcos : ∀ x, |cosF x - Real.cos x| ≤ u)
    {phase' phase : ℕ → ℝ} {i : ℕ} {D : ℝ} (hp : |phase' i - phase i| ≤ D * u) {K : ℕ} (hK : 2 * (1 + D) ≤ K) :
    ApproxC u K (phaseFactorF sinF cosF phase' i) (Complex.exp (Complex.I * phase i)) 1 := by
  rw [Program.exp_phase]
  have h1 : |sinF (phase' i) - Real.sin (phase i)| ≤ (1 + D) * u := by
    have a := abs_sub_le (sinF (phase' i)) (Real.sin (phase' i)) (Real.sin (phase i))
    have b := hsin (phase' i)
    have c := Real.abs_sin_sub_sin_le (phase' i) (phase i)
    linarith
  have h2 : |cosF (phase' i) - Real.cos (phase i)| ≤ (1 + D) * u := by
    have a := abs_sub_le (cosF (phase' i)) (Real.cos (phase' i)) (Real.cos (phase i))
    have b := hcos (phase' i)
    have c := Real.abs_cos_sub_cos_le (phase' i) (phase i)
    linarith
  constructor
  · have h3 := Complex.norm_le_abs_re_add_abs_im (phaseFactorF sinF cosF phase' i - ⟨Real.cos (phase i), Real.sin (phase i)⟩)
    simp only [Complex.sub_re, Complex.sub_im] at h3
    change _ ≤ |cosF (phase' i) - Real.cos (phase i)| + |sinF (phase' i) - Real.sin (phase i)| at h3
    have h4 := one_add_mul_le_pow (a := u) (by linarith) K
    have h5 : 2 * (1 + D) * u ≤ K * u := mul_le_mul_of_nonneg_right hK hu
    linarith
  · rw [← Program.exp_phase, Program.norm_exp_phase]

theorem jumpCtorF_ok (N : ℕ) (phase : ℕ → ℝ) (sched : List ℕ) (hs : sched.Perm (List.range N)) :
    jumpCtorF sinF cosF N phase sched = .val ((List.range N).map (phaseFactorF sinF cosF phase)) := by
  obtain ⟨w, e1, e2, e3⟩ := storeLoop_ok (f := fun i => .val (phaseFactorF sinF cosF phase i)) (g := phaseFactorF sinF cosF phase) sched
    (List.replicate N 0) (fun i hi => ⟨rfl, by simpa using hs.mem_iff.1 hi⟩)
  rw [jumpCtorF, e1]
  congr 1
  apply List.ext_getElem?
  intro i
  rw [e3 i]
  by_cases hi : i < N
  · rw [if_pos ⟨hs.mem_iff.2 (List.mem_range.2 hi), by simpa using hi⟩]; simp [hi]
  · rw [if_neg (fun c => hi (by simpa using c.2))]; simp [hi]

/-! ### The normal-ordered coefficients -/

theorem prefactor_close (hfl : Spec.Rounding fl u) {K : ℕ} {e' e : ℝ} (h : ApproxR u K e' e 1) (p : Prop) [Decidable p] :
    ApproxR u (K + 2) (if p then fl (fl (2 * e') - 1) else fl (2 * e')) (2 * e - if p then 1 else 0) 3 := by
  have h1 := ApproxR.const_mul hfl (c := 2) (by norm_num) h
  split_ifs
  · have h2 : ApproxR u (K + 1) (1 : ℝ) 1 1 := by
      have := (ApproxR.exact (u := u) (1 : ℝ)).mono hfl.nonneg (l := K + 1) (B := 1) (by omega) (by simp)
      exact this
    exact (ApproxR.sub hfl h1 h2).mono hfl.nonneg (by omega) (by norm_num)
  · rw [sub_zero]
    exact h1.mono hfl.nonneg (by omega) (by norm_num)

theorem hNoValueF_close (hfl : Spec.Rounding fl u) {N K : ℕ} {ev' ev : ℕ → ℕ → ℝ} (hev : ∀ a < N, ∀ b < N, ApproxR u K (ev' a b) (ev a b) 1)
    (h : List ℂ) (hh : h.length = (basis3 N).length) {i : ℕ} (hi : i < N) :
    ∃ x, hNoValueF fl (siteEv ev') (basis3 N) h N i = .val x ∧
      ApproxC u (K + 3 + N * N) x (Ieompp.Spec.normalOrderedCoefficient ev N (fun p => h.getD p 0) i)
        (‖h.getD i 0‖ + ∑ j ∈ Finset.range N, ∑ k ∈ Finset.range N, 3 * ‖h.getD (N + N * N * i + N * j + k) 0‖) := by
  have hlen : h.length = N + N * N * N := by rw [hh, (realBasis_size N).2]
  have hlt : ∀ j < N, ∀ k < N, get3opIndex N i j k < h.length := by
    intro j hj k hk
    rw [hlen]; exact ((realBasis_index_bijective N).1 i j k hi hj hk).2
  unfold hNoValueF
  rw [getD_val (by omega)]
  have hmem : ∀ {j k : ℕ}, (j, k) ∈ ((List.range N).flatMap fun j => (List.range N).map fun k => (j, k)) → j < N ∧ k < N := by
    intro j k hjk
    simp only [List.mem_flatMap, List.mem_map, List.mem_range, Prod.mk.injEq] at hjk
    obtain ⟨j', h1, k', h2, rfl, rfl⟩ := hjk
    exact ⟨h1, h2⟩
  obtain ⟨x, h1, h2⟩ := foldl_close hfl (k := K + 3)
    (f := fun acc jk => acc.bind fun x =>
      (opAt (basis3 N) jk.1 0).bind fun oj => (opAt (basis3 N) jk.2 0).bind fun ok =>
      let prefactor := fl (2 * siteEv ev' oj ok)
      let prefactor := if jk.1 = jk.2 then fl (prefactor - 1) else prefactor
      (vecAt h (get3opIndex N i jk.1 jk.2)).bind fun hh => .val (addC fl x (ODE.scaleC fl prefactor hh)))
    (t' := fun jk : ℕ × ℕ => ODE.scaleC fl (if jk.1 = jk.2 then fl (fl (2 * ev' jk.1 jk.2) - 1) else fl (2 * ev' jk.1 jk.2))
      (h.getD (get3opIndex N i jk.1 jk.2) 0))
    (t := fun jk : ℕ × ℕ => (((2 * ev jk.1 jk.2 - if jk.1 = jk.2 then 1 else 0 : ℝ)) : ℂ) * h.getD (get3opIndex N i jk.1 jk.2) 0)
    (T := fun jk : ℕ × ℕ => 3 * ‖h.getD (get3opIndex N i jk.1 jk.2) 0‖)
    ((List.range N).flatMap fun j => (List.range N).map fun k => (j, k)) (by
      rintro ⟨j, k⟩ hjk x
      obtain ⟨hj, hk⟩ := hmem hjk
      have o1 : opAt (basis3 N) j 0 = .val ⟨true, (j, true)⟩ := by
        rw [opAt, vecAt_get (one_cases hj)]; rfl
      have o2 : opAt (basis3 N) k 0 = .val ⟨true, (k, true)⟩ := by
        rw [opAt, vecAt_get (one_cases hk)]; rfl
      simp only [o1, o2, Res.bind_val, getD_val (hlt j hj k hk), siteEv]) (by
      rintro ⟨j, k⟩ hjk
      obtain ⟨hj, hk⟩ := hmem hjk
      exact approxC_scale hfl (prefactor_close hfl (hev j hj k hk) _) _) (K + 3) _ _ _ le_rfl
    ((approxC_exact (h.getD i 0)).mono hfl.nonneg (by omega))
  refine ⟨x, h1, ?_⟩
  have hl : ((List.range N).flatMap fun j => (List.range N).map fun k => (j, k)).length = N * N := by
    simp [List.length_flatMap]
  have hsum : ∀ {M : Type} [AddCommMonoid M] (F : ℕ → ℕ → M), (((List.range N).flatMap fun j => (List.range N).map fun k => (j, k)).map
      fun jk : ℕ × ℕ => F jk.1 jk.2).sum = ∑ j ∈ Finset.range N, ∑ k ∈ Finset.range N, F j k := by
    intro M _ F
    rw [List.map_flatMap, sum_flatMap, ← List.sum_toFinset _ List.nodup_range, List.toFinset_range]
    refine Finset.sum_congr rfl fun j _ => ?_
    rw [List.map_map, ← List.sum_toFinset _ List.nodup_range, List.toFinset_range]; rfl
  rw [hl, hsum (fun j k => (((2 * ev j k - if j = k then 1 else 0 : ℝ)) : ℂ) * h.getD (get3opIndex N i j k) 0),
    hsum (fun j k => 3 * ‖h.getD (get3opIndex N i j k) 0‖)] at h2
  exact h2

/-! ### The sum -/

theorem sum_range_mul {M : Type*} [AddCommMonoid M] (a b : ℕ) (g : ℕ → M) :
    ∑ p ∈ Finset.range (a * b), g p = ∑ i ∈ Finset.range a, ∑ j ∈ Finset.range b, g (b * i + j) := by
  induction a with
  | zero => simp
  | succ a ih => rw [Nat.succ_mul, Finset.sum_range_add, ih, Finset.sum_range_succ, mul_comm b a]

/-- The bound on the absolute values of all the terms. -/
theorem jumpTerms_le (N : ℕ) (v : ℕ → ℂ) :
    ∑ i ∈ Finset.range N, (‖v i‖ + ∑ j ∈ Finset.range N, ∑ k ∈ Finset.range N, 3 * ‖v (N + N * N * i + N * j + k)‖) ≤
      3 * ∑ p ∈ Finset.range (N + N * N * N), ‖v p‖ := by
  rw [Finset.sum_range_add, mul_add, Finset.sum_add_distrib]
  refine add_le_add ?_ (le_of_eq ?_)
  · have : 0 ≤ ∑ p ∈ Finset.range N, ‖v p‖ := Finset.sum_nonneg fun _ _ => norm_nonneg _
    linarith
  · rw [mul_assoc, sum_range_mul N (N * N), Finset.mul_sum]
    refine Finset.sum_congr rfl fun i _ => ?_
    rw [sum_range_mul N N, Finset.mul_sum]
    refine Finset.sum_congr rfl fun j _ => ?_
    rw [Finset.mul_sum]
    exact Finset.sum_congr rfl fun k _ => by rw [show N + N * N * i + N * j + k = N + (N * N * i + (N * j + k)) by ring]

/-- From the amplitude to its absolute square. -/
theorem normF_close (hfl : Spec.Rounding fl u) {k : ℕ} {R Z : ℂ} {A : ℝ} (h : ApproxC u k R Z A) :
    |normF fl R - ‖Z‖ ^ 2| ≤ ((1 + u) ^ (2 * k + 2) - 1) * A ^ 2 := by
  have hu := hfl.nonneg
  have hA : 0 ≤ A := (norm_nonneg _).trans h.2
  have h1 := normF_err hfl R
  rw [← Complex.sq_norm] at h1
  have h2 := approxC_le h
  have h3 : ‖R‖ ^ 2 ≤ (1 + u) ^ (2 * k) * A ^ 2 := by
    refine (pow_le_pow_left₀ (norm_nonneg _) h2 2).trans (le_of_eq ?_)
    rw [mul_pow, ← pow_mul, mul_comm k]
  have h4 : |‖R‖ ^ 2 - ‖Z‖ ^ 2| ≤ ((1 + u) ^ (2 * k) - 1) * A ^ 2 := by
    rw [show ‖R‖ ^ 2 - ‖Z‖ ^ 2 = (‖R‖ - ‖Z‖) * (‖R‖ + ‖Z‖) by ring, abs_mul, abs_of_nonneg (a := ‖R‖ + ‖Z‖) (by positivity)]
    have e : ((1 + u) ^ (2 * k) - 1) * A ^ 2 = (((1 + u) ^ k - 1) * A) * ((1 + u) ^ k * A + A) := by
      rw [mul_comm 2 k, pow_mul]; ring
    rw [e]
    exact mul_le_mul ((abs_norm_sub_norm_le _ _).trans h.1) (add_le_add h2 h.2) (by positivity) ((norm_nonneg _).trans h.1)
  have h5 := abs_sub_le (normF fl R) (‖R‖ ^ 2) (‖Z‖ ^ 2)
  have h6 := mul_le_mul_of_nonneg_left h3 (a := 2 * u + u ^ 2) (by positivity)
  have e : ((1 + u) ^ (2 * k + 2) - 1) * A ^ 2 = (2 * u + u ^ 2) * ((1 + u) ^ (2 * k) * A ^ 2) + ((1 + u) ^ (2 * k) - 1) * A ^ 2 := by
    rw [pow_add]; ring
  linarith

/-- The final loop with coefficients that are themselves approximations. -/
theorem jumpSumF_close (hfl : Spec.Rounding fl u) (hu1 : u ≤ 1) {N K L : ℕ} {f h : List ℂ} (hf : N ≤ f.length) (hh : N ≤ h.length) {F H : ℕ → ℂ}
    {B : ℕ → ℝ} (hF : ∀ i < N, ApproxC u K (f.getD i 0) (F i) 1) (hH : ∀ i < N, ApproxC u L (h.getD i 0) (H i) (B i)) {threads : ℕ}
    {s : List Event} (hs : Executes threads (jumpPairs N) s) :
    ∃ x, jumpSumF fl f h threads s = .val x ∧ 0 ≤ x ∧
      |x - ‖∑ i ∈ Finset.range N, F i * H i‖ ^ 2| ≤
        ((1 + u) ^ (2 * (K + L + 4 + N + threads) + 2) - 1) * (∑ i ∈ Finset.range N, B i) ^ 2 := by
  have hu := hfl.nonneg
  let l : ParallelLoop := ⟨fun i _ => (vecAt f i).bind fun fi => (vecAt h i).bind fun vi => .val (mulC fl fi vi),
    fun i _ => mulC fl (f.getD i 0) (h.getD i 0), jumpPairs N, s⟩
  obtain ⟨r, h1, h2⟩ := parallel_sum hfl (threads := threads) [l] (by
    intro x hx
    rw [List.mem_singleton] at hx
    subst hx
    refine ⟨hs, ?_⟩
    intro p hp
    simp only [l, jumpPairs, List.mem_map, List.mem_range] at hp
    obtain ⟨i, hi, rfl⟩ := hp
    simp only [l, getD_val (show i < f.length by omega), getD_val (show i < h.length by omega), Res.bind_val])
  have hterm : ∀ i < N, ApproxC u (K + L + 4) (mulC fl (f.getD i 0) (h.getD i 0)) (F i * H i) (B i) := by
    intro i hi
    have := approxC_mul hfl (hF i hi) (hH i hi)
    rwa [one_mul] at this
  obtain ⟨c1, c2⟩ := list_close (u := u) (k := K + L + 4) (g' := fun i => mulC fl (f.getD i 0) (h.getD i 0)) (g := fun i => F i * H i) (A := B)
    (List.range N) fun i hi => hterm i (List.mem_range.1 hi)
  have hsum : Spec.loopSum [l] = ((List.range N).map fun i => mulC fl (f.getD i 0) (h.getD i 0)).sum := by
    simp only [Spec.loopSum, l, jumpPairs, List.map_cons, List.map_nil, List.sum_cons, List.sum_nil, add_zero, List.map_map]; rfl
  have habs : Spec.loopAbs [l] = ((List.range N).map fun i => ‖mulC fl (f.getD i 0) (h.getD i 0)‖).sum := by
    simp only [Spec.loopAbs, l, jumpPairs, List.map_cons, List.map_nil, List.sum_cons, List.sum_nil, add_zero, List.map_map]; rfl
  have hcount : Spec.loopCount [l] = N := by simp [Spec.loopCount, l, jumpPairs]
  have hZ : ((List.range N).map fun i => F i * H i).sum = ∑ i ∈ Finset.range N, F i * H i := by
    rw [← List.sum_toFinset _ List.nodup_range, List.toFinset_range]
  have hBs : ((List.range N).map B).sum = ∑ i ∈ Finset.range N, B i := by
    rw [← List.sum_toFinset _ List.nodup_range, List.toFinset_range]
  rw [hZ, hBs] at c1
  rw [hBs] at c2
  rw [hsum, habs, hcount] at h2
  have happ : ApproxC u (K + L + 4 + N + threads) (accumulateF fl r) (∑ i ∈ Finset.range N, F i * H i) (∑ i ∈ Finset.range N, B i) := by
    refine ⟨?_, (norm_sum_le _ _).trans (Finset.sum_le_sum fun i hi => (hterm i (Finset.mem_range.1 hi)).2)⟩
    have hpow : 0 ≤ (1 + u) ^ (N + threads) - 1 := sub_nonneg.2 (one_le_pow₀ (by linarith))
    have a1 := mul_le_mul_of_nonneg_left c2 hpow
    have a2 := norm_sub_le_norm_sub_add_norm_sub (accumulateF fl r) ((List.range N).map fun i => mulC fl (f.getD i 0) (h.getD i 0)).sum
      (∑ i ∈ Finset.range N, F i * H i)
    have e : ((1 + u) ^ (K + L + 4 + N + threads) - 1) * ∑ i ∈ Finset.range N, B i =
        ((1 + u) ^ (N + threads) - 1) * ((1 + u) ^ (K + L + 4) * ∑ i ∈ Finset.range N, B i) + ((1 + u) ^ (K + L + 4) - 1) * ∑ i ∈ Finset.range N, B i := by
      rw [add_assoc (K + L + 4), pow_add _ (K + L + 4)]; ring
    linarith
  refine ⟨normF fl (accumulateF fl r), ?_, ?_, normF_close hfl happ⟩
  · simp only [List.map_cons, List.map_nil, runLoopsF] at h1
    rw [jumpSumF]
    have h1' : runLoopF fl (fun i _ => (vecAt f i).bind fun fi => (vecAt h i).bind fun vi => .val (mulC fl fi vi)) s (List.replicate threads 0) =
        .val r := by
      cases hq : runLoopF fl l.body l.sched (List.replicate threads 0) with
      | val x => rw [hq] at h1; exact h1
      | ub => rw [hq] at h1; exact absurd h1 (by simp [Res.bind])
      | diverges => rw [hq] at h1; exact absurd h1 (by simp [Res.bind])
    rw [h1']
    rfl
  · have pos : ∀ x : ℝ, 0 ≤ x → 0 ≤ fl x := by
      intro x hx
      have := (abs_le.1 (hfl.err x)).1
      rw [abs_of_nonneg hx] at this
      nlinarith
    exact pos _ (add_nonneg (pos _ (mul_self_nonneg _)) (pos _ (mul_self_nonneg _)))

/-- `obs = fermi_jump(h)`: the result does not depend on what the static vector contains. -/
theorem jumpCallF_close (hfl : Spec.Rounding fl u) (hu1 : u ≤ 1) {N K L : ℕ} {f : List ℂ} (hf : f.length = N) {phase : ℕ → ℝ}
    (hF : ∀ i < N, ApproxC u K (f.getD i 0) (Complex.exp (Complex.I * phase i)) 1) {ev' ev : ℕ → ℕ → ℝ}
    (hev : ∀ a < N, ∀ b < N, ApproxR u L (ev' a b) (ev a b) 1) (h : List ℂ) (hh : h.length = (basis3 N).length) {threads : ℕ}
    {s1 : List ℕ} (hs1 : s1.Perm (List.range N)) {s2 : List Event} (hs2 : Executes threads (jumpPairs N) s2) :
    ∃ x, (∀ st : Option (List ℂ), (∀ v ∈ st, v.length = N) → ∃ w : List ℂ, w.length = N ∧
        jumpCallF fl (siteEv ev') (basis3 N) h N f threads s1 s2 st = .val (some w, x)) ∧ 0 ≤ x ∧
      |x - Ieompp.Spec.fermiJump ev N phase (fun p => h.getD p 0)| ≤ ((1 + u) ^ (2 * (K + (L + 3 + N * N) + 4 + N + threads) + 2) - 1) *
        (9 * ((N + N * N * N : ℕ) : ℝ) * ∑ p ∈ Finset.range (N + N * N * N), ‖h.getD p 0‖ ^ 2) := by
  have hu := hfl.nonneg
  have hno := fun (i : ℕ) (hi : i < N) => hNoValueF_close hfl hev h hh hi
  choose! g hg hg' using hno
  obtain ⟨x, hx, hx0, hxe⟩ := jumpSumF_close hfl hu1 (N := N) (f := f) (h := (List.range N).map g) (by omega) (by simp)
    (F := fun i => Complex.exp (Complex.I * phase i)) (H := Ieompp.Spec.normalOrderedCoefficient ev N fun p => h.getD p 0) hF (by
      intro i hi
      have : ((List.range N).map g).getD i 0 = g i := by simp [List.getD_eq_getElem?_getD, hi]
      rw [this]; exact hg' i hi) hs2
  refine ⟨x, fun st hst => ?_, hx0, hxe.trans ?_⟩
  · have hlen : (st.getD (List.replicate N 0)).length = N := by
      cases st with
      | none => simp
      | some v => exact hst v rfl
    obtain ⟨w, e1, e2, e3⟩ := storeLoop_ok (f := hNoValueF fl (siteEv ev') (basis3 N) h N) (g := g) s1 (st.getD (List.replicate N 0))
      (fun i hi => by
        have hi' : i < N := by simpa using hs1.mem_iff.1 hi
        exact ⟨hg i hi', by omega⟩)
    have hw : w = (List.range N).map g := by
      apply List.ext_getElem?
      intro i
      rw [e3 i, hlen]
      by_cases hi : i < N
      · rw [if_pos ⟨hs1.mem_iff.2 (List.mem_range.2 hi), hi⟩]; simp [hi]
      · rw [if_neg fun c => hi c.2, List.getElem?_eq_none (by omega), List.getElem?_eq_none (by simp; omega)]
    refine ⟨w, by rw [e2, hlen], ?_⟩
    unfold jumpCallF
    simp only
    rw [e1, Res.bind_val, hw, hx]; rfl
  · have hpow : 0 ≤ (1 + u) ^ (2 * (K + (L + 3 + N * N) + 4 + N + threads) + 2) - 1 := sub_nonneg.2 (one_le_pow₀ (by linarith))
    refine mul_le_mul_of_nonneg_left ?_ hpow
    have h1 := jumpTerms_le N fun p => h.getD p 0
    have h2 := sq_sum_le_card_mul_sum_sq (s := Finset.range (N + N * N * N)) (f := fun p => ‖h.getD p 0‖)
    rw [Finset.card_range] at h2
    refine (pow_le_pow_left₀ (Finset.sum_nonneg fun i _ => by positivity) h1 2).trans ?_
    rw [mul_pow, show (3 : ℝ) ^ 2 = 9 by norm_num, mul_assoc 9]
    exact mul_le_mul_of_nonneg_left h2 (by norm_num)

end Ieompp.RealSpace

namespace Ieompp.Program

open Ieompp.Spec RealSpace ODE ComplexConjugate

variable {fl sinF cosF : ℝ → ℝ} {u : ℝ}

/-! ### The time loop with a measurement that has a state of its own -/

theorem Setting.simulateState {σ O : Type} {n : ℕ} {sp : Sparse ℝ} {z : ℕ} {B dt : ℝ} (S : Setting fl n sp z B dt) (hfl : Spec.Rounding fl u)
    {steps : ℕ} (hsteps : 32 * (steps : ℝ) ^ 2 * u ≤ 1) (h64 : steps < 2 ^ 64) {tEnd : ℝ} (hend : tEnd + dt / 16 ≤ steps * dt)
    {interval : ℕ} {meas : Vars × σ → Res ((Vars × σ) × O)} (Q : σ → Prop) (P : ℕ → (Fin n → ℂ) → O → Prop)
    (hmeas : ∀ k w (y : Fin n → ℂ), ∃ x, (∀ st, Q st → ∃ st', Q st' ∧ meas ((k, w, List.ofFn y), st) = .val (((k, w, List.ofFn y), st'), x)) ∧ P k y x)
    (w : Work ℂ) {st0 : σ} (hst0 : Q st0) :
    ∃ h s k, initVector n = .val h ∧ Sim.simulateF fl (fun s : Vars × σ => (stepVarsF fl n dt sp s.1).map fun v => (v, s.2)) meas dt tEnd
        interval ((0, w, h), st0) = .val s ∧
      ⌈(tEnd - dt / 16) / dt⌉₊ ≤ k ∧ k ≤ ⌈(tEnd + dt / 16) / dt⌉₊ ∧ s.out.length = k / max interval 1 + 1 ∧
      ∀ j, j < s.out.length → ∃ t x, s.out[j]? = some (t, x) ∧ |t - ((j * max interval 1 : ℕ) : ℝ) * dt| ≤ dt / 16 ∧
        ∃ y : Fin n → ℂ, P (j * max interval 1) y x ∧
          ∀ v, IsFlow n (fun i j => sp.get i j) v → norm2 (y - fun p : Fin n => v ((j * max interval 1 : ℕ) * dt) p) ≤
            vectorErrorF u z (dt * B) (j * max interval 1) := by
  obtain ⟨h, e, hl, hh⟩ := initVector_correct S.pos
  have hhu : h = List.ofFn (unit0 n) := by
    apply List.ext_getElem?
    intro i
    by_cases hi : i < n
    · rw [hh i hi, List.getElem?_ofFn]; simp [hi, unit0]
    · rw [List.getElem?_eq_none (by omega), List.getElem?_eq_none (by simp; omega)]
  have hvec := fun k => S.vector hfl w k
  choose W Y hY hYerr using hvec
  choose o ho hP using fun k => hmeas k (W k) (Y k)
  obtain ⟨s, k, h1, -, -, h3, h4, -, h5, h6, h7⟩ := Sim.simulateF_output
    (step := fun s : Vars × σ => (stepVarsF fl n dt sp s.1).map fun v => (v, s.2)) (measure := meas) hfl S.step hsteps h64
    hend (interval := interval) (inv := fun k x => x.1 = (k, W k, List.ofFn (Y k)) ∧ Q x.2) (o := o) (by
      rintro k - ⟨x, st⟩ ⟨hx, hq⟩
      simp only at hx hq
      subst hx
      refine ⟨((k + 1, W (k + 1), List.ofFn (Y (k + 1))), st), ?_, rfl, hq⟩
      unfold stepVarsF
      have := hY (k + 1)
      rw [integrateF_succ, hY k, Res.bind_val] at this
      simp only [this]; rfl) (by
      rintro k - ⟨x, st⟩ ⟨hx, hq⟩
      simp only at hx hq
      subst hx
      obtain ⟨st', hq', e'⟩ := ho k st hq
      exact ⟨_, e', rfl, hq'⟩) (h0 := ((0, w, h), st0)) (by
      have := hY 0
      simp only [integrateF, Res.val.injEq, Prod.mk.injEq] at this
      exact ⟨by rw [hhu, ← this.1, this.2], hst0⟩)
  refine ⟨h, s, k, e, h1, h3, h4, h6, fun j hj => ?_⟩
  have hx : s.out[j].2 = o (j * max interval 1) := by
    have := congrArg (fun l => l[j]?) h5
    simp only [List.getElem?_map] at this
    rw [List.getElem?_eq_getElem hj, List.getElem?_range (by omega)] at this
    simpa using this
  refine ⟨s.out[j].1, s.out[j].2, List.getElem?_eq_getElem hj, h7 j hj, Y _, ?_, hYerr _⟩
  rw [hx]; exact hP _

/-! ### From the error of the vector to the error of the jump -/

/-- The amplitude as a sum over all coefficients, estimated with the Cauchy-Schwarz inequality. -/
theorem amplitude_le' (ev : ℕ → ℕ → ℝ) (N : ℕ) (phase : ℕ → ℝ) (v : ℕ → ℂ) :
    ‖amplitude ev N phase v‖ ^ 2 ≤ jumpWeight ev N * ∑ p ∈ Finset.range (N + N * N * N), ‖v p‖ ^ 2 := by
  set a : ℕ → ℕ → ℝ := fun j k => |2 * ev j k - if j = k then 1 else 0| with ha
  set W : ℝ := 1 + ∑ j ∈ Finset.range N, ∑ k ∈ Finset.range N, a j k ^ 2 with hW
  have hJ : jumpWeight ev N = N * W := by
    unfold jumpWeight
    simp only [hW, ha, sq_abs]
  set V : ℕ → ℝ := fun i => ‖v i‖ ^ 2 + ∑ j ∈ Finset.range N, ∑ k ∈ Finset.range N, ‖v (N + N * N * i + N * j + k)‖ ^ 2 with hV
  have hVsum : ∑ i ∈ Finset.range N, V i = ∑ p ∈ Finset.range (N + N * N * N), ‖v p‖ ^ 2 := by
    rw [Finset.sum_range_add, hV, Finset.sum_add_distrib]
    congr 1
    rw [mul_assoc, sum_range_mul N (N * N)]
    refine Finset.sum_congr rfl fun i _ => ?_
    rw [sum_range_mul N N]
    refine Finset.sum_congr rfl fun j _ => Finset.sum_congr rfl fun k _ => ?_
    rw [show N + N * N * i + N * j + k = N + (N * N * i + (N * j + k)) by ring]
  have hV0 : ∀ i, 0 ≤ V i := fun i => by rw [hV]; positivity
  have hW0 : 0 ≤ W := by rw [hW]; positivity
  have hi : ∀ i ∈ Finset.range N, ‖Complex.exp (Complex.I * phase i) * normalOrderedCoefficient ev N v i‖ ^ 2 ≤ W * V i := by
    intro i _
    rw [norm_mul, norm_exp_phase, one_mul]
    have h1 : ‖normalOrderedCoefficient ev N v i‖ ≤ 1 * ‖v i‖ + ∑ q ∈ Finset.range (N * N), a (q / N) (q % N) * ‖v (N + N * N * i + q)‖ := by
      unfold normalOrderedCoefficient
      refine (norm_add_le _ _).trans (add_le_add (by rw [one_mul]) ?_)
      rw [sum_range_mul N N]
      refine (norm_sum_le _ _).trans (Finset.sum_le_sum fun j hj => (norm_sum_le _ _).trans (Finset.sum_le_sum fun k hk => ?_))
      have hk' := Finset.mem_range.1 hk
      have d1 : (N * j + k) / N = j := by rw [Nat.mul_add_div (by omega), Nat.div_eq_of_lt hk', add_zero]
      have d2 : (N * j + k) % N = k := by rw [Nat.mul_add_mod, Nat.mod_eq_of_lt hk']
      rw [norm_mul, Complex.norm_real, Real.norm_eq_abs, d1, d2, add_assoc (N + N * N * i)]
    have cs := Finset.sum_mul_sq_le_sq_mul_sq (Finset.range (N * N)) (fun q => a (q / N) (q % N)) fun q => ‖v (N + N * N * i + q)‖
    set X := ∑ q ∈ Finset.range (N * N), a (q / N) (q % N) * ‖v (N + N * N * i + q)‖ with hX
    set A2 := ∑ q ∈ Finset.range (N * N), a (q / N) (q % N) ^ 2 with hA2
    set B2 := ∑ q ∈ Finset.range (N * N), ‖v (N + N * N * i + q)‖ ^ 2 with hB2
    have eA : W = 1 + A2 := by
      rw [hW, hA2, sum_range_mul N N]
      congr 1
      refine Finset.sum_congr rfl fun j _ => Finset.sum_congr rfl fun k hk => ?_
      have hk' := Finset.mem_range.1 hk
      have d1 : (N * j + k) / N = j := by rw [Nat.mul_add_div (by omega), Nat.div_eq_of_lt hk', add_zero]
      have d2 : (N * j + k) % N = k := by rw [Nat.mul_add_mod, Nat.mod_eq_of_lt hk']
      rw [d1, d2]
    have eB : V i = ‖v i‖ ^ 2 + B2 := by
      rw [hV, hB2]
      simp only
      rw [sum_range_mul N N]
      congr 1
      exact Finset.sum_congr rfl fun j _ => Finset.sum_congr rfl fun k _ => by rw [add_assoc (N + N * N * i)]
    have hX0 : 0 ≤ X := Finset.sum_nonneg fun q _ => by rw [ha]; positivity
    have hA0 : 0 ≤ A2 := by rw [hA2]; positivity
    have hB0 : 0 ≤ B2 := by rw [hB2]; positivity
    rw [eA, eB]
    refine (pow_le_pow_left₀ (norm_nonneg _) h1 2).trans ?_
    have key : 2 * ‖v i‖ * X ≤ A2 * ‖v i‖ ^ 2 + B2 := by
      have hh : (2 * ‖v i‖ * X) ^ 2 ≤ (A2 * ‖v i‖ ^ 2 + B2) ^ 2 := by
        have e1 : (2 * ‖v i‖ * X) ^ 2 = 4 * ‖v i‖ ^ 2 * X ^ 2 := by ring
        have e2 : 4 * ‖v i‖ ^ 2 * X ^ 2 ≤ 4 * ‖v i‖ ^ 2 * (A2 * B2) := mul_le_mul_of_nonneg_left cs (by positivity)
        nlinarith [sq_nonneg (A2 * ‖v i‖ ^ 2 - B2)]
      exact (pow_le_pow_iff_left₀ (by positivity) (by positivity) (by norm_num)).1 hh
    nlinarith
  have h1 : ‖amplitude ev N phase v‖ ≤ ∑ i ∈ Finset.range N, ‖Complex.exp (Complex.I * phase i) * normalOrderedCoefficient ev N v i‖ :=
    norm_sum_le _ _
  have h2 := sq_sum_le_card_mul_sum_sq (s := Finset.range N) (f := fun i => ‖Complex.exp (Complex.I * phase i) * normalOrderedCoefficient ev N v i‖)
  rw [Finset.card_range] at h2
  calc _ ≤ _ := (pow_le_pow_left₀ (norm_nonneg _) h1 2).trans h2
    _ ≤ N * ∑ i ∈ Finset.range N, W * V i := mul_le_mul_of_nonneg_left (Finset.sum_le_sum hi) (by positivity)
    _ = _ := by rw [← Finset.mul_sum, hVsum, hJ]; ring

/-- From the error of the vector and of the sum to the error of the jump. -/
theorem jump_close {N n : ℕ} (hn : n = N + N * N * N) (hu : 0 ≤ u) {ev : ℕ → ℕ → ℝ} {phase : ℕ → ℝ}
    {y : Fin n → ℂ} {v : ℕ → ℂ} {ε x : ℝ} {r : ℕ} (hv : norm2 (fun p : Fin n => v p) ≤ 1)
    (hy : norm2 (y - fun p : Fin n => v p) ≤ ε)
    (hx : |x - fermiJump ev N phase fun i => (List.ofFn y).getD i 0| ≤
      ((1 + u) ^ r - 1) * (9 * (n : ℝ) * ∑ i ∈ Finset.range n, ‖(List.ofFn y).getD i 0‖ ^ 2)) :
    |x - fermiJump ev N phase v| ≤ quadraticErrorF u r (jumpWeight ev N) (9 * (n : ℝ)) ε := by
  have hε : 0 ≤ ε := (norm2_nonneg _).trans hy
  have sum_sq : ∀ (q : ℕ → ℂ) (f : Fin n → ℂ), (∀ p : Fin n, q p = f p) → ∑ i ∈ Finset.range n, ‖q i‖ ^ 2 = norm2 f ^ 2 := by
    intro q f hq
    rw [norm2_sq]
    unfold normSq2
    rw [← Fin.sum_univ_eq_sum_range (fun i => ‖q i‖ ^ 2) n]
    exact Finset.sum_congr rfl fun i _ => by rw [hq]
  have h1 := sum_sq (fun i => (List.ofFn y).getD i 0) y fun p => ofFn_getD y p
  have h2 : norm2 y ≤ 1 + ε := by
    have := norm2_add_le (y - fun p : Fin n => v p) (fun p : Fin n => v p)
    rw [sub_add_cancel] at this
    linarith
  have h3 : norm2 y ^ 2 ≤ (1 + ε) ^ 2 := pow_le_pow_left₀ (norm2_nonneg _) h2 2
  have h4 : 0 ≤ (1 + u) ^ r - 1 := sub_nonneg.2 (one_le_pow₀ (by linarith))
  set Y : ℕ → ℂ := fun i => (List.ofFn y).getD i 0 with hY
  set c : ℝ := Real.sqrt (jumpWeight ev N) with hc
  have hc2 : c ^ 2 = jumpWeight ev N := Real.sq_sqrt (by unfold jumpWeight; positivity)
  have hc0 : 0 ≤ c := Real.sqrt_nonneg _
  have amp : ∀ (q : ℕ → ℂ) (f : Fin n → ℂ), (∀ p : Fin n, q p = f p) → ‖amplitude ev N phase q‖ ≤ c * norm2 f := by
    intro q f hq
    have := amplitude_le' ev N phase q
    rw [← hn, sum_sq q f hq, ← hc2, ← mul_pow] at this
    exact (pow_le_pow_iff_left₀ (norm_nonneg _) (mul_nonneg hc0 (norm2_nonneg _)) (by norm_num)).1 this
  have a1 : ‖amplitude ev N phase Y - amplitude ev N phase v‖ ≤ c * ε := by
    rw [amplitude_sub]
    exact (amp (fun p => Y p - v p) (y - fun p : Fin n => v p) fun p => by rw [hY]; simp only [ofFn_getD, Pi.sub_apply]).trans (by gcongr)
  have a2 : ‖amplitude ev N phase v‖ ≤ c * 1 := (amp v (fun p : Fin n => v p) fun p => rfl).trans (by gcongr)
  have a3 : ‖amplitude ev N phase Y‖ ≤ c * (1 + ε) := (amp Y y fun p => ofFn_getD y p).trans (by gcongr)
  have h5 : |fermiJump ev N phase Y - fermiJump ev N phase v| ≤ jumpWeight ev N * (ε * (2 + ε)) := by
    show |‖amplitude ev N phase Y‖ ^ 2 - ‖amplitude ev N phase v‖ ^ 2| ≤ _
    rw [show ‖amplitude ev N phase Y‖ ^ 2 - ‖amplitude ev N phase v‖ ^ 2 =
      (‖amplitude ev N phase Y‖ - ‖amplitude ev N phase v‖) * (‖amplitude ev N phase Y‖ + ‖amplitude ev N phase v‖) by ring, abs_mul,
      abs_of_nonneg (a := ‖amplitude ev N phase Y‖ + _) (by positivity)]
    calc _ ≤ (c * ε) * (c * (1 + ε) + c * 1) :=
          mul_le_mul ((abs_norm_sub_norm_le _ _).trans a1) (add_le_add a3 a2) (by positivity) (by positivity)
      _ = c ^ 2 * (ε * (2 + ε)) := by ring
      _ = _ := by rw [hc2]
  have h7 : |x - fermiJump ev N phase Y| ≤ ((1 + u) ^ r - 1) * (9 * (n : ℝ) * (1 + ε) ^ 2) := by
    refine hx.trans ?_
    rw [h1]
    gcongr
  have h8 := abs_sub_le x (fermiJump ev N phase Y) (fermiJump ev N phase v)
  unfold quadraticErrorF
  linarith

end Ieompp.Program
