import Mathlib.Algebra.Order.Chebyshev
import Verif.Props.FloatTable

/-!
# C109, second part: the rounding errors of the measured site occupation
-/

set_option autoImplicit false
set_option linter.unusedSectionVars false

namespace Ieompp.RealSpace

open MomentumSpace (vecAt)
open ODE (ApproxC)
open ComplexConjugate

variable {fl sinF : ℝ → ℝ} {u : ℝ}

theorem ApproxR.toC {k : ℕ} {x' x A : ℝ} (h : ApproxR u k x' x A) : ApproxC u k (x' : ℂ) (x : ℂ) A := by
  refine ⟨?_, by rw [Complex.norm_real, Real.norm_eq_abs]; exact h.2⟩
  rw [← Complex.ofReal_sub, Complex.norm_real, Real.norm_eq_abs]
  exact h.1

/-- `|a_re b_re| + |a_im b_im| ≤ |a| |b|`. -/
theorem abs_components_le (a b : ℂ) : |a.re| * |b.re| + |a.im| * |b.im| ≤ ‖a‖ * ‖b‖ := by
  have ha := Complex.sq_norm a
  have hb := Complex.sq_norm b
  rw [Complex.normSq_apply] at ha hb
  refine abs_le_of_sq_le_sq' ?_ (by positivity) |>.2
  rw [mul_pow, ha, hb]
  nlinarith [sq_nonneg (|a.re| * |b.im| - |a.im| * |b.re|), sq_abs a.re, sq_abs a.im, sq_abs b.re, sq_abs b.im]

theorem approx_product (hfl : Spec.Rounding fl u) (x y : ℝ) : ApproxR u 1 (fl (x * y)) (x * y) (|x| * |y|) := by
  have := (ApproxR.exact (u := u) (x * y)).round hfl
  rwa [abs_mul] at this

theorem approx_acp (hfl : Spec.Rounding fl u) (a b : ℂ) :
    ApproxR u 3 (addConjugateProductsF fl a b) (2 * (a.re * b.re + a.im * b.im)) (2 * (‖a‖ * ‖b‖)) := by
  have h := ApproxR.const_mul hfl (c := 2) (by norm_num) (ApproxR.add hfl (approx_product hfl a.re b.re) (approx_product hfl a.im b.im))
  exact h.mono hfl.nonneg le_rfl (by have := abs_components_le a b; linarith)

theorem approx_norm (hfl : Spec.Rounding fl u) (a : ℂ) : ApproxR u 2 (normF fl a) (Complex.normSq a) (‖a‖ * ‖a‖) := by
  have h := ApproxR.add hfl (approx_product hfl a.re a.re) (approx_product hfl a.im a.im)
  rw [Complex.normSq_apply]
  exact h.mono hfl.nonneg le_rfl (abs_components_le a a)

section Terms
variable {basis cb : List HMonomial} {vec : List ℂ} {f : HMonomial → HMonomial → Res ℝ} {i j k : ℕ} {E e' B : ℝ}

theorem symTermF_close (hfl : Spec.Rounding fl u) (he : evAt basis cb f i j = .val e') (hE : ApproxR u k e' (2 * E) (2 * B))
    (hi : i < vec.length) (hj : j < vec.length) :
    ∃ x, symTermF fl basis cb vec f i j = .val x ∧
      ApproxC u (k + 5) x (vec.getD i 0 * conj (vec.getD j 0) * (E : ℂ) + vec.getD j 0 * conj (vec.getD i 0) * (E : ℂ))
        (B * ‖vec.getD i 0‖ * ‖vec.getD j 0‖ + B * ‖vec.getD j 0‖ * ‖vec.getD i 0‖) := by
  refine ⟨_, by rw [symTermF, he, getD_val hi, getD_val hj]; rfl, ?_⟩
  set a := vec.getD i 0
  set b := vec.getD j 0
  have h := (ApproxR.half hfl (ApproxR.mul hfl hE (approx_acp hfl a b))).toC
  convert h using 1
  · apply Complex.ext
    · simp; ring
    · simp; ring
  · ring

theorem diagTermF_close (hfl : Spec.Rounding fl u) (he : evAt basis cb f i i = .val e') (hE : ApproxR u k e' (2 * E) (2 * B))
    (hi : i < vec.length) :
    ∃ x, diagTermF fl basis cb vec f i = .val x ∧
      ApproxC u (k + 5) x (vec.getD i 0 * conj (vec.getD i 0) * (E : ℂ)) (B * ‖vec.getD i 0‖ * ‖vec.getD i 0‖) := by
  refine ⟨_, by rw [diagTermF, he, getD_val hi]; rfl, ?_⟩
  set a := vec.getD i 0
  have h := (ApproxR.half hfl (ApproxR.mul hfl hE (approx_norm hfl a))).toC.mono hfl.nonneg (show _ ≤ k + 5 by omega)
  convert h using 1
  · rw [Complex.mul_conj]; push_cast; ring
  · ring

theorem fullTermF_close (hfl : Spec.Rounding fl u) (he : evAt basis cb f i j = .val e') (hE : ApproxR u k e' (2 * E) (2 * B))
    (hi : i < vec.length) (hj : j < vec.length) :
    ∃ x, fullTermF fl basis cb vec f i j = .val x ∧
      ApproxC u (k + 5) x (vec.getD i 0 * conj (vec.getD j 0) * (E : ℂ)) (2 * (B * ‖vec.getD i 0‖ * ‖vec.getD j 0‖)) := by
  refine ⟨_, by rw [fullTermF, he, getD_val hi, getD_val hj]; rfl, ?_⟩
  set a := vec.getD i 0
  set b := vec.getD j 0
  have hB : 0 ≤ B := by have := hE.nonneg; linarith
  have r := (ApproxR.half hfl (ApproxR.mul hfl hE (ApproxR.add hfl (approx_product hfl a.re b.re) (approx_product hfl a.im b.im))))
  have s := (ApproxR.half hfl (ApproxR.mul hfl hE (ApproxR.add hfl (approx_product hfl (-a.re) b.im) (approx_product hfl b.re a.im))))
  have hu := hfl.nonneg
  have hg : 0 ≤ (1 + u) ^ (k + 5) - 1 := by
    have := one_le_pow₀ (a := 1 + u) (n := k + 5) (by linarith)
    linarith
  have c1 := abs_components_le a b
  have c2 : |a.re| * |b.im| + |b.re| * |a.im| ≤ ‖a‖ * ‖b‖ := by
    have := abs_components_le a (⟨b.im, b.re⟩ : ℂ)
    have e : ‖(⟨b.im, b.re⟩ : ℂ)‖ = ‖b‖ := by
      rw [Complex.norm_def, Complex.norm_def, Complex.normSq_apply, Complex.normSq_apply]; congr 1; simp; ring
    rw [e] at this
    simp only at this
    linarith [mul_comm |b.re| |a.im|]
  have r' := r.mono hu (show _ ≤ k + 5 by omega) (show _ ≤ B * (‖a‖ * ‖b‖) by
    have := mul_le_mul_of_nonneg_left c1 hB; linarith)
  have s' := s.mono hu (show _ ≤ k + 5 by omega) (show _ ≤ B * (‖a‖ * ‖b‖) by
    have := mul_le_mul_of_nonneg_left c2 hB; rw [abs_neg]; linarith)
  have hex : a * conj b * (E : ℂ) = ⟨2 * E * (a.re * b.re + a.im * b.im) / 2, 2 * E * (-a.re * b.im + b.re * a.im) / 2⟩ := by
    apply Complex.ext
    · simp; ring
    · simp; ring
  constructor
  · rw [hex]
    refine (Complex.norm_le_abs_re_add_abs_im _).trans ?_
    have e1 := r'.1
    have e2 := s'.1
    calc _ ≤ ((1 + u) ^ (k + 5) - 1) * (B * (‖a‖ * ‖b‖)) + ((1 + u) ^ (k + 5) - 1) * (B * (‖a‖ * ‖b‖)) := add_le_add e1 e2
      _ = _ := by ring
  · rw [hex]
    refine (Complex.norm_le_abs_re_add_abs_im _).trans ?_
    calc _ ≤ (B * (‖a‖ * ‖b‖)) + (B * (‖a‖ * ‖b‖)) := add_le_add r'.2 s'.2
      _ = _ := by ring

end Terms

/-! ### Sums -/

theorem list_close {α : Type*} {k : ℕ} {g' g : α → ℂ} {A : α → ℝ} : ∀ (l : List α), (∀ p ∈ l, ApproxC u k (g' p) (g p) (A p)) →
    ‖(l.map g').sum - (l.map g).sum‖ ≤ ((1 + u) ^ k - 1) * (l.map A).sum ∧ (l.map fun p => ‖g' p‖).sum ≤ (1 + u) ^ k * (l.map A).sum
  | [], _ => by simp
  | p :: l, h => by
    obtain ⟨h1, h2⟩ := list_close l fun q hq => h q (by simp [hq])
    obtain ⟨h3, h4⟩ := h p (by simp)
    simp only [List.map_cons, List.sum_cons]
    constructor
    · rw [add_sub_add_comm, mul_add]
      exact (norm_add_le _ _).trans (add_le_add h3 h1)
    · have h5 : ‖g' p‖ ≤ ‖g' p - g p‖ + ‖g p‖ := by simpa using norm_add_le (g' p - g p) (g p)
      have : ((1 + u) ^ k - 1) * A p = (1 + u) ^ k * A p - A p := by ring
      rw [mul_add]
      linarith

/-- The computed sum of some parallel loops whose statements are computed with `k` roundings each. -/
theorem occupation_close (hfl : Spec.Rounding fl u) {threads k : ℕ} (L : List (ParallelLoop × (ℕ → ℕ → ℂ) × (ℕ → ℕ → ℝ)))
    (hL : ∀ l ∈ L, l.1.Legal threads) (hc : ∀ l ∈ L, ∀ p ∈ l.1.pairs, ApproxC u k (l.1.value p.1 p.2) (l.2.1 p.1 p.2) (l.2.2 p.1 p.2))
    {S : ℂ} {A : ℝ} (hS : (L.map fun l => (l.1.pairs.map fun p => l.2.1 p.1 p.2).sum).sum = S)
    (hA : (L.map fun l => (l.1.pairs.map fun p => l.2.2 p.1 p.2).sum).sum = A) {count : ℕ}
    (hn : (L.map fun l => l.1.pairs.length).sum = count) :
    ∃ x, siteOccupationF fl (L.map fun l => (l.1.body, l.1.sched)) threads = .val x ∧
      |x - S.re| ≤ ((1 + u) ^ (count + threads + k) - 1) * A := by
  have hu := hfl.nonneg
  obtain ⟨x, h1, h2⟩ := siteOccupation_rounded hfl (threads := threads) (L.map (·.1)) (by
    intro l hl
    obtain ⟨l', hl', rfl⟩ := List.mem_map.1 hl
    exact hL l' hl')
  rw [List.map_map] at h1
  refine ⟨x, h1, ?_⟩
  have hsum : ‖Spec.loopSum (L.map (·.1)) - S‖ ≤ ((1 + u) ^ k - 1) * A ∧ Spec.loopAbs (L.map (·.1)) ≤ (1 + u) ^ k * A := by
    subst hS hA
    clear h1 h2 hn hL
    induction L with
    | nil => simp [Spec.loopSum, Spec.loopAbs]
    | cons l L ih =>
      obtain ⟨i1, i2⟩ := ih fun l' hl' => hc l' (by simp [hl'])
      obtain ⟨j1, j2⟩ := list_close (u := u) (k := k) (g' := fun p : ℕ × ℕ => l.1.value p.1 p.2) (g := fun p => l.2.1 p.1 p.2)
        (A := fun p => l.2.2 p.1 p.2) l.1.pairs (hc l (by simp))
      simp only [Spec.loopSum, Spec.loopAbs, List.map_cons, List.sum_cons] at i1 i2 ⊢
      constructor
      · rw [add_sub_add_comm, mul_add]
        exact (norm_add_le _ _).trans (add_le_add j1 i1)
      · rw [mul_add]; exact add_le_add j2 i2
  have hcount : Spec.loopCount (L.map (·.1)) = count := by
    rw [← hn, Spec.loopCount, List.map_map]; rfl
  rw [hcount] at h2
  obtain ⟨h3, h4⟩ := hsum
  have h5 : |(Spec.loopSum (L.map (·.1))).re - S.re| ≤ ((1 + u) ^ k - 1) * A := by
    rw [← Complex.sub_re]; exact (Complex.abs_re_le_norm _).trans h3
  have h6 := abs_add_le (x - (Spec.loopSum (L.map (·.1))).re) ((Spec.loopSum (L.map (·.1))).re - S.re)
  rw [sub_add_sub_cancel] at h6
  have hg : 0 ≤ (1 + u) ^ (count + threads) - 1 := by
    have := one_le_pow₀ (a := 1 + u) (n := count + threads) (by linarith)
    linarith
  have h7 := mul_le_mul_of_nonneg_left h4 hg
  have : ((1 + u) ^ (count + threads + k) - 1) * A = ((1 + u) ^ (count + threads) - 1) * ((1 + u) ^ k * A) + ((1 + u) ^ k - 1) * A := by
    rw [pow_add]; ring
  linarith

/-- The three loops together are the whole double sum. -/
theorem loops_sum (F : ℕ → ℕ → ℂ) {N size : ℕ} (hN : N ≤ size) :
    ((pairsTri 0 N).map fun p => if p.2 = p.1 then F p.1 p.1 else F p.1 p.2 + F p.2 p.1).sum +
      (((pairsRect 0 N N size).map fun p => F p.1 p.2 + F p.2 p.1).sum +
      ((pairsTri N size).map fun p => if p.2 = p.1 then F p.1 p.1 else F p.1 p.2 + F p.2 p.1).sum) =
    ∑ i ∈ Finset.range size, ∑ j ∈ Finset.range size, F i j := by
  have tri : ∀ lo hi, lo ≤ hi → ((pairsTri lo hi).map fun p => if p.2 = p.1 then F p.1 p.1 else F p.1 p.2 + F p.2 p.1).sum =
      ∑ i ∈ Finset.Ico lo hi, ∑ j ∈ Finset.Ico lo hi, F i j := by
    intro lo hi h
    rw [sum_pairsTri lo hi h (fun i j => if j = i then F i i else F i j + F j i), sum_square lo hi h]
    refine Finset.sum_congr rfl fun i _ => ?_
    rw [if_pos rfl]
    congr 1
    refine Finset.sum_congr rfl fun j hj => ?_
    rw [Finset.mem_Ico] at hj
    rw [if_neg (by omega)]
  rw [sum_split N size hN, tri 0 N (Nat.zero_le N), tri N size hN, sum_pairsRect 0 N N size (Nat.zero_le N) hN (fun i j => F i j + F j i), add_assoc]

theorem loops_count {N size : ℕ} (hN : N ≤ size) :
    (pairsTri 0 N).length + ((pairsRect 0 N N size).length + (pairsTri N size).length) = size * (size + 1) / 2 := by
  have h := loops_sum (fun i j => if i = j then 1 else 1 / 2) hN
  have e : ∀ l : List (ℕ × ℕ), (∀ p ∈ l, p.2 ≤ p.1) → (l.map fun p => if p.2 = p.1 then (if p.1 = p.1 then (1 : ℂ) else 1 / 2) else
      (if p.1 = p.2 then 1 else 1 / 2) + if p.2 = p.1 then 1 else 1 / 2).sum = l.length := by
    intro l _
    rw [show (fun p : ℕ × ℕ => if p.2 = p.1 then (if p.1 = p.1 then (1 : ℂ) else 1 / 2) else
      (if p.1 = p.2 then 1 else 1 / 2) + if p.2 = p.1 then 1 else 1 / 2) = fun _ => 1 by
        funext p
        by_cases hp : p.2 = p.1
        · simp [hp]
        · simp only [hp, Ne.symm hp, if_false]; norm_num]
    simp
  have e' : ((pairsRect 0 N N size).map fun p => (if p.1 = p.2 then (1 : ℂ) else 1 / 2) + if p.2 = p.1 then 1 else 1 / 2).sum =
      (pairsRect 0 N N size).length := by
    rw [List.map_congr_left (g := fun _ => (1 : ℂ))]
    · simp
    · intro p hp
      obtain ⟨⟨_, h1⟩, h2, _⟩ := (mem_pairsRect (Nat.zero_le N) hN).1 hp
      rw [if_neg (by omega), if_neg (by omega)]; norm_num
  rw [e _ fun p hp => ((mem_pairsTri (Nat.zero_le N)).1 hp).2.1, e _ fun p hp => ((mem_pairsTri hN).1 hp).2.1, e'] at h
  have hr : ∑ i ∈ Finset.range size, ∑ j ∈ Finset.range size, (if i = j then (1 : ℂ) else 1 / 2) = size * (size + 1) / 2 := by
    have : ∀ i ∈ Finset.range size, ∑ j ∈ Finset.range size, (if i = j then (1 : ℂ) else 1 / 2) = (size + 1) / 2 := by
      intro i hi
      rw [Finset.sum_congr rfl fun j _ => show (if i = j then (1 : ℂ) else 1 / 2) = 1 / 2 + if i = j then 1 / 2 else 0 by
        split_ifs <;> norm_num]
      rw [Finset.sum_add_distrib, Finset.sum_ite_eq, if_pos hi]
      simp; ring
    rw [Finset.sum_congr rfl this]
    simp; ring
  rw [hr] at h
  have h2 : 2 * ((pairsTri 0 N).length + ((pairsRect 0 N N size).length + (pairsTri N size).length)) = size * (size + 1) := by
    have : ((2 * ((pairsTri 0 N).length + ((pairsRect 0 N N size).length + (pairsTri N size).length)) : ℕ) : ℂ) = (size * (size + 1) : ℕ) := by
      push_cast; rw [h]; ring
    exact_mod_cast this
  omega

theorem loops_sum_real (G : ℕ → ℕ → ℝ) {N size : ℕ} (hN : N ≤ size) :
    ((pairsTri 0 N).map fun p => if p.2 = p.1 then G p.1 p.1 else G p.1 p.2 + G p.2 p.1).sum +
      (((pairsRect 0 N N size).map fun p => G p.1 p.2 + G p.2 p.1).sum +
      ((pairsTri N size).map fun p => if p.2 = p.1 then G p.1 p.1 else G p.1 p.2 + G p.2 p.1).sum) =
    ∑ i ∈ Finset.range size, ∑ j ∈ Finset.range size, G i j := by
  have h := loops_sum (fun i j => (G i j : ℂ)) hN
  have e : ∀ (l : List (ℕ × ℕ)) (f : ℕ × ℕ → ℝ), ((l.map fun p => (f p : ℂ)).sum) = (((l.map f).sum : ℝ) : ℂ) := by
    intro l f
    induction l with
    | nil => simp
    | cons a l ih => simp [ih]
  have c1 : (fun p : ℕ × ℕ => if p.2 = p.1 then (G p.1 p.1 : ℂ) else (G p.1 p.2 : ℂ) + (G p.2 p.1 : ℂ)) =
      fun p => ((if p.2 = p.1 then G p.1 p.1 else G p.1 p.2 + G p.2 p.1 : ℝ) : ℂ) := by
    funext p; split_ifs <;> push_cast <;> rfl
  have c2 : (fun p : ℕ × ℕ => (G p.1 p.2 : ℂ) + (G p.2 p.1 : ℂ)) = fun p => ((G p.1 p.2 + G p.2 p.1 : ℝ) : ℂ) := by
    funext p; push_cast; rfl
  rw [c1, c2, e, e, e] at h
  exact_mod_cast h

/-- `(Σ |v_i|)² ≤ n Σ |v_i|²`. -/
theorem sum_norms_le (n : ℕ) (v : ℕ → ℂ) (c : ℝ) (hc : 0 ≤ c) : ∑ i ∈ Finset.range n, ∑ j ∈ Finset.range n, c * ‖v i‖ * ‖v j‖ ≤
    c * n * ∑ i ∈ Finset.range n, ‖v i‖ ^ 2 := by
  have h := sq_sum_le_card_mul_sum_sq (s := Finset.range n) (f := fun i => ‖v i‖)
  rw [Finset.card_range] at h
  have e : ∑ i ∈ Finset.range n, ∑ j ∈ Finset.range n, c * ‖v i‖ * ‖v j‖ = c * (∑ i ∈ Finset.range n, ‖v i‖) ^ 2 := by
    rw [sq, Finset.sum_mul_sum, Finset.mul_sum]
    refine Finset.sum_congr rfl fun i _ => ?_
    rw [Finset.mul_sum]
    exact Finset.sum_congr rfl fun j _ => by ring
  rw [e, mul_assoc]
  exact mul_le_mul_of_nonneg_left h hc

/-- The three-operator site occupation in floating point arithmetic. -/
theorem siteOccupation3F_close (hfl : Spec.Rounding fl u) {ev' : HOp → HOp → ℝ} {basis cb : List HMonomial} {N size k threads : ℕ}
    {E E' : ℕ → ℕ → ℝ} (W : WeightsF u k (ev11F fl ev') (ev13F fl ev') (ev33F fl ev') basis cb N size E E') (hN : N ≤ size) {vec : List ℂ}
    (hv : vec.length = size) (hsym : ∀ i < size, ∀ j < size, E i j = E j i) {s1 s2 s3 : List Event}
    (h1 : Executes threads (pairsTri 0 N) s1) (h2 : Executes threads (pairsRect 0 N N size) s2)
    (h3 : Executes threads (pairsTri N size) s3) :
    ∃ x, siteOccupation3F fl ev' basis cb vec threads s1 s2 s3 = .val x ∧
      |x - (∑ i ∈ Finset.range size, ∑ j ∈ Finset.range size, vec.getD i 0 * conj (vec.getD j 0) * (E i j : ℂ)).re| ≤
        ((1 + u) ^ (size * (size + 1) / 2 + threads + (k + 5)) - 1) * (17 * size * ∑ i ∈ Finset.range size, ‖vec.getD i 0‖ ^ 2) := by
  have hu := hfl.nonneg
  set F : ℕ → ℕ → ℂ := fun i j => vec.getD i 0 * conj (vec.getD j 0) * (E i j : ℂ) with hF
  set G : ℕ → ℕ → ℝ := fun i j => 17 * ‖vec.getD i 0‖ * ‖vec.getD j 0‖ with hG
  have tri : ∀ (f : HMonomial → HMonomial → Res ℝ) (lo hi : ℕ), lo ≤ hi → hi ≤ size →
      (∀ i j, lo ≤ i → i < hi → lo ≤ j → j < hi → evAt basis cb f i j = .val (E' i j) ∧ ApproxR u k (E' i j) (2 * E i j) (2 * 17)) →
      ∃ val : ℕ → ℕ → ℂ, ∀ p ∈ pairsTri lo hi, triTermF fl basis cb vec f p.1 p.2 = .val (val p.1 p.2) ∧
        ApproxC u (k + 5) (val p.1 p.2) (if p.2 = p.1 then F p.1 p.1 else F p.1 p.2 + F p.2 p.1)
          (if p.2 = p.1 then G p.1 p.1 else G p.1 p.2 + G p.2 p.1) := by
    intro f lo hi hlo hhi hf
    have : ∀ i j, (i, j) ∈ pairsTri lo hi → ∃ x, triTermF fl basis cb vec f i j = .val x ∧
        ApproxC u (k + 5) x (if j = i then F i i else F i j + F j i) (if j = i then G i i else G i j + G j i) := by
      intro i j hp
      obtain ⟨a, b, c⟩ := (mem_pairsTri hlo).1 hp
      simp only at a b c
      unfold triTermF
      by_cases hij : j = i
      · subst hij
        rw [if_pos rfl, if_pos rfl, if_pos rfl]
        exact diagTermF_close hfl (hf j j a c a c).1 (hf j j a c a c).2 (by omega)
      · rw [if_neg hij, if_neg hij, if_neg hij]
        have := symTermF_close (vec := vec) hfl (hf i j (by omega) c a (by omega)).1 (hf i j (by omega) c a (by omega)).2 (by omega) (by omega)
        simp only [hF, hG]
        rw [← hsym i (by omega) j (by omega)]
        exact this
    choose! val hval using this
    exact ⟨val, fun p hp => hval p.1 p.2 hp⟩
  obtain ⟨v1, g1⟩ := tri (ev11F fl ev') 0 N (Nat.zero_le N) hN fun i j _ hi _ hj => ⟨W.e11 i j hi hj, by
    have := W.close i (by omega) j (by omega) (.inl hi)
    norm_num; exact this⟩
  obtain ⟨v3, g3⟩ := tri (ev33F fl ev') N size hN le_rfl fun i j hi hi' hj hj' => ⟨W.e33 i j hi hi' hj hj', by
    have := W.close i (by omega) j (by omega) (.inr hj)
    norm_num; exact this⟩
  have rect : ∃ val : ℕ → ℕ → ℂ, ∀ p ∈ pairsRect 0 N N size, symTermF fl basis cb vec (ev13F fl ev') p.1 p.2 = .val (val p.1 p.2) ∧
        ApproxC u (k + 5) (val p.1 p.2) (F p.1 p.2 + F p.2 p.1) (G p.1 p.2 + G p.2 p.1) := by
    have : ∀ i j, (i, j) ∈ pairsRect 0 N N size → ∃ x, symTermF fl basis cb vec (ev13F fl ev') i j = .val x ∧
        ApproxC u (k + 5) x (F i j + F j i) (G i j + G j i) := by
      intro i j hp
      obtain ⟨⟨_, b⟩, c, d⟩ := (mem_pairsRect (Nat.zero_le N) hN).1 hp
      simp only at b c d
      have := symTermF_close (B := 17) (vec := vec) hfl (W.e13 i j b c d) (by
        have := W.close i (by omega) j (by omega) (.inl b)
        norm_num; exact this) (by omega) (by omega)
      simp only [hF, hG]
      rw [← hsym i (by omega) j (by omega)]
      exact this
    choose! val hval using this
    exact ⟨val, fun p hp => hval p.1 p.2 hp⟩
  obtain ⟨v2, g2⟩ := rect
  obtain ⟨x, hx, hx'⟩ := occupation_close hfl (threads := threads) (k := k + 5)
    [(⟨triTermF fl basis cb vec (ev11F fl ev'), v1, pairsTri 0 N, s1⟩, fun i j => if j = i then F i i else F i j + F j i,
      fun i j => if j = i then G i i else G i j + G j i),
     (⟨symTermF fl basis cb vec (ev13F fl ev'), v2, pairsRect 0 N N size, s2⟩, fun i j => F i j + F j i, fun i j => G i j + G j i),
     (⟨triTermF fl basis cb vec (ev33F fl ev'), v3, pairsTri N size, s3⟩, fun i j => if j = i then F i i else F i j + F j i,
      fun i j => if j = i then G i i else G i j + G j i)] (by
      intro l hl
      simp only [List.mem_cons, List.not_mem_nil, or_false] at hl
      rcases hl with rfl | rfl | rfl
      · exact ⟨h1, fun p hp => (g1 p hp).1⟩
      · exact ⟨h2, fun p hp => (g2 p hp).1⟩
      · exact ⟨h3, fun p hp => (g3 p hp).1⟩) (by
      intro l hl
      simp only [List.mem_cons, List.not_mem_nil, or_false] at hl
      rcases hl with rfl | rfl | rfl
      · exact fun p hp => (g1 p hp).2
      · exact fun p hp => (g2 p hp).2
      · exact fun p hp => (g3 p hp).2) (S := ∑ i ∈ Finset.range size, ∑ j ∈ Finset.range size, F i j)
      (A := ∑ i ∈ Finset.range size, ∑ j ∈ Finset.range size, G i j) (by
        simp only [List.map_cons, List.map_nil, List.sum_cons, List.sum_nil, add_zero]
        exact loops_sum F hN) (by
        simp only [List.map_cons, List.map_nil, List.sum_cons, List.sum_nil, add_zero]
        exact loops_sum_real G hN) (count := size * (size + 1) / 2) (by
        simp only [List.map_cons, List.map_nil, List.sum_cons, List.sum_nil, add_zero]
        exact loops_count hN)
  refine ⟨x, hx, hx'.trans (mul_le_mul_of_nonneg_left (sum_norms_le size _ 17 (by norm_num)) ?_)⟩
  have := one_le_pow₀ (a := 1 + u) (n := size * (size + 1) / 2 + threads + (k + 5)) (by linarith)
  linarith

/-- The one-operator site occupation in floating point arithmetic. -/
theorem siteOccupation1F_close (hfl : Spec.Rounding fl u) {ev' : HOp → HOp → ℝ} {basis cb : List HMonomial} {size k threads : ℕ}
    {E E' : ℕ → ℕ → ℝ} (hE : ∀ i < size, ∀ j < size, evAt basis cb (ev11F fl ev') i j = .val (E' i j) ∧ ApproxR u k (E' i j) (2 * E i j) (2 * 1))
    {vec : List ℂ} (hv : vec.length = size) {s : List Event} (h1 : Executes threads (loop1 size) s) :
    ∃ x, siteOccupation1F fl ev' basis cb vec threads s = .val x ∧
      |x - (∑ i ∈ Finset.range size, ∑ j ∈ Finset.range size, vec.getD i 0 * conj (vec.getD j 0) * (E i j : ℂ)).re| ≤
        ((1 + u) ^ (size * size + threads + (k + 5)) - 1) * (2 * size * ∑ i ∈ Finset.range size, ‖vec.getD i 0‖ ^ 2) := by
  have hu := hfl.nonneg
  set F : ℕ → ℕ → ℂ := fun i j => vec.getD i 0 * conj (vec.getD j 0) * (E i j : ℂ) with hF
  set G : ℕ → ℕ → ℝ := fun i j => 2 * ‖vec.getD i 0‖ * ‖vec.getD j 0‖ with hG
  have : ∀ i j, (i, j) ∈ loop1 size → ∃ x, fullTermF fl basis cb vec (ev11F fl ev') i j = .val x ∧ ApproxC u (k + 5) x (F i j) (G i j) := by
    intro i j hp
    obtain ⟨⟨_, b⟩, c, d⟩ := (mem_pairsRect (Nat.zero_le size) (Nat.zero_le size)).1 hp
    simp only at b c d
    have := fullTermF_close (B := 1) (vec := vec) hfl (hE i b j d).1 (hE i b j d).2 (by omega) (by omega)
    simp only [hF, hG]
    rw [one_mul, ← mul_assoc] at this
    exact this
  choose! val hval using this
  have hreal : ((loop1 size).map fun p => G p.1 p.2).sum = ∑ i ∈ Finset.range size, ∑ j ∈ Finset.range size, G i j := by
    have := sum_pairsRect 0 size 0 size (Nat.zero_le _) (Nat.zero_le _) (fun i j => (G i j : ℂ))
    have e : ∀ l : List (ℕ × ℕ), (l.map fun p => (G p.1 p.2 : ℂ)).sum = (((l.map fun p => G p.1 p.2).sum : ℝ) : ℂ) := by
      intro l
      induction l with
      | nil => simp
      | cons a l ih => simp only [List.map_cons, List.sum_cons, ih]; push_cast; rfl
    rw [e] at this
    rw [Finset.range_eq_Ico]
    exact_mod_cast this
  have hcx : ((loop1 size).map fun p => F p.1 p.2).sum = ∑ i ∈ Finset.range size, ∑ j ∈ Finset.range size, F i j := by
    rw [loop1, sum_pairsRect 0 size 0 size (Nat.zero_le _) (Nat.zero_le _) F, Finset.range_eq_Ico]
  have hlen : (loop1 size).length = size * size := by
    simp [loop1, pairsRect, List.length_flatMap]
  obtain ⟨x, hx, hx'⟩ := occupation_close hfl (threads := threads) (k := k + 5)
    [(⟨fullTermF fl basis cb vec (ev11F fl ev'), val, loop1 size, s⟩, F, G)] (by
      intro l hl
      rw [List.mem_singleton] at hl
      subst hl
      exact ⟨h1, fun p hp => (hval p.1 p.2 hp).1⟩) (by
      intro l hl
      rw [List.mem_singleton] at hl
      subst hl
      exact fun p hp => (hval p.1 p.2 hp).2) (S := ∑ i ∈ Finset.range size, ∑ j ∈ Finset.range size, F i j)
      (A := ∑ i ∈ Finset.range size, ∑ j ∈ Finset.range size, G i j) (by simpa using hcx) (by simpa using hreal)
      (count := size * size) (by simpa using hlen)
  refine ⟨x, hx, hx'.trans (mul_le_mul_of_nonneg_left (sum_norms_le size _ 2 (by norm_num)) ?_)⟩
  have := one_le_pow₀ (a := 1 + u) (n := size * size + threads + (k + 5)) (by linarith)
  linarith

end Ieompp.RealSpace
