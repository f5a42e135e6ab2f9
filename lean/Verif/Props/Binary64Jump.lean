import Verif.Props.Binary64Occupation
import Verif.Props.JumpProgramFloat

/-! # C119, first part: the Fermi jump with underflow and overflow -/

set_option autoImplicit false
set_option linter.unusedSectionVars false

namespace Ieompp.IEEE

open Ieompp.Spec ODE RealSpace
open MomentumSpace (vecAt opAt)

variable {rnd : ℝ → Res ℝ} {fl sinF cosF : ℝ → ℝ} {u tiny huge : ℝ} {K : ℕ}

/-! ### Products -/

theorem mulR_ok (M : Machine rnd fl u tiny huge K) {k l : ℕ} {x' x y' y : ℂ} {A B : ℝ} (hx : ApproxC u k x' x A) (hy : ApproxC u l y' y B) (hk : k + l ≤ K)
    (hfit : 7 * (A * B + 3 * tiny) ≤ huge) :
    mulR rnd x' y' = .val (mulC fl x' y') ∧ ApproxC u (k + l + 4) (mulC fl x' y') (x * y) (A * B + 3 * tiny) := by
  have hu := M.nonneg
  have hu1 := M.small
  have ht := M.tiny_nonneg
  have hA : 0 ≤ A := (norm_nonneg _).trans hx.2
  have hB : 0 ≤ B := (norm_nonneg _).trans hy.2
  have hAB : 0 ≤ A * B := by positivity
  have h4 : ‖x'‖ * ‖y'‖ ≤ (1 + u) ^ (k + l) * (A * B) := by
    rw [pow_add]
    refine (mul_le_mul (RealSpace.approxC_le hx) (RealSpace.approxC_le hy) (norm_nonneg _) (by positivity)).trans (le_of_eq (by ring))
  have h5 := mul_le_mul_of_nonneg_right (M.pow_le hk) hAB
  refine ⟨mulR_eq M.gradual M.agrees ?_, ?_⟩
  · have h6 : (1 + u) * (‖x'‖ * ‖y'‖ + tiny) ≤ (1 + 1 / 1000) * (3 * (A * B) + tiny) :=
      mul_le_mul (by linarith) (by linarith) (by positivity) (by norm_num)
    linarith
  · have h1 := mulC_gradual M.gradual x' y'
    obtain ⟨h2, h3⟩ := approxC_prod hx hy
    refine ⟨?_, h3.trans (by linarith)⟩
    have p4 : 0 ≤ (1 + u) ^ 4 - 1 := sub_nonneg.2 (one_le_pow₀ (by linarith))
    have h6 := mul_le_mul_of_nonneg_left h4 p4
    have h7 := norm_sub_le_norm_sub_add_norm_sub (mulC fl x' y') (x' * y') (x * y)
    have h8 : ((1 + u) ^ 4 - 1) * (3 * tiny) ≤ ((1 + u) ^ (k + l + 4) - 1) * (3 * tiny) := by
      refine mul_le_mul_of_nonneg_right ?_ (by positivity)
      have := pow_le_pow_right₀ (a := 1 + u) (by linarith) (show 4 ≤ k + l + 4 by omega)
      linarith
    have : ((1 + u) ^ (k + l + 4) - 1) * (A * B + 3 * tiny) = ((1 + u) ^ 4 - 1) * ((1 + u) ^ (k + l) * (A * B)) + ((1 + u) ^ (k + l) - 1) * (A * B) +
        ((1 + u) ^ (k + l + 4) - 1) * (3 * tiny) := by
      rw [pow_add _ (k + l) 4]; ring
    rw [mul_add] at h1
    linarith

theorem scaleR_ok (M : Machine rnd fl u tiny huge K) {k : ℕ} {c' c C : ℝ} (hc : ApproxR u k c' c C) (z : ℂ) (hk : k ≤ K) (hfit : 3 * (C * ‖z‖) ≤ huge) :
    scaleR rnd c' z = .val (scaleC fl c' z) ∧ ApproxC u (k + 1) (scaleC fl c' z) ((c : ℂ) * z) (C * ‖z‖ + 2 * tiny) := by
  have hu := M.nonneg
  have ht := M.tiny_nonneg
  have hC := hc.nonneg
  have h2 := approxC_prod hc.toC (approxC_exact (u := u) z)
  rw [add_zero] at h2
  have h3 := RealSpace.approxC_le h2
  have h3' := mul_le_mul_of_nonneg_right (M.pow_le hk) (show 0 ≤ C * ‖z‖ by positivity)
  refine ⟨scaleR_eq M.agrees ?_, ?_, h2.2.trans (by linarith)⟩
  · rw [norm_mul, Complex.norm_real, Real.norm_eq_abs] at h3
    linarith
  · have h1 := scaleC_gradual M.gradual c' z
    have h4 := mul_le_mul_of_nonneg_left h3 hu
    have h5 := norm_sub_le_norm_sub_add_norm_sub (scaleC fl c' z) ((c' : ℂ) * z) ((c : ℂ) * z)
    have h6 := h2.1
    have hp : 1 ≤ (1 + u) ^ k := one_le_pow₀ (by linarith)
    have h7 : u * (2 * tiny) ≤ ((1 + u) ^ (k + 1) - 1) * (2 * tiny) := by
      refine mul_le_mul_of_nonneg_right ?_ (by positivity)
      rw [pow_succ]; nlinarith
    have : ((1 + u) ^ (k + 1) - 1) * (C * ‖z‖ + 2 * tiny) = u * ((1 + u) ^ k * (C * ‖z‖)) + ((1 + u) ^ k - 1) * (C * ‖z‖) +
        ((1 + u) ^ (k + 1) - 1) * (2 * tiny) := by
      rw [pow_succ]; ring
    rw [mul_add] at h1
    linarith

theorem prefactorR_ok (M : Machine rnd fl u tiny huge K) {L : ℕ} {e' e : ℝ} (h : ApproxR u L e' e 1) (hL : L + 2 ≤ K) (p : Prop) [Decidable p] :
    ∃ x, prefactorR rnd p e' = .val x ∧ ApproxR u (L + 2) x (2 * e - if p then 1 else 0) 3 := by
  have hu := M.nonneg
  obtain ⟨o1, p1⟩ := M.const_mul (c := 2) (by norm_num) h (by omega) (M.fits (by norm_num) (by norm_num))
  unfold prefactorR
  rw [o1, Res.bind_val]
  split_ifs
  · have h2 : ApproxR u (L + 1) (1 : ℝ) 1 1 := (ApproxR.exact (u := u) (1 : ℝ)).mono hu (by omega) (by simp)
    obtain ⟨o2, p2⟩ := M.sub p1 h2 (by omega) (M.fits (by norm_num) (by norm_num))
    exact ⟨_, o2, p2.mono hu le_rfl (by norm_num)⟩
  · refine ⟨_, rfl, ?_⟩
    rw [sub_zero]
    exact p1.mono hu (by omega) (by norm_num)

/-- A sum which is accumulated term by term. -/
theorem foldlR_close (M : Machine rnd fl u tiny huge K) {α : Type*} {f : Res ℂ → α → Res ℂ} {t' t : α → ℂ} {T : α → ℝ} {k : ℕ} :
    ∀ (l : List α), (∀ p ∈ l, ∀ x, f (.val x) p = addR rnd x (t' p)) → (∀ p ∈ l, ApproxC u k (t' p) (t p) (T p)) →
    ∀ (q : ℕ) (a' a : ℂ) (A : ℝ), k ≤ q → q + l.length ≤ K → ApproxC u q a' a A → 3 * (A + (l.map fun p => T p + 2 * tiny).sum) ≤ huge →
    ∃ x, l.foldl f (.val a') = .val x ∧ ApproxC u (q + l.length) x (a + (l.map t).sum) (A + (l.map fun p => T p + 2 * tiny).sum)
  | [], _, _, q, a', a, A, _, _, h, _ => ⟨a', rfl, by simpa using h⟩
  | p :: l, hf, ht, q, a', a, A, hq, hK, h, hfit => by
    have hu := M.nonneg
    have htn := M.tiny_nonneg
    rw [List.length_cons] at hK
    rw [List.map_cons, List.sum_cons] at hfit
    have h0 : 0 ≤ (l.map fun p => T p + 2 * tiny).sum := by
      refine List.sum_nonneg fun y hy => ?_
      obtain ⟨p', hp', rfl⟩ := List.mem_map.1 hy
      have := (norm_nonneg _).trans (ht p' (by simp [hp'])).2
      linarith
    obtain ⟨o1, p1⟩ := addR_ok M h ((ht p (by simp)).mono hu hq) (by omega) (by linarith)
    obtain ⟨x, h1, h2⟩ := foldlR_close M l (fun p hp => hf p (by simp [hp])) (fun p hp => ht p (by simp [hp])) (q + 1) _ _ _ (by omega) (by omega) p1
      (by linarith)
    refine ⟨x, by rw [List.foldl_cons, hf p (by simp), o1]; exact h1, ?_⟩
    refine approxC_congr h2 ?_ ?_ ?_
    · rw [List.length_cons]; ring
    · rw [List.map_cons, List.sum_cons, add_assoc]
    · rw [List.map_cons, List.sum_cons]; ring

/-! ### The normal-ordered coefficients -/

theorem hNoValueR_close (M : Machine rnd fl u tiny huge K) {N L : ℕ} {ev' ev : ℕ → ℕ → ℝ} (hev : ∀ a < N, ∀ b < N, ApproxR u L (ev' a b) (ev a b) 1)
    (hK : L + 3 + N * N ≤ K) (h : List ℂ) (hh : h.length = (basis3 N).length) {i : ℕ} (hi : i < N)
    (hfit : 3 * (‖h.getD i 0‖ + ∑ j ∈ Finset.range N, ∑ k ∈ Finset.range N, (3 * ‖h.getD (N + N * N * i + N * j + k) 0‖ + 4 * tiny)) ≤ huge) :
    ∃ x, hNoValueR rnd (siteEv ev') (basis3 N) h N i = .val x ∧
      ApproxC u (L + 3 + N * N) x (Ieompp.Spec.normalOrderedCoefficient ev N (fun p => h.getD p 0) i)
        (‖h.getD i 0‖ + ∑ j ∈ Finset.range N, ∑ k ∈ Finset.range N, (3 * ‖h.getD (N + N * N * i + N * j + k) 0‖ + 4 * tiny)) := by
  have hu := M.nonneg
  have htn := M.tiny_nonneg
  have hlen : h.length = N + N * N * N := by rw [hh, (realBasis_size N).2]
  have hlt : ∀ j < N, ∀ k < N, get3opIndex N i j k < h.length := by
    intro j hj k hk
    rw [hlen]; exact ((realBasis_index_bijective N).1 i j k hi hj hk).2
  unfold hNoValueR
  rw [getD_val (by omega)]
  have hmem : ∀ {j k : ℕ}, (j, k) ∈ ((List.range N).flatMap fun j => (List.range N).map fun k => (j, k)) → j < N ∧ k < N := by
    intro j k hjk
    simp only [List.mem_flatMap, List.mem_map, List.mem_range, Prod.mk.injEq] at hjk
    obtain ⟨j', h1, k', h2, rfl, rfl⟩ := hjk
    exact ⟨h1, h2⟩
  have hl : ((List.range N).flatMap fun j => (List.range N).map fun k => (j, k)).length = N * N := by
    simp [List.length_flatMap]
  have hsum : ∀ {M : Type} [AddCommMonoid M] (F : ℕ → ℕ → M), (((List.range N).flatMap fun j => (List.range N).map fun k => (j, k)).map
      fun jk : ℕ × ℕ => F jk.1 jk.2).sum = ∑ j ∈ Finset.range N, ∑ k ∈ Finset.range N, F j k := by
    intro M _ F
    rw [List.map_flatMap, sum_flatMap, ← List.sum_toFinset _ List.nodup_range, List.toFinset_range]
    refine Finset.sum_congr rfl fun j _ => ?_
    rw [List.map_map, ← List.sum_toFinset _ List.nodup_range, List.toFinset_range]; rfl
  have hone : ∀ j < N, ∀ k < N, 3 * (3 * ‖h.getD (get3opIndex N i j k) 0‖) ≤ huge := by
    intro j hj k hk
    have s1 : 3 * ‖h.getD (N + N * N * i + N * j + k) 0‖ + 4 * tiny ≤ ∑ k ∈ Finset.range N, (3 * ‖h.getD (N + N * N * i + N * j + k) 0‖ + 4 * tiny) :=
      Finset.single_le_sum (f := fun k => 3 * ‖h.getD (N + N * N * i + N * j + k) 0‖ + 4 * tiny) (fun _ _ => by positivity) (Finset.mem_range.2 hk)
    have s2 : ∑ k ∈ Finset.range N, (3 * ‖h.getD (N + N * N * i + N * j + k) 0‖ + 4 * tiny) ≤
        ∑ j ∈ Finset.range N, ∑ k ∈ Finset.range N, (3 * ‖h.getD (N + N * N * i + N * j + k) 0‖ + 4 * tiny) :=
      Finset.single_le_sum (f := fun j => ∑ k ∈ Finset.range N, (3 * ‖h.getD (N + N * N * i + N * j + k) 0‖ + 4 * tiny))
        (fun _ _ => Finset.sum_nonneg fun _ _ => by positivity) (Finset.mem_range.2 hj)
    have : get3opIndex N i j k = N + N * N * i + N * j + k := rfl
    rw [this]
    have := norm_nonneg (h.getD i 0)
    linarith
  have hpre : ∀ j k, ∃ x, j < N → k < N → prefactorR rnd (j = k) (ev' j k) = .val x ∧ ApproxR u (L + 2) x (2 * ev j k - if j = k then 1 else 0) 3 := by
    intro j k
    by_cases hjk : j < N ∧ k < N
    · obtain ⟨x, e1, e2⟩ := prefactorR_ok M (hev j hjk.1 k hjk.2) (by omega) (j = k)
      exact ⟨x, fun _ _ => ⟨e1, e2⟩⟩
    · exact ⟨0, fun a b => absurd ⟨a, b⟩ hjk⟩
  choose pre hpre using hpre
  have h3 : ((List.range N).flatMap fun j => (List.range N).map fun k => (j, k)).map
      (fun jk : ℕ × ℕ => (3 * ‖h.getD (get3opIndex N i jk.1 jk.2) 0‖ + 2 * tiny) + 2 * tiny) =
      ((List.range N).flatMap fun j => (List.range N).map fun k => (j, k)).map
      (fun jk : ℕ × ℕ => 3 * ‖h.getD (get3opIndex N i jk.1 jk.2) 0‖ + 4 * tiny) := List.map_congr_left fun _ _ => by ring
  have h4 := hsum (fun j k => 3 * ‖h.getD (get3opIndex N i j k) 0‖ + 4 * tiny)
  obtain ⟨x, h1, h2⟩ := foldlR_close M (k := L + 3)
    (f := fun acc jk => acc.bind fun x =>
      (opAt (basis3 N) jk.1 0).bind fun oj => (opAt (basis3 N) jk.2 0).bind fun ok =>
      (prefactorR rnd (jk.1 = jk.2) (siteEv ev' oj ok)).bind fun prefactor =>
      (vecAt h (get3opIndex N i jk.1 jk.2)).bind fun hh => (scaleR rnd prefactor hh).bind fun t => addR rnd x t)
    (t' := fun jk : ℕ × ℕ => scaleC fl (pre jk.1 jk.2) (h.getD (get3opIndex N i jk.1 jk.2) 0))
    (t := fun jk : ℕ × ℕ => (((2 * ev jk.1 jk.2 - if jk.1 = jk.2 then 1 else 0 : ℝ)) : ℂ) * h.getD (get3opIndex N i jk.1 jk.2) 0)
    (T := fun jk : ℕ × ℕ => 3 * ‖h.getD (get3opIndex N i jk.1 jk.2) 0‖ + 2 * tiny)
    ((List.range N).flatMap fun j => (List.range N).map fun k => (j, k)) (by
      rintro ⟨j, k⟩ hjk x
      obtain ⟨hj, hk⟩ := hmem hjk
      have o1 : opAt (basis3 N) j 0 = .val ⟨true, (j, true)⟩ := by
        rw [opAt, vecAt_get (one_cases hj)]; rfl
      have o2 : opAt (basis3 N) k 0 = .val ⟨true, (k, true)⟩ := by
        rw [opAt, vecAt_get (one_cases hk)]; rfl
      obtain ⟨e1, e2⟩ := hpre j k hj hk
      obtain ⟨e3, -⟩ := scaleR_ok M e2 (h.getD (get3opIndex N i j k) 0) (by omega) (hone j hj k hk)
      have o3 : siteEv ev' (⟨true, (j, true)⟩ : HOp) ⟨true, (k, true)⟩ = ev' j k := rfl
      simp only [o1, o2, Res.bind_val, getD_val (hlt j hj k hk), o3, e1, e3]) (by
      rintro ⟨j, k⟩ hjk
      obtain ⟨hj, hk⟩ := hmem hjk
      obtain ⟨e1, e2⟩ := hpre j k hj hk
      exact (scaleR_ok M e2 (h.getD (get3opIndex N i j k) 0) (by omega) (hone j hj k hk)).2) (L + 3) _ _ _ le_rfl
    (by rw [hl]; omega) ((approxC_exact (h.getD i 0)).mono hu (by omega)) (by rw [h3, h4]; exact hfit)
  refine ⟨x, h1, ?_⟩
  rw [hl, hsum (fun j k => (((2 * ev j k - if j = k then 1 else 0 : ℝ)) : ℂ) * h.getD (get3opIndex N i j k) 0), h3, h4] at h2
  exact h2

/-! ### The sum -/

/-- From the amplitude to its absolute square. -/
theorem normR_close (M : Machine rnd fl u tiny huge K) (hpos : ∀ x y, 0 ≤ x → rnd x = .val y → 0 ≤ y) {k : ℕ} {R Z : ℂ} {A : ℝ} (h : ApproxC u k R Z A)
    (hK : k + 1 ≤ K) (hfit : 27 * A ^ 2 + 6 * tiny ≤ huge) :
    ∃ x, normR rnd R = .val x ∧ 0 ≤ x ∧ |x - ‖Z‖ ^ 2| ≤ ((1 + u) ^ (2 * k + 2) - 1) * (A ^ 2 + 2 * tiny) := by
  have hu := M.nonneg
  have ht := M.tiny_nonneg
  have hA : 0 ≤ A := (norm_nonneg _).trans h.2
  have h2 := RealSpace.approxC_le h
  have h2' : ‖R‖ ≤ 3 * A := h2.trans (mul_le_mul_of_nonneg_right (M.pow_le (by omega)) hA)
  have h9 : ‖R‖ * ‖R‖ ≤ 9 * A ^ 2 := (mul_le_mul h2' h2' (norm_nonneg _) (by positivity)).trans (le_of_eq (by ring))
  obtain ⟨o1, o2, o3, p⟩ := products_ok M (by omega) (abs_components_le R R) (by linarith)
  refine ⟨fl (fl (R.re * R.re) + fl (R.im * R.im)), by unfold normR; simp only [o1, o2, o3, Res.bind_val], ?_, ?_⟩
  · exact hpos _ _ (add_nonneg (hpos _ _ (mul_self_nonneg _) o1) (hpos _ _ (mul_self_nonneg _) o2)) o3
  · have h1 := p.1
    have hn : R.re * R.re + R.im * R.im = ‖R‖ ^ 2 := by rw [Complex.sq_norm, Complex.normSq_apply]
    rw [hn, ← sq ‖R‖] at h1
    have h3 : ‖R‖ ^ 2 ≤ (1 + u) ^ (2 * k) * A ^ 2 := by
      refine (pow_le_pow_left₀ (norm_nonneg _) h2 2).trans (le_of_eq ?_)
      rw [mul_pow, ← pow_mul, mul_comm k]
    have h4 : |‖R‖ ^ 2 - ‖Z‖ ^ 2| ≤ ((1 + u) ^ (2 * k) - 1) * A ^ 2 := by
      rw [show ‖R‖ ^ 2 - ‖Z‖ ^ 2 = (‖R‖ - ‖Z‖) * (‖R‖ + ‖Z‖) by ring, abs_mul, abs_of_nonneg (a := ‖R‖ + ‖Z‖) (by positivity)]
      have e : ((1 + u) ^ (2 * k) - 1) * A ^ 2 = (((1 + u) ^ k - 1) * A) * ((1 + u) ^ k * A + A) := by
        rw [mul_comm 2 k, pow_mul]; ring
      rw [e]
      exact mul_le_mul ((abs_norm_sub_norm_le _ _).trans h.1) (add_le_add h2 h.2) (by positivity) ((norm_nonneg _).trans h.1)
    have h5 := abs_sub_le (fl (fl (R.re * R.re) + fl (R.im * R.im))) (‖R‖ ^ 2) (‖Z‖ ^ 2)
    have p2 : 0 ≤ (1 + u) ^ 2 - 1 := sub_nonneg.2 (one_le_pow₀ (by linarith))
    have h6 := mul_le_mul_of_nonneg_left h3 p2
    have h7 : ((1 + u) ^ 2 - 1) * (2 * tiny) ≤ ((1 + u) ^ (2 * k + 2) - 1) * (2 * tiny) := by
      refine mul_le_mul_of_nonneg_right ?_ (by positivity)
      have := pow_le_pow_right₀ (a := 1 + u) (by linarith) (show 2 ≤ 2 * k + 2 by omega)
      linarith
    have e : ((1 + u) ^ (2 * k + 2) - 1) * (A ^ 2 + 2 * tiny) = ((1 + u) ^ 2 - 1) * ((1 + u) ^ (2 * k) * A ^ 2) + ((1 + u) ^ (2 * k) - 1) * A ^ 2 +
        ((1 + u) ^ (2 * k + 2) - 1) * (2 * tiny) := by
      rw [pow_add]; ring
    rw [mul_add] at h1
    linarith

/-- The final loop with coefficients that are themselves approximations. -/
theorem jumpSumR_close (M : Machine rnd fl u tiny huge K) (hpos : ∀ x y, 0 ≤ x → rnd x = .val y → 0 ≤ y) {N k l : ℕ} {f h : List ℂ} (hf : N ≤ f.length)
    (hh : N ≤ h.length) {F H : ℕ → ℂ} {B : ℕ → ℝ} (hF : ∀ i < N, ApproxC u k (f.getD i 0) (F i) 1) (hH : ∀ i < N, ApproxC u l (h.getD i 0) (H i) (B i))
    {threads : ℕ} {s : List Event} (hs : Executes threads (jumpPairs N) s) (hK : k + l + 4 + N + threads + 1 ≤ K) {A : ℝ}
    (hA : ∑ i ∈ Finset.range N, B i + (5 * N + 2 * threads : ℕ) * tiny ≤ A) (hfit1 : 7 * A ≤ huge) (hfit2 : 27 * A ^ 2 + 6 * tiny ≤ huge) :
    ∃ x, jumpSumR rnd f h threads s = .val x ∧ 0 ≤ x ∧
      |x - ‖∑ i ∈ Finset.range N, F i * H i‖ ^ 2| ≤ ((1 + u) ^ (2 * (k + l + 4 + N + threads) + 2) - 1) * (A ^ 2 + 2 * tiny) := by
  have hu := M.nonneg
  have ht := M.tiny_nonneg
  have hB : ∀ i < N, 0 ≤ B i := fun i hi => (norm_nonneg _).trans (hH i hi).2
  have hterm : ∀ i < N, mulR rnd (f.getD i 0) (h.getD i 0) = .val (mulC fl (f.getD i 0) (h.getD i 0)) ∧
      ApproxC u (k + l + 4) (mulC fl (f.getD i 0) (h.getD i 0)) (F i * H i) (B i + 3 * tiny) := by
    intro i hi
    have h1 : B i ≤ ∑ i ∈ Finset.range N, B i := Finset.single_le_sum (fun j hj => hB j (Finset.mem_range.1 hj)) (Finset.mem_range.2 hi)
    have h2 : 3 * tiny ≤ (5 * N + 2 * threads : ℕ) * tiny := by
      refine mul_le_mul_of_nonneg_right ?_ ht
      exact_mod_cast (by omega : 3 ≤ 5 * N + 2 * threads)
    have := mulR_ok M (hF i hi) (hH i hi) (by omega) (by rw [one_mul]; linarith)
    rwa [one_mul] at this
  have e1 : ((jumpPairs N).map fun p => F p.1 * H p.1).sum = ∑ i ∈ Finset.range N, F i * H i := by
    rw [jumpPairs, List.map_map, ← List.sum_toFinset _ List.nodup_range, List.toFinset_range]; rfl
  have e2 : ((jumpPairs N).map fun p => B p.1 + 3 * tiny).sum = ∑ i ∈ Finset.range N, B i + 3 * N * tiny := by
    rw [jumpPairs, List.map_map]
    have : ((fun p : ℕ × ℕ => B p.1 + 3 * tiny) ∘ fun i => (i, 0)) = fun i => B i + 3 * tiny := rfl
    rw [this, ← List.sum_toFinset _ List.nodup_range, List.toFinset_range, Finset.sum_add_distrib, Finset.sum_const, Finset.card_range, nsmul_eq_mul]
    ring
  have e3 : ∑ i ∈ Finset.range N, B i + 3 * N * tiny + 2 * (N + threads : ℕ) * tiny ≤ A := by
    refine le_of_eq_of_le ?_ hA
    push_cast; ring
  have hS0 : 0 ≤ ∑ i ∈ Finset.range N, B i := Finset.sum_nonneg fun j hj => hB j (Finset.mem_range.1 hj)
  have hA0 : 0 ≤ A := le_trans (by positivity) e3
  obtain ⟨r, z, h1, h2, h3⟩ := parallelR_close M (threads := threads) (k0 := k + l + 4) (count := N)
    [⟨fun i _ => (vecAt f i).bind fun fi => (vecAt h i).bind fun vi => mulR rnd fi vi, fun i _ => F i * H i, fun i _ => B i + 3 * tiny, jumpPairs N, s⟩]
    (by
      intro x hx
      rw [List.mem_singleton] at hx
      subst hx
      exact hs) (by
      intro x hx
      rw [List.mem_singleton] at hx
      subst hx
      intro p hp
      simp only [jumpPairs, List.mem_map, List.mem_range] at hp
      obtain ⟨i, hi, rfl⟩ := hp
      refine ⟨_, ?_, (hterm i hi).2⟩
      simp only [getD_val (show i < f.length by omega), getD_val (show i < h.length by omega), Res.bind_val, (hterm i hi).1])
    (S := ∑ i ∈ Finset.range N, F i * H i) (A := ∑ i ∈ Finset.range N, B i + 3 * N * tiny) (by simpa using e1) (by simpa using e2)
    (by simp [jumpPairs]) (by omega) (by linarith)
  obtain ⟨x, h4, h5, h6⟩ := normR_close M hpos (approxC_weaken hu h3 e3) (by omega) hfit2
  refine ⟨x, ?_, h5, h6⟩
  simp only [List.map_cons, List.map_nil, runLoopsR] at h1
  unfold jumpSumR
  cases hq : runLoopR rnd (fun i _ => (vecAt f i).bind fun fi => (vecAt h i).bind fun vi => mulR rnd fi vi) s (List.replicate threads 0) with
  | val r' =>
    rw [hq, Res.bind_val, Res.val.injEq] at h1
    rw [Res.bind_val, h1, h2, Res.bind_val, h4]
  | ub => rw [hq] at h1; cases h1
  | diverges => rw [hq] at h1; cases h1

/-- `obs = fermi_jump(h)`: no operation overflows, and the result does not depend on what the static vector contains. -/
theorem jumpCallR_close (M : Machine rnd fl u tiny huge K) (hpos : ∀ x y, 0 ≤ x → rnd x = .val y → 0 ≤ y) {N k L : ℕ} {f : List ℂ} (hf : f.length = N)
    {phase : ℕ → ℝ} (hF : ∀ i < N, ApproxC u k (f.getD i 0) (Complex.exp (Complex.I * phase i)) 1) {ev' ev : ℕ → ℕ → ℝ}
    (hev : ∀ a < N, ∀ b < N, ApproxR u L (ev' a b) (ev a b) 1) (h : List ℂ) (hh : h.length = (basis3 N).length) {threads : ℕ}
    {s1 : List ℕ} (hs1 : s1.Perm (List.range N)) {s2 : List Event} (hs2 : Executes threads (jumpPairs N) s2)
    (hK : k + (L + 3 + N * N) + 4 + N + threads + 1 ≤ K) {A : ℝ}
    (hA : 3 * ∑ p ∈ Finset.range (N + N * N * N), ‖h.getD p 0‖ + (4 * (N * N * N) + 5 * N + 2 * threads : ℕ) * tiny ≤ A) (hfit1 : 7 * A ≤ huge)
    (hfit2 : 27 * A ^ 2 + 6 * tiny ≤ huge) :
    ∃ x, (∀ st : Option (List ℂ), (∀ v ∈ st, v.length = N) → ∃ w : List ℂ, w.length = N ∧
        jumpCallR rnd (siteEv ev') (basis3 N) h N f threads s1 s2 st = .val (some w, x)) ∧ 0 ≤ x ∧
      |x - Ieompp.Spec.fermiJump ev N phase (fun p => h.getD p 0)| ≤ ((1 + u) ^ (2 * (k + (L + 3 + N * N) + 4 + N + threads) + 2) - 1) *
        (A ^ 2 + 2 * tiny) := by
  have hu := M.nonneg
  have ht := M.tiny_nonneg
  set B : ℕ → ℝ := fun i => ‖h.getD i 0‖ + ∑ j ∈ Finset.range N, ∑ k ∈ Finset.range N, (3 * ‖h.getD (N + N * N * i + N * j + k) 0‖ + 4 * tiny) with hB
  have hB0 : ∀ i ∈ Finset.range N, 0 ≤ B i := fun i _ => by
    rw [hB]
    exact add_nonneg (norm_nonneg _) (Finset.sum_nonneg fun _ _ => Finset.sum_nonneg fun _ _ => by positivity)
  have hBs : ∑ i ∈ Finset.range N, B i ≤ 3 * ∑ p ∈ Finset.range (N + N * N * N), ‖h.getD p 0‖ + (4 * (N * N * N) : ℕ) * tiny := by
    have h1 := jumpTerms_le N fun p => h.getD p 0
    have h2 : ∑ i ∈ Finset.range N, B i = ∑ i ∈ Finset.range N, (‖h.getD i 0‖ + ∑ j ∈ Finset.range N, ∑ k ∈ Finset.range N,
        3 * ‖h.getD (N + N * N * i + N * j + k) 0‖) + (4 * (N * N * N) : ℕ) * tiny := by
      simp only [hB, Finset.sum_add_distrib, Finset.sum_const, Finset.card_range, nsmul_eq_mul]
      push_cast; ring
    rw [h2]
    linarith
  have hBA : ∑ i ∈ Finset.range N, B i + (5 * N + 2 * threads : ℕ) * tiny ≤ A := by
    refine le_trans ?_ hA
    push_cast at hBs ⊢
    linarith
  have hct : (0 : ℝ) ≤ (5 * N + 2 * threads : ℕ) * tiny := by positivity
  have hA0 : 0 ≤ A := le_trans (by have := Finset.sum_nonneg hB0; linarith) hBA
  have hno := fun (i : ℕ) (hi : i < N) => hNoValueR_close M hev (by omega) h hh hi (by
    have := Finset.single_le_sum hB0 (Finset.mem_range.2 hi)
    simp only [hB] at this hBA
    linarith)
  choose! g hg hg' using hno
  obtain ⟨x, hx, hx0, hxe⟩ := jumpSumR_close M hpos (N := N) (f := f) (h := (List.range N).map g) (by omega) (by simp)
    (F := fun i => Complex.exp (Complex.I * phase i)) (H := Ieompp.Spec.normalOrderedCoefficient ev N fun p => h.getD p 0) (B := B) hF (by
      intro i hi
      have : ((List.range N).map g).getD i 0 = g i := by simp [List.getD_eq_getElem?_getD, hi]
      rw [this]; exact hg' i hi) hs2 hK hBA hfit1 hfit2
  refine ⟨x, fun st hst => ?_, hx0, hxe⟩
  have hlen : (st.getD (List.replicate N 0)).length = N := by
    cases st with
    | none => simp
    | some v => exact hst v rfl
  obtain ⟨w, e1, e2, e3⟩ := storeLoop_ok (f := hNoValueR rnd (siteEv ev') (basis3 N) h N) (g := g) s1 (st.getD (List.replicate N 0))
    (fun i hi => by
      have hi' : i < N := by simpa using hs1.mem_iff.1 hi
      exact ⟨hg i hi', by omega⟩)
  have hw : w = (List.range N).map g := by
    apply List.ext_getElem?
    intro i
    rw [e3 i, hlen]
    by_cases hi : i < N
    · rw [if_pos ⟨hs1.mem_iff.2 (List.mem_range.2 hi), hi⟩]; simp [hi]
    · rw [if_neg fun c => hi c.2, List.getElem?_eq_none (by omega), List.getElem?_eq_none (by simp; omega)]
  refine ⟨w, by rw [e2, hlen], ?_⟩
  unfold jumpCallR
  simp only
  rw [e1, Res.bind_val, hw, hx]; rfl

/-! ### The Fourier coefficients -/

theorem jumpCtorR_ok {N : ℕ} {phaseR : ℕ → Res ℝ} {phase : ℕ → ℝ} (h : ∀ i < N, phaseR i = .val (phase i)) {sched : List ℕ} (hs : sched.Perm (List.range N)) :
    jumpCtorR sinF cosF N phaseR sched = .val ((List.range N).map (phaseFactorF sinF cosF phase)) := by
  obtain ⟨w, e1, e2, e3⟩ := storeLoop_ok (f := fun i => (phaseR i).bind fun prod => .val ⟨cosF prod, sinF prod⟩) (g := phaseFactorF sinF cosF phase) sched
    (List.replicate N 0) (fun i hi => by
      have hi' : i < N := by simpa using hs.mem_iff.1 hi
      exact ⟨by rw [h i hi', Res.bind_val]; rfl, by simpa using hi'⟩)
  rw [jumpCtorR, e1]
  congr 1
  apply List.ext_getElem?
  intro i
  rw [e3 i]
  by_cases hi : i < N
  · rw [if_pos ⟨hs.mem_iff.2 (List.mem_range.2 hi), by simpa using hi⟩]; simp [hi]
  · rw [if_neg (fun c => hi (by simpa using c.2))]; simp [hi]

end Ieompp.IEEE
