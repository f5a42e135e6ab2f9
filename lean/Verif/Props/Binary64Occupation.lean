import Verif.Props.Binary64Table

/-! # C118, second part: the measured site occupation with underflow and overflow -/

set_option autoImplicit false
set_option linter.unusedSectionVars false

namespace Ieompp.IEEE

open Ieompp.Spec ODE RealSpace
open MomentumSpace (vecAt)
open ComplexConjugate

variable {rnd : ℝ → Res ℝ} {fl sinF : ℝ → ℝ} {u tiny huge : ℝ} {K : ℕ}

/-! ### The terms -/

theorem product_ok (M : Machine rnd fl u tiny huge K) (x y : ℝ) (h : 3 * (|x| * |y| + tiny) ≤ huge) :
    rnd (x * y) = .val (fl (x * y)) ∧ ApproxR u 1 (fl (x * y)) (x * y) (|x| * |y| + tiny) := by
  have ht := M.tiny_nonneg
  refine M.round ((ApproxR.exact (u := u) (x * y)).mono M.nonneg le_rfl (by rw [abs_mul]; linarith)) (Nat.zero_le K) ⟨?_, h⟩
  have : 0 ≤ |x| * |y| := by positivity
  linarith

/-- The scalar product of two complex numbers, and of the first with the second turned by a right angle. -/
theorem products_ok (M : Machine rnd fl u tiny huge K) (hK : 1 ≤ K) {a b c d P : ℝ} (hP : |a| * |b| + |c| * |d| ≤ P) (hfit : 3 * (P + 2 * tiny) ≤ huge) :
    rnd (a * b) = .val (fl (a * b)) ∧ rnd (c * d) = .val (fl (c * d)) ∧ rnd (fl (a * b) + fl (c * d)) = .val (fl (fl (a * b) + fl (c * d))) ∧
      ApproxR u 2 (fl (fl (a * b) + fl (c * d))) (a * b + c * d) (P + 2 * tiny) := by
  have ht := M.tiny_nonneg
  have h1 : 0 ≤ |a| * |b| := by positivity
  have h2 : 0 ≤ |c| * |d| := by positivity
  obtain ⟨e1, p1⟩ := product_ok M a b (by linarith)
  obtain ⟨e2, p2⟩ := product_ok M c d (by linarith)
  have p3 := (ApproxR.add' rfl p1 p2).mono M.nonneg le_rfl (show _ ≤ P + 2 * tiny by linarith)
  obtain ⟨e3, p4⟩ := M.round p3 hK ⟨by linarith, hfit⟩
  exact ⟨e1, e2, e3, p4⟩

theorem approxC_congr {k k' : ℕ} {x y z : ℂ} {A B : ℝ} (h : ApproxC u k x y A) (hk : k = k') (hy : y = z) (hA : A = B) : ApproxC u k' x z B := by
  subst hk hy hA; exact h

theorem approxC_weaken (hu : 0 ≤ u) {k : ℕ} {x y : ℂ} {A B : ℝ} (h : ApproxC u k x y A) (hA : A ≤ B) : ApproxC u k x y B := by
  refine ⟨h.1.trans (mul_le_mul_of_nonneg_left hA ?_), h.2.trans hA⟩
  have := one_le_pow₀ (a := 1 + u) (n := k) (by linarith)
  linarith

section Terms
variable {basis cb : List HMonomial} {vec : List ℂ} {f : HMonomial → HMonomial → Res ℝ} {i j k : ℕ} {E e' B : ℝ}

theorem symTermR_close (M : Machine rnd fl u tiny huge K) (hk : k + 5 ≤ K) (he : evAt basis cb f i j = .val e') (hE : ApproxR u k e' (2 * E) (2 * B)) (hB : 1 ≤ B)
    (hi : i < vec.length) (hj : j < vec.length) (hfit : 12 * (B * (‖vec.getD i 0‖ * ‖vec.getD j 0‖ + 2 * tiny)) ≤ huge) :
    ∃ x, symTermR rnd basis cb vec f i j = .val x ∧
      ApproxC u (k + 5) x (vec.getD i 0 * conj (vec.getD j 0) * (E : ℂ) + vec.getD j 0 * conj (vec.getD i 0) * (E : ℂ))
        (B * ‖vec.getD i 0‖ * ‖vec.getD j 0‖ + B * ‖vec.getD j 0‖ * ‖vec.getD i 0‖ + 4 * B * tiny) := by
  have ht := M.tiny_nonneg
  set a := vec.getD i 0 with ha
  set b := vec.getD j 0 with hb
  have hn : 0 ≤ ‖a‖ * ‖b‖ := by positivity
  have hB1 : ‖a‖ * ‖b‖ + 2 * tiny ≤ B * (‖a‖ * ‖b‖ + 2 * tiny) := le_mul_of_one_le_left (by linarith) hB
  obtain ⟨o1, o2, o3, p1⟩ := products_ok M (by omega) (abs_components_le a b) (by linarith)
  obtain ⟨o4, p2⟩ := M.const_mul (c := 2) (by norm_num) p1 (by omega) ⟨by linarith, by linarith⟩
  have hfit4 : 3 * (2 * B * (2 * (‖a‖ * ‖b‖ + 2 * tiny))) ≤ huge := by
    have : 3 * (2 * B * (2 * (‖a‖ * ‖b‖ + 2 * tiny))) = 12 * (B * (‖a‖ * ‖b‖ + 2 * tiny)) := by ring
    linarith
  have hpos : tiny ≤ 2 * B * (2 * (‖a‖ * ‖b‖ + 2 * tiny)) / 2 := by
    have : 2 * B * (2 * (‖a‖ * ‖b‖ + 2 * tiny)) / 2 = 2 * (B * (‖a‖ * ‖b‖ + 2 * tiny)) := by ring
    linarith
  obtain ⟨o5, p3⟩ := M.mul hE p2 (by omega) ⟨by linarith, hfit4⟩
  obtain ⟨o6, p4⟩ := M.half p3 (by omega) ⟨hpos, by linarith⟩
  refine ⟨_, ?_, approxC_congr p4.toC ?_ ?_ ?_⟩
  · unfold symTermR addConjugateProductsR
    simp only [he, getD_val hi, getD_val hj, Res.bind_val, ← ha, ← hb, o1, o2, o3, o4, o5, o6]
  · ring
  · apply Complex.ext
    · simp; ring
    · simp; ring
  · ring

theorem diagTermR_close (M : Machine rnd fl u tiny huge K) (hk : k + 5 ≤ K) (he : evAt basis cb f i i = .val e') (hE : ApproxR u k e' (2 * E) (2 * B)) (hB : 1 ≤ B)
    (hi : i < vec.length) (hfit : 12 * (B * (‖vec.getD i 0‖ * ‖vec.getD i 0‖ + 2 * tiny)) ≤ huge) :
    ∃ x, diagTermR rnd basis cb vec f i = .val x ∧
      ApproxC u (k + 5) x (vec.getD i 0 * conj (vec.getD i 0) * (E : ℂ)) (B * ‖vec.getD i 0‖ * ‖vec.getD i 0‖ + 4 * B * tiny) := by
  have ht := M.tiny_nonneg
  set a := vec.getD i 0 with ha
  have hn : 0 ≤ ‖a‖ * ‖a‖ := by positivity
  have hB1 : ‖a‖ * ‖a‖ + 2 * tiny ≤ B * (‖a‖ * ‖a‖ + 2 * tiny) := le_mul_of_one_le_left (by linarith) hB
  obtain ⟨o1, o2, o3, p1⟩ := products_ok M (by omega) (abs_components_le a a) (by linarith)
  have hpos : tiny ≤ 2 * B * (‖a‖ * ‖a‖ + 2 * tiny) / 2 := by
    have : 2 * B * (‖a‖ * ‖a‖ + 2 * tiny) / 2 = B * (‖a‖ * ‖a‖ + 2 * tiny) := by ring
    linarith
  obtain ⟨o5, p3⟩ := M.mul hE p1 (by omega) ⟨by linarith, by linarith⟩
  obtain ⟨o6, p4⟩ := M.half p3 (by omega) ⟨hpos, by linarith⟩
  have h := (p4.mono M.nonneg (show _ ≤ k + 5 by omega) (show _ ≤ B * ‖a‖ * ‖a‖ + 4 * B * tiny by
    have : 0 ≤ B * tiny := by positivity
    have : 2 * B * (‖a‖ * ‖a‖ + 2 * tiny) / 2 = B * ‖a‖ * ‖a‖ + 2 * (B * tiny) := by ring
    linarith)).toC
  refine ⟨_, ?_, approxC_congr h rfl ?_ rfl⟩
  · unfold diagTermR normR
    simp only [he, getD_val hi, Res.bind_val, ← ha, o1, o2, o3, o5, o6]
  · rw [Complex.mul_conj, ← Complex.normSq_apply]; push_cast; ring

theorem fullTermR_close (M : Machine rnd fl u tiny huge K) (hk : k + 5 ≤ K) (he : evAt basis cb f i j = .val e') (hE : ApproxR u k e' (2 * E) (2 * B)) (hB : 1 ≤ B)
    (hi : i < vec.length) (hj : j < vec.length) (hfit : 12 * (B * (‖vec.getD i 0‖ * ‖vec.getD j 0‖ + 2 * tiny)) ≤ huge) :
    ∃ x, fullTermR rnd basis cb vec f i j = .val x ∧
      ApproxC u (k + 5) x (vec.getD i 0 * conj (vec.getD j 0) * (E : ℂ)) (2 * B * ‖vec.getD i 0‖ * ‖vec.getD j 0‖ + 4 * B * tiny) := by
  have ht := M.tiny_nonneg
  have hu := M.nonneg
  set a := vec.getD i 0 with ha
  set b := vec.getD j 0 with hb
  have hn : 0 ≤ ‖a‖ * ‖b‖ := by positivity
  have hB1 : ‖a‖ * ‖b‖ + 2 * tiny ≤ B * (‖a‖ * ‖b‖ + 2 * tiny) := le_mul_of_one_le_left (by linarith) hB
  have c2 : |-a.re| * |b.im| + |b.re| * |a.im| ≤ ‖a‖ * ‖b‖ := by
    have := abs_components_le a (⟨b.im, b.re⟩ : ℂ)
    have e : ‖(⟨b.im, b.re⟩ : ℂ)‖ = ‖b‖ := by
      rw [Complex.norm_def, Complex.norm_def, Complex.normSq_apply, Complex.normSq_apply]; congr 1; simp; ring
    rw [e] at this
    simp only at this
    rw [abs_neg]
    linarith [mul_comm |b.re| |a.im|]
  obtain ⟨o1, o2, o3, p1⟩ := products_ok M (by omega) (abs_components_le a b) (by linarith)
  obtain ⟨o1', o2', o3', p1'⟩ := products_ok M (by omega) c2 (by linarith)
  have hpos : tiny ≤ 2 * B * (‖a‖ * ‖b‖ + 2 * tiny) / 2 := by
    have : 2 * B * (‖a‖ * ‖b‖ + 2 * tiny) / 2 = B * (‖a‖ * ‖b‖ + 2 * tiny) := by ring
    linarith
  obtain ⟨o5, p3⟩ := M.mul hE p1 (by omega) ⟨by linarith, by linarith⟩
  obtain ⟨o6, p4⟩ := M.half p3 (by omega) ⟨hpos, by linarith⟩
  obtain ⟨o5', p3'⟩ := M.mul hE p1' (by omega) ⟨by linarith, by linarith⟩
  obtain ⟨o6', p4'⟩ := M.half p3' (by omega) ⟨hpos, by linarith⟩
  replace p4 := p4.mono hu (show _ ≤ k + 5 by omega) le_rfl
  replace p4' := p4'.mono hu (show _ ≤ k + 5 by omega) le_rfl
  generalize hx : fl (fl (e' * fl (fl (a.re * b.re) + fl (a.im * b.im))) / 2) = x at o6 p4
  generalize hy : fl (fl (e' * fl (fl (-a.re * b.im) + fl (b.re * a.im))) / 2) = y at o6' p4'
  refine ⟨⟨x, y⟩, ?_, ?_⟩
  · unfold fullTermR multiplyWithConjugateR scaleR
    simp only [he, getD_val hi, getD_val hj, Res.bind_val, ← ha, ← hb, o1, o2, o3, o1', o2', o3', o5, o6, o5', o6']
  · have hex : a * conj b * (E : ℂ) = ⟨2 * E * (a.re * b.re + a.im * b.im) / 2, 2 * E * (-a.re * b.im + b.re * a.im) / 2⟩ := by
      apply Complex.ext
      · simp; ring
      · simp; ring
    rw [hex]
    constructor
    · refine (Complex.norm_le_abs_re_add_abs_im _).trans ?_
      refine (add_le_add p4.1 p4'.1).trans (le_of_eq ?_)
      ring
    · refine (Complex.norm_le_abs_re_add_abs_im _).trans ((add_le_add p4.2 p4'.2).trans (le_of_eq ?_))
      ring

end Terms

/-! ### Sums -/

theorem addR_ok (M : Machine rnd fl u tiny huge K) {k : ℕ} {x' x y' y : ℂ} {A B : ℝ} (hx : ApproxC u k x' x A) (hy : ApproxC u k y' y B) (hk : k ≤ K)
    (hfit : 3 * (A + B) ≤ huge) :
    addR rnd x' y' = .val (addC fl x' y') ∧ ApproxC u (k + 1) (addC fl x' y') (x + y) (A + B + 2 * tiny) := by
  refine ⟨addR_eq M.agrees ?_, approxC_add M.gradual hx hy⟩
  have h1 := norm_add_le x' y'
  have h2 := approxC_le hx
  have h3 := approxC_le hy
  have hA : 0 ≤ A + B := add_nonneg ((norm_nonneg _).trans hx.2) ((norm_nonneg _).trans hy.2)
  have h4 := mul_le_mul_of_nonneg_right (M.pow_le hk) hA
  have : (1 + u) ^ k * (A + B) = (1 + u) ^ k * A + (1 + u) ^ k * B := by ring
  linarith

/-- The right-hand sides of a loop: `g` exact, `a` bounds. -/
def TermsOk (u : ℝ) (k : ℕ) (body : ℕ → ℕ → Res ℂ) (g : ℕ → ℕ → ℂ) (a : ℕ → ℕ → ℝ) (p : ℕ × ℕ) : Prop :=
  ∃ x, body p.1 p.2 = .val x ∧ ApproxC u k x (g p.1 p.2) (a p.1 p.2)

theorem runLoopR_close (M : Machine rnd fl u tiny huge K) {body : ℕ → ℕ → Res ℂ} {g : ℕ → ℕ → ℂ} {a : ℕ → ℕ → ℝ} {threads k0 : ℕ} :
    ∀ (s : List Event) (results : List ℂ) (S : ℕ → ℂ) (A : ℕ → ℝ) (k : ℕ), (∀ e ∈ s, TermsOk u k0 body g a e.2) → k0 ≤ k → k + s.length ≤ K →
      (∀ e ∈ s, e.1 < threads) → Close u threads k results S A →
      3 * (∑ t ∈ Finset.range threads, A t + (s.map fun e => a e.2.1 e.2.2 + 2 * tiny).sum) ≤ huge →
      ∃ r S' A', runLoopR rnd body s results = .val r ∧ Close u threads (k + s.length) r S' A' ∧
        ∑ t ∈ Finset.range threads, S' t = ∑ t ∈ Finset.range threads, S t + (s.map fun e => g e.2.1 e.2.2).sum ∧
        ∑ t ∈ Finset.range threads, A' t = ∑ t ∈ Finset.range threads, A t + (s.map fun e => a e.2.1 e.2.2 + 2 * tiny).sum := by
  intro s
  induction s with
  | nil => intro results S A k _ _ _ _ h _; exact ⟨results, S, A, rfl, by simpa using h, by simp, by simp⟩
  | cons e s ih =>
    intro results S A k hb hk0 hk ht hc hfit
    rw [List.length_cons] at hk
    rw [List.map_cons, List.sum_cons] at hfit
    have hu := M.nonneg
    have htn := M.tiny_nonneg
    obtain ⟨hlen, hinv⟩ := hc
    have he := ht e List.mem_cons_self
    obtain ⟨x, hx, hxa⟩ := hb e List.mem_cons_self
    have ha0 : 0 ≤ a e.2.1 e.2.2 := (norm_nonneg _).trans hxa.2
    have hA0 : ∀ t ∈ Finset.range threads, 0 ≤ A t := fun t h => (norm_nonneg _).trans (hinv t (Finset.mem_range.1 h)).2
    have hs0 : 0 ≤ (s.map fun e => a e.2.1 e.2.2 + 2 * tiny).sum := by
      refine List.sum_nonneg fun y hy => ?_
      obtain ⟨e', he', rfl⟩ := List.mem_map.1 hy
      obtain ⟨x', -, h'⟩ := hb e' (List.mem_cons_of_mem _ he')
      have := (norm_nonneg _).trans h'.2
      linarith
    have hAe : A e.1 ≤ ∑ t ∈ Finset.range threads, A t := Finset.single_le_sum hA0 (Finset.mem_range.2 he)
    set r0 := results.getD e.1 0 with hr0
    have hv : vecAt results e.1 = .val r0 := by
      apply vecAt_get
      rw [hr0, List.getD_eq_getElem?_getD, List.getElem?_eq_getElem (by omega)]; rfl
    obtain ⟨o1, p1⟩ := addR_ok M (k := k) (hinv e.1 he) (hxa.mono hu hk0) (by omega) (by linarith)
    rw [← hr0] at o1 p1
    have step : Close u threads (k + 1) (results.set e.1 (addC fl r0 x)) (Function.update S e.1 (S e.1 + g e.2.1 e.2.2))
        (Function.update A e.1 (A e.1 + (a e.2.1 e.2.2 + 2 * tiny))) := by
      refine ⟨by simpa using hlen, fun t htt => ?_⟩
      by_cases hte : t = e.1
      · subst hte
        rw [Function.update_self, Function.update_self, List.getD_eq_getElem?_getD, List.getElem?_set_self (by omega), Option.getD_some, ← add_assoc]
        exact p1
      · rw [Function.update_of_ne hte, Function.update_of_ne hte, List.getD_eq_getElem?_getD, List.getElem?_set_ne (Ne.symm hte),
          ← List.getD_eq_getElem?_getD]
        exact ApproxC.mono hu (Nat.le_succ k) (hinv t htt)
    have hA' : ∑ t ∈ Finset.range threads, Function.update A e.1 (A e.1 + (a e.2.1 e.2.2 + 2 * tiny)) t =
        ∑ t ∈ Finset.range threads, A t + (a e.2.1 e.2.2 + 2 * tiny) := by
      rw [Finset.sum_update_of_mem (Finset.mem_range.2 he),
        ← Finset.sum_sdiff (Finset.singleton_subset_iff.2 (Finset.mem_range.2 he)) (f := A), Finset.sum_singleton]
      ring
    obtain ⟨r, S', A', h1, h2, h3, h4⟩ := ih _ _ _ (k + 1) (fun x hx => hb x (List.mem_cons_of_mem _ hx)) (by omega) (by omega)
      (fun x hx => ht x (List.mem_cons_of_mem _ hx)) step (by rw [hA', add_assoc]; exact hfit)
    refine ⟨r, S', A', ?_, ?_, ?_, ?_⟩
    · rw [← h1]
      unfold runLoopR
      rw [List.foldl_cons]
      have hone : ((body e.2.1 e.2.2).bind fun x => addToR rnd results e.1 x) = .val (results.set e.1 (addC fl r0 x)) := by
        simp only [Res.bind_val, hx, addToR, hv, o1]
      rw [Res.bind_val, hone]
    · rwa [List.length_cons, show k + (s.length + 1) = k + 1 + s.length by ring]
    · rw [h3, Finset.sum_update_of_mem (Finset.mem_range.2 he), List.map_cons, List.sum_cons,
        ← Finset.sum_sdiff (Finset.singleton_subset_iff.2 (Finset.mem_range.2 he)) (f := S), Finset.sum_singleton]
      ring
    · rw [h4, hA', List.map_cons, List.sum_cons]
      ring

/-- The sum of the results of the threads. -/
theorem accumulateR_close (M : Machine rnd fl u tiny huge K) {k0 : ℕ} :
    ∀ (results : List ℂ) (S : ℕ → ℂ) (A : ℕ → ℝ) (a Sa : ℂ) (Aa : ℝ) (k : ℕ), (∀ t < results.length, ApproxC u k0 (results.getD t 0) (S t) (A t)) →
      k0 ≤ k → k + results.length ≤ K → ApproxC u k a Sa Aa → 3 * (Aa + ∑ t ∈ Finset.range results.length, (A t + 2 * tiny)) ≤ huge →
      ∃ x, results.foldl (fun (acc : Res ℂ) r => acc.bind fun a => addR rnd a r) (.val a) = .val x ∧
        ApproxC u (k + results.length) x (Sa + ∑ t ∈ Finset.range results.length, S t) (Aa + ∑ t ∈ Finset.range results.length, (A t + 2 * tiny)) := by
  intro results
  induction results with
  | nil => intro S A a Sa Aa k _ _ _ h _; exact ⟨a, rfl, by simpa using h⟩
  | cons r results ih =>
    intro S A a Sa Aa k hr hk0 hk ha hfit
    have hu := M.nonneg
    have ht := M.tiny_nonneg
    rw [List.length_cons] at hk
    rw [List.length_cons, Finset.sum_range_succ'] at hfit
    have h0 : ApproxC u k0 r (S 0) (A 0) := by simpa using hr 0 (by simp)
    have hrest : 0 ≤ ∑ t ∈ Finset.range results.length, (A (t + 1) + 2 * tiny) := Finset.sum_nonneg fun t h => by
      have := (norm_nonneg _).trans (hr (t + 1) (by simpa using Finset.mem_range.1 h)).2
      linarith
    obtain ⟨o1, p1⟩ := addR_ok M ha (h0.mono hu hk0) (by omega) (by linarith)
    obtain ⟨x, h1, h2⟩ := ih (fun t => S (t + 1)) (fun t => A (t + 1)) (addC fl a r) (Sa + S 0) (Aa + A 0 + 2 * tiny) (k + 1)
      (fun t h => by simpa using hr (t + 1) (by simpa using h)) (by omega) (by omega) p1 (by linarith)
    refine ⟨x, ?_, ?_⟩
    · rw [List.foldl_cons, Res.bind_val, o1, h1]
    · rw [List.length_cons, Finset.sum_range_succ', Finset.sum_range_succ', show k + (results.length + 1) = k + 1 + results.length by ring]
      convert h2 using 1
      · ring
      · ring

/-- A loop with its right-hand sides and one of its executions. -/
structure LoopR where
  body : ℕ → ℕ → Res ℂ
  exact : ℕ → ℕ → ℂ
  bound : ℕ → ℕ → ℝ
  pairs : List (ℕ × ℕ)
  sched : List Event

theorem runLoopsR_close (M : Machine rnd fl u tiny huge K) {threads k0 : ℕ} :
    ∀ (L : List LoopR) (results : List ℂ) (S : ℕ → ℂ) (A : ℕ → ℝ) (k : ℕ), (∀ l ∈ L, Executes threads l.pairs l.sched) →
      (∀ l ∈ L, ∀ p ∈ l.pairs, TermsOk u k0 l.body l.exact l.bound p) → k0 ≤ k → k + (L.map fun l => l.pairs.length).sum ≤ K → Close u threads k results S A →
      3 * (∑ t ∈ Finset.range threads, A t + (L.map fun l => (l.pairs.map fun p => l.bound p.1 p.2 + 2 * tiny).sum).sum) ≤ huge →
      ∃ r S' A', runLoopsR rnd (L.map fun l => (l.body, l.sched)) results = .val r ∧ Close u threads (k + (L.map fun l => l.pairs.length).sum) r S' A' ∧
        ∑ t ∈ Finset.range threads, S' t = ∑ t ∈ Finset.range threads, S t + (L.map fun l => (l.pairs.map fun p => l.exact p.1 p.2).sum).sum ∧
        ∑ t ∈ Finset.range threads, A' t = ∑ t ∈ Finset.range threads, A t + (L.map fun l => (l.pairs.map fun p => l.bound p.1 p.2 + 2 * tiny).sum).sum := by
  intro L
  induction L with
  | nil => intro results S A k _ _ _ _ h _; exact ⟨results, S, A, rfl, by simpa using h, by simp, by simp⟩
  | cons l L ih =>
    intro results S A k hL hb hk0 hk hc hfit
    have htn := M.tiny_nonneg
    obtain ⟨hp, ht⟩ := hL l List.mem_cons_self
    rw [List.map_cons, List.sum_cons] at hk hfit
    have hlen : l.sched.length = l.pairs.length := by rw [← hp.length_eq, List.length_map]
    have e1 : (l.sched.map fun e => l.exact e.2.1 e.2.2).sum = (l.pairs.map fun p => l.exact p.1 p.2).sum := by
      rw [← (hp.map fun p => l.exact p.1 p.2).sum_eq, List.map_map]; rfl
    have e2 : (l.sched.map fun e => l.bound e.2.1 e.2.2 + 2 * tiny).sum = (l.pairs.map fun p => l.bound p.1 p.2 + 2 * tiny).sum := by
      rw [← (hp.map fun p => l.bound p.1 p.2 + 2 * tiny).sum_eq, List.map_map]; rfl
    have hrest : 0 ≤ (L.map fun l => (l.pairs.map fun p => l.bound p.1 p.2 + 2 * tiny).sum).sum := by
      refine List.sum_nonneg fun y hy => ?_
      obtain ⟨l', hl', rfl⟩ := List.mem_map.1 hy
      refine List.sum_nonneg fun y hy => ?_
      obtain ⟨p, hp', rfl⟩ := List.mem_map.1 hy
      obtain ⟨x, -, h'⟩ := hb l' (List.mem_cons_of_mem _ hl') p hp'
      have := (norm_nonneg _).trans h'.2
      linarith
    obtain ⟨r, S₁, A₁, h1, h2, h3, h4⟩ := runLoopR_close M (g := l.exact) (a := l.bound) (k0 := k0) l.sched results S A k
      (fun e he => hb l List.mem_cons_self e.2 (hp.mem_iff.1 (List.mem_map.2 ⟨e, he, rfl⟩))) hk0 (by omega) ht hc (by rw [e2]; linarith)
    obtain ⟨r', S₂, A₂, g1, g2, g3, g4⟩ := ih r S₁ A₁ _ (fun x hx => hL x (List.mem_cons_of_mem _ hx)) (fun x hx => hb x (List.mem_cons_of_mem _ hx))
      (by omega) (by omega) h2 (by rw [h4, e2, add_assoc]; exact hfit)
    refine ⟨r', S₂, A₂, ?_, ?_, ?_, ?_⟩
    · rw [List.map_cons, runLoopsR, h1, Res.bind_val, g1]
    · rwa [List.map_cons, List.sum_cons, ← hlen, ← add_assoc]
    · rw [g3, h3, e1, List.map_cons, List.sum_cons, add_assoc]
    · rw [g4, h4, e2, List.map_cons, List.sum_cons, add_assoc]

/-- Parallel loops and the sum of the results of the threads. -/
theorem parallelR_close (M : Machine rnd fl u tiny huge K) {threads k0 count : ℕ} (L : List LoopR) (hL : ∀ l ∈ L, Executes threads l.pairs l.sched)
    (hb : ∀ l ∈ L, ∀ p ∈ l.pairs, TermsOk u k0 l.body l.exact l.bound p) {S : ℂ} {A : ℝ}
    (hS : (L.map fun l => (l.pairs.map fun p => l.exact p.1 p.2).sum).sum = S) (hA : (L.map fun l => (l.pairs.map fun p => l.bound p.1 p.2).sum).sum = A)
    (hn : (L.map fun l => l.pairs.length).sum = count) (hk : k0 + count + threads ≤ K) (hfit : 3 * (A + 2 * (count + threads : ℕ) * tiny) ≤ huge) :
    ∃ r x, runLoopsR rnd (L.map fun l => (l.body, l.sched)) (List.replicate threads 0) = .val r ∧ accumulateR rnd r = .val x ∧
      ApproxC u (k0 + count + threads) x S (A + 2 * (count + threads : ℕ) * tiny) := by
  have hu := M.nonneg
  have ht := M.tiny_nonneg
  have hsum : (L.map fun l => (l.pairs.map fun p => l.bound p.1 p.2 + 2 * tiny).sum).sum = A + 2 * count * tiny := by
    have key : ∀ l : List (ℕ × ℕ), ∀ f : ℕ × ℕ → ℝ, (l.map fun p => f p + 2 * tiny).sum = (l.map f).sum + 2 * l.length * tiny := by
      intro l f
      induction l with
      | nil => simp
      | cons p l ih => simp only [List.map_cons, List.sum_cons, ih, List.length_cons]; push_cast; ring
    subst hA hn
    clear hL hb hS hk hfit
    induction L with
    | nil => simp
    | cons l L ih =>
      simp only [List.map_cons, List.sum_cons, ih, key l.pairs fun p => l.bound p.1 p.2]
      push_cast; ring
  have h0 : ∑ t ∈ Finset.range threads, (fun _ : ℕ => (0 : ℝ)) t = 0 := by simp
  have hfit' : A + 2 * count * tiny ≤ A + 2 * (count + threads : ℕ) * tiny := by
    have : (0 : ℝ) ≤ 2 * threads * tiny := by positivity
    push_cast
    linarith
  obtain ⟨r, S', A', h1, ⟨hlen, h2⟩, h3, h4⟩ := runLoopsR_close M L (List.replicate threads 0) (fun _ => 0) (fun _ => 0) k0 hL hb le_rfl (by omega)
    ⟨by simp, fun t ht => by simp [List.getD_eq_getElem?_getD, ht]⟩ (by rw [h0, hsum]; linarith)
  rw [hn] at h2
  rw [h0, hsum, zero_add] at h4
  have hs : ∑ t ∈ Finset.range r.length, (A' t + 2 * tiny) = A + 2 * (count + threads : ℕ) * tiny := by
    rw [hlen, Finset.sum_add_distrib, h4]
    simp
    ring
  obtain ⟨x, e1, e2⟩ := accumulateR_close M r S' A' 0 0 0 (k0 + count) (fun t h => h2 t (by omega)) le_rfl (by omega) (by simp [ApproxC])
    (by rw [hs, zero_add]; exact hfit)
  refine ⟨r, x, h1, e1, ?_⟩
  rw [hs, hlen, h3, hS] at e2
  simpa using e2

theorem siteOccupationR_close (M : Machine rnd fl u tiny huge K) {threads k0 count : ℕ} (L : List LoopR) (hL : ∀ l ∈ L, Executes threads l.pairs l.sched)
    (hb : ∀ l ∈ L, ∀ p ∈ l.pairs, TermsOk u k0 l.body l.exact l.bound p) {S : ℂ} {A : ℝ}
    (hS : (L.map fun l => (l.pairs.map fun p => l.exact p.1 p.2).sum).sum = S) (hA : (L.map fun l => (l.pairs.map fun p => l.bound p.1 p.2).sum).sum = A)
    (hn : (L.map fun l => l.pairs.length).sum = count) (hk : k0 + count + threads ≤ K) (hfit : 3 * (A + 2 * (count + threads : ℕ) * tiny) ≤ huge) :
    ∃ x, siteOccupationR rnd (L.map fun l => (l.body, l.sched)) threads = .val x ∧
      |x - S.re| ≤ ((1 + u) ^ (k0 + count + threads) - 1) * (A + 2 * (count + threads : ℕ) * tiny) := by
  obtain ⟨r, x, h1, h2, h3⟩ := parallelR_close M L hL hb hS hA hn hk hfit
  refine ⟨x.re, by rw [siteOccupationR, h1, Res.bind_val, h2, Res.map_val], ?_⟩
  rw [← Complex.sub_re]
  exact (Complex.abs_re_le_norm _).trans h3.1

/-! ### The two forms of the site occupation -/

theorem norm_mul_le_sum {n : ℕ} {v : ℕ → ℂ} {i j : ℕ} (hi : i < n) (hj : j < n) : ‖v i‖ * ‖v j‖ ≤ ∑ i ∈ Finset.range n, ‖v i‖ ^ 2 := by
  have h1 : ‖v i‖ ^ 2 ≤ ∑ i ∈ Finset.range n, ‖v i‖ ^ 2 := Finset.single_le_sum (f := fun i => ‖v i‖ ^ 2) (fun i _ => by positivity) (Finset.mem_range.2 hi)
  have h2 : ‖v j‖ ^ 2 ≤ ∑ i ∈ Finset.range n, ‖v i‖ ^ 2 := Finset.single_le_sum (f := fun i => ‖v i‖ ^ 2) (fun i _ => by positivity) (Finset.mem_range.2 hj)
  have h3 := sq_nonneg (‖v i‖ - ‖v j‖)
  linarith [show (‖v i‖ - ‖v j‖) ^ 2 = ‖v i‖ ^ 2 - 2 * (‖v i‖ * ‖v j‖) + ‖v j‖ ^ 2 by ring]

theorem sum_bounds_le (n : ℕ) (v : ℕ → ℂ) {c d : ℝ} (hc : 0 ≤ c) :
    ∑ i ∈ Finset.range n, ∑ j ∈ Finset.range n, (c * ‖v i‖ * ‖v j‖ + d) ≤ c * n * ∑ i ∈ Finset.range n, ‖v i‖ ^ 2 + d * (n * n : ℕ) := by
  have h := sum_norms_le n v c hc
  simp only [Finset.sum_add_distrib, Finset.sum_const, Finset.card_range, nsmul_eq_mul]
  push_cast
  linarith [show d * ((n : ℝ) * n) = n * (n * d) by ring]

/-- The three-operator site occupation: every operation is in range, and the result is as close as without underflow, up to a multiple of the smallest number. -/
theorem siteOccupation3R_close (M : Machine rnd fl u tiny huge K) {ev' : HOp → HOp → ℝ} {basis cb : List HMonomial} {N size k threads : ℕ}
    {E E' : ℕ → ℕ → ℝ} (W : WeightsF u k (ev11R rnd ev') (ev13R rnd ev') (ev33R rnd ev') basis cb N size E E') (hN : N ≤ size) {vec : List ℂ}
    (hv : vec.length = size) (hsym : ∀ i < size, ∀ j < size, E i j = E j i) {s1 s2 s3 : List Event}
    (h1 : Executes threads (pairsTri 0 N) s1) (h2 : Executes threads (pairsRect 0 N N size) s2)
    (h3 : Executes threads (pairsTri N size) s3) (hK : k + 5 + size * (size + 1) / 2 + threads ≤ K) {S : ℝ}
    (hS : 17 * size * ∑ i ∈ Finset.range size, ‖vec.getD i 0‖ ^ 2 + 68 * tiny * (size * size : ℕ) + 2 * (size * (size + 1) / 2 + threads : ℕ) * tiny ≤ S)
    (hfit : 12 * S ≤ huge) :
    ∃ x, siteOccupation3R rnd ev' basis cb vec threads s1 s2 s3 = .val x ∧
      |x - (∑ i ∈ Finset.range size, ∑ j ∈ Finset.range size, vec.getD i 0 * conj (vec.getD j 0) * (E i j : ℂ)).re| ≤
        ((1 + u) ^ (k + 5 + size * (size + 1) / 2 + threads) - 1) * S := by
  have hu := M.nonneg
  have ht := M.tiny_nonneg
  set F : ℕ → ℕ → ℂ := fun i j => vec.getD i 0 * conj (vec.getD j 0) * (E i j : ℂ) with hF
  set G : ℕ → ℕ → ℝ := fun i j => 17 * ‖vec.getD i 0‖ * ‖vec.getD j 0‖ + 68 * tiny with hG
  have hct : (0 : ℝ) ≤ 2 * (size * (size + 1) / 2 + threads : ℕ) * tiny := by positivity
  have hS0 : 0 ≤ S := le_trans (by positivity) hS
  have hthin : (0 : ℝ) ≤ 68 * tiny := by linarith
  have hfits : ∀ i < size, ∀ j < size, 12 * (17 * (‖vec.getD i 0‖ * ‖vec.getD j 0‖ + 2 * tiny)) ≤ huge := by
    intro i hi j hj
    have a1 := norm_mul_le_sum (v := fun i => vec.getD i 0) hi hj
    have hs : (1 : ℝ) ≤ size := by exact_mod_cast (by omega : 1 ≤ size)
    have a0 : 0 ≤ ∑ i ∈ Finset.range size, ‖vec.getD i 0‖ ^ 2 := Finset.sum_nonneg fun i _ => by positivity
    have a2 := mul_le_mul_of_nonneg_right hs a0
    have a3 : 68 * tiny * 1 ≤ 68 * tiny * (size * size : ℕ) := by
      refine mul_le_mul_of_nonneg_left ?_ hthin
      exact_mod_cast Nat.one_le_iff_ne_zero.2 (Nat.mul_ne_zero (by omega) (by omega))
    linarith
  have term : ∀ (f : HMonomial → HMonomial → Res ℝ) i j, i < size → j < size → evAt basis cb f i j = .val (E' i j) → ApproxR u k (E' i j) (2 * E i j) (2 * 17) →
      ∃ x, symTermR rnd basis cb vec f i j = .val x ∧ ApproxC u (k + 5) x (F i j + F j i) (G i j + G j i) := by
    intro f i j hi hj he hE
    obtain ⟨x, e, p⟩ := symTermR_close (vec := vec) M (by omega) he hE (by norm_num) (by omega) (by omega) (hfits i hi j hj)
    refine ⟨x, e, ?_⟩
    simp only [hF, hG]
    rw [← hsym i hi j hj]
    exact approxC_weaken hu p (by linarith)
  have tri : ∀ (f : HMonomial → HMonomial → Res ℝ) (lo hi : ℕ), lo ≤ hi → hi ≤ size →
      (∀ i j, lo ≤ i → i < hi → lo ≤ j → j < hi → evAt basis cb f i j = .val (E' i j) ∧ ApproxR u k (E' i j) (2 * E i j) (2 * 17)) →
      ∀ p ∈ pairsTri lo hi, TermsOk u (k + 5) (triTermR rnd basis cb vec f) (fun i j => if j = i then F i i else F i j + F j i)
        (fun i j => if j = i then G i i else G i j + G j i) p := by
    intro f lo hi hlo hhi hf p hp
    obtain ⟨i, j⟩ := p
    obtain ⟨a, b, c⟩ := (mem_pairsTri hlo).1 hp
    simp only at a b c
    unfold TermsOk triTermR
    beta_reduce
    by_cases hij : j = i
    · subst hij
      rw [if_pos rfl, if_pos rfl, if_pos rfl]
      obtain ⟨x, e, p⟩ := diagTermR_close (vec := vec) M (by omega) (hf j j a c a c).1 (hf j j a c a c).2 (by norm_num) (by omega) (hfits j (by omega) j (by omega))
      exact ⟨x, e, approxC_weaken hu p (by simp only [hG]; linarith)⟩
    · rw [if_neg hij, if_neg hij, if_neg hij]
      exact term f i j (by omega) (by omega) (hf i j (by omega) c a (by omega)).1 (hf i j (by omega) c a (by omega)).2
  have g1 := tri (ev11R rnd ev') 0 N (Nat.zero_le N) hN fun i j _ hi _ hj => ⟨W.e11 i j hi hj, by
    have := W.close i (by omega) j (by omega) (.inl hi)
    norm_num; exact this⟩
  have g3 := tri (ev33R rnd ev') N size hN le_rfl fun i j hi hi' hj hj' => ⟨W.e33 i j hi hi' hj hj', by
    have := W.close i (by omega) j (by omega) (.inr hj)
    norm_num; exact this⟩
  have g2 : ∀ p ∈ pairsRect 0 N N size, TermsOk u (k + 5) (symTermR rnd basis cb vec (ev13R rnd ev')) (fun i j => F i j + F j i) (fun i j => G i j + G j i) p := by
    intro p hp
    obtain ⟨i, j⟩ := p
    obtain ⟨⟨_, b⟩, c, d⟩ := (mem_pairsRect (Nat.zero_le N) hN).1 hp
    simp only at b c d
    exact term _ i j (by omega) d (W.e13 i j b c d) (by
      have := W.close i (by omega) j (by omega) (.inl b)
      norm_num; exact this)
  have hle : ∑ i ∈ Finset.range size, ∑ j ∈ Finset.range size, G i j + 2 * (size * (size + 1) / 2 + threads : ℕ) * tiny ≤ S := by
    have := sum_bounds_le size (fun i => vec.getD i 0) (c := 17) (d := 68 * tiny) (by norm_num)
    linarith
  obtain ⟨x, hx, hx'⟩ := siteOccupationR_close M (threads := threads) (k0 := k + 5)
    [⟨triTermR rnd basis cb vec (ev11R rnd ev'), fun i j => if j = i then F i i else F i j + F j i,
      fun i j => if j = i then G i i else G i j + G j i, pairsTri 0 N, s1⟩,
     ⟨symTermR rnd basis cb vec (ev13R rnd ev'), fun i j => F i j + F j i, fun i j => G i j + G j i, pairsRect 0 N N size, s2⟩,
     ⟨triTermR rnd basis cb vec (ev33R rnd ev'), fun i j => if j = i then F i i else F i j + F j i,
      fun i j => if j = i then G i i else G i j + G j i, pairsTri N size, s3⟩] (by
      intro l hl
      simp only [List.mem_cons, List.not_mem_nil, or_false] at hl
      rcases hl with rfl | rfl | rfl
      · exact h1
      · exact h2
      · exact h3) (by
      intro l hl
      simp only [List.mem_cons, List.not_mem_nil, or_false] at hl
      rcases hl with rfl | rfl | rfl
      · exact g1
      · exact g2
      · exact g3) (S := ∑ i ∈ Finset.range size, ∑ j ∈ Finset.range size, F i j)
      (A := ∑ i ∈ Finset.range size, ∑ j ∈ Finset.range size, G i j) (by
        simp only [List.map_cons, List.map_nil, List.sum_cons, List.sum_nil, add_zero]
        exact loops_sum F hN) (by
        simp only [List.map_cons, List.map_nil, List.sum_cons, List.sum_nil, add_zero]
        exact loops_sum_real G hN) (count := size * (size + 1) / 2) (by
        simp only [List.map_cons, List.map_nil, List.sum_cons, List.sum_nil, add_zero]
        exact loops_count hN) hK (by linarith)
  refine ⟨x, hx, hx'.trans (mul_le_mul_of_nonneg_left hle ?_)⟩
  have := one_le_pow₀ (a := 1 + u) (n := k + 5 + size * (size + 1) / 2 + threads) (by linarith)
  linarith

/-- The one-operator site occupation. -/
theorem siteOccupation1R_close (M : Machine rnd fl u tiny huge K) {ev' : HOp → HOp → ℝ} {basis cb : List HMonomial} {size k threads : ℕ}
    {E E' : ℕ → ℕ → ℝ} (hE : ∀ i < size, ∀ j < size, evAt basis cb (ev11R rnd ev') i j = .val (E' i j) ∧ ApproxR u k (E' i j) (2 * E i j) (2 * 1))
    {vec : List ℂ} (hv : vec.length = size) {s : List Event} (h1 : Executes threads (loop1 size) s) (hK : k + 5 + size * size + threads ≤ K) {S : ℝ}
    (hS : 2 * size * ∑ i ∈ Finset.range size, ‖vec.getD i 0‖ ^ 2 + 4 * tiny * (size * size : ℕ) + 2 * (size * size + threads : ℕ) * tiny ≤ S)
    (hfit : 12 * S ≤ huge) :
    ∃ x, siteOccupation1R rnd ev' basis cb vec threads s = .val x ∧
      |x - (∑ i ∈ Finset.range size, ∑ j ∈ Finset.range size, vec.getD i 0 * conj (vec.getD j 0) * (E i j : ℂ)).re| ≤
        ((1 + u) ^ (k + 5 + size * size + threads) - 1) * S := by
  have hu := M.nonneg
  have ht := M.tiny_nonneg
  set F : ℕ → ℕ → ℂ := fun i j => vec.getD i 0 * conj (vec.getD j 0) * (E i j : ℂ) with hF
  set G : ℕ → ℕ → ℝ := fun i j => 2 * ‖vec.getD i 0‖ * ‖vec.getD j 0‖ + 4 * tiny with hG
  have hct : (0 : ℝ) ≤ 2 * (size * size + threads : ℕ) * tiny := by positivity
  have hS0 : 0 ≤ S := le_trans (by positivity) hS
  have hthin : (0 : ℝ) ≤ 4 * tiny := by linarith
  have hfits : ∀ i < size, ∀ j < size, 12 * (1 * (‖vec.getD i 0‖ * ‖vec.getD j 0‖ + 2 * tiny)) ≤ huge := by
    intro i hi j hj
    have a1 := norm_mul_le_sum (v := fun i => vec.getD i 0) hi hj
    have hs : (1 : ℝ) ≤ size := by exact_mod_cast (by omega : 1 ≤ size)
    have a0 : 0 ≤ ∑ i ∈ Finset.range size, ‖vec.getD i 0‖ ^ 2 := Finset.sum_nonneg fun i _ => by positivity
    have a2 := mul_le_mul_of_nonneg_right hs a0
    have a3 : 4 * tiny * 1 ≤ 4 * tiny * (size * size : ℕ) := by
      refine mul_le_mul_of_nonneg_left ?_ hthin
      exact_mod_cast Nat.one_le_iff_ne_zero.2 (Nat.mul_ne_zero (by omega) (by omega))
    linarith
  have g1 : ∀ p ∈ loop1 size, TermsOk u (k + 5) (fullTermR rnd basis cb vec (ev11R rnd ev')) F G p := by
    intro p hp
    obtain ⟨i, j⟩ := p
    obtain ⟨⟨_, b⟩, c, d⟩ := (mem_pairsRect (Nat.zero_le size) (Nat.zero_le size)).1 hp
    simp only at b c d
    obtain ⟨x, e, p⟩ := fullTermR_close (B := 1) (vec := vec) M (by omega) (hE i b j d).1 (hE i b j d).2 (by norm_num) (by omega) (by omega) (hfits i b j d)
    exact ⟨x, e, approxC_weaken hu p (by simp only [hG]; linarith)⟩
  have hreal : ((loop1 size).map fun p => G p.1 p.2).sum = ∑ i ∈ Finset.range size, ∑ j ∈ Finset.range size, G i j := by
    have := sum_pairsRect 0 size 0 size (Nat.zero_le _) (Nat.zero_le _) (fun i j => (G i j : ℂ))
    have e : ∀ l : List (ℕ × ℕ), (l.map fun p => (G p.1 p.2 : ℂ)).sum = (((l.map fun p => G p.1 p.2).sum : ℝ) : ℂ) := by
      intro l
      induction l with
      | nil => simp
      | cons a l ih => simp only [List.map_cons, List.sum_cons, ih]; push_cast; rfl
    rw [e] at this
    rw [Finset.range_eq_Ico]
    exact_mod_cast this
  have hcx : ((loop1 size).map fun p => F p.1 p.2).sum = ∑ i ∈ Finset.range size, ∑ j ∈ Finset.range size, F i j := by
    rw [loop1, sum_pairsRect 0 size 0 size (Nat.zero_le _) (Nat.zero_le _) F, Finset.range_eq_Ico]
  have hlen : (loop1 size).length = size * size := by
    simp [loop1, pairsRect, List.length_flatMap]
  have hle : ∑ i ∈ Finset.range size, ∑ j ∈ Finset.range size, G i j + 2 * (size * size + threads : ℕ) * tiny ≤ S := by
    have := sum_bounds_le size (fun i => vec.getD i 0) (c := 2) (d := 4 * tiny) (by norm_num)
    linarith
  obtain ⟨x, hx, hx'⟩ := siteOccupationR_close M (threads := threads) (k0 := k + 5)
    [⟨fullTermR rnd basis cb vec (ev11R rnd ev'), F, G, loop1 size, s⟩] (by
      intro l hl
      rw [List.mem_singleton] at hl
      subst hl
      exact h1) (by
      intro l hl
      rw [List.mem_singleton] at hl
      subst hl
      exact g1) (S := ∑ i ∈ Finset.range size, ∑ j ∈ Finset.range size, F i j)
      (A := ∑ i ∈ Finset.range size, ∑ j ∈ Finset.range size, G i j) (by simpa using hcx) (by simpa using hreal)
      (count := size * size) (by simpa using hlen) hK (by linarith)
  refine ⟨x, hx, hx'.trans (mul_le_mul_of_nonneg_left hle ?_)⟩
  have := one_le_pow₀ (a := 1 + u) (n := k + 5 + size * size + threads) (by linarith)
  linarith

end Ieompp.IEEE
