import Verif.Props.Binary64Vector

/-! # C117: the Runge–Kutta step with underflow and overflow -/

set_option autoImplicit false
set_option linter.unusedSectionVars false

namespace Ieompp.IEEE

open Ieompp.Spec ODE
open RealSpace (addC mulC)

variable {n : ℕ} {rnd : ℝ → Res ℝ} {fl : ℝ → ℝ} {u tiny huge : ℝ}

theorem mapR_val {α β : Type*} {f : α → Res β} {g : α → β} : ∀ {l : List α}, (∀ a ∈ l, f a = .val (g a)) → mapR f l = .val (l.map g)
  | [], _ => rfl
  | a :: as, h => by
    rw [mapR, h a (by simp), Res.bind_val, mapR_val fun b hb => h b (by simp [hb]), Res.bind_val, List.map_cons]

/-- `rnd` is `fl` below the overflow threshold. -/
def Agrees (rnd : ℝ → Res ℝ) (fl : ℝ → ℝ) (huge : ℝ) : Prop := ∀ x, |x| ≤ huge → rnd x = .val (fl x)

theorem addR_eq (ha : Agrees rnd fl huge) {x y : ℂ} (h : ‖x + y‖ ≤ huge) : addR rnd x y = .val (addC fl x y) := by
  unfold addR addC
  rw [ha _ (show |x.re + y.re| ≤ huge from (Complex.abs_re_le_norm (x + y)).trans h), Res.bind_val,
    ha _ (show |x.im + y.im| ≤ huge from (Complex.abs_im_le_norm (x + y)).trans h), Res.bind_val]

theorem scaleR_eq (ha : Agrees rnd fl huge) {c : ℝ} {z : ℂ} (h : |c| * ‖z‖ ≤ huge) : scaleR rnd c z = .val (scaleC fl c z) := by
  have h1 : ∀ x : ℝ, |x| ≤ ‖z‖ → |c * x| ≤ huge := fun x hx => by
    rw [abs_mul]; exact (mul_le_mul_of_nonneg_left hx (abs_nonneg c)).trans h
  unfold scaleR scaleC
  rw [ha _ (h1 _ (Complex.abs_re_le_norm z)), Res.bind_val, ha _ (h1 _ (Complex.abs_im_le_norm z)), Res.bind_val]

theorem mulR_eq (hg : Gradual fl u tiny) (ha : Agrees rnd fl huge) {x y : ℂ} (h : 2 * ((1 + u) * (‖x‖ * ‖y‖ + tiny)) ≤ huge) :
    mulR rnd x y = .val (mulC fl x y) := by
  have hu := hg.nonneg
  have ht := hg.tiny_nonneg
  obtain ⟨c1, c2⟩ := products_le x y
  have hxy : 0 ≤ ‖x‖ * ‖y‖ := by positivity
  have h0 : ‖x‖ * ‖y‖ ≤ huge := by nlinarith
  have b1 := hg.abs_le (x.re * y.re)
  have b2 := hg.abs_le (x.im * y.im)
  have b3 := hg.abs_le (x.re * y.im)
  have b4 := hg.abs_le (x.im * y.re)
  have n1 := abs_nonneg (x.re * y.re)
  have n2 := abs_nonneg (x.im * y.im)
  have n3 := abs_nonneg (x.re * y.im)
  have n4 := abs_nonneg (x.im * y.re)
  have m1 := mul_le_mul_of_nonneg_left c1 (by linarith : (0 : ℝ) ≤ 1 + u)
  have m2 := mul_le_mul_of_nonneg_left c2 (by linarith : (0 : ℝ) ≤ 1 + u)
  have m3 : 0 ≤ (1 + u) * (‖x‖ * ‖y‖) := by positivity
  have s1 : |fl (x.re * y.re) - fl (x.im * y.im)| ≤ huge := by
    have := abs_sub (fl (x.re * y.re)) (fl (x.im * y.im))
    linarith
  have s2 : |fl (x.re * y.im) + fl (x.im * y.re)| ≤ huge := by
    have := abs_add_le (fl (x.re * y.im)) (fl (x.im * y.re))
    linarith
  unfold mulR mulC
  rw [ha _ (by linarith), Res.bind_val, ha _ (by linarith), Res.bind_val, ha _ (by linarith), Res.bind_val, ha _ (by linarith), Res.bind_val,
    ha _ s1, Res.bind_val, ha _ s2, Res.bind_val]

theorem comp_le {v : Fin n → ℂ} (i : Fin n) : ‖v i‖ ≤ norm2 v := by
  unfold norm2
  refine Real.le_sqrt_of_sq_le ?_
  exact Finset.single_le_sum (f := fun i => ‖v i‖ ^ 2) (fun i _ => by positivity) (Finset.mem_univ i)

theorem vaddR_ofFn (ha : Agrees rnd fl huge) {a b : Fin n → ℂ} (h : norm2 a + norm2 b ≤ huge) :
    vaddR rnd (List.ofFn a) (List.ofFn b) = .val (List.ofFn fun i => addC fl (a i) (b i)) := by
  unfold vaddR
  rw [if_pos (by simp), mapR_val (g := fun p => addC fl p.1 p.2)]
  · congr 1
    apply List.ext_getElem <;> simp
  · intro p hp
    obtain ⟨i, hi, rfl⟩ := List.getElem_of_mem hp
    simp only [List.length_zip, List.length_ofFn, min_self] at hi
    refine addR_eq ha ?_
    simp only [List.getElem_zip, List.getElem_ofFn]
    exact (norm_add_le _ _).trans ((add_le_add (comp_le _) (comp_le _)).trans h)

theorem vscaleR_ofFn (ha : Agrees rnd fl huge) {c : ℝ} {a : Fin n → ℂ} (h : |c| * norm2 a ≤ huge) :
    vscaleR rnd c (List.ofFn a) = .val (List.ofFn fun i => scaleC fl c (a i)) := by
  unfold vscaleR
  rw [mapR_val (g := scaleC fl c)]
  · congr 1
    apply List.ext_getElem <;> simp
  · intro p hp
    obtain ⟨i, hi, rfl⟩ := List.getElem_of_mem hp
    simp only [List.length_ofFn] at hi
    refine scaleR_eq ha ?_
    simp only [List.getElem_ofFn]
    exact (mul_le_mul_of_nonneg_left (comp_le _) (abs_nonneg c)).trans h

/-! ### Rows -/

theorem fold_gradual (hg : Gradual fl u tiny) (f g : ℕ → ℂ) : ∀ (js : List ℕ) (k : ℕ), 4 ≤ k → ∀ (a' a : ℂ) (A : ℝ), ApproxC u k a' a A →
    ApproxC u (k + js.length) (js.foldl (fun acc j => addC fl acc (mulC fl (f j) (g j))) a') (a + (js.map fun j => f j * g j).sum)
      (A + (js.map fun j => ‖f j‖ * ‖g j‖ + 5 * tiny).sum) := by
  intro js
  induction js with
  | nil => intro k _ a' a A h; simpa using h
  | cons j js ih =>
    intro k hk a' a A h
    have := ih (k + 1) (by omega) _ _ _ (approxC_add hg h ((approxC_mul hg (f j) (g j)).mono hg.nonneg hk))
    simp only [List.foldl_cons, List.map_cons, List.sum_cons, List.length_cons]
    rw [show k + (js.length + 1) = k + 1 + js.length by ring, ← add_assoc a]
    convert this using 1
    ring

theorem rowF_gradual (hg : Gradual fl u tiny) (m : ℕ → ℂ) (v : List ℂ) (js : List ℕ) :
    ApproxC u (js.length + 3) (rowF fl m v js) (js.map fun j => m j * v.getD j 0).sum
      (js.map fun j => ‖m j‖ * ‖v.getD j 0‖ + 5 * tiny).sum := by
  have ht := hg.tiny_nonneg
  cases js with
  | nil => simp [rowF, ApproxC]
  | cons j js =>
    have h0 : ApproxC u 4 (mulC fl (m j) (v.getD j 0)) (m j * v.getD j 0) (‖m j‖ * ‖v.getD j 0‖ + 5 * tiny) := by
      obtain ⟨h1, h2⟩ := approxC_mul hg (m j) (v.getD j 0)
      have hp : 0 ≤ (1 + u) ^ 4 - 1 := sub_nonneg.2 (one_le_pow₀ (by linarith [hg.nonneg]))
      exact ⟨h1.trans (mul_le_mul_of_nonneg_left (by linarith) hp), h2.trans (by linarith)⟩
    have := fold_gradual hg m (fun j => v.getD j 0) js 4 le_rfl _ _ _ h0
    rw [show (j :: js).length + 3 = 4 + js.length by simp; ring]
    exact this

theorem foldR_eq (hg : Gradual fl u tiny) (ha : Agrees rnd fl huge) (f g : ℕ → ℂ) : ∀ (js : List ℕ) (k : ℕ), 4 ≤ k → ∀ (a' a : ℂ) (A : ℝ),
    ApproxC u k a' a A → 2 * ((1 + u) ^ (k + js.length) * (A + (js.map fun j => ‖f j‖ * ‖g j‖ + 5 * tiny).sum)) ≤ huge →
    js.foldl (fun (acc : Res ℂ) j => acc.bind fun a => (mulR rnd (f j) (g j)).bind fun p => addR rnd a p) (.val a') =
      .val (js.foldl (fun acc j => addC fl acc (mulC fl (f j) (g j))) a') := by
  have ht := hg.tiny_nonneg
  have hu := hg.nonneg
  intro js
  induction js with
  | nil => intros; rfl
  | cons j js ih =>
    intro k hk a' a A h hr
    have hA : 0 ≤ A := (norm_nonneg _).trans h.2
    have hs : 0 ≤ (js.map fun j => ‖f j‖ * ‖g j‖ + 5 * tiny).sum := List.sum_nonneg (by
      intro x hx; obtain ⟨i, -, rfl⟩ := List.mem_map.1 hx; positivity)
    simp only [List.map_cons, List.sum_cons, List.length_cons] at hr
    have hfg : 0 ≤ ‖f j‖ * ‖g j‖ := by positivity
    have hmul : ApproxC u k (mulC fl (f j) (g j)) (f j * g j) (‖f j‖ * ‖g j‖ + 3 * tiny) := (approxC_mul hg (f j) (g j)).mono hu hk
    have hadd := approxC_add hg h hmul
    have p1 : 1 + u ≤ (1 + u) ^ (k + (js.length + 1)) := le_self_pow₀ (by linarith) (by omega)
    have p2 : (1 + u) ^ k ≤ (1 + u) ^ (k + (js.length + 1)) := pow_le_pow_right₀ (by linarith) (by omega)
    have p3 : 0 ≤ (1 + u) ^ (k + (js.length + 1)) := by positivity
    set T := (1 + u) ^ (k + (js.length + 1)) with hT
    simp only [List.foldl_cons, Res.bind_val]
    rw [mulR_eq hg ha (by
      have e1 : (1 + u) * (‖f j‖ * ‖g j‖ + tiny) ≤ T * (A + (‖f j‖ * ‖g j‖ + 5 * tiny + (js.map fun j => ‖f j‖ * ‖g j‖ + 5 * tiny).sum)) :=
        mul_le_mul p1 (by linarith) (by positivity) p3
      linarith), Res.bind_val, addR_eq ha (by
      have e1 := ApproxC.norm_le h
      have e2 := ApproxC.norm_le hmul
      have e3 := norm_add_le a' (mulC fl (f j) (g j))
      have e4 : (1 + u) ^ k * (A + (‖f j‖ * ‖g j‖ + 3 * tiny)) ≤ T * (A + (‖f j‖ * ‖g j‖ + 5 * tiny + (js.map fun j => ‖f j‖ * ‖g j‖ + 5 * tiny).sum)) :=
        mul_le_mul p2 (by linarith) (by positivity) p3
      have e5 : 0 ≤ (1 + u) ^ k * (A + (‖f j‖ * ‖g j‖ + 3 * tiny)) := by positivity
      rw [mul_add] at e4 e5
      linarith)]
    refine ih (k + 1) (by omega) _ _ _ hadd ?_
    rw [show k + 1 + js.length = k + (js.length + 1) by ring]
    refine le_trans (le_of_eq ?_) hr
    ring

theorem rowR_eq (hg : Gradual fl u tiny) (ha : Agrees rnd fl huge) (m : ℕ → ℂ) (v : List ℂ) (js : List ℕ)
    (hr : 2 * ((1 + u) ^ (js.length + 3) * (js.map fun j => ‖m j‖ * ‖v.getD j 0‖ + 5 * tiny).sum) ≤ huge) :
    rowR rnd m v js = .val (rowF fl m v js) := by
  have ht := hg.tiny_nonneg
  have hu := hg.nonneg
  cases js with
  | nil => rfl
  | cons j js =>
    have h0 : ApproxC u 4 (mulC fl (m j) (v.getD j 0)) (m j * v.getD j 0) (‖m j‖ * ‖v.getD j 0‖ + 5 * tiny) := by
      obtain ⟨h1, h2⟩ := approxC_mul hg (m j) (v.getD j 0)
      have hp : 0 ≤ (1 + u) ^ 4 - 1 := sub_nonneg.2 (one_le_pow₀ (by linarith))
      exact ⟨h1.trans (mul_le_mul_of_nonneg_left (by linarith) hp), h2.trans (by linarith)⟩
    rw [show (j :: js).length + 3 = 4 + js.length by simp; ring, List.map_cons, List.sum_cons] at hr
    have hs : 0 ≤ (js.map fun j => ‖m j‖ * ‖v.getD j 0‖ + 5 * tiny).sum := List.sum_nonneg (by
      intro x hx; obtain ⟨i, -, rfl⟩ := List.mem_map.1 hx; positivity)
    have p1 : 1 + u ≤ (1 + u) ^ (4 + js.length) := le_self_pow₀ (by linarith) (by omega)
    have hmul : mulR rnd (m j) (v.getD j 0) = .val (mulC fl (m j) (v.getD j 0)) := mulR_eq hg ha (by
      have e1 : (1 + u) * (‖m j‖ * ‖v.getD j 0‖ + tiny) ≤ (1 + u) ^ (4 + js.length) * (‖m j‖ * ‖v.getD j 0‖ + 5 * tiny +
          (js.map fun j => ‖m j‖ * ‖v.getD j 0‖ + 5 * tiny).sum) :=
        mul_le_mul p1 (by linarith) (by positivity) (by positivity)
      linarith)
    simp only [rowR, rowF]
    rw [hmul]
    exact foldR_eq hg ha m (fun j => v.getD j 0) js 4 le_rfl _ _ _ h0 hr

/-- What underflow can add to an element of the product of a matrix and a vector. -/
def rowSlack (z : ℕ) (tiny : ℝ) : ℝ := 5 * z * tiny

theorem row_sum_le {m : ℕ → ℕ → ℂ} {cols : ℕ → List ℕ} {z : ℕ} (hS : Stored n m cols z) (ht : 0 ≤ tiny) (v : Fin n → ℂ) (i : Fin n) :
    ((cols i).map fun j => ‖m i j‖ * ‖(List.ofFn v).getD j 0‖ + 5 * tiny).sum ≤ ∑ j : Fin n, ‖m i j‖ * ‖v j‖ + rowSlack z tiny := by
  rw [List.sum_map_add]
  refine add_le_add (le_of_eq ?_) ?_
  · rw [sum_stored (n := n) (hS.nodup i i.2) (hS.lt i i.2) _ fun j hj hne => hS.all i i.2 j hj (norm_ne_zero_iff.1 (left_ne_zero_of_mul hne))]
    refine Finset.sum_congr rfl fun j _ => ?_
    rw [ofFn_getD]
  · have : ((cols i).length : ℝ) ≤ z := by exact_mod_cast hS.length i i.2
    rw [List.map_const', List.sum_replicate, nsmul_eq_mul, rowSlack]
    nlinarith

theorem row_gradual (hg : Gradual fl u tiny) {m : ℕ → ℕ → ℂ} {cols : ℕ → List ℕ} {z : ℕ} (hS : Stored n m cols z) (v : Fin n → ℂ) (i : Fin n) :
    ‖rowF fl (m i) (List.ofFn v) (cols i) - (mat n m).mulVec v i‖ ≤ ((1 + u) ^ (z + 3) - 1) * (∑ j : Fin n, ‖m i j‖ * ‖v j‖ + rowSlack z tiny) := by
  have hu := hg.nonneg
  have e := ((rowF_gradual hg (m i) (List.ofFn v) (cols i)).mono hu (k' := z + 3) (by have := hS.length i i.2; omega)).1
  have e1 : ((cols i).map fun j => m i j * (List.ofFn v).getD j 0).sum = (mat n m).mulVec v i := by
    rw [sum_stored (n := n) (hS.nodup i i.2) (hS.lt i i.2) _ fun j hj hne => hS.all i i.2 j hj (left_ne_zero_of_mul hne)]
    refine Finset.sum_congr rfl fun j _ => ?_
    rw [ofFn_getD]; rfl
  rw [e1] at e
  exact e.trans (mul_le_mul_of_nonneg_left (row_sum_le hS hg.tiny_nonneg v i) (sub_nonneg.2 (one_le_pow₀ (by linarith))))

theorem matVecR_ofFn (hg : Gradual fl u tiny) (ha : Agrees rnd fl huge) {m : ℕ → ℕ → ℂ} {B : ℝ} (hB : Bounded n m B) {cols : ℕ → List ℕ} {z : ℕ}
    (hS : Stored n m cols z) {v : Fin n → ℂ} (hr : 2 * ((1 + u) ^ (z + 3) * (B * norm2 v + rowSlack z tiny)) ≤ huge) :
    matVecR rnd n m cols (List.ofFn v) = .val (List.ofFn fun i : Fin n => rowF fl (m i) (List.ofFn v) (cols i)) := by
  have hu := hg.nonneg
  have ht := hg.tiny_nonneg
  unfold matVecR
  rw [if_pos (by simp), mapR_val (g := fun i => rowF fl (m i) (List.ofFn v) (cols i)), range_map_ofFn]
  intro i hi
  have hi' := List.mem_range.1 hi
  refine rowR_eq hg ha _ _ _ (le_trans ?_ hr)
  have h1 := row_sum_le hS ht v ⟨i, hi'⟩
  have h2 : ∑ j : Fin n, ‖m i j‖ * ‖v j‖ ≤ B * norm2 v := by
    refine le_trans (Finset.sum_le_sum fun j _ => mul_le_mul_of_nonneg_left (comp_le (v := v) j) (norm_nonneg _)) ?_
    rw [← Finset.sum_mul]
    exact mul_le_mul_of_nonneg_right (hB.row ⟨i, hi'⟩) (norm2_nonneg _)
  have hs : 0 ≤ ((cols i).map fun j => ‖m i j‖ * ‖(List.ofFn v).getD j 0‖ + 5 * tiny).sum := List.sum_nonneg (by
      intro x hx; obtain ⟨i, -, rfl⟩ := List.mem_map.1 hx; positivity)
  have h3 : (1 + u) ^ ((cols i).length + 3) ≤ (1 + u) ^ (z + 3) := pow_le_pow_right₀ (by linarith) (by have := hS.length i hi'; omega)
  exact mul_le_mul_of_nonneg_left (mul_le_mul h3 (h1.trans (by simpa using h2)) hs (by positivity)) (by norm_num)

end Ieompp.IEEE
