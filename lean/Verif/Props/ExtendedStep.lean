import Verif.Props.ExtendedProgram

/-! # C135: a step of the integrator with matrices and step widths that are not finite -/

set_option autoImplicit false
set_option linter.unusedSectionVars false

namespace Ieompp

variable {rnd : ℝ → Res ℝ}

namespace ExtC

theorem mul_NN_right (h0 : rnd 0 = .val 0) (x : ExtC) : mul rnd x NN = NN := by
  have hp : plainMul rnd x NN = NN := by
    unfold plainMul Ext.sub
    simp only [Ext.mul_nan_right, Ext.add_nan_left]
  have hz : ∀ p : ExtC × ExtC, plainMul rnd p.1 p.2 = zero →
      (⟨Ext.mul rnd (.inf false) (plainMul rnd p.1 p.2).re, Ext.mul rnd (.inf false) (plainMul rnd p.1 p.2).im⟩ : ExtC) = NN := by
    intro p h
    rw [h]
    simp only [zero, inf_zero]
  unfold mul
  simp only [hp]
  obtain ⟨r, i⟩ := x
  cases r <;> cases i <;>
    simp only [isNan, recover, isInf, box, unNan, Ext.mul_nan_right, Bool.and_self, Bool.or_true, Bool.true_or, Bool.or_self, Bool.false_eq_true, if_true, if_false]
  all_goals exact hz (_, _) (plainMul_zero_right h0 _ _)

/-- Zero or NaN. -/
def ZeroNan (x : Ext) : Prop := x = .fin 0 ∨ x = .nan

theorem ZeroNan.add (h0 : rnd 0 = .val 0) {x y : Ext} (hx : ZeroNan x) (hy : ZeroNan y) : ZeroNan (Ext.add rnd x y) := by
  rcases hx with rfl | rfl
  · rcases hy with rfl | rfl
    · left; show Ext.round rnd (0 + 0) = _; rw [add_zero, round_zero h0]
    · right; rfl
  · right; exact Ext.add_nan_left _

theorem ZeroNan.neg {x : Ext} (hx : ZeroNan x) : ZeroNan (Ext.neg x) := by
  rcases hx with rfl | rfl
  · left; show Ext.fin (-0) = _; rw [neg_zero]
  · right; rfl

theorem ZeroNan.mul_left (h0 : rnd 0 = .val 0) {x : Ext} (y : Ext) (hx : ZeroNan x) : ZeroNan (Ext.mul rnd x y) := by
  rcases hx with rfl | rfl
  · cases y with
    | fin y => left; show Ext.round rnd (0 * y) = _; rw [zero_mul, round_zero h0]
    | inf s => right; show (if (0 : ℝ) = 0 then _ else _) = _; rw [if_pos rfl]
    | nan => right; rfl
  · right; exact Ext.mul_nan_left _

theorem ZeroNan.mul_right (h0 : rnd 0 = .val 0) {y : Ext} (x : Ext) (hy : ZeroNan y) : ZeroNan (Ext.mul rnd x y) := by
  rcases hy with rfl | rfl
  · cases x with
    | fin x => left; show Ext.round rnd (x * 0) = _; rw [mul_zero, round_zero h0]
    | inf s => right; show (if (0 : ℝ) = 0 then _ else _) = _; rw [if_pos rfl]
    | nan => right; rfl
  · right; exact Ext.mul_nan_right _

/-- An infinity times zero or NaN is NaN. -/
theorem ZeroNan.inf_mul {x : Ext} (s : Bool) (hx : ZeroNan x) : Ext.mul rnd (.inf s) x = .nan := by
  rcases hx with rfl | rfl
  · show (if (0 : ℝ) = 0 then _ else _) = _; rw [if_pos rfl]
  · rfl

theorem ZeroNan.unNan {x : Ext} (hx : ZeroNan x) : unNan x = .fin 0 := by rcases hx with rfl | rfl <;> rfl
theorem ZeroNan.box {x : Ext} (hx : ZeroNan x) : box x = .fin 0 := by rcases hx with rfl | rfl <;> rfl

/-- In a factor whose real part is zero or NaN, the recovery of infinities has 0 there; so in the other factor. -/
theorem recover_parts {x y : ExtC} (hx : ZeroNan x.re) {p : ExtC × ExtC} (hp : recover rnd x y = some p) :
    p.1.re = .fin 0 ∧ (ZeroNan y.re → p.2.re = .fin 0) ∧ (ZeroNan y.im → p.2.im = .fin 0) := by
  have z0 : ZeroNan (.fin 0) := Or.inl rfl
  have e1 := hx.unNan
  have e2 := hx.box
  unfold recover at hp
  simp only at hp
  by_cases hf : (isInf x.re || isInf x.im) = true
  · simp only [hf, if_true, Bool.true_or] at hp
    cases hp
    refine ⟨?_, fun hy => ?_, fun hy => ?_⟩
    · split_ifs
      · simp only [e2]; exact z0.unNan
      · exact e2
    · split_ifs
      · simp only [hy.unNan]; exact z0.box
      · exact hy.unNan
    · split_ifs
      · simp only [hy.unNan]; exact z0.box
      · exact hy.unNan
  · have hf' : (isInf x.re || isInf x.im) = false := by simpa using hf
    simp only [hf', Bool.false_eq_true, if_false, Bool.false_or] at hp
    by_cases hg : (isInf y.re || isInf y.im) = true
    · simp only [hg, if_true] at hp
      cases hp
      exact ⟨e1, fun hy => hy.box, fun hy => hy.box⟩
    · have hg' : (isInf y.re || isInf y.im) = false := by simpa using hg
      simp only [hg', Bool.false_eq_true, if_false] at hp
      split_ifs at hp
      cases hp
      exact ⟨e1, fun hy => hy.unNan, fun hy => hy.unNan⟩

/-- A factor on the imaginary axis (or undefined) takes a real part NaN to an imaginary part NaN. -/
theorem mul_im_nan (h0 : rnd 0 = .val 0) {x y : ExtC} (hx : ZeroNan x.re) (hy : y.re = .nan) : (mul rnd x y).im = .nan := by
  have hp : (plainMul rnd x y).im = .nan := by unfold plainMul; simp only [hy, Ext.mul_nan_right, Ext.add_nan_right]
  unfold mul
  simp only
  split_ifs
  · cases hr : recover rnd x y with
    | none => exact hp
    | some p =>
      obtain ⟨e1, e2, -⟩ := recover_parts hx hr
      have e2 := e2 (Or.inr hy)
      refine ZeroNan.inf_mul _ ?_
      unfold plainMul
      exact (ZeroNan.mul_left h0 _ (Or.inl e1)).add h0 (ZeroNan.mul_right h0 _ (Or.inl e2))
  · exact hp

/-- It takes an imaginary part NaN to a real part NaN. -/
theorem mul_re_nan (h0 : rnd 0 = .val 0) {x y : ExtC} (hx : ZeroNan x.re) (hy : y.im = .nan) : (mul rnd x y).re = .nan := by
  have hp : (plainMul rnd x y).re = .nan := by unfold plainMul Ext.sub; simp only [hy, Ext.mul_nan_right, Ext.neg, Ext.add_nan_right]
  unfold mul
  simp only
  split_ifs
  · cases hr : recover rnd x y with
    | none => exact hp
    | some p =>
      obtain ⟨e1, -, e2⟩ := recover_parts hx hr
      have e2 := e2 (Or.inr hy)
      refine ZeroNan.inf_mul _ ?_
      unfold plainMul
      exact (ZeroNan.mul_left h0 _ (Or.inl e1)).add h0 (ZeroNan.mul_right h0 _ (Or.inl e2)).neg
  · exact hp

/-- The product with a real number has the real part zero or NaN. -/
theorem mul_re_zero (h0 : rnd 0 = .val 0) {x y : ExtC} (hx : ZeroNan x.re) (hy : ZeroNan y.im) : ZeroNan (mul rnd x y).re := by
  have hp : ZeroNan (plainMul rnd x y).re := by
    unfold plainMul
    exact (hx.mul_left h0 _).add h0 (hy.mul_right h0 _).neg
  unfold mul
  simp only
  split_ifs
  · cases hr : recover rnd x y with
    | none => exact hp
    | some p =>
      obtain ⟨e1, -, e2⟩ := recover_parts hx hr
      have e2 := e2 hy
      right
      refine ZeroNan.inf_mul _ ?_
      unfold plainMul
      exact (ZeroNan.mul_left h0 _ (Or.inl e1)).add h0 (ZeroNan.mul_right h0 _ (Or.inl e2)).neg
  · exact hp

/-- The elements of the matrix lie on the imaginary axis or are undefined, whatever the parameters are. -/
theorem timesI_re (h0 : rnd 0 = .val 0) (x : Ext) : ZeroNan (mul rnd ⟨x, .fin 0⟩ ⟨.fin 0, .fin 1⟩).re := by
  have z0 : ZeroNan (.fin 0) := Or.inl rfl
  by_cases h : x.NotFinite
  · exact Or.inr (timesI_bad h0 h).1
  · have hp : ZeroNan (plainMul rnd ⟨x, .fin 0⟩ ⟨.fin 0, .fin 1⟩).re := by
      unfold plainMul
      exact (z0.mul_right h0 _).add h0 (z0.mul_left h0 _).neg
    cases x with
    | nan => exact absurd (Or.inl rfl) h
    | inf s => exact absurd (Or.inr ⟨s, rfl⟩) h
    | fin x =>
      unfold mul
      simp only
      have : isNan (plainMul rnd ⟨.fin x, .fin 0⟩ ⟨.fin 0, .fin 1⟩).re = false := by
        unfold plainMul Ext.sub
        simp only [Ext.mul, mul_zero, zero_mul, round_zero h0, Ext.neg, neg_zero, Ext.add, add_zero]
        rfl
      rw [this]
      simpa using hp

end ExtC

namespace ODE

open ExtC

theorem matVecX_get {n : ℕ} {m : Sparse ExtC} {v c : List ExtC} (h : matVecX rnd n m v = .val c) {i : ℕ} (hi : i < n) :
    c[i]? = some (rowX rnd v (m.done.getD i [])) := by
  unfold matVecX at h
  split_ifs at h
  cases h
  simp [hi]

theorem rowX_fold {P : ExtC → Prop} (v : List ExtC) (es : List (ℕ × ExtC)) (hne : es ≠ []) (h : ∀ e ∈ es, P (ExtC.mul rnd e.2 (v.getD e.1 ExtC.zero)))
    (ha : ∀ a b, P a → P b → P (ExtC.add rnd a b)) : P (rowX rnd v es) := by
  cases es with
  | nil => exact absurd rfl hne
  | cons e es =>
    show P (es.foldl _ _)
    have key : ∀ (l : List (ℕ × ExtC)) (a : ExtC), (∀ e ∈ l, P (ExtC.mul rnd e.2 (v.getD e.1 ExtC.zero))) → P a →
        P (l.foldl (fun acc e => ExtC.add rnd acc (ExtC.mul rnd e.2 (v.getD e.1 ExtC.zero))) a) := by
      intro l
      induction l with
      | nil => intro a _ h; exact h
      | cons e l ih => intro a hl hP; exact ih _ (fun e he => hl e (by simp [he])) (ha _ _ hP (hl e (by simp)))
    exact key es _ (fun e he => h e (by simp [he])) (h e (by simp))

theorem vaddX_get {a b c : List ExtC} (h : vaddX rnd a b = .val c) {i : ℕ} {x y : ExtC} (hx : a[i]? = some x) (hy : b[i]? = some y) :
    c[i]? = some (ExtC.add rnd x y) := by
  unfold vaddX at h
  split_ifs at h
  cases h
  rw [List.getElem?_map, List.getElem?_zip_eq_some (z := (x, y)) |>.2 ⟨hx, hy⟩]
  rfl

theorem vscaleX_get {c : Ext} {a : List ExtC} {i : ℕ} {x : ExtC} (hx : a[i]? = some x) : (vscaleX rnd c a)[i]? = some (ExtC.scale rnd c x) := by
  unfold vscaleX; simp [hx]

theorem shiftX_get {u k c : List ExtC} {h : Ext} {d : ℝ} (e : shiftX rnd u h d k = .val c) {i : ℕ} {x y : ExtC} (hx : u[i]? = some x) (hy : k[i]? = some y) :
    c[i]? = some (ExtC.add rnd x (ExtC.scale rnd (Ext.div rnd h (.fin d)) y)) := vaddX_get e hx (vscaleX_get hy)

theorem eq_NN {n : ℕ} {l : List ExtC} (hl : l.length = n) (h : ∀ i < n, ∀ x, l[i]? = some x → x = NN) : l = List.replicate n NN := by
  rw [List.eq_replicate_iff]
  refine ⟨hl, fun x hx => ?_⟩
  obtain ⟨i, hi, e⟩ := List.mem_iff_getElem.1 hx
  exact h i (by omega) x (by rw [List.getElem?_eq_getElem hi, e])

/-- A step in which the second vector of increments is NaN. -/
theorem stepMatrixX_NN2 {n : ℕ} (h : Ext) {m : Sparse ExtC} {u k1 x : List ExtC} (hu : u.length = n) (e1 : matVecX rnd n m u = .val k1) (l1 : k1.length = n)
    (e2 : shiftX rnd u h 2 k1 = .val x) (h1 : matVecX rnd n m x = .val (List.replicate n NN))
    (h2 : matVecX rnd n m (List.replicate n NN) = .val (List.replicate n NN)) : stepMatrixX rnd n h m u = .val (List.replicate n NN) := by
  unfold stepMatrixX
  simp only [e1, Res.bind_val, e2, h1, shiftX_NN h _ hu, h2, vscaleX_NN, vaddX_NN_right hu, vaddX_NN_right l1,
    vaddX_NN_right (List.length_replicate (n := n) (a := NN))]

/-- The step width NaN. -/
theorem stepMatrixX_nan {n : ℕ} (m : Sparse ExtC) {u : List ExtC} (hu : u.length = n) : stepMatrixX rnd n .nan m u = .val (List.replicate n NN) := by
  have hs : ∀ {k : List ExtC} (d : ℝ), k.length = n → shiftX rnd u .nan d k = .val (List.replicate n NN) := by
    intro k d hk
    have : vscaleX rnd (Ext.div rnd .nan (.fin d)) k = List.replicate n NN := by
      rw [List.eq_replicate_iff]
      refine ⟨by rw [vscaleX_length, hk], fun x hx => ?_⟩
      obtain ⟨y, -, rfl⟩ := List.mem_map.1 hx
      show (⟨Ext.mul rnd .nan _, Ext.mul rnd .nan _⟩ : ExtC) = _
      rw [Ext.mul_nan_left, Ext.mul_nan_left]
    unfold shiftX
    rw [this, vaddX_NN_right hu]
  have hl := List.length_replicate (n := n) (a := NN)
  obtain ⟨k1, e1, l1⟩ := matVecX_val (rnd := rnd) m hu
  obtain ⟨k2, e2, l2⟩ := matVecX_val (rnd := rnd) m hl
  have e3 : vscaleX rnd .nan k2 = List.replicate n NN := by
    rw [List.eq_replicate_iff]
    refine ⟨by rw [vscaleX_length, l2], fun x hx => ?_⟩
    obtain ⟨y, -, rfl⟩ := List.mem_map.1 hx
    show (⟨Ext.mul rnd .nan _, Ext.mul rnd .nan _⟩ : ExtC) = _
    rw [Ext.mul_nan_left, Ext.mul_nan_left]
  obtain ⟨s1, f1, g1⟩ := vaddX_val (rnd := rnd) (a := k1) (b := vscaleX rnd (.fin 2) k2) l1 (by rw [vscaleX_length, l2])
  obtain ⟨s2, f2, g2⟩ := vaddX_val (rnd := rnd) (a := s1) (b := vscaleX rnd (.fin 2) k2) g1 (by rw [vscaleX_length, l2])
  obtain ⟨s3, f3, g3⟩ := vaddX_val (rnd := rnd) (a := s2) (b := k2) g2 l2
  unfold stepMatrixX
  simp only [e1, Res.bind_val, hs _ l1, e2, hs _ l2, e3, vaddX_NN_right hu, f1, f2, f3, hs _ g3]

/-- The step width infinity, with a matrix on the imaginary axis and real start values. -/
theorem stepMatrixX_inf (h0 : rnd 0 = .val 0) {n : ℕ} (s : Bool) {m : Sparse ExtC}
    (hm : ∀ i < n, m.done.getD i [] ≠ [] ∧ ∀ e ∈ m.done.getD i [], e.1 < n ∧ ZeroNan e.2.re) {u : List ExtC} (hu : u.length = n)
    (hr : ∀ (i : ℕ) (x : ExtC), u[i]? = some x → ZeroNan x.im) : stepMatrixX rnd n (.inf s) m u = .val (List.replicate n NN) := by
  have hdiv : ∀ d : ℝ, ∃ r, Ext.div rnd (.inf s) (.fin d) = .inf r := fun d => ⟨_, rfl⟩
  have hget : ∀ {v : List ExtC} {c : ℕ}, v.length = n → c < n → ∃ x, v[c]? = some x ∧ v.getD c ExtC.zero = x := by
    intro v c hv hc
    refine ⟨v[c]'(by omega), by rw [List.getElem?_eq_getElem], ?_⟩
    simp [List.getD_eq_getElem?_getD, List.getElem?_eq_getElem (by omega : c < v.length)]
  -- the three kinds of rows
  have hk1 : ∀ {v k : List ExtC}, v.length = n → (∀ (i : ℕ) (x : ExtC), v[i]? = some x → ZeroNan x.im) → matVecX rnd n m v = .val k →
      ∀ i < n, ∀ x, k[i]? = some x → ZeroNan x.re := by
    intro v k hv hz e i hi x hx
    rw [matVecX_get e hi] at hx
    cases hx
    refine rowX_fold (P := fun z => ZeroNan z.re) v _ (hm i hi).1 (fun e he => ?_) fun a b ha hb => ha.add h0 hb
    obtain ⟨y, y1, y2⟩ := hget hv ((hm i hi).2 e he).1
    rw [y2]
    exact mul_re_zero h0 ((hm i hi).2 e he).2 (hz _ _ y1)
  have hki : ∀ {v k : List ExtC}, v.length = n → (∀ i < n, ∀ x, v[i]? = some x → x.re = .nan) → matVecX rnd n m v = .val k →
      ∀ i < n, ∀ x, k[i]? = some x → x.im = .nan := by
    intro v k hv hz e i hi x hx
    rw [matVecX_get e hi] at hx
    cases hx
    refine rowX_fold (P := fun z => z.im = .nan) v _ (hm i hi).1 (fun e he => ?_) fun a b ha hb => by
      show Ext.add rnd a.im b.im = _; rw [ha, Ext.add_nan_left]
    obtain ⟨y, y1, y2⟩ := hget hv ((hm i hi).2 e he).1
    rw [y2]
    exact mul_im_nan h0 ((hm i hi).2 e he).2 (hz _ ((hm i hi).2 e he).1 _ y1)
  have hkr : ∀ {v k : List ExtC}, v.length = n → (∀ i < n, ∀ x, v[i]? = some x → x.im = .nan) → matVecX rnd n m v = .val k →
      ∀ i < n, ∀ x, k[i]? = some x → x.re = .nan := by
    intro v k hv hz e i hi x hx
    rw [matVecX_get e hi] at hx
    cases hx
    refine rowX_fold (P := fun z => z.re = .nan) v _ (hm i hi).1 (fun e he => ?_) fun a b ha hb => by
      show Ext.add rnd a.re b.re = _; rw [ha, Ext.add_nan_left]
    obtain ⟨y, y1, y2⟩ := hget hv ((hm i hi).2 e he).1
    rw [y2]
    exact mul_re_nan h0 ((hm i hi).2 e he).2 (hz _ ((hm i hi).2 e he).1 _ y1)
  -- the step
  obtain ⟨k1, a1, l1⟩ := matVecX_val (rnd := rnd) m hu
  have z1 := hk1 hu hr a1
  obtain ⟨x1, b1, p1⟩ := shiftX_val (rnd := rnd) (.inf s) 2 hu l1
  have w1 : ∀ i < n, ∀ x, x1[i]? = some x → x.re = .nan := by
    intro i hi x hx
    obtain ⟨y, y1, -⟩ := hget hu hi
    obtain ⟨z, c1, -⟩ := hget l1 hi
    rw [shiftX_get b1 y1 c1] at hx
    cases hx
    obtain ⟨r, hr'⟩ := hdiv 2
    show Ext.add rnd _ (Ext.mul rnd _ _) = _
    rw [hr', (z1 i hi z c1).inf_mul, Ext.add_nan_right]
  obtain ⟨k2, a2, l2⟩ := matVecX_val (rnd := rnd) m p1
  have z2 := hki p1 w1 a2
  obtain ⟨x2, b2, p2⟩ := shiftX_val (rnd := rnd) (.inf s) 2 hu l2
  have w2 : ∀ i < n, ∀ x, x2[i]? = some x → x.im = .nan := by
    intro i hi x hx
    obtain ⟨y, y1, -⟩ := hget hu hi
    obtain ⟨z, c1, -⟩ := hget l2 hi
    rw [shiftX_get b2 y1 c1] at hx
    cases hx
    show Ext.add rnd _ (Ext.mul rnd _ _) = _
    rw [z2 i hi z c1, Ext.mul_nan_right, Ext.add_nan_right]
  obtain ⟨k3, a3, l3⟩ := matVecX_val (rnd := rnd) m p2
  have z3 := hkr p2 w2 a3
  obtain ⟨x3, b3, p3⟩ := vaddX_val (rnd := rnd) (a := u) (b := vscaleX rnd (.inf s) k3) hu (by rw [vscaleX_length, l3])
  obtain ⟨k4, a4, l4⟩ := matVecX_val (rnd := rnd) m p3
  obtain ⟨s1, f1, g1⟩ := vaddX_val (rnd := rnd) (a := k1) (b := vscaleX rnd (.fin 2) k2) l1 (by rw [vscaleX_length, l2])
  obtain ⟨s2, f2, g2⟩ := vaddX_val (rnd := rnd) (a := s1) (b := vscaleX rnd (.fin 2) k3) g1 (by rw [vscaleX_length, l3])
  obtain ⟨s3, f3, g3⟩ := vaddX_val (rnd := rnd) (a := s2) (b := k4) g2 l4
  have hs3 : s3 = List.replicate n NN := by
    refine eq_NN g3 fun i hi x hx => ?_
    obtain ⟨y1, c1, -⟩ := hget l1 hi
    obtain ⟨y2, c2, -⟩ := hget l2 hi
    obtain ⟨y3, c3, -⟩ := hget l3 hi
    obtain ⟨y4, c4, -⟩ := hget l4 hi
    have q1 := vaddX_get f1 c1 (vscaleX_get c2)
    have q2 := vaddX_get f2 q1 (vscaleX_get c3)
    rw [vaddX_get f3 q2 c4] at hx
    cases hx
    have i1 := z2 i hi y2 c2
    have i2 := z3 i hi y3 c3
    show (⟨Ext.add rnd (Ext.add rnd (Ext.add rnd y1.re (Ext.mul rnd _ y2.re)) (Ext.mul rnd _ y3.re)) y4.re,
      Ext.add rnd (Ext.add rnd (Ext.add rnd y1.im (Ext.mul rnd _ y2.im)) (Ext.mul rnd _ y3.im)) y4.im⟩ : ExtC) = _
    simp only [i1, i2, Ext.mul_nan_right, Ext.add_nan_right, Ext.add_nan_left]
  unfold stepMatrixX
  simp only [a1, Res.bind_val, b1, a2, b2, a3, b3, a4, f1, f2, f3]
  rw [hs3]
  exact shiftX_NN _ _ hu

end ODE

end Ieompp
