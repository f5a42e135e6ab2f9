import Verif.Props.Binary64Stages
import Verif.Props.Binary64Time
import Verif.Props.ProgramFloat

/-! # C117: many steps and the time loop with underflow and overflow -/

set_option autoImplicit false
set_option linter.unusedSectionVars false

namespace Ieompp.IEEE

open Ieompp.Spec ODE Program
open RealSpace (addC mulC storedColumns)

variable {n : ℕ} {rnd : ℝ → Res ℝ} {u tiny huge : ℝ}

/-- The rounding that the time loop sees. -/
theorem exists_time_rounding (A : Arithmetic rnd u tiny huge) {dt : ℝ} (h1 : tiny ≤ dt / 2) (h2 : tiny ≤ 1 / 2) :
    ∃ fl, Spec.Rounding fl u ∧ AgreesOnTimes rnd fl dt huge := by
  classical
  obtain ⟨f, hf, ha⟩ := exists_function A
  refine ⟨fun x => if min (dt / 2) (1 / 2) ≤ x ∧ x ≤ huge then f x else x, ⟨A.unit_nonneg, fun x => ?_⟩, fun x hx hx' => ?_⟩
  · split_ifs with h
    · have := hf.err x
      rwa [max_eq_left ((le_min h1 h2).trans (h.1.trans (le_abs_self x)))] at this
    · rw [sub_self, abs_zero]
      exact mul_nonneg A.unit_nonneg (abs_nonneg x)
  · have h0 : 0 ≤ x := A.tiny_nonneg.trans ((le_min h1 h2).trans hx)
    beta_reduce
    rw [if_pos ⟨hx, hx'⟩]
    exact ha x (by rwa [abs_of_nonneg h0])

/-- What the time loop needs. -/
structure SettingR (u tiny huge : ℝ) (n : ℕ) (sp : Sparse ℝ) (spc : Sparse ℂ) (z : ℕ) (B dt : ℝ) (steps : ℕ) (q σ : ℝ) : Prop where
  pos : 1 ≤ n
  get : ∀ i j, spc.get i j = Complex.I * (sp.get i j : ℂ)
  columns : ∀ i, storedColumns spc i = storedColumns sp i
  symm : ∀ p < n, ∀ q < n, sp.get p q = sp.get q p
  bound : ∀ i < n, ∑ j ∈ Finset.range n, |sp.get i j| ≤ B
  nonneg : 0 ≤ B
  stored : Stored n (fun i j => Complex.I * (sp.get i j : ℂ)) (storedColumns sp) z
  step : 0 < dt
  stable : (dt * B) ^ 2 ≤ 8
  normal : tiny ≤ dt / 6
  normal1 : tiny ≤ 1 / 2
  few : 32 * (steps : ℝ) ^ 2 * u ≤ 1
  few64 : steps < 2 ^ 64
  times : (steps + 1) * dt ≤ huge
  quotients : (steps : ℝ) + 1 ≤ huge
  slackRow : q = rowSlack z tiny * Real.sqrt n
  slackVec : σ = slack n tiny
  range : stepRange z B q σ (expPoly (dt * B) * ((1 + stepError u z (dt * B)) ^ steps * (1 + stepSlack dt q σ))) u ≤ huge

variable {sp : Sparse ℝ} {spc : Sparse ℂ} {z steps : ℕ} {B dt q σ : ℝ}

open Classical in
/-- The variables after one more step. -/
noncomputable def next (rnd : ℝ → Res ℝ) (n : ℕ) (dt : ℝ) (spc : Sparse ℂ) (x : Vars) : Vars :=
  match stepVarsR rnd n dt spc x with
  | .val y => y
  | _ => x

theorem stepRange_mono {B q σ Y Y' : ℝ} (hu : 0 ≤ u) (hB : 0 ≤ B) (h : Y ≤ Y') : stepRange z B q σ Y u ≤ stepRange z B q σ Y' u := by
  unfold stepRange
  have h1 : (2 + 12 * B) * Y ≤ (2 + 12 * B) * Y' := mul_le_mul_of_nonneg_left h (by positivity)
  have h2 : 0 ≤ (1 + u) ^ (4 * z + 24) := by positivity
  nlinarith

/-- The vectors of the run. -/
theorem SettingR.vectors (S : SettingR u tiny huge n sp spc z B dt steps q σ) (A : Arithmetic rnd u tiny huge) (w : Work ℂ) :
    ∃ X : ℕ → Vars, X 0 = (0, w, List.ofFn (unit0 n)) ∧ (∀ k < steps, stepVarsR rnd n dt spc (X k) = .val (X (k + 1))) ∧
      ∀ k ≤ steps, ∃ (w' : Work ℂ) (y : Fin n → ℂ), X k = (k, w', List.ofFn y) ∧
        norm2 (y - (Spec.exp4 (dt : ℂ) (mat n fun i j => Complex.I * (sp.get i j : ℂ)) ^ k).mulVec (unit0 n)) + (1 + stepSlack dt q σ) ≤
          (1 + stepError u z (dt * B)) ^ k * (1 + stepSlack dt q σ) := by
  obtain ⟨f, hf, ha⟩ := exists_function A
  have hu := A.unit_nonneg
  have ht0 := A.tiny_nonneg
  have hdt := S.step
  have habs : |dt| = dt := abs_of_pos hdt
  have hB0 := S.nonneg
  have hq0 : 0 ≤ q := by rw [S.slackRow]; unfold rowSlack; positivity
  have hσ0 : 0 ≤ σ := by rw [S.slackVec]; exact slack_nonneg ht0
  have hτ0 : 0 ≤ stepSlack dt q σ := by unfold stepSlack; positivity
  have hE0 : 0 ≤ expPoly (dt * B) := by unfold expPoly; positivity
  set M : ℕ → ℕ → ℂ := fun i j => Complex.I * (sp.get i j : ℂ) with hM
  set δ := stepError u z (dt * B) with hδ
  set τ := stepSlack dt q σ with hτ
  have hδ0 : 0 ≤ δ := by
    rw [hδ, stepError]
    exact mul_nonneg (sub_nonneg.2 (one_le_pow₀ (by linarith))) hE0
  have hb := bounded_of_symm S.symm S.bound
  have contr : ∀ x : Fin n → ℂ, norm2 ((Spec.exp4 (dt : ℂ) (mat n M)).mulVec x) ≤ norm2 x := fun x => by
    have := exp4_norm_le (fun i j => sp.get i j) S.symm B dt hB0 hdt.le S.bound S.stable x
    rw [← norm2_sq, ← norm2_sq] at this
    exact (sq_le_sq₀ (norm2_nonneg _) (norm2_nonneg _)).1 this
  have exact1 : ∀ k, norm2 ((Spec.exp4 (dt : ℂ) (mat n M) ^ k).mulVec (unit0 n)) ≤ 1 := by
    intro k
    induction k with
    | zero => simp [norm2_unit0 S.pos]
    | succ k ih =>
      rw [pow_succ', ← Matrix.mulVec_mulVec]
      exact (contr _).trans ih
  have hget : (fun i j => spc.get i j) = M := by funext i j; exact S.get i j
  have hcols : storedColumns spc = storedColumns sp := funext S.columns
  have step : ∀ (k : ℕ) (w : Work ℂ) (y : Fin n → ℂ), norm2 y + τ ≤ (1 + δ) ^ steps * (1 + τ) →
      ∃ (w' : Work ℂ) (y' : Fin n → ℂ), stepVarsR rnd n dt spc (k, w, List.ofFn y) = .val (k + 1, w', List.ofFn y') ∧
        norm2 (y' - (Spec.exp4 (dt : ℂ) (mat n M)).mulVec y) ≤ δ * (norm2 y + τ) := by
    intro k w y hy
    obtain ⟨w', y', e1, e2⟩ := stepMatrixR_correct (cols := storedColumns sp) (h := dt) hf ha S.pos hb hB0 S.stored
      (by rw [abs_div, habs, abs_of_pos (show (0 : ℝ) < 6 by norm_num)]; exact S.normal)
      (by rw [habs]; refine le_trans ?_ S.times; have : 0 ≤ (steps : ℝ) * dt := by positivity
          linarith) S.slackRow S.slackVec w (le_refl (norm2 y)) (by
        rw [habs]
        exact le_trans (stepRange_mono hu hB0 (mul_le_mul_of_nonneg_left hy hE0)) S.range)
    rw [habs] at e2
    refine ⟨w', y', ?_, e2⟩
    unfold stepVarsR
    rw [hget, hcols, e1]; rfl
  refine ⟨fun k => (next rnd n dt spc)^[k] (0, w, List.ofFn (unit0 n)), rfl, ?_⟩
  have inv : ∀ k ≤ steps, ∃ (w' : Work ℂ) (y : Fin n → ℂ), (next rnd n dt spc)^[k] (0, w, List.ofFn (unit0 n)) = (k, w', List.ofFn y) ∧
        norm2 (y - (Spec.exp4 (dt : ℂ) (mat n M) ^ k).mulVec (unit0 n)) + (1 + τ) ≤ (1 + δ) ^ k * (1 + τ) ∧ norm2 y + τ ≤ (1 + δ) ^ k * (1 + τ) := by
    have fin : ∀ (k : ℕ) (y : Fin n → ℂ), norm2 (y - (Spec.exp4 (dt : ℂ) (mat n M) ^ k).mulVec (unit0 n)) + (1 + τ) ≤ (1 + δ) ^ k * (1 + τ) →
        norm2 y + τ ≤ (1 + δ) ^ k * (1 + τ) := fun k y h => by
      have h1 := norm2_add_le (y - (Spec.exp4 (dt : ℂ) (mat n M) ^ k).mulVec (unit0 n)) ((Spec.exp4 (dt : ℂ) (mat n M) ^ k).mulVec (unit0 n))
      rw [sub_add_cancel] at h1
      have := exact1 k
      linarith
    intro k
    induction k with
    | zero =>
      intro _
      have : norm2 (unit0 n - (Spec.exp4 (dt : ℂ) (mat n M) ^ 0).mulVec (unit0 n)) + (1 + τ) ≤ (1 + δ) ^ 0 * (1 + τ) := by
        simp [norm2]
      exact ⟨w, unit0 n, rfl, this, fin 0 _ this⟩
    | succ k ih =>
      intro hk
      obtain ⟨w1, y1, e1, h1, h1'⟩ := ih (by omega)
      have hle : norm2 y1 + τ ≤ (1 + δ) ^ steps * (1 + τ) :=
        h1'.trans (mul_le_mul_of_nonneg_right (pow_le_pow_right₀ (by linarith) (by omega)) (by linarith))
      obtain ⟨w2, y2, e2, h2⟩ := step k w1 y1 hle
      have hnext : norm2 (y2 - (Spec.exp4 (dt : ℂ) (mat n M) ^ (k + 1)).mulVec (unit0 n)) + (1 + τ) ≤ (1 + δ) ^ (k + 1) * (1 + τ) := by
        rw [pow_succ' (Spec.exp4 (dt : ℂ) (mat n M)), ← Matrix.mulVec_mulVec]
        set x := (Spec.exp4 (dt : ℂ) (mat n M) ^ k).mulVec (unit0 n)
        have e3 := norm2_sub_le y2 ((Spec.exp4 (dt : ℂ) (mat n M)).mulVec y1) ((Spec.exp4 (dt : ℂ) (mat n M)).mulVec x)
        have e4 := contr (y1 - x)
        rw [Matrix.mulVec_sub] at e4
        have e5 : norm2 y1 ≤ norm2 (y1 - x) + 1 := by
          have := norm2_add_le (y1 - x) x
          rw [sub_add_cancel] at this
          linarith [exact1 k]
        have e6 := mul_le_mul_of_nonneg_left e5 hδ0
        have e7 := mul_le_mul_of_nonneg_left h1 (by linarith : 0 ≤ 1 + δ)
        rw [pow_succ', mul_assoc]
        refine le_trans ?_ e7
        have : (1 + δ) * (norm2 (y1 - x) + (1 + τ)) = norm2 (y1 - x) + (1 + τ) + (δ * (norm2 (y1 - x) + 1) + δ * τ) := by ring
        rw [mul_add] at h2
        linarith
      refine ⟨w2, y2, ?_, hnext, fin _ _ hnext⟩
      rw [Function.iterate_succ_apply', e1]
      unfold next
      rw [e2]
  refine ⟨fun k hk => ?_, fun k hk => ?_⟩
  · obtain ⟨w1, y1, e1, h1, h1'⟩ := inv k hk.le
    have hle : norm2 y1 + τ ≤ (1 + δ) ^ steps * (1 + τ) :=
      h1'.trans (mul_le_mul_of_nonneg_right (pow_le_pow_right₀ (by linarith) hk.le) (by linarith))
    obtain ⟨w2, y2, e2, h2⟩ := step k w1 y1 hle
    beta_reduce
    rw [Function.iterate_succ_apply', e1, e2]
    unfold next
    rw [e2]
  · obtain ⟨w1, y1, e1, h1, -⟩ := inv k hk
    exact ⟨w1, y1, e1, h1⟩

/-- Error of the vector after `k` steps. -/
noncomputable def vectorErrorR (u : ℝ) (z : ℕ) (x τ : ℝ) (k : ℕ) : ℝ :=
  ((1 + stepError u z x) ^ k - 1) * (1 + τ) + k * (x ^ 5 / 120 * Real.exp x)

/-- The vectors of the time loop: close to the exact solution, and so of bounded length. -/
theorem SettingR.flowVectors (S : SettingR u tiny huge n sp spc z B dt steps q σ) (A : Arithmetic rnd u tiny huge) (w : Work ℂ) :
    ∃ X : ℕ → Vars, X 0 = (0, w, List.ofFn (unit0 n)) ∧ (∀ k < steps, stepVarsR rnd n dt spc (X k) = .val (X (k + 1))) ∧
      ∀ k ≤ steps, ∃ (w' : Work ℂ) (y : Fin n → ℂ), X k = (k, w', List.ofFn y) ∧
        norm2 y ≤ 1 + vectorErrorR u z (dt * B) (stepSlack dt q σ) steps ∧
        ∀ v, IsFlow n (fun i j => sp.get i j) v → norm2 (y - fun p : Fin n => v ((k : ℕ) * dt) p) ≤ vectorErrorR u z (dt * B) (stepSlack dt q σ) k := by
  have hu := A.unit_nonneg
  have ht0 := A.tiny_nonneg
  have hdt := S.step
  have hB0 := S.nonneg
  have hq0 : 0 ≤ q := by rw [S.slackRow]; unfold rowSlack; positivity
  have hσ0 : 0 ≤ σ := by rw [S.slackVec]; exact slack_nonneg ht0
  have hτ0 : 0 ≤ stepSlack dt q σ := by unfold stepSlack; positivity
  have hδ0 : 0 ≤ stepError u z (dt * B) := by
    rw [stepError]
    exact mul_nonneg (sub_nonneg.2 (one_le_pow₀ (by linarith))) (by unfold expPoly; positivity)
  obtain ⟨X, hX0, hXs, hXk⟩ := S.vectors A w
  have hclose : ∀ k ≤ steps, ∃ (w' : Work ℂ) (y : Fin n → ℂ), X k = (k, w', List.ofFn y) ∧
      ∀ v, IsFlow n (fun i j => sp.get i j) v → norm2 (y - fun p : Fin n => v ((k : ℕ) * dt) p) ≤ vectorErrorR u z (dt * B) (stepSlack dt q σ) k := by
    intro k hk
    obtain ⟨w', y, e1, e2⟩ := hXk k hk
    refine ⟨w', y, e1, fun v hv => ?_⟩
    have h0 : (fun p : Fin n => v 0 p) = unit0 n := by
      funext p; exact hv.start p p.2
    obtain ⟨w1, x, e3, e4⟩ := rk4_error_linear (fun i j => sp.get i j) S.symm B dt hB0 hdt.le S.bound S.stable
      (fun t (p : Fin n) => v t p) (fun t => hasDerivAt_pi.2 fun p => by
        refine (hv.flow t p p.2).congr_deriv ?_
        rw [Finset.mul_sum, ← Fin.sum_univ_eq_sum_range (fun q => Complex.I * ((sp.get p q : ℂ) * v t q)) n]
        exact Finset.sum_congr rfl fun j _ => by rw [mul_assoc]) w k
    obtain ⟨w2, e5⟩ := integrate_correct (n := n) (dt : ℂ) (fun i j => Complex.I * (sp.get i j : ℂ)) k w (unit0 n)
    rw [h0] at e3 e4
    rw [e5] at e3
    simp only [Res.val.injEq, Prod.mk.injEq] at e3
    rw [← List.ofFn_injective e3.2, norm2_unit0 S.pos, mul_one] at e4
    have e6 := norm2_sub_le y ((Spec.exp4 (dt : ℂ) (mat n fun i j => Complex.I * (sp.get i j : ℂ)) ^ k).mulVec (unit0 n)) (fun p : Fin n => v ((k : ℕ) * dt) p)
    unfold vectorErrorR
    linarith
  have hmono : ∀ k ≤ steps, vectorErrorR u z (dt * B) (stepSlack dt q σ) k ≤ vectorErrorR u z (dt * B) (stepSlack dt q σ) steps := fun k hk => by
    unfold vectorErrorR
    have h1 : (1 + stepError u z (dt * B)) ^ k ≤ (1 + stepError u z (dt * B)) ^ steps := pow_le_pow_right₀ (by linarith) hk
    have h2 : (k : ℝ) ≤ steps := by exact_mod_cast hk
    have h3 : 0 ≤ (dt * B) ^ 5 / 120 * Real.exp (dt * B) := by positivity
    exact add_le_add (mul_le_mul_of_nonneg_right (by linarith) (by linarith)) (mul_le_mul_of_nonneg_right h2 h3)
  refine ⟨X, hX0, hXs, fun k hk => ?_⟩
  obtain ⟨w', y, e1, e2⟩ := hclose k hk
  obtain ⟨v, hv⟩ := flow_exists n fun i j => sp.get i j
  have e3 := norm2_add_le (y - fun p : Fin n => v ((k : ℕ) * dt) p) (fun p : Fin n => v ((k : ℕ) * dt) p)
  rw [sub_add_cancel] at e3
  refine ⟨w', y, e1, ?_, e2⟩
  have := flow_norm2 S.pos S.symm hv ((k : ℕ) * dt)
  have := e2 v hv
  have := hmono k hk
  linarith

/-- The time loop: no operation overflows, and what holds of every measured vector holds of the rows. -/
theorem SettingR.simulate {O : Type} (S : SettingR u tiny huge n sp spc z B dt steps q σ) (A : Arithmetic rnd u tiny huge)
    {tEnd : ℝ} (hend : tEnd + dt / 16 ≤ steps * dt) {interval : ℕ} {meas : Vars → Res (Vars × O)} (P : ℕ → (Fin n → ℂ) → O → Prop)
    (hmeas : ∀ k w (y : Fin n → ℂ), norm2 y ≤ 1 + vectorErrorR u z (dt * B) (stepSlack dt q σ) steps →
      ∃ x, meas (k, w, List.ofFn y) = .val ((k, w, List.ofFn y), x) ∧ P k y x) (w : Work ℂ) :
    ∃ h s k, initVector n = .val h ∧ simulateR rnd (stepVarsR rnd n dt spc) meas dt tEnd interval (0, w, h) = .val s ∧
      ⌈(tEnd - dt / 16) / dt⌉₊ ≤ k ∧ k ≤ ⌈(tEnd + dt / 16) / dt⌉₊ ∧ s.out.length = k / max interval 1 + 1 ∧
      ∀ j, j < s.out.length → ∃ t x, s.out[j]? = some (t, x) ∧ |t - ((j * max interval 1 : ℕ) : ℝ) * dt| ≤ dt / 16 ∧
        ∃ y : Fin n → ℂ, P (j * max interval 1) y x ∧
          ∀ v, IsFlow n (fun i j => sp.get i j) v → norm2 (y - fun p : Fin n => v ((j * max interval 1 : ℕ) * dt) p) ≤
            vectorErrorR u z (dt * B) (stepSlack dt q σ) (j * max interval 1) := by
  have hdt := S.step
  obtain ⟨h, e, hl, hh⟩ := initVector_correct S.pos
  have hhu : h = List.ofFn (unit0 n) := by
    apply List.ext_getElem?
    intro i
    by_cases hi : i < n
    · rw [hh i hi, List.getElem?_ofFn]; simp [hi, unit0]
    · rw [List.getElem?_eq_none (by omega), List.getElem?_eq_none (by simp; omega)]
  obtain ⟨X, hX0, hXs, hclose⟩ := S.flowVectors A w
  have hrow : ∀ k, ∃ o : O, k ≤ steps → ∃ (w' : Work ℂ) (y : Fin n → ℂ), X k = (k, w', List.ofFn y) ∧ meas (X k) = .val (X k, o) ∧ P k y o ∧
      ∀ v, IsFlow n (fun i j => sp.get i j) v → norm2 (y - fun p : Fin n => v ((k : ℕ) * dt) p) ≤ vectorErrorR u z (dt * B) (stepSlack dt q σ) k := by
    have key : ∀ k ≤ steps, ∃ (o : O) (w' : Work ℂ) (y : Fin n → ℂ), X k = (k, w', List.ofFn y) ∧ meas (X k) = .val (X k, o) ∧ P k y o ∧
        ∀ v, IsFlow n (fun i j => sp.get i j) v → norm2 (y - fun p : Fin n => v ((k : ℕ) * dt) p) ≤ vectorErrorR u z (dt * B) (stepSlack dt q σ) k := by
      intro k hk
      obtain ⟨w', y, e1, e3, e2⟩ := hclose k hk
      obtain ⟨o, ho, hP⟩ := hmeas k w' y e3
      exact ⟨o, w', y, e1, by rw [e1]; exact ho, hP, e2⟩
    intro k
    by_cases hk : k ≤ steps
    · obtain ⟨o, h⟩ := key k hk
      exact ⟨o, fun _ => h⟩
    · obtain ⟨o, h⟩ := key 0 (by omega)
      exact ⟨o, fun h => absurd h hk⟩
  choose o ho using hrow
  obtain ⟨fl, hfl, hat⟩ := exists_time_rounding A (dt := dt) (by have := S.normal; linarith) S.normal1
  obtain ⟨s, k, h1, h2, h3, h4, h5, h6, h7⟩ := simulateR_output (step := stepVarsR rnd n dt spc) (measure := meas) hfl hat hdt S.few S.few64
    S.times S.quotients hend (interval := interval) (inv := fun k x => x = X k) (o := o) (by
      rintro k hk x rfl
      exact ⟨_, hXs k hk, rfl⟩) (by
      rintro k hk x rfl
      obtain ⟨w', y, e1, e2, -⟩ := ho k hk
      exact ⟨_, e2, rfl⟩) (h0 := (0, w, h)) (by rw [hhu, hX0])
  refine ⟨h, s, k, e, h1, h3, h4, h6, fun j hj => ?_⟩
  have hx : s.out[j].2 = o (j * max interval 1) := by
    have := congrArg (fun l => l[j]?) h5
    simp only [List.getElem?_map] at this
    rw [List.getElem?_eq_getElem hj, List.getElem?_range (by omega)] at this
    simpa using this
  have hjs : j * max interval 1 ≤ steps := by
    refine le_trans ?_ h2
    calc j * max interval 1 ≤ k / max interval 1 * max interval 1 := Nat.mul_le_mul_right _ (by omega)
      _ ≤ k := Nat.div_mul_le_self _ _
  obtain ⟨w', y, -, -, hP, hy⟩ := ho _ hjs
  refine ⟨s.out[j].1, s.out[j].2, List.getElem?_eq_getElem hj, h7 j hj, y, ?_, hy⟩
  rw [hx]; exact hP

/-! ### The imaginary unit -/

theorem mulR_I {x : ℝ} (h0 : rnd 0 = .val 0) (hx : rnd x = .val x) : mulR rnd (x : ℂ) Complex.I = .val (Complex.I * (x : ℂ)) := by
  unfold mulR
  simp only [Complex.ofReal_re, Complex.I_re, Complex.ofReal_im, Complex.I_im, mul_zero, zero_mul, mul_one, h0, hx, Res.bind_val, sub_zero, add_zero]
  congr 1
  apply Complex.ext <;> simp

/-- The matrix times the imaginary unit, without rounding. -/
def timesI (m : Sparse ℝ) : Sparse ℂ := ⟨m.rows, m.columns, m.capacity, m.done.map (List.map fun e => (e.1, Complex.I * (e.2 : ℂ))), []⟩

theorem timesIR_eq {m : Sparse ℝ} (h0 : rnd 0 = .val 0) (h : ∀ r ∈ m.done, ∀ e ∈ r, rnd e.2 = .val e.2) : timesIR rnd m = .val (timesI m) := by
  unfold timesIR
  rw [mapR_val (g := List.map fun e => (e.1, Complex.I * (e.2 : ℂ)))]
  · rfl
  · intro r hr
    refine mapR_val fun e he => ?_
    rw [mulR_I h0 (h r hr e he)]; rfl

theorem timesI_columns (m : Sparse ℝ) (i : ℕ) : storedColumns (timesI m) i = storedColumns m i := by
  unfold storedColumns timesI
  simp only [List.getD_eq_getElem?_getD, List.getElem?_map]
  cases m.done[i]? with
  | none => rfl
  | some r => simp [Function.comp_def]

theorem timesI_get (m : Sparse ℝ) (i j : ℕ) : (timesI m).get i j = Complex.I * (m.get i j : ℂ) := by
  unfold Sparse.get timesI
  simp only [List.getD_eq_getElem?_getD, List.getElem?_map]
  cases m.done[i]? with
  | none => simp
  | some r =>
    simp only [Option.map_some, Option.getD_some]
    induction r with
    | nil => simp
    | cons e r ih =>
      by_cases he : e.1 = j
      · simp [List.find?_cons, he]
      · simpa [List.find?_cons, he] using ih

end Ieompp.IEEE
