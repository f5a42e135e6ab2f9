import Verif.Model.RK4
import Verif.Props.FermiJump
import Mathlib.Data.Matrix.Mul
import Mathlib.Data.Nat.Factorial.Basic
import Mathlib.LinearAlgebra.Matrix.Notation

/-! # C43, C44: `multiply_assign` and Runge–Kutta steps -/

set_option autoImplicit false
set_option linter.unusedSectionVars false

namespace Ieompp.Spec

variable {K : Type*} [Field K]

/-- The partial sum of the exponential series that a fourth-order Runge–Kutta step realises. -/
def exp4 {A : Type*} [Ring A] [Algebra K A] (h : K) (M : A) : A :=
  ∑ j ∈ Finset.range 5, (h ^ j / (j.factorial : K)) • M ^ j

end Ieompp.Spec

namespace Ieompp.ODE

open RealSpace (assignAt)
open MomentumSpace (vecAt)
open Ieompp.Spec

variable {K : Type*} [Field K]

/-- The matrix with the given element function. -/
def mat (n : ℕ) (m : ℕ → ℕ → K) : Matrix (Fin n) (Fin n) K := Matrix.of fun i j => m i j

/-- All accesses of `multiply_assign`, each once. -/
def allPairs (n : ℕ) : List (ℕ × ℕ) := (List.range n).flatMap fun i => (List.range n).map fun j => (i, j)

theorem ofFn_getD {n : ℕ} (f : Fin n → K) (i : Fin n) : (List.ofFn f).getD i 0 = f i := by
  rw [List.getD_eq_getElem?_getD, List.getElem?_ofFn]; simp

theorem sum_range_fin {n : ℕ} (f : ℕ → K) : ((List.range n).map f).sum = ∑ j : Fin n, f j := by
  rw [← Fin.sum_univ_eq_sum_range f n |>.symm]
  induction n with
  | zero => simp
  | succ n ih => rw [List.range_succ, List.map_append, List.sum_append, ih, Finset.sum_range_succ]; simp

theorem range_map_ofFn {n : ℕ} {α : Type*} (f : ℕ → α) : (List.range n).map f = List.ofFn fun i : Fin n => f i := by
  apply List.ext_getElem <;> simp

theorem vadd_ofFn {n : ℕ} (a b : Fin n → K) : vadd (List.ofFn a) (List.ofFn b) = .val (List.ofFn (a + b)) := by
  unfold vadd
  rw [if_pos (by simp)]
  congr 1
  apply List.ext_getElem <;> simp

theorem vscale_ofFn {n : ℕ} (c : K) (a : Fin n → K) : vscale c (List.ofFn a) = List.ofFn (c • a) := by
  unfold vscale
  apply List.ext_getElem <;> simp

theorem matVec_ofFn {n : ℕ} (m : ℕ → ℕ → K) (v : Fin n → K) :
    matVec n m (List.ofFn v) = .val (List.ofFn ((mat n m).mulVec v)) := by
  unfold matVec
  rw [if_pos (by simp), range_map_ofFn]
  congr 2
  funext i
  rw [sum_range_fin]
  refine Finset.sum_congr rfl fun j _ => ?_
  rw [ofFn_getD]; rfl

/-- The accumulations, in any order: element `i` gains the products of the events of row `i`. -/
theorem mac_fold {n : ℕ} (m : ℕ → ℕ → K) (v : Fin n → K) : ∀ (sched : List (ℕ × ℕ)) (t : Fin n → K),
    (∀ e ∈ sched, e.1 < n ∧ e.2 < n) →
    sched.foldl (macStep m (List.ofFn v)) (.val (List.ofFn t)) =
      .val (List.ofFn fun i => t i + (sched.map fun e => if e.1 = (i : ℕ) then m e.1 e.2 * (List.ofFn v).getD e.2 0 else 0).sum)
  | [], t, _ => by simp
  | e :: s, t, h => by
    obtain ⟨h1, h2⟩ := h e (by simp)
    have : macStep m (List.ofFn v) (.val (List.ofFn t)) e = .val (List.ofFn fun i : Fin n =>
        t i + if e.1 = i then m e.1 e.2 * (List.ofFn v).getD e.2 0 else 0) := by
      unfold macStep vecAt assignAt
      have g1 : (List.ofFn t)[e.1]? = some (t ⟨e.1, h1⟩) := by rw [List.getElem?_ofFn]; simp [h1]
      have g2 : (List.ofFn v)[e.2]? = some ((List.ofFn v).getD e.2 0) := by
        rw [List.getD_eq_getElem?_getD, List.getElem?_ofFn]; simp [h2]
      rw [Res.bind_val, g1, g2]
      simp only [Res.bind_val]
      rw [if_pos (by simpa using h1)]
      congr 1
      apply List.ext_getElem
      · simp
      · intro i hi1 hi2
        rw [List.getElem_set]
        simp only [List.getElem_ofFn]
        split_ifs with hc
        · subst hc; rfl
        · simp
    rw [List.foldl_cons, this, mac_fold m v s _ (fun e' he' => h e' (by simp [he']))]
    congr 2
    funext i
    rw [List.map_cons, List.sum_cons, add_assoc]

theorem mem_allPairs {n : ℕ} (e : ℕ × ℕ) : e ∈ allPairs n ↔ e.1 < n ∧ e.2 < n := by
  unfold allPairs
  simp only [List.mem_flatMap, List.mem_range, List.mem_map]
  constructor
  · rintro ⟨i, hi, j, hj, rfl⟩; exact ⟨hi, hj⟩
  · rintro ⟨h1, h2⟩; exact ⟨e.1, h1, e.2, h2, rfl⟩

theorem allPairs_sum (n : ℕ) (g : ℕ × ℕ → K) :
    ((allPairs n).map g).sum = ∑ i : Fin n, ∑ j : Fin n, g (i, j) := by
  unfold allPairs
  rw [List.map_flatMap, List.flatMap_def, List.sum_flatten, List.map_map, ← sum_range_fin
    (f := fun i => ∑ j : Fin n, g (i, j))]
  congr 1
  refine List.map_congr_left fun i _ => ?_
  simp only [Function.comp, List.map_map]
  rw [← sum_range_fin (f := fun j => g (i, j))]; rfl

/-- C43: `multiply_assign` leaves `M v` in the vector, whatever the static work vector held before (and whatever size it
had), whatever unspecified elements `resize` produced, and in whatever order the threads accumulate. -/
theorem multiplyAssign_correct (n : ℕ) (m : ℕ → ℕ → K) (junk : List K → ℕ → K) (sched : List (ℕ × ℕ))
    (hs : sched.Perm (allPairs n)) (temp : List K) (v : Fin n → K) :
    multiplyAssign n m junk sched temp (List.ofFn v) = .val (List.ofFn v, List.ofFn ((mat n m).mulVec v)) := by
  unfold multiplyAssign
  have : ((List.range n).map (junk temp)).map (fun _ => (0 : K)) = List.ofFn fun _ : Fin n => (0 : K) := by
    rw [List.map_map, range_map_ofFn]; rfl
  simp only [this]
  rw [mac_fold m v sched _ (fun e he => (mem_allPairs e).1 (hs.mem_iff.1 he)), Res.map_val]
  congr 3
  funext i
  rw [zero_add, (hs.map _).sum_eq, allPairs_sum, Finset.sum_eq_single i]
  · refine Finset.sum_congr rfl fun j _ => ?_
    simp only [if_true]
    rw [ofFn_getD]; rfl
  · intro b _ hb
    refine Finset.sum_eq_zero fun j _ => ?_
    simp only
    rw [if_neg (fun hc => hb (Fin.ext hc))]
  · simp

theorem combine_ofFn {n : ℕ} (h : K) (k1 k2 k3 k4 u : Fin n → K) :
    combine h ⟨List.ofFn k1, List.ofFn k2, List.ofFn k3, List.ofFn k4⟩ (List.ofFn u) =
      .val (List.ofFn (u + (h / 6) • (k1 + (2 : K) • k2 + (2 : K) • k3 + k4))) := by
  unfold combine
  simp only [vscale_ofFn, vadd_ofFn, Res.bind_val]

/-- The algebra of a step: the four stages combine to the truncated exponential series. -/
theorem stages_eq [CharZero K] {n : ℕ} (h : K) (M : Matrix (Fin n) (Fin n) K) (u k1 k2 k3 k4 : Fin n → K)
    (e1 : k1 = M.mulVec u) (e2 : k2 = M.mulVec (u + (h / 2) • k1)) (e3 : k3 = M.mulVec (u + (h / 2) • k2))
    (e4 : k4 = M.mulVec (u + h • k3)) :
    u + (h / 6) • (k1 + (2 : K) • k2 + (2 : K) • k3 + k4) = (exp4 h M).mulVec u := by
  have p1 : M ^ 1 = M := pow_one M
  have hx : exp4 h M = 1 + h • M + (h ^ 2 / 2) • M ^ 2 + (h ^ 3 / 6) • M ^ 3 + (h ^ 4 / 24) • M ^ 4 := by
    unfold exp4
    simp [Finset.sum_range_succ, Nat.factorial]
  rw [hx]
  simp only [Matrix.add_mulVec, Matrix.smul_mulVec, Matrix.one_mulVec]
  have q2 : (M ^ 2).mulVec u = M.mulVec (M.mulVec u) := by rw [Matrix.mulVec_mulVec, pow_two]
  have q3 : (M ^ 3).mulVec u = M.mulVec (M.mulVec (M.mulVec u)) := by
    rw [Matrix.mulVec_mulVec, Matrix.mulVec_mulVec]; congr 1; noncomm_ring
  have q4 : (M ^ 4).mulVec u = M.mulVec (M.mulVec (M.mulVec (M.mulVec u))) := by
    rw [Matrix.mulVec_mulVec, Matrix.mulVec_mulVec, Matrix.mulVec_mulVec]; congr 1; noncomm_ring
  rw [q2, q3, q4]
  subst e1 e2 e3 e4
  simp only [Matrix.mulVec_add, Matrix.mulVec_smul]
  funext i
  simp only [Pi.add_apply, Pi.smul_apply, smul_eq_mul]
  field_simp
  ring

/-- C43: the step with a stored matrix. -/
theorem stepMatrix_correct [CharZero K] (n : ℕ) (h : K) (m : ℕ → ℕ → K) (w : Work K) (u : Fin n → K) :
    ∃ w', stepMatrix n h m w (List.ofFn u) = .val (w', List.ofFn ((exp4 h (mat n m)).mulVec u)) := by
  unfold stepMatrix
  simp only [matVec_ofFn, vscale_ofFn, vadd_ofFn, Res.bind_val, combine_ofFn, Res.map_val]
  rw [stages_eq h (mat n m) u _ _ _ _ rfl rfl rfl rfl]
  exact ⟨_, rfl⟩

/-- C43: the step with a function matrix. -/
theorem stepFunction_correct [CharZero K] (n : ℕ) (h : K) (m : ℕ → ℕ → K) (junk : List K → ℕ → K) (s1 s2 s3 s4 : List (ℕ × ℕ))
    (h1 : s1.Perm (allPairs n)) (h2 : s2.Perm (allPairs n)) (h3 : s3.Perm (allPairs n)) (h4 : s4.Perm (allPairs n))
    (state : Work K × List K) (u : Fin n → K) :
    ∃ state', stepFunction n h m junk s1 s2 s3 s4 state (List.ofFn u) =
      .val (state', List.ofFn ((exp4 h (mat n m)).mulVec u)) := by
  unfold stepFunction
  simp only [multiplyAssign_correct n m junk _ h1, multiplyAssign_correct n m junk _ h2, multiplyAssign_correct n m junk _ h3,
    multiplyAssign_correct n m junk _ h4, vscale_ofFn, vadd_ofFn, Res.bind_val, combine_ofFn, Res.map_val]
  rw [stages_eq h (mat n m) u _ _ _ _ rfl rfl rfl rfl]
  exact ⟨_, rfl⟩

/-- What a call has to return, as a function of its arguments only. -/
inductive Spec.Returns : Call K → List K → Prop
  | multiply {n : ℕ} {m : ℕ → ℕ → K} {sched : List (ℕ × ℕ)} (v : Fin n → K) (hs : sched.Perm (allPairs n)) :
    Returns (.multiply n m sched (List.ofFn v)) (List.ofFn ((mat n m).mulVec v))
  | stepMatrix {n : ℕ} {h : K} {m : ℕ → ℕ → K} (u : Fin n → K) :
    Returns (.stepMatrix n h m (List.ofFn u)) (List.ofFn ((exp4 h (mat n m)).mulVec u))
  | stepFunction {n : ℕ} {h : K} {m : ℕ → ℕ → K} {s1 s2 s3 s4 : List (ℕ × ℕ)} (u : Fin n → K)
      (h1 : s1.Perm (allPairs n)) (h2 : s2.Perm (allPairs n)) (h3 : s3.Perm (allPairs n)) (h4 : s4.Perm (allPairs n)) :
    Returns (.stepFunction n h m s1 s2 s3 s4 (List.ofFn u)) (List.ofFn ((exp4 h (mat n m)).mulVec u))

/-- C43: in every history of calls (of any dimensions, with stored and function matrices mixed), from any content of the
static work vectors, every call returns the function of its own arguments: `M v`, respectively
`(1 + hM + (hM)²/2 + (hM)³/6 + (hM)⁴/24) u`. -/
theorem rk4_history [CharZero K] (junk : List K → ℕ → K) : ∀ (cs : List (Call K)) (rs : List (List K)),
    List.Forall₂ Spec.Returns cs rs → ∀ s, run junk cs s = .val rs := by
  intro cs rs h
  induction h with
  | nil => intro s; rfl
  | cons h _ ih =>
    intro s
    cases h with
    | multiply v hs =>
      unfold run
      rw [multiplyAssign_correct _ _ junk _ hs]
      simp only [Res.bind_val, ih, Res.map_val]
    | stepMatrix u =>
      obtain ⟨w', e⟩ := stepMatrix_correct _ _ _ s.forMatrix u
      unfold run
      rw [e]
      simp only [Res.bind_val, ih, Res.map_val]
    | stepFunction u h1 h2 h3 h4 =>
      obtain ⟨w', e⟩ := stepFunction_correct _ _ _ junk _ _ _ _ h1 h2 h3 h4 (s.forFunction, s.temp) u
      unfold run
      rw [e]
      simp only [Res.bind_val, ih, Res.map_val]

/-- A history with different dimensions meets the hypotheses; the second step starts from work vectors of the wrong size. -/
example : ∃ rs, List.Forall₂ Spec.Returns
    [Call.stepFunction 2 (1 / 10 : ℚ) (fun i j => i + 2 * j) (allPairs 2) (allPairs 2).reverse (allPairs 2) (allPairs 2)
      (List.ofFn ![1, 2]),
     Call.multiply 1 (fun _ _ => (3 : ℚ)) (allPairs 1) (List.ofFn ![5]),
     Call.stepMatrix 3 (1 / 2 : ℚ) (fun i j => i * j) (List.ofFn ![1, 0, 0])] rs :=
  ⟨_, .cons (.stepFunction _ (List.Perm.refl _) (List.reverse_perm _) (List.Perm.refl _) (List.Perm.refl _))
    (.cons (.multiply _ (List.Perm.refl _)) (.cons (.stepMatrix _) .nil))⟩

end Ieompp.ODE
