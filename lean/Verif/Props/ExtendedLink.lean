import Verif.Props.ExtendedRuns

/-! # C128: the coefficient programs with infinities and NaN are those of C117 as long as everything is finite -/

set_option autoImplicit false
set_option linter.unusedSectionVars false

namespace Ieompp

open Spec

variable {rnd : ℝ → Res ℝ}

/-- A finite complex number. -/
def Spec.embC (z : ℂ) : ExtC := ⟨.fin z.re, .fin z.im⟩

theorem Res.val_of_bind {α β : Type*} {x : Res α} {f : α → Res β} {b : β} (h : x.bind f = .val b) : ∃ a, x = .val a ∧ f a = .val b := by
  cases x with
  | ub => cases h
  | diverges => cases h
  | val a => exact ⟨a, rfl, h⟩

theorem Res.val_of_map {α β : Type*} {x : Res α} {f : α → β} {b : β} (h : x.map f = .val b) : ∃ a, x = .val a ∧ f a = b := by
  cases x with
  | ub => cases h
  | diverges => cases h
  | val a => cases h; exact ⟨a, rfl, rfl⟩

theorem add_extends {x y z : ℂ} (h : IEEE.addR rnd x y = .val z) : ExtC.add rnd (embC x) (embC y) = embC z := by
  obtain ⟨a, h1, h⟩ := Res.val_of_bind h
  obtain ⟨b, h2, h⟩ := Res.val_of_bind h
  cases h
  show (⟨Ext.round rnd (x.re + y.re), Ext.round rnd (x.im + y.im)⟩ : ExtC) = _
  rw [Sim.round_val h1, Sim.round_val h2]; rfl

theorem scale_extends {c : ℝ} {x z : ℂ} (h : IEEE.scaleR rnd c x = .val z) : ExtC.scale rnd (.fin c) (embC x) = embC z := by
  obtain ⟨a, h1, h⟩ := Res.val_of_bind h
  obtain ⟨b, h2, h⟩ := Res.val_of_bind h
  cases h
  show (⟨Ext.round rnd (c * x.re), Ext.round rnd (c * x.im)⟩ : ExtC) = _
  rw [Sim.round_val h1, Sim.round_val h2]; rfl

theorem mul_extends {x y z : ℂ} (h : IEEE.mulR rnd x y = .val z) : ExtC.mul rnd (embC x) (embC y) = embC z := by
  obtain ⟨a, h1, h⟩ := Res.val_of_bind h
  obtain ⟨b, h2, h⟩ := Res.val_of_bind h
  obtain ⟨c, h3, h⟩ := Res.val_of_bind h
  obtain ⟨d, h4, h⟩ := Res.val_of_bind h
  obtain ⟨p, h5, h⟩ := Res.val_of_bind h
  obtain ⟨q, h6, h⟩ := Res.val_of_bind h
  cases h
  have hp : ExtC.plainMul rnd (embC x) (embC y) = ⟨.fin p, .fin q⟩ := by
    unfold ExtC.plainMul embC
    simp only [Ext.mul, Sim.round_val h1, Sim.round_val h2, Sim.round_val h3, Sim.round_val h4, Ext.sub, Ext.neg, Ext.add]
    rw [← sub_eq_add_neg, Sim.round_val h5, Sim.round_val h6]
  unfold ExtC.mul
  simp only [hp, ExtC.isNan, Bool.and_self, Bool.false_eq_true, if_false]
  rfl

theorem mapR_extends {α β γ : Type*} {f : α → Res β} {g : α → γ} {φ : β → γ} (h : ∀ a b, f a = .val b → g a = φ b) :
    ∀ {l : List α} {r : List β}, IEEE.mapR f l = .val r → l.map g = r.map φ
  | [], r, e => by cases e; rfl
  | a :: l, r, e => by
    obtain ⟨b, e1, e⟩ := Res.val_of_bind e
    obtain ⟨bs, e2, e⟩ := Res.val_of_bind e
    cases e
    rw [List.map_cons, List.map_cons, h a b e1, mapR_extends h e2]

namespace ODE

theorem vadd_extends {a b c : List ℂ} (h : IEEE.vaddR rnd a b = .val c) : vaddX rnd (a.map embC) (b.map embC) = .val (c.map embC) := by
  unfold IEEE.vaddR at h
  unfold vaddX
  split_ifs at h with hl
  rw [if_pos (by simpa using hl), List.zip_map, List.map_map]
  congr 1
  exact mapR_extends (fun p b hb => add_extends hb) h

theorem vscale_extends {c : ℝ} {a b : List ℂ} (h : IEEE.vscaleR rnd c a = .val b) : vscaleX rnd (.fin c) (a.map embC) = b.map embC := by
  unfold vscaleX
  rw [List.map_map]
  exact mapR_extends (fun p b hb => scale_extends hb) h

theorem shift_extends {u k x : List ℂ} {h d : ℝ} (hd : d ≠ 0) (e : IEEE.shiftR rnd u h d k = .val x) :
    shiftX rnd (u.map embC) (.fin h) d (k.map embC) = .val (x.map embC) := by
  obtain ⟨c, e1, e⟩ := Res.val_of_bind e
  obtain ⟨y, e2, e⟩ := Res.val_of_bind e
  have : Ext.div rnd (.fin h) (.fin d) = .fin c := by
    show (if d = 0 then _ else _) = _
    rw [if_neg hd]; exact Sim.round_val e1
  unfold shiftX
  rw [this, vscale_extends e2, vadd_extends e]

/-- The stored rows of the two matrices correspond, and every column occurs once in a row. -/
structure Matches (n : ℕ) (m : Sparse ℂ) (mx : Sparse ExtC) : Prop where
  rows : ∀ i < n, mx.done.getD i [] = (m.done.getD i []).map fun e => (e.1, embC e.2)
  get : ∀ i < n, ∀ e ∈ m.done.getD i [], m.get i e.1 = e.2

theorem getD_extends (v : List ℂ) (j : ℕ) : (v.map embC).getD j ExtC.zero = embC (v.getD j 0) := by
  simp only [List.getD_eq_getElem?_getD, List.getElem?_map]
  cases v[j]? <;> rfl

theorem foldl_extends {g : ℕ → ℂ} {v : List ℂ} : ∀ {es : List (ℕ × ℂ)} (_ : ∀ e ∈ es, g e.1 = e.2) {a z : ℂ},
    (es.map (·.1)).foldl (fun (acc : Res ℂ) j => acc.bind fun a => (IEEE.mulR rnd (g j) (v.getD j 0)).bind fun p => IEEE.addR rnd a p) (.val a) = .val z →
    (es.map fun e => (e.1, embC e.2)).foldl (fun acc e => ExtC.add rnd acc (ExtC.mul rnd e.2 ((v.map embC).getD e.1 ExtC.zero))) (embC a) = embC z
  | [], _, a, z, h => by cases h; rfl
  | e :: es, hg, a, z, h => by
    rw [List.map_cons, List.foldl_cons] at h ⊢
    have stuck : ∀ (x : Res ℂ), (∀ b, x ≠ .val b) → ∀ l : List ℕ,
        l.foldl (fun (acc : Res ℂ) j => acc.bind fun a => (IEEE.mulR rnd (g j) (v.getD j 0)).bind fun p => IEEE.addR rnd a p) x ≠ .val z := by
      intro x hx l
      induction l generalizing x with
      | nil => exact hx z
      | cons j l ih =>
        rw [List.foldl_cons]
        refine ih _ fun b hb => ?_
        obtain ⟨y, e, -⟩ := Res.val_of_bind hb
        exact hx y e
    cases hr : (Res.val a).bind fun a => (IEEE.mulR rnd (g e.1) (v.getD e.1 0)).bind fun p => IEEE.addR rnd a p with
    | ub => rw [hr] at h; exact absurd h (stuck _ (fun b hb => by cases hb) _)
    | diverges => rw [hr] at h; exact absurd h (stuck _ (fun b hb => by cases hb) _)
    | val b =>
      rw [hr] at h
      rw [Res.bind_val] at hr
      obtain ⟨p, e1, e2⟩ := Res.val_of_bind hr
      rw [hg e (by simp)] at e1
      have := mul_extends e1
      simp only
      rw [getD_extends, this, add_extends e2]
      exact foldl_extends (fun e he => hg e (by simp [he])) h

theorem foldl_start {g : ℕ → ℂ} {v : List ℂ} {x : Res ℂ} {z : ℂ} {l : List ℕ}
    (h : l.foldl (fun (acc : Res ℂ) j => acc.bind fun a => (IEEE.mulR rnd (g j) (v.getD j 0)).bind fun p => IEEE.addR rnd a p) x = .val z) : ∃ a, x = .val a := by
  induction l generalizing x with
  | nil => exact ⟨z, h⟩
  | cons j l ih =>
    obtain ⟨b, hb⟩ := ih h
    obtain ⟨a, e, -⟩ := Res.val_of_bind hb
    exact ⟨a, e⟩

theorem matVec_extends {n : ℕ} {m : Sparse ℂ} {mx : Sparse ExtC} (hm : Matches n m mx) {v x : List ℂ}
    (h : IEEE.matVecR rnd n (fun i j => m.get i j) (RealSpace.storedColumns m) v = .val x) : matVecX rnd n mx (v.map embC) = .val (x.map embC) := by
  unfold IEEE.matVecR at h
  unfold matVecX
  split_ifs at h with hl
  rw [if_pos (by simpa using hl)]
  congr 1
  have key : ∀ i < n, ∀ b, IEEE.rowR rnd (fun j => m.get i j) v (RealSpace.storedColumns m i) = .val b → rowX rnd (v.map embC) (mx.done.getD i []) = embC b := by
    intro i hi b hb
    have hg := hm.get i hi
    rw [hm.rows i hi]
    unfold RealSpace.storedColumns at hb
    generalize m.done.getD i [] = es at hb hg
    cases es with
    | nil => cases hb; rfl
    | cons e es =>
      have hb : (es.map (·.1)).foldl (fun (acc : Res ℂ) j => acc.bind fun a => (IEEE.mulR rnd (m.get i j) (v.getD j 0)).bind fun p => IEEE.addR rnd a p)
        (IEEE.mulR rnd (m.get i e.1) (v.getD e.1 0)) = .val b := hb
      obtain ⟨a, ha⟩ := foldl_start hb
      rw [ha] at hb
      rw [hg e (by simp)] at ha
      have := foldl_extends (fun e he => hg e (by simp [he])) hb
      rw [← mul_extends ha, ← getD_extends] at this
      exact this
  have : ∀ l : List ℕ, (∀ i ∈ l, i < n) → ∀ x, IEEE.mapR (fun i => IEEE.rowR rnd (fun j => m.get i j) v (RealSpace.storedColumns m i)) l = .val x →
      l.map (fun i => rowX rnd (v.map embC) (mx.done.getD i [])) = x.map embC := by
    intro l
    induction l with
    | nil => intro _ x e; cases e; rfl
    | cons i l ih =>
      intro hl x e
      obtain ⟨b, e1, e⟩ := Res.val_of_bind e
      obtain ⟨bs, e2, e⟩ := Res.val_of_bind e
      cases e
      rw [List.map_cons, List.map_cons, key i (hl i (by simp)) b e1, ih (fun i hi => hl i (by simp [hi])) bs e2]
  exact this _ (fun i hi => List.mem_range.1 hi) x h

theorem step_extends {n : ℕ} {m : Sparse ℂ} {mx : Sparse ExtC} (hm : Matches n m mx) {dt : ℝ} {w : Work ℂ} {u : List ℂ} {r : Work ℂ × List ℂ}
    (h : IEEE.stepMatrixR rnd n dt (fun i j => m.get i j) (RealSpace.storedColumns m) w u = .val r) :
    stepMatrixX rnd n (.fin dt) mx (u.map embC) = .val (r.2.map embC) := by
  obtain ⟨k1, a1, h⟩ := Res.val_of_bind h
  obtain ⟨x1, a2, h⟩ := Res.val_of_bind h
  obtain ⟨k2, a3, h⟩ := Res.val_of_bind h
  obtain ⟨x2, a4, h⟩ := Res.val_of_bind h
  obtain ⟨k3, a5, h⟩ := Res.val_of_bind h
  obtain ⟨b3, a6, h⟩ := Res.val_of_bind h
  obtain ⟨x3, a7, h⟩ := Res.val_of_bind h
  obtain ⟨k4, a8, h⟩ := Res.val_of_bind h
  obtain ⟨u', h', er⟩ := Res.val_of_map h
  rw [← er]
  clear h er
  obtain ⟨c2, c1, h⟩ := Res.val_of_bind h'
  obtain ⟨s1, c3, h⟩ := Res.val_of_bind h
  obtain ⟨c4, c5, h⟩ := Res.val_of_bind h
  obtain ⟨s2, c6, h⟩ := Res.val_of_bind h
  obtain ⟨s3, c7, h⟩ := Res.val_of_bind h
  have e1 := matVec_extends hm a1
  have e2 := shift_extends two_ne_zero a2
  have e3 := matVec_extends hm a3
  have e4 := shift_extends two_ne_zero a4
  have e5 := matVec_extends hm a5
  have e6 := vscale_extends a6
  have e7 := vadd_extends a7
  have e8 := matVec_extends hm a8
  have f1 := vscale_extends c1
  have f2 := vadd_extends c3
  have f3 := vscale_extends c5
  have f4 := vadd_extends c6
  have f5 := vadd_extends c7
  have f6 := shift_extends (by norm_num) h
  unfold stepMatrixX
  simp only [e1, Res.bind_val, e2, e3, e4, e5, e6, e7, e8, f1, f2, f3, f4, f5, f6]

end ODE

namespace Sim

/-- A state with other vectors and rows. -/
def mapStateX {H O H' O' : Type} (φ : H → H') (ψ : O → O') (s : StateX H O) : StateX H' O' := ⟨φ s.h, s.t, s.last, s.out.map fun r => (r.1, ψ r.2)⟩

/-- Two programs whose steps and measurements correspond write corresponding rows. -/
theorem simulateX_transport {H O H' O' : Type} (φ : H → H') (ψ : O → O') {step : H → Res H} {step' : H' → Res H'} {measure : H → Res (H × O)}
    {measure' : H' → Res (H' × O')} (hs : ∀ h h', step h = .val h' → step' (φ h) = .val (φ h'))
    (hm : ∀ h r, measure h = .val r → measure' (φ h) = .val (φ r.1, ψ r.2)) {dt tEnd : Ext} {interval : ℕ} {h0 : H} {s : StateX H O}
    (h : simulateX rnd step measure dt tEnd interval h0 = .val s) :
    simulateX rnd step' measure' dt tEnd interval (φ h0) = .val (mapStateX φ ψ s) := by
  have hmm : ∀ s s', maybeMeasureX rnd measure dt interval s = .val s' →
      maybeMeasureX rnd measure' dt interval (mapStateX φ ψ s) = .val (mapStateX φ ψ s') := by
    intro s s' e
    obtain ⟨b, e1, e⟩ := Res.val_of_bind e
    unfold maybeMeasureX
    rw [show hasTimeIntervalPassedX rnd (mapStateX φ ψ s).t (mapStateX φ ψ s).last dt interval = .val b from e1, Res.bind_val]
    cases b with
    | false => cases e; rfl
    | true =>
      simp only [if_true] at e ⊢
      obtain ⟨r, e2, rfl⟩ := Res.val_of_map e
      rw [show (mapStateX φ ψ s).h = φ s.h from rfl, hm _ _ e2, Res.map_val]
      simp [mapStateX]
  have hb : ∀ s s', bodyX rnd step measure dt interval s = .val s' → bodyX rnd step' measure' dt interval (mapStateX φ ψ s) = .val (mapStateX φ ψ s') := by
    intro s s' e
    obtain ⟨p, e1, e⟩ := Res.val_of_bind e
    obtain ⟨h', e2, rfl⟩ := Res.val_of_map e
    unfold bodyX
    rw [hmm _ _ e1, Res.bind_val, show (mapStateX φ ψ p).h = φ p.h from rfl, hs _ _ e2, Res.map_val]
    rfl
  unfold simulateX at h ⊢
  obtain ⟨r, e1, h⟩ := Res.val_of_bind h
  obtain ⟨q, e2, hlast⟩ := Res.val_of_bind h
  obtain ⟨q', e3, e4⟩ := Res.val_of_bind e2
  have e4 : q' = .val q := e4
  subst e4
  rw [hm _ _ e1, Res.bind_val]
  obtain ⟨n, hq, hstop, hrun⟩ := (whileLoop_val _ _ _ _).1 e3
  set s0 : StateX H O := { h := r.1, t := .fin 0, last := .fin 0, out := [(.fin 0, r.2)] }
  have key : ∀ n p, (fun s : Res (StateX H O) => s.bind (bodyX rnd step measure dt interval))^[n] (Res.val s0) = .val p →
      (fun s : Res (StateX H' O') => s.bind (bodyX rnd step' measure' dt interval))^[n] (Res.val (mapStateX φ ψ s0)) = .val (mapStateX φ ψ p) := by
    intro n
    induction n with
    | zero => intro p e; cases e; rfl
    | succ n ih =>
      intro p e
      rw [Function.iterate_succ_apply'] at e ⊢
      obtain ⟨p', e1, e⟩ := Res.val_of_bind e
      rw [ih p' e1]
      exact hb _ _ e
  have hval : ∀ k < n, ∃ p, (fun s : Res (StateX H O) => s.bind (bodyX rnd step measure dt interval))^[k] (Res.val s0) = .val p ∧ Ext.Lt p.t tEnd := by
    intro k hk
    have := hrun k hk
    cases hp : (fun s : Res (StateX H O) => s.bind (bodyX rnd step measure dt interval))^[k] (Res.val s0) with
    | ub => rw [hp] at this; exact this.elim
    | diverges => rw [hp] at this; exact this.elim
    | val p => rw [hp] at this; exact ⟨p, rfl, this⟩
  have hx : whileLoop (runningX tEnd) (fun s => s.bind (bodyX rnd step' measure' dt interval)) (Res.val (mapStateX φ ψ s0)) = .val (.val (mapStateX φ ψ q)) := by
    refine (whileLoop_val _ _ _ _).2 ⟨n, (key n q hq.symm).symm, hstop, fun k hk => ?_⟩
    obtain ⟨p', e, ht⟩ := hval k hk
    rw [key k p' e]
    exact ht
  show ((whileLoop _ _ (Res.val (mapStateX φ ψ s0))).bind id).bind _ = _
  rw [hx]
  exact hmm _ _ hlast

end Sim

namespace RealSpace

variable {N z : ℕ} {nb : ℕ → List ℕ}

/-- A triplet with a finite value. -/
def Triplet.finite (t : Triplet ℝ) : Triplet Ext := ⟨t.row, t.column, .fin t.value⟩

theorem rowX_finite (h : RegularLattice N z nb) {J U half : ℝ} (hU : rnd (U / 2) = .val half) {row : ℕ} (hr : row < N + N * N * N) :
    rowTripletsX rnd N nb (.fin J) (.fin U) row = some ((rowList N nb J (2 * half) row).map Triplet.finite) := by
  have hdiv : Ext.div rnd (.fin U) (.fin 2) = .fin half := by
    show (if (2 : ℝ) = 0 then _ else _) = _
    rw [if_neg two_ne_zero]; exact Sim.round_val hU
  have h2 : 2 * half / 2 = half := by ring
  have h1 := (row_columns h J (2 * half) hr).1
  unfold rowTripletsX
  by_cases hN : row < N
  · rw [if_pos hN]
    unfold rowList
    rw [rowTriplets_one nb J (2 * half) hN]
    simp [oneTripletsX, oneTriplets, Triplet.finite, Function.comp_def, hdiv, Ext.neg]
  · rw [if_neg hN]
    unfold rowTriplets at h1
    rw [if_neg hN] at h1
    cases hb : basisSites (basis3 N) row with
    | none => rw [hb] at h1; cases h1
    | some s =>
      rw [hb] at h1
      simp only [Option.map_some, Option.some.injEq] at h1
      rw [← h1, Option.map_some]
      simp only [threeTripletsX, threeTriplets, List.map_append, List.map_map, Function.comp_def, Triplet.finite, hdiv, h2, Ext.neg]
      split_ifs <;> rfl

/-- Sorting triplets with distinct columns has one possible result. -/
theorem sort_finite {sort : List (Triplet ℝ) → List (Triplet ℝ)} {sortX : List (Triplet Ext) → List (Triplet Ext)} (hs : IsSort sort) (hsX : IsSort sortX)
    {l : List (Triplet ℝ)} (hl : (l.map Triplet.column).Nodup) : sortX (l.map Triplet.finite) = (sort l).map Triplet.finite := by
  have hX := strict_of_sorted_nodup (hsX (l.map Triplet.finite)) (by rw [List.map_map]; exact hl)
  have hR := strict_of_sorted_nodup (hs l) hl
  have hp : (sortX (l.map Triplet.finite)).Perm ((sort l).map Triplet.finite) := (hsX _).1.trans ((hs l).1.map _).symm
  refine List.Perm.eq_of_pairwise (le := fun a b : Triplet Ext => a.column < b.column) ?_ hX ?_ hp
  · intro a b _ _ h1 h2
    omega
  · rw [List.pairwise_map]
    exact hR

theorem mapR_getD {α β : Type*} {f : α → Res (List β)} {a0 : α} (h0 : f a0 = .val []) : ∀ {l : List α} {r : List (List β)}, IEEE.mapR f l = .val r →
    ∀ i, f (l.getD i a0) = .val (r.getD i [])
  | [], r, e, i => by cases e; simpa using h0
  | a :: l, r, e, i => by
    obtain ⟨b, e1, e⟩ := Res.val_of_bind e
    obtain ⟨bs, e2, e⟩ := Res.val_of_bind e
    cases e
    cases i with
    | zero => exact e1
    | succ i => simpa using mapR_getD h0 e2 i

/-- The two matrices after the multiplication with `i`. -/
theorem timesI_matches {n : ℕ} {m : Sparse ℝ} {mx : Sparse Ext} {m' : Sparse ℂ} {L : ℕ → List (Triplet ℝ)} (hL : ∀ i < n, StrictColumns (L i))
    (hm : ∀ i < n, m.done.getD i [] = Sparse.stored (L i)) (hmx : ∀ i < n, mx.done.getD i [] = Sparse.stored ((L i).map Triplet.finite))
    (h : IEEE.timesIR rnd m = .val m') : ODE.Matches n m' (timesIX rnd mx) := by
  obtain ⟨d, e, rfl⟩ := Res.val_of_map h
  have hrow : ∀ i < n, IEEE.mapR (fun e : ℕ × ℝ => (IEEE.mulR rnd (e.2 : ℂ) Complex.I).map fun z => (e.1, z)) (Sparse.stored (L i)) = .val (d.getD i []) := by
    intro i hi
    rw [← hm i hi]
    exact mapR_getD (f := IEEE.mapR fun e : ℕ × ℝ => (IEEE.mulR rnd (e.2 : ℂ) Complex.I).map fun z => (e.1, z)) (a0 := []) rfl e i
  have hI : (⟨.fin 0, .fin 1⟩ : ExtC) = embC Complex.I := by simp [embC]
  constructor
  · intro i hi
    rw [Program.timesIX_row (hmx i hi), List.map_map]
    have := mapR_extends (f := fun e : ℕ × ℝ => (IEEE.mulR rnd (e.2 : ℂ) Complex.I).map fun z => (e.1, z))
      (g := fun e : ℕ × ℝ => (e.1, ExtC.mul rnd ⟨.fin e.2, .fin 0⟩ ⟨.fin 0, .fin 1⟩)) (φ := fun e : ℕ × ℂ => (e.1, embC e.2)) (by
        intro a b hb
        obtain ⟨y, e1, rfl⟩ := Res.val_of_map hb
        have := mul_extends e1
        rw [← hI] at this
        simp only [Prod.mk.injEq, true_and]
        rw [← this]
        simp [embC]) (hrow i hi)
    rw [← this]
    simp [Sparse.stored, Function.comp_def, Triplet.finite]
  · intro i hi el hel
    -- the columns of row `i` are those of `L i`
    have hcols : ∀ {l : List (Triplet ℝ)} {r : List (ℕ × ℂ)}, StrictColumns l →
        IEEE.mapR (fun e : ℕ × ℝ => (IEEE.mulR rnd (e.2 : ℂ) Complex.I).map fun z => (e.1, z)) (Sparse.stored l) = .val r →
        ∀ el ∈ r, r.find? (fun e => e.1 = el.1) = some el := by
      intro l
      induction l with
      | nil => intro r _ e el hel; cases e; cases hel
      | cons t l ih =>
        intro r hst e el hel
        unfold StrictColumns at hst
        rw [List.pairwise_cons] at hst
        obtain ⟨b, e1, e⟩ := Res.val_of_bind e
        obtain ⟨bs, e2, e⟩ := Res.val_of_bind e
        cases e
        obtain ⟨y, -, rfl⟩ := Res.val_of_map e1
        rw [List.find?_cons]
        rcases List.mem_cons.1 hel with rfl | hel
        · simp
        · have hc : ∃ t' ∈ l, t'.column = el.1 := by
            have := mapR_extends (g := fun e : ℕ × ℝ => e.1) (φ := fun e : ℕ × ℂ => e.1) (by
              intro a b hb
              obtain ⟨y, -, rfl⟩ := Res.val_of_map hb
              rfl) e2
            have hmem : el.1 ∈ (Sparse.stored l).map (fun e => e.1) := this ▸ List.mem_map_of_mem hel
            simpa [Sparse.stored] using hmem
          obtain ⟨t', ht', ec⟩ := hc
          have : ¬ t.column = el.1 := by have := hst.1 t' ht'; omega
          simp only [this, decide_false]
          exact ih hst.2 e2 el hel
    have := hcols (hL i hi) (hrow i hi) el hel
    unfold Sparse.get
    simp only [this]

end RealSpace

namespace Program

open RealSpace

variable {N : ℕ} {sort : List (Triplet ℝ) → List (Triplet ℝ)} {sortX : List (Triplet Ext) → List (Triplet Ext)}

theorem coefficientRow_extends (h : List ℂ) : coefficientRowX (h.map embC) = (coefficientRow h).map .fin := by
  induction h with
  | nil => rfl
  | cons a h ih =>
    unfold coefficientRowX coefficientRow at ih ⊢
    rw [List.map_cons, List.flatMap_cons, List.flatMap_cons, ih, List.map_append]
    rfl

theorem initVector_extends {n : ℕ} {v : List ℂ} (h : initVector n = .val v) : initVectorX n = .val (v.map embC) := by
  cases n with
  | zero => rw [initVector_empty_ub] at h; cases h
  | succ n =>
    have : initVector (n + 1) = .val (1 :: List.replicate n 0) := rfl
    rw [this] at h
    cases h
    simp [initVectorX, embC, ExtC.zero]

/-- A program of C117 as a program with infinities. -/
theorem run_extends {n : ℕ} {m : Sparse ℂ} {mx : Sparse ExtC} (hm : ODE.Matches n m mx) {w : ODE.Work ℂ} {h : List ℂ} {dt tEnd : ℝ} {interval : ℕ}
    {s : Sim.State Vars (List ℝ)}
    (e : IEEE.simulateR rnd (IEEE.stepVarsR rnd n dt m) (fun s => .val (s, coefficientRow s.2.2)) dt tEnd interval (0, w, h) = .val s) :
    Sim.simulateX rnd (ODE.stepMatrixX rnd n (.fin dt) mx) (fun h => .val (h, coefficientRowX h)) (.fin dt) (.fin tEnd) interval (h.map embC) =
      .val ⟨s.h.2.2.map embC, .fin s.t, .fin s.last, s.out.map fun r => (.fin r.1, r.2.map .fin)⟩ := by
  have := Sim.simulateX_transport (fun v : Vars => v.2.2.map embC) (fun x : List ℝ => x.map Ext.fin)
    (step' := ODE.stepMatrixX rnd n (.fin dt) mx) (measure' := fun h => .val (h, coefficientRowX h)) (by
      intro v v' hv
      obtain ⟨r, e1, rfl⟩ := Res.val_of_map hv
      exact ODE.step_extends hm e1) (by
      intro v r hr
      cases hr
      simp only [coefficientRow_extends]) (Sim.simulateX_extends e)
  rw [this]
  simp [Sim.mapStateX, embed, Function.comp_def]

/-- **C128**: `hubbard_real_1d_rk4_coefficients` with infinities and NaN is the program of C117 whenever everything that comes up in that is finite: same times, same rows. -/
theorem real1dRk4Coefficients_extends (hN : 3 ≤ N) (hs : IsSort sort) (hsX : IsSort sortX) {J U dt tEnd : ℝ} {interval : ℕ} {w : ODE.Work ℂ}
    {s : Sim.State Vars (List ℝ)} (h : IEEE.real1dRk4CoefficientsR rnd sort w N J U dt tEnd interval = .val s) :
    ∃ sx, real1dRk4CoefficientsX rnd sortX N (.fin J) (.fin U) (.fin dt) (.fin tEnd) interval = .val sx ∧
      sx.out = s.out.map fun r => (.fin r.1, r.2.map .fin) := by
  have hreg := chain_regular (Chain.Constructed.real (N := N) (1 : ℝ) (by omega) rfl) hN
  obtain ⟨half, h1, h⟩ := Res.val_of_bind h
  obtain ⟨m, h2, h⟩ := Res.val_of_bind h
  obtain ⟨m', h3, h⟩ := Res.val_of_bind h
  obtain ⟨v, h4, h⟩ := Res.val_of_bind h
  obtain ⟨mx, ex, hx⟩ := initMatrixX_val (rnd := rnd) hreg sortX hsX (.fin J) (.fin U)
  have hlen : (basis3 N).length = N + N * N * N := (realBasis_size N).2
  have hd := initMatrix_done hreg sort J (2 * half) h2
  have hM : ODE.Matches (N + N * N * N) m' (timesIX rnd mx) :=
    timesI_matches (L := fun r => sort (rowList N (Chain.real (K := ℝ) N 1).neighbors J (2 * half) r))
      (fun i hi => strict_of_sorted_nodup (hs _) (row_columns hreg J (2 * half) hi).2.1) (fun i hi => by rw [hd]; simp [List.getD, hi])
      (fun i hi => by
        obtain ⟨l, e1, e2, -⟩ := hx i hi
        rw [rowX_finite hreg h1 hi] at e1
        cases e1
        rw [e2, sort_finite hs hsX (row_columns hreg J (2 * half) hi).2.1]) h3
  simp only [hlen] at h h4
  have run := run_extends hM h
  refine ⟨⟨s.h.2.2.map embC, .fin s.t, .fin s.last, s.out.map fun r => (.fin r.1, r.2.map .fin)⟩, ?_, rfl⟩
  unfold real1dRk4CoefficientsX
  simp only [ex, Res.bind_val, hlen, initVector_extends h4]
  exact run

/-- **C128**: the same for `hubbard_real_1d_kinetic_rk4_coefficients`. -/
theorem real1dKineticRk4Coefficients_extends (hN : 3 ≤ N) (hs : IsSort sort) (hsX : IsSort sortX) {J dt tEnd : ℝ} {interval : ℕ} {w : ODE.Work ℂ}
    {s : Sim.State Vars (List ℝ)} (h : IEEE.real1dKineticRk4CoefficientsR rnd sort w N J dt tEnd interval = .val s) :
    ∃ sx, real1dKineticRk4CoefficientsX rnd sortX N (.fin J) (.fin dt) (.fin tEnd) interval = .val sx ∧
      sx.out = s.out.map fun r => (.fin r.1, r.2.map .fin) := by
  have hreg := chain_regular (Chain.Constructed.real (N := N) (1 : ℝ) (by omega) rfl) hN
  obtain ⟨m, h2, h⟩ := Res.val_of_bind h
  obtain ⟨m', h3, h⟩ := Res.val_of_bind h
  obtain ⟨v, h4, h⟩ := Res.val_of_bind h
  obtain ⟨mx, ex, hx⟩ := initKineticMatrixX_val hreg sortX hsX (.fin J)
  have hlen : (basis1 N).length = N := (realBasis_size N).1
  have hd := initKineticMatrix_done sort J h2
  have hM : ODE.Matches N m' (timesIX rnd mx) :=
    timesI_matches (L := fun r => sort (kineticTriplets (Chain.real (K := ℝ) N 1).neighbors J r))
      (fun i hi => strict_of_sorted_nodup (hs _) (kinetic_columns hreg J hi).1) (fun i hi => by rw [hd]; simp [List.getD, hi])
      (fun i hi => by
        rw [hx i hi]
        have e : kineticTripletsX (Chain.real (K := ℝ) N 1).neighbors (.fin J) i =
            (kineticTriplets (Chain.real (K := ℝ) N 1).neighbors J i).map Triplet.finite := by
          simp [kineticTripletsX, kineticTriplets, Triplet.finite, Function.comp_def, Ext.neg]
        rw [e, sort_finite hs hsX (kinetic_columns hreg J hi).1]) h3
  simp only [hlen] at h h4
  have run := run_extends hM h
  refine ⟨⟨s.h.2.2.map embC, .fin s.t, .fin s.last, s.out.map fun r => (.fin r.1, r.2.map .fin)⟩, ?_, rfl⟩
  unfold real1dKineticRk4CoefficientsX
  simp only [ex, Res.bind_val, hlen, initVector_extends h4]
  exact run

end Program

end Ieompp
