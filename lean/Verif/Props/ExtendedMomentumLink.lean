import Verif.Props.ExtendedMomentum
import Verif.Props.Binary64TrivialRun

/-! # C135: the program with infinities extends that of C122 -/

set_option autoImplicit false
set_option linter.unusedSectionVars false

namespace Ieompp.IEEE

open Ieompp.Spec ExtC MomentumSpace
open RealSpace

variable {rnd : ℝ → Res ℝ} {N : ℕ} {cosF : ℝ → ℝ}

theorem storeLoop_congr_sched {α : Type} {f g : ℕ → Res α} : ∀ {sched : List ℕ} {v : List α}, (∀ i ∈ sched, f i = g i) → storeLoop f sched v = storeLoop g sched v := by
  intro sched v h
  unfold storeLoop
  refine foldl_congr_mem _ fun a ha b => ?_
  simp only [h a ha]

theorem dispersionFunction_extends (values : List ℝ) (i : ℕ) :
    dispersionFunctionX (values.map Ext.fin) i = .fin (Program.dispersionFunction values i) := by
  unfold dispersionFunctionX Program.dispersionFunction Hubbard.dispersionAt vecAt
  rw [List.getD_eq_getElem?_getD, List.getElem?_map]
  cases values[i]? <;> rfl

theorem mapR_range {β : Type*} {f : ℕ → Res β} {n : ℕ} {r : List β} (h : mapR f (List.range n) = .val r) :
    r.length = n ∧ ∀ i < n, ∃ x, r[i]? = some x ∧ f i = .val x := by
  have key : ∀ (l : List ℕ) (r : List β), mapR f l = .val r → r.length = l.length ∧ ∀ (i a : ℕ), l[i]? = some a → ∃ x, r[i]? = some x ∧ f a = .val x := by
    intro l
    induction l with
    | nil => intro r e; cases e; exact ⟨rfl, fun i a h => by simp at h⟩
    | cons b l ih =>
      intro r e
      obtain ⟨x, e1, e⟩ := Res.val_of_bind e
      obtain ⟨xs, e2, e⟩ := Res.val_of_bind e
      cases e
      obtain ⟨h1, h2⟩ := ih xs e2
      refine ⟨by simp [h1], fun i a h => ?_⟩
      cases i with
      | zero => simp only [List.getElem?_cons_zero, Option.some.injEq] at h; subst h; exact ⟨x, rfl, e1⟩
      | succ i => rw [List.getElem?_cons_succ] at h ⊢; exact h2 i a h
  obtain ⟨h1, h2⟩ := key _ _ h
  rw [List.length_range] at h1
  exact ⟨h1, fun i hi => h2 i i (by simp [hi])⟩

theorem row_extends {basis : List HMonomial} {eps : ℕ → ℝ} {epsX : ℕ → Ext} (he : ∀ i, epsX i = .fin (eps i)) {a b : ℝ} {row : ℕ} {l : List (Triplet ℝ)}
    (h : rowTripletsR rnd basis eps a b row = .val l) : momentumRowX rnd basis epsX (.fin a) (.fin b) row = some (l.map Triplet.finite) := by
  unfold rowTripletsR at h
  unfold momentumRowX
  by_cases h0 : row = 0
  · rw [if_pos h0] at h ⊢
    obtain ⟨m, h1, h⟩ := Res.val_of_bind h
    obtain ⟨op, h2, h⟩ := Res.val_of_bind h
    obtain ⟨d, h3, h⟩ := Res.val_of_bind h
    cases h
    have e1 : basis.head? = some m := by
      unfold vecAt at h1
      rw [List.head?_eq_getElem?]
      cases e : basis[0]? with
      | none => rw [e] at h1; cases h1
      | some x => rw [e] at h1; cases h1; rfl
    have e2 : m.head? = some op := by
      unfold vecAt at h2
      rw [List.head?_eq_getElem?]
      cases e : m[0]? with
      | none => rw [e] at h2; cases h2
      | some x => rw [e] at h2; cases h2; rfl
    rw [e1, Option.bind_some, e2, Option.map_some, he, addX h3]
    simp [Triplet.finite, Function.comp_def]
  · rw [if_neg h0] at h ⊢
    cases hs : basisSites basis row with
    | none => rw [hs] at h; cases h
    | some s =>
      rw [hs] at h
      obtain ⟨x, h1, h⟩ := Res.val_of_bind h
      obtain ⟨y, h2, h⟩ := Res.val_of_bind h
      obtain ⟨d, h3, h⟩ := Res.val_of_bind h
      cases h
      rw [Option.map_some, he, he, he, addX h1, subX h2, addX h3]
      rfl

/-- The matrix. -/
theorem matrix_extends (hN : 0 < N) {q : ℕ} {eps : ℕ → ℝ} {epsX : ℕ → Ext} (he : ∀ i, epsX i = .fin (eps i)) {U : ℝ} {m : Sparse ℝ} {m' : Sparse ℂ}
    (h : momentumMatrixR rnd (Spec.entries N q) N eps U N = .val m) (h' : timesIR rnd m = .val m') :
    ∃ mx, momentumMatrixX rnd (Spec.entries N q) N epsX (.fin U) N = .val mx ∧ ODE.Matches (N * N + 1) m' (timesIX rnd mx) := by
  obtain ⟨a, h1, h⟩ := Res.val_of_bind h
  obtain ⟨n, h2, h⟩ := Res.val_of_bind h
  obtain ⟨n2, h3, h⟩ := Res.val_of_bind h
  obtain ⟨b, h4, h⟩ := Res.val_of_bind h
  obtain ⟨rows, h5, h⟩ := Res.val_of_bind h
  obtain ⟨mx, x1, x2⟩ := momentumMatrixX_val (rnd := rnd) (q := q) hN epsX (.fin U)
  have ha : Ext.div rnd (.fin U) (.fin 2) = .fin a := divX two_ne_zero h1
  have hb : Ext.div rnd (.fin U) (Ext.mul rnd (.fin 2) (Ext.round rnd N)) = .fin b := by
    rw [Sim.round_val h2, mulX h3, divRX h4]
  rw [ha, hb] at x2
  rw [entries_length] at h h5
  obtain ⟨r1, r2⟩ := mapR_range h5
  set L : ℕ → List (Triplet ℝ) := fun i => rows.getD i [] with hLd
  have hL : ∀ i < N * N + 1, rows[i]? = some (L i) ∧ rowListX rnd N q epsX (.fin a) (.fin b) i = (L i).map Triplet.finite := by
    intro i hi
    obtain ⟨l, e1, e2⟩ := r2 i hi
    have : L i = l := by rw [hLd]; simp only [List.getD_eq_getElem?_getD, e1, Option.getD_some]
    rw [this]
    refine ⟨e1, ?_⟩
    unfold rowListX
    rw [row_extends he e2]; rfl
  have hstrict : ∀ i < N * N + 1, StrictColumns (L i) := by
    intro i hi
    have := (momentumRowX_ok (rnd := rnd) (q := q) (eps := epsX) (a := .fin a) (b := .fin b) hi).2.1
    rw [(hL i hi).2] at this
    unfold StrictColumns at this ⊢
    rw [List.pairwise_map] at this
    exact this
  have hdone : ∀ i < N * N + 1, m.done.getD i [] = Sparse.stored (L i) := by
    have hok : ∀ i < N * N + 1, (∀ t ∈ L i, t.column < N * N + 1) ∧ (L i).length = if i = 0 then N * N + 1 else 2 := by
      intro i hi
      obtain ⟨-, -, k1, k2⟩ := momentumRowX_ok (rnd := rnd) (q := q) (eps := epsX) (a := .fin a) (b := .fin b) hi
      rw [(hL i hi).2] at k1 k2
      rw [List.length_map] at k2
      exact ⟨fun t ht => k1 _ (List.mem_map_of_mem ht), k2⟩
    have len : ((List.range' 0 (N * N + 1)).map (fun r => (L r).length)).sum = 3 * (N * N) + 1 := by
      have : (List.range' 0 (N * N + 1)).map (fun r => (L r).length) =
          (List.range' 0 (N * N + 1)).map (fun r => if r = 0 then N * N + 1 else 2) := by
        apply List.map_congr_left
        intro r hr
        rw [List.mem_range'_1] at hr
        exact (hok r (by omega)).2
      rw [this, sum_first (b := 2) (N * N) (by intro r hr; rw [if_neg hr])]
      simp only [if_true]; ring
    have cap : 3 * (N * N) + 1 ≤ numberOfMatrixElements N := by
      unfold numberOfMatrixElements
      have : N * (1 + 3 * N) = N + 3 * (N * N) := by ring
      rw [this]; omega
    have hf := Sparse.fillRows_val (fun row => rows[row]?) L (N * N + 1) (Sparse.init (N * N + 1) (numberOfMatrixElements N)) rfl (by simp [Sparse.init])
      (by
        intro row _ hr
        have hr : row < N * N + 1 := by simpa [Sparse.init] using hr
        exact ⟨(hL row hr).1, hstrict row hr, (hok row hr).1⟩)
      (by
        have : (Sparse.init (S := ℝ) (N * N + 1) (numberOfMatrixElements N)).nonZeros = 0 := by
          simp [Sparse.init, Sparse.nonZeros]
        rw [this, zero_add]
        show ((List.range' 0 (N * N + 1)).map (fun r => (L r).length)).sum ≤ numberOfMatrixElements N
        rw [len]; exact cap)
    have hl0 : (Sparse.init (S := ℝ) (N * N + 1) (numberOfMatrixElements N)).done.length = 0 := rfl
    rw [hl0, ← List.range_eq_range'] at hf
    rw [hf] at h
    cases h
    intro i hi
    simp [Sparse.init, List.getD, hi]
  exact ⟨mx, x1, timesI_matches hstrict hdone (fun i hi => by rw [x2 i hi, (hL i hi).2]) h'⟩

/-- Several steps. -/
theorem steps_extends {n : ℕ} {m : Sparse ℂ} {mx : Sparse ExtC} (hm : ODE.Matches n m mx) {dt : ℝ} : ∀ (k : ℕ) {s s' : Program.Vars},
    stepsR rnd n dt m k s = .val s' → stepsX rnd n (.fin dt) mx k (s.2.2.map embC) = .val (s'.2.2.map embC)
  | 0, s, s', h => by cases h; rfl
  | k + 1, s, s', h => by
    obtain ⟨t, h1, h⟩ := Res.val_of_bind h
    obtain ⟨r, e1, rfl⟩ := Res.val_of_map h1
    rw [stepsX, ODE.step_extends hm e1, Res.bind_val]
    exact steps_extends hm k h

/-- **C135**: the program with infinities and NaN is the program of C122 whenever everything that comes up in that is finite: the same two numbers. -/
theorem momentum1dRk4_extends (hN : 1 ≤ N) (hN' : N ≤ 1024) {J U dt first second : ℝ} {conjugation energies : List ℕ}
    (hc : conjugation.Perm (List.range (N * N + 1))) (he : energies.Perm (List.range N)) {w : ODE.Work ℂ}
    (h : momentum1dRk4R binary64 cosF (double Real.pi) conjugation energies w N J U dt = .val (first, second)) :
    momentum1dRk4X binary64 cosF (double Real.pi) conjugation energies N (.fin J) (.fin U) (.fin dt) = .val (.fin first, .fin second) := by
  have hNp : 0 < N := by omega
  have hq : N / 2 < N := by omega
  obtain ⟨π1, π2, π3⟩ := doublePi_setup
  unfold momentum1dRk4R at h
  simp only at h
  have hconj : RealSpace.getConjugate conjugation (Spec.entries N (N / 2)) = conjBasis (Spec.entries N (N / 2)) :=
    parallelModify_eq_map _ _ _ (by rw [entries_length]; exact hc)
  have hsz : (Chain.momentumF double (double Real.pi) N).size = N := rfl
  have hsz' : (Chain.real (K := ℝ) N 1).size = N := rfl
  rw [(momentumR_ok π1 π2 hNp hN').1, Res.bind_val, momentumBasis3R_ok π1 π2 π3 hNp hN' hq, Res.bind_val, hsz, hsz', entries_length, hconj] at h
  obtain ⟨values, h1, h⟩ := Res.val_of_bind h
  obtain ⟨m, h2, h⟩ := Res.val_of_bind h
  obtain ⟨m', h3, h⟩ := Res.val_of_bind h
  obtain ⟨v, h4, h⟩ := Res.val_of_bind h
  obtain ⟨table, h5, h⟩ := Res.val_of_bind h
  obtain ⟨x, h6, h⟩ := Res.val_of_bind h
  obtain ⟨s, h7, h⟩ := Res.val_of_bind h
  obtain ⟨y, h8, h⟩ := Res.val_of_map h
  cases h
  have hvals : chainDispersionX binary64 cosF (Chain.momentumF double (double Real.pi) N) (.fin J) energies = .val (values.map .fin) := by
    have hmem : ∀ i ∈ energies, i < N := fun i hi => by rw [he.mem_iff] at hi; exact List.mem_range.1 hi
    unfold chainDispersionR at h1
    rw [storeLoop_congr_sched (g := fun i => if i < N then energyR binary64 cosF (Chain.momentumF double (double Real.pi) N) 1 J i else .ub)
      fun i hi => (if_pos (hmem i hi)).symm] at h1
    have := (storeLoop_extends (g := fun i => .val (energyX binary64 cosF (Chain.momentumF double (double Real.pi) N) 1 (.fin J) i)) (φ := Ext.fin) (by
      intro i z hz
      by_cases hi : i < N
      · rw [if_pos hi] at hz
        rw [energyX_fin (lt_of_lt_of_le hi (hN'.trans (by norm_num))) hz]
      · rw [if_neg hi] at hz; cases hz) h1).1
    rw [List.map_replicate] at this
    exact this
  obtain ⟨mx, e2, hM⟩ := matrix_extends hNp (dispersionFunction_extends values) h2 h3
  have htable : nonVanishing (S := ℝ) (Spec.entries N (N / 2)) (conjBasis (Spec.entries N (N / 2))) (occupationEnergy (dispersionFunctionX (values.map .fin))) 0 =
      .val table := by
    rw [tableX_eq hq, ← h5]
    refine (nonVanishing_eq (K := ℝ) (disp := Program.dispersionFunction values) (eF := 0) (fun k hk σ => ?_) hq).symm
    rw [mem_seaOfX hk σ, dispersionFunction_extends]
    rfl
  unfold momentum1dRk4X
  simp only
  rw [(momentumR_ok π1 π2 hNp hN').1, Res.bind_val, momentumBasis3R_ok π1 π2 π3 hNp hN' hq, Res.bind_val, hsz, hsz', entries_length, hconj, hvals, Res.bind_val,
    e2, Res.bind_val, Program.initVector_extends h4, Res.bind_val, htable, Res.bind_val, particleNumber_extends h6, Res.bind_val,
    steps_extends hM 8 h7, Res.bind_val, particleNumber_extends h8, Res.map_val]

end Ieompp.IEEE
