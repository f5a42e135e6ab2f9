import Verif.Props.ExtendedStep
import Verif.Props.ExtendedOccupationLink
import Verif.Props.Binary64MomentumProgram
import Verif.Props.MomentumSharp
import Verif.Model.ExtendedMomentum
import Verif.Spec.ExtendedMomentum

/-! # C135: the program `hubbard_momentum_1d_rk4` with parameters that are not finite -/

set_option autoImplicit false
set_option linter.unusedSectionVars false

namespace Ieompp

variable {rnd : ℝ → Res ℝ}

namespace Ext

theorem NotFinite.add_left {x : Ext} (h : x.NotFinite) (y : Ext) : (add rnd x y).NotFinite := by
  rcases h with rfl | ⟨s, rfl⟩
  · exact Or.inl (add_nan_left y)
  · cases y with
    | nan => exact Or.inl rfl
    | fin y => exact Or.inr ⟨s, rfl⟩
    | inf t =>
      cases s <;> cases t
      · exact Or.inr ⟨_, rfl⟩
      · exact Or.inl rfl
      · exact Or.inl rfl
      · exact Or.inr ⟨_, rfl⟩

theorem NotFinite.add_right (x : Ext) {y : Ext} (h : y.NotFinite) : (add rnd x y).NotFinite := by
  rcases h with rfl | ⟨s, rfl⟩
  · exact Or.inl (add_nan_right x)
  · cases x with
    | nan => exact Or.inl rfl
    | fin y => exact Or.inr ⟨s, rfl⟩
    | inf t =>
      cases s <;> cases t
      · exact Or.inr ⟨_, rfl⟩
      · exact Or.inl rfl
      · exact Or.inl rfl
      · exact Or.inr ⟨_, rfl⟩

theorem NotFinite.mul_left {x : Ext} (h : x.NotFinite) (y : Ext) : (mul rnd x y).NotFinite := by
  rcases h with rfl | ⟨s, rfl⟩
  · exact Or.inl (mul_nan_left y)
  · cases y with
    | nan => exact Or.inl rfl
    | inf t => exact Or.inr ⟨_, rfl⟩
    | fin y =>
      show (if y = 0 then _ else _ : Ext).NotFinite
      split_ifs
      · exact Or.inl rfl
      · exact Or.inr ⟨_, rfl⟩

theorem NotFinite.div_left {x : Ext} (h : x.NotFinite) (y : Ext) : (div rnd x y).NotFinite := by
  rcases h with rfl | ⟨s, rfl⟩
  · cases y <;> exact Or.inl rfl
  · cases y with
    | nan => exact Or.inl rfl
    | inf t => exact Or.inl rfl
    | fin y => exact Or.inr ⟨_, rfl⟩

end Ext

namespace MomentumSpace

open Ieompp.Spec ExtC

variable {N q : ℕ} {eps : ℕ → Ext} {a b U : Ext}

/-! ### The matrix -/

/-- The elements of a row. -/
noncomputable def rowListX (rnd : ℝ → Res ℝ) (N q : ℕ) (eps : ℕ → Ext) (a b : Ext) (row : ℕ) : List (Triplet Ext) :=
  (momentumRowX rnd (Spec.entries N q) eps a b row).getD []

theorem momentumRowX_zero : momentumRowX rnd (Spec.entries N q) eps a b 0 =
    some (⟨0, 0, Ext.add rnd (eps q) a⟩ :: (List.range' 1 (N * N)).map (fun i => ⟨0, i, b⟩)) := by
  unfold momentumRowX
  rw [if_pos rfl, entries_length, Nat.add_sub_cancel]
  rfl

theorem momentumRowX_three {i1 i2 : ℕ} (h1 : i1 < N) (h2 : i2 < N) :
    momentumRowX rnd (Spec.entries N q) eps a b (get3opIndex N i1 i2) =
    some [⟨get3opIndex N i1 i2, 0, b⟩, ⟨get3opIndex N i1 i2, get3opIndex N i1 i2,
      Ext.add rnd (Ext.sub rnd (Ext.add rnd (eps i1) (eps i2)) (eps (third N q i1 i2))) a⟩] := by
  unfold momentumRowX
  rw [if_neg (by unfold get3opIndex; omega)]
  unfold RealSpace.basisSites
  rw [entries_getElem N q h1 h2]
  rfl

theorem momentumRowX_ok {row : ℕ} (hr : row < N * N + 1) :
    momentumRowX rnd (Spec.entries N q) eps a b row = some (rowListX rnd N q eps a b row) ∧
    StrictColumns (rowListX rnd N q eps a b row) ∧ (∀ t ∈ rowListX rnd N q eps a b row, t.column < N * N + 1) ∧
    (rowListX rnd N q eps a b row).length = if row = 0 then N * N + 1 else 2 := by
  by_cases h0 : row = 0
  · subst h0
    have e := momentumRowX_zero (rnd := rnd) (N := N) (q := q) (eps := eps) (a := a) (b := b)
    unfold rowListX
    rw [e]
    refine ⟨rfl, ?_, ?_, by simp⟩
    · simp only [Option.getD_some]
      unfold StrictColumns
      rw [List.pairwise_cons]
      constructor
      · intro t ht
        rw [List.mem_map] at ht
        obtain ⟨i, hi, rfl⟩ := ht
        rw [List.mem_range'_1] at hi
        simp only; omega
      · rw [List.pairwise_map]
        exact List.pairwise_lt_range'
    · simp only [Option.getD_some, List.mem_cons, List.mem_map, List.mem_range'_1]
      rintro t (rfl | ⟨i, hi, rfl⟩)
      · simp
      · simp only; omega
  · obtain ⟨i1, i2, h1, h2, rfl⟩ := index_surj N h0 hr
    have e := momentumRowX_three (rnd := rnd) (q := q) (eps := eps) (a := a) (b := b) h1 h2
    unfold rowListX
    rw [e, if_neg h0]
    refine ⟨rfl, ?_, ?_, rfl⟩
    · simp only [Option.getD_some, StrictColumns, List.pairwise_cons, List.mem_singleton, forall_eq,
        List.not_mem_nil, false_imp_iff, implies_true, List.Pairwise.nil, and_true]
      omega
    · simp only [Option.getD_some, List.mem_cons, List.not_mem_nil, or_false]
      rintro t (rfl | rfl)
      · simp
      · exact hr

/-- **C135**: the matrix is assembled for all values of the parameters. -/
theorem momentumMatrixX_val (hN : 0 < N) (eps : ℕ → Ext) (U : Ext) :
    ∃ m, momentumMatrixX rnd (Spec.entries N q) N eps U N = .val m ∧ ∀ row < N * N + 1,
      m.done.getD row [] = Sparse.stored (rowListX rnd N q eps (Ext.div rnd U (.fin 2)) (Ext.div rnd U (Ext.mul rnd (.fin 2) (Ext.round rnd N))) row) := by
  set a := Ext.div rnd U (.fin 2)
  set b := Ext.div rnd U (Ext.mul rnd (.fin 2) (Ext.round rnd N))
  have len : ((List.range' 0 (N * N + 1)).map (fun r => (rowListX rnd N q eps a b r).length)).sum = 3 * (N * N) + 1 := by
    have : (List.range' 0 (N * N + 1)).map (fun r => (rowListX rnd N q eps a b r).length) =
        (List.range' 0 (N * N + 1)).map (fun r => if r = 0 then N * N + 1 else 2) := by
      apply List.map_congr_left
      intro r hr
      rw [List.mem_range'_1] at hr
      exact (momentumRowX_ok (by omega)).2.2.2
    rw [this, sum_first (b := 2) (N * N) (by intro r hr; rw [if_neg hr])]
    simp only [if_true]; ring
  have cap : 3 * (N * N) + 1 ≤ numberOfMatrixElements N := by
    unfold numberOfMatrixElements
    have : N * (1 + 3 * N) = N + 3 * (N * N) := by ring
    rw [this]; omega
  refine ⟨⟨N * N + 1, N * N + 1, numberOfMatrixElements N,
      [] ++ (List.range' 0 (N * N + 1)).map (fun r => Sparse.stored (rowListX rnd N q eps a b r)), []⟩, ?_, fun row hr => RealSpace.stored_getD hr⟩
  unfold momentumMatrixX
  simp only
  rw [List.range_eq_range', entries_length]
  refine Sparse.fillRows_val _ (rowListX rnd N q eps a b) (N * N + 1) (Sparse.init (N * N + 1) (numberOfMatrixElements N)) rfl (by simp [Sparse.init]) ?_ ?_
  · intro row _ hr
    have hr : row < N * N + 1 := by simpa [Sparse.init] using hr
    obtain ⟨h1, h2, h3, _⟩ := momentumRowX_ok (rnd := rnd) (q := q) (eps := eps) (a := a) (b := b) hr
    exact ⟨h1, h2, h3⟩
  · have : (Sparse.init (S := Ext) (N * N + 1) (numberOfMatrixElements N)).nonZeros = 0 := by
      simp [Sparse.init, Sparse.nonZeros]
    rw [this, zero_add]
    show ((List.range' 0 (N * N + 1)).map (fun r => (rowListX rnd N q eps a b r).length)).sum ≤ numberOfMatrixElements N
    rw [len]; exact cap

theorem rowListX_zero : rowListX rnd N q eps a b 0 =
    ⟨0, 0, Ext.add rnd (eps q) a⟩ :: (List.range' 1 (N * N)).map (fun i => ⟨0, i, b⟩) := by
  unfold rowListX; rw [momentumRowX_zero]; rfl

theorem rowListX_three {i1 i2 : ℕ} (h1 : i1 < N) (h2 : i2 < N) : rowListX rnd N q eps a b (get3opIndex N i1 i2) =
    [⟨get3opIndex N i1 i2, 0, b⟩, ⟨get3opIndex N i1 i2, get3opIndex N i1 i2,
      Ext.add rnd (Ext.sub rnd (Ext.add rnd (eps i1) (eps i2)) (eps (third N q i1 i2))) a⟩] := by
  unfold rowListX; rw [momentumRowX_three h1 h2]; rfl

/-! ### The steps -/

/-- The vector the program starts with. -/
abbrev start (n : ℕ) : List ExtC := (⟨.fin 1, .fin 0⟩ : ExtC) :: List.replicate (n - 1) ExtC.zero

theorem start_length {n : ℕ} (hn : 0 < n) : (start n).length = n := by simp; omega

/-- A product with a vector of NaN. -/
theorem matVecX_NN (h0 : rnd 0 = .val 0) {n : ℕ} {m : Sparse ExtC} (hm : ∀ i < n, ∃ e ∈ m.done.getD i [], e.1 < n) :
    ODE.matVecX rnd n m (List.replicate n NN) = .val (List.replicate n NN) := by
  refine ODE.matVecX_hit (by simp) fun i hi => ?_
  obtain ⟨e, he, hc⟩ := hm i hi
  refine ⟨e, he, ?_⟩
  have : (List.replicate n NN).getD e.1 ExtC.zero = NN := by simp [List.getD_eq_getElem?_getD, hc]
  rw [this, mul_NN_right h0]

theorem energies_diagonal {i1 i2 : ℕ} (heps : ∀ k < N, (eps k).NotFinite) (h1 : i1 < N) (a : Ext) :
    (Ext.add rnd (Ext.sub rnd (Ext.add rnd (eps i1) (eps i2)) (eps (third N q i1 i2))) a).NotFinite :=
  ((((heps i1 h1).add_left _).add_left _).add_left _)

/-- **C135**: with energies, an interaction or a step width that are not finite, a step makes NaN of all coefficients. -/
theorem step_notFinite (h0 : rnd 0 = .val 0) (hN : 0 < N) {m : Sparse Ext} {dt : Ext}
    (hm : momentumMatrixX rnd (Spec.entries N q) N eps U N = .val m)
    (hbad : (∀ k < N, (eps k).NotFinite) ∨ U.NotFinite ∨ dt.NotFinite) {u : List ExtC}
    (hu : u = start (N * N + 1) ∨ u = List.replicate (N * N + 1) NN) :
    ODE.stepMatrixX rnd (N * N + 1) dt (RealSpace.timesIX rnd m) u = .val (List.replicate (N * N + 1) NN) := by
  obtain ⟨m', e, hrow⟩ := momentumMatrixX_val (rnd := rnd) (q := q) hN eps U
  rw [hm] at e
  cases e
  set a := Ext.div rnd U (.fin 2)
  set b := Ext.div rnd U (Ext.mul rnd (.fin 2) (Ext.round rnd N))
  have hNN : 1 ≤ N * N := Nat.mul_pos hN hN
  have hne : ∀ i < N * N + 1, (RealSpace.timesIX rnd m).done.getD i [] ≠ [] ∧ ∀ e ∈ (RealSpace.timesIX rnd m).done.getD i [], e.1 < N * N + 1 ∧ ZeroNan e.2.re := by
    intro i hi
    obtain ⟨-, -, k1, k2⟩ := momentumRowX_ok (rnd := rnd) (q := q) (eps := eps) (a := a) (b := b) hi
    rw [Program.timesIX_row (hrow i hi)]
    refine ⟨fun h => ?_, fun e he => ?_⟩
    · have := congrArg List.length h
      rw [List.length_map, k2, List.length_nil] at this
      split_ifs at this
    · obtain ⟨t, ht, rfl⟩ := List.mem_map.1 he
      exact ⟨k1 t ht, timesI_re h0 _⟩
  have hNNv := matVecX_NN (m := RealSpace.timesIX rnd m) h0 fun i hi => by
    obtain ⟨h1, h2⟩ := hne i hi
    obtain ⟨e, he⟩ := List.exists_mem_of_ne_nil _ h1
    exact ⟨e, he, (h2 e he).1⟩
  rcases hu with rfl | rfl
  swap
  · exact ODE.stepMatrixX_NN dt (by simp) hNNv hNNv
  have hl := start_length (n := N * N + 1) (by omega)
  rcases hbad with he | hU | hdt
  · -- the energies
    obtain ⟨k1, e1, l1⟩ := ODE.matVecX_val (rnd := rnd) (RealSpace.timesIX rnd m) hl
    obtain ⟨x, e2, l2⟩ := ODE.shiftX_val (rnd := rnd) dt 2 hl l1
    have hk1 : ∀ i1 < N, ∀ i2 < N, k1[get3opIndex N i1 i2]? = some NN := by
      intro i1 h1 i2 h2
      have hlt := index_lt h1 h2
      rw [ODE.matVecX_get e1 hlt, Program.timesIX_row (hrow _ hlt), rowListX_three h1 h2]
      have hz : (start (N * N + 1)).getD (get3opIndex N i1 i2) ExtC.zero = ExtC.zero := Program.initVectorX_getD (by unfold get3opIndex; omega)
      show some (ExtC.add rnd _ (ExtC.mul rnd _ ((start (N * N + 1)).getD (get3opIndex N i1 i2) ExtC.zero))) = _
      rw [hz, mul_bad h0 (timesI_bad h0 (energies_diagonal he h1 a)) (Or.inl rfl), add_NN_right]
    have hx : ∀ i1 < N, ∀ i2 < N, x.getD (get3opIndex N i1 i2) ExtC.zero = NN := by
      intro i1 h1 i2 h2
      have hlt := index_lt h1 h2
      have hs : (start (N * N + 1))[get3opIndex N i1 i2]? = some ((start (N * N + 1))[get3opIndex N i1 i2]'(by omega)) := List.getElem?_eq_getElem _
      rw [List.getD_eq_getElem?_getD, ODE.shiftX_get e2 hs (hk1 i1 h1 i2 h2), Option.getD_some, scale_NN, add_NN_right]
    refine ODE.stepMatrixX_NN2 dt hl e1 l1 e2 (ODE.matVecX_hit l2 fun i hi => ?_) hNNv
    by_cases hi0 : i = 0
    · subst hi0
      rw [Program.timesIX_row (hrow 0 hi), rowListX_zero]
      refine ⟨_, List.mem_map_of_mem (List.mem_cons_of_mem _ (List.mem_map_of_mem (a := get3opIndex N 0 0) ?_)), ?_⟩
      · rw [List.mem_range'_1]
        have := index_lt hN hN
        unfold get3opIndex at this ⊢
        omega
      · show ExtC.mul rnd _ (x.getD (get3opIndex N 0 0) ExtC.zero) = _
        rw [hx 0 hN 0 hN, mul_NN_right h0]
    · obtain ⟨i1, i2, h1, h2, rfl⟩ := index_surj N hi0 hi
      rw [Program.timesIX_row (hrow _ hi), rowListX_three h1 h2]
      refine ⟨_, List.mem_cons_of_mem _ (List.mem_singleton_self _), ?_⟩
      show ExtC.mul rnd _ (x.getD (get3opIndex N i1 i2) ExtC.zero) = _
      rw [hx i1 h1 i2 h2, mul_NN_right h0]
  · -- the interaction
    refine Program.step_bad h0 (by omega) dt (fun row hr => ⟨_, hrow row hr, (momentumRowX_ok hr).2.2.1, ?_⟩) (Or.inl rfl)
    by_cases hr0 : row = 0
    · subst hr0
      rw [rowListX_zero]
      refine ⟨⟨0, 1, b⟩, List.mem_cons_of_mem _ (List.mem_map.2 ⟨1, ?_, rfl⟩), one_ne_zero, hU.div_left _⟩
      rw [List.mem_range'_1]; omega
    · obtain ⟨i1, i2, h1, h2, rfl⟩ := index_surj N hr0 hr
      rw [rowListX_three h1 h2]
      exact ⟨_, List.mem_cons_of_mem _ (List.mem_singleton_self _), hr0, (hU.div_left _).add_right _⟩
  · -- the step width
    rcases hdt with rfl | ⟨s, rfl⟩
    · exact ODE.stepMatrixX_nan _ hl
    · refine ODE.stepMatrixX_inf h0 s hne hl fun i x hx => ?_
      left
      have := List.mem_of_getElem? hx
      rcases List.mem_cons.1 this with rfl | h
      · rfl
      · rw [List.eq_of_mem_replicate h]; rfl

/-- All steps of the program. -/
theorem stepsX_notFinite (h0 : rnd 0 = .val 0) (hN : 0 < N) {m : Sparse Ext} {dt : Ext}
    (hm : momentumMatrixX rnd (Spec.entries N q) N eps U N = .val m)
    (hbad : (∀ k < N, (eps k).NotFinite) ∨ U.NotFinite ∨ dt.NotFinite) (k : ℕ) :
    stepsX rnd (N * N + 1) dt (RealSpace.timesIX rnd m) (k + 1) (start (N * N + 1)) = .val (List.replicate (N * N + 1) NN) := by
  have key : ∀ (k : ℕ), stepsX rnd (N * N + 1) dt (RealSpace.timesIX rnd m) k (List.replicate (N * N + 1) NN) = .val (List.replicate (N * N + 1) NN) := by
    intro k
    induction k with
    | zero => rfl
    | succ k ih => rw [stepsX, step_notFinite h0 hN hm hbad (Or.inr rfl), Res.bind_val, ih]
  rw [stepsX, step_notFinite h0 hN hm hbad (Or.inl rfl), Res.bind_val, key]

/-! ### The measurement -/

theorem multiplyWithConjugateX_NN : RealSpace.multiplyWithConjugateX rnd NN NN = NN := by
  unfold RealSpace.multiplyWithConjugateX Ext.neg
  simp only [Ext.mul_nan_left, Ext.add_nan_left]

/-- The measurement of a vector of NaN. -/
theorem particleNumberX_NN {n : ℕ} {table : List (Contribution ℝ)} (ht : ∀ c ∈ table, c.left < n ∧ c.right < n) :
    particleNumberX rnd (List.replicate n NN) table = .val (if table = [] then .fin 0 else .nan) := by
  have hv : ∀ i < n, vecAt (List.replicate n NN) i = .val NN := by
    intro i hi
    unfold vecAt
    rw [List.getElem?_replicate, if_pos hi]
  have hstep : ∀ (c : Contribution ℝ) (r : ExtC), c.left < n → c.right < n → ∃ y, particleStepX rnd (List.replicate n NN) r c = .val y ∧ y.re = .nan := by
    intro c r h1 h2
    unfold particleStepX
    split_ifs with h
    · rw [hv _ h1, Res.map_val]
      refine ⟨_, rfl, ?_⟩
      show Ext.add rnd _ (Ext.mul rnd (RealSpace.normX rnd NN) _) = _
      have : RealSpace.normX rnd NN = .nan := by
        unfold RealSpace.normX
        simp only [Ext.mul_nan_left, Ext.add_nan_left]
      rw [this, Ext.mul_nan_left, Ext.add_nan_right]
    · rw [hv _ h1, Res.bind_val, hv _ h2, Res.map_val, multiplyWithConjugateX_NN, scale_NN, add_NN_right]
      exact ⟨_, rfl, rfl⟩
  unfold particleNumberX
  have key : ∀ (l : List (Contribution ℝ)) (r : ExtC), r.re = .nan → (∀ c ∈ l, c.left < n ∧ c.right < n) →
      ∃ y, l.foldl (fun (acc : Res ExtC) c => acc.bind fun r => particleStepX rnd (List.replicate n NN) r c) (.val r) = .val y ∧ y.re = .nan := by
    intro l
    induction l with
    | nil => intro r hr _; exact ⟨r, rfl, hr⟩
    | cons c l ih =>
      intro r _ hl
      obtain ⟨y, e, hy⟩ := hstep c r (hl c (by simp)).1 (hl c (by simp)).2
      rw [List.foldl_cons, Res.bind_val, e]
      exact ih y hy fun c hc => hl c (by simp [hc])
  cases table with
  | nil => rfl
  | cons c l =>
    obtain ⟨y, e, hy⟩ := hstep c ExtC.zero (ht c (by simp)).1 (ht c (by simp)).2
    rw [List.foldl_cons, Res.bind_val, e]
    obtain ⟨z, e2, hz⟩ := key l y hy fun c hc => ht c (by simp [hc])
    rw [e2, Res.map_val, hz, if_neg (by simp)]

/-! ### The table -/

variable {FS : Finset Mode}

theorem seaValue_empty (i j : ℕ) (hj : j < N * N + 1) : seaValue (1 : ℝ) ∅ (Spec.entries N q) i j = 0 := by
  have h1 : ∀ k, fockMono ℝ (Monomial.conjugate (RealSpace.Spec.one k)) (ket ℝ ∅) = 0 := fun k => by
    have := adjVec_one (K := ℝ) ∅ k
    rw [if_neg (by simp)] at this
    exact this
  have h3 : ∀ a b c, fockMono ℝ (Monomial.conjugate (RealSpace.Spec.three a b c)) (ket ℝ ∅) = 0 := fun a b c => by
    have := adjVec_three (K := ℝ) ∅ a b c
    rw [adjVec_one, if_neg (by simp), map_zero, map_zero] at this
    exact this
  have key : fockBasisAdj (1 : ℝ) ((Spec.entries N q).getD j []) (ket ℝ ∅) = 0 := by
    by_cases h0 : j = 0
    · subst h0
      rw [List.getD_eq_getElem?_getD, entries_zero, Option.getD_some, fockBasisAdj_one, h1]
    · obtain ⟨i1, i2, a, b, rfl⟩ := index_surj N h0 hj
      rw [List.getD_eq_getElem?_getD, entries_getElem N q a b, Option.getD_some, fockBasisAdj_three, LinearMap.add_apply, LinearMap.smul_apply,
        LinearMap.smul_apply, h1, h3, smul_zero, smul_zero, add_zero]
  unfold seaValue braket
  rw [Module.End.mul_apply, key, map_zero]
  rfl

theorem ev_self {x : HMonomial} {e : ℤ} {T : Finset Mode} (he : e = 1 ∨ e = -1) (h : adjVec ℝ FS x = (e : ℝ) • ket ℝ T) :
    ev ℝ FS (x ++ Monomial.conjugate x) = 1 := by
  rw [ev_append, h, map_smul, Pi.smul_apply, fockMono_ket_adj, h, Pi.smul_apply, ket, if_pos rfl, smul_eq_mul, smul_eq_mul, mul_one]
  rcases he with rfl | rfl <;> norm_num

/-- Of two occupied momenta whose third is not, the table has an entry. -/
theorem seaValue_pair {a b : ℕ} (ha : a < N) (hb : b < N) (h1 : up a ∈ FS) (h2 : dn b ∈ FS) (h3 : dn (third N q a b) ∉ FS) :
    seaValue (1 : ℝ) FS (Spec.entries N q) (get3opIndex N a b) (get3opIndex N a b) ≠ 0 := by
  set c := third N q a b with hc
  have hbc : b ≠ c := by rintro e; rw [← e] at h3; exact h3 h2
  have he := entries_getElem N q ha hb
  have hoff : ∃ (e : ℤ) (T : Finset Mode), (e = 1 ∨ e = -1) ∧ adjVec ℝ FS (RealSpace.Spec.three a b c) = (e : ℝ) • ket ℝ T := by
    have h2' : dn b ∈ toggle (up a) FS := (dn_mem_toggle_up _ _ _).2 h2
    have h3' : dn c ∉ toggle (dn b) (toggle (up a) FS) := by
      rw [mem_toggle, if_neg (fun h => hbc (dn_inj.1 h).symm), dn_mem_toggle_up]; exact h3
    refine ⟨jwSign (up a) (toggle (up a) FS) * (jwSign (dn b) (toggle (dn b) (toggle (up a) FS)) *
      jwSign (dn c) (toggle (dn c) (toggle (dn b) (toggle (up a) FS)))), toggle (dn c) (toggle (dn b) (toggle (up a) FS)), ?_, ?_⟩
    · rcases jwSign_sign (up a) (toggle (up a) FS) with s1 | s1 <;>
      rcases jwSign_sign (dn b) (toggle (dn b) (toggle (up a) FS)) with s2 | s2 <;>
      rcases jwSign_sign (dn c) (toggle (dn c) (toggle (dn b) (toggle (up a) FS))) with s3 | s3 <;>
      simp [s1, s2, s3]
    · rw [adjVec_three, adjVec_one, if_pos h1, map_smul, map_smul, fockOp_ket, if_neg (by simpa using h2'), map_smul, fockOp_ket,
        if_neg (by simpa using h3'), smul_smul, smul_smul, mul_assoc]
      push_cast
      rfl
  obtain ⟨e, T, e1, e2⟩ := hoff
  rw [sea_IJ 1 he he, ← hc]
  simp only [if_neg hbc, ev_self e1 e2]
  norm_num

/-- If the sea is not empty, it contains `q`, or two momenta whose third is outside. -/
theorem exists_pair (hq : q < N) {P : ℕ → Prop} {k : ℕ} (hk : k < N) (hP : P k) (hnq : ¬ P q) :
    ∃ a b, a < N ∧ b < N ∧ P a ∧ P b ∧ ¬ P (third N q a b) := by
  by_contra hcon
  push Not at hcon
  have hN : 0 < N := by omega
  have hthird : ∀ a b, ((third N q a b : ℕ) : ℤ) ≡ a + b - q [ZMOD N] := by
    intro a b
    have h1 : ((third N q a b : ℕ) : ℤ) = ((a : ℤ) + b - q) % N := by
      unfold third siteMod
      exact Int.toNat_of_nonneg (Int.emod_nonneg _ (by omega))
    rw [h1]
    exact Int.mod_modEq _ _
  have key : ∀ n : ℕ, ∃ m < N, P m ∧ (m : ℤ) ≡ k + n * ((k : ℤ) - q) [ZMOD N] := by
    intro n
    induction n with
    | zero => exact ⟨k, hk, hP, by simp⟩
    | succ n ih =>
      obtain ⟨m, h1, h2, h3⟩ := ih
      refine ⟨third N q m k, third_lt hN q m k, hcon m k h1 hk h2 hP, (hthird m k).trans ?_⟩
      have := (h3.add_right (k : ℤ)).sub_right (q : ℤ)
      refine this.trans ?_
      rw [show (k : ℤ) + n * ((k : ℤ) - q) + k - q = k + ((n + 1 : ℕ) : ℤ) * ((k : ℤ) - q) by push_cast; ring]
  obtain ⟨m, h1, h2, h3⟩ := key (N - 1)
  have h4 : (m : ℤ) ≡ q [ZMOD N] := by
    refine h3.trans ?_
    rw [Nat.cast_sub hN, show (k : ℤ) + ((N : ℤ) - (1 : ℕ)) * ((k : ℤ) - q) = q + N * ((k : ℤ) - q) by push_cast; ring]
    exact Int.modEq_iff_add_fac.2 ⟨-((k : ℤ) - q), by ring⟩
  have : m = q := Nat.ModEq.eq_of_lt_of_lt (Int.natCast_modEq_iff.1 h4) h1 hq
  exact hnq (this ▸ h2)

theorem want_mem {n : ℕ} (hn : 0 < n) {c : Contribution ℝ} (hc : c ∈ (pairs n).flatMap (want ℝ FS N q)) : c.left < n ∧ c.right < n := by
  obtain ⟨p, hp, hc⟩ := List.mem_flatMap.1 hc
  rw [mem_pairs hn] at hp
  unfold want at hc
  split at hc
  · rw [List.mem_singleton] at hc; subst hc; exact hp
  · simp at hc

/-- **C135**: the table of expectation values is empty if and only if the Fermi sea is. -/
theorem table_empty_iff (hq : q < N) (hup : ∀ k < N, up k ∈ FS ↔ dn k ∈ FS) (hlt : ∀ o ∈ FS, ∃ k < N, o = up k ∨ o = dn k) :
    (pairs (N * N + 1)).flatMap (want ℝ FS N q) = [] ↔ FS = ∅ := by
  constructor
  · intro h
    by_contra hne
    obtain ⟨o, ho⟩ := Finset.nonempty_iff_ne_empty.2 hne
    obtain ⟨k, hk, hok⟩ := hlt o ho
    have hk1 : up k ∈ FS := by
      rcases hok with rfl | rfl
      · exact ho
      · exact (hup k hk).2 ho
    have hzero : ∀ i j, i < N * N + 1 → j < N * N + 1 → seaValue (1 : ℝ) FS (Spec.entries N q) i j = 0 := by
      intro i j hi hj
      have h1 := List.flatMap_eq_nil_iff.1 h (i, j) ((mem_pairs (by omega) _).2 ⟨hi, hj⟩)
      unfold want at h1
      split at h1
      · cases h1
      · rename_i h2; simpa using h2
    by_cases huq : up q ∈ FS
    · have := hzero 0 0 (by omega) (by omega)
      rw [sea_00, ev_self (jwSign_sign _ _) (by rw [adjVec_one, if_pos huq])] at this
      exact one_ne_zero this
    · obtain ⟨a, b, h1, h2, h3, h4, h5⟩ := exists_pair (q := q) hq (P := fun k => up k ∈ FS) hk hk1 huq
      exact seaValue_pair h1 h2 h3 ((hup b h2).1 h4) (fun h => h5 ((hup _ (third_lt (by omega) q a b)).2 h)) (hzero _ _ (index_lt h1 h2) (index_lt h1 h2))
  · rintro rfl
    rw [List.flatMap_eq_nil_iff]
    intro p hp
    have := ((mem_pairs (by omega) p).1 hp).2
    unfold want
    rw [if_neg (by rw [seaValue_empty _ _ this]; simp)]

theorem mem_seaOfX {e : ℕ → Ext} {k : ℕ} (hk : k < N) (σ : Bool) : toLex (k, σ) ∈ seaOfX N e ↔ Ext.Lt (e k) (.fin 0) := by
  classical
  unfold seaOfX
  simp only [Finset.mem_biUnion, Finset.mem_filter, Finset.mem_range, Finset.mem_insert, Finset.mem_singleton,
    EmbeddingLike.apply_eq_iff_eq, Prod.mk.injEq]
  constructor
  · rintro ⟨k', ⟨_, h⟩, h' | h'⟩ <;> rw [h'.1] <;> exact h
  · intro h
    cases σ
    · exact ⟨k, ⟨hk, h⟩, Or.inr ⟨rfl, rfl⟩⟩
    · exact ⟨k, ⟨hk, h⟩, Or.inl ⟨rfl, rfl⟩⟩

theorem seaOfX_lt {e : ℕ → Ext} : ∀ o ∈ seaOfX N e, ∃ k < N, o = up k ∨ o = dn k := by
  classical
  intro o ho
  unfold seaOfX at ho
  simp only [Finset.mem_biUnion, Finset.mem_filter, Finset.mem_range, Finset.mem_insert, Finset.mem_singleton] at ho
  obtain ⟨k, ⟨hk, -⟩, h⟩ := ho
  exact ⟨k, hk, h⟩

/-- The table of the program. -/
theorem tableX_eq (hq : q < N) (eps : ℕ → Ext) : nonVanishing (S := ℝ) (Spec.entries N q) (conjBasis (Spec.entries N q)) (occupationEnergy eps) 0 =
    .val ((pairs (N * N + 1)).flatMap (want ℝ (seaOfX N eps) N q)) :=
  nonVanishing_eq (fun k hk σ => by
    rw [mem_seaOfX hk σ]
    unfold occupationEnergy
    split_ifs with h <;> simp [h]) hq

/-! ### The first number -/

open IEEE RealSpace in
theorem particleNumber_extends {v : List ℂ} {table : List (Contribution ℝ)} {x : ℝ} (h : particleNumberR rnd v table = .val x) :
    particleNumberX rnd (v.map embC) table = .val (.fin x) := by
  obtain ⟨z, h', rfl⟩ := Res.val_of_map h
  have hstep : ∀ (c : Contribution ℝ) (r y : ℂ), particleStepR rnd v r c = .val y → particleStepX rnd (v.map embC) (embC r) c = .val (embC y) := by
    intro c r y e
    unfold particleStepR at e
    unfold particleStepX
    by_cases hc : c.left = c.right
    · rw [if_pos hc] at e ⊢
      obtain ⟨l, e1, e⟩ := Res.val_of_bind e
      obtain ⟨p, e2, e⟩ := Res.val_of_bind e
      obtain ⟨w, e3, e⟩ := Res.val_of_bind e
      obtain ⟨a, e4, e⟩ := Res.val_of_bind e
      cases e
      rw [vecAt_map e1, Res.map_val, norm_extends e2, mulX e3]
      show Res.val (⟨Ext.add rnd (.fin r.re) (.fin w), .fin r.im⟩ : ExtC) = _
      rw [addX e4]
      rfl
    · rw [if_neg hc] at e ⊢
      obtain ⟨l, e1, e⟩ := Res.val_of_bind e
      obtain ⟨r', e2, e⟩ := Res.val_of_bind e
      obtain ⟨w, e3, e⟩ := Res.val_of_bind e
      obtain ⟨w', e4, e⟩ := Res.val_of_bind e
      rw [vecAt_map e1, Res.bind_val, vecAt_map e2, Res.map_val, multiplyWithConjugate_extends e3, scale_extends e4, add_extends e]
  have stuck : ∀ (l : List (Contribution ℝ)) (x : Res ℂ), (∀ b, x ≠ .val b) →
      ∀ z, l.foldl (fun (acc : Res ℂ) c => acc.bind fun r => particleStepR rnd v r c) x ≠ .val z := by
    intro l
    induction l with
    | nil => intro x hx z; exact hx z
    | cons c l ih =>
      intro x hx z
      rw [List.foldl_cons]
      refine ih _ (fun b hb => ?_) z
      obtain ⟨y, e, -⟩ := Res.val_of_bind hb
      exact hx y e
  have key : ∀ (l : List (Contribution ℝ)) (r z : ℂ), l.foldl (fun (acc : Res ℂ) c => acc.bind fun r => particleStepR rnd v r c) (.val r) = .val z →
      l.foldl (fun (acc : Res ExtC) c => acc.bind fun r => particleStepX rnd (v.map embC) r c) (.val (embC r)) = .val (embC z) := by
    intro l
    induction l with
    | nil => intro r z e; cases e; rfl
    | cons c l ih =>
      intro r z e
      rw [List.foldl_cons, Res.bind_val] at e ⊢
      cases hr : particleStepR rnd v r c with
      | val y => rw [hr] at e; rw [hstep c r y hr]; exact ih y z e
      | ub => rw [hr] at e; exact absurd e (stuck _ _ (fun b hb => by cases hb) _)
      | diverges => rw [hr] at e; exact absurd e (stuck _ _ (fun b hb => by cases hb) _)
  have := key table 0 z h'
  have e0 : embC 0 = ExtC.zero := rfl
  rw [e0] at this
  unfold particleNumberX
  rw [this, Res.map_val]
  rfl

end MomentumSpace

namespace IEEE

open Ieompp.Spec ExtC MomentumSpace
open RealSpace

variable {N : ℕ} {cosF : ℝ → ℝ}

/-! ### The energies -/

/-- The brillouin zone of the program. -/
noncomputable abbrev zone (N : ℕ) : Chain ℝ := Chain.momentumF double (double Real.pi) N

/-- The Fermi sea in use: both spins of the momenta whose computed energy is negative. -/
noncomputable abbrev seaX (cosF : ℝ → ℝ) (N : ℕ) (J : Ext) : Finset Mode := seaOfX N (energyX binary64 cosF (zone N) 1 J)

theorem seaOfX_congr {e e' : ℕ → Ext} (h : ∀ k < N, e k = e' k) : seaOfX N e = seaOfX N e' := by
  classical
  unfold seaOfX
  congr 1
  refine Finset.filter_congr fun k hk => ?_
  rw [h k (Finset.mem_range.1 hk)]

theorem binary64_sign {x e : ℝ} (h : binary64 x = .val e) : (e < 0 → x < 0) ∧ (0 < e → 0 < x) := by
  have he : e = binary64Value x := by
    unfold binary64 at h
    split_ifs at h
    cases h; rfl
  have := (binary64Value_nearest x 0 ⟨0, 0, by simp, by norm_num, by norm_num⟩).1
  rw [← he, zero_sub, abs_neg] at this
  constructor
  · intro h
    by_contra hx
    push Not at hx
    rw [abs_of_nonneg hx, abs_of_nonpos (by linarith)] at this
    linarith
  · intro h
    by_contra hx
    push Not at hx
    rw [abs_of_nonpos hx, abs_of_nonneg (by linarith)] at this
    linarith

/-- The cosine of the lattice momentum as computed, and the two ways in which it is used. -/
theorem cosine_parts {bz : Chain ℝ} {dx J e : ℝ} {i : ℕ} (hi : i < 2 ^ 53) (h : energyR binary64 cosF bz dx J i = .val e) :
    ∃ p v, binary64 (-2 * J) = .val p ∧ binary64 (p * v) = .val e ∧
      ∀ J', energyX binary64 cosF bz dx J' i = Ext.mul binary64 (Ext.mul binary64 (.fin (-2)) J') (.fin v) := by
  obtain ⟨p, h1, h⟩ := Res.val_of_bind h
  obtain ⟨k, h2, h⟩ := Res.val_of_bind h
  obtain ⟨a, h3, h⟩ := Res.val_of_bind h
  obtain ⟨v, h4, h⟩ := Res.val_of_bind h
  obtain ⟨i', h5, h2⟩ := Res.val_of_bind h2
  rw [binary64_exact (isBinary64_nat hi)] at h5
  cases h5
  obtain ⟨b, h6, h2⟩ := Res.val_of_bind h2
  refine ⟨p, v, h1, h, fun J' => ?_⟩
  unfold energyX Chain.posX
  simp only
  rw [mulX h6, addX h2, mulX h3]
  show Ext.mul _ _ (Ext.add _ (.fin 0) (.fin (cosF a))) = _
  rw [addX h4]

/-- A finite energy. -/
theorem energyX_fin {bz : Chain ℝ} {dx J e : ℝ} {i : ℕ} (hi : i < 2 ^ 53) (h : energyR binary64 cosF bz dx J i = .val e) :
    energyX binary64 cosF bz dx (.fin J) i = .fin e := by
  obtain ⟨p, v, h1, h2, h3⟩ := cosine_parts hi h
  rw [h3, mulX h1, mulX h2]

theorem not_fermi_half (hN : 1 ≤ N) : ¬ FermiPoint N (N / 2) := by
  rw [Hubbard.fermiPoint_iff hN]; omega

/-- An infinite prefactor: the momentum 0 (or the one closest to it) and the momentum `-π`. -/
theorem energyX_inf (hN : 2 ≤ N) (hN' : N ≤ 1024) (hcos : ∀ x, |cosF x - Real.cos x| ≤ 1 / 2 ^ 53) {J : Ext} {s : Bool}
    (hJ : Ext.mul binary64 (.fin (-2)) J = .inf s) :
    energyX binary64 cosF (zone N) 1 J (N / 2) = .inf s ∧ energyX binary64 cosF (zone N) 1 J 0 = .inf (!s) := by
  have h53 : ∀ i < N, i < 2 ^ 53 := fun i hi => lt_of_lt_of_le hi (hN'.trans (by norm_num))
  have hone : (1 : ℝ) / 2 ^ 1000 ≤ 1 ∧ (1 : ℝ) ≤ 2 ^ 1000 := ⟨by
    rw [div_le_one (pow_pos two_pos _)]; exact one_le_pow₀ one_le_two, one_le_pow₀ one_le_two⟩
  have hp : ∀ {p : ℝ}, binary64 (-2 * 1) = .val p → p = -2 := fun {p} h => by
    rw [mul_one, binary64_exact (x := -2) ⟨-2, 0, by norm_num, by norm_num, by norm_num, by norm_num⟩] at h
    cases h; rfl
  constructor
  · obtain ⟨e, e1, -, e3⟩ := energyR_ok (by omega) hN' hcos isBinary64_one hone.1 hone.2 (i := N / 2) (by omega)
    have e4 := (energy_sign (by omega) hN' one_pos (by omega) (not_fermi_half (by omega)) e3).2 ((Program.bandEnergy_half hN 1).2 one_pos)
    obtain ⟨p, v, h1, h2, h3⟩ := cosine_parts (h53 _ (by omega)) e1
    have hv := (binary64_sign h2).1 e4
    rw [hp h1] at hv
    rw [h3, hJ]
    show (if v = 0 then _ else _ : Ext) = _
    have : 0 < v := by linarith
    rw [if_neg this.ne']
    simp [this.not_gt]
  · obtain ⟨e, e1, -, e3⟩ := energyR_ok (by omega) hN' hcos isBinary64_one hone.1 hone.2 (i := 0) (by omega)
    have hb : bandEnergy N 1 0 = 2 := by unfold bandEnergy latticeMomentum; simp
    have e4 : 0 < e := by
      rw [hb, abs_le] at e3
      norm_num at e3
      linarith
    obtain ⟨p, v, h1, h2, h3⟩ := cosine_parts (h53 _ (by omega)) e1
    have hv := (binary64_sign h2).2 e4
    rw [hp h1] at hv
    rw [h3, hJ]
    show (if v = 0 then _ else _ : Ext) = _
    have : v < 0 := by linarith
    rw [if_neg this.ne]
    simp [this]

/-! ### The program -/

/-- **C135, what `hubbard_momentum_1d_rk4` does with parameters that are not finite.** For every number of momenta up to 1024, all `J`, `U` and `dt` of which one is
an infinity or NaN (or `-2 J` overflows), every `std::cos` and all schedules: the program does not refuse. It prints two numbers, the first 1 or 0, the second NaN,
unless no momentum has a computed energy below 0: then both are 0. -/
theorem momentum1dRk4X_outcomes_partial (hN : 1 ≤ N) (hN' : N ≤ 1024) {J U dt : Ext} (hbad : (Ext.mul binary64 (.fin (-2)) J).NotFinite ∨ U.NotFinite ∨ dt.NotFinite)
    {conjugation energies : List ℕ} (hc : conjugation.Perm (List.range (N * N + 1))) (he : energies.Perm (List.range N)) :
    momentum1dRk4X binary64 cosF (double Real.pi) conjugation energies N J U dt =
      .val (.fin (if up (N / 2) ∈ seaX cosF N J then 1 else 0), if seaX cosF N J = ∅ then .fin 0 else .nan) := by
  have hNp : 0 < N := by omega
  have hq : N / 2 < N := by omega
  obtain ⟨π1, π2, π3⟩ := doublePi_setup
  obtain ⟨values, e1, e2, e3⟩ := RealSpace.storeLoop_ok (f := fun i => .val (energyX binary64 cosF (zone N) 1 J i)) (g := energyX binary64 cosF (zone N) 1 J) energies
    (List.replicate N (.fin 0)) (fun i hi => by
      have hi' : i < N := by rw [he.mem_iff] at hi; exact List.mem_range.1 hi
      exact ⟨rfl, by rw [List.length_replicate]; exact hi'⟩)
  have hdf : ∀ i < N, dispersionFunctionX values i = energyX binary64 cosF (zone N) 1 J i := fun i hi => by
    have e4 := e3 i
    rw [if_pos ⟨by rw [he.mem_iff]; simpa using hi, by simpa using hi⟩] at e4
    unfold dispersionFunctionX
    rw [List.getD_eq_getElem?_getD, e4, Option.getD_some]
  have hsea : seaOfX N (dispersionFunctionX values) = seaX cosF N J := seaOfX_congr hdf
  obtain ⟨m, hm, -⟩ := momentumMatrixX_val (rnd := binary64) (q := N / 2) hNp (dispersionFunctionX values) U
  have hbad' : (∀ k < N, (dispersionFunctionX values k).NotFinite) ∨ U.NotFinite ∨ dt.NotFinite := by
    refine hbad.imp_left fun h k hk => ?_
    rw [hdf k hk]
    exact h.mul_left _
  have hstart : Program.initVectorX (N * N + 1) = .val (start (N * N + 1)) := rfl
  have hstart' : start (N * N + 1) = (List.ofFn (Program.unit0 (N * N + 1))).map embC := by
    have h1 := Program.initVector_extends (Program.initVector_ofFn (n := N * N + 1) (by omega))
    rw [hstart] at h1
    exact Res.val.inj h1
  have hfirst := particleNumber_extends (particleNumberR_unit (FS := seaX cosF N J) (q := N / 2) binary64_zero (binary64_exact isBinary64_one) (n := N * N + 1) rfl)
  rw [← hstart'] at hfirst
  have hsecond := particleNumberX_NN (rnd := binary64) (n := N * N + 1) (table := (pairs (N * N + 1)).flatMap (want ℝ (seaX cosF N J) N (N / 2)))
    fun c hc => want_mem (by omega) hc
  have hempty := table_empty_iff (FS := seaX cosF N J) hq (fun k hk => by rw [mem_seaOfX hk, mem_seaOfX hk]) seaOfX_lt
  unfold momentum1dRk4X
  simp only
  rw [(momentumR_ok π1 π2 hNp hN').1, Res.bind_val, momentumBasis3R_ok π1 π2 π3 hNp hN' hq, Res.bind_val]
  have hcd : chainDispersionX binary64 cosF (zone N) J energies = .val values := e1
  have hsz : (zone N).size = N := rfl
  have hsz' : (Chain.real (K := ℝ) N 1).size = N := rfl
  rw [hcd, Res.bind_val, hsz, hsz', hm, Res.bind_val, entries_length, hstart, Res.bind_val,
    show RealSpace.getConjugate conjugation (Spec.entries N (N / 2)) = conjBasis (Spec.entries N (N / 2)) from
      parallelModify_eq_map _ _ _ (by rw [entries_length]; exact hc), tableX_eq hq, Res.bind_val, hsea, hfirst, Res.bind_val,
    stepsX_notFinite binary64_zero hNp hm hbad' 7, Res.bind_val, hsecond, Res.map_val]
  simp only [hempty]

/-- A hopping NaN: the program prints 0 and 0, whatever the interaction and the step width are. -/
theorem momentum1dRk4X_hopping_nan (hN : 1 ≤ N) (hN' : N ≤ 1024) (U dt : Ext) {conjugation energies : List ℕ}
    (hc : conjugation.Perm (List.range (N * N + 1))) (he : energies.Perm (List.range N)) :
    momentum1dRk4X binary64 cosF (double Real.pi) conjugation energies N .nan U dt = .val (.fin 0, .fin 0) := by
  rw [momentum1dRk4X_outcomes_partial hN hN' (Or.inl (Or.inl rfl)) hc he]
  have hs : seaX cosF N .nan = ∅ := by
    by_contra hne
    obtain ⟨o, ho⟩ := Finset.nonempty_iff_ne_empty.2 hne
    obtain ⟨k, hk, hok⟩ := seaOfX_lt o ho
    have hn : energyX binary64 cosF (zone N) 1 .nan k = .nan := by
      unfold energyX
      simp only
      rw [Ext.mul_nan_right, Ext.mul_nan_left]
    have : Ext.Lt .nan (.fin 0) := by
      rcases hok with rfl | rfl
      · have := (mem_seaOfX hk true).1 ho; rwa [hn] at this
      · have := (mem_seaOfX hk false).1 ho; rwa [hn] at this
    exact this
  rw [hs]
  simp

/-- A hopping plus infinity (or one whose prefactor `-2 J` overflows downwards): 1 and NaN. Minus infinity: 0 and NaN. -/
theorem momentum1dRk4X_hopping_inf (hN : 2 ≤ N) (hN' : N ≤ 1024) (hcos : ∀ x, |cosF x - Real.cos x| ≤ 1 / 2 ^ 53) {J : Ext} (U dt : Ext) {s : Bool}
    (hJ : Ext.mul binary64 (.fin (-2)) J = .inf s) {conjugation energies : List ℕ}
    (hc : conjugation.Perm (List.range (N * N + 1))) (he : energies.Perm (List.range N)) :
    momentum1dRk4X binary64 cosF (double Real.pi) conjugation energies N J U dt = .val (.fin (if s then 1 else 0), .nan) := by
  rw [momentum1dRk4X_outcomes_partial (by omega) hN' (Or.inl (Or.inr ⟨s, hJ⟩)) hc he]
  obtain ⟨h1, h2⟩ := energyX_inf hN hN' hcos hJ
  have m1 := mem_seaOfX (e := energyX binary64 cosF (zone N) 1 J) (k := N / 2) (N := N) (by omega) true
  have m2 := mem_seaOfX (e := energyX binary64 cosF (zone N) 1 J) (k := 0) (N := N) (by omega) true
  rw [h1] at m1
  rw [h2] at m2
  have l1 : Ext.Lt (.inf s) (.fin 0) ↔ s = true := Iff.rfl
  have l2 : Ext.Lt (.inf (!s)) (.fin 0) ↔ (!s) = true := Iff.rfl
  rw [l1] at m1
  rw [l2] at m2
  change up (N / 2) ∈ seaX cosF N J ↔ _ at m1
  change up 0 ∈ seaX cosF N J ↔ _ at m2
  have hne : seaX cosF N J ≠ ∅ := by
    intro h0
    rw [h0] at m1 m2
    cases s <;> simp at m1 m2
  rw [if_neg hne]
  simp only [m1]

/-- Plus and minus infinity. -/
theorem momentum1dRk4X_hopping_infinity (hN : 2 ≤ N) (hN' : N ≤ 1024) (hcos : ∀ x, |cosF x - Real.cos x| ≤ 1 / 2 ^ 53) (U dt : Ext) (s : Bool)
    {conjugation energies : List ℕ} (hc : conjugation.Perm (List.range (N * N + 1))) (he : energies.Perm (List.range N)) :
    momentum1dRk4X binary64 cosF (double Real.pi) conjugation energies N (.inf s) U dt = .val (.fin (if s then 0 else 1), .nan) := by
  have := momentum1dRk4X_hopping_inf (J := .inf s) hN hN' hcos U dt (s := !s) (by
    show (if (-2 : ℝ) = 0 then _ else _ : Ext) = _
    rw [if_neg (by norm_num)]
    have : ((-2 : ℝ) < 0) := by norm_num
    cases s <;> simp) hc he
  rw [this]
  cases s <;> rfl

/-- A hopping of at least `2^1023`, which is an ordinary number of the format: 1 and NaN. -/
theorem momentum1dRk4X_hopping_overflow (hN : 2 ≤ N) (hN' : N ≤ 1024) (hcos : ∀ x, |cosF x - Real.cos x| ≤ 1 / 2 ^ 53) {J : ℝ} (hJ : 2 ^ 1023 ≤ J) (U dt : Ext)
    {conjugation energies : List ℕ} (hc : conjugation.Perm (List.range (N * N + 1))) (he : energies.Perm (List.range N)) :
    momentum1dRk4X binary64 cosF (double Real.pi) conjugation energies N (.fin J) U dt = .val (.fin 1, .nan) := by
  have hpos : 0 < J := lt_of_lt_of_le (pow_pos two_pos _) hJ
  have hub : binary64 (-2 * J) = .ub := by
    rw [binary64_overflow_iff, abs_mul, abs_neg, abs_two, abs_of_nonneg hpos.le]
    have e : (2 : ℝ) ^ 1024 = 2 * 2 ^ 1023 := by rw [pow_succ, mul_comm]
    have p : (0 : ℝ) < 2 ^ 970 := pow_pos two_pos _
    rw [e]
    generalize (2 : ℝ) ^ 1023 = X at *
    generalize (2 : ℝ) ^ 970 = Y at *
    linarith
  refine momentum1dRk4X_hopping_inf (J := .fin J) hN hN' hcos U dt (s := true) ?_ hc he
  show Ext.round binary64 (-2 * J) = _
  unfold Ext.round
  rw [hub]
  have : -2 * J < 0 := by clear hJ hub; linarith
  simp [hpos]

/-- An ordinary positive hopping and an interaction or step width that is not finite: 1 and NaN. -/
theorem momentum1dRk4X_rest (hN : 2 ≤ N) (hN' : N ≤ 1024) (hcos : ∀ x, |cosF x - Real.cos x| ≤ 1 / 2 ^ 53) {J : ℝ} (hJ : IsBinary64 J) (hJ1 : 1 / 2 ^ 1000 ≤ J)
    (hJ2 : J ≤ 2 ^ 1000) {U dt : Ext} (hbad : U.NotFinite ∨ dt.NotFinite) {conjugation energies : List ℕ}
    (hc : conjugation.Perm (List.range (N * N + 1))) (he : energies.Perm (List.range N)) :
    momentum1dRk4X binary64 cosF (double Real.pi) conjugation energies N (.fin J) U dt = .val (.fin 1, .nan) := by
  rw [momentum1dRk4X_outcomes_partial (by omega) hN' (Or.inr hbad) hc he]
  have hpos : 0 < J := lt_of_lt_of_le (one_div_pos.2 (pow_pos two_pos _)) hJ1
  obtain ⟨e, e1, -, e3⟩ := energyR_ok (by omega) hN' hcos hJ hJ1 hJ2 (i := N / 2) (by omega)
  have e4 := (energy_sign (by omega) hN' hpos (by omega) (not_fermi_half (by omega)) e3).2 ((Program.bandEnergy_half hN J).2 hpos)
  have hmem : up (N / 2) ∈ seaX cosF N (.fin J) := by
    refine (mem_seaOfX (by omega) true).2 ?_
    rw [energyX_fin (lt_of_lt_of_le (by omega : N / 2 < 1025) (by norm_num)) e1]
    exact e4
  rw [if_pos hmem, if_neg (Finset.ne_empty_of_mem hmem)]

/-- **C135 is false of the code**: no parameter that is not finite is refused, and with `dt = inf` (say) the second number is not a number. -/
theorem momentum1dRk4X_not_refused (hN : 2 ≤ N) (hN' : N ≤ 1024) (hcos : ∀ x, |cosF x - Real.cos x| ≤ 1 / 2 ^ 53) :
    ¬ ∀ (J U dt : Ext), (J.NotFinite ∨ U.NotFinite ∨ dt.NotFinite) → ∀ r : Ext × Ext,
      momentum1dRk4X binary64 cosF (double Real.pi) (List.range (N * N + 1)) (List.range N) N J U dt = .val r → r.1 ≠ .nan ∧ r.2 ≠ .nan := by
  intro h
  have hone : (1 : ℝ) / 2 ^ 1000 ≤ 1 ∧ (1 : ℝ) ≤ 2 ^ 1000 := ⟨by
    rw [div_le_one (pow_pos two_pos _)]; exact one_le_pow₀ one_le_two, one_le_pow₀ one_le_two⟩
  exact (h (.fin 1) (.fin 1) (.inf false) (Or.inr (Or.inr (Or.inr ⟨_, rfl⟩))) _
    (momentum1dRk4X_rest hN hN' hcos isBinary64_one hone.1 hone.2 (Or.inr (Or.inr ⟨_, rfl⟩)) (List.Perm.refl _) (List.Perm.refl _))).2 rfl

/-- The lengths and functions of the theorems exist: 16 momenta, `std::cos` exact, the loops in order, step width NaN. -/
example : momentum1dRk4X binary64 Real.cos (double Real.pi) (List.range 257) (List.range 16) 16 (.fin 1) (.fin 1) .nan = .val (.fin 1, .nan) :=
  momentum1dRk4X_rest (by norm_num) (by norm_num) (fun x => by simp) isBinary64_one (by
    rw [div_le_one (pow_pos two_pos _)]; exact one_le_pow₀ one_le_two) (one_le_pow₀ one_le_two) (Or.inr (Or.inl rfl)) (List.Perm.refl _) (List.Perm.refl _)

end IEEE

end Ieompp
