import Verif.Model.ExtendedProgram
import Verif.Props.ExtendedForever
import Verif.Props.Sparse

/-! # C128: the coefficient programs with parameters that are not finite -/

set_option autoImplicit false
set_option linter.unusedSectionVars false

namespace Ieompp

open Spec

variable {rnd : ℝ → Res ℝ}

theorem Ext.add_nan_left (x : Ext) : Ext.add rnd .nan x = .nan := by cases x <;> rfl
theorem Ext.add_nan_right (x : Ext) : Ext.add rnd x .nan = .nan := by cases x <;> rfl
theorem Ext.mul_nan_left (x : Ext) : Ext.mul rnd .nan x = .nan := by cases x <;> rfl
theorem Ext.mul_nan_right (x : Ext) : Ext.mul rnd x .nan = .nan := by cases x <;> rfl

namespace ExtC

/-- NaN in both parts. -/
abbrev NN : ExtC := ⟨.nan, .nan⟩

theorem add_NN_left (x : ExtC) : add rnd NN x = NN := by
  unfold add; rw [Ext.add_nan_left, Ext.add_nan_left]

theorem add_NN_right (x : ExtC) : add rnd x NN = NN := by
  unfold add; rw [Ext.add_nan_right, Ext.add_nan_right]

theorem scale_NN (c : Ext) : scale rnd c NN = NN := by
  unfold scale; rw [Ext.mul_nan_right]

/-- The elements of the matrix that come from parameters that are not finite. -/
def Bad (e : ExtC) : Prop := e.re = .nan ∧ (e.im = .nan ∨ ∃ s, e.im = .inf s)

theorem round_zero (h0 : rnd 0 = .val 0) : Ext.round rnd 0 = .fin 0 := by unfold Ext.round; rw [h0]

theorem plainMul_zero_right (h0 : rnd 0 = .val 0) (a b : ℝ) : plainMul rnd ⟨.fin a, .fin b⟩ zero = zero := by
  unfold plainMul zero Ext.sub
  simp only [Ext.mul, Ext.neg, mul_zero, round_zero h0, Ext.add, neg_zero, add_zero]

theorem plainMul_zero_left (h0 : rnd 0 = .val 0) (a b : ℝ) : plainMul rnd zero ⟨.fin a, .fin b⟩ = zero := by
  unfold plainMul zero Ext.sub
  simp only [Ext.mul, Ext.neg, zero_mul, round_zero h0, Ext.add, neg_zero, add_zero]

theorem inf_zero : Ext.mul rnd (.inf false) (.fin 0) = .nan := by
  show (if (0 : ℝ) = 0 then _ else _) = _
  rw [if_pos rfl]

theorem plainMul_bad {e y : ExtC} (he : Bad e) (hy : y = zero ∨ y = NN) : plainMul rnd e y = NN := by
  obtain ⟨h1, h2⟩ := he
  cases e with
  | mk r i =>
    simp only at h1 h2
    subst h1
    unfold plainMul Ext.sub
    rcases hy with rfl | rfl
    · simp only [Ext.mul_nan_left, Ext.add_nan_left]
    · simp only [Ext.mul_nan_left, Ext.add_nan_left]

theorem mul_bad (h0 : rnd 0 = .val 0) {e y : ExtC} (he : Bad e) (hy : y = zero ∨ y = NN) : mul rnd e y = NN := by
  have hp := plainMul_bad (rnd := rnd) he hy
  obtain ⟨h1, h2⟩ := he
  cases e with
  | mk r i =>
    simp only at h1 h2
    subst h1
    unfold mul
    simp only [hp]
    have hz : ∀ p : ExtC × ExtC, plainMul rnd p.1 p.2 = zero →
        (⟨Ext.mul rnd (.inf false) (plainMul rnd p.1 p.2).re, Ext.mul rnd (.inf false) (plainMul rnd p.1 p.2).im⟩ : ExtC) = NN := by
      intro p h
      rw [h]
      simp only [zero, inf_zero]
    simp only [isNan, Bool.and_self, if_true]
    rcases h2 with rfl | ⟨s, rfl⟩
    · rcases hy with rfl | rfl
      · simp [recover, isInf, zero, Ext.mul]
      · simp [recover, isInf, Ext.mul]
    · rcases hy with rfl | rfl
      · simp only [recover, isInf, zero, box, unNan, Bool.or_true, Bool.false_or, if_true, Bool.or_self, Bool.false_eq_true, if_false]
        exact hz (_, _) (plainMul_zero_right h0 _ _)
      · simp only [recover, isInf, box, unNan, Bool.or_true, Bool.false_or, if_true, Bool.or_self, Bool.false_eq_true, if_false]
        exact hz (_, _) (plainMul_zero_right h0 _ _)

/-- A value that is not finite. -/
def _root_.Ieompp.Ext.NotFinite (x : Ext) : Prop := x = .nan ∨ ∃ s, x = .inf s

theorem timesI_bad (h0 : rnd 0 = .val 0) {x : Ext} (hx : x.NotFinite) : Bad (mul rnd ⟨x, .fin 0⟩ ⟨.fin 0, .fin 1⟩) := by
  have h1 : ¬ ((1 : ℝ) < 0) := by norm_num
  rcases hx with rfl | ⟨s, rfl⟩
  · have : mul rnd ⟨.nan, .fin 0⟩ ⟨.fin 0, .fin 1⟩ = NN := by
      simp only [mul, plainMul, Ext.sub, Ext.mul_nan_left, Ext.add_nan_left, isNan, Bool.and_self, if_true, recover, isInf, Bool.or_self, Bool.false_eq_true, if_false,
        Ext.mul, zero_mul, round_zero h0]
    rw [this]
    exact ⟨rfl, Or.inl rfl⟩
  · have hp : plainMul rnd ⟨.inf s, .fin 0⟩ ⟨.fin 0, .fin 1⟩ = ⟨.nan, .inf s⟩ := by
      simp only [plainMul, Ext.sub, Ext.mul, if_true, Ext.add_nan_left, one_ne_zero, if_false, h1, decide_false, zero_mul, round_zero h0, Ext.add]
      simp
    have : mul rnd ⟨.inf s, .fin 0⟩ ⟨.fin 0, .fin 1⟩ = ⟨.nan, .inf s⟩ := by
      unfold mul
      simp only [hp, isNan, Bool.and_false, Bool.false_eq_true, if_false]
    rw [this]
    exact ⟨rfl, Or.inr ⟨s, rfl⟩⟩

end ExtC

namespace ODE

open ExtC

theorem foldl_NN (v : List ExtC) (es : List (ℕ × ExtC)) :
    es.foldl (fun acc e => ExtC.add rnd acc (ExtC.mul rnd e.2 (v.getD e.1 ExtC.zero))) NN = NN := by
  induction es with
  | nil => rfl
  | cons e es ih => rw [List.foldl_cons, add_NN_left, ih]

theorem foldl_hit (v : List ExtC) (es : List (ℕ × ExtC)) (acc : ExtC) (h : ∃ e ∈ es, ExtC.mul rnd e.2 (v.getD e.1 ExtC.zero) = NN) :
    es.foldl (fun acc e => ExtC.add rnd acc (ExtC.mul rnd e.2 (v.getD e.1 ExtC.zero))) acc = NN := by
  induction es generalizing acc with
  | nil => simp at h
  | cons e es ih =>
    rw [List.foldl_cons]
    by_cases he : ExtC.mul rnd e.2 (v.getD e.1 ExtC.zero) = NN
    · rw [he, add_NN_right, foldl_NN]
    · refine ih _ ?_
      obtain ⟨e', h1, h2⟩ := h
      rcases List.mem_cons.1 h1 with rfl | h1
      · exact absurd h2 he
      · exact ⟨e', h1, h2⟩

theorem rowX_hit (v : List ExtC) (es : List (ℕ × ExtC)) (h : ∃ e ∈ es, ExtC.mul rnd e.2 (v.getD e.1 ExtC.zero) = NN) : rowX rnd v es = NN := by
  cases es with
  | nil => simp at h
  | cons e es =>
    show es.foldl (fun acc e => ExtC.add rnd acc (ExtC.mul rnd e.2 (v.getD e.1 ExtC.zero))) (ExtC.mul rnd e.2 (v.getD e.1 ExtC.zero)) = NN
    by_cases he : ExtC.mul rnd e.2 (v.getD e.1 ExtC.zero) = NN
    · rw [he, foldl_NN]
    · refine foldl_hit v es _ ?_
      obtain ⟨e', h1, h2⟩ := h
      rcases List.mem_cons.1 h1 with rfl | h1
      · exact absurd h2 he
      · exact ⟨e', h1, h2⟩

theorem matVecX_hit {n : ℕ} {m : Sparse ExtC} {v : List ExtC} (hv : v.length = n)
    (h : ∀ i < n, ∃ e ∈ m.done.getD i [], ExtC.mul rnd e.2 (v.getD e.1 ExtC.zero) = NN) : matVecX rnd n m v = .val (List.replicate n NN) := by
  unfold matVecX
  rw [if_pos hv]
  congr 1
  rw [List.eq_replicate_iff]
  refine ⟨by simp, ?_⟩
  intro b hb
  obtain ⟨i, hi, rfl⟩ := List.mem_map.1 hb
  exact rowX_hit v _ (h i (List.mem_range.1 hi))

theorem vaddX_val {n : ℕ} {a b : List ExtC} (ha : a.length = n) (hb : b.length = n) : ∃ c, vaddX rnd a b = .val c ∧ c.length = n := by
  unfold vaddX
  rw [if_pos (by rw [ha, hb])]
  exact ⟨_, rfl, by simp [ha, hb]⟩

theorem vscaleX_length (c : Ext) (v : List ExtC) : (vscaleX rnd c v).length = v.length := by simp [vscaleX]

theorem shiftX_val {n : ℕ} {a b : List ExtC} (h : Ext) (d : ℝ) (ha : a.length = n) (hb : b.length = n) : ∃ c, shiftX rnd a h d b = .val c ∧ c.length = n :=
  vaddX_val ha (by rw [vscaleX_length, hb])

theorem matVecX_val {n : ℕ} (m : Sparse ExtC) {v : List ExtC} (hv : v.length = n) : ∃ c, matVecX rnd n m v = .val c ∧ c.length = n := by
  unfold matVecX
  rw [if_pos hv]
  exact ⟨_, rfl, by simp⟩

/-- A step is defined for every vector of the right size, whatever the parameters, the elements and the arithmetic. -/
theorem stepMatrixX_val {n : ℕ} (h : Ext) (m : Sparse ExtC) {u : List ExtC} (hu : u.length = n) : ∃ y, stepMatrixX rnd n h m u = .val y ∧ y.length = n := by
  obtain ⟨k1, e1, l1⟩ := matVecX_val (rnd := rnd) m hu
  obtain ⟨x1, e2, l2⟩ := shiftX_val (rnd := rnd) h 2 hu l1
  obtain ⟨k2, e3, l3⟩ := matVecX_val (rnd := rnd) m l2
  obtain ⟨x2, e4, l4⟩ := shiftX_val (rnd := rnd) h 2 hu l3
  obtain ⟨k3, e5, l5⟩ := matVecX_val (rnd := rnd) m l4
  obtain ⟨x3, e6, l6⟩ := vaddX_val (rnd := rnd) hu (by rw [vscaleX_length, l5] : (vscaleX rnd h k3).length = n)
  obtain ⟨k4, e7, l7⟩ := matVecX_val (rnd := rnd) m l6
  obtain ⟨s1, e8, l8⟩ := vaddX_val (rnd := rnd) l1 (by rw [vscaleX_length, l3] : (vscaleX rnd (.fin 2) k2).length = n)
  obtain ⟨s2, e9, l9⟩ := vaddX_val (rnd := rnd) l8 (by rw [vscaleX_length, l5] : (vscaleX rnd (.fin 2) k3).length = n)
  obtain ⟨s3, e10, l10⟩ := vaddX_val (rnd := rnd) l9 l7
  obtain ⟨y, e11, l11⟩ := shiftX_val (rnd := rnd) h 6 hu l10
  refine ⟨y, ?_, l11⟩
  unfold stepMatrixX
  simp only [e1, e2, e3, e4, e5, e6, e7, e8, e9, e10, e11, Res.bind_val]

theorem vaddX_NN_right {n : ℕ} {u : List ExtC} (hu : u.length = n) : vaddX rnd u (List.replicate n NN) = .val (List.replicate n NN) := by
  unfold vaddX
  rw [if_pos (by simp [hu])]
  congr 1
  rw [List.eq_replicate_iff]
  refine ⟨by simp [hu], ?_⟩
  intro b hb
  obtain ⟨p, hp, rfl⟩ := List.mem_map.1 hb
  have := (List.mem_replicate.1 (List.of_mem_zip hp).2).2
  rw [this, add_NN_right]

theorem vscaleX_NN (c : Ext) (n : ℕ) : vscaleX rnd c (List.replicate n NN) = List.replicate n NN := by
  unfold vscaleX; rw [List.map_replicate, scale_NN]

theorem shiftX_NN {n : ℕ} {u : List ExtC} (h : Ext) (d : ℝ) (hu : u.length = n) : shiftX rnd u h d (List.replicate n NN) = .val (List.replicate n NN) := by
  unfold shiftX; rw [vscaleX_NN, vaddX_NN_right hu]

/-- If every row of the matrix makes a NaN of the vector, and of a vector of NaN, a step gives a vector of NaN. -/
theorem stepMatrixX_NN {n : ℕ} (h : Ext) {m : Sparse ExtC} {u : List ExtC} (hu : u.length = n) (h1 : matVecX rnd n m u = .val (List.replicate n NN))
    (h2 : matVecX rnd n m (List.replicate n NN) = .val (List.replicate n NN)) : stepMatrixX rnd n h m u = .val (List.replicate n NN) := by
  unfold stepMatrixX
  simp only [h1, Res.bind_val, shiftX_NN h _ hu, h2, vscaleX_NN, vaddX_NN_right hu, vaddX_NN_right (List.length_replicate (n := n) (a := NN))]

end ODE

namespace RealSpace

variable {N z : ℕ} {nb : ℕ → List ℕ}

theorem neg_notFinite {x : Ext} (h : x.NotFinite) : (Ext.neg x).NotFinite := by
  rcases h with rfl | ⟨s, rfl⟩
  · exact Or.inl rfl
  · exact Or.inr ⟨!s, rfl⟩

theorem half_notFinite {x : Ext} (h : x.NotFinite) : (Ext.div rnd x (.fin 2)).NotFinite := by
  rcases h with rfl | ⟨s, rfl⟩
  · exact Or.inl rfl
  · exact Or.inr ⟨_, rfl⟩

/-- The rows have the columns they have with finite parameters. -/
theorem rowX_columns (h : RegularLattice N z nb) (J U : Ext) {row : ℕ} (hr : row < N + N * N * N) :
    ∃ l, rowTripletsX rnd N nb J U row = some l ∧ l.map Triplet.column = (rowList N nb (1 : ℝ) 1 row).map Triplet.column := by
  have h1 := (row_columns h (1 : ℝ) 1 hr).1
  unfold rowTripletsX
  by_cases hN : row < N
  · rw [if_pos hN]
    refine ⟨_, rfl, ?_⟩
    unfold rowList
    rw [rowTriplets_one nb 1 1 hN]
    simp [oneTripletsX, oneTriplets, Function.comp_def]
  · rw [if_neg hN]
    unfold rowTriplets at h1
    rw [if_neg hN] at h1
    cases hb : basisSites (basis3 N) row with
    | none => rw [hb] at h1; cases h1
    | some s =>
      rw [hb] at h1
      simp only [Option.map_some, Option.some.injEq] at h1
      refine ⟨_, rfl, ?_⟩
      rw [← h1]
      simp only [threeTripletsX, threeTriplets, List.map_append, List.map_map, Function.comp_def]
      split_ifs <;> rfl

theorem stored_getD {n : ℕ} {L : ℕ → List (Triplet Ext)} {i : ℕ} (hi : i < n) :
    (([] : List (List (ℕ × Ext))) ++ (List.range' 0 n).map (fun r => Sparse.stored (L r))).getD i [] = Sparse.stored (L i) := by
  simp [List.getD, hi]

/-- **C128**: the matrix with the interaction is assembled for every value of the parameters. -/
theorem initMatrixX_val (h : RegularLattice N z nb) (sort : List (Triplet Ext) → List (Triplet Ext)) (hs : IsSort sort) (J U : Ext) :
    ∃ m, initMatrixX rnd sort N z nb J U = .val m ∧ ∀ row < N + N * N * N, ∃ l, rowTripletsX rnd N nb J U row = some l ∧
      m.done.getD row [] = Sparse.stored (sort l) ∧ ∀ t ∈ l, t.column < N + N * N * N := by
  have hlen : (basis3 N).length = N + N * N * N := (realBasis_size N).2
  set n := N + N * N * N with hn
  set L : ℕ → List (Triplet Ext) := fun row => (rowTripletsX rnd N nb J U row).getD []
  have hL : ∀ row < n, rowTripletsX rnd N nb J U row = some (L row) ∧ (L row).map Triplet.column = (rowList N nb (1 : ℝ) 1 row).map Triplet.column := by
    intro row hr
    obtain ⟨l, e1, e2⟩ := rowX_columns (rnd := rnd) h J U hr
    have : L row = l := by show (rowTripletsX rnd N nb J U row).getD [] = l; rw [e1]; rfl
    rw [this]
    exact ⟨e1, e2⟩
  have hlt : ∀ row < n, ∀ t ∈ L row, t.column < n := by
    intro row hr t ht
    have : t.column ∈ (rowList N nb (1 : ℝ) 1 row).map Triplet.column := by rw [← (hL row hr).2]; exact List.mem_map_of_mem ht
    obtain ⟨t', ht', e⟩ := List.mem_map.1 this
    rw [← e]
    exact (row_columns h (1 : ℝ) 1 hr).2.2.1 t' ht'
  have hle : ∀ row < n, (sort (L row)).length = (rowList N nb (1 : ℝ) 1 row).length := by
    intro row hr
    rw [(hs _).1.length_eq]
    simpa using congrArg List.length (hL row hr).2
  have cap : ((List.range' 0 n).map (fun r => (sort (L r)).length)).sum ≤ numberOfKineticElements3 N z + numberOfInteractionElements N := by
    rw [hn, show List.range' 0 (N + N * N * N) = List.range' 0 N ++ List.range' N (N * N * N) by
      have := List.range'_append_1 (s := 0) (m := N) (n := N * N * N); rw [← this, Nat.zero_add], List.map_append, List.sum_append]
    have s1 : ((List.range' 0 N).map (fun r => (sort (L r)).length)).sum ≤ N * (z + 2) := by
      apply sum_range'_le
      intro r _ hr
      rw [hle r (by omega)]
      have := (row_columns h (1 : ℝ) 1 (row := r) (by omega)).2.2.2
      rwa [if_pos (by omega)] at this
    have s2 : ((List.range' N (N * N * N)).map (fun r => (sort (L r)).length)).sum ≤ (N * N * N) * (3 * z + 2) := by
      apply sum_range'_le
      intro r hr1 hr
      rw [hle r (by omega)]
      have := (row_columns h (1 : ℝ) 1 (row := r) (by omega)).2.2.2
      rwa [if_neg (by omega)] at this
    unfold numberOfKineticElements3 numberOfInteractionElements
    rw [hlen]
    have e1 : N * (z + 2) = N * z + N * 2 := by ring
    have e2 : (N * N * N) * (3 * z + 2) = 3 * (N * N * N * z) + N * N * N * 2 := by ring
    have e3 : N * (N * N) * 6 * z = 6 * (N * N * N * z) := by ring
    have e4 : (N + N * N * N) * 2 = N * 2 + N * N * N * 2 := by ring
    omega
  have fill : initMatrixX rnd sort N z nb J U = .val ⟨n, n, numberOfKineticElements3 N z + numberOfInteractionElements N,
      [] ++ (List.range' 0 n).map (fun r => Sparse.stored (sort (L r))), []⟩ := by
    unfold initMatrixX
    rw [List.range_eq_range', hlen]
    refine Sparse.fillRows_val _ (fun r => sort (L r)) n
      (Sparse.init n (numberOfKineticElements3 N z + numberOfInteractionElements N)) rfl (by simp [Sparse.init]) ?_ ?_
    · intro row _ hr
      have hr : row < n := by simpa [Sparse.init] using hr
      refine ⟨by rw [(hL row hr).1]; rfl, strict_of_sorted_nodup (hs _) (by rw [(hL row hr).2]; exact (row_columns h (1 : ℝ) 1 hr).2.1), ?_⟩
      intro t ht
      exact hlt row hr t ((hs _).1.mem_iff.1 ht)
    · simpa [Sparse.init, Sparse.nonZeros] using cap
  exact ⟨_, fill, fun row hr => ⟨L row, (hL row hr).1, stored_getD (L := fun r => sort (L r)) hr, hlt row hr⟩⟩

/-- **C128**: so is the matrix of the hopping. -/
theorem initKineticMatrixX_val (h : RegularLattice N z nb) (sort : List (Triplet Ext) → List (Triplet Ext)) (hs : IsSort sort) (J : Ext) :
    ∃ m, initKineticMatrixX sort N z nb J = .val m ∧ ∀ row < N, m.done.getD row [] = Sparse.stored (sort (kineticTripletsX nb J row)) := by
  have hlen : (basis1 N).length = N := (realBasis_size N).1
  have cap : ((List.range' 0 N).map (fun r => (sort (kineticTripletsX nb J r)).length)).sum ≤ N * z := by
    apply sum_range'_le
    intro r _ hr
    rw [(hs _).1.length_eq, kineticTripletsX, List.length_map, h.length r (by omega)]
  have fill : initKineticMatrixX sort N z nb J = .val ⟨N, N, numberOfKineticElements1 N z,
      [] ++ (List.range' 0 N).map (fun r => Sparse.stored (sort (kineticTripletsX nb J r))), []⟩ := by
    unfold initKineticMatrixX
    rw [List.range_eq_range', hlen]
    refine Sparse.fillRows_val _ (fun r => sort (kineticTripletsX nb J r)) N (Sparse.init N (numberOfKineticElements1 N z))
      rfl (by simp [Sparse.init]) ?_ ?_
    · intro row _ hr
      have hr : row < N := by simpa [Sparse.init] using hr
      refine ⟨rfl, strict_of_sorted_nodup (hs _) (by simpa [kineticTripletsX, Function.comp_def] using h.nodup row hr), ?_⟩
      intro t ht
      have := (hs _).1.mem_iff.1 ht
      simp only [kineticTripletsX, List.mem_map] at this
      obtain ⟨n, hn, rfl⟩ := this
      exact h.lt row hr n hn
    · simpa [Sparse.init, Sparse.nonZeros, numberOfKineticElements1] using cap
  exact ⟨_, fill, fun row hr => stored_getD (L := fun r => sort (kineticTripletsX nb J r)) hr⟩

/-- With two neighbours, one of them is not site 0. -/
theorem other_neighbour (h : RegularLattice N z nb) (hz : 2 ≤ z) {i : ℕ} (hi : i < N) : ∃ n ∈ nb i, n ≠ 0 := by
  have h1 := h.nodup i hi
  have h2 := h.length i hi
  match hl : nb i with
  | [] => rw [hl] at h2; simp at h2; omega
  | [a] => rw [hl] at h2; simp at h2; omega
  | a :: b :: l =>
    rw [hl] at h1
    have : a ≠ b := by intro e; subst e; simp at h1
    by_cases ha : a = 0
    · exact ⟨b, by simp, by omega⟩
    · exact ⟨a, by simp, ha⟩

/-- Every row has an element that is not finite in a column other than 0. -/
theorem rowX_bad (h : RegularLattice N z nb) (hz : 2 ≤ z) {J U : Ext} (hbad : J.NotFinite ∨ U.NotFinite) {row : ℕ} (hr : row < N + N * N * N)
    {l : List (Triplet Ext)} (hl : rowTripletsX rnd N nb J U row = some l) : ∃ t ∈ l, t.column ≠ 0 ∧ t.value.NotFinite := by
  obtain ⟨x, hx, hp⟩ := label_of_lt hr
  unfold rowTripletsX at hl
  cases x with
  | one i =>
    have hi : row < N := by rw [← hp]; exact hx
    rw [if_pos hi, Option.some.injEq] at hl
    subst hl
    rcases hbad with hJ | hU
    · obtain ⟨n, hn, h0⟩ := other_neighbour h hz hi
      exact ⟨⟨row, n, Ext.neg J⟩, by simp only [oneTripletsX, List.mem_append, List.mem_map]; exact Or.inl ⟨n, hn, rfl⟩, h0, neg_notFinite hJ⟩
    · refine ⟨⟨row, get3opIndex N row row row, Ext.div rnd U (.fin 2)⟩, by simp [oneTripletsX], ?_, half_notFinite hU⟩
      have := ((realBasis_index_bijective N).1 row row row hi hi hi).1
      show get3opIndex N row row row ≠ 0
      omega
  | three a b c =>
    obtain ⟨ha, hb, hc⟩ := hx
    have hge := ((realBasis_index_bijective N).1 a b c ha hb hc).1
    have hp : get3opIndex N a b c = row := hp
    rw [if_neg (by omega), ← hp, basisSites_three ha hb hc, Option.map_some, Option.some.injEq] at hl
    subst hl
    rcases hbad with hJ | hU
    · obtain ⟨n, hn, h0⟩ := other_neighbour h hz ha
      refine ⟨⟨get3opIndex N a b c, get3opIndex N n b c, Ext.neg J⟩, ?_, ?_, neg_notFinite hJ⟩
      · simp only [threeTripletsX, List.mem_append, List.mem_map]
        exact Or.inl (Or.inl (Or.inl (Or.inl ⟨n, hn, rfl⟩)))
      · have := ((realBasis_index_bijective N).1 n b c (h.lt a ha n hn) hb hc).1
        show get3opIndex N n b c ≠ 0
        omega
    · refine ⟨⟨get3opIndex N a b c, get3opIndex N a b c, Ext.div rnd U (.fin 2)⟩, by simp [threeTripletsX], ?_, half_notFinite hU⟩
      show get3opIndex N a b c ≠ 0
      omega

end RealSpace

namespace Program

open ExtC

/-- The elements of a row after the multiplication with `i`. -/
theorem timesIX_row {m : Sparse Ext} {row : ℕ} {l : List (Triplet Ext)} (h : m.done.getD row [] = Sparse.stored l) :
    (RealSpace.timesIX rnd m).done.getD row [] = l.map fun t => (t.column, ExtC.mul rnd ⟨t.value, .fin 0⟩ ⟨.fin 0, .fin 1⟩) := by
  unfold RealSpace.timesIX
  simp only [List.getD_eq_getElem?_getD, List.getElem?_map] at h ⊢
  cases e : m.done[row]? with
  | none =>
    rw [e] at h
    have : l = [] := by
      have := congrArg List.length h
      simp [Sparse.stored] at this
      exact List.eq_nil_of_length_eq_zero this.symm
    subst this
    rfl
  | some r =>
    rw [e] at h
    simp only [Option.getD_some] at h
    subst h
    simp [Sparse.stored, Function.comp_def]

theorem initVectorX_getD {size c : ℕ} (hc : c ≠ 0) : ((⟨.fin 1, .fin 0⟩ : ExtC) :: List.replicate (size - 1) ExtC.zero).getD c ExtC.zero = ExtC.zero := by
  obtain ⟨k, rfl⟩ : ∃ k, c = k + 1 := ⟨c - 1, by omega⟩
  simp only [List.getD_eq_getElem?_getD, List.getElem?_cons_succ, List.getElem?_replicate]
  split_ifs <;> rfl

/-- What a program does whose matrix has an element in every row that is not finite and not in column 0: every step gives NaN. -/
theorem step_bad (h0 : rnd 0 = .val 0) {n : ℕ} (hn : 0 < n) {m : Sparse Ext} (dt : Ext)
    (hm : ∀ row < n, ∃ l, m.done.getD row [] = Sparse.stored l ∧ (∀ t ∈ l, t.column < n) ∧ ∃ t ∈ l, t.column ≠ 0 ∧ t.value.NotFinite) {u : List ExtC}
    (hu : u = (⟨.fin 1, .fin 0⟩ : ExtC) :: List.replicate (n - 1) ExtC.zero ∨ u = List.replicate n NN) :
    ODE.stepMatrixX rnd n dt (RealSpace.timesIX rnd m) u = .val (List.replicate n NN) := by
  have hit : ∀ u : List ExtC, u.length = n → (∀ c, c ≠ 0 → c < n → u.getD c ExtC.zero = ExtC.zero ∨ u.getD c ExtC.zero = NN) →
      ODE.matVecX rnd n (RealSpace.timesIX rnd m) u = .val (List.replicate n NN) := by
    intro u hl hu
    refine ODE.matVecX_hit hl fun i hi => ?_
    obtain ⟨l, e, hlt, t, ht, hc, hv⟩ := hm i hi
    rw [timesIX_row e]
    exact ⟨_, List.mem_map_of_mem ht, mul_bad h0 (timesI_bad h0 hv) (hu t.column hc (hlt t ht))⟩
  have hNN := hit (List.replicate n NN) (by simp) fun c _ hc => by
    right
    simp [List.getD_eq_getElem?_getD, hc]
  rcases hu with rfl | rfl
  · have hl : ((⟨.fin 1, .fin 0⟩ : ExtC) :: List.replicate (n - 1) ExtC.zero).length = n := by simp; omega
    exact ODE.stepMatrixX_NN dt hl (hit _ hl fun c hc _ => Or.inl (initVectorX_getD hc)) hNN
  · exact ODE.stepMatrixX_NN dt (by simp) hNN hNN

theorem coefficientRowX_NN (n : ℕ) : coefficientRowX (List.replicate n NN) = List.replicate (2 * n) .nan := by
  induction n with
  | zero => rfl
  | succ n ih =>
    unfold coefficientRowX at ih ⊢
    rw [List.replicate_succ, List.flatMap_cons, ih, show 2 * (n + 1) = 2 * n + 1 + 1 by ring, List.replicate_succ, List.replicate_succ]
    rfl

end Program
end Ieompp
