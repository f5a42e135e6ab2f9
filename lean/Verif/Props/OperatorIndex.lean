import Verif.Model.OperatorIndex

/-! # C74: indices and index types of operators -/

set_option autoImplicit false
set_option linter.unusedSectionVars false

namespace Ieompp
namespace OpIndex

variable {V : Type}

/-- **C74**: an operator made from indices has these indices, for every number of indices: `get_index<I>` returns the
`I`-th one (and does not compile for `I` out of range), `get_indices` and `index_tuple` return all of them, and the kind of
operator is the one asked for. -/
theorem make_indices (l : List V) (c : Bool) : ∀ op, op = (if c then makeCreator l else makeAnnihilator l) →
    op.creator = c ∧ op.numberOfIndices = l.length ∧ getIndices op = l ∧ indexTuple op = l ∧
    ∀ I, getIndex I op = l[I]? := by
  rintro op rfl
  match l with
  | [] => cases c <;> simp [makeCreator, makeAnnihilator, AnyOp.creator, AnyOp.numberOfIndices, getIndices, indexTuple, getIndex]
  | [i] =>
    cases c <;> refine ⟨rfl, rfl, rfl, rfl, fun I => ?_⟩ <;> rcases I with _ | I <;>
      simp [makeCreator, makeAnnihilator, getIndex]
  | [i, j] =>
    cases c <;> refine ⟨rfl, rfl, rfl, rfl, fun I => ?_⟩ <;> rcases I with _ | _ | I <;>
      simp [makeCreator, makeAnnihilator, getIndex]
  | a :: b :: d :: l =>
    cases c <;> exact ⟨rfl, rfl, rfl, rfl, fun I => rfl⟩

/-- **C74**: `get_index` and `get_indices` agree for every operator, however it was made, and exactly the indices below
`number_of_indices` can be asked for. -/
theorem getIndex_eq (op : AnyOp V) (I : ℕ) :
    getIndex I op = (getIndices op)[I]? ∧ indexTuple op = getIndices op ∧
    (getIndex I op ≠ none ↔ I < op.numberOfIndices) := by
  cases op with
  | one c i => rcases I with _ | I <;> simp [getIndex, getIndices, indexTuple, AnyOp.numberOfIndices]
  | two c i j => rcases I with _ | _ | I <;> simp [getIndex, getIndices, indexTuple, AnyOp.numberOfIndices]
  | many c l => simp [getIndex, getIndices, indexTuple, AnyOp.numberOfIndices]

/-- **C74**: assigning to `get_index<I>(op)` changes this index and nothing else. -/
theorem setIndex_correct (op op' : AnyOp V) (I : ℕ) (v : V) (h : setIndex I v op = some op') :
    getIndex I op' = some v ∧ (∀ J, J ≠ I → getIndex J op' = getIndex J op) ∧ op'.creator = op.creator ∧
    op'.numberOfIndices = op.numberOfIndices := by
  cases op with
  | one c i =>
    simp only [setIndex] at h
    split_ifs at h with hI
    cases h
    subst hI
    refine ⟨by simp [getIndex], fun J hJ => by simp [getIndex, hJ], rfl, rfl⟩
  | two c i j =>
    simp only [setIndex] at h
    split_ifs at h with h0 h1
    · cases h; subst h0
      refine ⟨by simp [getIndex], fun J hJ => by simp [getIndex, hJ], rfl, rfl⟩
    · cases h; subst h1
      refine ⟨by simp [getIndex], fun J hJ => by simp [getIndex, hJ], rfl, rfl⟩
  | many c l =>
    simp only [setIndex] at h
    split_ifs at h with hI
    cases h
    refine ⟨by simp [getIndex, hI], fun J hJ => ?_, rfl, by simp [AnyOp.numberOfIndices]⟩
    simp only [getIndex]
    rw [List.getElem?_set_ne (Ne.symm hJ)]

/-- The assignment is possible exactly for the existing indices. -/
theorem setIndex_defined (op : AnyOp V) (I : ℕ) (v : V) : setIndex I v op ≠ none ↔ I < op.numberOfIndices := by
  cases op with
  | one c i => rcases I with _ | I <;> simp [setIndex, AnyOp.numberOfIndices]
  | two c i j => rcases I with _ | _ | I <;> simp [setIndex, AnyOp.numberOfIndices]
  | many c l => simp [setIndex, AnyOp.numberOfIndices]

/-! ### Types -/

theorem isSymbolicHelper_eq (ts : List Ty) : ∀ n I, I + n < ts.length →
    isSymbolicHelper ts I n = some (((ts.drop I).take (n + 1)).any fun t => !t.isArithmetic) := by
  intro n
  induction n with
  | zero =>
    intro I h
    have hI : I < ts.length := by omega
    rw [List.drop_eq_getElem_cons hI, isSymbolicHelper, indexType, List.getElem?_eq_getElem hI,
      List.take_succ_cons, List.take_zero, List.any_cons, List.any_nil, Bool.or_false, Option.map_some]
  | succ n ih =>
    intro I h
    have hI : I < ts.length := by omega
    rw [isSymbolicHelper, ih (I + 1) (by omega)]
    simp [indexType, List.getElem?_eq_getElem hI]
    rw [List.drop_eq_getElem_cons hI, List.take_succ_cons, List.any_cons]

/-- **C74**: `IsSymbolicOperator` says whether some index is not an arithmetic type, for every operator with an index. -/
theorem isSymbolicOperator_iff (ts : List Ty) (h : ts ≠ []) :
    ∃ b, isSymbolicOperator ts = some b ∧ (b = true ↔ ∃ n, Ty.other n ∈ ts) := by
  have hot : (∃ n, Ty.other n ∈ ts) ↔ ∃ t ∈ ts, t.isArithmetic = false := by
    constructor
    · rintro ⟨n, hn⟩; exact ⟨_, hn, rfl⟩
    · rintro ⟨t, ht, ha⟩
      cases t with
      | other n => exact ⟨n, ht⟩
      | bool => simp [Ty.isArithmetic] at ha
      | integer n => simp [Ty.isArithmetic] at ha
      | floating n => simp [Ty.isArithmetic] at ha
  rw [hot]
  have hl : 0 < ts.length := List.length_pos_iff.2 h
  refine ⟨((ts.drop 0).take (ts.length - 1 + 1)).any fun t => !t.isArithmetic, ?_, ?_⟩
  · unfold isSymbolicOperator
    rw [if_neg (by omega)]
    exact isSymbolicHelper_eq ts _ 0 (by omega)
  · rw [List.drop_zero, show ts.length - 1 + 1 = ts.length by omega, List.take_length, List.any_eq_true]
    simp

/-- An operator is symbolic iff one of its indices is. -/
theorem isSymbolicOperator_index (ts : List Ty) (h : ts ≠ []) :
    isSymbolicOperator ts = some true ↔ ∃ I, isSymbolicIndex I ts = some true := by
  obtain ⟨b, hb, hb'⟩ := isSymbolicOperator_iff ts h
  rw [hb]
  simp only [Option.some.injEq, hb']
  constructor
  · rintro ⟨n, ht⟩
    obtain ⟨I, hI, e⟩ := List.getElem_of_mem ht
    exact ⟨I, by simp [isSymbolicIndex, indexType, List.getElem?_eq_getElem hI, e, Ty.isArithmetic]⟩
  · rintro ⟨I, hI⟩
    unfold isSymbolicIndex indexType at hI
    cases ht : ts[I]? with
    | none => rw [ht] at hI; simp at hI
    | some t =>
      rw [ht] at hI
      simp at hI
      cases t with
      | other n => exact ⟨n, List.mem_of_getElem? ht⟩
      | bool => simp [Ty.isArithmetic] at hI
      | integer n => simp [Ty.isArithmetic] at hI
      | floating n => simp [Ty.isArithmetic] at hI

theorem hasIndexOfTypeHelper_none (ts : List Ty) (T : Ty) : ∀ n I, I + n = ts.length →
    hasIndexOfTypeHelper ts T I n = none := by
  intro n
  induction n with
  | zero => intro I h; simp [hasIndexOfTypeHelper, indexType]; omega
  | succ n ih =>
    intro I h
    have hI : I < ts.length := by omega
    rw [hasIndexOfTypeHelper, ih (I + 1) (by omega)]
    simp [indexType, List.getElem?_eq_getElem hI]

/-- **C74** (refutation): `HasIndexOfType` does not compile for any operator and any type, because the recursion goes one
index too far. -/
theorem hasIndexOfType_wrong (ts : List Ty) (T : Ty) : hasIndexOfType ts T = none :=
  hasIndexOfTypeHelper_none ts T ts.length 0 (by omega)

theorem hasIndexOfTypeHelper_eq (ts : List Ty) (T : Ty) : ∀ n I, I + n + 1 = ts.length →
    hasIndexOfTypeHelper ts T I n = some ((ts.drop I).contains T) := by
  intro n
  induction n with
  | zero =>
    intro I h
    have hI : I < ts.length := by omega
    rw [hasIndexOfTypeHelper, indexType, List.getElem?_eq_getElem hI, List.drop_eq_getElem_cons hI,
      List.drop_eq_nil_of_le (by omega)]
    simp [eq_comm, Bool.beq_eq_decide_eq]
  | succ n ih =>
    intro I h
    have hI : I < ts.length := by omega
    rw [hasIndexOfTypeHelper, ih (I + 1) (by omega), indexType, List.getElem?_eq_getElem hI, List.drop_eq_getElem_cons hI,
      List.contains_cons, Bool.beq_comm (a := T)]
    rfl

/-- **C74**: only the call is wrong: started with the last index, as intended, the recursion of `HasIndexOfType` decides whether
the type is one of the index types. -/
theorem hasIndexOfTypeHelper_intended (ts : List Ty) (T : Ty) (h : ts ≠ []) :
    ∃ b, hasIndexOfTypeHelper ts T 0 (ts.length - 1) = some b ∧ (b = true ↔ T ∈ ts) := by
  have hl : 0 < ts.length := List.length_pos_iff.2 h
  exact ⟨_, hasIndexOfTypeHelper_eq ts T (ts.length - 1) 0 (by omega), by simp⟩

/-- **C74**: `IsHubbardOperator` accepts exactly the operators with one or two integral lattice indices and a `bool` spin. -/
theorem isHubbard_iff (ts : List Ty) : isHubbard ts = true ↔
    ∃ pos, ts = pos ++ [Ty.bool] ∧ (pos.length = 1 ∨ pos.length = 2) ∧ ∀ t ∈ pos, t = Ty.bool ∨ ∃ n, t = Ty.integer n := by
  have hint : ∀ t : Ty, (t = Ty.bool ∨ ∃ n, t = Ty.integer n) ↔ t.isIntegral = true := by
    intro t; cases t <;> simp [Ty.isIntegral]
  simp only [hint]
  constructor
  · intro h
    match ts, h with
    | [a, b], h =>
      simp [isHubbard, is1dHubbard, is2dHubbard] at h
      exact ⟨[a], by simp [h.2], by simp, by simp [h.1]⟩
    | [a, b, c], h =>
      simp [isHubbard, is1dHubbard, is2dHubbard] at h
      exact ⟨[a, b], by simp [h.2], by simp, by simp [h.1]⟩
  · rintro ⟨pos, rfl, hl, hp⟩
    match pos, hl with
    | [a], _ => simp [isHubbard, is1dHubbard, is2dHubbard, hp a (by simp)]
    | [a, b], _ => simp [isHubbard, is1dHubbard, is2dHubbard, hp a (by simp), hp b (by simp)]

/-- No operator is both. -/
theorem hubbard_1d_2d_disjoint (ts : List Ty) : ¬ (is1dHubbard ts = true ∧ is2dHubbard ts = true) := by
  rintro ⟨h1, h2⟩
  match ts, h1 with
  | [a, b], _ => simp [is2dHubbard] at h2

/-- **C74**, the part that holds: `SpatialIndexType` of a one-dimensional Hubbard operator is its first index type. -/
theorem spatialIndexType_partial (ts : List Ty) (h : is1dHubbard ts = true) :
    ∃ t, ts = [t, Ty.bool] ∧ spatialIndexType ts = some [t] := by
  match ts, h with
  | [a, b], h =>
    have h' := h
    simp [is1dHubbard] at h'
    obtain ⟨ha, rfl⟩ := h'
    exact ⟨a, rfl, by simp [spatialIndexType, isHubbard, h, memberIndex1, indexType]⟩

/-- **C74** (refutation): for no two-dimensional Hubbard operator does `SpatialIndexType` compile: it names the member
`Index1`, which operators with three indices do not have. -/
theorem spatialIndexType_wrong (ts : List Ty) (h : is2dHubbard ts = true) : spatialIndexType ts = none := by
  match ts, h with
  | [a, b, c], h => simp [spatialIndexType, isHubbard, memberIndex1]

/-- Concrete cases. -/
example : isHubbard [.integer 64, .bool] = true ∧ is2dHubbard [.integer 64, .integer 64, .bool] = true ∧
    isHubbard [.other 0, .bool] = false ∧ isSymbolicOperator [.integer 32, .bool, .other 0] = some true ∧
    isSymbolicOperator [.integer 32, .bool] = some false := by decide

example : setIndex 1 'z' (makeCreator ['a', 'b', 'c', 'd']) = some (.many true ['a', 'z', 'c', 'd']) := by rfl

end OpIndex
end Ieompp
