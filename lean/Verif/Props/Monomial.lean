import Verif.Model.Monomial
import Verif.Props.Operator

/-!
# C04, C05: monomials
-/

set_option autoImplicit false
set_option linter.unusedSectionVars false

namespace Ieompp

open Spec

variable {ι : Type*} [DecidableEq ι]

/-! ## C04 -/

/-- C04: the conjugate has the same length and its operator at position `i` is the adjoint of the operator at
the mirrored position. -/
theorem monomial_getConjugate_getElem (m : Monomial ι) :
    m.getConjugate.length = m.length ∧
    ∀ (i : ℕ) (h : i < m.getConjugate.length) (h' : m.length - 1 - i < m.length),
      IsAdjoint m[m.length - 1 - i] m.getConjugate[i] := by
  refine ⟨by simp [Monomial.getConjugate], fun i h h' => ?_⟩
  rw [← op_getConjugate_isAdjoint]
  simp [Monomial.getConjugate, op_conjugate_eq_getConjugate]

/-- C04: in-place and copying versions agree. -/
theorem monomial_conjugate_eq (m : Monomial ι) : m.conjugate = m.getConjugate := by
  simp [Monomial.conjugate, Monomial.getConjugate]

/-- C04: involution. -/
theorem monomial_getConjugate_involutive (m : Monomial ι) : m.getConjugate.getConjugate = m := by
  simp only [Monomial.getConjugate, List.nil_append, List.map_reverse, List.reverse_reverse,
    List.map_map]
  have : (Op.conjugate ∘ Op.conjugate : Op ι → Op ι) = id := by
    funext a; exact (op_conjugate_involutive a).1
  simp [this]

/-- C04: anti-homomorphism, (ab)† = b† a†. -/
theorem monomial_getConjugate_mul (a b : Monomial ι) :
    Monomial.getConjugate (Monomial.mul a b) = Monomial.mul b.getConjugate a.getConjugate := by
  simp [Monomial.getConjugate, Monomial.mul]

theorem isConjugateLoop_iff (a b : Monomial ι) (h : a.length = b.length) :
    Monomial.isConjugateLoop a b = true ↔ b = a.map Op.getConjugate := by
  induction a generalizing b with
  | nil => cases b <;> simp_all [Monomial.isConjugateLoop]
  | cons x xs ih =>
    cases b with
    | nil => simp at h
    | cons y ys =>
      simp only [List.length_cons, Nat.add_right_cancel_iff] at h
      simp only [Monomial.isConjugateLoop, List.map_cons, List.cons.injEq]
      rw [op_getConjugate_isAdjoint, ← op_isConjugate_iff]
      cases hx : x.isConjugate y <;> simp [ih ys h]

/-- C04: `is_conjugate` recognises exactly the conjugate. -/
theorem monomial_isConjugate_iff (a b : Monomial ι) :
    a.isConjugate b = true ↔ b = a.getConjugate := by
  unfold Monomial.isConjugate
  split
  · rename_i h
    simp only [Bool.false_eq_true, false_iff]
    rintro rfl
    exact h (by simp [Monomial.getConjugate])
  · rename_i h
    simp only [ne_eq, Decidable.not_not] at h
    rw [isConjugateLoop_iff _ _ (by simpa using h)]
    have : (Op.conjugate : Op ι → Op ι) = Op.getConjugate := rfl
    simp only [Monomial.getConjugate, List.nil_append, this, List.map_reverse]
    constructor
    · intro h'; rw [← h', List.reverse_reverse]
    · rintro rfl; simp

/-- C04: `is_conjugate` is symmetric. -/
theorem monomial_isConjugate_comm (a b : Monomial ι) : a.isConjugate b = b.isConjugate a := by
  rw [Bool.eq_iff_iff, monomial_isConjugate_iff, monomial_isConjugate_iff]
  constructor <;> rintro rfl <;> exact (monomial_getConjugate_involutive _).symm

theorem stdEqual_iff (a b : Monomial ι) (h : a.length = b.length) :
    Monomial.stdEqual a b = true ↔ a = b := by
  induction a generalizing b with
  | nil => cases b <;> simp_all [Monomial.stdEqual]
  | cons x xs ih =>
    cases b with
    | nil => simp at h
    | cons y ys =>
      simp only [List.length_cons, Nat.add_right_cancel_iff] at h
      simp [Monomial.stdEqual, op_eq_iff_eq, ih ys h]

/-- C04: `==` is equality of the words. -/
theorem monomial_eq_iff (a b : Monomial ι) : a.eqB b = true ↔ a = b := by
  unfold Monomial.eqB
  split
  · rename_i h; simp only [Bool.false_eq_true, false_iff]; rintro rfl; exact h rfl
  · rename_i h; exact stdEqual_iff a b (by simpa using h)

/-- C04: `!=` is its complement. -/
theorem monomial_ne_eq_not (a b : Monomial ι) : a.neB b = !(a.eqB b) := by
  unfold Monomial.neB Monomial.eqB
  split <;> simp

example : Monomial.getConjugate [Op.makeCreator 1, Op.makeAnnihilator 2, Op.makeAnnihilator 1]
      = [Op.makeCreator 1, Op.makeCreator 2, Op.makeAnnihilator 1] ∧
    Monomial.isConjugate [Op.makeCreator 1, Op.makeAnnihilator 2]
      [Op.makeCreator 2, Op.makeAnnihilator 1] = true ∧
    Monomial.isConjugate [Op.makeCreator 1, Op.makeAnnihilator 2]
      [Op.makeCreator 1, Op.makeAnnihilator 2] = false := by decide

/-! ## C05 -/

/-- C05: the product is a monoid: associative, with the empty monomial as unit. -/
theorem monomial_mul_monoid (a b c : Monomial ι) :
    Monomial.mul (Monomial.mul a b) c = Monomial.mul a (Monomial.mul b c) ∧
    Monomial.mul [] a = a ∧ Monomial.mul a [] = a := by
  simp [Monomial.mul]

/-- C05: the product is the left word followed by the right word. -/
theorem monomial_mul_getElem (a b : Monomial ι) :
    (Monomial.mul a b).length = a.length + b.length ∧
    (∀ i, i < a.length → (Monomial.mul a b)[i]? = a[i]?) ∧
    (∀ i, (Monomial.mul a b)[a.length + i]? = b[i]?) := by
  refine ⟨by simp [Monomial.mul], fun i h => ?_, fun i => ?_⟩
  · simp [Monomial.mul, List.getElem?_append_left h]
  · simp [Monomial.mul, List.getElem?_append_right]

theorem Vec.copyFrom_data {τ : Type*} (grow : ℕ → ℕ) (v : Vec τ) (l : List τ) :
    (v.copyFrom grow l).data = v.data ++ l := by
  induction l generalizing v with
  | nil => simp [Vec.copyFrom]
  | cons x xs ih =>
    rw [Vec.copyFrom, ih]
    unfold Vec.pushBack; split <;> simp

/-- C05, part: with distinct operands `a *= b` leaves the product, whatever the capacity and the growth policy.
Missing (and false, see `monomial_mulAssignSelf_ub`): the aliased case. -/
theorem monomial_mulAssign_partial (grow : ℕ → ℕ) (a : Vec (Op ι)) (b : Monomial ι) :
    (Monomial.mulAssign grow a b).data = Monomial.mul a.data b :=
  Vec.copyFrom_data grow a b

theorem Vec.copySelf_data {τ : Type*} (grow : ℕ → ℕ) (l : List τ) (i : ℕ) (d : Bool) (v v' : Vec τ)
    (hi : i ≤ l.length) (hv : v.data = l ++ l.take i) (h : v.copySelf grow l.length i d = some v') :
    v'.data = l ++ l := by
  generalize hk : l.length - i = k
  induction k generalizing i d v with
  | zero =>
    have hil : i = l.length := by omega
    rw [Vec.copySelf] at h
    simp only [hil, lt_irrefl, if_false, Option.some.injEq] at h
    rw [← h, hv, hil]; simp
  | succ k ih =>
    have hil : i < l.length := by omega
    rw [Vec.copySelf, if_pos hil] at h
    cases d with
    | true => simp at h
    | false =>
      have hx : v.data[i]? = some l[i] := by
        rw [hv, List.getElem?_append_left hil, List.getElem?_eq_getElem hil]
      simp only [Bool.false_eq_true, if_false, hx] at h
      refine ih (i + 1) _ _ (by omega) ?_ h (by omega)
      have hp : (v.pushBack grow l[i]).1.data = v.data ++ [l[i]] := by
        unfold Vec.pushBack; split <;> rfl
      rw [hp, hv, List.append_assoc, List.take_add_one, List.getElem?_eq_getElem hil]
      rfl

/-- C05, aliased operands: whenever `a *= a` is defined at all, it leaves the square. -/
theorem monomial_mulAssignSelf_partial (grow : ℕ → ℕ) (a v : Vec (Op ι))
    (h : Monomial.mulAssignSelf grow a = some v) : v.data = Monomial.mul a.data a.data :=
  Vec.copySelf_data grow a.data 0 false a v (by omega) (by simp) h

theorem Vec.copySelf_none {τ : Type*} (grow : ℕ → ℕ) (n i : ℕ) (v : Vec τ) (hin : i < n) :
    v.copySelf grow n i true = none := by
  rw [Vec.copySelf]; simp [hin]

/-- C05, negation for aliased operands: for every vector with at least two operators that is filled to
capacity (as every freshly copied vector is), `a *= a` reads through a dangling iterator, whatever the
growth policy. -/
theorem monomial_mulAssignSelf_ub (grow : ℕ → ℕ) (a : Vec (Op ι)) (h2 : 2 ≤ a.data.length)
    (hfull : a.cap = a.data.length) : Monomial.mulAssignSelf grow a = none := by
  unfold Monomial.mulAssignSelf
  rw [Vec.copySelf, if_pos (by omega)]
  have h0 : a.data[0]? = some a.data[0] := List.getElem?_eq_getElem (by omega)
  simp only [Bool.false_eq_true, if_false, h0]
  have : (a.pushBack grow a.data[0]).2 = true := by
    unfold Vec.pushBack; rw [if_neg (by omega)]
  rw [this]
  exact Vec.copySelf_none grow _ _ _ (by omega)

theorem Vec.copySelf_isSome_iff {τ : Type*} (grow : ℕ → ℕ) (n i : ℕ) (v : Vec τ) (hi : i ≤ n)
    (hlen : v.data.length = n + i) (hcap : n + i ≤ v.cap) :
    v.copySelf grow n i false ≠ none ↔ n = i ∨ 2 * n ≤ v.cap + 1 := by
  generalize hk : n - i = k
  induction k generalizing i v with
  | zero =>
    have : i = n := by omega
    rw [Vec.copySelf]; simp [this]
  | succ k ih =>
    have hin : i < n := by omega
    have hx : v.data[i]? = some v.data[i] := List.getElem?_eq_getElem (by omega)
    rw [Vec.copySelf, if_pos hin]
    simp only [Bool.false_eq_true, if_false, hx]
    by_cases hc : v.data.length < v.cap
    · have e : v.pushBack grow v.data[i] = (⟨v.data ++ [v.data[i]], v.cap⟩, false) := by
        unfold Vec.pushBack; rw [if_pos hc]
      rw [e, ih (i + 1) ⟨v.data ++ [v.data[i]], v.cap⟩ (by omega) (by simp; omega) (by simp; omega) (by omega)]
      simp only
      omega
    · have e : (v.pushBack grow v.data[i]).2 = true := by
        unfold Vec.pushBack; rw [if_neg hc]
      rw [e]
      by_cases h1 : i + 1 < n
      · rw [Vec.copySelf_none grow n (i + 1) _ h1]
        simp only [ne_eq, not_true_eq_false, false_iff]
        omega
      · rw [Vec.copySelf, if_neg h1]
        simp only [ne_eq, reduceCtorEq, not_false_eq_true, true_iff]
        omega

/-- C05, exactly when `a *= a` is defined: the monomial is empty, or the allocated capacity has room for all but the
last operator of the square. -/
theorem monomial_mulAssignSelf_iff (grow : ℕ → ℕ) (a : Vec (Op ι)) (ha : a.data.length ≤ a.cap) :
    (∃ v, Monomial.mulAssignSelf grow a = some v ∧ v.data = Monomial.mul a.data a.data) ↔
      a.data = [] ∨ 2 * a.data.length ≤ a.cap + 1 := by
  have h := Vec.copySelf_isSome_iff grow a.data.length 0 a (by omega) (by omega) (by simpa using ha)
  rw [List.length_eq_zero_iff] at h
  rw [← h]
  unfold Monomial.mulAssignSelf
  constructor
  · rintro ⟨v, hv, -⟩; rw [hv]; simp
  · intro h'
    obtain ⟨v, hv⟩ := Option.ne_none_iff_exists'.1 h'
    exact ⟨v, hv, monomial_mulAssignSelf_partial grow a v hv⟩

/-- C05: the aliased case is defined when the capacity is large enough. -/
example : Monomial.mulAssignSelf (· * 2) ⟨[Op.makeCreator 1, Op.makeAnnihilator 2], 4⟩ ≠ none := by
  simp [Monomial.mulAssignSelf, Vec.copySelf, Vec.pushBack, Op.makeCreator, Op.makeAnnihilator]

example : (2 ≤ (⟨[Op.makeCreator 1, Op.makeAnnihilator 2], 2⟩ : Vec (Op ℕ)).data.length) ∧
    (⟨[Op.makeCreator 1, Op.makeAnnihilator 2], 2⟩ : Vec (Op ℕ)).cap = 2 := by decide

end Ieompp
