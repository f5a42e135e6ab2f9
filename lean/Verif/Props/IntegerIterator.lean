import Verif.Model.IntegerIterator
import Mathlib.Tactic.Common
import Mathlib.Tactic.Ring

/-! # C17: the integer iterator -/

set_option autoImplicit false

namespace Ieompp

/-- C17: from `begin` (0) to `end` (N) the loop visits 0, ..., N-1, once each and in order. -/
theorem integerIterator_walk (N : ℕ) (hN : N < 2 ^ 64) :
    IntegerIterator.walk ⟨BitVec.ofNat 64 N⟩ N ⟨0⟩ = some ((List.range N).map (BitVec.ofNat 64)) := by
  have key : ∀ k s, s + k = N →
      IntegerIterator.walk ⟨BitVec.ofNat 64 N⟩ k ⟨BitVec.ofNat 64 s⟩
        = some ((List.range' s k).map (BitVec.ofNat 64)) := by
    intro k
    induction k with
    | zero =>
      intro s hs
      have : s = N := by omega
      subst this
      simp [IntegerIterator.walk, IntegerIterator.ne]
    | succ k ih =>
      intro s hs
      have hne : BitVec.ofNat 64 s ≠ BitVec.ofNat 64 N := by
        intro h
        have := congrArg BitVec.toNat h
        simp only [BitVec.toNat_ofNat] at this
        rw [Nat.mod_eq_of_lt (by omega), Nat.mod_eq_of_lt hN] at this
        omega
      have h1 : (IntegerIterator.inc ⟨BitVec.ofNat 64 s⟩) = ⟨BitVec.ofNat 64 (s + 1)⟩ := by
        simp [IntegerIterator.inc, BitVec.ofNat_add]
      rw [IntegerIterator.walk, if_pos (by simp [IntegerIterator.ne, hne]), h1, ih (s + 1) (by omega)]
      simp [IntegerIterator.deref, List.range'_succ]
  have := key N 0 (by omega)
  simpa [List.range_eq_range'] using this

/-- C17, without `-=`: the random access iterator laws of the remaining operations.
Missing from the full property: `it -= n` undoes `it += n`, which is false of the code. -/
theorem integerIterator_laws_partial (a b : IntegerIterator) (n m : BitVec 64) :
    a.inc.dec = a ∧ a.dec.inc = a ∧ a.inc = a.add 1 ∧ a.dec = a.sub 1 ∧
    a.addAssign n = a.add n ∧ (a.add n).sub n = a ∧ (a.sub n).add n = a ∧
    (a.add n).add m = a.add (n + m) ∧ a.at_ n = (a.add n).deref ∧
    a.add (b.diff a) = b ∧ (a.add n).diff a = n ∧
    (a.eq b = true ↔ a = b) ∧ (a.ne b = !(a.eq b)) ∧ (a.eq b = true ↔ b.diff a = 0) ∧
    (a.lt b = true ↔ a.val.toNat < b.val.toNat) ∧ a.gt b = b.lt a ∧ a.le b = !(b.lt a) ∧
    a.ge b = !(a.lt b) ∧ a.swap b = (b, a) := by
  obtain ⟨x⟩ := a; obtain ⟨y⟩ := b
  simp only [IntegerIterator.inc, IntegerIterator.dec, IntegerIterator.add, IntegerIterator.sub,
    IntegerIterator.addAssign, IntegerIterator.at_, IntegerIterator.deref, IntegerIterator.diff,
    IntegerIterator.eq, IntegerIterator.ne, IntegerIterator.lt, IntegerIterator.gt, IntegerIterator.le,
    IntegerIterator.ge, IntegerIterator.swap, IntegerIterator.mk.injEq, and_true, true_and]
  refine ⟨by ring, by ring, by ring, by ring, by ring, by ring, by ring, by simp, by simp [bne], ?_,
    by simp [BitVec.ult], ?_, ?_⟩
  · rw [sub_eq_zero, beq_iff_eq, eq_comm]
  · simp only [BitVec.ule, BitVec.ult]; rw [← decide_not]; congr 1; simp
  · simp only [BitVec.ule, BitVec.ult]; rw [← decide_not]; congr 1; simp

/-- C17: `end - begin` is the number of sites. -/
theorem integerIterator_end_sub_begin (N : ℕ) (hN : N < 2 ^ 64) :
    ((⟨BitVec.ofNat 64 N⟩ : IntegerIterator).diff ⟨0⟩).toNat = N := by
  simpa [IntegerIterator.diff] using hN

/-- C17 is false of the code: `it -= n` does not undo `it += n`; it moves forward like `+=`. -/
theorem integerIterator_subAssign_wrong :
    (∀ (it : IntegerIterator) n, it.subAssign n = it.add n) ∧
    ¬ ∀ (it : IntegerIterator) n, (it.addAssign n).subAssign n = it := by
  refine ⟨fun _ _ => rfl, fun h => ?_⟩
  have := h ⟨5⟩ 2
  revert this; decide

/-- C17, exactly: `it -= n` undoes `it += n` only for `n = 0` and `n = 2^63`. -/
theorem integerIterator_subAssign_iff (it : IntegerIterator) (n : BitVec 64) :
    (it.addAssign n).subAssign n = it ↔ n.toNat = 0 ∨ n.toNat = 2 ^ 63 := by
  obtain ⟨x⟩ := it
  have hn := n.isLt
  have hx := x.isLt
  rw [IntegerIterator.addAssign, IntegerIterator.subAssign, IntegerIterator.mk.injEq, ← BitVec.toNat_inj]
  simp only [BitVec.toNat_add]
  omega

/-- How far a move should take the iterator. -/
def Spec.offset : IntegerIterator.Move → BitVec 64
  | .preInc => 1
  | .postInc => 1
  | .preDec => -1
  | .postDec => -1
  | .add n => n
  | .sub n => -n

/-- C17: every sequence of moves without `-=` takes the iterator as far as the sum of the offsets. -/
theorem integerIterator_moves_partial (l : List IntegerIterator.Move) (h : ∀ m ∈ l, ∀ n, m ≠ .sub n) (it : IntegerIterator) :
    (l.foldl IntegerIterator.move it).deref = it.deref + (l.map Spec.offset).sum := by
  induction l generalizing it with
  | nil => simp
  | cons m l ih =>
    rw [List.foldl_cons, ih (fun m hm => h m (by simp [hm])), List.map_cons, List.sum_cons, ← add_assoc]
    congr 1
    cases m with
    | sub n => exact absurd rfl (h (.sub n) (by simp) n)
    | _ => simp [IntegerIterator.move, IntegerIterator.deref, IntegerIterator.preInc, IntegerIterator.postInc,
        IntegerIterator.preDec, IntegerIterator.postDec, IntegerIterator.inc, IntegerIterator.dec, Spec.offset,
        IntegerIterator.addAssign, sub_eq_add_neg]

/-- C17, exactly: with `-=` the iterator ends too far by twice the sum of the amounts subtracted. -/
theorem integerIterator_moves (l : List IntegerIterator.Move) (it : IntegerIterator) :
    (l.foldl IntegerIterator.move it).deref = it.deref + (l.map Spec.offset).sum
      + 2 * (l.map fun m => match m with | .sub n => n | _ => 0).sum := by
  induction l generalizing it with
  | nil => simp
  | cons m l ih =>
    rw [List.foldl_cons, ih, List.map_cons, List.sum_cons, List.map_cons, List.sum_cons]
    cases m <;> simp only [IntegerIterator.move, IntegerIterator.deref, IntegerIterator.preInc, IntegerIterator.postInc,
        IntegerIterator.preDec, IntegerIterator.postDec, IntegerIterator.inc, IntegerIterator.dec, Spec.offset,
        IntegerIterator.addAssign, IntegerIterator.subAssign] <;> ring

/-- C17: the value of `++it` and `--it` is the new position. -/
theorem integerIterator_pre (it : IntegerIterator) :
    it.preInc.2.read it.preInc.1 = .val (it.deref + 1) ∧ it.preDec.2.read it.preDec.1 = .val (it.deref - 1) ∧
    it.derefRef.read it = .val it.deref := ⟨rfl, rfl, rfl⟩

/-- C17 is false of the code: the value of `it++` and `it--` cannot be read (it should be the old position). -/
theorem integerIterator_post_ub (it : IntegerIterator) :
    it.postInc.2.read it.postInc.1 = .ub ∧ it.postDec.2.read it.postDec.1 = .ub := ⟨rfl, rfl⟩

/-- C17 is false of the code: the reference obtained from `*it` does not stay at its site when the iterator moves on. -/
theorem integerIterator_reference_moves (it : IntegerIterator) (m : IntegerIterator.Move) :
    it.derefRef.read (it.move m) = .val (it.move m).deref ∧ it.derefRef.read it.preInc.1 ≠ .val it.deref := by
  refine ⟨rfl, fun h => ?_⟩
  injection h with h
  have : it.val + 1 = it.val := h
  simp at this

example : ([.preInc, .add 5, .postDec, .preDec, .postInc].foldl IntegerIterator.move ⟨3⟩).deref = 8 := by decide

example : IntegerIterator.walk ⟨BitVec.ofNat 64 4⟩ 4 ⟨0⟩ = some [0, 1, 2, 3] := by decide

end Ieompp
