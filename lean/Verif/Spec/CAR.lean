import Verif.Model.Operator
import Mathlib.Algebra.Algebra.Basic
import Mathlib.Algebra.Module.LinearMap.End
import Mathlib.Data.Finset.Basic
import Mathlib.Data.Finset.Card
import Mathlib.Algebra.Algebra.Pi
import Mathlib.Tactic.Ring

/-!
# The canonical anticommutation relations, and a concrete realisation (Fock space)
-/

set_option autoImplicit false

namespace Ieompp.Spec

/-- A realisation of the canonical anticommutation relations in a ring `R`:
`{c_i, c_j^†} = δ_ij`, all other anticommutators vanish. `c ⟨true, i⟩` is the creator `c_i^†`. -/
structure CAR (ι R : Type*) [DecidableEq ι] [Ring R] where
  c : Op ι → R
  anticomm : ∀ x y : Op ι, c x * c y + c y * c x =
    if x.creator ≠ y.creator ∧ x.index = y.index then 1 else 0

/-! ### Fock space: occupation sets with Jordan–Wigner signs -/

section Fock

variable {ι : Type*} [LinearOrder ι]

/-- Add the mode if it is missing, remove it if it is there. -/
def toggle (i : ι) (S : Finset ι) : Finset ι := if i ∈ S then S.erase i else insert i S

/-- Jordan–Wigner sign: parity of the number of occupied modes below `i`. -/
def jwSign (i : ι) (S : Finset ι) : ℤ := (-1) ^ (S.filter (· < i)).card

theorem mem_toggle (i j : ι) (S : Finset ι) : i ∈ toggle j S ↔ (if i = j then i ∉ S else i ∈ S) := by
  unfold toggle
  by_cases h : i = j
  · subst h; by_cases hi : i ∈ S <;> simp [hi]
  · by_cases hj : j ∈ S <;> simp [hj, h]

theorem toggle_toggle_self (i : ι) (S : Finset ι) : toggle i (toggle i S) = S := by
  ext k; rw [mem_toggle, mem_toggle]; split <;> simp

theorem toggle_comm (i j : ι) (S : Finset ι) : toggle i (toggle j S) = toggle j (toggle i S) := by
  ext k; simp only [mem_toggle]; split <;> split <;> simp_all

theorem jwSign_toggle_of_lt {i j : ι} (h : j < i) (S : Finset ι) :
    jwSign i (toggle j S) = - jwSign i S := by
  unfold jwSign toggle
  by_cases hj : j ∈ S
  · rw [if_pos hj]
    have e : S.filter (· < i) = insert j ((S.erase j).filter (· < i)) := by
      ext k; simp only [Finset.mem_filter, Finset.mem_insert, Finset.mem_erase]
      by_cases hk : k = j <;> simp_all
    rw [e, Finset.card_insert_of_notMem (by simp), pow_succ]; ring
  · rw [if_neg hj]
    have e : (insert j S).filter (· < i) = insert j (S.filter (· < i)) := by
      ext k; simp only [Finset.mem_filter, Finset.mem_insert]
      by_cases hk : k = j <;> simp_all
    rw [e, Finset.card_insert_of_notMem (by simp [hj]), pow_succ]; ring

theorem jwSign_toggle_of_le {i j : ι} (h : i ≤ j) (S : Finset ι) :
    jwSign i (toggle j S) = jwSign i S := by
  unfold jwSign toggle
  congr 2
  by_cases hj : j ∈ S
  · rw [if_pos hj]; ext k; simp only [Finset.mem_filter, Finset.mem_erase]
    constructor
    · rintro ⟨⟨_, h1⟩, h2⟩; exact ⟨h1, h2⟩
    · rintro ⟨h1, h2⟩; exact ⟨⟨ne_of_lt (lt_of_lt_of_le h2 h), h1⟩, h2⟩
  · rw [if_neg hj]; ext k; simp only [Finset.mem_filter, Finset.mem_insert]
    constructor
    · rintro ⟨h1 | h1, h2⟩
      · exact absurd h (not_le.mpr (h1 ▸ h2))
      · exact ⟨h1, h2⟩
    · rintro ⟨h1, h2⟩; exact ⟨Or.inr h1, h2⟩

theorem jwSign_sq (i : ι) (S : Finset ι) : jwSign i S * jwSign i S = 1 := by
  unfold jwSign; rw [← pow_add, ← two_mul, pow_mul]; simp

variable (K : Type*) [CommRing K]

/-- The ladder operator `x` on amplitudes `f : Finset ι → K` (`f S` is the amplitude of the
occupation-number state with occupied modes `S`). -/
def fockOp (x : Op ι) : Module.End K (Finset ι → K) where
  toFun f S := if (x.index ∈ S) ↔ (x.creator = true) then
      (jwSign x.index S : K) * f (toggle x.index S) else 0
  map_add' f g := by funext S; simp only [Pi.add_apply]; split <;> ring
  map_smul' r f := by
    funext S; simp only [Pi.smul_apply, smul_eq_mul, RingHom.id_apply]; split <;> ring

theorem fockOp_apply (x : Op ι) (f : Finset ι → K) (S : Finset ι) :
    fockOp K x f S = if (x.index ∈ S) ↔ (x.creator = true) then
      (jwSign x.index S : K) * f (toggle x.index S) else 0 := rfl

theorem fockOp_mul_apply (x y : Op ι) (f : Finset ι → K) (S : Finset ι) :
    (fockOp K x * fockOp K y) f S =
      if ((x.index ∈ S) ↔ (x.creator = true)) ∧
         ((y.index ∈ toggle x.index S) ↔ (y.creator = true)) then
        (jwSign x.index S : K) * jwSign y.index (toggle x.index S)
          * f (toggle y.index (toggle x.index S)) else 0 := by
  rw [Module.End.mul_apply, fockOp_apply, fockOp_apply]
  by_cases h1 : (x.index ∈ S) ↔ (x.creator = true) <;>
    by_cases h2 : (y.index ∈ toggle x.index S) ↔ (y.creator = true) <;> simp [h1, h2, mul_assoc]

/-- The Fock space over any set of modes satisfies the CAR. -/
def fockCAR : CAR ι (Module.End K (Finset ι → K)) where
  c := fockOp K
  anticomm x y := by
    apply LinearMap.ext; intro f; funext S
    rw [LinearMap.add_apply, Pi.add_apply, fockOp_mul_apply, fockOp_mul_apply]
    obtain ⟨cx, i⟩ := x; obtain ⟨cy, j⟩ := y
    simp only
    by_cases hij : i = j
    · subst hij
      simp only [mem_toggle, if_true, toggle_toggle_self, jwSign_toggle_of_le (le_refl i)]
      have hs : (jwSign i S : K) * (jwSign i S : K) = 1 := by
        rw [← Int.cast_mul, jwSign_sq]; simp
      by_cases hi : i ∈ S <;> cases cx <;> cases cy <;> simp [hi, hs]
    · have hji : ¬ j = i := fun h => hij h.symm
      simp only [mem_toggle, hij, hji, if_false, and_false, LinearMap.zero_apply, Pi.zero_apply]
      rw [toggle_comm i j S]
      have hs : (jwSign i S : K) * jwSign j (toggle i S) + jwSign j S * jwSign i (toggle j S) = 0 := by
        rcases lt_or_gt_of_ne hij with h | h
        · rw [jwSign_toggle_of_lt h, jwSign_toggle_of_le (le_of_lt h)]; push_cast; ring
        · rw [jwSign_toggle_of_lt h, jwSign_toggle_of_le (le_of_lt h)]; push_cast; ring
      by_cases h1 : (i ∈ S ↔ cx = true) <;> by_cases h2 : (j ∈ S ↔ cy = true)
      · simp only [h1, h2, true_and, if_true]
        have : ∀ z : K, (jwSign i S : K) * jwSign j (toggle i S) * z
            + jwSign j S * jwSign i (toggle j S) * z = 0 := by
          intro z; rw [← add_mul, hs, zero_mul]
        simpa using this (f (toggle j (toggle i S)))
      all_goals simp [h1, h2]

end Fock

end Ieompp.Spec
