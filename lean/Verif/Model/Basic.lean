import Mathlib.Data.Nat.Notation
import Mathlib.Data.Int.Notation
import Mathlib.Data.Nat.Find
import Mathlib.Logic.Function.Iterate

/-!
# Basic notions shared by the models: outcomes of C++ code and `while` loops
-/

set_option autoImplicit false

namespace Ieompp

/-- Outcome of running a piece of C++: a value, undefined behaviour, or a loop that never ends.
No single place in the code: it is the result type of every model function, e.g. of periodic_chain.hpp:247-256. -/
inductive Res (α : Type*) where
  | val (a : α)
  | ub
  | diverges
  deriving DecidableEq

namespace Res
variable {α β : Type*}

/-- Sequencing. The `;` of C++; no single place in the code (first use: periodic_chain.hpp:247-256). -/
def bind (x : Res α) (f : α → Res β) : Res β :=
  match x with
  | val a => f a
  | ub => ub
  | diverges => diverges

/-- Post-processing of a value. The same with a pure second part (first use: periodic_chain.hpp:247-256). -/
def map (f : α → β) (x : Res α) : Res β := x.bind (fun a => val (f a))

@[simp] theorem bind_val (a : α) (f : α → Res β) : (val a).bind f = f a := rfl
@[simp] theorem bind_ub (f : α → Res β) : (ub : Res α).bind f = ub := rfl
@[simp] theorem bind_diverges (f : α → Res β) : (diverges : Res α).bind f = diverges := rfl
@[simp] theorem map_val (f : α → β) (a : α) : (val a).map f = val (f a) := rfl
@[simp] theorem map_ub (f : α → β) : (ub : Res α).map f = ub := rfl
@[simp] theorem map_diverges (f : α → β) : (diverges : Res α).map f = diverges := rfl

end Res

open Classical in
/-- `while(cond(x)) { x = body(x); }`: the state after the first number of rounds at which the condition
fails, or divergence when it never fails.
Used for the loops of cli.hpp:35-40, checkpoint.hpp:71-77, line.hpp:20-25, triplet_list.hpp:34-39, periodic_chain.hpp:249-254 and the time loops of the programs. -/
noncomputable def whileLoop {α : Type*} (cond : α → Prop) (body : α → α) (x : α) : Res α :=
  if h : ∃ n : ℕ, ¬ cond (body^[n] x) then .val (body^[Nat.find h] x) else .diverges

/-- `whileLoop` satisfies the unfolding equation of a `while` loop. -/
theorem whileLoop_eq {α : Type*} (cond : α → Prop) (body : α → α) (x : α) :
    (cond x → whileLoop cond body x = whileLoop cond body (body x)) ∧
    (¬ cond x → whileLoop cond body x = .val x) := by
  classical
  constructor
  · intro hx
    unfold whileLoop
    by_cases h : ∃ n : ℕ, ¬ cond (body^[n] x)
    · have h' : ∃ n : ℕ, ¬ cond (body^[n] (body x)) := by
        obtain ⟨n, hn⟩ := h
        cases n with
        | zero => exact absurd hx hn
        | succ n => exact ⟨n, by simpa [Function.iterate_succ_apply] using hn⟩
      have hf : Nat.find h = Nat.find h' + 1 := by
        rw [Nat.find_eq_iff]
        refine ⟨by simpa [Function.iterate_succ_apply] using Nat.find_spec h', ?_⟩
        intro k hk
        cases k with
        | zero => simpa using hx
        | succ k =>
          have := Nat.find_min h' (m := k) (by omega)
          simpa [Function.iterate_succ_apply] using this
      rw [dif_pos h, dif_pos h', hf, Function.iterate_succ_apply]
    · have h' : ¬ ∃ n : ℕ, ¬ cond (body^[n] (body x)) := by
        rintro ⟨n, hn⟩
        exact h ⟨n + 1, by simpa [Function.iterate_succ_apply] using hn⟩
      rw [dif_neg h, dif_neg h']
  · intro hx
    unfold whileLoop
    have h : ∃ n : ℕ, ¬ cond (body^[n] x) := ⟨0, by simpa using hx⟩
    have hf : Nat.find h = 0 := by rw [Nat.find_eq_zero]; simpa using hx
    rw [dif_pos h, hf]; rfl

/-- A loop whose condition never fails does not terminate. -/
theorem whileLoop_diverges {α : Type*} (cond : α → Prop) (body : α → α) (x : α)
    (h : ∀ n : ℕ, cond (body^[n] x)) : whileLoop cond body x = .diverges := by
  unfold whileLoop
  rw [dif_neg]
  rintro ⟨n, hn⟩; exact hn (h n)

/-- The result, when there is one: some number of rounds, the condition fails there and held before. -/
theorem whileLoop_val {α : Type*} (cond : α → Prop) (body : α → α) (x y : α) :
    whileLoop cond body x = .val y ↔
      ∃ n : ℕ, y = body^[n] x ∧ ¬ cond y ∧ ∀ k < n, cond (body^[k] x) := by
  classical
  unfold whileLoop
  constructor
  · intro h
    split at h
    · rename_i h'
      injection h with h
      refine ⟨Nat.find h', h.symm, ?_, ?_⟩
      · rw [← h]; exact Nat.find_spec h'
      · intro k hk; exact Classical.not_not.1 (Nat.find_min h' hk)
    · cases h
  · rintro ⟨n, rfl, h1, h2⟩
    have h : ∃ n : ℕ, ¬ cond (body^[n] x) := ⟨n, h1⟩
    have : Nat.find h = n := by
      rw [Nat.find_eq_iff]
      exact ⟨h1, fun k hk => Classical.not_not.2 (h2 k hk)⟩
    rw [dif_pos h, this]

end Ieompp
