import Verif.Props.ParticleReal

/-! # C34: the sorted list of non-vanishing expectation values -/

set_option autoImplicit false
set_option linter.unusedSectionVars false

namespace Ieompp
namespace MomentumSpace

open FermiSea Ieompp.Spec

theorem particleStep_comm (vec : List ℂ) (acc : Res ℂ) (a b : Contribution ℝ) :
    ((acc.bind fun r => particleStep vec r a).bind fun r => particleStep vec r b) =
      (acc.bind fun r => particleStep vec r b).bind fun r => particleStep vec r a := by
  have form : ∀ c : Contribution ℝ, (∀ r, particleStep vec r c = .ub) ∨ ∃ x, ∀ r, particleStep vec r c = .val (r + x) := by
    intro c
    have hv : ∀ i, vecAt vec i = .ub ∨ ∃ x, vecAt vec i = .val x := by
      intro i
      unfold vecAt
      cases vec[i]? with
      | none => exact Or.inl rfl
      | some x => exact Or.inr ⟨x, rfl⟩
    unfold particleStep
    by_cases h : c.left = c.right
    · simp only [if_pos h]
      obtain e | ⟨x, e⟩ := hv c.left
      · left; intro r; rw [e]; rfl
      · right; exact ⟨_, fun r => by rw [e]; rfl⟩
    · simp only [if_neg h]
      obtain e | ⟨x, e⟩ := hv c.left
      · left; intro r; rw [e]; rfl
      · obtain e' | ⟨y, e'⟩ := hv c.right
        · left; intro r; rw [e, e']; rfl
        · right; exact ⟨_, fun r => by rw [e, e']; rfl⟩
  cases acc with
  | ub => rfl
  | diverges => rfl
  | val r =>
    simp only [Res.bind_val]
    obtain ha | ⟨x, ha⟩ := form a <;> obtain hb | ⟨y, hb⟩ := form b <;> rw [ha, hb] <;> simp only [Res.bind_val, ha, hb] <;> try rfl
    rw [add_right_comm]

/-- The particle number does not depend on the order of the list. -/
theorem particleNumber_perm (vec : List ℂ) {l l' : List (Contribution ℝ)} (h : l'.Perm l) : particleNumber vec l' = particleNumber vec l := by
  unfold particleNumber particleSum
  congr 1
  have : RightCommutative fun (acc : Res ℂ) c => acc.bind fun r => particleStep vec r c := ⟨fun acc a b => particleStep_comm vec acc a b⟩
  exact h.foldl_eq _

/-- A list whose index pairs are distinct has exactly one sorted arrangement, and it is strictly increasing in the lexicographic order. -/
theorem sortsTo_unique {S : Type*} (l : List (Contribution S)) (hl : (l.map fun c => (c.left, c.right)).Nodup) :
    ∃ l', SortsTo l l' ∧ (∀ l'', SortsTo l l'' → l'' = l') ∧ (l'.map fun c => toLex (c.left, c.right)).Pairwise (· < ·) := by
  have strict : ∀ l', SortsTo l l' → (l'.map fun c => toLex (c.left, c.right)).Pairwise (· < ·) := by
    rintro l' ⟨hp, hs⟩
    have hn : (l'.map fun c => (c.left, c.right)).Nodup := (hp.map _).nodup_iff.2 hl
    rw [List.pairwise_map]
    rw [List.Nodup, List.pairwise_map] at hn
    refine hs.imp₂ (fun a b h1 h2 => ?_) hn
    by_contra hc
    have hab := (contributionLess_strictTotal a b a).1
    have h3 : contributionLess a b = false := by
      rw [← Bool.not_eq_true, hab]; exact hc
    have := (contributionLess_strictTotal a b a).2.2.2 h3 h1
    exact h2 (by rw [this.1, this.2])
  obtain ⟨m, hm⟩ : ∃ m, SortsTo l m := by
    refine ⟨l.mergeSort fun a b => !contributionLess b a, List.mergeSort_perm _ _, ?_⟩
    have key : ∀ a b : Contribution S, contributionLess a b = true ↔ toLex (a.left, a.right) < toLex (b.left, b.right) := fun a b =>
      (contributionLess_strictTotal a b a).1
    have := List.pairwise_mergeSort (le := fun a b : Contribution S => !contributionLess b a)
      (by
        intro a b c h1 h2
        rw [Bool.not_eq_true', ← Bool.not_eq_true, key, not_lt] at h1 h2 ⊢
        exact h1.trans h2)
      (by
        intro a b
        rw [Bool.or_eq_true, Bool.not_eq_true', Bool.not_eq_true', ← Bool.not_eq_true, ← Bool.not_eq_true, key, key, not_lt, not_lt]
        exact le_total _ _) l
    exact this.imp fun h => by simpa using h
  refine ⟨m, hm, fun l'' h'' => ?_, strict m hm⟩
  have h1 := strict m hm
  have h2 := strict l'' h''
  rw [List.pairwise_map] at h1 h2
  exact List.Perm.eq_of_pairwise (fun a b _ _ ha hb => absurd (ha.trans hb) (lt_irrefl _)) h2 h1 (h''.1.trans hm.1.symm)

variable {E : Type*} [LinearOrder E] {disp : ℕ → E} {eF : E} {N q : ℕ} {FS : Finset Mode}
variable (hFS : ∀ k < N, ∀ σ, toLex (k, σ) ∈ FS ↔ disp k < eF)

include hFS in
/-- **C34**: after `sort()` the list is the same whatever the algorithm of `std::sort` does: strictly increasing index pairs, the entries those of the constructed list, and every
coefficient vector has the same particle number. -/
theorem nonVanishing_sorted (hq : q < N) : ∃ l l' : List (Contribution ℝ),
    nonVanishing (Spec.entries N q) (conjBasis (Spec.entries N q)) disp eF = .val l ∧
    SortsTo l l' ∧ (∀ l'', SortsTo l l'' → l'' = l') ∧ (∀ c, c ∈ l' ↔ c ∈ l) ∧
    (l'.map fun c => toLex (c.left, c.right)).Pairwise (· < ·) ∧
    ∀ vec : List ℂ, particleNumber vec l' = particleNumber vec l := by
  obtain ⟨l, h1, h2, -⟩ := nonVanishing_partial (K := ℝ) hFS hq
  obtain ⟨l', a, b, c⟩ := sortsTo_unique l h2
  exact ⟨l, l', h1, a, b, fun x => a.1.mem_iff, c, fun vec => particleNumber_perm vec a.1⟩

/-- The hypotheses are met: four momenta, the first two occupied. -/
example : ∃ l l' : List (Contribution ℝ),
    nonVanishing (Spec.entries 4 1) (conjBasis (Spec.entries 4 1)) (fun k : ℕ => (k : ℤ)) 2 = .val l ∧ SortsTo l l' := by
  obtain ⟨l, l', h1, h2, -⟩ := nonVanishing_sorted (N := 4) (q := 1) (disp := fun k : ℕ => (k : ℤ)) (eF := 2)
    (FS := modeSet [(0, true), (0, false), (1, true), (1, false)]) (by decide) (by decide)
  exact ⟨l, l', h1, h2⟩

end MomentumSpace
end Ieompp
