import Verif.Model.ParticleNumber
import Verif.Props.FermiSea
import Verif.Props.MomentumMatrix
import Verif.Props.Number

/-! # C34, C35: non-vanishing expectation values and the particle number -/

set_option autoImplicit false
set_option linter.unusedSectionVars false

namespace Ieompp

open Ieompp.Spec

section Fock
variable {ι : Type*} [LinearOrder ι] {K : Type*} [CommRing K]

/-- Adjointness: `⟨S| m |T⟩ = ⟨T| m† |S⟩`. -/
theorem braket_conj (m : List (Op ι)) : ∀ S T : Finset ι, fockWord K m (ket K T) S =
    fockWord K ((m.reverse).map Op.conjugate) (ket K S) T := by
  induction m with
  | nil =>
    intro S T
    simp only [fockWord, List.map_nil, List.prod_nil, List.reverse_nil, Module.End.one_apply, ket]
    simp [eq_comm]
  | cons x m ih =>
    intro S T
    have e1 : fockWord K (x :: m) (ket K T) = fockOp K x (fockWord K m (ket K T)) := by simp [fockWord]
    have e2 : fockWord K (((x :: m).reverse).map Op.conjugate) (ket K S) =
        fockWord K ((m.reverse).map Op.conjugate) (fockOp K x.conjugate (ket K S)) := by
      simp [fockWord]
    rw [e1, e2, fockOp_apply, fockOp_ket]
    have i1 : x.conjugate.index = x.index := rfl
    have i2 : (x.conjugate.creator = true) ↔ ¬ (x.creator = true) := by simp [Op.conjugate]
    simp only [i1, i2]
    by_cases h : (x.index ∈ S) ↔ (x.creator = true)
    · have h' : ¬ ((x.index ∈ S) ↔ ¬ (x.creator = true)) := by rw [h]; simp
      rw [if_pos h, if_neg h', map_smul, Pi.smul_apply, smul_eq_mul, ih,
        jwSign_toggle_of_le (le_refl _)]
    · have h' : ((x.index ∈ S) ↔ ¬ (x.creator = true)) := by tauto
      rw [if_neg h, if_pos h', map_zero]; rfl

/-- The occupation number operator on an occupation-number state. -/
theorem number_ket (i : ι) (T : Finset ι) : fockOp K ⟨true, i⟩ (fockOp K ⟨false, i⟩ (ket K T)) =
    if i ∈ T then ket K T else 0 := by
  rw [fockOp_ket]
  by_cases h : i ∈ T
  · have h1 : i ∉ toggle i T := by rw [mem_toggle]; simp [h]
    rw [if_neg (by simp [h]), map_smul, fockOp_ket, if_neg (by simp [h1]), smul_smul]
    simp only [toggle_toggle_self, jwSign_toggle_of_le (le_refl i), if_pos h]
    rw [← Int.cast_mul, jwSign_sq]; simp
  · rw [if_pos (by simp [h]), map_zero, if_neg h]

end Fock

namespace MomentumSpace
open FermiSea
variable {E : Type*} [LinearOrder E] {K : Type*} [CommRing K]

/-- Expectation value of a monomial in the Fermi sea. -/
def ev (K : Type*) [CommRing K] (FS : Finset Mode) (w : HMonomial) : K := braket K FS (fockMono K w) FS

/-- `m† |FS⟩`. -/
def adjVec (K : Type*) [CommRing K] (FS : Finset Mode) (m : HMonomial) : Finset Mode → K :=
  fockMono K (Monomial.conjugate m) (ket K FS)

theorem conj_mode (m : HMonomial) : (Monomial.conjugate m).map HOp.mode = ((m.map HOp.mode).reverse).map Op.conjugate := by
  simp only [Monomial.conjugate, List.map_map, List.map_reverse]
  rfl

theorem ev_append (FS : Finset Mode) (x y : HMonomial) :
    ev K FS (x ++ Monomial.conjugate y) = fockMono K x (adjVec K FS y) FS := by
  rw [ev, braket, fockMono_append]; rfl

theorem fockMono_ket_adj (FS T : Finset Mode) (x : HMonomial) : fockMono K x (ket K T) FS = adjVec K FS x T := by
  rw [adjVec, fockMono, fockMono, conj_mode, braket_conj]

/-- The test of the code decides whether the expectation value is `±1` or `0`. -/
theorem run_ev [Nontrivial K] {disp : ℕ → E} {eF : E} {FS : Finset Mode} (calls : List Call)
    (hFS : ∀ o ∈ product calls, toLex o.index ∈ FS ↔ disp o.index.1 < eF) :
    ((run disp eF calls).isInitial = true → ev K FS (product calls) = 1 ∨ ev K FS (product calls) = -1) ∧
    ((run disp eF calls).isInitial = false → ev K FS (product calls) = 0) := by
  obtain ⟨h1, h2, h3⟩ := fermiSea_correct (K := K) calls hFS
  constructor
  · intro h
    obtain ⟨e, he, hv⟩ := h3.1 h
    rw [ev, braket, hv]
    rcases he with rfl | rfl <;> simp [ket]
  · intro h
    rw [ev, braket]
    by_cases hv : (run disp eF calls).vanishes = true
    · rw [h1.1 hv]; rfl
    · obtain ⟨⟨e, he, hv⟩, _⟩ := h2 (by simpa using hv)
      rw [hv, Pi.smul_apply, ket]
      by_cases hT : FS = (FS \ modeSet (run disp eF calls).annihilated) ∪ modeSet (run disp eF calls).created
      · rw [← hT] at hv
        have := h3.2 ⟨e, he, hv⟩
        rw [h] at this; simp at this
      · rw [if_neg hT, smul_zero]

/-! ### The sign is always positive -/

/-- Spin-up mode. -/
abbrev up (k : ℕ) : Mode := toLex (k, true)
/-- Spin-down mode. -/
abbrev dn (k : ℕ) : Mode := toLex (k, false)

theorem up_ne_dn (k l : ℕ) : up k ≠ dn l := by
  intro h
  simp at h

theorem up_inj {k l : ℕ} : up k = up l ↔ k = l := by
  constructor
  · intro h
    have : (k, true) = (l, true) := by simpa using h
    simpa using this
  · rintro rfl; rfl

theorem dn_inj {k l : ℕ} : dn k = dn l ↔ k = l := by
  constructor
  · intro h
    have : (k, false) = (l, false) := by simpa using h
    simpa using this
  · rintro rfl; rfl

theorem adjVec_one (FS : Finset Mode) (k : ℕ) : adjVec K FS (RealSpace.Spec.one k) =
    if up k ∈ FS then ((jwSign (up k) (toggle (up k) FS) : ℤ) : K) • ket K (toggle (up k) FS) else 0 := by
  have : adjVec K FS (RealSpace.Spec.one k) = fockOp K ⟨false, up k⟩ (ket K FS) := by
    simp [adjVec, RealSpace.Spec.one, Monomial.conjugate, Op.conjugate, fockMono, fockWord, HOp.mode]
  rw [this, fockOp_ket]
  by_cases h : up k ∈ FS
  · rw [if_neg (by simpa using h), if_pos h]
  · rw [if_pos (by simpa using h), if_neg h]

theorem adjVec_three (FS : Finset Mode) (k l m : ℕ) : adjVec K FS (RealSpace.Spec.three k l m) =
    fockOp K ⟨true, dn m⟩ (fockOp K ⟨false, dn l⟩ (adjVec K FS (RealSpace.Spec.one k))) := by
  simp [adjVec, RealSpace.Spec.one, RealSpace.Spec.three, Monomial.conjugate, Op.conjugate, fockMono, fockWord, HOp.mode]

theorem dn_mem_toggle_up (l k : ℕ) (S : Finset Mode) : dn l ∈ toggle (up k) S ↔ dn l ∈ S := by
  rw [mem_toggle, if_neg (up_ne_dn k l).symm]

theorem adjVec_diag (FS : Finset Mode) (k l : ℕ) : adjVec K FS (RealSpace.Spec.three k l l) =
    if dn l ∈ FS then adjVec K FS (RealSpace.Spec.one k) else 0 := by
  rw [adjVec_three, adjVec_one]
  by_cases h : up k ∈ FS
  · rw [if_pos h, map_smul, map_smul, number_ket]
    simp only [dn_mem_toggle_up]
    split <;> simp
  · rw [if_neg h, map_zero, map_zero]; simp

theorem adjVec_off (FS : Finset Mode) (k l m : ℕ) (hlm : l ≠ m) : adjVec K FS (RealSpace.Spec.three k l m) = 0 ∨
    (up k ∈ FS ∧ dn l ∈ FS ∧ dn m ∉ FS ∧ ∃ e : ℤ, (e = 1 ∨ e = -1) ∧ adjVec K FS (RealSpace.Spec.three k l m) =
      (e : K) • ket K (toggle (dn m) (toggle (dn l) (toggle (up k) FS)))) := by
  rw [adjVec_three, adjVec_one]
  by_cases h1 : up k ∈ FS
  · rw [if_pos h1, map_smul, map_smul, fockOp_ket]
    by_cases h2 : dn l ∈ FS
    · have h2' : dn l ∈ toggle (up k) FS := (dn_mem_toggle_up _ _ _).2 h2
      rw [if_neg (by simpa using h2'), map_smul, fockOp_ket]
      have hm : dn m ∈ toggle (dn l) (toggle (up k) FS) ↔ dn m ∈ FS := by
        rw [mem_toggle, if_neg (fun h => hlm (dn_inj.1 h).symm), dn_mem_toggle_up]
      by_cases h3 : dn m ∈ FS
      · left; rw [if_pos (by simpa using hm.2 h3)]; simp
      · right
        rw [if_neg (by simpa using (not_congr hm).2 h3)]
        refine ⟨h1, h2, h3, jwSign (up k) (toggle (up k) FS) * jwSign (dn l) (toggle (dn l) (toggle (up k) FS)) *
          jwSign (dn m) (toggle (dn m) (toggle (dn l) (toggle (up k) FS))), ?_, ?_⟩
        · rcases jwSign_sign (up k) (toggle (up k) FS) with a | a <;>
          rcases jwSign_sign (dn l) (toggle (dn l) (toggle (up k) FS)) with b | b <;>
          rcases jwSign_sign (dn m) (toggle (dn m) (toggle (dn l) (toggle (up k) FS))) with c | c <;>
          simp [a, b, c]
        · simp only [smul_smul]; push_cast; rw [mul_assoc]
    · left; rw [if_pos (by simpa [dn_mem_toggle_up] using h2)]; simp
  · left; rw [if_neg h1]; simp

/-- The words that occur in the basis. -/
def IsWord (x : HMonomial) : Prop := (∃ k, x = RealSpace.Spec.one k) ∨ ∃ k l m, x = RealSpace.Spec.three k l m

theorem isWord_one (k : ℕ) : IsWord (RealSpace.Spec.one k) := Or.inl ⟨k, rfl⟩
theorem isWord_three (k l m : ℕ) : IsWord (RealSpace.Spec.three k l m) := Or.inr ⟨k, l, m, rfl⟩

/-- Either zero, or equal to that of a single annihilator, or an off-diagonal word. -/
theorem word_cases (FS : Finset Mode) {x : HMonomial} (hx : IsWord x) : adjVec K FS x = 0 ∨
    (∃ k, up k ∈ FS ∧ adjVec K FS x = adjVec K FS (RealSpace.Spec.one k)) ∨
    (∃ k l m, l ≠ m ∧ x = RealSpace.Spec.three k l m ∧ up k ∈ FS ∧ dn l ∈ FS ∧ dn m ∉ FS ∧
      ∃ e : ℤ, (e = 1 ∨ e = -1) ∧ adjVec K FS x = (e : K) • ket K (toggle (dn m) (toggle (dn l) (toggle (up k) FS)))) := by
  have one : ∀ k, adjVec K FS (RealSpace.Spec.one k) = 0 ∨ up k ∈ FS := by
    intro k
    by_cases h : up k ∈ FS
    · exact Or.inr h
    · left; rw [adjVec_one, if_neg h]
  rcases hx with ⟨k, rfl⟩ | ⟨k, l, m, rfl⟩
  · rcases one k with h | h
    · exact Or.inl h
    · exact Or.inr (Or.inl ⟨k, h, rfl⟩)
  · by_cases hlm : l = m
    · subst hlm
      rw [adjVec_diag]
      split
      · rcases one k with h | h
        · exact Or.inl h
        · exact Or.inr (Or.inl ⟨k, h, rfl⟩)
      · exact Or.inl rfl
    · rcases adjVec_off (K := K) FS k l m hlm with h | ⟨h1, h2, h3, h4⟩
      · exact Or.inl h
      · exact Or.inr (Or.inr ⟨k, l, m, hlm, rfl, h1, h2, h3, h4⟩)

theorem mem_off (FS : Finset Mode) {k l m : ℕ} (hlm : l ≠ m) :
    (∀ n, up n ∈ toggle (dn m) (toggle (dn l) (toggle (up k) FS)) ↔ (if n = k then up n ∉ FS else up n ∈ FS)) ∧
    (∀ n, dn n ∈ toggle (dn m) (toggle (dn l) (toggle (up k) FS)) ↔
      (if n = m ∨ n = l then dn n ∉ FS else dn n ∈ FS)) := by
  constructor
  · intro n
    rw [mem_toggle, if_neg (up_ne_dn _ _), mem_toggle, if_neg (up_ne_dn _ _), mem_toggle]
    simp only [up_inj]
  · intro n
    rw [mem_toggle, mem_toggle, mem_toggle, if_neg (up_ne_dn _ _).symm]
    simp only [dn_inj]
    by_cases h1 : n = m
    · by_cases h2 : n = l
      · exact absurd (h2.symm.trans h1) hlm
      · simp [h1, Ne.symm hlm]
    · by_cases h2 : n = l <;> simp [h1, h2]
      intro h; exact absurd h hlm

theorem one_ket_inj [Nontrivial K] (FS : Finset Mode) {k : ℕ} (hk : up k ∈ FS) {e : ℤ} {T : Finset Mode}
    (h : adjVec K FS (RealSpace.Spec.one k) = (e : K) • ket K T) : T = toggle (up k) FS := by
  rw [adjVec_one, if_pos hk] at h
  exact (ket_inj (jwSign_sign _ _) h).symm

/-- Two words of the basis that lead from the Fermi sea to the same state do so with the same sign. -/
theorem word_sign [Nontrivial K] (FS : Finset Mode) {x y : HMonomial} (hx : IsWord x) (hy : IsWord y) {e e' : ℤ}
    (he : e = 1 ∨ e = -1) (he' : e' = 1 ∨ e' = -1) {T : Finset Mode} (h : adjVec K FS x = (e : K) • ket K T)
    (h' : adjVec K FS y = (e' : K) • ket K T) : adjVec K FS x = adjVec K FS y := by
  have offone : ∀ {k l m : ℕ} {k' : ℕ}, l ≠ m → dn m ∉ FS →
      toggle (dn m) (toggle (dn l) (toggle (up k) FS)) ≠ toggle (up k') FS := by
    intro k l m k' hlm hm heq
    have := (mem_off FS (k := k) hlm).2 m
    rw [heq, dn_mem_toggle_up] at this
    simp [hm] at this
  rcases word_cases (K := K) FS hx with h0 | ⟨k, hk, ek⟩ | ⟨k, l, m, hlm, rfl, hk, hl, hm, e1, he1, ee1⟩
  · exact absurd (h.symm.trans h0) (sign_smul_ket_ne he)
  · have t1 := one_ket_inj FS hk (ek.symm.trans h)
    rcases word_cases (K := K) FS hy with h0 | ⟨k', hk', ek'⟩ | ⟨k', l', m', hlm', rfl, hk', hl', hm', e2, he2, ee2⟩
    · exact absurd (h'.symm.trans h0) (sign_smul_ket_ne he')
    · have t2 := one_ket_inj FS hk' (ek'.symm.trans h')
      have : k = k' := by
        by_contra hne
        have t := t1.symm.trans t2
        have : up k ∈ toggle (up k) FS ↔ up k ∈ toggle (up k') FS := by rw [t]
        rw [mem_toggle, mem_toggle] at this
        simp only [up_inj] at this
        simp [hne, hk] at this
      subst this
      rw [ek, ek']
    · have t2 := ket_inj he2 (ee2.symm.trans h')
      exact absurd (t2.trans t1) (offone hlm' hm')
  · have t1 := ket_inj he1 (ee1.symm.trans h)
    rcases word_cases (K := K) FS hy with h0 | ⟨k', hk', ek'⟩ | ⟨k', l', m', hlm', rfl, hk', hl', hm', e2, he2, ee2⟩
    · exact absurd (h'.symm.trans h0) (sign_smul_ket_ne he')
    · have t2 := one_ket_inj FS hk' (ek'.symm.trans h')
      exact absurd (t1.trans t2) (offone hlm hm)
    · have t2 := ket_inj he2 (ee2.symm.trans h')
      have t := t1.trans t2.symm
      obtain ⟨a1, a2⟩ := mem_off FS (k := k) hlm
      obtain ⟨b1, b2⟩ := mem_off FS (k := k') hlm'
      have hkk : k = k' := by
        by_contra hne
        have h1 := a1 k; have h2 := b1 k
        rw [t] at h1
        simp [hk] at h1
        simp [h1, hne, hk] at h2
      have hmm : m = m' := by
        by_contra hne
        have h1 := a2 m; have h2 := b2 m
        rw [t] at h1
        simp [hm] at h1
        have : m ≠ l' := by rintro rfl; exact hm hl'
        simp [h1, hne, this, hm] at h2
      have hll : l = l' := by
        by_contra hne
        have h1 := a2 l; have h2 := b2 l
        rw [t] at h1
        simp [hl] at h1
        have : l ≠ m' := by rintro rfl; exact hm' hl
        simp [h1, hne, this, hl] at h2
      rw [hkk, hmm, hll]

/-- Every expectation value `⟨FS| x y† |FS⟩` of words of the basis is 0 or 1. -/
theorem ev_word [Nontrivial K] (FS : Finset Mode) {x y : HMonomial} (hx : IsWord x) (hy : IsWord y) :
    ev K FS (x ++ Monomial.conjugate y) = 0 ∨ ev K FS (x ++ Monomial.conjugate y) = 1 := by
  have form : ∀ {x : HMonomial}, IsWord x → adjVec K FS x = 0 ∨ ∃ (e : ℤ) (T : Finset Mode), (e = 1 ∨ e = -1) ∧
      adjVec K FS x = (e : K) • ket K T := by
    intro x hx
    rcases word_cases (K := K) FS hx with h0 | ⟨k, hk, ek⟩ | ⟨k, l, m, hlm, rfl, hk, hl, hm, e1, he1, ee1⟩
    · exact Or.inl h0
    · right; exact ⟨_, _, jwSign_sign _ _, by rw [ek, adjVec_one, if_pos hk]⟩
    · exact Or.inr ⟨_, _, he1, ee1⟩
  rw [ev_append]
  rcases form hy with h0 | ⟨e', T, he', hy'⟩
  · left; rw [h0, map_zero]; rfl
  rw [hy', map_smul, Pi.smul_apply, smul_eq_mul, fockMono_ket_adj]
  rcases form hx with h0 | ⟨e, T', he, hx'⟩
  · left; rw [h0]; simp
  by_cases hT : T' = T
  · subst hT
    right
    rw [word_sign FS hx hy he he' hx' hy', hy', Pi.smul_apply, ket, if_pos rfl]
    rcases he' with rfl | rfl <;> simp
  · left
    rw [hx', Pi.smul_apply, ket, if_neg (Ne.symm hT)]; simp

/-- The test of the code computes the expectation value. -/
theorem run_ev_word [Nontrivial K] {disp : ℕ → E} {eF : E} {FS : Finset Mode} (calls : List Call) {x y : HMonomial}
    (hx : IsWord x) (hy : IsWord y) (hp : product calls = x ++ Monomial.conjugate y)
    (hFS : ∀ o ∈ product calls, toLex o.index ∈ FS ↔ disp o.index.1 < eF) :
    (if (run disp eF calls).isInitial then (1 : K) else 0) = ev K FS (x ++ Monomial.conjugate y) := by
  have h := run_ev (K := K) calls hFS
  rw [hp] at h
  by_cases hi : (run disp eF calls).isInitial = true
  · rw [if_pos hi]
    rcases ev_word (K := K) FS hx hy with h0 | h1
    · rcases h.1 hi with h' | h' <;> rw [h0] at h'
      · exact absurd h' zero_ne_one
      · exact absurd h' (by simp)
    · exact h1.symm
  · rw [if_neg hi, h.2 (by simpa using hi)]

end MomentumSpace
end Ieompp
