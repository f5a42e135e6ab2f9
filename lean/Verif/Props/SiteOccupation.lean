import Verif.Model.SiteOccupation
import Verif.Spec.Wick
import Verif.Props.Basis
import Verif.Props.Number
import Verif.Lemmas.Fermion
import Mathlib.Algebra.BigOperators.Fin
import Mathlib.Algebra.BigOperators.Ring.Finset
import Mathlib.Data.List.Range
import Mathlib.Tactic.FieldSimp

/-! # C36, C37: the site occupation -/

set_option autoImplicit false
set_option linter.unusedSectionVars false
set_option linter.unusedVariables false

namespace Ieompp.RealSpace

open Ieompp.Spec ComplexConjugate
open MomentumSpace (vecAt opAt)

/-! ### Wick's theorem for the products that occur -/

section Wick
variable {N : ℕ} {R : Type*} [Ring R] [Algebra ℂ R] {C : CAROn N R} {ω : R →ₗ[ℂ] ℂ} {ev : ℕ → ℕ → ℝ}
variable (Q : QuasiFree C ω ev)
include Q

theorem ev_an_cr {a b : ℕ} (σ τ : Bool) (ha : a < N) (hb : b < N) :
    ω (C.an (a, σ) * C.cr (b, τ)) = if σ = τ then ((if a = b then 1 else 0) - (ev b a : ℂ)) else 0 := by
  rw [C.an_cr (x := (a, σ)) (y := (b, τ)) ha hb, map_sub, Q.cr_an b a τ σ hb ha]
  by_cases h : σ = τ
  · subst h
    by_cases hab : a = b
    · subst hab; simp [Q.one]
    · have : ¬ ((a, σ) = (b, σ)) := by simp [hab]
      simp [hab]
  · have h' : ¬ τ = σ := fun e => h e.symm
    simp [h, h']

theorem wick2 (x y : HOp) : ω ([x, y].map C.c).prod = ω (C.c x * C.c y) := by simp

theorem wick4 (x y z w : HOp) (hx : x.index.1 < N) (hy : y.index.1 < N) (hz : z.index.1 < N) (hw : w.index.1 < N) :
    ω (C.c x * C.c y * C.c z * C.c w) = ω (C.c x * C.c y) * ω (C.c z * C.c w) - ω (C.c x * C.c z) * ω (C.c y * C.c w)
      + ω (C.c x * C.c w) * ω (C.c y * C.c z) := by
  have := Q.wick x [y, z, w] hx (by simp [hy, hz, hw])
  simp [Fin.sum_univ_succ] at this
  rw [mul_assoc, mul_assoc, this]; ring

theorem wick6 (x y z w u v : HOp) (hx : x.index.1 < N) (hy : y.index.1 < N) (hz : z.index.1 < N)
    (hw : w.index.1 < N) (hu : u.index.1 < N) (hv : v.index.1 < N) :
    ω (C.c x * C.c y * C.c z * C.c w * C.c u * C.c v) =
      ω (C.c x * C.c y) * ω (C.c z * C.c w * C.c u * C.c v) - ω (C.c x * C.c z) * ω (C.c y * C.c w * C.c u * C.c v)
      + ω (C.c x * C.c w) * ω (C.c y * C.c z * C.c u * C.c v) - ω (C.c x * C.c u) * ω (C.c y * C.c z * C.c w * C.c v)
      + ω (C.c x * C.c v) * ω (C.c y * C.c z * C.c w * C.c u) := by
  have := Q.wick x [y, z, w, u, v] hx (by simp [hy, hz, hw, hu, hv])
  simp [Fin.sum_univ_succ] at this
  simp only [mul_assoc] at this ⊢
  rw [this]; ring

/-- The exact value of `ω(A_i A_j†)` for labels. -/
theorem state_11 {i j : ℕ} (hi : i < N) (hj : j < N) : ω (C.cr (i, true) * C.an (j, true)) = (ev i j : ℂ) := by
  rw [Q.cr_an i j _ _ hi hj, if_pos rfl]

theorem state_4 {x b c y : ℕ} (hx : x < N) (hb : b < N) (hc : c < N) (hy : y < N) :
    ω (C.cr (x, true) * C.cr (b, false) * C.an (c, false) * C.an (y, true)) = (ev x y : ℂ) * (ev b c : ℂ) := by
  have := wick4 Q ⟨true, (x, true)⟩ ⟨true, (b, false)⟩ ⟨false, (c, false)⟩ ⟨false, (y, true)⟩ hx hb hc hy
  change ω (C.cr (x, true) * C.cr (b, false) * C.an (c, false) * C.an (y, true)) =
    ω (C.cr (x, true) * C.cr (b, false)) * ω (C.an (c, false) * C.an (y, true)) -
    ω (C.cr (x, true) * C.an (c, false)) * ω (C.cr (b, false) * C.an (y, true)) +
    ω (C.cr (x, true) * C.an (y, true)) * ω (C.cr (b, false) * C.an (c, false)) at this
  rw [this, Q.cr_cr _ _ hx hb, Q.cr_an _ _ _ _ hx hc, Q.cr_an _ _ _ _ hx hy, Q.cr_an _ _ _ _ hb hc]
  simp

theorem state_6 {x b c b' c' y : ℕ} (hx : x < N) (hb : b < N) (hc : c < N) (hb' : b' < N) (hc' : c' < N) (hy : y < N) :
    ω (C.cr (x, true) * C.cr (b, false) * C.an (c, false) * C.cr (b', false) * C.an (c', false) * C.an (y, true)) =
      (ev x y : ℂ) * ((ev b c : ℂ) * (ev b' c' : ℂ) + (ev b c' : ℂ) * ((if c = b' then 1 else 0) - (ev b' c : ℂ))) := by
  have h6 := wick6 Q ⟨true, (x, true)⟩ ⟨true, (b, false)⟩ ⟨false, (c, false)⟩ ⟨true, (b', false)⟩ ⟨false, (c', false)⟩
    ⟨false, (y, true)⟩ hx hb hc hb' hc' hy
  have h4 := wick4 Q ⟨true, (b, false)⟩ ⟨false, (c, false)⟩ ⟨true, (b', false)⟩ ⟨false, (c', false)⟩ hb hc hb' hc'
  rw [h4] at h6
  simp only [show ∀ z, C.c ⟨true, z⟩ = C.cr z from fun _ => rfl, show ∀ z, C.c ⟨false, z⟩ = C.an z from fun _ => rfl]
    at h6
  rw [h6, Q.cr_cr _ _ hx hb, Q.cr_an _ _ _ _ hx hc, Q.cr_cr _ _ hx hb', Q.cr_an _ _ _ _ hx hc', Q.cr_an _ _ _ _ hx hy,
    Q.cr_an _ _ _ _ hb hc, Q.cr_an _ _ _ _ hb' hc', Q.cr_cr _ _ hb hb', Q.cr_an _ _ _ _ hb hc',
    ev_an_cr Q _ _ hc hb']
  simp
end Wick

/-! ### The coefficient functions of the code -/

/-- A position of the basis: a single creator or a three-operator monomial. -/
theorem basis3_cases {N p : ℕ} (hp : p < N + N * N * N) :
    (∃ i, p = i ∧ i < N ∧ (basis3 N)[p]? = some (Spec.one i)) ∨
    (∃ a b c, N ≤ p ∧ a < N ∧ b < N ∧ c < N ∧ (basis3 N)[p]? = some (Spec.three a b c)) := by
  by_cases h : p < N
  · exact .inl ⟨p, rfl, h, ((realBasis_getElem N).1 p h).2⟩
  · obtain ⟨a, b, c, ha, hb, hc, rfl⟩ := (realBasis_index_bijective N).2.1 p (by omega) hp
    exact .inr ⟨a, b, c, by omega, ha, hb, hc, (realBasis_getElem N).2 a b c ha hb hc⟩

/-- The elementwise adjoint of a basis. -/
def conjOf (b : List HMonomial) : List HMonomial := b.map Monomial.conjugate

theorem conj_get {b : List HMonomial} {p : ℕ} {m : HMonomial} (h : b[p]? = some m) :
    (conjOf b)[p]? = some (Monomial.conjugate m) := by simp [conjOf, h]

theorem vecAt_get {τ : Type*} {v : List τ} {i : ℕ} {x : τ} (h : v[i]? = some x) : vecAt v i = .val x := by
  simp [vecAt, h]

section Coef
variable {N : ℕ} {R : Type*} [Ring R] [Algebra ℂ R] {C : CAROn N R} {ω : R →ₗ[ℂ] ℂ} {ev : ℕ → ℕ → ℝ}

/-- The correlation function of the programs: it looks at the sites only. -/
def siteEv (ev : ℕ → ℕ → ℝ) (a b : HOp) : ℝ := ev a.index.1 b.index.1

theorem cr_def (x : ℕ × Bool) : C.c ⟨true, x⟩ = C.cr x := rfl
theorem an_def (x : ℕ × Bool) : C.c ⟨false, x⟩ = C.an x := rfl

theorem code_11 {basis : List HMonomial} {p q i j : ℕ} (hi : i < N) (hj : j < N)
    (hp : basis[p]? = some (Spec.one i)) (hq : basis[q]? = some (Spec.one j)) :
    evAt basis (conjOf basis) (ev11 (siteEv ev)) p q = .val (2 * (ev i j)) := by
  rw [evAt, vecAt_get hp, vecAt_get (conj_get hq)]; rfl

theorem coef_11 (Q : QuasiFree C ω ev) {basis : List HMonomial} {p q i j : ℕ} (hi : i < N) (hj : j < N)
    (hp : basis[p]? = some (Spec.one i)) (hq : basis[q]? = some (Spec.one j)) :
    ∃ E : ℝ, E = ev i j ∧ evAt basis (conjOf basis) (ev11 (siteEv ev)) p q = .val (2 * E) ∧
      ω (C.basisOp basis p * C.basisOpAdj basis q) = (E : ℂ) := by
  refine ⟨_, rfl, code_11 hi hj hp hq, ?_⟩
  · rw [CAROn.basisOp, CAROn.basisOpAdj, hp, hq]
    exact state_11 Q hi hj

theorem code_13 {basis : List HMonomial} {p q i a b c : ℕ} (hi : i < N) (ha : a < N) (hb : b < N)
    (hc : c < N) (hp : basis[p]? = some (Spec.one i)) (hq : basis[q]? = some (Spec.three a b c)) :
    evAt basis (conjOf basis) (ev13 (siteEv ev)) p q = .val (2 * ((2 * ev c b - if b = c then 1 else 0) * ev i a)) := by
  rw [evAt, vecAt_get hp, vecAt_get (conj_get hq)]
  simp only [Res.bind_val]
  change Res.val (4 * ((if c = b then ev c b - 0.5 else ev c b) * ev i a)) = _
  congr 1
  by_cases h : b = c
  · subst h; rw [if_pos rfl, if_pos rfl]; ring
  · rw [if_neg h, if_neg (Ne.symm h)]; ring

theorem coef_13 (Q : QuasiFree C ω ev) {basis : List HMonomial} {p q i a b c : ℕ} (hi : i < N) (ha : a < N) (hb : b < N)
    (hc : c < N) (hp : basis[p]? = some (Spec.one i)) (hq : basis[q]? = some (Spec.three a b c)) :
    ∃ E : ℝ, E = (2 * ev c b - if b = c then 1 else 0) * ev i a ∧
      evAt basis (conjOf basis) (ev13 (siteEv ev)) p q = .val (2 * E) ∧
      ω (C.basisOp basis p * C.basisOpAdj basis q) = (E : ℂ) := by
  refine ⟨_, rfl, code_13 hi ha hb hc hp hq, ?_⟩
  · rw [CAROn.basisOp, CAROn.basisOpAdj, hp, hq]
    change ω (C.cr (i, true) * (2 * (C.cr (c, false) * C.an (b, false) * C.an (a, true)) -
      if b = c then C.an (a, true) else 0)) = _
    have e4 := state_4 Q hi hc hb ha
    have e2 := state_11 Q hi ha
    have : ∀ z : R, (2 : R) * z = (2 : ℂ) • z := fun z => by rw [two_mul, two_smul]
    rw [mul_sub, this, mul_smul_comm, map_sub, map_smul, ← mul_assoc, ← mul_assoc, e4, mul_ite, mul_zero]
    split <;> simp [e2] <;> ring

theorem code_31 {basis : List HMonomial} {p q i a b c : ℕ} (hi : i < N) (ha : a < N) (hb : b < N)
    (hc : c < N) (hp : basis[p]? = some (Spec.three a b c)) (hq : basis[q]? = some (Spec.one i)) :
    evAt basis (conjOf basis) (ev31 (siteEv ev)) p q = .val (2 * ((2 * ev b c - if b = c then 1 else 0) * ev a i)) := by
  rw [evAt, vecAt_get hp, vecAt_get (conj_get hq)]
  simp only [Res.bind_val]
  change Res.val (4 * ((if b = c then ev b c - 0.5 else ev b c) * ev a i)) = _
  congr 1
  by_cases h : b = c
  · subst h; rw [if_pos rfl, if_pos rfl]; ring
  · rw [if_neg h, if_neg h]; ring

theorem coef_31 (Q : QuasiFree C ω ev) {basis : List HMonomial} {p q i a b c : ℕ} (hi : i < N) (ha : a < N) (hb : b < N)
    (hc : c < N) (hp : basis[p]? = some (Spec.three a b c)) (hq : basis[q]? = some (Spec.one i)) :
    ∃ E : ℝ, E = (2 * ev b c - if b = c then 1 else 0) * ev a i ∧
      evAt basis (conjOf basis) (ev31 (siteEv ev)) p q = .val (2 * E) ∧
      ω (C.basisOp basis p * C.basisOpAdj basis q) = (E : ℂ) := by
  refine ⟨_, rfl, code_31 hi ha hb hc hp hq, ?_⟩
  · rw [CAROn.basisOp, CAROn.basisOpAdj, hp, hq]
    change ω ((2 * (C.cr (a, true) * C.cr (b, false) * C.an (c, false)) -
      if b = c then C.cr (a, true) else 0) * C.an (i, true)) = _
    have e4 := state_4 Q ha hb hc hi
    have e2 := state_11 Q ha hi
    have : ∀ z : R, (2 : R) * z = (2 : ℂ) • z := fun z => by rw [two_mul, two_smul]
    rw [sub_mul, this, smul_mul_assoc, map_sub, map_smul, e4, ite_mul, zero_mul]
    split <;> simp [e2] <;> ring

theorem code_33 {basis : List HMonomial} {p q a b c a' b' c' : ℕ} (ha : a < N) (hb : b < N)
    (hc : c < N) (ha' : a' < N) (hb' : b' < N) (hc' : c' < N)
    (hp : basis[p]? = some (Spec.three a b c)) (hq : basis[q]? = some (Spec.three a' b' c')) :
    evAt basis (conjOf basis) (ev33 (siteEv ev)) p q = .val (2 * (ev a a' * (4 * (ev b c * ev c' b' + ev b b' * ((if c = c' then 1 else 0) - ev c' c))
        - (if b = c then 2 * ev c' b' else 0) - (if b' = c' then 2 * ev b c else 0)
        + (if b = c then (if b' = c' then 1 else 0) else 0)))) := by
  rw [evAt, vecAt_get hp, vecAt_get (conj_get hq)]
  simp only [Res.bind_val]
  change Res.val (8 * ev a a' * ev b c * ev c' b' + 8 * ev a a' * ev b b' * ((if c = c' then 1 else 0) - ev c' c)
    + (if c' = b' then (if b = c then 0 - 4 * ev a a' * ev c' b' else 0) - 4 * ev a a' * ev b c
        else (if b = c then 0 - 4 * ev a a' * ev c' b' else 0))
    + (if b = c ∧ c' = b' then 0 + 2 * ev a a' else 0)) = _
  congr 1
  by_cases h : b = c <;> by_cases h' : b' = c'
  · subst h; subst h'; simp; ring
  · have h'' : ¬ c' = b' := Ne.symm h'
    simp only [h, h', h'', if_true, if_false, and_false]; ring
  · subst h'; simp [h]; ring
  · have h'' : ¬ c' = b' := Ne.symm h'
    simp only [h, h', h'', if_false, and_false]; ring

theorem coef_33 (Q : QuasiFree C ω ev) {basis : List HMonomial} {p q a b c a' b' c' : ℕ} (ha : a < N) (hb : b < N)
    (hc : c < N) (ha' : a' < N) (hb' : b' < N) (hc' : c' < N)
    (hp : basis[p]? = some (Spec.three a b c)) (hq : basis[q]? = some (Spec.three a' b' c')) :
    ∃ E : ℝ, E = ev a a' * (4 * (ev b c * ev c' b' + ev b b' * ((if c = c' then 1 else 0) - ev c' c))
        - (if b = c then 2 * ev c' b' else 0) - (if b' = c' then 2 * ev b c else 0)
        + (if b = c then (if b' = c' then 1 else 0) else 0)) ∧
      evAt basis (conjOf basis) (ev33 (siteEv ev)) p q = .val (2 * E) ∧
      ω (C.basisOp basis p * C.basisOpAdj basis q) = (E : ℂ) := by
  refine ⟨_, rfl, code_33 ha hb hc ha' hb' hc' hp hq, ?_⟩
  · rw [CAROn.basisOp, CAROn.basisOpAdj, hp, hq]
    change ω ((2 * (C.cr (a, true) * C.cr (b, false) * C.an (c, false)) - if b = c then C.cr (a, true) else 0) *
      (2 * (C.cr (c', false) * C.an (b', false) * C.an (a', true)) - if b' = c' then C.an (a', true) else 0)) = _
    have e6 := state_6 Q ha hb hc hc' hb' ha'
    have e4 := state_4 Q ha hc' hb' ha'
    have e4' := state_4 Q ha hb hc ha'
    have e2 := state_11 Q ha ha'
    have h2 : ∀ z : R, (2 : R) * z = (2 : ℂ) • z := fun z => by rw [two_mul, two_smul]
    simp only [mul_assoc] at e6 e4 e4'
    rw [sub_mul, mul_sub, mul_sub, h2, h2]
    simp only [smul_mul_assoc, mul_smul_comm, map_sub, map_smul, mul_ite, mul_zero, ite_mul, zero_mul, mul_assoc]
    have hd : (((if c = c' then 1 else 0 : ℝ) : ℝ) : ℂ) = if c = c' then 1 else 0 := by split <;> simp
    push_cast
    rw [hd]
    by_cases h : b = c <;> by_cases h' : b' = c' <;>
      simp only [h, h', if_true, if_false, map_zero, map_smul, smul_eq_mul] at e6 e4 e4' ⊢ <;>
      simp only [e6, e4, e4', e2] <;> push_cast <;> ring


end Coef

/-! ### Parallel accumulation -/

theorem runLoop_sum {body : ℕ → ℕ → Res ℂ} {g : ℕ → ℕ → ℂ} {threads : ℕ} :
    ∀ (s : List Event) (results : List ℂ), (∀ e ∈ s, body e.2.1 e.2.2 = .val (g e.2.1 e.2.2)) →
      (∀ e ∈ s, e.1 < threads) → results.length = threads →
      ∃ r, runLoop body s results = .val r ∧ r.length = threads ∧
        r.sum = results.sum + (s.map fun e => g e.2.1 e.2.2).sum := by
  intro s
  induction s with
  | nil => intro results _ _ hl; exact ⟨results, rfl, hl, by simp⟩
  | cons e s ih =>
    intro results hb ht hl
    have he : e.1 < results.length := by rw [hl]; exact ht e (by simp)
    have hstep : runLoop body (e :: s) results =
        runLoop body s (results.set e.1 (results[e.1] + g e.2.1 e.2.2)) := by
      unfold runLoop
      rw [List.foldl_cons, Res.bind_val, hb e (by simp), Res.bind_val, addTo,
        vecAt_get (List.getElem?_eq_getElem he), Res.bind_val]
    obtain ⟨r, h1, h2, h3⟩ := ih (results.set e.1 (results[e.1] + g e.2.1 e.2.2))
      (fun e he => hb e (by simp [he])) (fun e he => ht e (by simp [he])) (by simpa using hl)
    refine ⟨r, by rw [hstep, h1], h2, ?_⟩
    rw [h3, List.map_cons, List.sum_cons]
    have : (results.set e.1 (results[e.1] + g e.2.1 e.2.2)).sum = results.sum + g e.2.1 e.2.2 := by
      conv_rhs => rw [← List.take_append_drop e.1 results, List.drop_eq_getElem_cons he, List.sum_append, List.sum_cons]
      rw [List.set_eq_take_cons_drop _ he, List.sum_append, List.sum_cons]
      ring
    rw [this]; ring

theorem runLoop_executes {body : ℕ → ℕ → Res ℂ} {g : ℕ → ℕ → ℂ} {threads : ℕ} {pairs : List (ℕ × ℕ)} {s : List Event}
    (h : Executes threads pairs s) (results : List ℂ) (hl : results.length = threads)
    (hb : ∀ p ∈ pairs, body p.1 p.2 = .val (g p.1 p.2)) :
    ∃ r, runLoop body s results = .val r ∧ r.length = threads ∧
      r.sum = results.sum + (pairs.map fun p => g p.1 p.2).sum := by
  obtain ⟨r, h1, h2, h3⟩ := runLoop_sum (body := body) (g := g) s results
    (fun e he => hb e.2 (h.1.mem_iff.1 (List.mem_map.2 ⟨e, he, rfl⟩))) h.2 hl
  refine ⟨r, h1, h2, ?_⟩
  rw [h3, ← (h.1.map fun p => g p.1 p.2).sum_eq, List.map_map]
  rfl

theorem sum_range' {M : Type*} [AddCommMonoid M] (lo n : ℕ) (f : ℕ → M) :
    ((List.range' lo n).map f).sum = ∑ i ∈ Finset.Ico lo (lo + n), f i := by
  induction n with
  | zero => simp
  | succ n ih =>
    rw [List.range'_concat, List.map_append, List.sum_append, ih, ← add_assoc, Finset.sum_Ico_succ_top (by omega)]
    simp

theorem sum_flatMap {α M : Type*} [AddCommMonoid M] (l : List α) (f : α → List M) :
    (l.flatMap f).sum = (l.map fun a => (f a).sum).sum := by
  induction l with
  | nil => simp
  | cons a l ih => simp [ih]

theorem sum_pairsRect (lo hi lo' hi' : ℕ) (h : lo ≤ hi) (h' : lo' ≤ hi') (g : ℕ → ℕ → ℂ) :
    ((pairsRect lo hi lo' hi').map fun p => g p.1 p.2).sum =
      ∑ i ∈ Finset.Ico lo hi, ∑ j ∈ Finset.Ico lo' hi', g i j := by
  unfold pairsRect
  rw [List.map_flatMap, sum_flatMap, sum_range', Nat.add_sub_cancel' h]
  refine Finset.sum_congr rfl fun i _ => ?_
  rw [List.map_map, ← Nat.add_sub_cancel' h', Nat.add_sub_cancel_left, ← sum_range']
  rfl

theorem sum_pairsTri (lo hi : ℕ) (h : lo ≤ hi) (g : ℕ → ℕ → ℂ) :
    ((pairsTri lo hi).map fun p => g p.1 p.2).sum =
      ∑ i ∈ Finset.Ico lo hi, (∑ j ∈ Finset.Ico lo i, g i j + g i i) := by
  unfold pairsTri
  rw [List.map_flatMap, sum_flatMap, sum_range', Nat.add_sub_cancel' h]
  refine Finset.sum_congr rfl fun i hi => ?_
  rw [Finset.mem_Ico] at hi
  rw [List.map_append, List.sum_append, List.map_map]
  congr 1
  simp

theorem mem_pairsRect {lo hi lo' hi' : ℕ} {p : ℕ × ℕ} (h : lo ≤ hi) (h' : lo' ≤ hi') :
    p ∈ pairsRect lo hi lo' hi' ↔ (lo ≤ p.1 ∧ p.1 < hi) ∧ (lo' ≤ p.2 ∧ p.2 < hi') := by
  obtain ⟨i, j⟩ := p
  simp only [pairsRect, List.mem_flatMap, List.mem_map, List.mem_range'_1, Prod.mk.injEq]
  constructor
  · rintro ⟨i', hi, j', hj, rfl, rfl⟩; omega
  · rintro ⟨h1, h2⟩; exact ⟨i, by omega, j, by omega, rfl, rfl⟩

theorem mem_pairsTri {lo hi : ℕ} {p : ℕ × ℕ} (h : lo ≤ hi) :
    p ∈ pairsTri lo hi ↔ lo ≤ p.2 ∧ p.2 ≤ p.1 ∧ p.1 < hi := by
  obtain ⟨i, j⟩ := p
  simp only [pairsTri, List.mem_flatMap, List.mem_append, List.mem_map, List.mem_range'_1, Prod.mk.injEq,
    List.mem_singleton]
  constructor
  · rintro ⟨i', hi, ⟨j', hj, rfl, rfl⟩ | ⟨rfl, rfl⟩⟩ <;> omega
  · rintro ⟨h1, h2, h3⟩
    refine ⟨i, by omega, ?_⟩
    by_cases e : j = i
    · right; exact ⟨rfl, e⟩
    · left; exact ⟨j, by omega, rfl, rfl⟩

theorem sum_square (lo hi : ℕ) (h : lo ≤ hi) (f : ℕ → ℕ → ℂ) :
    ∑ i ∈ Finset.Ico lo hi, ∑ j ∈ Finset.Ico lo hi, f i j =
      ∑ i ∈ Finset.Ico lo hi, (∑ j ∈ Finset.Ico lo i, (f i j + f j i) + f i i) := by
  induction hi, h using Nat.le_induction with
  | base => simp
  | succ n hn ih =>
    rw [Finset.sum_Ico_succ_top hn, Finset.sum_Ico_succ_top hn (fun i => ∑ j ∈ Finset.Ico lo i, (f i j + f j i) + f i i),
      ← ih]
    simp only [Finset.sum_Ico_succ_top hn, Finset.sum_add_distrib]
    ring

theorem sum_split (N M : ℕ) (h : N ≤ M) (f : ℕ → ℕ → ℂ) :
    ∑ i ∈ Finset.range M, ∑ j ∈ Finset.range M, f i j =
      ∑ i ∈ Finset.Ico 0 N, ∑ j ∈ Finset.Ico 0 N, f i j +
      ∑ i ∈ Finset.Ico 0 N, ∑ j ∈ Finset.Ico N M, (f i j + f j i) +
      ∑ i ∈ Finset.Ico N M, ∑ j ∈ Finset.Ico N M, f i j := by
  simp only [Finset.range_eq_Ico, Finset.sum_add_distrib]
  rw [← Finset.sum_Ico_consecutive _ (Nat.zero_le N) h]
  simp only [← Finset.sum_Ico_consecutive _ (Nat.zero_le N) h, Finset.sum_add_distrib]
  rw [Finset.sum_comm (s := Finset.Ico N M) (t := Finset.Ico 0 N)]
  ring

/-! ### The whole computation -/

theorem getD_val {vec : List ℂ} {i : ℕ} (hi : i < vec.length) : vecAt vec i = .val (vec.getD i 0) := by
  rw [vecAt_get (List.getElem?_eq_getElem hi)]; simp [hi]

theorem fullTerm_val {basis cb : List HMonomial} {vec : List ℂ} {f : HMonomial → HMonomial → Res ℝ} {i j : ℕ} {E : ℝ}
    (he : evAt basis cb f i j = .val (2 * E)) (hi : i < vec.length) (hj : j < vec.length) :
    fullTerm basis cb vec f i j = .val (vec.getD i 0 * conj (vec.getD j 0) * (E : ℂ)) := by
  rw [fullTerm, he, getD_val hi, getD_val hj]
  simp only [Res.bind_val, (complex_helpers _ _ 0).2.2.1]
  congr 1; push_cast; ring

theorem symTerm_val {basis cb : List HMonomial} {vec : List ℂ} {f : HMonomial → HMonomial → Res ℝ} {i j : ℕ} {E : ℝ}
    (he : evAt basis cb f i j = .val (2 * E)) (hi : i < vec.length) (hj : j < vec.length) :
    symTerm basis cb vec f i j = .val (vec.getD i 0 * conj (vec.getD j 0) * (E : ℂ) +
      vec.getD j 0 * conj (vec.getD i 0) * (E : ℂ)) := by
  rw [symTerm, he, getD_val hi, getD_val hj]
  simp only [Res.bind_val]
  congr 1
  push_cast
  rw [(complex_helpers (vec.getD i 0) (vec.getD j 0) 0).2.2.2]; ring

theorem diagTerm_val {basis cb : List HMonomial} {vec : List ℂ} {f : HMonomial → HMonomial → Res ℝ} {i : ℕ} {E : ℝ}
    (he : evAt basis cb f i i = .val (2 * E)) (hi : i < vec.length) :
    diagTerm basis cb vec f i = .val (vec.getD i 0 * conj (vec.getD i 0) * (E : ℂ)) := by
  rw [diagTerm, he, getD_val hi]
  simp only [Res.bind_val]
  congr 1
  rw [Complex.mul_conj]; push_cast; ring

/-- The weights of the double sum: half the coefficient functions of the code. -/
structure Weights (ev : HOp → HOp → ℝ) (basis cb : List HMonomial) (N size : ℕ) (E : ℕ → ℕ → ℝ) : Prop where
  e11 : ∀ i j, i < N → j < N → evAt basis cb (ev11 ev) i j = .val (2 * E i j)
  e13 : ∀ i j, i < N → N ≤ j → j < size → evAt basis cb (ev13 ev) i j = .val (2 * E i j)
  e31 : ∀ i j, N ≤ i → i < size → j < N → evAt basis cb (ev31 ev) i j = .val (2 * E i j)
  e33 : ∀ i j, N ≤ i → i < size → N ≤ j → j < size → evAt basis cb (ev33 ev) i j = .val (2 * E i j)

section Main
variable {ev : HOp → HOp → ℝ} {basis cb : List HMonomial} {N size : ℕ} {E : ℕ → ℕ → ℝ} {vec : List ℂ} {threads : ℕ}
variable {s1 s2 s3 : List Event} {exploit : Bool}

theorem tri_loop {f : HMonomial → HMonomial → Res ℝ} {lo hi : ℕ} (hlo : lo ≤ hi) (hhi : hi ≤ vec.length)
    (hE : ∀ i j, lo ≤ i → i < hi → lo ≤ j → j < hi → evAt basis cb f i j = .val (2 * E i j))
    (hsym : ∀ i < hi, ∀ j < hi, E i j = E j i) {s : List Event} (h : Executes threads (pairsTri lo hi) s)
    (results : List ℂ) (hl : results.length = threads) :
    ∃ r, runLoop (triTerm basis cb vec f) s results = .val r ∧ r.length = threads ∧
      r.sum = results.sum + ∑ i ∈ Finset.Ico lo hi, ∑ j ∈ Finset.Ico lo hi,
        vec.getD i 0 * conj (vec.getD j 0) * (E i j : ℂ) := by
  obtain ⟨r, h1, h2, h3⟩ := runLoop_executes (body := triTerm basis cb vec f)
    (g := fun i j => if j = i then vec.getD i 0 * conj (vec.getD i 0) * (E i i : ℂ) else
      vec.getD i 0 * conj (vec.getD j 0) * (E i j : ℂ) + vec.getD j 0 * conj (vec.getD i 0) * (E j i : ℂ)) h results hl (by
      intro p hp
      obtain ⟨a, b, c⟩ := (mem_pairsTri hlo).1 hp
      unfold triTerm
      split
      · rw [diagTerm_val (hE p.1 p.1 (by omega) c (by omega) c) (by omega)]
      · rw [symTerm_val (hE p.1 p.2 (by omega) c (by omega) (by omega)) (by omega) (by omega),
          hsym p.2 (by omega) p.1 c])
  refine ⟨r, h1, h2, ?_⟩
  rw [h3, sum_pairsTri lo hi hlo (fun i j => if j = i then vec.getD i 0 * conj (vec.getD i 0) * (E i i : ℂ) else
      vec.getD i 0 * conj (vec.getD j 0) * (E i j : ℂ) + vec.getD j 0 * conj (vec.getD i 0) * (E j i : ℂ)), sum_square lo hi hlo]
  congr 1
  refine Finset.sum_congr rfl fun i _ => ?_
  rw [if_pos rfl]
  congr 1
  refine Finset.sum_congr rfl fun j hj => ?_
  rw [Finset.mem_Ico] at hj
  rw [if_neg (by omega)]

theorem rect_loop {f : HMonomial → HMonomial → Res ℝ} {lo hi lo' hi' : ℕ} (hlo : lo ≤ hi) (hhi : hi ≤ vec.length)
    (hlo' : lo' ≤ hi') (hhi' : hi' ≤ vec.length)
    (hE : ∀ i j, lo ≤ i → i < hi → lo' ≤ j → j < hi' → evAt basis cb f i j = .val (2 * E i j))
    {s : List Event} (h : Executes threads (pairsRect lo hi lo' hi') s)
    (results : List ℂ) (hl : results.length = threads) :
    ∃ r, runLoop (fullTerm basis cb vec f) s results = .val r ∧ r.length = threads ∧
      r.sum = results.sum + ∑ i ∈ Finset.Ico lo hi, ∑ j ∈ Finset.Ico lo' hi',
        vec.getD i 0 * conj (vec.getD j 0) * (E i j : ℂ) := by
  obtain ⟨r, h1, h2, h3⟩ := runLoop_executes (body := fullTerm basis cb vec f)
    (g := fun i j => vec.getD i 0 * conj (vec.getD j 0) * (E i j : ℂ)) h results hl (by
      intro p hp
      obtain ⟨⟨a, b⟩, c, d⟩ := (mem_pairsRect hlo hlo').1 hp
      rw [fullTerm_val (hE p.1 p.2 a b c d) (by omega) (by omega)])
  exact ⟨r, h1, h2, by rw [h3, sum_pairsRect lo hi lo' hi' hlo hlo'
    (fun i j => vec.getD i 0 * conj (vec.getD j 0) * (E i j : ℂ))]⟩

/-- The one-operator site occupation is the double sum, for every execution of the loop. -/
theorem siteSum1_eq (hE : ∀ i j, i < size → j < size → evAt basis cb (ev11 ev) i j = .val (2 * E i j))
    (hv : vec.length = size) (h : Executes threads (loop1 size) s1) :
    siteSum1 ev basis cb vec threads s1 = .val (∑ i ∈ Finset.range size, ∑ j ∈ Finset.range size,
        vec.getD i 0 * conj (vec.getD j 0) * (E i j : ℂ)) := by
  obtain ⟨r, h1, h2, h3⟩ := rect_loop (vec := vec) (E := E) (Nat.zero_le size) (by omega) (Nat.zero_le size) (by omega)
    (fun i j _ a _ b => hE i j a b) h (List.replicate threads 0) (by simp)
  rw [siteSum1, h1, Res.map_val, h3]
  simp

/-- The three-operator site occupation is the double sum, for every execution of the loops, with and without the
shortcut. -/
theorem siteSum3_eq (W : Weights ev basis cb N size E) (hN : N ≤ size) (hv : vec.length = size)
    (hsym : exploit = true → ∀ i < size, ∀ j < size, E i j = E j i)
    (h1 : Executes threads (loopA exploit N) s1) (h2 : Executes threads (loopB N size) s2)
    (h3 : Executes threads (loopC exploit N size) s3) :
    siteSum3 ev basis cb vec exploit threads s1 s2 s3 = .val (∑ i ∈ Finset.range size, ∑ j ∈ Finset.range size,
        vec.getD i 0 * conj (vec.getD j 0) * (E i j : ℂ)) := by
  rw [sum_split N size hN]
  cases exploit with
  | true =>
    have hs := hsym rfl
    obtain ⟨r1, a1, l1, t1⟩ := tri_loop (vec := vec) (E := E) (Nat.zero_le N) (by omega)
      (fun i j _ a _ b => W.e11 i j a b) (fun i hi j hj => hs i (by omega) j (by omega)) h1
      (List.replicate threads 0) (by simp)
    obtain ⟨r2, a2, l2, t2⟩ := runLoop_executes (body := symTerm basis cb vec (ev13 ev))
      (g := fun i j => vec.getD i 0 * conj (vec.getD j 0) * (E i j : ℂ) + vec.getD j 0 * conj (vec.getD i 0) * (E j i : ℂ))
      h2 r1 l1 (by
        intro p hp
        obtain ⟨⟨a, b⟩, c, d⟩ := (mem_pairsRect (Nat.zero_le N) hN).1 hp
        rw [symTerm_val (W.e13 p.1 p.2 b c d) (by omega) (by omega), hs p.2 d p.1 (by omega)])
    obtain ⟨r3, a3, l3, t3⟩ := tri_loop (vec := vec) (E := E) hN (by omega)
      (fun i j a b c d => W.e33 i j a b c d) (fun i hi j hj => hs i (by omega) j (by omega)) h3 r2 l2
    rw [siteSum3, if_pos rfl, a1, Res.bind_val, a2, Res.bind_val, a3, Res.map_val, t3, t2, t1, loopB,
      sum_pairsRect 0 N N size (Nat.zero_le N) hN (fun i j => vec.getD i 0 * conj (vec.getD j 0) * (E i j : ℂ) +
        vec.getD j 0 * conj (vec.getD i 0) * (E j i : ℂ))]
    simp
  | false =>
    obtain ⟨r1, a1, l1, t1⟩ := rect_loop (vec := vec) (E := E) (Nat.zero_le N) (by omega) (Nat.zero_le N) (by omega)
      (fun i j _ a _ b => W.e11 i j a b) h1 (List.replicate threads 0) (by simp)
    obtain ⟨r2, a2, l2, t2⟩ := runLoop_executes (body := mixedTerm ev basis cb vec)
      (g := fun i j => vec.getD i 0 * conj (vec.getD j 0) * (E i j : ℂ) + vec.getD j 0 * conj (vec.getD i 0) * (E j i : ℂ))
      h2 r1 l1 (by
        intro p hp
        obtain ⟨⟨a, b⟩, c, d⟩ := (mem_pairsRect (Nat.zero_le N) hN).1 hp
        rw [mixedTerm, fullTerm_val (W.e13 p.1 p.2 b c d) (by omega) (by omega),
          fullTerm_val (W.e31 p.2 p.1 c d b) (by omega) (by omega)]
        rfl)
    obtain ⟨r3, a3, l3, t3⟩ := rect_loop (vec := vec) (E := E) hN (by omega) hN (by omega)
      (fun i j a b c d => W.e33 i j a b c d) h3 r2 l2
    rw [siteSum3, if_neg (by simp), a1, Res.bind_val, a2, Res.bind_val, a3, Res.map_val, t3, t2, t1, loopB,
      sum_pairsRect 0 N N size (Nat.zero_le N) hN (fun i j => vec.getD i 0 * conj (vec.getD j 0) * (E i j : ℂ) +
        vec.getD j 0 * conj (vec.getD i 0) * (E j i : ℂ))]
    simp

end Main

/-- The weight in closed form. -/
noncomputable def weight (ev : ℕ → ℕ → ℝ) (basis : List HMonomial) (p q : ℕ) : ℝ :=
  match basis[p]?, basis[q]? with
  | some [x], some [y] => ev x.index.1 y.index.1
  | some [x], some [a, b, c] => (2 * ev c.index.1 b.index.1 - if b.index.1 = c.index.1 then 1 else 0) *
      ev x.index.1 a.index.1
  | some [a, b, c], some [x] => (2 * ev b.index.1 c.index.1 - if b.index.1 = c.index.1 then 1 else 0) *
      ev a.index.1 x.index.1
  | some [a, b, c], some [a', b', c'] => ev a.index.1 a'.index.1 * (4 * (ev b.index.1 c.index.1 * ev c'.index.1 b'.index.1
      + ev b.index.1 b'.index.1 * ((if c.index.1 = c'.index.1 then 1 else 0) - ev c'.index.1 c.index.1))
        - (if b.index.1 = c.index.1 then 2 * ev c'.index.1 b'.index.1 else 0)
        - (if b'.index.1 = c'.index.1 then 2 * ev b.index.1 c.index.1 else 0)
        + (if b.index.1 = c.index.1 then (if b'.index.1 = c'.index.1 then 1 else 0) else 0))
  | _, _ => 0

theorem one_cases {N p : ℕ} (hp : p < N) : (basis3 N)[p]? = some (Spec.one p) := ((realBasis_getElem N).1 p hp).2

theorem three_cases {N p : ℕ} (h1 : N ≤ p) (h2 : p < N + N * N * N) :
    ∃ a b c, a < N ∧ b < N ∧ c < N ∧ (basis3 N)[p]? = some (Spec.three a b c) := by
  rcases basis3_cases h2 with ⟨i, rfl, hi, _⟩ | ⟨a, b, c, _, ha, hb, hc, h⟩
  · omega
  · exact ⟨a, b, c, ha, hb, hc, h⟩

theorem weights_ok (ev : ℕ → ℕ → ℝ) (N : ℕ) :
    Weights (siteEv ev) (basis3 N) (conjOf (basis3 N)) N (N + N * N * N) (weight ev (basis3 N)) where
  e11 i j hi hj := by
    rw [code_11 hi hj (one_cases hi) (one_cases hj), weight, one_cases hi, one_cases hj]; rfl
  e13 i j hi hj hj' := by
    obtain ⟨a, b, c, ha, hb, hc, h⟩ := three_cases hj hj'
    rw [code_13 hi ha hb hc (one_cases hi) h, weight, one_cases hi, h]; rfl
  e31 i j hi hi' hj := by
    obtain ⟨a, b, c, ha, hb, hc, h⟩ := three_cases hi hi'
    rw [code_31 hj ha hb hc h (one_cases hj), weight, one_cases hj, h]; rfl
  e33 i j hi hi' hj hj' := by
    obtain ⟨a, b, c, ha, hb, hc, h⟩ := three_cases hi hi'
    obtain ⟨a', b', c', ha', hb', hc', h'⟩ := three_cases hj hj'
    rw [code_33 ha hb hc ha' hb' hc' h h', weight, h, h']; rfl

theorem weight_symm {ev : ℕ → ℕ → ℝ} {N : ℕ} (hev : ∀ a < N, ∀ b < N, ev a b = ev b a) :
    ∀ p < N + N * N * N, ∀ q < N + N * N * N, weight ev (basis3 N) p q = weight ev (basis3 N) q p := by
  intro p hp q hq
  rcases basis3_cases hp with ⟨i, hpi, hi, h⟩ | ⟨a, b, c, _, ha, hb, hc, h⟩ <;>
    rcases basis3_cases hq with ⟨j, hqj, hj, h'⟩ | ⟨a', b', c', _, ha', hb', hc', h'⟩ <;>
    rw [weight, weight, h, h']
  · exact hev _ hi _ hj
  · simp only [Spec.one, Spec.three]; rw [hev c' hc' b' hb', hev i hi a' ha']
  · simp only [Spec.one, Spec.three]; rw [hev c hc b hb, hev j hj a ha]
  · simp only [Spec.three]
    rw [hev c' hc' b' hb', hev c hc b hb, hev c' hc' c hc, hev a' ha' a ha, hev b' hb' b hb]
    have e : (if c' = c then (1 : ℝ) else 0) = if c = c' then 1 else 0 := by simp [eq_comm]
    rw [e]
    by_cases h1 : b = c <;> by_cases h2 : b' = c' <;> simp only [h1, h2, if_true, if_false] <;> ring

theorem weight_state {N : ℕ} {R : Type*} [Ring R] [Algebra ℂ R] {C : CAROn N R} {ω : R →ₗ[ℂ] ℂ} {ev : ℕ → ℕ → ℝ}
    (Q : QuasiFree C ω ev) {p q : ℕ} (hp : p < N + N * N * N) (hq : q < N + N * N * N) :
    ω (C.basisOp (basis3 N) p * C.basisOpAdj (basis3 N) q) = (weight ev (basis3 N) p q : ℂ) := by
  rcases basis3_cases hp with ⟨i, hpi, hi, h⟩ | ⟨a, b, c, _, ha, hb, hc, h⟩ <;>
    rcases basis3_cases hq with ⟨j, hqj, hj, h'⟩ | ⟨a', b', c', _, ha', hb', hc', h'⟩ <;>
    rw [weight, h, h']
  · obtain ⟨E, e, _, hE⟩ := coef_11 Q hi hj h h'
    rw [hE, e]; rfl
  · obtain ⟨E, e, _, hE⟩ := coef_13 Q hi ha' hb' hc' h h'
    rw [hE, e]; rfl
  · obtain ⟨E, e, _, hE⟩ := coef_31 Q hj ha hb hc h h'
    rw [hE, e]; rfl
  · obtain ⟨E, e, _, hE⟩ := coef_33 Q ha hb hc ha' hb' hc' h h'
    rw [hE, e]; rfl

theorem state_combination {N : ℕ} {R : Type*} [Ring R] [Algebra ℂ R] (C : CAROn N R) (ω : R →ₗ[ℂ] ℂ)
    (basis : List HMonomial) (vec : List ℂ) :
    ω (C.combination basis vec * C.combinationAdj basis vec) =
      ∑ i ∈ Finset.range vec.length, ∑ j ∈ Finset.range vec.length,
        vec.getD i 0 * conj (vec.getD j 0) * ω (C.basisOp basis i * C.basisOpAdj basis j) := by
  unfold CAROn.combination CAROn.combinationAdj
  rw [Finset.sum_mul_sum, map_sum]
  refine Finset.sum_congr rfl fun i _ => ?_
  rw [map_sum]
  refine Finset.sum_congr rfl fun j _ => ?_
  rw [smul_mul_assoc, mul_smul_comm, map_smul, map_smul, smul_eq_mul, smul_eq_mul]; ring

theorem double_sum_real {n : ℕ} (h : ℕ → ℂ) (E : ℕ → ℕ → ℝ) (hs : ∀ i < n, ∀ j < n, E i j = E j i) :
    (∑ i ∈ Finset.range n, ∑ j ∈ Finset.range n, h i * conj (h j) * (E i j : ℂ)).im = 0 := by
  apply Complex.conj_eq_iff_im.1
  simp only [map_sum, map_mul, Complex.conj_conj, Complex.conj_ofReal]
  rw [Finset.sum_comm]
  refine Finset.sum_congr rfl fun i hi => Finset.sum_congr rfl fun j hj => ?_
  rw [hs j (Finset.mem_range.1 hj) i (Finset.mem_range.1 hi)]; ring

/-- C36: for every number of sites, every quasi-free state with real correlations `ev`, every coefficient vector of the
size of the basis, every number of threads and every execution of the three parallel loops, the site occupation
evaluates without out-of-range access, and the accumulated number is `ω((Σ h_i A_i)(Σ h_j A_j)†)` (`A_i` = `c†`
respectively `2 c† c† c - δ c†`). With the shortcut the correlations have to be symmetric. -/
theorem siteOccupation_wick {N : ℕ} {R : Type*} [Ring R] [Algebra ℂ R] {C : CAROn N R} {ω : R →ₗ[ℂ] ℂ}
    {ev : ℕ → ℕ → ℝ} (Q : QuasiFree C ω ev) (exploit : Bool)
    (hsym : exploit = true → ∀ a < N, ∀ b < N, ev a b = ev b a)
    (vec : List ℂ) (hv : vec.length = (basis3 N).length) (threads : ℕ) (sc : List ℕ)
    (hsc : sc.Perm (List.range (basis3 N).length)) (s1 s2 s3 : List Event)
    (h1 : Executes threads (loopA exploit N) s1) (h2 : Executes threads (loopB N (basis3 N).length) s2)
    (h3 : Executes threads (loopC exploit N (basis3 N).length) s3) :
    ∃ z : ℂ, z = ω (C.combination (basis3 N) vec * C.combinationAdj (basis3 N) vec) ∧
      siteSum3 (siteEv ev) (basis3 N) (getConjugate sc (basis3 N)) vec exploit threads s1 s2 s3 = .val z ∧
      siteOccupation3 (siteEv ev) (basis3 N) (getConjugate sc (basis3 N)) vec exploit threads s1 s2 s3 = .val z.re ∧
      ((∀ a < N, ∀ b < N, ev a b = ev b a) → z.im = 0) := by
  have hsz := (realBasis_size N).2
  have hc : getConjugate sc (basis3 N) = conjOf (basis3 N) := parallelModify_eq_map _ _ _ hsc
  rw [hsz] at hv h2 h3
  have key := siteSum3_eq (weights_ok ev N) (by omega) hv (fun e => weight_symm (hsym e)) h1 h2 h3
  have hz : ∑ i ∈ Finset.range (N + N * N * N), ∑ j ∈ Finset.range (N + N * N * N),
      vec.getD i 0 * conj (vec.getD j 0) * (weight ev (basis3 N) i j : ℂ) =
      ω (C.combination (basis3 N) vec * C.combinationAdj (basis3 N) vec) := by
    rw [state_combination, hv]
    refine Finset.sum_congr rfl fun i hi => Finset.sum_congr rfl fun j hj => ?_
    rw [weight_state Q (Finset.mem_range.1 hi) (Finset.mem_range.1 hj)]
  refine ⟨_, hz.symm.symm, ?_, ?_, ?_⟩
  · rw [hc, key]
  · rw [hc, siteOccupation3, key, Res.map_val]
  · intro hs
    exact double_sum_real (fun i => vec.getD i 0) _ (weight_symm hs)

/-- C36 for the one-operator basis. -/
theorem siteOccupation1_wick {N : ℕ} {R : Type*} [Ring R] [Algebra ℂ R] {C : CAROn N R} {ω : R →ₗ[ℂ] ℂ}
    {ev : ℕ → ℕ → ℝ} (Q : QuasiFree C ω ev)
    (vec : List ℂ) (hv : vec.length = (basis1 N).length) (threads : ℕ) (sc : List ℕ)
    (hsc : sc.Perm (List.range (basis1 N).length)) (s : List Event)
    (h : Executes threads (loop1 (basis1 N).length) s) :
    ∃ z : ℂ, z = ω (C.combination (basis1 N) vec * C.combinationAdj (basis1 N) vec) ∧
      siteSum1 (siteEv ev) (basis1 N) (getConjugate sc (basis1 N)) vec threads s = .val z ∧
      siteOccupation1 (siteEv ev) (basis1 N) (getConjugate sc (basis1 N)) vec threads s = .val z.re ∧
      ((∀ a < N, ∀ b < N, ev a b = ev b a) → z.im = 0) := by
  have hsz := (realBasis_size N).1
  have hc : getConjugate sc (basis1 N) = conjOf (basis1 N) := parallelModify_eq_map _ _ _ hsc
  rw [hsz] at hv h
  have hg : ∀ i < N, (basis1 N)[i]? = some (Spec.one i) := fun i hi => ((realBasis_getElem N).1 i hi).1
  have key := siteSum1_eq (ev := siteEv ev) (basis := basis1 N) (cb := conjOf (basis1 N)) (E := ev)
    (fun i j hi hj => code_11 hi hj (hg i hi) (hg j hj)) hv h
  have hz : ∑ i ∈ Finset.range N, ∑ j ∈ Finset.range N, vec.getD i 0 * conj (vec.getD j 0) * (ev i j : ℂ) =
      ω (C.combination (basis1 N) vec * C.combinationAdj (basis1 N) vec) := by
    rw [state_combination, hv]
    refine Finset.sum_congr rfl fun i hi => Finset.sum_congr rfl fun j hj => ?_
    rw [Finset.mem_range] at hi hj
    obtain ⟨E, e, _, hE⟩ := coef_11 Q hi hj (hg i hi) (hg j hj)
    rw [hE, e]
  refine ⟨_, hz, ?_, ?_, ?_⟩
  · rw [hc, key]
  · rw [hc, siteOccupation1, key, Res.map_val]
  · intro hs
    exact double_sum_real (fun i => vec.getD i 0) _ hs

/-- C37: for every number of sites, every symmetric correlation table and every vector, the result does not depend on
whether the shortcut is used, on the number of threads or on how the statements are distributed over the threads and
interleaved, and no access is out of range. -/
theorem siteOccupation_deterministic {N : ℕ} (ev : ℕ → ℕ → ℝ) (hev : ∀ a < N, ∀ b < N, ev a b = ev b a)
    (vec : List ℂ) (hv : vec.length = (basis3 N).length) (sc : List ℕ)
    (hsc : sc.Perm (List.range (basis3 N).length)) :
    ∃ x : ℝ, ∀ (exploit : Bool) (threads : ℕ) (s1 s2 s3 : List Event),
      Executes threads (loopA exploit N) s1 → Executes threads (loopB N (basis3 N).length) s2 →
      Executes threads (loopC exploit N (basis3 N).length) s3 →
      siteSum3 (siteEv ev) (basis3 N) (getConjugate sc (basis3 N)) vec exploit threads s1 s2 s3 = .val (x : ℂ) ∧
      siteOccupation3 (siteEv ev) (basis3 N) (getConjugate sc (basis3 N)) vec exploit threads s1 s2 s3 = .val x := by
  have hsz := (realBasis_size N).2
  have hc : getConjugate sc (basis3 N) = conjOf (basis3 N) := parallelModify_eq_map _ _ _ hsc
  rw [hsz] at hv
  have him := double_sum_real (n := N + N * N * N) (fun i => vec.getD i 0) _ (weight_symm hev)
  refine ⟨(∑ i ∈ Finset.range (N + N * N * N), ∑ j ∈ Finset.range (N + N * N * N),
      vec.getD i 0 * conj (vec.getD j 0) * (weight ev (basis3 N) i j : ℂ)).re, ?_⟩
  intro exploit threads s1 s2 s3 h1 h2 h3
  rw [hsz] at h2 h3
  have key := siteSum3_eq (weights_ok ev N) (by omega) hv (fun _ => weight_symm hev) h1 h2 h3
  rw [hc, siteOccupation3, key, Res.map_val]
  refine ⟨?_, rfl⟩
  congr 1
  apply Complex.ext
  · rw [Complex.ofReal_re]
  · rw [Complex.ofReal_im, him]

/-- C37 for the one-operator basis (here the table need not be symmetric for the accumulated sum). -/
theorem siteOccupation1_deterministic {N : ℕ} (ev : ℕ → ℕ → ℝ)
    (vec : List ℂ) (hv : vec.length = (basis1 N).length) (sc : List ℕ)
    (hsc : sc.Perm (List.range (basis1 N).length)) :
    ∃ z : ℂ, ∀ (threads : ℕ) (s : List Event), Executes threads (loop1 (basis1 N).length) s →
      siteSum1 (siteEv ev) (basis1 N) (getConjugate sc (basis1 N)) vec threads s = .val z ∧
      siteOccupation1 (siteEv ev) (basis1 N) (getConjugate sc (basis1 N)) vec threads s = .val z.re := by
  have hsz := (realBasis_size N).1
  have hc : getConjugate sc (basis1 N) = conjOf (basis1 N) := parallelModify_eq_map _ _ _ hsc
  rw [hsz] at hv
  have hg : ∀ i < N, (basis1 N)[i]? = some (Spec.one i) := fun i hi => ((realBasis_getElem N).1 i hi).1
  refine ⟨∑ i ∈ Finset.range N, ∑ j ∈ Finset.range N, vec.getD i 0 * conj (vec.getD j 0) * (ev i j : ℂ),
    fun threads s h => ?_⟩
  rw [hsz] at h
  have key := siteSum1_eq (ev := siteEv ev) (basis := basis1 N) (cb := conjOf (basis1 N)) (E := ev)
    (fun i j hi hj => code_11 hi hj (hg i hi) (hg j hj)) hv h
  rw [hc, siteOccupation1, key, Res.map_val]
  exact ⟨rfl, rfl⟩

end Ieompp.RealSpace
