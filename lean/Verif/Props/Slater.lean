import Verif.Props.SiteOccupation
import Verif.Props.FermiSea
import Mathlib.Algebra.BigOperators.Fin
import Mathlib.LinearAlgebra.Matrix.ConjTranspose
import Mathlib.LinearAlgebra.UnitaryGroup

/-! # Wick's theorem: Fermi seas of arbitrary orbitals are quasi-free -/

set_option autoImplicit false
set_option linter.unusedSectionVars false

namespace Ieompp.RealSpace

open Ieompp.Spec ComplexConjugate

section Split
variable {α R : Type*} [Ring R] [Algebra ℂ R] {φ p m : α → R} {ω : R →ₗ[ℂ] ℂ} {s : α → α → ℂ} {P : α → Prop}

theorem wick_push (hs : ∀ x y, P x → P y → m x * φ y + φ y * m x = algebraMap ℂ R (s x y)) {x : α} (hx : P x) :
    ∀ l : List α, (∀ y ∈ l, P y) → m x * (l.map φ).prod =
      (∑ k : Fin l.length, ((-1) ^ (k : ℕ) * s x l[k]) • ((l.eraseIdx k).map φ).prod) +
        ((-1 : ℂ) ^ l.length) • ((l.map φ).prod * m x) := by
  intro l
  induction l with
  | nil => intro _; simp
  | cons y l ih =>
    intro hl
    have e : m x * φ y = algebraMap ℂ R (s x y) - φ y * m x := eq_sub_of_add_eq (hs x y hx (hl y (by simp)))
    rw [List.map_cons, List.prod_cons, ← mul_assoc, e, sub_mul, mul_assoc, ih (fun z hz => hl z (by simp [hz])),
      ← Algebra.smul_def, mul_add, Finset.mul_sum]
    simp only [List.length_cons]
    rw [Fin.sum_univ_succ]
    simp only [Fin.val_zero, pow_zero, one_mul, Fin.val_succ, pow_succ, List.eraseIdx_zero, List.tail_cons,
      Fin.getElem_fin, List.getElem_cons_zero, List.getElem_cons_succ, List.eraseIdx_cons_succ, List.map_cons,
      List.prod_cons, mul_smul_comm]
    have e1 : ∀ k : Fin l.length, ((-1 : ℂ) ^ (k : ℕ) * -1 * s x l[(k : ℕ)]) • (φ y * ((l.eraseIdx k).map φ).prod) =
        -(((-1 : ℂ) ^ (k : ℕ) * s x l[(k : ℕ)]) • (φ y * ((l.eraseIdx k).map φ).prod)) := by
      intro k; rw [← neg_smul]; congr 1; ring
    have e2 : ((-1 : ℂ) ^ l.length * -1) • (φ y * (l.map φ).prod * m x) =
        -((-1 : ℂ) ^ l.length • (φ y * ((l.map φ).prod * m x))) := by
      rw [← neg_smul, mul_assoc]; congr 1; ring
    rw [Finset.sum_congr rfl (fun k _ => e1 k), e2, Finset.sum_neg_distrib]
    abel

/-- Wick's theorem: fields which split into a part annihilating the state on the right and a part annihilating it on
the left, with scalar anticommutators, have quasi-free expectation values. -/
theorem wick_of_split (hφ : ∀ x, P x → φ x = p x + m x) (hp : ∀ x, P x → ∀ y, ω (p x * y) = 0)
    (hm : ∀ x, P x → ∀ y, ω (y * m x) = 0) (h1 : ω 1 = 1)
    (hs : ∀ x y, P x → P y → m x * φ y + φ y * m x = algebraMap ℂ R (s x y))
    (x : α) (l : List α) (hx : P x) (hl : ∀ y ∈ l, P y) :
    ω (φ x * (l.map φ).prod) = ∑ k : Fin l.length,
      (-1) ^ (k : ℕ) * ω (φ x * φ l[k]) * ω ((l.eraseIdx k).map φ).prod := by
  have two : ∀ y, P y → ω (φ x * φ y) = s x y := by
    intro y hy
    rw [hφ x hx, add_mul, map_add, hp x hx, zero_add, eq_sub_of_add_eq (hs x y hx hy), map_sub, hm x hx, sub_zero,
      Algebra.algebraMap_eq_smul_one, map_smul, h1, smul_eq_mul, mul_one]
  rw [hφ x hx, add_mul, map_add, hp x hx, zero_add, wick_push hs hx l hl, map_add, map_smul, hm x hx, smul_zero, add_zero,
    map_sum]
  refine Finset.sum_congr rfl fun k _ => ?_
  rw [← hφ x hx, map_smul, smul_eq_mul, two l[k] (hl _ (List.getElem_mem _))]

end Split

/-! ### Fermi seas -/

section Sea
variable {N K : ℕ} (A : Bool → Fin N → Fin K → ℂ) (occ : Finset (Fin K))

/-- Fock space operator of an orbital. -/
noncomputable def orb (cr : Bool) (k : ℕ) (σ : Bool) : Module.End ℂ (Finset Mode → ℂ) := fockOp ℂ ⟨cr, toLex (k, σ)⟩

/-- The operator at a site: `c†_j = Σ_k A(true, j, k) c†_k`, `c_j = Σ_k A(false, j, k) c_k`, restricted to a set of
orbitals. -/
noncomputable def part (F : Finset (Fin K)) (o : HOp) : Module.End ℂ (Finset Mode → ℂ) :=
  if h : o.index.1 < N then ∑ k ∈ F, A o.creator ⟨o.index.1, h⟩ k • orb o.creator k o.index.2 else 0

/-- The occupied modes: orbitals `occ` with both spins. -/
def seaModes : Finset Mode := (occ ×ˢ (Finset.univ : Finset Bool)).image fun x => toLex ((x.1 : ℕ), x.2)

theorem mem_seaModes (k : Fin K) (σ : Bool) : toLex ((k : ℕ), σ) ∈ seaModes occ ↔ k ∈ occ := by
  simp only [seaModes, Finset.mem_image, Finset.mem_product, Finset.mem_univ, and_true, Prod.exists]
  constructor
  · rintro ⟨k', σ', hk, e⟩
    have e' : ((k' : ℕ), σ') = ((k : ℕ), σ) := e
    have : k' = k := Fin.ext (Prod.mk.inj e').1
    rwa [← this]
  · intro hk; exact ⟨k, σ, hk, rfl⟩

/-- Expectation value in the Fermi sea. -/
noncomputable def seaState : Module.End ℂ (Finset Mode → ℂ) →ₗ[ℂ] ℂ where
  toFun A := braket ℂ (seaModes occ) A (seaModes occ)
  map_add' _ _ := rfl
  map_smul' _ _ := rfl

theorem orb_anticomm (x y : Bool) (k l : Fin K) (σ τ : Bool) :
    orb x k σ * orb y l τ + orb y l τ * orb x k σ = if x ≠ y ∧ k = l ∧ σ = τ then 1 else 0 := by
  have := (fockCAR (ι := Mode) ℂ).anticomm ⟨x, toLex ((k : ℕ), σ)⟩ ⟨y, toLex ((l : ℕ), τ)⟩
  have e : (toLex ((k : ℕ), σ) = toLex ((l : ℕ), τ)) ↔ (k = l ∧ σ = τ) := by
    constructor
    · intro h
      have h' : ((k : ℕ), σ) = ((l : ℕ), τ) := h
      exact ⟨Fin.ext (Prod.mk.inj h').1, (Prod.mk.inj h').2⟩
    · rintro ⟨rfl, rfl⟩; rfl
  simp only [e] at this
  exact this

theorem part_anticomm (F G : Finset (Fin K)) (x y : HOp) (hx : x.index.1 < N) (hy : y.index.1 < N) :
    part A F x * part A G y + part A G y * part A F x = algebraMap ℂ _
      (if x.creator ≠ y.creator ∧ x.index.2 = y.index.2 then
        ∑ k ∈ F ∩ G, A x.creator ⟨x.index.1, hx⟩ k * A y.creator ⟨y.index.1, hy⟩ k else 0) := by
  unfold part
  rw [dif_pos hx, dif_pos hy, Finset.sum_mul_sum, Finset.sum_mul_sum, Finset.sum_comm (s := G), ← Finset.sum_add_distrib]
  simp only [← Finset.sum_add_distrib, smul_mul_assoc, mul_smul_comm, smul_smul]
  have e : ∀ k ∈ F, ∀ l ∈ G, (A y.creator ⟨y.index.1, hy⟩ l * A x.creator ⟨x.index.1, hx⟩ k) •
      (orb x.creator k x.index.2 * orb y.creator l y.index.2) +
      (A x.creator ⟨x.index.1, hx⟩ k * A y.creator ⟨y.index.1, hy⟩ l) •
      (orb y.creator l y.index.2 * orb x.creator k x.index.2) =
      if l = k then (if x.creator ≠ y.creator ∧ x.index.2 = y.index.2 then algebraMap ℂ (Module.End ℂ (Finset Mode → ℂ))
        (A x.creator ⟨x.index.1, hx⟩ k * A y.creator ⟨y.index.1, hy⟩ k) else 0) else 0 := by
    intro k _ l _
    rw [mul_comm (A y.creator ⟨y.index.1, hy⟩ l), ← smul_add, orb_anticomm]
    by_cases h : l = k
    · subst h
      by_cases h' : x.creator ≠ y.creator ∧ x.index.2 = y.index.2
      · rw [if_pos ⟨h'.1, rfl, h'.2⟩, if_pos rfl, if_pos h', Algebra.algebraMap_eq_smul_one]
      · rw [if_neg (fun c => h' ⟨c.1, c.2.2⟩), if_pos rfl, if_neg h', smul_zero]
    · rw [if_neg (fun c => h c.2.1.symm), if_neg h, smul_zero]
  rw [Finset.sum_congr rfl fun k hk => Finset.sum_congr rfl fun l hl => e k hk l hl]
  simp only [Finset.sum_ite_eq']
  by_cases h' : x.creator ≠ y.creator ∧ x.index.2 = y.index.2
  · simp only [if_pos h', map_sum]
    rw [← Finset.sum_filter]
    rfl
  · simp [if_neg h']

/-- The orbitals whose operator annihilates the Fermi sea. -/
def killing (cr : Bool) : Finset (Fin K) := if cr then occ else occᶜ

theorem part_add (F : Finset (Fin K)) (x : HOp) : part A Finset.univ x = part A Fᶜ x + part A F x := by
  unfold part
  split
  · rw [add_comm, Finset.sum_add_sum_compl]
  · simp

theorem sea_left (x : HOp) (y : Module.End ℂ (Finset Mode → ℂ)) :
    seaState occ (part A (killing occ x.creator)ᶜ x * y) = 0 := by
  change (part A (killing occ x.creator)ᶜ x) (y (ket ℂ (seaModes occ))) (seaModes occ) = 0
  unfold part
  split
  · rw [LinearMap.sum_apply, Finset.sum_apply]
    refine Finset.sum_eq_zero fun k hk => ?_
    rw [LinearMap.smul_apply, Pi.smul_apply, orb, fockOp_apply]
    have hk' : ¬ ((toLex ((k : ℕ), x.index.2) ∈ seaModes occ) ↔ (x.creator = true)) := by
      rw [mem_seaModes]
      cases h : x.creator <;> rw [h] at hk <;> simpa [killing] using hk
    rw [if_neg hk', smul_zero]
  · rfl

theorem sea_right (x : HOp) (y : Module.End ℂ (Finset Mode → ℂ)) :
    seaState occ (y * part A (killing occ x.creator) x) = 0 := by
  change y ((part A (killing occ x.creator) x) (ket ℂ (seaModes occ))) (seaModes occ) = 0
  have : (part A (killing occ x.creator) x) (ket ℂ (seaModes occ)) = 0 := by
    unfold part
    split
    · rw [LinearMap.sum_apply]
      refine Finset.sum_eq_zero fun k hk => ?_
      rw [LinearMap.smul_apply, orb, fockOp_ket]
      have hk' : (toLex ((k : ℕ), x.index.2) ∈ seaModes occ) ↔ (x.creator = true) := by
        rw [mem_seaModes]
        cases h : x.creator <;> rw [h] at hk <;> simpa [killing] using hk
      rw [if_pos hk', smul_zero]
    · rfl
  rw [this, map_zero]; rfl

theorem sea_one : seaState occ 1 = 1 := by
  change ket ℂ (seaModes occ) (seaModes occ) = 1
  simp [ket]

variable {A}

/-- Site operators with biorthogonal amplitudes satisfy the CAR. -/
noncomputable def ampCAR (hA : ∀ i j, ∑ k, A true i k * A false j k = if i = j then 1 else 0) :
    CAROn N (Module.End ℂ (Finset Mode → ℂ)) where
  c := part A Finset.univ
  anticomm x y hx hy := by
    rw [part_anticomm A _ _ x y hx hy, Finset.inter_self]
    by_cases h : x.creator ≠ y.creator ∧ x.index.2 = y.index.2
    · rw [if_pos h]
      have e : ∑ k, A x.creator ⟨x.index.1, hx⟩ k * A y.creator ⟨y.index.1, hy⟩ k =
          if x.index.1 = y.index.1 then 1 else 0 := by
        cases hxc : x.creator <;> cases hyc : y.creator <;> simp [hxc, hyc] at h
        · rw [Finset.sum_congr rfl fun k _ => mul_comm _ _, hA]
          simp [eq_comm]
        · rw [hA]
          simp
      rw [e]
      have : (x.creator ≠ y.creator ∧ x.index = y.index) ↔ x.index.1 = y.index.1 := by
        constructor
        · rintro ⟨_, e⟩; rw [e]
        · intro e; exact ⟨h.1, Prod.ext e h.2⟩
      by_cases e : x.index.1 = y.index.1
      · rw [if_pos e, if_pos (this.2 e), map_one]
      · rw [if_neg e, if_neg (fun c => e (this.1 c)), map_zero]
    · rw [if_neg h, if_neg (fun c => h ⟨c.1, by rw [c.2]⟩), map_zero]

/-- Their expectation values in the state with the orbitals `occ` occupied are quasi-free. -/
theorem amp_quasiFree (hA : ∀ i j, ∑ k, A true i k * A false j k = if i = j then 1 else 0) (ev : ℕ → ℕ → ℝ)
    (hev : ∀ i j : Fin N, ∑ k ∈ occ, A true i k * A false j k = (ev i j : ℂ)) :
    QuasiFree (ampCAR hA) (seaState occ) ev := by
  have two : ∀ x y : HOp, ∀ hx : x.index.1 < N, ∀ hy : y.index.1 < N,
      seaState occ ((ampCAR hA).c x * (ampCAR hA).c y) = if x.creator ≠ y.creator ∧ x.index.2 = y.index.2 then
        ∑ k ∈ killing occ x.creator, A x.creator ⟨x.index.1, hx⟩ k * A y.creator ⟨y.index.1, hy⟩ k else 0 := by
    intro x y hx hy
    change seaState occ (part A Finset.univ x * part A Finset.univ y) = _
    have h := part_anticomm A (killing occ x.creator) Finset.univ x y hx hy
    rw [part_add A (killing occ x.creator) x, add_mul, map_add, sea_left, zero_add, eq_sub_of_add_eq h, map_sub,
      sea_right, sub_zero, Algebra.algebraMap_eq_smul_one, map_smul, sea_one, smul_eq_mul, mul_one, Finset.inter_univ]
  refine ⟨sea_one occ, ?_, ?_, ?_, ?_⟩
  · intro x l hx hl
    exact wick_of_split (P := fun x : HOp => x.index.1 < N) (φ := part A Finset.univ)
      (p := fun x => part A (killing occ x.creator)ᶜ x) (m := fun x => part A (killing occ x.creator) x)
      (s := fun x y => if h : x.index.1 < N ∧ y.index.1 < N then
        (if x.creator ≠ y.creator ∧ x.index.2 = y.index.2 then ∑ k ∈ killing occ x.creator ∩ Finset.univ,
          A x.creator ⟨x.index.1, h.1⟩ k * A y.creator ⟨y.index.1, h.2⟩ k else 0) else 0)
      (fun x _ => part_add A _ x) (fun x _ y => sea_left A occ x y) (fun x _ y => sea_right A occ x y) (sea_one occ)
      (fun x y hx hy => by rw [part_anticomm A _ _ x y hx hy, dif_pos ⟨hx, hy⟩]) x l hx hl
  · intro a b σ τ ha hb
    have := two ⟨true, (a, σ)⟩ ⟨false, (b, τ)⟩ ha hb
    simp only [killing, if_true] at this
    rw [hev ⟨a, ha⟩ ⟨b, hb⟩] at this
    simpa [CAROn.cr, CAROn.an] using this
  · intro x y hx hy
    have := two ⟨true, x⟩ ⟨true, y⟩ hx hy
    simpa [CAROn.cr, CAROn.an] using this
  · intro x y hx hy
    have := two ⟨false, x⟩ ⟨false, y⟩ hx hy
    simpa [CAROn.cr, CAROn.an] using this

end Sea

section Unitary
variable {N : ℕ} {u : Matrix (Fin N) (Fin N) ℂ} (occ : Finset (Fin N))

/-- Coefficient of orbital `k` in the operator at site `j`: `c†_j = Σ_k u_jk c†_k`, `c_j = Σ_k conj(u_jk) c_k`. -/
noncomputable def amp (u : Matrix (Fin N) (Fin N) ℂ) (cr : Bool) (j k : Fin N) : ℂ := if cr then u j k else conj (u j k)

theorem unitary_sum (hu : u * u.conjTranspose = 1) (i j : Fin N) :
    ∑ k, amp u true i k * amp u false j k = if i = j then 1 else 0 := by
  have := congrFun (congrFun hu i) j
  rw [Matrix.mul_apply, Matrix.one_apply] at this
  exact this

/-- The site operators of a unitary set of orbitals satisfy the CAR. -/
noncomputable def seaCAR (hu : u * u.conjTranspose = 1) : CAROn N (Module.End ℂ (Finset Mode → ℂ)) :=
  ampCAR (unitary_sum hu)

/-- C36 (the hypotheses are met): the Fermi sea of any unitary set of orbitals and any set of occupied orbitals (both
spins) is a quasi-free state, with the correlations `⟨c†_i c_j⟩ = Σ_{k occupied} u_ik conj(u_jk)`. -/
theorem fermiSea_quasiFree (hu : u * u.conjTranspose = 1) (ev : ℕ → ℕ → ℝ)
    (hev : ∀ i j : Fin N, ∑ k ∈ occ, u i k * conj (u j k) = (ev i j : ℂ)) :
    QuasiFree (seaCAR hu) (seaState occ) ev :=
  amp_quasiFree occ (unitary_sum hu) ev hev

end Unitary

/-- C36 (the hypotheses are met): for every table `ev` of correlations whatever there is a realisation of the CAR and a
quasi-free functional with these correlations. (It is an expectation value in a physical state, that is positive, only
if the eigenvalues of the table lie between 0 and 1.) -/
theorem quasiFree_exists (N : ℕ) (ev : ℕ → ℕ → ℝ) :
    ∃ (C : CAROn N (Module.End ℂ (Finset Mode → ℂ))) (ω : Module.End ℂ (Finset Mode → ℂ) →ₗ[ℂ] ℂ), QuasiFree C ω ev := by
  let A : Bool → Fin N → Fin (N + N) → ℂ := fun cr i => Fin.append
    (fun k => if cr then (ev i k : ℂ) else if i = k then 1 else 0)
    (fun k => if cr then (if i = k then 1 else 0) - (ev i k : ℂ) else if i = k then 1 else 0)
  have hA : ∀ i j, ∑ k, A true i k * A false j k = if i = j then 1 else 0 := by
    intro i j
    rw [Fin.sum_univ_add]
    simp only [A, Fin.append_left, Fin.append_right]
    simp
  refine ⟨ampCAR hA, seaState (Finset.univ.map (Fin.castAddEmb N)), amp_quasiFree _ hA ev fun i j => ?_⟩
  rw [Finset.sum_map]
  simp [A]

/-- Non-vacuity of C36 and C37: two sites, the bonding orbital `(1, 1)/√2` occupied (half filling), the correlations
are `1/2` everywhere; a complex vector; two threads with an interleaved execution. -/
example : ∃ (C : CAROn 2 (Module.End ℂ (Finset Mode → ℂ))) (ω : Module.End ℂ (Finset Mode → ℂ) →ₗ[ℂ] ℂ),
    QuasiFree C ω (fun _ _ => 1 / 2) := by
  have h2 : ((1 / Real.sqrt 2 : ℝ) : ℂ) * ((1 / Real.sqrt 2 : ℝ) : ℂ) = 1 / 2 := by
    rw [← Complex.ofReal_mul, div_mul_div_comm, one_mul, Real.mul_self_sqrt (by norm_num)]; norm_num
  let t : ℂ := ((1 / Real.sqrt 2 : ℝ) : ℂ)
  have ht : conj t = t := Complex.conj_ofReal _
  have htt : t * t = 1 / 2 := h2
  refine ⟨seaCAR (u := !![t, t; t, -t]) ?_, seaState {0}, fermiSea_quasiFree {0} _ _ ?_⟩
  · ext i j
    fin_cases i <;> fin_cases j <;> simp [Matrix.mul_apply, Fin.sum_univ_two, ht, htt] <;> norm_num
  · intro i j
    fin_cases i <;> fin_cases j <;> simp [ht, htt]

/-- The loops do have executions (here: one thread, program order). -/
theorem executes_sequential (pairs : List (ℕ × ℕ)) : Executes 1 pairs (pairs.map fun p => (0, p)) := by
  refine ⟨?_, ?_⟩
  · rw [List.map_map]; simp [Function.comp_def]
  · intro e he
    obtain ⟨p, _, rfl⟩ := List.mem_map.1 he
    simp

end Ieompp.RealSpace
