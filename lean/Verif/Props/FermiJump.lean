import Verif.Model.FermiJump
import Verif.Props.SiteOccupation
import Verif.Props.Slater

/-! # C38: the Fermi jump -/

set_option autoImplicit false
set_option linter.unusedSectionVars false

namespace Ieompp.RealSpace

open Ieompp.Spec ComplexConjugate
open MomentumSpace (vecAt opAt)

/-! ### Loops which fill a vector -/

theorem storeLoop_ok {τ : Type*} {f : ℕ → Res τ} {g : ℕ → τ} : ∀ (sched : List ℕ) (v : List τ),
    (∀ i ∈ sched, f i = .val (g i) ∧ i < v.length) →
    ∃ w, storeLoop f sched v = .val w ∧ w.length = v.length ∧
      ∀ i, w[i]? = if i ∈ sched ∧ i < v.length then some (g i) else v[i]? := by
  intro sched
  induction sched with
  | nil => intro v _; exact ⟨v, rfl, rfl, by simp⟩
  | cons a s ih =>
    intro v hv
    obtain ⟨h1, h2⟩ := hv a (by simp)
    obtain ⟨w, e1, e2, e3⟩ := ih (v.set a (g a)) (fun i hi => by
      simpa using hv i (by simp [hi]))
    refine ⟨w, ?_, by simpa using e2, ?_⟩
    · rw [← e1]
      unfold storeLoop
      rw [List.foldl_cons, Res.bind_val, h1, Res.bind_val, assignAt, if_pos h2]
    · intro i
      rw [e3 i, List.length_set]
      by_cases his : i ∈ s
      · by_cases hl : i < v.length
        · rw [if_pos ⟨his, hl⟩, if_pos ⟨by simp [his], hl⟩]
        · rw [if_neg (fun c => hl c.2), if_neg (fun c => hl c.2), List.getElem?_set]
          simp [hl]
          intro e; subst e; omega
      · rw [if_neg (fun c => his c.1), List.getElem?_set]
        by_cases ha : a = i
        · subst ha; rw [if_pos rfl, if_pos h2, if_pos ⟨by simp, h2⟩]
        · rw [if_neg ha, if_neg]
          rintro ⟨c, _⟩
          rcases List.mem_cons.1 c with c | c
          · exact ha c.symm
          · exact his c

theorem storeLoop_ub_of {τ : Type*} {f : ℕ → Res τ} (sched : List ℕ) :
    sched.foldl (fun (acc : Res (List τ)) i => acc.bind fun v => (f i).bind fun x => assignAt v i x) Res.ub = Res.ub := by
  induction sched with
  | nil => rfl
  | cons a s ih => rw [List.foldl_cons, Res.bind_ub, ih]

/-- Storing outside the vector is undefined behaviour, wherever in the execution it happens. -/
theorem storeLoop_ub {τ : Type*} {f : ℕ → Res τ} {g : ℕ → τ} : ∀ (sched : List ℕ) (v : List τ),
    (∀ i ∈ sched, f i = .val (g i)) → (∃ i ∈ sched, v.length ≤ i) → storeLoop f sched v = .ub := by
  intro sched
  induction sched with
  | nil => rintro v _ ⟨i, hi, _⟩; simp at hi
  | cons a s ih =>
    rintro v hv ⟨i, hi, hl⟩
    unfold storeLoop
    rw [List.foldl_cons, Res.bind_val, hv a (by simp), Res.bind_val, assignAt]
    by_cases ha : a < v.length
    · rw [if_pos ha]
      have his : i ∈ s := by
        rcases List.mem_cons.1 hi with rfl | h
        · omega
        · exact h
      exact ih (v.set a (g a)) (fun i hi => hv i (by simp [hi])) ⟨i, his, by simpa using hl⟩
    · rw [if_neg ha]; exact storeLoop_ub_of s

/-! ### Values -/

/-- The Fourier coefficients. -/
theorem jumpCtor_ok (N : ℕ) (phase : ℕ → ℝ) (sched : List ℕ) (hs : sched.Perm (List.range N)) :
    jumpCtor N phase sched = .val ((List.range N).map (phaseFactor phase)) := by
  obtain ⟨w, e1, e2, e3⟩ := storeLoop_ok (f := fun i => .val (phaseFactor phase i)) (g := phaseFactor phase) sched
    (List.replicate N 0) (fun i hi => ⟨rfl, by simpa using hs.mem_iff.1 hi⟩)
  rw [jumpCtor, e1]
  congr 1
  apply List.ext_getElem?
  intro i
  rw [e3 i]
  by_cases hi : i < N
  · rw [if_pos ⟨hs.mem_iff.2 (List.mem_range.2 hi), by simpa using hi⟩]; simp [hi]
  · rw [if_neg (fun c => hi (by simpa using c.2))]; simp [hi]

/-- C38 (constructor): for every number of sites above zero and every execution of the loop, the constructors which
only `reserve` (the one-operator basis in `FermiJump1D`, and both `FermiJump1D_NO`) write outside the vector. -/
theorem fermiJump_reserve_ub (N : ℕ) (hN : 0 < N) (phase : ℕ → ℝ) (sched : List ℕ) (hs : sched.Perm (List.range N)) :
    jumpCtorReserve phase sched = .ub :=
  storeLoop_ub (g := phaseFactor phase) sched [] (fun _ _ => rfl)
    ⟨0, hs.mem_iff.2 (List.mem_range.2 hN), by simp⟩

/-- The normal-ordered coefficient of `c†_i`: `h_i + Σ_jk (2 ⟨c†_j c_k⟩ - δ_jk) h_ijk`. -/
noncomputable def Spec.normalOrdered (ev : ℕ → ℕ → ℝ) (N : ℕ) (h : List ℂ) (i : ℕ) : ℂ :=
  h.getD i 0 + ∑ j ∈ Finset.range N, ∑ k ∈ Finset.range N,
    (((2 * ev j k - if j = k then 1 else 0 : ℝ)) : ℂ) * h.getD (N + N * N * i + N * j + k) 0

theorem foldl_sum {α : Type*} (step : ℂ → α → Res ℂ) (g : α → ℂ) : ∀ (l : List α) (x : ℂ),
    (∀ a ∈ l, ∀ x, step x a = .val (x + g a)) →
    l.foldl (fun (acc : Res ℂ) a => acc.bind fun x => step x a) (Res.val x) = Res.val (x + (l.map g).sum) := by
  intro l
  induction l with
  | nil => intro x _; simp
  | cons a l ih =>
    intro x h
    rw [List.foldl_cons, Res.bind_val, h a (by simp), ih _ (fun b hb => h b (by simp [hb])), List.map_cons, List.sum_cons,
      add_assoc]

theorem hNoValue_ok {N : ℕ} (ev : ℕ → ℕ → ℝ) (h : List ℂ) (hh : h.length = (basis3 N).length) {i : ℕ} (hi : i < N) :
    hNoValue (siteEv ev) (basis3 N) N h i = .val (Spec.normalOrdered ev N h i) := by
  have hlen : h.length = N + N * N * N := by rw [hh, (realBasis_size N).2]
  have hlt : ∀ j < N, ∀ k < N, get3opIndex N i j k < h.length := by
    intro j hj k hk
    rw [hlen]; exact ((realBasis_index_bijective N).1 i j k hi hj hk).2
  unfold hNoValue
  rw [getD_val (by omega)]
  refine (foldl_sum _ (fun jk : ℕ × ℕ => (((2 * ev jk.1 jk.2 - if jk.1 = jk.2 then 1 else 0 : ℝ)) : ℂ) *
    h.getD (get3opIndex N i jk.1 jk.2) 0) _ _ ?_).trans ?_
  · rintro ⟨j, k⟩ hjk x
    have hj : j < N ∧ k < N := by
      simp only [List.mem_flatMap, List.mem_map, List.mem_range, Prod.mk.injEq] at hjk
      obtain ⟨j', h1, k', h2, rfl, rfl⟩ := hjk
      exact ⟨h1, h2⟩
    have o1 : opAt (basis3 N) j 0 = .val ⟨true, (j, true)⟩ := by
      rw [opAt, vecAt_get (one_cases hj.1)]; rfl
    have o2 : opAt (basis3 N) k 0 = .val ⟨true, (k, true)⟩ := by
      rw [opAt, vecAt_get (one_cases hj.2)]; rfl
    simp only [o1, o2, Res.bind_val, getD_val (hlt j hj.1 k hj.2), siteEv]
    congr 3
    split <;> simp
  · congr 2
    rw [List.map_flatMap, sum_flatMap, ← List.sum_toFinset _ List.nodup_range]
    simp only [List.toFinset_range]
    refine Finset.sum_congr rfl fun j _ => ?_
    rw [List.map_map, ← List.sum_toFinset _ List.nodup_range]
    simp only [List.toFinset_range]
    rfl

/-- The statements of the final loop. -/
def jumpPairs (N : ℕ) : List (ℕ × ℕ) := (List.range N).map fun i => (i, 0)

theorem jumpSum_ok {N : ℕ} {f v : List ℂ} (hf : N ≤ f.length) (hv : N ≤ v.length) {threads : ℕ} {s : List Event}
    (h : Executes threads (jumpPairs N) s) :
    jumpSum f v threads s = .val (Complex.normSq (∑ i ∈ Finset.range N, f.getD i 0 * v.getD i 0)) := by
  obtain ⟨r, h1, _, h3⟩ := runLoop_executes (g := fun i _ => f.getD i 0 * v.getD i 0)
    (body := fun i _ => (vecAt f i).bind fun fi => (vecAt v i).bind fun vi => .val (fi * vi)) h
    (List.replicate threads 0) (by simp) (by
      intro p hp
      simp only [jumpPairs, List.mem_map, List.mem_range] at hp
      obtain ⟨i, hi, rfl⟩ := hp
      simp only [getD_val (show i < f.length by omega), getD_val (show i < v.length by omega), Res.bind_val])
  rw [jumpSum, h1, Res.map_val, h3]
  congr 2
  rw [jumpPairs, List.map_map, ← List.sum_toFinset _ List.nodup_range]
  simp only [List.toFinset_range]
  simp

/-- The value the Fermi jump should have: `|Σ_i e^{i k_F r_i} h^NO_i|²`. -/
noncomputable def Spec.jump (ev : ℕ → ℕ → ℝ) (N : ℕ) (phase : ℕ → ℝ) (h : List ℂ) : ℝ :=
  Complex.normSq (∑ i ∈ Finset.range N, ⟨Real.cos (phase i), Real.sin (phase i)⟩ * Spec.normalOrdered ev N h i)

/-- A call as the language runtime can execute it: every iteration once, by existing threads, in any order, on a vector
of the size of the basis. -/
structure JumpCall.Legal (c : JumpCall) : Prop where
  h : c.h.length = (basis3 c.N).length
  sched0 : c.sched0.Perm (List.range c.N)
  sched1 : c.sched1.Perm (List.range c.N)
  sched2 : Executes c.threads (jumpPairs c.N) c.sched2

theorem jumpCall_ok (ev : ℕ → ℕ → ℝ) {c : JumpCall} (hc : c.Legal) (st : Option (List ℂ))
    (hst : ∀ v ∈ st, c.N ≤ v.length) :
    ∃ w, jumpCall (siteEv ev) (basis3 c.N) c.N ((List.range c.N).map (phaseFactor c.phase)) c.h c.threads c.sched1
      c.sched2 st = .val (some w, Spec.jump ev c.N c.phase c.h) ∧
      w.length = (st.map List.length).getD c.N := by
  have hlen : c.N ≤ (st.getD (List.replicate c.N 0)).length := by
    cases st with
    | none => simp
    | some v => exact hst v rfl
  obtain ⟨w, e1, e2, e3⟩ := storeLoop_ok (f := hNoValue (siteEv ev) (basis3 c.N) c.N c.h)
    (g := Spec.normalOrdered ev c.N c.h) c.sched1 (st.getD (List.replicate c.N 0)) (fun i hi => by
      have hi' : i < c.N := by simpa using hc.sched1.mem_iff.1 hi
      exact ⟨hNoValue_ok ev c.h hc.h hi', by omega⟩)
  refine ⟨w, ?_, ?_⟩
  · unfold jumpCall
    simp only
    rw [e1, Res.bind_val, jumpSum_ok (by simp) (by omega) hc.sched2, Res.map_val]
    congr 2
    unfold Spec.jump
    congr 1
    refine Finset.sum_congr rfl fun i hi => ?_
    rw [Finset.mem_range] at hi
    have h1 : w.getD i 0 = Spec.normalOrdered ev c.N c.h i := by
      rw [List.getD_eq_getElem?_getD, e3 i, if_pos ⟨hc.sched1.mem_iff.2 (List.mem_range.2 hi), by omega⟩]; rfl
    rw [h1]
    congr 1
    simp [List.getD_eq_getElem?_getD, hi, phaseFactor]
  · rw [e2]
    cases st <;> simp

theorem jumpCall_ub (ev : ℕ → ℕ → ℝ) {c : JumpCall} (hc : c.Legal) (v f : List ℂ) (hv : v.length < c.N) :
    jumpCall (siteEv ev) (basis3 c.N) c.N f c.h c.threads c.sched1 c.sched2 (some v) = .ub := by
  unfold jumpCall
  simp only [Option.getD_some]
  rw [storeLoop_ub (g := Spec.normalOrdered ev c.N c.h) c.sched1 v (fun i hi => hNoValue_ok ev c.h hc.h (by
    simpa using hc.sched1.mem_iff.1 hi)) ⟨c.N - 1, hc.sched1.mem_iff.2 (List.mem_range.2 (by omega)), by omega⟩]
  rfl

theorem jumpRun_some (ev : ℕ → ℕ → ℝ) : ∀ (cs : List JumpCall) (v : List ℂ), (∀ c ∈ cs, c.Legal) →
    ((∀ c ∈ cs, c.N ≤ v.length) →
      jumpRun (siteEv ev) cs (some v) = .val (cs.map fun c => Spec.jump ev c.N c.phase c.h)) ∧
    ((∃ c ∈ cs, v.length < c.N) → jumpRun (siteEv ev) cs (some v) = .ub) := by
  intro cs
  induction cs with
  | nil => intro v _; exact ⟨fun _ => rfl, by rintro ⟨c, hc, _⟩; simp at hc⟩
  | cons c cs ih =>
    intro v hl
    have hc := hl c (by simp)
    by_cases hN : c.N ≤ v.length
    · obtain ⟨w, e, hw⟩ := jumpCall_ok ev hc (some v) (by rintro _ ⟨⟩; exact hN)
      have hw' : w.length = v.length := by simpa using hw
      obtain ⟨i1, i2⟩ := ih w (fun c hc => hl c (by simp [hc]))
      constructor
      · intro h
        rw [jumpRun, jumpCtor_ok _ _ _ hc.sched0, Res.bind_val, e, Res.bind_val]
        simp only
        rw [i1 (fun c hc => by rw [hw']; exact h c (by simp [hc]))]
        rfl
      · rintro ⟨c', hc', h⟩
        rw [jumpRun, jumpCtor_ok _ _ _ hc.sched0, Res.bind_val, e, Res.bind_val]
        simp only
        rw [i2 ⟨c', ?_, by rw [hw']; exact h⟩]
        · rfl
        · rcases List.mem_cons.1 hc' with rfl | h'
          · omega
          · exact h'
    · constructor
      · intro h; exact absurd (h c (by simp)) hN
      · intro _
        rw [jumpRun, jumpCtor_ok _ _ _ hc.sched0, Res.bind_val, jumpCall_ub ev hc v _ (by omega)]
        rfl

/-- C38 (three-operator basis, every history): in a process which evaluates Fermi jumps one after the other, all
evaluations succeed and give `|Σ_i e^{i k_F r_i} h^NO_i|²` when no system has more sites than the first one; as soon
as a later system is larger than the first one, the process writes outside the static work vector. -/
theorem fermiJump_history_partial (ev : ℕ → ℕ → ℝ) (first : JumpCall) (later : List JumpCall)
    (hl : ∀ c ∈ first :: later, c.Legal) :
    ((∀ c ∈ later, c.N ≤ first.N) → jumpRun (siteEv ev) (first :: later) none =
      .val ((first :: later).map fun c => Spec.jump ev c.N c.phase c.h)) ∧
    ((∃ c ∈ later, first.N < c.N) → jumpRun (siteEv ev) (first :: later) none = .ub) := by
  have hc := hl first (by simp)
  obtain ⟨w, e, hw⟩ := jumpCall_ok ev hc none (by simp)
  have hw' : w.length = first.N := by simpa using hw
  obtain ⟨i1, i2⟩ := jumpRun_some ev later w (fun c hc => hl c (by simp [hc]))
  constructor
  · intro h
    rw [jumpRun, jumpCtor_ok _ _ _ hc.sched0, Res.bind_val, e, Res.bind_val]
    simp only
    rw [i1 (by rw [hw']; exact h)]
    rfl
  · intro h
    rw [jumpRun, jumpCtor_ok _ _ _ hc.sched0, Res.bind_val, e, Res.bind_val]
    simp only
    rw [i2 (by rw [hw']; exact h)]
    rfl

/-- C38: the value is never negative; with the initial vector `h = (1, 0, 0, ...)` it is 1. -/
theorem fermiJump_nonneg (ev : ℕ → ℕ → ℝ) (N : ℕ) (phase : ℕ → ℝ) (h : List ℂ) : 0 ≤ Spec.jump ev N phase h :=
  Complex.normSq_nonneg _

theorem fermiJump_initial (ev : ℕ → ℕ → ℝ) (N : ℕ) (hN : 0 < N) (phase : ℕ → ℝ) (M : ℕ) :
    Spec.jump ev N phase (1 :: List.replicate M 0) = 1 := by
  have hget : ∀ p, 0 < p → (1 :: List.replicate M (0 : ℂ)).getD p 0 = 0 := by
    intro p hp
    obtain ⟨q, rfl⟩ := Nat.exists_eq_succ_of_ne_zero (by omega : p ≠ 0)
    simp [List.getD_eq_getElem?_getD, List.getElem?_replicate]
    split <;> simp
  have hno : ∀ i, Spec.normalOrdered ev N (1 :: List.replicate M 0) i = if i = 0 then 1 else 0 := by
    intro i
    unfold Spec.normalOrdered
    rw [Finset.sum_eq_zero (fun j _ => Finset.sum_eq_zero fun k _ => by rw [hget _ (by omega), mul_zero]), add_zero]
    split
    · rename_i e; subst e; rfl
    · exact hget i (by omega)
  unfold Spec.jump
  rw [Finset.sum_eq_single 0]
  · rw [hno 0, if_pos rfl, mul_one, Complex.normSq_mk, ← sq, ← sq, Real.cos_sq_add_sin_sq]
  · intro i _ hi; rw [hno i, if_neg hi, mul_zero]
  · intro h; exact absurd (Finset.mem_range.2 hN) h

/-- C38 (meaning of the normal-ordered coefficients): in every quasi-free state, contracting the operator
`Σ_p h_p A_p` with an annihilator gives the same as contracting its one-operator part `Σ_i h^NO_i c†_i`. -/
theorem fermiJump_normalOrdered {N : ℕ} {R : Type*} [Ring R] [Algebra ℂ R] {C : CAROn N R} {ω : R →ₗ[ℂ] ℂ}
    {ev : ℕ → ℕ → ℝ} (Q : QuasiFree C ω ev) (h : List ℂ) (hh : h.length = (basis3 N).length) (m : ℕ) (hm : m < N) :
    ω (C.combination (basis3 N) h * C.an (m, true)) =
      ω ((∑ i ∈ Finset.range N, Spec.normalOrdered ev N h i • C.cr (i, true)) * C.an (m, true)) := by
  have hlen : h.length = N + N * N * N := by rw [hh, (realBasis_size N).2]
  unfold CAROn.combination
  rw [Finset.sum_mul, Finset.sum_mul, map_sum, map_sum, hlen, Finset.sum_range_add]
  have hop1 : ∀ i < N, C.basisOp (basis3 N) i = C.cr (i, true) := by
    intro i hi; rw [CAROn.basisOp, one_cases hi]; rfl
  have hop3 : ∀ a < N, ∀ b < N, ∀ c < N, ω (C.basisOp (basis3 N) (get3opIndex N a b c) * C.an (m, true)) =
      (((2 * ev b c - if b = c then 1 else 0 : ℝ)) : ℂ) * ω (C.cr (a, true) * C.an (m, true)) := by
    intro a ha b hb c hc
    have hadj : C.an (m, true) = C.basisOpAdj (basis3 N) m := by rw [CAROn.basisOpAdj, one_cases hm]; rfl
    obtain ⟨E, e, _, hE⟩ := coef_31 Q (basis := basis3 N) hm ha hb hc ((realBasis_getElem N).2 a b c ha hb hc)
      (one_cases hm)
    rw [hadj, hE, e, ← hadj, state_11 Q ha hm]
    push_cast; rfl
  have three : ∑ x ∈ Finset.range (N * N * N), ω (h.getD (N + x) 0 • C.basisOp (basis3 N) (N + x) * C.an (m, true)) =
      ∑ a ∈ Finset.range N, ∑ b ∈ Finset.range N, ∑ c ∈ Finset.range N,
        h.getD (get3opIndex N a b c) 0 * ((((2 * ev b c - if b = c then 1 else 0 : ℝ)) : ℂ) *
          ω (C.cr (a, true) * C.an (m, true))) := by
    rw [← Finset.sum_product', ← Finset.sum_product']
    symm
    refine Finset.sum_bij (fun x _ => get3opIndex N x.1.1 x.1.2 x.2 - N) ?_ ?_ ?_ ?_
    · rintro ⟨⟨a, b⟩, c⟩ hx
      simp only [Finset.mem_product, Finset.mem_range] at hx ⊢
      have := (realBasis_index_bijective N).1 a b c hx.1.1 hx.1.2 hx.2
      omega
    · rintro ⟨⟨a, b⟩, c⟩ hx ⟨⟨a', b'⟩, c'⟩ hx' e
      simp only [Finset.mem_product, Finset.mem_range] at hx hx' e
      have h1 := (realBasis_index_bijective N).1 a b c hx.1.1 hx.1.2 hx.2
      have h2 := (realBasis_index_bijective N).1 a' b' c' hx'.1.1 hx'.1.2 hx'.2
      have := (realBasis_index_bijective N).2.2 a b c a' b' c' hx.1.1 hx.1.2 hx.2 hx'.1.1 hx'.1.2 hx'.2 (by omega)
      obtain ⟨rfl, rfl, rfl⟩ := this; rfl
    · intro x hx
      obtain ⟨a, b, c, ha, hb, hc, e⟩ := (realBasis_index_bijective N).2.1 (N + x) (by omega)
        (by have := Finset.mem_range.1 hx; omega)
      exact ⟨((a, b), c), by simp [ha, hb, hc], by simp only [← e]; omega⟩
    · rintro ⟨⟨a, b⟩, c⟩ hx
      simp only [Finset.mem_product, Finset.mem_range] at hx
      have h1 := (realBasis_index_bijective N).1 a b c hx.1.1 hx.1.2 hx.2
      have e : N + (get3opIndex N a b c - N) = get3opIndex N a b c := by omega
      simp only [e]
      rw [smul_mul_assoc, map_smul, smul_eq_mul, hop3 a hx.1.1 b hx.1.2 c hx.2]
  rw [three, ← Finset.sum_add_distrib]
  refine Finset.sum_congr rfl fun i hi => ?_
  rw [Finset.mem_range] at hi
  rw [hop1 i hi, smul_mul_assoc, smul_mul_assoc, map_smul, map_smul, smul_eq_mul, smul_eq_mul, Spec.normalOrdered, add_mul,
    Finset.sum_mul]
  congr 1
  refine Finset.sum_congr rfl fun j _ => ?_
  rw [Finset.sum_mul]
  refine Finset.sum_congr rfl fun k _ => ?_
  unfold get3opIndex
  ring

/-- The results of the one-operator `operator()` and of the `_NO` variants on coefficients that do exist. -/
theorem fermiJump_plain {N : ℕ} {f h : List ℂ} (hf : f.length = N) (hh : N ≤ h.length) {threads : ℕ} {s : List Event}
    (hs : Executes threads (jumpPairs N) s) :
    jumpSum f h threads s = .val (Complex.normSq (∑ i ∈ Finset.range N, f.getD i 0 * h.getD i 0)) :=
  jumpSum_ok (by omega) hh hs

/-- Non-vacuity: a history with a system of two sites and then one of three sites, both legal, is undefined. -/
example (ev : ℕ → ℕ → ℝ) : ∃ a b : JumpCall, a.Legal ∧ b.Legal ∧ jumpRun (siteEv ev) [a, b] none = .ub ∧
    ∃ r, jumpRun (siteEv ev) [b, a] none = .val r := by
  let mk : ℕ → JumpCall := fun N => ⟨N, fun _ => 0, List.replicate (N + N * N * N) 1, 1, List.range N, List.range N,
    (jumpPairs N).map fun p => (0, p)⟩
  have hmk : ∀ N, (mk N).Legal := fun N => ⟨by simp [mk, (realBasis_size N).2], List.Perm.refl _, List.Perm.refl _,
    executes_sequential _⟩
  refine ⟨mk 2, mk 3, hmk 2, hmk 3, (fermiJump_history_partial ev (mk 2) [mk 3] ?_).2 ⟨mk 3, by simp, by decide⟩,
    _, (fermiJump_history_partial ev (mk 3) [mk 2] ?_).1 ?_⟩
  · simp [hmk]
  · simp [hmk]
  · intro c hc; rw [List.mem_singleton.1 hc]; decide

end Ieompp.RealSpace
