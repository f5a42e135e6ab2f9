import Verif.Model.ExtendedOccupation
import Verif.Props.ExtendedRuns
import Verif.Props.Program
import Verif.Props.Assertions

/-! # C133: the site occupation with infinities and NaN -/

set_option autoImplicit false
set_option linter.unusedSectionVars false

namespace Ieompp.RealSpace

open Ieompp.Spec
open MomentumSpace (vecAt)
open ExtC (NN)

variable {rnd : ℝ → Res ℝ} {sinF : ℝ → ℝ}

/-! ### Sums with a NaN -/

theorem div_nan_left (x : Ext) : Ext.div rnd .nan x = .nan := by cases x <;> rfl

/-- One of the partial sums is NaN. -/
def HasNan (results : List ExtC) : Prop := ∃ r ∈ results, r.re = .nan

theorem addToX_val {results : List ExtC} {thread : ℕ} (ht : thread < results.length) (x : ExtC) :
    ∃ r, addToX rnd results thread x = .val r ∧ r.length = results.length ∧ (HasNan results ∨ x.re = .nan → HasNan r) := by
  have e : vecAt results thread = .val results[thread] := vecAt_get (List.getElem?_eq_getElem ht)
  refine ⟨results.set thread (ExtC.add rnd results[thread] x), by rw [addToX, e]; rfl, by simp, ?_⟩
  rintro (⟨r, hr, hn⟩ | hx)
  · obtain ⟨j, hj, rfl⟩ := List.mem_iff_getElem.1 hr
    by_cases h : thread = j
    · subst h
      refine ⟨_, List.mem_set ht _, ?_⟩
      show Ext.add rnd _ _ = _
      rw [hn, Ext.add_nan_left]
    · refine ⟨results[j], ?_, hn⟩
      refine List.mem_iff_getElem.2 ⟨j, by simpa using hj, ?_⟩
      rw [List.getElem_set_ne h]
  · refine ⟨_, List.mem_set ht _, ?_⟩
    show Ext.add rnd _ _ = _
    rw [hx, Ext.add_nan_right]

theorem runLoopX_val {body : ℕ → ℕ → Res ExtC} : ∀ {sched : List Event} {results : List ExtC}
    (_ : ∀ e ∈ sched, e.1 < results.length ∧ ∃ x, body e.2.1 e.2.2 = .val x),
    ∃ r, runLoopX rnd body sched results = .val r ∧ r.length = results.length ∧
      ((HasNan results ∨ ∃ e ∈ sched, ∀ x, body e.2.1 e.2.2 = .val x → x.re = .nan) → HasNan r) := by
  intro sched
  induction sched with
  | nil => intro results _; exact ⟨results, rfl, rfl, by rintro (h | ⟨e, he, -⟩); exacts [h, absurd he (by simp)]⟩
  | cons e s ih =>
    intro results h
    obtain ⟨ht, x, hx⟩ := h e (by simp)
    obtain ⟨r, e1, l1, n1⟩ := addToX_val (rnd := rnd) ht x
    obtain ⟨r', e2, l2, n2⟩ := ih (results := r) (fun e' he' => by rw [l1]; exact h e' (by simp [he']))
    refine ⟨r', ?_, l2.trans l1, ?_⟩
    · unfold runLoopX at e2 ⊢
      rw [List.foldl_cons]
      simp only [Res.bind_val, hx, e1]
      exact e2
    · rintro (hn | ⟨e', he', hn⟩)
      · exact n2 (Or.inl (n1 (Or.inl hn)))
      · rcases List.mem_cons.1 he' with rfl | he'
        · exact n2 (Or.inl (n1 (Or.inr (hn x hx))))
        · exact n2 (Or.inr ⟨e', he', hn⟩)

theorem accumulate_nan {results : List ExtC} (h : HasNan results) : (accumulateX rnd results).re = .nan := by
  obtain ⟨r, hr, hn⟩ := h
  obtain ⟨l, l', rfl⟩ := List.append_of_mem hr
  have stay : ∀ (l : List ExtC) (a : ExtC), a.re = .nan → (l.foldl (ExtC.add rnd) a).re = .nan := by
    intro l
    induction l with
    | nil => intro a ha; exact ha
    | cons b l ih =>
      intro a ha
      refine ih _ ?_
      show Ext.add rnd _ _ = _
      rw [ha, Ext.add_nan_left]
  unfold accumulateX
  rw [List.foldl_append, List.foldl_cons]
  refine stay _ _ ?_
  show Ext.add rnd _ _ = _
  rw [hn, Ext.add_nan_right]

/-- Several loops: the result is defined, and NaN if one of the terms is. -/
theorem runLoopsX_val : ∀ {loops : List ((ℕ → ℕ → Res ExtC) × List Event)} {results : List ExtC}
    (_ : ∀ l ∈ loops, ∀ e ∈ l.2, e.1 < results.length ∧ ∃ x, l.1 e.2.1 e.2.2 = .val x),
    ∃ r, runLoopsX rnd loops results = .val r ∧
      ((HasNan results ∨ ∃ l ∈ loops, ∃ e ∈ l.2, ∀ x, l.1 e.2.1 e.2.2 = .val x → x.re = .nan) → HasNan r) := by
  intro loops
  induction loops with
  | nil => intro results _; exact ⟨results, rfl, by rintro (h | ⟨e, he, -⟩); exacts [h, absurd he (by simp)]⟩
  | cons l ls ih =>
    intro results h
    obtain ⟨r, e1, l1, n1⟩ := runLoopX_val (rnd := rnd) (h l (by simp))
    obtain ⟨r', e2, n2⟩ := ih (results := r) (fun l' hl' e he => by rw [l1]; exact h l' (by simp [hl']) e he)
    refine ⟨r', by unfold runLoopsX; rw [e1]; exact e2, ?_⟩
    rintro (hn | ⟨l', hl', hn⟩)
    · exact n2 (Or.inl (n1 (Or.inl hn)))
    · rcases List.mem_cons.1 hl' with rfl | hl'
      · exact n2 (Or.inl (n1 (Or.inr hn)))
      · exact n2 (Or.inr ⟨l', hl', hn⟩)

theorem siteOccupationX_val {loops : List ((ℕ → ℕ → Res ExtC) × List Event)} {threads : ℕ}
    (h : ∀ l ∈ loops, ∀ e ∈ l.2, e.1 < threads ∧ ∃ x, l.1 e.2.1 e.2.2 = .val x) :
    ∃ x, siteOccupationX rnd loops threads = .val x ∧
      ((∃ l ∈ loops, ∃ e ∈ l.2, ∀ x, l.1 e.2.1 e.2.2 = .val x → x.re = .nan) → x = .nan) := by
  obtain ⟨r, e, hn⟩ := runLoopsX_val (rnd := rnd) (loops := loops) (results := List.replicate threads ExtC.zero) (by simpa using h)
  exact ⟨(accumulateX rnd r).re, by unfold siteOccupationX; rw [e]; rfl, fun hx => accumulate_nan (hn (Or.inr hx))⟩

/-! ### The expectation values are defined -/

variable {N : ℕ} {ev : HOp → HOp → Res Ext}

/-- The correlation function is defined on the sites of the lattice. -/
def Defined (N : ℕ) (ev : HOp → HOp → Res Ext) : Prop := ∀ a b : HOp, a.index.1 < N → b.index.1 < N → ∃ x, ev a b = .val x

theorem ev11X_val (hev : Defined N ev) {i j : ℕ} (hi : i < N) (hj : j < N) :
    ∃ x, ev ⟨true, (i, true)⟩ ⟨false, (j, true)⟩ = .val x ∧ ev11X rnd ev (Spec.one i) (Monomial.conjugate (Spec.one j)) = .val (Ext.mul rnd (.fin 2) x) := by
  obtain ⟨x, e⟩ := hev ⟨true, (i, true)⟩ ⟨false, (j, true)⟩ hi hj
  exact ⟨x, e, by simp [ev11X, Spec.one, Monomial.conjugate, Op.conjugate, vecAt, e]⟩

theorem ev13X_val (hev : Defined N ev) {i a b c : ℕ} (hi : i < N) (ha : a < N) (hb : b < N) (hc : c < N) :
    ∃ x, ev13X rnd ev (Spec.one i) (Monomial.conjugate (Spec.three a b c)) = .val x := by
  obtain ⟨x, e⟩ := hev ⟨true, (c, false)⟩ ⟨false, (b, false)⟩ hc hb
  obtain ⟨y, e'⟩ := hev ⟨true, (i, true)⟩ ⟨false, (a, true)⟩ hi ha
  exact ⟨_, by simp [ev13X, Spec.one, Spec.three, Monomial.conjugate, Op.conjugate, vecAt, e, e']; rfl⟩

theorem ev33X_val (hev : Defined N ev) {a b c a' b' c' : ℕ} (ha : a < N) (hb : b < N) (hc : c < N) (ha' : a' < N) (hb' : b' < N) (hc' : c' < N) :
    ∃ x, ev33X rnd ev (Spec.three a b c) (Monomial.conjugate (Spec.three a' b' c')) = .val x := by
  obtain ⟨x1, e1⟩ := hev ⟨true, (a, true)⟩ ⟨false, (a', true)⟩ ha ha'
  obtain ⟨x2, e2⟩ := hev ⟨true, (b, false)⟩ ⟨false, (c, false)⟩ hb hc
  obtain ⟨x3, e3⟩ := hev ⟨true, (c', false)⟩ ⟨false, (b', false)⟩ hc' hb'
  obtain ⟨x4, e4⟩ := hev ⟨true, (b, false)⟩ ⟨false, (b', false)⟩ hb hb'
  obtain ⟨x5, e5⟩ := hev ⟨true, (c', false)⟩ ⟨false, (c, false)⟩ hc' hc
  exact ⟨_, by simp [ev33X, Spec.three, Monomial.conjugate, Op.conjugate, vecAt, e1, e2, e3, e4, e5]; rfl⟩

/-! ### The terms -/

variable {basis conj : List HMonomial} {vec : List ExtC} {f : HMonomial → HMonomial → Res Ext}

theorem vecAt_lt {τ : Type*} {v : List τ} {i : ℕ} (h : i < v.length) : vecAt v i = .val v[i] := vecAt_get (List.getElem?_eq_getElem h)

theorem fullTermX_val {i j : ℕ} {x : Ext} (he : evAtX basis conj f i j = .val x) (hi : i < vec.length) (hj : j < vec.length) :
    ∃ z, fullTermX rnd basis conj vec f i j = .val z ∧ (x = .nan → z.re = .nan) ∧ (vec[i] = NN → z.re = .nan) := by
  refine ⟨_, by rw [fullTermX, he, Res.bind_val, vecAt_lt hi, Res.bind_val, vecAt_lt hj]; rfl, ?_, ?_⟩
  · rintro rfl
    simp only [ExtC.scale, Ext.mul_nan_left, div_nan_left]
  · intro h
    simp only [ExtC.scale, multiplyWithConjugateX, h, NN, Ext.mul_nan_left, Ext.add_nan_left, Ext.mul_nan_right, div_nan_left]

theorem symTermX_val {i j : ℕ} {x : Ext} (he : evAtX basis conj f i j = .val x) (hi : i < vec.length) (hj : j < vec.length) :
    ∃ z, symTermX rnd basis conj vec f i j = .val z ∧ (x = .nan → z.re = .nan) := by
  refine ⟨_, by rw [symTermX, he, Res.bind_val, vecAt_lt hi, Res.bind_val, vecAt_lt hj]; rfl, ?_⟩
  rintro rfl
  simp only [Ext.mul_nan_left, div_nan_left]

theorem triTermX_val {i j : ℕ} {x : Ext} (he : evAtX basis conj f i j = .val x) (hi : i < vec.length) (hj : j < vec.length) :
    ∃ z, triTermX rnd basis conj vec f i j = .val z ∧ (x = .nan → z.re = .nan) ∧ (j = i → vec[i] = NN → z.re = .nan) := by
  unfold triTermX
  by_cases h : j = i
  · subst h
    rw [if_pos rfl]
    refine ⟨_, by rw [diagTermX, he, Res.bind_val, vecAt_lt hi]; rfl, ?_, fun _ h => ?_⟩
    · rintro rfl
      simp only [Ext.mul_nan_left, div_nan_left]
    · simp only [normX, h, NN, Ext.mul_nan_left, Ext.add_nan_left, Ext.mul_nan_right, div_nan_left]
  · rw [if_neg h]
    obtain ⟨z, e1, e2⟩ := symTermX_val (rnd := rnd) he hi hj
    exact ⟨z, e1, e2, fun h' => absurd h' h⟩

/-! ### The site occupation -/

/-- The site occupation with three operators is defined, and NaN if the vector consists of NaN or the correlation of two sites is NaN. -/
theorem siteOccupation3X_val (hN : 2 ≤ N) (hev : Defined N ev) (hvec : vec.length = N + N * N * N) {threads : ℕ} {s1 s2 s3 : List Event}
    (h1 : Executes threads (loopA true N) s1) (h2 : Executes threads (loopB N (basis3 N).length) s2)
    (h3 : Executes threads (loopC true N (basis3 N).length) s3) :
    ∃ x, siteOccupation3X rnd ev (basis3 N) (conjOf (basis3 N)) vec threads s1 s2 s3 = .val x ∧
      (vec = List.replicate (N + N * N * N) NN → x = .nan) ∧ (ev ⟨true, (1, true)⟩ ⟨false, (0, true)⟩ = .val .nan → x = .nan) := by
  have hlen : (basis3 N).length = N + N * N * N := (realBasis_size N).2
  rw [hlen] at h2 h3
  have hle : N ≤ N + N * N * N := Nat.le_add_right _ _
  have one : ∀ i, i < N → vecAt (basis3 N) i = .val (Spec.one i) ∧ vecAt (conjOf (basis3 N)) i = .val (Monomial.conjugate (Spec.one i)) := fun i hi =>
    ⟨vecAt_get ((realBasis_getElem N).1 i hi).2, vecAt_get (conj_get ((realBasis_getElem N).1 i hi).2)⟩
  have three : ∀ p, N ≤ p → p < N + N * N * N → ∃ a b c, a < N ∧ b < N ∧ c < N ∧ vecAt (basis3 N) p = .val (Spec.three a b c) ∧
      vecAt (conjOf (basis3 N)) p = .val (Monomial.conjugate (Spec.three a b c)) := by
    intro p hp hp'
    rcases basis3_cases hp' with ⟨i, rfl, hi, -⟩ | ⟨a, b, c, -, ha, hb, hc, e⟩
    · omega
    · exact ⟨a, b, c, ha, hb, hc, vecAt_get e, vecAt_get (conj_get e)⟩
  have t1 : ∀ i j, i < N → j < N → ∃ x, ev ⟨true, (i, true)⟩ ⟨false, (j, true)⟩ = .val x ∧
      evAtX (basis3 N) (conjOf (basis3 N)) (ev11X rnd ev) i j = .val (Ext.mul rnd (.fin 2) x) := by
    intro i j hi hj
    obtain ⟨x, e1, e2⟩ := ev11X_val (rnd := rnd) hev hi hj
    exact ⟨x, e1, by rw [evAtX, (one i hi).1, Res.bind_val, (one j hj).2]; exact e2⟩
  have d1 : ∀ i j, i < N → j < N → ∃ x, evAtX (basis3 N) (conjOf (basis3 N)) (ev11X rnd ev) i j = .val x := fun i j hi hj => by
    obtain ⟨x, -, e⟩ := t1 i j hi hj
    exact ⟨_, e⟩
  obtain ⟨x, e, hn⟩ := siteOccupationX_val (rnd := rnd)
    (loops := [(triTermX rnd (basis3 N) (conjOf (basis3 N)) vec (ev11X rnd ev), s1), (symTermX rnd (basis3 N) (conjOf (basis3 N)) vec (ev13X rnd ev), s2),
      (triTermX rnd (basis3 N) (conjOf (basis3 N)) vec (ev33X rnd ev), s3)]) (threads := threads) (by
    intro l hl ev' he
    simp only [List.mem_cons, List.not_mem_nil, or_false] at hl
    rcases hl with rfl | rfl | rfl
    · obtain ⟨p1, p2, p3⟩ := (mem_pairsTri (Nat.zero_le N)).1 (h1.mem he)
      obtain ⟨x, e⟩ := d1 ev'.2.1 ev'.2.2 (by omega) (by omega)
      obtain ⟨z, e, -⟩ := triTermX_val (rnd := rnd) (vec := vec) e (by omega) (by omega)
      exact ⟨h1.2 _ he, z, e⟩
    · obtain ⟨⟨p1, p2⟩, p3, p4⟩ := (mem_pairsRect (Nat.zero_le N) hle).1 (h2.mem he)
      obtain ⟨a, b, c, ha, hb, hc, -, q⟩ := three _ p3 p4
      obtain ⟨x, ex⟩ := ev13X_val (rnd := rnd) hev p2 ha hb hc
      have e : evAtX (basis3 N) (conjOf (basis3 N)) (ev13X rnd ev) ev'.2.1 ev'.2.2 = .val x := by
        rw [evAtX, (one _ p2).1, Res.bind_val, q]; exact ex
      obtain ⟨z, e, -⟩ := symTermX_val (rnd := rnd) (vec := vec) e (by omega) (by omega)
      exact ⟨h2.2 _ he, z, e⟩
    · obtain ⟨p1, p2, p3⟩ := (mem_pairsTri hle).1 (h3.mem he)
      obtain ⟨a, b, c, ha, hb, hc, q, -⟩ := three ev'.2.1 (by omega) p3
      obtain ⟨a', b', c', ha', hb', hc', -, q'⟩ := three ev'.2.2 p1 (by omega)
      obtain ⟨x, ex⟩ := ev33X_val (rnd := rnd) hev ha hb hc ha' hb' hc'
      have e : evAtX (basis3 N) (conjOf (basis3 N)) (ev33X rnd ev) ev'.2.1 ev'.2.2 = .val x := by
        rw [evAtX, q, Res.bind_val, q']; exact ex
      obtain ⟨z, e, -⟩ := triTermX_val (rnd := rnd) (vec := vec) e (by omega) (by omega)
      exact ⟨h3.2 _ he, z, e⟩)
  have event : ∀ i j, j ≤ i → i < N → ∃ t, (t, i, j) ∈ s1 := by
    intro i j hj hi
    have := h1.1.mem_iff.2 ((mem_pairsTri (p := (i, j)) (Nat.zero_le N)).2 ⟨Nat.zero_le _, hj, hi⟩)
    obtain ⟨⟨t, p⟩, hp, rfl⟩ := List.mem_map.1 this
    exact ⟨t, hp⟩
  refine ⟨x, e, fun hv => hn ?_, fun hv => hn ?_⟩
  · obtain ⟨t, ht⟩ := event 0 0 le_rfl (by omega)
    refine ⟨_, List.mem_cons_self, _, ht, fun z hz => ?_⟩
    obtain ⟨x, ex⟩ := d1 0 0 (by omega) (by omega)
    obtain ⟨z', e', -, h⟩ := triTermX_val (rnd := rnd) (vec := vec) ex (by omega) (by omega)
    have hz : Res.val z' = .val z := e'.symm.trans hz
    cases hz
    exact h rfl (by simp [hv])
  · obtain ⟨t, ht⟩ := event 1 0 (by omega) (by omega)
    refine ⟨_, List.mem_cons_self, _, ht, fun z hz => ?_⟩
    obtain ⟨x, e1, ex⟩ := t1 1 0 (by omega) (by omega)
    rw [hv] at e1
    cases e1
    obtain ⟨z', e', h, -⟩ := triTermX_val (rnd := rnd) (vec := vec) ex (by omega) (by omega)
    have hz : Res.val z' = .val z := e'.symm.trans hz
    cases hz
    exact h (Ext.mul_nan_right _)

/-- The same for one operator. -/
theorem siteOccupation1X_val (hN : 2 ≤ N) (hev : Defined N ev) (hvec : vec.length = N) {threads : ℕ} {s1 : List Event}
    (h1 : Executes threads (loop1 (basis1 N).length) s1) :
    ∃ x, siteOccupation1X rnd ev (basis1 N) (conjOf (basis1 N)) vec threads s1 = .val x ∧
      (vec = List.replicate N NN → x = .nan) ∧ (ev ⟨true, (1, true)⟩ ⟨false, (0, true)⟩ = .val .nan → x = .nan) := by
  have hlen : (basis1 N).length = N := (realBasis_size N).1
  rw [hlen] at h1
  have t1 : ∀ i j, i < N → j < N → ∃ x, ev ⟨true, (i, true)⟩ ⟨false, (j, true)⟩ = .val x ∧
      evAtX (basis1 N) (conjOf (basis1 N)) (ev11X rnd ev) i j = .val (Ext.mul rnd (.fin 2) x) := by
    intro i j hi hj
    obtain ⟨x, e1, e2⟩ := ev11X_val (rnd := rnd) hev hi hj
    exact ⟨x, e1, by
      rw [evAtX, vecAt_get ((realBasis_getElem N).1 i hi).1, Res.bind_val, vecAt_get (conj_get ((realBasis_getElem N).1 j hj).1)]; exact e2⟩
  obtain ⟨x, e, hn⟩ := siteOccupationX_val (rnd := rnd) (loops := [(fullTermX rnd (basis1 N) (conjOf (basis1 N)) vec (ev11X rnd ev), s1)]) (threads := threads) (by
    intro l hl ev' he
    rw [List.mem_singleton] at hl
    subst hl
    obtain ⟨⟨p1, p2⟩, p3, p4⟩ := (mem_pairsRect (Nat.zero_le N) (Nat.zero_le N)).1 (h1.mem he)
    obtain ⟨x, -, e⟩ := t1 ev'.2.1 ev'.2.2 p2 p4
    obtain ⟨z, e, -⟩ := fullTermX_val (rnd := rnd) (vec := vec) e (by omega) (by omega)
    exact ⟨h1.2 _ he, z, e⟩)
  have event : ∀ i j, j < N → i < N → ∃ t, (t, i, j) ∈ s1 := by
    intro i j hj hi
    have := h1.1.mem_iff.2 ((mem_pairsRect (p := (i, j)) (Nat.zero_le N) (Nat.zero_le N)).2 ⟨⟨Nat.zero_le _, hi⟩, Nat.zero_le _, hj⟩)
    obtain ⟨⟨t, p⟩, hp, rfl⟩ := List.mem_map.1 this
    exact ⟨t, hp⟩
  refine ⟨x, e, fun hv => hn ?_, fun hv => hn ?_⟩
  · obtain ⟨t, ht⟩ := event 0 0 (by omega) (by omega)
    refine ⟨_, List.mem_cons_self, _, ht, fun z hz => ?_⟩
    obtain ⟨x, -, ex⟩ := t1 0 0 (by omega) (by omega)
    obtain ⟨z', e', -, h⟩ := fullTermX_val (rnd := rnd) (vec := vec) ex (by omega) (by omega)
    have hz : Res.val z' = .val z := e'.symm.trans hz
    cases hz
    exact h (by simp [hv])
  · obtain ⟨t, ht⟩ := event 1 0 (by omega) (by omega)
    refine ⟨_, List.mem_cons_self, _, ht, fun z hz => ?_⟩
    obtain ⟨x, e1, ex⟩ := t1 1 0 (by omega) (by omega)
    rw [hv] at e1
    cases e1
    obtain ⟨z', e', h, -⟩ := fullTermX_val (rnd := rnd) (vec := vec) ex (by omega) (by omega)
    have hz : Res.val z' = .val z := e'.symm.trans hz
    cases hz
    exact h (Ext.mul_nan_right _)

end Ieompp.RealSpace
