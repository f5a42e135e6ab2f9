import Verif.Model.ExtendedJump
import Verif.Props.ExtendedOccupationRuns
import Verif.Props.JumpProgram

/-! # C134: the Fermi jump with infinities and NaN -/

set_option autoImplicit false
set_option linter.unusedSectionVars false

namespace Ieompp.ExtC

variable {rnd : ℝ → Res ℝ}

theorem plainMul_NN_left (y : ExtC) : plainMul rnd NN y = NN := by
  unfold plainMul Ext.sub; simp only [Ext.mul_nan_left, Ext.add_nan_left]

theorem plainMul_NN_right (x : ExtC) : plainMul rnd x NN = NN := by
  unfold plainMul Ext.sub; simp only [Ext.mul_nan_right, Ext.add_nan_left]

theorem box_fin (x : Ext) : ∃ r, box x = .fin r := by cases x <;> exact ⟨_, rfl⟩

theorem recovered_zero {p : ExtC × ExtC} (h : plainMul rnd p.1 p.2 = zero) :
    (⟨Ext.mul rnd (.inf false) (plainMul rnd p.1 p.2).re, Ext.mul rnd (.inf false) (plainMul rnd p.1 p.2).im⟩ : ExtC) = NN := by
  rw [h]; simp only [zero, inf_zero]

/-- A product with NaN in both parts of a factor has NaN in both parts: here the recovery of infinities does not help. -/
theorem mul_NN_left (h0 : rnd 0 = .val 0) (y : ExtC) : mul rnd NN y = NN := by
  unfold mul
  simp only [plainMul_NN_left, isNan, Bool.and_self, if_true]
  obtain ⟨a, b⟩ := y
  obtain ⟨p, hp⟩ := box_fin a
  obtain ⟨q, hq⟩ := box_fin b
  by_cases g : (isInf a || isInf b) = true
  · have : recover rnd NN ⟨a, b⟩ = some (zero, ⟨.fin p, .fin q⟩) := by
      unfold recover
      simp only [show isInf Ext.nan = false from rfl, Bool.or_self, Bool.false_eq_true, if_false, g, if_true, Bool.false_or, hp, hq, unNan]
      rfl
    rw [this]
    exact recovered_zero (plainMul_zero_left h0 _ _)
  · have : recover rnd NN ⟨a, b⟩ = none := by
      unfold recover
      simp only [show isInf Ext.nan = false from rfl, Bool.or_self, Bool.false_eq_true, if_false, g, Ext.mul_nan_left]
    rw [this]

theorem mul_NN_right (h0 : rnd 0 = .val 0) (x : ExtC) : mul rnd x NN = NN := by
  unfold mul
  simp only [plainMul_NN_right, isNan, Bool.and_self, if_true]
  obtain ⟨a, b⟩ := x
  obtain ⟨p, hp⟩ := box_fin a
  obtain ⟨q, hq⟩ := box_fin b
  by_cases g : (isInf a || isInf b) = true
  · have : recover rnd ⟨a, b⟩ NN = some (⟨.fin p, .fin q⟩, zero) := by
      unfold recover
      simp only [g, if_true, hp, hq, unNan, show ∀ r, isInf (Ext.fin r) = false from fun _ => rfl, Bool.or_self, Bool.false_eq_true, if_false, Bool.true_or]
      rfl
    rw [this]
    exact recovered_zero (plainMul_zero_right h0 _ _)
  · have : recover rnd ⟨a, b⟩ NN = none := by
      unfold recover
      simp only [show isInf Ext.nan = false from rfl, Bool.or_self, Bool.false_eq_true, if_false, g, Ext.mul_nan_right]
    rw [this]

end Ieompp.ExtC

namespace Ieompp.RealSpace

open Ieompp.Spec
open MomentumSpace (vecAt opAt)
open ExtC (NN)

variable {rnd : ℝ → Res ℝ} {sinF cosF : ℝ → ℝ} {N : ℕ}

/-! ### The static vector -/

/-- The statements of `operator()` for one `i`: defined, and NaN if the coefficients are. -/
theorem hNoValueX_val {ev : HOp → HOp → Res Ext} (hev : Defined N ev) {vec : List ExtC} (hvec : vec.length = N + N * N * N) {i : ℕ} (hi : i < N) :
    ∃ x, hNoValueX rnd ev (basis3 N) vec N i = .val x ∧ (vec = List.replicate (N + N * N * N) NN → x = NN) := by
  have hlt : ∀ j < N, ∀ k < N, get3opIndex N i j k < vec.length := fun j hj k hk => by
    rw [hvec]; exact ((realBasis_index_bijective N).1 i j k hi hj hk).2
  have key : ∀ (l : List (ℕ × ℕ)) (_ : ∀ p ∈ l, p.1 < N ∧ p.2 < N) (x : ExtC), ∃ y,
      l.foldl (fun (acc : Res ExtC) jk => acc.bind fun x => (opAt (basis3 N) jk.1 0).bind fun oj => (opAt (basis3 N) jk.2 0).bind fun ok => (ev oj ok).bind fun e =>
        (vecAt vec (get3opIndex N i jk.1 jk.2)).map fun hh => ExtC.add rnd x (ExtC.scale rnd (prefactorX rnd (jk.1 = jk.2) e) hh)) (.val x) = .val y ∧
      (x = NN → y = NN) := by
    intro l
    induction l with
    | nil => intro _ x; exact ⟨x, rfl, id⟩
    | cons p l ih =>
      intro hl x
      obtain ⟨h1, h2⟩ := hl p (by simp)
      have o1 : opAt (basis3 N) p.1 0 = .val ⟨true, (p.1, true)⟩ := by rw [opAt, vecAt_get (one_cases h1)]; rfl
      have o2 : opAt (basis3 N) p.2 0 = .val ⟨true, (p.2, true)⟩ := by rw [opAt, vecAt_get (one_cases h2)]; rfl
      obtain ⟨e, he⟩ := hev ⟨true, (p.1, true)⟩ ⟨true, (p.2, true)⟩ h1 h2
      obtain ⟨y, e1, e2⟩ := ih (fun q hq => hl q (by simp [hq]))
        (ExtC.add rnd x (ExtC.scale rnd (prefactorX rnd (p.1 = p.2) e) (vec[get3opIndex N i p.1 p.2]'(hlt _ h1 _ h2))))
      refine ⟨y, ?_, fun hx => e2 (by rw [hx, ExtC.add_NN_left])⟩
      rw [List.foldl_cons]
      simp only [Res.bind_val, o1, o2, he, vecAt_lt (hlt _ h1 _ h2), Res.map_val]
      exact e1
  obtain ⟨y, e1, e2⟩ := key ((List.range N).flatMap fun j => (List.range N).map fun k => (j, k)) (fun p hp => by
    simp only [List.mem_flatMap, List.mem_map, List.mem_range] at hp
    obtain ⟨j, h1, k, h2, rfl⟩ := hp
    exact ⟨h1, h2⟩) (vec[i]'(by omega))
  refine ⟨y, by unfold hNoValueX; rw [vecAt_lt (by omega : i < vec.length)]; exact e1, fun h => e2 ?_⟩
  simp only [h, List.getElem_replicate]

/-! ### The final loop -/

theorem normX_nan {z : ExtC} (h : z.re = .nan) : normX rnd z = .nan := by
  unfold normX; rw [h, Ext.mul_nan_left, Ext.add_nan_left]

theorem jumpSumX_val {f v : List ExtC} (hf : f.length = N) (hv : v.length = N) {threads : ℕ} {s : List Event} (hs : Executes threads (jumpPairs N) s) :
    ∃ x, jumpSumX rnd f v threads s = .val x ∧ (rnd 0 = .val 0 → 0 < N → f = List.replicate N NN ∨ v = List.replicate N NN → x = .nan) := by
  have hmem : ∀ e ∈ s, e.1 < threads ∧ e.2.1 < N := fun e he => by
    have h1 : e.2 ∈ jumpPairs N := hs.1.mem_iff.1 (List.mem_map_of_mem he)
    simp only [jumpPairs, List.mem_map, List.mem_range] at h1
    obtain ⟨i, hi, h⟩ := h1
    exact ⟨hs.2 e he, by rw [← h]; exact hi⟩
  have hb : ∀ i j, (hi : i < N) → ((fun i (_ : ℕ) => (vecAt f i).bind fun fi => (vecAt v i).map fun vi => ExtC.mul rnd fi vi) i j) =
      .val (ExtC.mul rnd (f[i]'(by omega)) (v[i]'(by omega))) := fun i j hi => by
    simp only [vecAt_lt (by omega : i < f.length), vecAt_lt (by omega : i < v.length), Res.bind_val, Res.map_val]
  obtain ⟨r, e1, -, e2⟩ := runLoopX_val (rnd := rnd) (results := List.replicate threads ExtC.zero) (sched := s)
    (body := fun i _ => (vecAt f i).bind fun fi => (vecAt v i).map fun vi => ExtC.mul rnd fi vi)
    (fun e he => ⟨by simpa using (hmem e he).1, _, hb _ e.2.2 (hmem e he).2⟩)
  refine ⟨normX rnd (accumulateX rnd r), by unfold jumpSumX; rw [e1]; rfl, fun h0 hN hn => normX_nan (accumulate_nan (e2 (Or.inr ?_)))⟩
  have h1 : (0, 0) ∈ s.map Prod.snd := hs.1.mem_iff.2 (List.mem_map.2 ⟨0, List.mem_range.2 hN, rfl⟩)
  obtain ⟨e, he, h1⟩ := List.mem_map.1 h1
  refine ⟨e, he, fun x hx => ?_⟩
  have hi := (hmem e he).2
  have hx := Res.val.inj ((hb e.2.1 0 hi).symm.trans hx)
  rw [← hx]
  rcases hn with rfl | rfl
  · rw [List.getElem_replicate, ExtC.mul_NN_left h0]
  · rw [List.getElem_replicate, ExtC.mul_NN_right h0]

/-- A call of the Fermi jump: defined, independent of what the static vector contains, and NaN if the coefficients or the phase factors are. -/
theorem jumpCallX_val {ev : HOp → HOp → Res Ext} (hev : Defined N ev) {f : List ExtC} (hf : f.length = N) {vec : List ExtC} (hvec : vec.length = N + N * N * N)
    {threads : ℕ} {s1 : List ℕ} (hs1 : s1.Perm (List.range N)) {s2 : List Event} (hs2 : Executes threads (jumpPairs N) s2) :
    ∃ w x, w.length = N ∧ (∀ st : Option (List ExtC), (∀ v ∈ st, v.length = N) → jumpCallX rnd ev (basis3 N) vec N f threads s1 s2 st = .val (some w, x)) ∧
      (rnd 0 = .val 0 → 0 < N → f = List.replicate N NN ∨ vec = List.replicate (N + N * N * N) NN → x = .nan) := by
  have hno := fun (i : ℕ) (hi : i < N) => hNoValueX_val (rnd := rnd) hev hvec hi
  have : Inhabited ExtC := ⟨ExtC.zero⟩
  choose! g hg hg' using hno
  obtain ⟨x, hx, hx'⟩ := jumpSumX_val (rnd := rnd) hf (v := (List.range N).map g) (by simp) hs2
  refine ⟨(List.range N).map g, x, by simp, fun st hst => ?_, fun h0 hN hn => hx' h0 hN (hn.imp id fun h => ?_)⟩
  · have hlen : (st.getD (List.replicate N ExtC.zero)).length = N := by
      cases st with
      | none => simp
      | some v => exact hst v rfl
    obtain ⟨w, e1, e2, e3⟩ := storeLoop_ok (f := hNoValueX rnd ev (basis3 N) vec N) (g := g) s1 (st.getD (List.replicate N ExtC.zero))
      (fun i hi => by
        have hi' : i < N := by simpa using hs1.mem_iff.1 hi
        exact ⟨hg i hi', by omega⟩)
    have hw : w = (List.range N).map g := by
      apply List.ext_getElem?
      intro i
      rw [e3 i, hlen]
      by_cases hi : i < N
      · rw [if_pos ⟨hs1.mem_iff.2 (List.mem_range.2 hi), hi⟩]; simp [hi]
      · rw [if_neg fun c => hi c.2, List.getElem?_eq_none (by omega), List.getElem?_eq_none (by simp; omega)]
    unfold jumpCallX
    simp only
    rw [e1, Res.bind_val, hw, hx]; rfl
  · rw [List.eq_replicate_iff]
    refine ⟨by simp, fun b hb => ?_⟩
    obtain ⟨i, hi, rfl⟩ := List.mem_map.1 hb
    exact hg' i (List.mem_range.1 hi) h

/-! ### The phase factors -/

theorem jumpCtorX_val (phase : ℕ → Ext) {sched : List ℕ} (hs : sched.Perm (List.range N)) :
    jumpCtorX sinF cosF N phase sched = .val ((List.range N).map fun i => phaseFactorX sinF cosF (phase i)) := by
  obtain ⟨w, e1, e2, e3⟩ := storeLoop_ok (f := fun i => .val (phaseFactorX sinF cosF (phase i))) (g := fun i => phaseFactorX sinF cosF (phase i)) sched
    (List.replicate N ExtC.zero) (fun i hi => ⟨rfl, by simpa using hs.mem_iff.1 hi⟩)
  rw [jumpCtorX, e1]
  congr 1
  apply List.ext_getElem?
  intro i
  rw [e3 i]
  by_cases hi : i < N
  · rw [if_pos ⟨hs.mem_iff.2 (List.mem_range.2 hi), by simpa using hi⟩]; simp [hi]
  · rw [if_neg fun c => hi (by simpa using c.2), List.getElem?_eq_none (by simp; omega), List.getElem?_eq_none (by simp; omega)]

theorem add_notFinite_left {x : Ext} (hx : x.NotFinite) (y : Ext) : (Ext.add rnd x y).NotFinite := by
  rcases hx with rfl | ⟨s, rfl⟩
  · rw [Ext.add_nan_left]; exact Or.inl rfl
  · cases y with
    | fin y => exact Or.inr ⟨_, rfl⟩
    | inf r =>
      show (if s = r then Ext.inf s else Ext.nan).NotFinite
      split_ifs
      · exact Or.inr ⟨_, rfl⟩
      · exact Or.inl rfl
    | nan => exact Or.inl rfl

theorem add_notFinite_right {y : Ext} (hy : y.NotFinite) (x : Ext) : (Ext.add rnd x y).NotFinite := by
  rcases hy with rfl | ⟨s, rfl⟩
  · rw [Ext.add_nan_right]; exact Or.inl rfl
  · cases x with
    | fin y => exact Or.inr ⟨_, rfl⟩
    | inf r =>
      show (if r = s then Ext.inf r else Ext.nan).NotFinite
      split_ifs
      · exact Or.inr ⟨_, rfl⟩
      · exact Or.inl rfl
    | nan => exact Or.inl rfl

theorem phaseFactorX_notFinite {x : Ext} (hx : x.NotFinite) : phaseFactorX sinF cosF x = NN := by
  unfold phaseFactorX; rw [sinX_notFinite hx, sinX_notFinite hx]

/-- A filling that is not finite: all phase factors are NaN. -/
theorem phase1DX_bad {filling : Ext} (hf : filling.NotFinite) (c : Chain ℝ) (i : ℕ) : phaseFactorX sinF cosF (phase1DX rnd c (fermiMomentum1DX rnd filling) i) = NN :=
  phaseFactorX_notFinite (mul_notFinite (mul_notFinite hf _) _)

/-- A component of the momentum that is not finite: all phase factors are NaN. -/
theorem phase2DX_bad {kx ky : Ext} (h : kx.NotFinite ∨ ky.NotFinite) (s : Square ℝ) (i : ℕ) : phaseFactorX sinF cosF (phase2DX rnd s (kx, ky) i) = NN := by
  refine phaseFactorX_notFinite ?_
  rcases h with h | h
  · exact add_notFinite_left (mul_notFinite h _) _
  · exact add_notFinite_right (mul_notFinite h _) _

/-! ### The table of the square lattice -/

theorem wrappedDistance_le {a b : ℕ} (ha : a < N * N) (hb : b < N * N) :
    wrappedDistanceX (Square.real (K := ℝ) N N 1 1) a b ≤ N / 2 ∧ wrappedDistanceY (Square.real (K := ℝ) N N 1 1) a b ≤ N / 2 := by
  have key : ∀ x y : ℕ, x < N → y < N → min (if x > y then x - y else y - x) (wrapSub N (if x > y then x - y else y - x)) ≤ N / 2 := by
    intro x y hx hy
    unfold wrapSub
    split_ifs <;> omega
  have h1 : ∀ a < N * N, a / N < N ∧ a % N < N := fun a ha =>
    ⟨Nat.div_lt_of_lt_mul ha, Nat.mod_lt _ (Nat.pos_of_ne_zero (by rintro rfl; simp at ha))⟩
  exact ⟨key _ _ (h1 a ha).1 (h1 b hb).1, key _ _ (h1 a ha).2 (h1 b hb).2⟩

theorem evFunction2DX_defined {sched : List (ℕ × ℕ)} (hs : sched.Perm (evPairs (N / 2) (N / 2))) :
    ∃ values, evTable2DX rnd sinF (Square.real (K := ℝ) N N 1 1) sched = .val values ∧
      Defined (N * N) (evFunction2DX (Square.real (K := ℝ) N N 1 1) values) := by
  have hm : ∀ d ∈ sched, d.1 ≤ N / 2 ∧ d.2 ≤ N / 2 := fun d hd => (mem_evPairs _ _ _).1 (hs.mem_iff.1 hd)
  have key : ∀ (l : List (ℕ × ℕ)) (_ : ∀ d ∈ l, d.1 ≤ N / 2 ∧ d.2 ≤ N / 2) (v : List Ext), v.length = (N / 2 + 1) * (N / 2 + 1) → ∃ w,
      l.foldl (fun (acc : Res (List Ext)) d => acc.bind fun v => assignAt v ((N / 2 + 1) * d.1 + d.2) (evValue2DX rnd sinF d.1 d.2)) (.val v) = .val w ∧
      w.length = (N / 2 + 1) * (N / 2 + 1) := by
    intro l
    induction l with
    | nil => intro _ v hv; exact ⟨v, rfl, hv⟩
    | cons d l ih =>
      intro hl v hv
      obtain ⟨h1, h2⟩ := hl d (by simp)
      obtain ⟨w, e1, e2⟩ := ih (fun q hq => hl q (by simp [hq])) (v.set ((N / 2 + 1) * d.1 + d.2) (evValue2DX rnd sinF d.1 d.2)) (by simpa using hv)
      refine ⟨w, ?_, e2⟩
      rw [List.foldl_cons]
      have : assignAt v ((N / 2 + 1) * d.1 + d.2) (evValue2DX rnd sinF d.1 d.2) = .val (v.set ((N / 2 + 1) * d.1 + d.2) (evValue2DX rnd sinF d.1 d.2)) :=
        if_pos (by rw [hv]; exact evIndex_lt h1 h2)
      simp only [Res.bind_val, this]
      exact e1
  obtain ⟨w, e1, e2⟩ := key sched hm (List.replicate ((N / 2 + 1) * (N / 2 + 1)) (.fin 0)) (by simp)
  refine ⟨w, e1, fun a b ha hb => ?_⟩
  obtain ⟨h1, h2⟩ := wrappedDistance_le ha hb
  have hlt : (N / 2 + 1) * wrappedDistanceX (Square.real (K := ℝ) N N 1 1) a.index.1 b.index.1 + wrappedDistanceY (Square.real (K := ℝ) N N 1 1) a.index.1 b.index.1 < w.length := by
    rw [e2]; exact evIndex_lt h1 h2
  exact ⟨_, vecAt_lt hlt⟩

end Ieompp.RealSpace
