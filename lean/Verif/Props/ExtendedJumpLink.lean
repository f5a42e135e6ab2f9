import Verif.Props.ExtendedOccupationLink
import Verif.Props.ExtendedJumpRuns

/-! # C134: the Fermi jump programs with infinities extend those of C119 -/

set_option autoImplicit false
set_option linter.unusedSectionVars false

namespace Ieompp.RealSpace

open Ieompp.Spec IEEE
open MomentumSpace (vecAt opAt)

variable {rnd : ℝ → Res ℝ} {sinF cosF : ℝ → ℝ}

/-! ### Tables and phases -/

theorem sineQuotient_extends {piHalf x : ℝ} {d : ℕ} (h : sineQuotientR rnd sinF piHalf d = .val x) : sineQuotientX rnd sinF (.fin piHalf) d = .fin x := by
  obtain ⟨d', h1, h⟩ := Res.val_of_bind h
  obtain ⟨a, h2, h⟩ := Res.val_of_bind h
  unfold sineQuotientX
  rw [Sim.round_val h1, mulX h2]
  exact divRX h

theorem evValue2D_extends {x y : ℕ} {z : ℝ} (h : evValue2DR rnd sinF x y = .val z) : evValue2DX rnd sinF x y = .fin z := by
  obtain ⟨pi, h1, h⟩ := Res.val_of_bind h
  obtain ⟨q, h2, h⟩ := Res.val_of_bind h
  obtain ⟨p1, h3, h⟩ := Res.val_of_bind h
  obtain ⟨p2, h4, h⟩ := Res.val_of_bind h
  obtain ⟨ph, h5, h⟩ := Res.val_of_bind h
  unfold evValue2DX
  simp only [Sim.round_val h1, mulX h2, divRX h3, divRX h4, Sim.round_val h5]
  simp only at h
  by_cases hxy : x = y
  · rw [if_pos hxy] at h ⊢
    by_cases hx : x = 0
    · rw [if_pos hx] at h ⊢; cases h; rfl
    · rw [if_neg hx] at h ⊢
      obtain ⟨d, g1, h⟩ := Res.val_of_bind h
      obtain ⟨a, g2, h⟩ := Res.val_of_bind h
      obtain ⟨p, g3, h⟩ := Res.val_of_bind h
      rw [Sim.round_val g1, mulX g2]
      show Ext.div rnd (Ext.mul rnd (.fin p2) (.fin (sinF a))) (.fin d) = _
      rw [mulX g3]
      exact divRX h
  · rw [if_neg hxy] at h ⊢
    obtain ⟨a, g1, h⟩ := Res.val_of_bind h
    obtain ⟨p, g2, h⟩ := Res.val_of_bind h
    obtain ⟨b, g3, h⟩ := Res.val_of_bind h
    rw [sineQuotient_extends g1, mulX g2, sineQuotient_extends g3]
    exact mulX h

theorem evTable2D_extends {s : Square ℝ} {sched : List (ℕ × ℕ)} {values : List ℝ} (h : evTable2DR rnd sinF s sched = .val values) :
    evTable2DX rnd sinF s sched = .val (values.map .fin) ∧ values.length = (s.sizeX / 2 + 1) * (s.sizeY / 2 + 1) := by
  have key : ∀ (l : List (ℕ × ℕ)) (v w : List ℝ), l.foldl (fun (acc : Res (List ℝ)) d => acc.bind fun v => (evValue2DR rnd sinF d.1 d.2).bind fun x =>
      assignAt v ((s.sizeY / 2 + 1) * d.1 + d.2) x) (.val v) = .val w →
      l.foldl (fun (acc : Res (List Ext)) d => acc.bind fun v => assignAt v ((s.sizeY / 2 + 1) * d.1 + d.2) (evValue2DX rnd sinF d.1 d.2)) (.val (v.map .fin)) = .val (w.map .fin) ∧
      w.length = v.length := by
    intro l
    induction l with
    | nil => intro v w e; cases e; exact ⟨rfl, rfl⟩
    | cons d l ih =>
      intro v w e
      rw [List.foldl_cons] at e ⊢
      have bad : ∀ (s' : List (ℕ × ℕ)) (x : Res (List ℝ)), (∀ y, x ≠ .val y) → ∀ y, s'.foldl (fun (acc : Res (List ℝ)) d => acc.bind fun v =>
          (evValue2DR rnd sinF d.1 d.2).bind fun x => assignAt v ((s.sizeY / 2 + 1) * d.1 + d.2) x) x ≠ .val y := by
        intro s'
        induction s' with
        | nil => intro x hx; exact hx
        | cons a s' ih =>
          intro x hx
          refine ih _ fun y hy => ?_
          obtain ⟨b, hb, -⟩ := Res.val_of_bind hy
          exact hx b hb
      rw [Res.bind_val] at e ⊢
      by_cases hv : ∃ y, ((evValue2DR rnd sinF d.1 d.2).bind fun x => assignAt v ((s.sizeY / 2 + 1) * d.1 + d.2) x) = .val y
      · obtain ⟨y, hy⟩ := hv
        rw [hy] at e
        obtain ⟨x, h1, h2⟩ := Res.val_of_bind hy
        unfold assignAt at h2
        split_ifs at h2 with hi
        cases h2
        have e2 : assignAt (v.map Ext.fin) ((s.sizeY / 2 + 1) * d.1 + d.2) (evValue2DX rnd sinF d.1 d.2) = .val ((v.set ((s.sizeY / 2 + 1) * d.1 + d.2) x).map .fin) := by
          unfold assignAt
          rw [if_pos (by simpa using hi), evValue2D_extends h1, List.map_set]
        rw [e2]
        have := ih _ _ e
        exact ⟨this.1, by rw [this.2]; simp⟩
      · exact absurd e (bad l _ (fun y hy => hv ⟨y, hy⟩) w)
  have := key _ _ _ h
  rw [List.map_replicate] at this
  exact ⟨this.1, by rw [this.2]; simp⟩

theorem evFunction2D_agree {N : ℕ} {values : List ℝ} (h : values.length = (N / 2 + 1) * (N / 2 + 1)) :
    Agree (N * N) (Program.evFunction2D (Square.real (K := ℝ) N N 1 1) values) (evFunction2DX (Square.real (K := ℝ) N N 1 1) (values.map .fin)) := by
  intro a b ha hb
  obtain ⟨h1, h2⟩ := wrappedDistance_le ha hb
  have hlt : ((Square.real (K := ℝ) N N 1 1).sizeY / 2 + 1) * wrappedDistanceX (Square.real (K := ℝ) N N 1 1) a.index.1 b.index.1 +
      wrappedDistanceY (Square.real (K := ℝ) N N 1 1) a.index.1 b.index.1 < values.length := by
    rw [h]; exact evIndex_lt h1 h2
  unfold Program.evFunction2D evFunction2DX evLookup2D
  rw [vecAt_lt hlt, vecAt_lt (v := values.map Ext.fin) (by simpa using hlt), List.getElem_map]

theorem coordinate_extends {xMin dx x : ℝ} {i : ℕ} (h : coordinateR rnd xMin dx i = .val x) : coordinateX rnd xMin dx i = .fin x := by
  obtain ⟨j, h1, h⟩ := Res.val_of_bind h
  obtain ⟨p, h2, h⟩ := Res.val_of_bind h
  unfold coordinateX
  rw [Sim.round_val h1, mulX h2, addX h]

theorem phase1D_extends {c : Chain ℝ} {kF x : ℝ} {i : ℕ} (h : phase1DR rnd c kF i = .val x) : phase1DX rnd c (.fin kF) i = .fin x := by
  obtain ⟨p, h1, h⟩ := Res.val_of_bind h
  unfold phase1DX
  rw [coordinate_extends h1, mulX h]

theorem phase2D_extends {s : Square ℝ} {k : ℝ × ℝ} {x : ℝ} {i : ℕ} (h : phase2DR rnd s k i = .val x) : phase2DX rnd s (.fin k.1, .fin k.2) i = .fin x := by
  obtain ⟨p, h1, h⟩ := Res.val_of_bind h
  obtain ⟨q, h2, h⟩ := Res.val_of_bind h
  obtain ⟨a, h3, h⟩ := Res.val_of_bind h
  obtain ⟨b, h4, h⟩ := Res.val_of_bind h
  unfold phase2DX
  rw [coordinate_extends h1, coordinate_extends h2, mulX h3, mulX h4, addX h]

theorem embC_zero : embC 0 = ExtC.zero := by simp [embC, ExtC.zero]

theorem jumpCtor_extends {N : ℕ} {phase : ℕ → Res ℝ} {phaseX : ℕ → Ext} (hp : ∀ i x, phase i = .val x → phaseX i = .fin x) {sched : List ℕ} {f : List ℂ}
    (h : jumpCtorR sinF cosF N phase sched = .val f) : jumpCtorX sinF cosF N phaseX sched = .val (f.map embC) := by
  have := (storeLoop_extends (g := fun i => .val (phaseFactorX sinF cosF (phaseX i))) (φ := embC) (fun i x hx => by
    obtain ⟨p, h1, h2⟩ := Res.val_of_bind hx
    cases h2
    rw [hp i p h1]; rfl) h).1
  rw [List.map_replicate, embC_zero] at this
  exact this

/-! ### The measurement -/

variable {N : ℕ} {ev : HOp → HOp → ℝ} {evX : HOp → HOp → Res Ext} {basis : List HMonomial}

theorem prefactor_extends {p : Prop} [Decidable p] {e x : ℝ} (h : prefactorR rnd p e = .val x) : prefactorX rnd p (.fin e) = .fin x := by
  obtain ⟨y, h1, h⟩ := Res.val_of_bind h
  unfold prefactorX
  rw [mulX h1]
  split_ifs at h ⊢
  · exact subX h
  · cases h; rfl

theorem opAt_inside (hb : ∀ m ∈ basis, Inside N m) {j k : ℕ} {o : HOp} (h : opAt basis j k = .val o) : o.index.1 < N := by
  obtain ⟨m, h1, h2⟩ := Res.val_of_bind h
  exact hb m (vecAt_mem h1) o (vecAt_mem h2)

theorem hNoValue_extends (hev : Agree N ev evX) (hb : ∀ m ∈ basis, Inside N m) {vec : List ℂ} {i : ℕ} {z : ℂ} (h : hNoValueR rnd ev basis vec N i = .val z) :
    hNoValueX rnd evX basis (vec.map embC) N i = .val (embC z) := by
  have bad : ∀ (l : List (ℕ × ℕ)) (x : Res ℂ), (∀ y, x ≠ .val y) → ∀ y, l.foldl (fun acc jk => acc.bind fun x =>
      (opAt basis jk.1 0).bind fun oj => (opAt basis jk.2 0).bind fun ok => (prefactorR rnd (jk.1 = jk.2) (ev oj ok)).bind fun prefactor =>
      (vecAt vec (get3opIndex N i jk.1 jk.2)).bind fun hh => (scaleR rnd prefactor hh).bind fun t => addR rnd x t) x ≠ .val y := by
    intro l
    induction l with
    | nil => intro x hx; exact hx
    | cons a l ih =>
      intro x hx
      refine ih _ fun y hy => ?_
      obtain ⟨b, hb, -⟩ := Res.val_of_bind hy
      exact hx b hb
  have key : ∀ (l : List (ℕ × ℕ)) (x : ℂ), l.foldl (fun (acc : Res ℂ) jk => acc.bind fun x =>
      (opAt basis jk.1 0).bind fun oj => (opAt basis jk.2 0).bind fun ok => (prefactorR rnd (jk.1 = jk.2) (ev oj ok)).bind fun prefactor =>
      (vecAt vec (get3opIndex N i jk.1 jk.2)).bind fun hh => (scaleR rnd prefactor hh).bind fun t => addR rnd x t) (.val x) = .val z →
      l.foldl (fun (acc : Res ExtC) jk => acc.bind fun x => (opAt basis jk.1 0).bind fun oj => (opAt basis jk.2 0).bind fun ok => (evX oj ok).bind fun e =>
        (vecAt (vec.map embC) (get3opIndex N i jk.1 jk.2)).map fun hh => ExtC.add rnd x (ExtC.scale rnd (prefactorX rnd (jk.1 = jk.2) e) hh)) (.val (embC x)) = .val (embC z) := by
    intro l
    induction l with
    | nil => intro x e; cases e; rfl
    | cons p l ih =>
      intro x e
      rw [List.foldl_cons] at e ⊢
      rw [Res.bind_val] at e ⊢
      by_cases hv : ∃ y, ((opAt basis p.1 0).bind fun oj => (opAt basis p.2 0).bind fun ok => (prefactorR rnd (p.1 = p.2) (ev oj ok)).bind fun prefactor =>
          (vecAt vec (get3opIndex N i p.1 p.2)).bind fun hh => (scaleR rnd prefactor hh).bind fun t => addR rnd x t) = .val y
      · obtain ⟨y, hy⟩ := hv
        rw [hy] at e
        obtain ⟨oj, h1, hy⟩ := Res.val_of_bind hy
        obtain ⟨ok, h2, hy⟩ := Res.val_of_bind hy
        obtain ⟨q, h3, hy⟩ := Res.val_of_bind hy
        obtain ⟨hh, h4, hy⟩ := Res.val_of_bind hy
        obtain ⟨t, h5, hy⟩ := Res.val_of_bind hy
        simp only [h1, h2, Res.bind_val, hev oj ok (opAt_inside hb h1) (opAt_inside hb h2), vecAt_map h4, Res.map_val, prefactor_extends h3, Ieompp.scale_extends h5,
          Ieompp.add_extends hy]
        exact ih y e
      · exact absurd e (bad l _ (fun y hy => hv ⟨y, hy⟩) z)
  unfold hNoValueR at h
  unfold hNoValueX
  cases e : vecAt vec i with
  | val x => rw [vecAt_map e]; rw [e] at h; exact key _ x h
  | ub => rw [e] at h; exact absurd h (bad _ _ (fun y hy => by cases hy) z)
  | diverges => rw [e] at h; exact absurd h (bad _ _ (fun y hy => by cases hy) z)

theorem jumpSum_extends {f v : List ℂ} {threads : ℕ} {sched : List Event} {x : ℝ} (h : jumpSumR rnd f v threads sched = .val x) :
    jumpSumX rnd (f.map embC) (v.map embC) threads sched = .val (.fin x) := by
  obtain ⟨r, h1, h⟩ := Res.val_of_bind h
  obtain ⟨z, h2, h⟩ := Res.val_of_bind h
  have := runLoop_extends (bodyX := fun i _ => (vecAt (f.map embC) i).bind fun fi => (vecAt (v.map embC) i).map fun vi => ExtC.mul rnd fi vi) (fun i j z hz => by
    obtain ⟨a, g1, hz⟩ := Res.val_of_bind hz
    obtain ⟨b, g2, hz⟩ := Res.val_of_bind hz
    rw [vecAt_map g1, vecAt_map g2, Res.bind_val, Res.map_val, Ieompp.mul_extends hz]) h1
  rw [List.map_replicate, embC_zero] at this
  unfold jumpSumX
  rw [this, Res.map_val, accumulate_extends h2, norm_extends h]

theorem jumpCall_extends (hev : Agree N ev evX) (hb : ∀ m ∈ basis, Inside N m) {M : ℕ} {vec f : List ℂ} (hM : M = N) {threads : ℕ} {sched1 : List ℕ} {sched2 : List Event}
    {st : Option (List ℂ)} {r : Option (List ℂ) × ℝ} (h : jumpCallR rnd ev basis vec M f threads sched1 sched2 st = .val r) :
    jumpCallX rnd evX basis (vec.map embC) M (f.map embC) threads sched1 sched2 (st.map (List.map embC)) = .val (r.1.map (List.map embC), .fin r.2) := by
  subst hM
  obtain ⟨w, h1, h⟩ := Res.val_of_bind h
  obtain ⟨x, h2, rfl⟩ := Res.val_of_map h
  have e : (st.map (List.map embC)).getD (List.replicate M ExtC.zero) = (st.getD (List.replicate M 0)).map embC := by
    cases st with
    | none => simp [embC_zero]
    | some v => rfl
  have := (storeLoop_extends (g := hNoValueX rnd evX basis (vec.map embC) M) (φ := embC) (fun i x hx => hNoValue_extends hev hb hx) h1).1
  unfold jumpCallX
  simp only [e, this, Res.bind_val, jumpSum_extends h2, Res.map_val]
  rfl

end Ieompp.RealSpace

namespace Ieompp.Program

open Ieompp.Spec IEEE RealSpace

variable {rnd : ℝ → Res ℝ} {sinF cosF : ℝ → ℝ} {N : ℕ} {sort : List (Triplet ℝ) → List (Triplet ℝ)} {sortX : List (Triplet Ext) → List (Triplet Ext)} {e : JumpExecution}

/-- A Fermi jump program of C119 as a program with infinities. -/
theorem jump_extends {n M : ℕ} {m : Sparse ℂ} {mx : Sparse ExtC} (hm : ODE.Matches n m mx) {ev : HOp → HOp → ℝ} {evX : HOp → HOp → Res Ext} (hev : Agree M ev evX)
    {f : List ℂ} {w : ODE.Work ℂ} {h : List ℂ} {dt tEnd : ℝ} {interval : ℕ} {s : Sim.State JumpVars ℝ}
    (hs : IEEE.simulateR rnd (IEEE.stepJumpR rnd n dt m) (IEEE.measureJumpR rnd ev (basis3 M) M f e) dt tEnd interval ((0, w, h), none) = .val s) :
    ∃ sx, Sim.simulateX rnd (stepJumpX rnd n (.fin dt) mx) (measureJumpX rnd evX (basis3 M) M (f.map embC) e) (.fin dt) (.fin tEnd) interval ((0, h.map embC), none) = .val sx ∧
      sx.out = s.out.map fun r => (.fin r.1, .fin r.2) := by
  have := Sim.simulateX_transport (fun v : JumpVars => (((v.1.1, v.1.2.2.map embC), v.2.map (List.map embC)) : JumpVarsX)) Ext.fin
    (step' := stepJumpX rnd n (.fin dt) mx) (measure' := measureJumpX rnd evX (basis3 M) M (f.map embC) e) (by
      intro v v' hv
      obtain ⟨r, e1, rfl⟩ := Res.val_of_map hv
      obtain ⟨q, e2, rfl⟩ := Res.val_of_map e1
      rw [stepJumpX, stepVarsX, ODE.step_extends hm e2]
      rfl) (by
      intro v r hr
      obtain ⟨x, e1, rfl⟩ := Res.val_of_map hr
      rw [measureJumpX, jumpCall_extends hev (inside_basis M).2 rfl e1]
      rfl) (Sim.simulateX_extends hs)
  exact ⟨_, this, by simp [Sim.mapStateX, embed, Function.comp_def]⟩

/-- **C134**: `hubbard_real_1d_rk4_jump` with infinities and NaN is the program of C119 whenever everything that comes up in that is finite: same times, same rows. -/
theorem real1dRk4Jump_extends (hN : 3 ≤ N) (hs : IsSort sort) (hsX : IsSort sortX) {J U dt tEnd filling : ℝ} {interval : ℕ} {w : ODE.Work ℂ}
    {s : Sim.State JumpVars ℝ} (h : IEEE.real1dRk4JumpR rnd sinF cosF sort e w N J U dt tEnd interval filling = .val s) :
    ∃ sx, real1dRk4JumpX rnd sinF cosF sortX e N (.fin J) (.fin U) (.fin dt) (.fin tEnd) interval (.fin filling) = .val sx ∧
      sx.out = s.out.map fun r => (.fin r.1, .fin r.2) := by
  have hreg := chain_regular (Chain.Constructed.real (N := N) (1 : ℝ) (by omega) rfl) hN
  obtain ⟨kF, g1, h⟩ := Res.val_of_bind h
  obtain ⟨values, g2, h⟩ := Res.val_of_bind h
  obtain ⟨half, h1, h⟩ := Res.val_of_bind h
  obtain ⟨m, h2, h⟩ := Res.val_of_bind h
  obtain ⟨m', h3, h⟩ := Res.val_of_bind h
  obtain ⟨v, h4, h⟩ := Res.val_of_bind h
  obtain ⟨f, h5, h⟩ := Res.val_of_bind h
  obtain ⟨mx, ex, hx⟩ := initMatrixX_val (rnd := rnd) hreg sortX hsX (.fin J) (.fin U)
  have hlen : (basis3 N).length = N + N * N * N := (realBasis_size N).2
  have hd := initMatrix_done hreg sort J (2 * half) h2
  have hM : ODE.Matches (N + N * N * N) m' (timesIX rnd mx) :=
    timesI_matches (L := fun r => sort (rowList N (Chain.real (K := ℝ) N 1).neighbors J (2 * half) r))
      (fun i hi => strict_of_sorted_nodup (hs _) (row_columns hreg J (2 * half) hi).2.1) (fun i hi => by rw [hd]; simp [List.getD, hi])
      (fun i hi => by
        obtain ⟨l, e1, e2, -⟩ := hx i hi
        rw [rowX_finite hreg h1 hi] at e1
        cases e1
        rw [e2, sort_finite hs hsX (row_columns hreg J (2 * half) hi).2.1]) h3
  obtain ⟨t1, t2⟩ := evTable1D_extends g2
  simp only [hlen] at h h4
  obtain ⟨sx, r1, r2⟩ := jump_extends hM (evFunction_agree (N := N) (by omega) t2) h
  refine ⟨sx, ?_, r2⟩
  unfold real1dRk4JumpX
  simp only [fermiMomentum1D_extends g1, t1, ex, Res.bind_val, hlen, initVector_extends h4, jumpCtor_extends (fun i x hx => phase1D_extends hx) h5]
  exact r1

/-- **C134**: the same for `hubbard_real_2d_rk4_jump` with `Nx = Ny`. -/
theorem real2dRk4Jump_extends_partial (hN : 3 ≤ N) (hs : IsSort sort) (hsX : IsSort sortX) {J U dt tEnd kx ky : ℝ} {interval : ℕ} {w : ODE.Work ℂ}
    {s : Sim.State JumpVars ℝ} (h : IEEE.real2dRk4JumpR rnd sinF cosF sort e w N N J U dt tEnd interval kx ky = .val s) :
    ∃ sx, real2dRk4JumpX rnd sinF cosF sortX e N N (.fin J) (.fin U) (.fin dt) (.fin tEnd) interval (.fin kx) (.fin ky) = .val sx ∧
      sx.out = s.out.map fun r => (.fin r.1, .fin r.2) := by
  have hreg := square_regular (Square.Constructed.real (s := Square.real (K := ℝ) N N 1 1) (Nx := N) (Ny := N) 1 1 (by omega) (by omega) rfl) hN
  have hsz : (Square.real (K := ℝ) N N 1 1).size = N * N := rfl
  obtain ⟨values, g2, h⟩ := Res.val_of_bind h
  obtain ⟨half, h1, h⟩ := Res.val_of_bind h
  obtain ⟨m, h2, h⟩ := Res.val_of_bind h
  obtain ⟨m', h3, h⟩ := Res.val_of_bind h
  obtain ⟨f, h5, h⟩ := Res.val_of_bind h
  obtain ⟨v, h4, h⟩ := Res.val_of_bind h
  obtain ⟨mx, ex, hx⟩ := initMatrixX_val (rnd := rnd) hreg sortX hsX (.fin J) (.fin U)
  have hlen : (basis3 (N * N)).length = N * N + N * N * (N * N) * (N * N) := (realBasis_size (N * N)).2
  have hd := initMatrix_done hreg sort J (2 * half) h2
  have hM : ODE.Matches (N * N + N * N * (N * N) * (N * N)) m' (timesIX rnd mx) :=
    timesI_matches (L := fun r => sort (rowList (N * N) (Square.real (K := ℝ) N N 1 1).neighbors J (2 * half) r))
      (fun i hi => strict_of_sorted_nodup (hs _) (row_columns hreg J (2 * half) hi).2.1) (fun i hi => by rw [hd]; simp [List.getD, hi])
      (fun i hi => by
        obtain ⟨l, e1, e2, -⟩ := hx i hi
        rw [rowX_finite hreg h1 hi] at e1
        cases e1
        rw [e2, sort_finite hs hsX (row_columns hreg J (2 * half) hi).2.1]) h3
  obtain ⟨t1, t2⟩ := evTable2D_extends g2
  simp only [hsz, hlen] at h h4 h5
  obtain ⟨sx, r1, r2⟩ := jump_extends hM (evFunction2D_agree t2) h
  refine ⟨sx, ?_, r2⟩
  unfold real2dRk4JumpX
  simp only [t1, hsz, ex, Res.bind_val, hlen, initVector_extends h4, jumpCtor_extends (fun i x hx => phase2D_extends hx) h5]
  exact r1

end Ieompp.Program
