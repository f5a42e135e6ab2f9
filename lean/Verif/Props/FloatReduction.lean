import Verif.Props.JumpProgramFloat
import Verif.Props.MomentumFloat
import Verif.Props.TrivialFloat
import Verif.Props.TheoryFloat
import Verif.Props.DispersionFloat
import Verif.Props.MomentumDouble

/-!
# Without rounding the programs in floating point arithmetic are the exact programs

The models of C109–C114 with `fl = id`, `sinF = Real.sin`, `cosF = Real.cos` and `π` are the models of C58–C65. So the two families of models describe the same
code, and the exact theorems are about the same statements of the programs as the theorems about rounding.
-/

set_option autoImplicit false
set_option linter.unusedSectionVars false

namespace Ieompp.ODE

theorem mulC_id : RealSpace.mulC id = fun x y => x * y := by
  funext x y; apply Complex.ext <;> simp [RealSpace.mulC]

theorem scaleC_id (c : ℝ) (z : ℂ) : scaleC id c z = (c : ℂ) * z := by
  apply Complex.ext <;> simp [scaleC]

theorem vscaleF_id (c : ℝ) (v : List ℂ) : vscaleF id c v = vscale (c : ℂ) v := by
  unfold vscaleF vscale
  exact List.map_congr_left fun z _ => scaleC_id c z

theorem vaddF_id (a b : List ℂ) : vaddF id a b = vadd a b := by
  unfold vaddF vadd
  rw [RealSpace.addC_id]

theorem rowF_id (m : ℕ → ℂ) (v : List ℂ) (js : List ℕ) : rowF id m v js = (js.map fun j => m j * v.getD j 0).sum := by
  cases js with
  | nil => rfl
  | cons j js =>
    unfold rowF
    rw [RealSpace.addC_id, mulC_id, List.map_cons, List.sum_cons]
    change js.foldl (fun acc k => acc + m k * v.getD k 0) (m j * v.getD j 0) = _
    generalize m j * v.getD j 0 = a
    induction js generalizing a with
    | nil => simp
    | cons k js ih => rw [List.foldl_cons, ih, List.map_cons, List.sum_cons, add_assoc]

theorem matVecF_id {n z : ℕ} {m : ℕ → ℕ → ℂ} {cols : ℕ → List ℕ} (hS : Stored n m cols z) (v : List ℂ) :
    matVecF id n m cols v = matVec n m v := by
  unfold matVecF matVec
  refine ite_congr rfl (fun _ => ?_) fun _ => rfl
  refine congrArg Res.val (List.map_congr_left fun i hi => ?_)
  have hi' := List.mem_range.1 hi
  rw [rowF_id, sum_stored (hS.nodup i hi') (hS.lt i hi') (fun j => m i j * v.getD j 0)
    (fun j hj h => hS.all i hi' j hj fun h0 => h (by simp only [h0, zero_mul])),
    sum_stored List.nodup_range (fun j hj => List.mem_range.1 hj) (fun j => m i j * v.getD j 0) (fun j hj _ => List.mem_range.2 hj)]

/-- Without rounding a step of the integrator is the exact step, for every content of the vectors. -/
theorem stepMatrixF_eq {n z : ℕ} {m : ℕ → ℕ → ℂ} {cols : ℕ → List ℕ} (hS : Stored n m cols z) (h : ℝ) (w : Work ℂ) (u : List ℂ) :
    stepMatrixF id n h m cols w u = stepMatrix n (h : ℂ) m w u := by
  unfold stepMatrixF stepMatrix combineF combine
  simp only [matVecF_id hS, vaddF_id, vscaleF_id, id_eq]
  push_cast
  rfl

theorem integrateF_eq {n z : ℕ} {m : ℕ → ℕ → ℂ} {cols : ℕ → List ℕ} (hS : Stored n m cols z) (h : ℝ) : ∀ (k : ℕ) (w : Work ℂ) (u : List ℂ),
    integrateF id n h m cols k w u = integrate n (h : ℂ) m k w u := by
  intro k
  induction k with
  | zero => intro w u; rfl
  | succ k ih =>
    intro w u
    unfold integrateF integrate
    rw [stepMatrixF_eq hS]
    simp only [ih]

end Ieompp.ODE

namespace Ieompp.RealSpace

open ODE
open MomentumSpace (vecAt)

theorem siteTerms_id (ev : HOp → HOp → ℝ) (basis conj : List HMonomial) (vec : List ℂ) :
    (∀ f, fullTermF id basis conj vec f = fullTerm basis conj vec f) ∧ (∀ f, symTermF id basis conj vec f = symTerm basis conj vec f) ∧
      (∀ f, diagTermF id basis conj vec f = diagTerm basis conj vec f) ∧ (∀ f, triTermF id basis conj vec f = triTerm basis conj vec f) ∧
      ev11F id ev = ev11 ev ∧ ev13F id ev = ev13 ev ∧ ev33F id ev = ev33 ev := by
  have hd : ∀ f, diagTermF id basis conj vec f = diagTerm basis conj vec f := by
    intro f; funext i
    unfold diagTermF diagTerm normF
    simp only [id_eq, Complex.normSq_apply]
  have hs : ∀ f, symTermF id basis conj vec f = symTerm basis conj vec f := by
    intro f; funext i j
    unfold symTermF symTerm addConjugateProductsF addConjugateProducts
    simp only [id_eq]
  refine ⟨fun f => ?_, hs, hd, fun f => ?_, rfl, rfl, rfl⟩
  · funext i j
    unfold fullTermF fullTerm
    simp only [scaleC_id, id_eq]
    congr 1; funext e; congr 1; funext vi; congr 1; funext vj
    congr 1
    have e1 : multiplyWithConjugateF id vi vj = multiplyWithConjugate vi vj := rfl
    rw [e1]
    apply Complex.ext
    · simp
    · simp
  · funext i j
    unfold triTermF triTerm
    rw [hd, hs]

theorem siteOccupation1F_id (ev : HOp → HOp → ℝ) (basis conj : List HMonomial) (vec : List ℂ) (threads : ℕ) (s : List Event) :
    siteOccupation1F id ev basis conj vec threads s = siteOccupation1 ev basis conj vec threads s := by
  obtain ⟨h1, -, -, -, h2, -⟩ := siteTerms_id ev basis conj vec
  unfold siteOccupation1F
  rw [h1, h2, siteOccupationF_id]

theorem siteOccupation3F_id (ev : HOp → HOp → ℝ) (basis conj : List HMonomial) (vec : List ℂ) (threads : ℕ) (s1 s2 s3 : List Event) :
    siteOccupation3F id ev basis conj vec threads s1 s2 s3 = siteOccupation3 ev basis conj vec true threads s1 s2 s3 := by
  obtain ⟨-, h1, -, h2, h3, h4, h5⟩ := siteTerms_id ev basis conj vec
  unfold siteOccupation3F siteOccupation3 siteSum3 siteOccupationF
  rw [h1, h2, h2, h3, h4, h5]
  simp only [runLoopsF, runLoopF_id, if_true]
  have hsum : ∀ r : List ℂ, accumulateF id r = r.sum := by
    intro r
    rw [accumulateF, addC_id, List.sum_eq_foldl]
  simp only [hsum]
  cases runLoop (triTerm basis conj vec (ev11 ev)) s1 (List.replicate threads 0) with
  | ub => rfl
  | diverges => rfl
  | val r1 =>
    simp only [Res.bind_val]
    cases runLoop (symTerm basis conj vec (ev13 ev)) s2 r1 with
    | ub => rfl
    | diverges => rfl
    | val r2 =>
      simp only [Res.bind_val]
      cases runLoop (triTerm basis conj vec (ev33 ev)) s3 r2 <;> rfl

theorem jumpCallF_id (ev : HOp → HOp → ℝ) (basis : List HMonomial) (vec : List ℂ) (N : ℕ) (f : List ℂ) (threads : ℕ) (s1 : List ℕ) (s2 : List Event)
    (st : Option (List ℂ)) : jumpCallF id ev basis vec N f threads s1 s2 st = jumpCall ev basis N f vec threads s1 s2 st := by
  have h : hNoValueF id ev basis vec N = hNoValue ev basis N vec := by
    funext i
    unfold hNoValueF hNoValue
    rw [addC_id]
    simp only [scaleC_id, id_eq]
  unfold jumpCallF jumpCall
  rw [h]
  simp only [jumpSumF_id]

theorem evTables_id (c : Chain ℝ) (s : Square ℝ) (filling kF : ℝ) (sched : List ℕ) (sched2 : List (ℕ × ℕ)) :
    fermiMomentum1DF id filling = fermiMomentum1D filling ∧ evTable1DF id Real.sin c filling kF sched = evTable1D c filling kF sched ∧
      evTable2DF id Real.sin s sched2 = evTable2D s sched2 := ⟨rfl, rfl, by
    unfold evTable2DF evTable2D
    congr 1⟩

theorem jumpCtorF_id (N : ℕ) (phase : ℕ → ℝ) (sched : List ℕ) : jumpCtorF Real.sin Real.cos N phase sched = jumpCtor N phase sched := rfl

end Ieompp.RealSpace

namespace Ieompp.Program

open RealSpace ODE

theorem timesIF_id (m : Sparse ℝ) : timesIF id m = timesI m := by
  funext i j
  unfold timesIF timesI
  rw [mulC_id, mul_comm]

theorem stepVarsF_id {n z : ℕ} {m : Sparse ℝ} (hS : Stored n (fun i j => Complex.I * (m.get i j : ℂ)) (storedColumns m) z) (dt : ℝ) :
    stepVarsF id n dt m = stepVars n dt m := by
  funext s
  unfold stepVarsF stepVars
  rw [timesIF_id, stepMatrixF_eq (m := timesI m) hS]

section
variable {N : ℕ} {sort : List (Triplet ℝ) → List (Triplet ℝ)}

theorem two_half (U : ℝ) : 2 * id (U / 2) = U := by simp only [id_eq]; ring

/-- `hubbard_real_1d_rk4` without rounding. -/
theorem real1dRk4F_id (hN : 3 ≤ N) (hs : IsSort sort) (e : Execution) (w : Work ℂ) (J U dt tEnd : ℝ) (interval : ℕ) (filling : ℝ) :
    real1dRk4F id Real.sin sort e w N J U dt tEnd interval filling = real1dRk4 sort e w N J U dt tEnd interval filling := by
  have hreg := chain_regular (Chain.Constructed.real (N := N) (1 : ℝ) (by omega) rfl) hN
  obtain ⟨m, h1, -⟩ := initMatrix_ok hreg sort hs J U
  unfold real1dRk4F real1dRk4
  simp only [two_half, h1, Res.bind_val, Sim.simulateF_id, (realBasis_size N).2, stepVarsF_id (initMatrix_stored hreg sort hs J U h1),
    siteOccupation3F_id]
  rfl

/-- `hubbard_real_1d_kinetic_rk4` without rounding. -/
theorem real1dKineticRk4F_id (hN : 3 ≤ N) (hs : IsSort sort) (e : Execution) (w : Work ℂ) (J dt tEnd : ℝ) (interval : ℕ) (filling : ℝ) :
    real1dKineticRk4F id Real.sin sort e w N J dt tEnd interval filling = real1dKineticRk4 sort e w N J dt tEnd interval filling := by
  have hreg := chain_regular (Chain.Constructed.real (N := N) (1 : ℝ) (by omega) rfl) hN
  obtain ⟨m, h1, -⟩ := initKineticMatrix_ok hreg sort hs J
  unfold real1dKineticRk4F real1dKineticRk4
  simp only [h1, Res.bind_val, Sim.simulateF_id, (realBasis_size N).1, stepVarsF_id (initKineticMatrix_stored hreg sort hs J h1),
    siteOccupation1F_id]
  rfl

/-- `hubbard_real_1d_rk4_coefficients` without rounding. -/
theorem real1dRk4CoefficientsF_id (hN : 3 ≤ N) (hs : IsSort sort) (w : Work ℂ) (J U dt tEnd : ℝ) (interval : ℕ) :
    real1dRk4CoefficientsF id sort w N J U dt tEnd interval = real1dRk4Coefficients sort w N J U dt tEnd interval := by
  have hreg := chain_regular (Chain.Constructed.real (N := N) (1 : ℝ) (by omega) rfl) hN
  obtain ⟨m, h1, -⟩ := initMatrix_ok hreg sort hs J U
  unfold real1dRk4CoefficientsF real1dRk4Coefficients
  simp only [two_half, h1, Res.bind_val, Sim.simulateF_id, (realBasis_size N).2, stepVarsF_id (initMatrix_stored hreg sort hs J U h1)]
  rfl

/-- `hubbard_real_1d_kinetic_rk4_coefficients` without rounding. -/
theorem real1dKineticRk4CoefficientsF_id (hN : 3 ≤ N) (hs : IsSort sort) (w : Work ℂ) (J dt tEnd : ℝ) (interval : ℕ) :
    real1dKineticRk4CoefficientsF id sort w N J dt tEnd interval = real1dKineticRk4Coefficients sort w N J dt tEnd interval := by
  have hreg := chain_regular (Chain.Constructed.real (N := N) (1 : ℝ) (by omega) rfl) hN
  obtain ⟨m, h1, -⟩ := initKineticMatrix_ok hreg sort hs J
  unfold real1dKineticRk4CoefficientsF real1dKineticRk4Coefficients
  simp only [h1, Res.bind_val, Sim.simulateF_id, (realBasis_size N).1, stepVarsF_id (initKineticMatrix_stored hreg sort hs J h1)]
  rfl

theorem stepJumpF_id {n z : ℕ} {m : Sparse ℝ} (hS : Stored n (fun i j => Complex.I * (m.get i j : ℂ)) (storedColumns m) z) (dt : ℝ) :
    stepJumpF id n dt m = stepJump n dt m := by
  funext s
  unfold stepJumpF stepJump
  rw [stepVarsF_id hS]

theorem measureJumpF_id (ev : HOp → HOp → ℝ) (basis : List HMonomial) (N : ℕ) (f : List ℂ) (e : JumpExecution) :
    measureJumpF id ev basis N f e = measureJump ev basis N f e := by
  funext s
  unfold measureJumpF measureJump
  rw [jumpCallF_id]

/-- `hubbard_real_1d_rk4_jump` without rounding. -/
theorem real1dRk4JumpF_id (hN : 3 ≤ N) (hs : IsSort sort) (e : JumpExecution) (w : Work ℂ) (J U dt tEnd : ℝ) (interval : ℕ) (filling : ℝ) :
    real1dRk4JumpF id Real.sin Real.cos sort e w N J U dt tEnd interval filling = real1dRk4Jump sort e w N J U dt tEnd interval filling := by
  have hreg := chain_regular (Chain.Constructed.real (N := N) (1 : ℝ) (by omega) rfl) hN
  obtain ⟨m, h1, -⟩ := initMatrix_ok hreg sort hs J U
  unfold real1dRk4JumpF real1dRk4Jump
  simp only [two_half, (chainFloat_id Real.pi N 1).2.1, h1, Res.bind_val, Sim.simulateF_id, (realBasis_size N).2,
    stepJumpF_id (initMatrix_stored hreg sort hs J U h1), measureJumpF_id]
  rfl

/-- `hubbard_real_2d_rk4_jump` without rounding, for `Nx = Ny`. -/
theorem real2dRk4JumpF_id (hN : 3 ≤ N) (hs : IsSort sort) (e : JumpExecution) (w : Work ℂ) (J U dt tEnd : ℝ) (interval : ℕ) (kx ky : ℝ) :
    real2dRk4JumpF id Real.sin Real.cos sort e w N N J U dt tEnd interval kx ky = real2dRk4Jump sort e w N N J U dt tEnd interval kx ky := by
  have hreg := square_regular (Square.Constructed.real (Nx := N) (Ny := N) (1 : ℝ) 1 (by omega) (by omega) rfl) hN
  obtain ⟨m, h1, -⟩ := initMatrix_ok hreg sort hs J U
  have hsz : (Square.real (K := ℝ) N N 1 1).size = N * N := rfl
  unfold real2dRk4JumpF real2dRk4Jump
  simp only [two_half, (Square.latticeFloat_id Real.pi N N 1 1).2.1, hsz, h1, Res.bind_val, Sim.simulateF_id, (realBasis_size (N * N)).2,
    stepJumpF_id (initMatrix_stored hreg sort hs J U h1), measureJumpF_id, (evTables_id (Chain.real N 1) _ 0 0 [] _).2.2]
  rfl

end

/-- `hubbard_dispersion_1d` without rounding. -/
theorem dispersion1dF_id (energies : List ℕ) (N : ℕ) : dispersion1dF id Real.cos Real.pi energies N = dispersion1d energies N := rfl

theorem trivialParticleNumberF_id (h : List ℂ) : trivialParticleNumberF id h = trivialParticleNumber h := by
  unfold trivialParticleNumberF trivialParticleNumber
  congr 1
  funext acc p
  congr 1
  funext ev
  unfold trivialTermF trivialTerm
  cases MomentumSpace.vecAt h p.1 with
  | ub => rfl
  | diverges => rfl
  | val hi =>
    cases MomentumSpace.vecAt h p.2 with
    | ub => rfl
    | diverges => rfl
    | val hj =>
      have hadd : ∀ (z : ℂ) (x : ℝ), addRealF id z x = z + (x : ℂ) := fun z x => by apply Complex.ext <;> simp [addRealF]
      have hn : ∀ z : ℂ, normF id z = Complex.normSq z := fun z => by simp only [normF, id_eq, Complex.normSq_apply]
      simp only [Res.bind_val, Res.map_val, RealSpace.addC_id, scaleC_id, mulC_id, hadd, hn, id_eq]
      refine congrArg Res.val ?_
      split_ifs <;> push_cast <;> ring

theorem trivialMatrixF_id (J U : ℝ) : trivialMatrixF id J U = fun i j => Complex.I * (trivialMatrix J U i j : ℂ) := by
  funext i j
  unfold trivialMatrixF
  rw [mulC_id, two_half, mul_comm]

theorem trivialLoopF_id {cols : ℕ → List ℕ} (hc : ColumnOrder cols) (J U dt : ℝ) : ∀ (left i : ℕ) (w : Work ℂ) (h : List ℂ),
    trivialLoopF id cols J U dt left i w h = trivialLoop J U dt left i w h := by
  have hS : Stored 4 (fun i j => Complex.I * (trivialMatrix J U i j : ℂ)) cols 4 :=
    ⟨fun i hi => (hc i hi).nodup_iff.2 List.nodup_range, fun i hi j hj => List.mem_range.1 ((hc i hi).mem_iff.1 hj),
      fun i hi j hj _ => (hc i hi).mem_iff.2 (List.mem_range.2 hj), fun i hi => by rw [(hc i hi).length_eq, List.length_range]⟩
  have hrow : ∀ (t : ℝ) (h : List ℂ), trivialRowF id t h = trivialRow t h := fun t h => by
    unfold trivialRowF trivialRow
    rw [trivialParticleNumberF_id]
  intro left
  induction left with
  | zero => intro i w h; unfold trivialLoopF trivialLoop; rw [hrow]; rfl
  | succ left ih =>
    intro i w h
    unfold trivialLoopF trivialLoop
    simp only [hrow, trivialMatrixF_id, stepMatrixF_eq hS, ih, id_eq]

/-- `hubbard_trivial` without rounding. -/
theorem trivialF_id {cols : ℕ → List ℕ} (hc : ColumnOrder cols) (w : Work ℂ) (J U dt : ℝ) (steps : ℕ) :
    trivialF id cols w J U dt steps = trivial w J U dt steps := by
  unfold trivialF trivial
  simp only [trivialLoopF_id hc]

theorem theoryFileF_id (bessel : ℕ → ℝ → ℝ) (sched : List ℕ) (threads : ℕ) (s : List Event) : ∀ step : ℕ,
    theoryFileF id Real.sin bessel theoryStep sched threads s step = theoryFile bessel sched threads s step := by
  intro step
  induction step with
  | zero => rfl
  | succ step ih =>
    unfold theoryFileF theoryFile
    rw [ih]
    congr 1
    funext rows
    have hv : theoryValueF id Real.sin bessel (Chain.realF id theorySites 1) theoryStep sched threads s step =
        theoryValue bessel (Chain.real theorySites 1) sched threads s ((step : ℝ) * theoryStep) := by
      have hsum : ∀ r : List ℂ, r.foldl (fun x y => x + y) 0 = r.sum := fun r => by rw [List.sum_eq_foldl]
      unfold theoryValueF theoryValue
      rw [(chainFloat_id Real.pi theorySites 1).2.1, (evTables_id (Chain.real theorySites 1) (Square.real 1 1 1 1) 1 0.5 sched []).2.1]
      simp only [RealSpace.runLoopF_id, RealSpace.addC_id, mulC_id, scaleC_id, hsum]
      unfold theoryCoefficientF theoryCoefficientConjF theoryCoefficient theoryCoefficientConj
      simp only [scaleC_id, id_eq]
      push_cast
      simp only [mul_assoc]
    rw [hv]
    rfl

/-- `hubbard_real_1d_kinetic_theory` without rounding. -/
theorem kineticTheoryF_id (bessel : ℕ → ℝ → ℝ) (sched : List ℕ) (threads : ℕ) (s : List Event) :
    kineticTheoryF id Real.sin bessel sched threads s = kineticTheory bessel sched threads s := theoryFileF_id bessel sched threads s theorySteps

theorem particleNumberF_id (vec : List ℂ) (table : List (MomentumSpace.Contribution ℝ)) :
    MomentumSpace.particleNumberF id vec table = MomentumSpace.particleNumber vec table := by
  unfold MomentumSpace.particleNumberF MomentumSpace.particleNumber MomentumSpace.particleSum
  congr 2
  funext acc c
  congr 1
  funext r
  unfold MomentumSpace.particleStepF MomentumSpace.particleStep
  refine ite_congr rfl (fun _ => ?_) fun _ => ?_
  · congr 1
    funext l
    refine congrArg Res.val ?_
    apply Complex.ext <;> simp [addRealF, normF, Complex.normSq_apply]
  · congr 1
    funext l
    congr 1
    funext r'
    refine congrArg Res.val ?_
    rw [RealSpace.addC_id, scaleC_id, mul_comm]
    rfl

/-- `hubbard_momentum_1d_rk4` without rounding. -/
theorem momentum1dRk4F_id {N : ℕ} (hN : 1 ≤ N) (conjugation energies : List ℕ) (w : Work ℂ) (J U dt : ℝ) :
    momentum1dRk4F id Real.cos Real.pi conjugation energies w N J U dt = momentum1dRk4 conjugation energies w N J U dt := by
  have hNp : 0 < N := hN
  have hb := MomentumSpace.momentumBasis_eq Real.pi Real.pi_pos N hNp (N / 2)
  unfold momentum1dRk4F momentum1dRk4
  simp only [(chainFloat_id Real.pi N 1).1, (chainFloat_id Real.pi N 1).2.1, (chainFloat_id Real.pi N 1).2.2.2.2, hb, Res.bind_val]
  have hd : Hubbard.chainDispersionF id Real.cos Real.pi N J energies = Hubbard.dispersion (fun a b => a * b) (Chain.momentum Real.pi N).size
    (Chain.momentum Real.pi N).pos (Hubbard.chainVectors (Chain.real (K := ℝ) N 1)) J energies := rfl
  rw [hd]
  congr 1
  funext values
  have hsz : (Chain.momentum Real.pi N).size = N := rfl
  have hsz' : (Chain.real (K := ℝ) N 1).size = N := rfl
  have hm : ∀ eps : ℕ → ℝ, MomentumSpace.initMatrixF id (MomentumSpace.Spec.entries N (N / 2)) N eps U N =
    MomentumSpace.initMatrix (MomentumSpace.Spec.entries N (N / 2)) N eps U N := fun _ => rfl
  obtain ⟨m, m', h1, h2, -, -, hS, -⟩ := MomentumSpace.initMatrixF_elements id hNp (N / 2) (dispersionFunction values) (dispersionFunction values) U
  have hmm : m' = m := by
    rw [hm, h1] at h2
    injection h2 with h
    exact h.symm
  subst hmm
  rw [hsz, hsz', h1, h2]
  simp only [Res.bind_val, particleNumberF_id, MomentumSpace.entries_length, timesIF_id, integrateF_eq (m := timesI m') hS]

end Ieompp.Program
