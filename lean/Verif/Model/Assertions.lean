import Verif.Model.ProgramFloat
import Verif.Model.MomentumProgramFloat
import Verif.Model.Number

/-!
# The programs in a build with assertions

`CMakeLists.txt` sets no build type, so `NDEBUG` is not defined and every `assert` of the headers is compiled in, except in a `Release` build. The functions of
`Verif.Model.ProgramFloat` and `Verif.Model.MomentumProgramFloat` once more with their assertions: the outcome `none` means that an assertion failed and
the process was aborted. The assertions of rk4.hpp:38 and 56 on the number of columns of the vector hold by the type of the vector and are left out, so are
those of multiply_assign.hpp, which the programs do not call. Rounding is an arbitrary function `fl`.
-/

set_option autoImplicit false

namespace Ieompp

/-- Outcome of code with assertions: `none` when an assertion failed. No single place in the code: it is the result type of the functions below, e.g. of
site_occupation.hpp:36-42. -/
abbrev Chk (α : Type*) := Res (Option α)

namespace Chk
variable {α β : Type*}

/-- Sequencing: nothing is executed after a failed assertion. The `;` of C++, no single place in the code (e.g. site_occupation.hpp:36-42). -/
def andThen (x : Chk α) (f : α → Chk β) : Chk β := x.bind fun o => match o with
  | some a => f a
  | none => .val none

/-- Code without assertions. No single place in the code (e.g. site_occupation.hpp:41). -/
def lift (x : Res α) : Chk α := x.map some

/-- `assert(c1); assert(c2); ...`. E.g. site_occupation.hpp:102-113. -/
def assertAll : List (Res Bool) → Chk Unit
  | [] => .val (some ())
  | c :: cs => c.bind fun b => if b then assertAll cs else .val none

end Chk

open Chk

namespace RealSpace

open MomentumSpace (vecAt)

/-- `m.size() == n`. site_occupation.hpp:38-39, 87-88, 102-103, 164-165. -/
def sizeIs (m : HMonomial) (n : ℕ) : Res Bool := .val (m.length == n)

/-- `m[k].creator`. site_occupation.hpp:90-91, 105-108, 167-172. -/
def creatorAt (m : HMonomial) (k : ℕ) : Res Bool := (vecAt m k).map fun o => o.creator

/-- `m[k].index2`. site_occupation.hpp:93-94, 110-113, 174-179. -/
def upAt (m : HMonomial) (k : ℕ) : Res Bool := (vecAt m k).map fun o => o.index.2

/-- `!c`. site_occupation.hpp:91, 107-108, 111-112, 169, 171-172, 175-178. -/
def notR (c : Res Bool) : Res Bool := c.map (! ·)

section
variable (fl : ℝ → ℝ) (ev : HOp → HOp → ℝ)

/-- site_occupation.hpp:36-42: `expectation_value` of the one-operator basis. -/
def ev1A (a b : HMonomial) : Chk ℝ := andThen (assertAll [sizeIs a 1, sizeIs b 1]) fun _ => lift (ev11F fl ev a b)

/-- site_occupation.hpp:85-98: `expectation_value_1_1`. -/
def ev11A (a b : HMonomial) : Chk ℝ :=
  andThen (assertAll [sizeIs a 1, sizeIs b 1, creatorAt a 0, notR (creatorAt b 0), upAt a 0, upAt b 0]) fun _ => lift (ev11F fl ev a b)

/-- site_occupation.hpp:100-129: `expectation_value_1_3`. -/
noncomputable def ev13A (a b : HMonomial) : Chk ℝ :=
  andThen (assertAll [sizeIs a 1, sizeIs b 3, creatorAt a 0, creatorAt b 0, notR (creatorAt b 1), notR (creatorAt b 2),
    upAt a 0, notR (upAt b 0), notR (upAt b 1), upAt b 2]) fun _ => lift (ev13F fl ev a b)

/-- site_occupation.hpp:162-224: `expectation_value_3_3`. -/
noncomputable def ev33A (a b : HMonomial) : Chk ℝ :=
  andThen (assertAll [sizeIs a 3, sizeIs b 3, creatorAt a 0, creatorAt a 1, notR (creatorAt a 2), creatorAt b 0, notR (creatorAt b 1),
    notR (creatorAt b 2), upAt a 0, notR (upAt a 1), notR (upAt a 2), notR (upAt b 0), notR (upAt b 1), upAt b 2]) fun _ => lift (ev33F fl ev a b)

variable (basis conj : List HMonomial) (vec : List ℂ)

/-- `f(basis[i], conjugate_basis[j])`. site_occupation.hpp:58; compare `evAt`. -/
def evAtA (f : HMonomial → HMonomial → Chk ℝ) (i j : ℕ) : Chk ℝ :=
  (vecAt basis i).bind fun a => (vecAt conj j).bind fun b => f a b

/-- site_occupation.hpp:57-59; compare `fullTermF`. -/
noncomputable def fullTermA (f : HMonomial → HMonomial → Chk ℝ) (i j : ℕ) : Chk ℂ :=
  andThen (evAtA basis conj f i j) fun e => lift <| (vecAt vec i).bind fun vi => (vecAt vec j).bind fun vj =>
    let z := ODE.scaleC fl e (multiplyWithConjugateF fl vi vj)
    .val ⟨fl (z.re / 2), fl (z.im / 2)⟩

/-- site_occupation.hpp:254-256, 266-268, 276-278; compare `symTermF`. -/
noncomputable def symTermA (f : HMonomial → HMonomial → Chk ℝ) (i j : ℕ) : Chk ℂ :=
  andThen (evAtA basis conj f i j) fun e => lift <| (vecAt vec i).bind fun vi => (vecAt vec j).bind fun vj =>
    .val ((fl (fl (e * addConjugateProductsF fl vi vj) / 2) : ℝ) : ℂ)

/-- site_occupation.hpp:258-259, 280-281; compare `diagTermF`. -/
noncomputable def diagTermA (f : HMonomial → HMonomial → Chk ℝ) (i : ℕ) : Chk ℂ :=
  andThen (evAtA basis conj f i i) fun e => lift <| (vecAt vec i).bind fun vi =>
    .val ((fl (fl (e * normF fl vi) / 2) : ℝ) : ℂ)

/-- The statements of a triangular loop. site_occupation.hpp:251-260, 273-282; compare `triTermF`. -/
noncomputable def triTermA (f : HMonomial → HMonomial → Chk ℝ) (i j : ℕ) : Chk ℂ :=
  if j = i then diagTermA fl basis conj vec f i else symTermA fl basis conj vec f i j

/-- A parallel loop; an assertion that fails in one thread ends the process. site_occupation.hpp:53-61, 249-317; compare `runLoopF`. -/
def runLoopA (body : ℕ → ℕ → Chk ℂ) (sched : List Event) (results : List ℂ) : Chk (List ℂ) :=
  sched.foldl (fun (acc : Chk (List ℂ)) e => andThen acc fun r => andThen (body e.2.1 e.2.2) fun x => lift (addToF fl r e.1 x)) (.val (some results))

/-- Several parallel loops one after the other. site_occupation.hpp:249-315; compare `runLoopsF`. -/
def runLoopsA : List ((ℕ → ℕ → Chk ℂ) × List Event) → List ℂ → Chk (List ℂ)
  | [], results => .val (some results)
  | l :: loops, results => andThen (runLoopA fl l.1 l.2 results) fun results => runLoopsA loops results

open Classical in
/-- `assert(types::IsZero(result.imag())); return result.real();` with `std::numeric_limits<double>::epsilon()`, which is `2⁻⁵²`.
site_occupation.hpp:66-67, 323-325, particle_number.hpp:57-59. -/
noncomputable def realPart (result : ℂ) : Chk ℝ :=
  andThen (assertAll [.val (decide (isZeroR (1 / 2 ^ 52) result.im))]) fun _ => .val (some result.re)

/-- site_occupation.hpp:240-326 and 44-68: the loops one after the other, `accumulate`, the assertion and the real part; compare `siteOccupationF`. -/
noncomputable def siteOccupationA (loops : List ((ℕ → ℕ → Chk ℂ) × List Event)) (threads : ℕ) : Chk ℝ :=
  andThen (runLoopsA fl loops (List.replicate threads 0)) fun results => realPart (accumulateF fl results)

/-- site_occupation.hpp:44-68: `operator()` of the one-operator site occupation; compare `siteOccupation1F`. -/
noncomputable def siteOccupation1A (threads : ℕ) (s : List Event) : Chk ℝ :=
  siteOccupationA fl [(fullTermA fl basis conj vec (ev1A fl ev), s)] threads

/-- site_occupation.hpp:240-283, 318-326: `operator()` of the three-operator site occupation, which exploits the symmetry; compare `siteOccupation3F`. -/
noncomputable def siteOccupation3A (threads : ℕ) (s1 s2 s3 : List Event) : Chk ℝ :=
  siteOccupationA fl [(triTermA fl basis conj vec (ev11A fl ev), s1), (symTermA fl basis conj vec (ev13A fl ev), s2),
    (triTermA fl basis conj vec (ev33A fl ev), s3)] threads

open Classical in
/-- expectation_value.hpp:29-46: constructor of `ExpectationValue1DHalfFilled`; compare `evTable1DF`. -/
noncomputable def evTable1DA (sinF : ℝ → ℝ) (c : Chain ℝ) (filling kF : ℝ) (sched : List ℕ) : Chk (List ℝ) :=
  andThen (assertAll [.val (decide (filling ≥ 0)), .val (decide (filling ≤ 1))]) fun _ => lift (evTable1DF fl sinF c filling kF sched)

end

end RealSpace

namespace Sim
variable {H O : Type*}

/-- The measurement block (hubbard_real_1d_rk4.cpp:67-75 and 83-91); compare `maybeMeasureF`. -/
noncomputable def maybeMeasureA (fl : ℝ → ℝ) (measure : H → Chk (H × O)) (dt : ℝ) (interval : ℕ) (s : State H O) : Chk (State H O) :=
  (hasTimeIntervalPassedF fl s.t s.last dt interval).bind fun b =>
    if b then andThen (measure s.h) fun r => .val (some { s with h := r.1, out := s.out ++ [(s.t, r.2)], last := s.t }) else .val (some s)

/-- The body of the time loop (hubbard_real_1d_rk4.cpp:66-81); compare `bodyF`. -/
noncomputable def bodyA (fl : ℝ → ℝ) (step : H → Chk H) (measure : H → Chk (H × O)) (dt : ℝ) (interval : ℕ) (s : State H O) : Chk (State H O) :=
  andThen (maybeMeasureA fl measure dt interval s) fun s => andThen (step s.h) fun h => .val (some { s with h := h, t := fl (s.t + dt) })

/-- The condition of the time loop, `t < t_end` (hubbard_real_1d_rk4.cpp:66); an aborted process does not go on. -/
def runningA (tEnd : ℝ) : Chk (State H O) → Prop
  | .val (some s) => s.t < tEnd
  | .val none => False
  | .ub => False
  | .diverges => False

/-- hubbard_real_1d_rk4.cpp:54-91: measurement at `t = 0`, time loop, final measurement; compare `simulateF`. -/
noncomputable def simulateA (fl : ℝ → ℝ) (step : H → Chk H) (measure : H → Chk (H × O)) (dt tEnd : ℝ) (interval : ℕ) (h0 : H) : Chk (State H O) :=
  andThen (measure h0) fun r =>
  let s : State H O := { h := r.1, t := 0, last := 0, out := [(0, r.2)] }
  andThen ((whileLoop (runningA tEnd) (fun s => andThen s (bodyA fl step measure dt interval)) (.val (some s))).bind id)
    (maybeMeasureA fl measure dt interval)

end Sim

namespace Program

open RealSpace

section
variable (fl sinF : ℝ → ℝ)

/-- periodic_chain.hpp:80, 88: `assert(N > 0)`. -/
def chainAssert (N : ℕ) : Chk Unit := assertAll [.val (decide (N > 0))]

/-- periodic_square_lattice.hpp:109-111: the assertions of the constructor. -/
def squareAssert (Nx Ny : ℕ) : Chk Unit := assertAll [.val (decide (Nx > 0)), .val (decide (Ny > 0)), .val (decide (Nx * Ny > 0))]

/-- `integrator.step(M, h)` with the assertions of rk4.hpp:36-39; compare `stepVarsF`. -/
noncomputable def stepVarsA (n : ℕ) (dt : ℝ) (m : Sparse ℝ) (s : Vars) : Chk Vars :=
  andThen (assertAll [.val (m.rows == m.columns), .val (m.rows == n), .val (s.2.2.length == n)]) fun _ => lift (stepVarsF fl n dt m s)

/-- The same for the programs that write the jump. hubbard_real_1d_rk4_jump.cpp:75; compare `stepJumpF`. -/
noncomputable def stepJumpA (n : ℕ) (dt : ℝ) (m : Sparse ℝ) (s : JumpVars) : Chk JumpVars :=
  andThen (stepVarsA fl n dt m s.1) fun v => .val (some (v, s.2))

/-- hubbard_real_1d_rk4.cpp:42-91; compare `real1dRk4F`. -/
noncomputable def real1dRk4A (sort : List (Triplet ℝ) → List (Triplet ℝ)) (e : Execution) (w : ODE.Work ℂ) (N : ℕ)
    (J U dt tEnd : ℝ) (interval : ℕ) (filling : ℝ) : Chk (Sim.State Vars ℝ) :=
  let lattice := Chain.real (K := ℝ) N 1
  let basis := basis3 N
  let conjugateBasis := getConjugate e.conjugation basis
  andThen (chainAssert N) fun _ =>
  andThen (evTable1DA fl sinF lattice filling (fermiMomentum1DF fl filling) e.table) fun values =>
  (initMatrix sort N 2 lattice.neighbors J (2 * fl (U / 2))).bind fun m =>
  (initVector basis.length).bind fun h =>
  Sim.simulateA fl (stepVarsA fl basis.length dt m)
    (fun s => andThen (siteOccupation3A fl (evFunction lattice values) basis conjugateBasis s.2.2 (e.threads s.1) (e.loop1 s.1)
      (e.loop2 s.1) (e.loop3 s.1)) fun x => .val (some (s, x)))
    dt tEnd interval (0, w, h)

/-- hubbard_real_1d_kinetic_rk4.cpp:40-87; compare `real1dKineticRk4F`. -/
noncomputable def real1dKineticRk4A (sort : List (Triplet ℝ) → List (Triplet ℝ)) (e : Execution) (w : ODE.Work ℂ) (N : ℕ)
    (J dt tEnd : ℝ) (interval : ℕ) (filling : ℝ) : Chk (Sim.State Vars ℝ) :=
  let lattice := Chain.real (K := ℝ) N 1
  let basis := basis1 N
  let conjugateBasis := getConjugate e.conjugation basis
  andThen (chainAssert N) fun _ =>
  andThen (evTable1DA fl sinF lattice filling (fermiMomentum1DF fl filling) e.table) fun values =>
  (initKineticMatrix sort N 2 lattice.neighbors J).bind fun m =>
  (initVector basis.length).bind fun h =>
  Sim.simulateA fl (stepVarsA fl basis.length dt m)
    (fun s => andThen (siteOccupation1A fl (evFunction lattice values) basis conjugateBasis s.2.2 (e.threads s.1) (e.loop1 s.1))
      fun x => .val (some (s, x)))
    dt tEnd interval (0, w, h)

/-- hubbard_real_1d_rk4_coefficients.cpp:39-91; compare `real1dRk4CoefficientsF`. -/
noncomputable def real1dRk4CoefficientsA (sort : List (Triplet ℝ) → List (Triplet ℝ)) (w : ODE.Work ℂ) (N : ℕ)
    (J U dt tEnd : ℝ) (interval : ℕ) : Chk (Sim.State Vars (List ℝ)) :=
  let lattice := Chain.real (K := ℝ) N 1
  let basis := basis3 N
  andThen (chainAssert N) fun _ =>
  (initMatrix sort N 2 lattice.neighbors J (2 * fl (U / 2))).bind fun m =>
  (initVector basis.length).bind fun h =>
  Sim.simulateA fl (stepVarsA fl basis.length dt m) (fun s => .val (some (s, coefficientRow s.2.2))) dt tEnd interval (0, w, h)

/-- hubbard_real_1d_kinetic_rk4_coefficients.cpp:37-89; compare `real1dKineticRk4CoefficientsF`. -/
noncomputable def real1dKineticRk4CoefficientsA (sort : List (Triplet ℝ) → List (Triplet ℝ)) (w : ODE.Work ℂ) (N : ℕ)
    (J dt tEnd : ℝ) (interval : ℕ) : Chk (Sim.State Vars (List ℝ)) :=
  let lattice := Chain.real (K := ℝ) N 1
  let basis := basis1 N
  andThen (chainAssert N) fun _ =>
  (initKineticMatrix sort N 2 lattice.neighbors J).bind fun m =>
  (initVector basis.length).bind fun h =>
  Sim.simulateA fl (stepVarsA fl basis.length dt m) (fun s => .val (some (s, coefficientRow s.2.2))) dt tEnd interval (0, w, h)

/-- hubbard_real_1d_rk4_jump.cpp:43-88; compare `real1dRk4JumpF`. -/
noncomputable def real1dRk4JumpA (cosF : ℝ → ℝ) (sort : List (Triplet ℝ) → List (Triplet ℝ)) (e : JumpExecution) (w : ODE.Work ℂ) (N : ℕ)
    (J U dt tEnd : ℝ) (interval : ℕ) (filling : ℝ) : Chk (Sim.State JumpVars ℝ) :=
  let lattice := Chain.realF fl N 1
  let basis := basis3 N
  let kF := fermiMomentum1DF fl filling
  andThen (chainAssert N) fun _ =>
  andThen (evTable1DA fl sinF lattice filling kF e.table) fun values =>
  (initMatrix sort N 2 lattice.neighbors J (2 * fl (U / 2))).bind fun m =>
  (initVector basis.length).bind fun h =>
  (jumpCtorF sinF cosF N (fun i => fl (kF * lattice.posF fl i)) e.coefficients).bind fun f =>
  Sim.simulateA fl (stepJumpA fl basis.length dt m) (fun s => lift (measureJumpF fl (evFunction lattice values) basis N f e s)) dt tEnd interval
    ((0, w, h), none)

/-- hubbard_real_2d_rk4_jump.cpp:47-101; compare `real2dRk4JumpF`. -/
noncomputable def real2dRk4JumpA (cosF : ℝ → ℝ) (sort : List (Triplet ℝ) → List (Triplet ℝ)) (e : JumpExecution) (w : ODE.Work ℂ)
    (Nx Ny : ℕ) (J U dt tEnd : ℝ) (interval : ℕ) (kx ky : ℝ) : Chk (Sim.State JumpVars ℝ) :=
  let lattice := Square.realF fl Nx Ny 1 1
  let basis := basis3 lattice.size
  andThen (squareAssert Nx Ny) fun _ =>
  (evTable2DF fl sinF lattice e.table2).bind fun values =>
  (initMatrix sort lattice.size 4 lattice.neighbors J (2 * fl (U / 2))).bind fun m =>
  (jumpCtorF sinF cosF lattice.size (fun i => dot2F fl (kx, ky) (lattice.posF fl i)) e.coefficients).bind fun f =>
  (initVector basis.length).bind fun h =>
  Sim.simulateA fl (stepJumpA fl basis.length dt m) (fun s => lift (measureJumpF fl (evFunction2D lattice values) basis lattice.size f e s)) dt
    tEnd interval ((0, w, h), none)

end

open MomentumSpace

/-- hubbard_momentum_space/particle_number.hpp:39-60: `operator()`; compare `particleNumberF`. -/
noncomputable def particleNumberA (fl : ℝ → ℝ) (vec : List ℂ) (table : List (Contribution ℝ)) : Chk ℝ :=
  (table.foldl (fun (acc : Res ℂ) c => acc.bind fun r => particleStepF fl vec r c) (.val 0)).bind fun result => realPart result

/-- `integrator.step(M, h)` several times (hubbard_momentum_1d_rk4.cpp:60-65) with the assertions of rk4.hpp:36-39; compare `ODE.integrateF`. -/
noncomputable def integrateA (fl : ℝ → ℝ) (n : ℕ) (h : ℝ) (m : Sparse ℝ) : ℕ → ODE.Work ℂ → List ℂ → Chk (ODE.Work ℂ × List ℂ)
  | 0, w, u => .val (some (w, u))
  | steps + 1, w, u =>
    andThen (assertAll [.val (m.rows == m.columns), .val (m.rows == n), .val (u.length == n)]) fun _ =>
    (ODE.stepMatrixF fl n h (timesIF fl m) (RealSpace.storedColumns m) w u).bind fun r => integrateA fl n h m steps r.1 r.2

/-- hubbard_momentum_1d_rk4.cpp:40-67 with the assertions of periodic_chain.hpp:80, 88 and non_vanishing_expectation_values.hpp:40; compare
`momentum1dRk4F`. -/
noncomputable def momentum1dRk4A (fl cosF : ℝ → ℝ) (p : ℝ) (conjugation energies : List ℕ) (w : ODE.Work ℂ) (N : ℕ) (J U dt : ℝ) :
    Chk (ℝ × ℝ) :=
  let kIdx := N / 2
  let brillouinZone := Chain.momentumF fl p N
  let lattice := Chain.realF fl N 1
  andThen (chainAssert N) fun _ =>
  (basis3F fl kIdx brillouinZone).bind fun basis =>
  let conjugateBasis := RealSpace.getConjugate conjugation basis
  (Hubbard.chainDispersionF fl cosF p N J energies).bind fun values =>
  (MomentumSpace.initMatrixF fl basis brillouinZone.size (dispersionFunction values) U lattice.size).bind fun m =>
  (initVector basis.length).bind fun h =>
  andThen (assertAll [.val (basis.length == conjugateBasis.length)]) fun _ =>
  (nonVanishing basis conjugateBasis (dispersionFunction values) 0).bind fun table =>
  andThen (particleNumberA fl h table) fun first =>
  andThen (integrateA fl basis.length dt m 8 w h) fun r =>
  andThen (particleNumberA fl r.2 table) fun second => .val (some (first, second))

end Program

end Ieompp
