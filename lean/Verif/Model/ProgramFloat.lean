import Verif.Model.JumpProgram
import Verif.Model.SimulationFloat
import Verif.Model.RK4Float
import Verif.Model.LatticeFloat

/-!
# The real-space programs on the chain in floating point arithmetic

The programs of `Verif.Model.Program` and `Verif.Model.JumpProgram` again, now with every operation on `double` rounded by `fl`: the
table of expectation values, the matrix elements, the Runge–Kutta steps, the measurements and the times. `std::sin` is an arbitrary
function `sinF`. Overflow, underflow, infinities and NaN are not modelled. Integers are converted to `double` by `fl`.
-/

set_option autoImplicit false

namespace Ieompp

namespace RealSpace

open MomentumSpace (vecAt opAt)

section
variable (fl sinF : ℝ → ℝ)

/-- dispersion.hpp:17-21: `filling_factor * Pi<Float>::value`; the constant is the rounded `π` (constants.hpp:25-26). -/
noncomputable def fermiMomentum1DF (filling : ℝ) : ℝ := fl (filling * fl Real.pi)

/-- expectation_value.hpp:43-44: `std::sin(k_F * dist * lattice.dx()) / (pi * dist * lattice.dx())`. -/
noncomputable def evValue1DF (kF dx : ℝ) (dist : ℕ) : ℝ :=
  fl (sinF (fl (fl (kF * fl dist) * dx)) / fl (fl (fl Real.pi * fl dist) * dx))

/-- expectation_value.hpp:29-46: constructor of `ExpectationValue1DHalfFilled`; compare `evTable1D`. -/
noncomputable def evTable1DF (c : Chain ℝ) (filling kF : ℝ) (sched : List ℕ) : Res (List ℝ) :=
  (assignAt (List.replicate (c.size / 2 + 1) 0) 0 filling).bind fun values =>
  storeLoop (fun dist => .val (evValue1DF fl sinF kF c.dx dist)) sched values

/-- expectation_value.hpp:76-99: the value for distances `dist_x`, `dist_y`; compare `evValue2D`. The constants are the rounded `π` and `π/2`
(constants.hpp:25-28). -/
noncomputable def evValue2DF (distX distY : ℕ) : ℝ :=
  let prefactor1 := fl (2 / fl (fl Real.pi * fl Real.pi))
  let prefactor2 := fl (1 / fl Real.pi)
  let piHalf := fl (Real.pi / 2)
  let sum := distX + distY
  let diff := if distX > distY then distX - distY else distY - distX
  if distX = distY then
    if distX = 0 then 0.5
    else fl (fl (prefactor2 * sinF (fl (piHalf * fl sum))) / fl sum)
  else fl (fl (prefactor1 * fl (sinF (fl (piHalf * fl sum)) / fl sum)) * fl (sinF (fl (piHalf * fl diff)) / fl diff))

/-- expectation_value.hpp:71-102: constructor of `ExpectationValue2DHalfFilled`; compare `evTable2D`. -/
noncomputable def evTable2DF (s : Square ℝ) (sched : List (ℕ × ℕ)) : Res (List ℝ) :=
  sched.foldl (fun (acc : Res (List ℝ)) d => acc.bind fun v =>
      assignAt v ((s.sizeY / 2 + 1) * d.1 + d.2) (evValue2DF fl sinF d.1 d.2))
    (.val (List.replicate ((s.sizeX / 2 + 1) * (s.sizeY / 2 + 1)) 0))

/-- types/blaze/dot_product.hpp:12-17: the scalar product of two vectors with two components. -/
def dot2F (a b : ℝ × ℝ) : ℝ := fl (fl (a.1 * b.1) + fl (a.2 * b.2))

variable (ev : HOp → HOp → ℝ)

/-- site_occupation.hpp:41 and 97: `2. * expectation_value_function(a.front(), b.front())`. -/
def ev11F (a b : HMonomial) : Res ℝ :=
  (vecAt a 0).bind fun a0 => (vecAt b 0).bind fun b0 => .val (fl (2 * ev a0 b0))

/-- site_occupation.hpp:115-127: `expectation_value_1_3`. -/
noncomputable def ev13F (a b : HMonomial) : Res ℝ :=
  (vecAt b 0).bind fun b0 => (vecAt b 1).bind fun b1 =>
  let ret := ev b0 b1
  let ret := if b0.index.1 = b1.index.1 then fl (ret - 0.5) else ret
  (vecAt a 0).bind fun a0 => (vecAt b 2).bind fun b2 =>
  let ret := fl (ret * ev a0 b2)
  .val (fl (4 * ret))

/-- site_occupation.hpp:181-223: `expectation_value_3_3`. -/
noncomputable def ev33F (a b : HMonomial) : Res ℝ :=
  (vecAt a 0).bind fun a0 => (vecAt a 1).bind fun a1 => (vecAt a 2).bind fun a2 =>
  (vecAt b 0).bind fun b0 => (vecAt b 1).bind fun b1 => (vecAt b 2).bind fun b2 =>
  let ev6 := fl (fl (fl (8 * ev a0 b2) * ev a1 a2) * ev b0 b1)
  let ev6 := fl (ev6 + fl (fl (fl (8 * ev a0 b2) * ev a1 b1) *
    fl ((if a2.index.1 = b0.index.1 then 1 else 0) - ev b0 a2)))
  let kronecker1 := a1.index.1 = a2.index.1
  let kronecker2 := b0.index.1 = b1.index.1
  let ev4 := 0
  let ev4 := if kronecker1 then fl (ev4 - fl (fl (4 * ev a0 b2) * ev b0 b1)) else ev4
  let ev4 := if kronecker2 then fl (ev4 - fl (fl (4 * ev a0 b2) * ev a1 a2)) else ev4
  let ev2 := 0
  let ev2 := if kronecker1 ∧ kronecker2 then fl (ev2 + fl (2 * ev a0 b2)) else ev2
  .val (fl (fl (ev6 + ev4) + ev2))

/-- types/number/complex.hpp:54-60: `multiply_with_conjugate`. -/
def multiplyWithConjugateF (a b : ℂ) : ℂ :=
  ⟨fl (fl (a.re * b.re) + fl (a.im * b.im)), fl (fl (-a.re * b.im) + fl (b.re * a.im))⟩

/-- types/number/complex.hpp:62-66: `add_conjugate_products`. -/
def addConjugateProductsF (a b : ℂ) : ℝ := fl (2 * fl (fl (a.re * b.re) + fl (a.im * b.im)))

variable (basis conj : List HMonomial) (vec : List ℂ)

/-- `f(basis[i], conjugate_basis[j]) * types::multiply_with_conjugate(vector[i], vector[j]) / 2.`. site_occupation.hpp:57-59. -/
noncomputable def fullTermF (f : HMonomial → HMonomial → Res ℝ) (i j : ℕ) : Res ℂ :=
  (evAt basis conj f i j).bind fun e => (vecAt vec i).bind fun vi => (vecAt vec j).bind fun vj =>
    let z := ODE.scaleC fl e (multiplyWithConjugateF fl vi vj)
    .val ⟨fl (z.re / 2), fl (z.im / 2)⟩

/-- `f(basis[i], conjugate_basis[j]) * types::add_conjugate_products(vector[i], vector[j]) / 2.`.
site_occupation.hpp:254-256, 266-268, 276-278. -/
noncomputable def symTermF (f : HMonomial → HMonomial → Res ℝ) (i j : ℕ) : Res ℂ :=
  (evAt basis conj f i j).bind fun e => (vecAt vec i).bind fun vi => (vecAt vec j).bind fun vj =>
    .val ((fl (fl (e * addConjugateProductsF fl vi vj) / 2) : ℝ) : ℂ)

/-- `f(basis[i], conjugate_basis[i]) * std::norm(vector[i]) / 2.`. site_occupation.hpp:258-259, 280-281. -/
noncomputable def diagTermF (f : HMonomial → HMonomial → Res ℝ) (i : ℕ) : Res ℂ :=
  (evAt basis conj f i i).bind fun e => (vecAt vec i).bind fun vi =>
    .val ((fl (fl (e * normF fl vi) / 2) : ℝ) : ℂ)

/-- The statements of a triangular loop. site_occupation.hpp:251-260, 273-282. -/
noncomputable def triTermF (f : HMonomial → HMonomial → Res ℝ) (i j : ℕ) : Res ℂ :=
  if j = i then diagTermF fl basis conj vec f i else symTermF fl basis conj vec f i j

/-- site_occupation.hpp:44-68: `operator()` of the one-operator site occupation. -/
noncomputable def siteOccupation1F (threads : ℕ) (s : List Event) : Res ℝ :=
  siteOccupationF fl [(fullTermF fl basis conj vec (ev11F fl ev), s)] threads

/-- site_occupation.hpp:240-283, 318-326: `operator()` of the three-operator site occupation, which exploits the symmetry (its
default). -/
noncomputable def siteOccupation3F (threads : ℕ) (s1 s2 s3 : List Event) : Res ℝ :=
  siteOccupationF fl [(triTermF fl basis conj vec (ev11F fl ev), s1), (symTermF fl basis conj vec (ev13F fl ev), s2),
    (triTermF fl basis conj vec (ev33F fl ev), s3)] threads

/-- fermi_jump/1d.hpp:110-113, fermi_jump/2d.hpp:49-53: `Complex(std::cos(prod), std::sin(prod))`; `phase i` is the computed `prod`. -/
def phaseFactorF (cosF : ℝ → ℝ) (phase : ℕ → ℝ) (i : ℕ) : ℂ := ⟨cosF (phase i), sinF (phase i)⟩

/-- fermi_jump/1d.hpp:102-115, fermi_jump/2d.hpp:42-55: constructors for the three-operator basis; compare `jumpCtor`. -/
def jumpCtorF (cosF : ℝ → ℝ) (N : ℕ) (phase : ℕ → ℝ) (sched : List ℕ) : Res (List ℂ) :=
  storeLoop (fun i => .val (phaseFactorF sinF cosF phase i)) sched (List.replicate N 0)

/-- fermi_jump/1d.hpp:129-144, fermi_jump/2d.hpp:69-84: the value of `h_NO[i]` after iteration `i`; compare `hNoValue`. -/
def hNoValueF (N : ℕ) (i : ℕ) : Res ℂ :=
  ((List.range N).flatMap fun j => (List.range N).map fun k => (j, k)).foldl (fun acc jk => acc.bind fun x =>
    (opAt basis jk.1 0).bind fun oj => (opAt basis jk.2 0).bind fun ok =>
    let prefactor := fl (2 * ev oj ok)
    let prefactor := if jk.1 = jk.2 then fl (prefactor - 1) else prefactor
    (vecAt vec (get3opIndex N i jk.1 jk.2)).bind fun hh => .val (addC fl x (ODE.scaleC fl prefactor hh))) (vecAt vec i)

/-- fermi_jump/1d.hpp:120-154, fermi_jump/2d.hpp:60-94: `operator()`; compare `jumpCall`. -/
def jumpCallF (N : ℕ) (f : List ℂ) (threads : ℕ) (sched1 : List ℕ) (sched2 : List Event) (static_ : Option (List ℂ)) :
    Res (Option (List ℂ) × ℝ) :=
  let hNo := static_.getD (List.replicate N 0)
  (storeLoop (hNoValueF fl ev basis vec N) sched1 hNo).bind fun hNo =>
  (jumpSumF fl f hNo threads sched2).map fun r => (some hNo, r)

end

end RealSpace

namespace Program

open RealSpace

section
variable (fl sinF : ℝ → ℝ)

/-- `M *= std::complex<double>(0, 1)` (real_space/matrix.hpp:17, 34): the elements, stored as complex numbers, times the imaginary
unit. -/
noncomputable def timesIF (m : Sparse ℝ) (i j : ℕ) : ℂ := mulC fl (m.get i j : ℂ) Complex.I

/-- `integrator.step(M, h)` (hubbard_real_1d_rk4.cpp:78); compare `stepVars`. -/
noncomputable def stepVarsF (n : ℕ) (dt : ℝ) (m : Sparse ℝ) (s : Vars) : Res Vars :=
  (ODE.stepMatrixF fl n dt (timesIF fl m) (storedColumns m) s.2.1 s.2.2).map fun r => (s.1 + 1, r.1, r.2)

/-- hubbard_real_1d_rk4.cpp:42-91; compare `real1dRk4`. The elements `liouvillian.U / 2.` of the matrix are rounded (blaze_sparse.hpp:83,
85, 128, 130), `±liouvillian.J` is exact. -/
noncomputable def real1dRk4F (sort : List (Triplet ℝ) → List (Triplet ℝ)) (e : Execution) (w : ODE.Work ℂ) (N : ℕ)
    (J U dt tEnd : ℝ) (interval : ℕ) (filling : ℝ) : Res (Sim.State Vars ℝ) :=
  let lattice := Chain.real (K := ℝ) N 1
  let basis := basis3 N
  let conjugateBasis := getConjugate e.conjugation basis
  (evTable1DF fl sinF lattice filling (fermiMomentum1DF fl filling) e.table).bind fun values =>
  (initMatrix sort N 2 lattice.neighbors J (2 * fl (U / 2))).bind fun m =>
  (initVector basis.length).bind fun h =>
  Sim.simulateF fl (stepVarsF fl basis.length dt m)
    (fun s => (siteOccupation3F fl (evFunction lattice values) basis conjugateBasis s.2.2 (e.threads s.1) (e.loop1 s.1)
      (e.loop2 s.1) (e.loop3 s.1)).map fun x => (s, x))
    dt tEnd interval (0, w, h)

/-- hubbard_real_1d_kinetic_rk4.cpp:40-87; compare `real1dKineticRk4`. -/
noncomputable def real1dKineticRk4F (sort : List (Triplet ℝ) → List (Triplet ℝ)) (e : Execution) (w : ODE.Work ℂ) (N : ℕ)
    (J dt tEnd : ℝ) (interval : ℕ) (filling : ℝ) : Res (Sim.State Vars ℝ) :=
  let lattice := Chain.real (K := ℝ) N 1
  let basis := basis1 N
  let conjugateBasis := getConjugate e.conjugation basis
  (evTable1DF fl sinF lattice filling (fermiMomentum1DF fl filling) e.table).bind fun values =>
  (initKineticMatrix sort N 2 lattice.neighbors J).bind fun m =>
  (initVector basis.length).bind fun h =>
  Sim.simulateF fl (stepVarsF fl basis.length dt m)
    (fun s => (siteOccupation1F fl (evFunction lattice values) basis conjugateBasis s.2.2 (e.threads s.1) (e.loop1 s.1)).map fun x => (s, x))
    dt tEnd interval (0, w, h)

/-- hubbard_real_1d_rk4_coefficients.cpp:39-91; compare `real1dRk4Coefficients`. -/
noncomputable def real1dRk4CoefficientsF (sort : List (Triplet ℝ) → List (Triplet ℝ)) (w : ODE.Work ℂ) (N : ℕ)
    (J U dt tEnd : ℝ) (interval : ℕ) : Res (Sim.State Vars (List ℝ)) :=
  let lattice := Chain.real (K := ℝ) N 1
  let basis := basis3 N
  (initMatrix sort N 2 lattice.neighbors J (2 * fl (U / 2))).bind fun m =>
  (initVector basis.length).bind fun h =>
  Sim.simulateF fl (stepVarsF fl basis.length dt m) (fun s => .val (s, coefficientRow s.2.2)) dt tEnd interval (0, w, h)

/-- hubbard_real_1d_kinetic_rk4_coefficients.cpp:37-89; compare `real1dKineticRk4Coefficients`. -/
noncomputable def real1dKineticRk4CoefficientsF (sort : List (Triplet ℝ) → List (Triplet ℝ)) (w : ODE.Work ℂ) (N : ℕ)
    (J dt tEnd : ℝ) (interval : ℕ) : Res (Sim.State Vars (List ℝ)) :=
  let lattice := Chain.real (K := ℝ) N 1
  let basis := basis1 N
  (initKineticMatrix sort N 2 lattice.neighbors J).bind fun m =>
  (initVector basis.length).bind fun h =>
  Sim.simulateF fl (stepVarsF fl basis.length dt m) (fun s => .val (s, coefficientRow s.2.2)) dt tEnd interval (0, w, h)

/-- `obs = fermi_jump(h)` (hubbard_real_1d_rk4_jump.cpp:56, hubbard_real_2d_rk4_jump.cpp:66); compare `measureJump`. -/
noncomputable def measureJumpF (ev : HOp → HOp → ℝ) (basis : List HMonomial) (N : ℕ) (f : List ℂ) (e : JumpExecution)
    (s : JumpVars) : Res (JumpVars × ℝ) :=
  (jumpCallF fl ev basis s.1.2.2 N f (e.threads s.1.1) (e.normalOrder s.1.1) (e.sum s.1.1) s.2).map fun r => ((s.1, r.1), r.2)

/-- `integrator.step(M, h)` (hubbard_real_1d_rk4_jump.cpp:75); compare `stepJump`. -/
noncomputable def stepJumpF (n : ℕ) (dt : ℝ) (m : Sparse ℝ) (s : JumpVars) : Res JumpVars :=
  (stepVarsF fl n dt m s.1).map fun v => (v, s.2)

/-- hubbard_real_1d_rk4_jump.cpp:43-88; compare `real1dRk4Jump`. -/
noncomputable def real1dRk4JumpF (cosF : ℝ → ℝ) (sort : List (Triplet ℝ) → List (Triplet ℝ)) (e : JumpExecution) (w : ODE.Work ℂ) (N : ℕ)
    (J U dt tEnd : ℝ) (interval : ℕ) (filling : ℝ) : Res (Sim.State JumpVars ℝ) :=
  let lattice := Chain.realF fl N 1
  let basis := basis3 N
  let kF := fermiMomentum1DF fl filling
  (evTable1DF fl sinF lattice filling kF e.table).bind fun values =>
  (initMatrix sort N 2 lattice.neighbors J (2 * fl (U / 2))).bind fun m =>
  (initVector basis.length).bind fun h =>
  (jumpCtorF sinF cosF N (fun i => fl (kF * lattice.posF fl i)) e.coefficients).bind fun f =>
  Sim.simulateF fl (stepJumpF fl basis.length dt m) (measureJumpF fl (evFunction lattice values) basis N f e) dt tEnd interval
    ((0, w, h), none)

/-- hubbard_real_2d_rk4_jump.cpp:47-101; compare `real2dRk4Jump`. -/
noncomputable def real2dRk4JumpF (cosF : ℝ → ℝ) (sort : List (Triplet ℝ) → List (Triplet ℝ)) (e : JumpExecution) (w : ODE.Work ℂ)
    (Nx Ny : ℕ) (J U dt tEnd : ℝ) (interval : ℕ) (kx ky : ℝ) : Res (Sim.State JumpVars ℝ) :=
  let lattice := Square.realF fl Nx Ny 1 1
  let basis := basis3 lattice.size
  (evTable2DF fl sinF lattice e.table2).bind fun values =>
  (initMatrix sort lattice.size 4 lattice.neighbors J (2 * fl (U / 2))).bind fun m =>
  (jumpCtorF sinF cosF lattice.size (fun i => dot2F fl (kx, ky) (lattice.posF fl i)) e.coefficients).bind fun f =>
  (initVector basis.length).bind fun h =>
  Sim.simulateF fl (stepJumpF fl basis.length dt m) (measureJumpF fl (evFunction2D lattice values) basis lattice.size f e) dt tEnd
    interval ((0, w, h), none)

end

end Program

end Ieompp
