import Verif.Model.Binary64
import Verif.Model.JumpProgram
import Verif.Model.ChainFloat

/-!
# The programs that write observables, with underflow and overflow

The programs `hubbard_real_1d_rk4`, `hubbard_real_1d_kinetic_rk4`, `hubbard_real_1d_rk4_jump` and `hubbard_real_2d_rk4_jump` of
`Verif.Model.ProgramFloat` once more, with the rounding `rnd : ℝ → Res ℝ` of `Verif.Model.Binary64`: the outcome `ub` means that an infinity or a NaN came up. `std::sin` and `std::cos` are arbitrary functions `sinF`,
`cosF`. Integers are converted to `double` by `rnd`.
-/

set_option autoImplicit false

namespace Ieompp.IEEE

open MomentumSpace (vecAt opAt)
open RealSpace

section
variable (rnd : ℝ → Res ℝ) (sinF cosF : ℝ → ℝ)

open Classical in
/-- A division. Division by zero gives an infinity or a NaN. expectation_value.hpp:43-44. -/
noncomputable def divR (x y : ℝ) : Res ℝ := if y = 0 then .ub else rnd (x / y)

/-- dispersion.hpp:17-21: `filling_factor * Pi<Float>::value`; compare `fermiMomentum1DF`. -/
noncomputable def fermiMomentum1DR (filling : ℝ) : Res ℝ := (rnd Real.pi).bind fun pi => rnd (filling * pi)

/-- expectation_value.hpp:43-44: `std::sin(k_F * dist * lattice.dx()) / (pi * dist * lattice.dx())`; compare `evValue1DF`. -/
noncomputable def evValue1DR (kF dx : ℝ) (dist : ℕ) : Res ℝ :=
  (rnd dist).bind fun d => (rnd (kF * d)).bind fun a => (rnd (a * dx)).bind fun a =>
  (rnd Real.pi).bind fun pi => (rnd (pi * d)).bind fun b => (rnd (b * dx)).bind fun b => divR rnd (sinF a) b

/-- expectation_value.hpp:29-46: constructor of `ExpectationValue1DHalfFilled`; compare `evTable1DF`. -/
noncomputable def evTable1DR (c : Chain ℝ) (filling kF : ℝ) (sched : List ℕ) : Res (List ℝ) :=
  (assignAt (List.replicate (c.size / 2 + 1) 0) 0 filling).bind fun values =>
  storeLoop (evValue1DR rnd sinF kF c.dx) sched values

/-- expectation_value.hpp:96-97: `std::sin(pi_half * d) / d`. -/
noncomputable def sineQuotientR (piHalf : ℝ) (d : ℕ) : Res ℝ :=
  (rnd d).bind fun d => (rnd (piHalf * d)).bind fun a => divR rnd (sinF a) d

/-- expectation_value.hpp:76-99: the value for distances `dist_x`, `dist_y`; compare `evValue2DF`. -/
noncomputable def evValue2DR (distX distY : ℕ) : Res ℝ :=
  (rnd Real.pi).bind fun pi => (rnd (pi * pi)).bind fun q => (divR rnd 2 q).bind fun prefactor1 => (divR rnd 1 pi).bind fun prefactor2 =>
  (rnd (Real.pi / 2)).bind fun piHalf =>
  let sum := distX + distY
  let diff := if distX > distY then distX - distY else distY - distX
  if distX = distY then
    if distX = 0 then .val 0.5
    else (rnd sum).bind fun d => (rnd (piHalf * d)).bind fun a => (rnd (prefactor2 * sinF a)).bind fun p => divR rnd p d
  else (sineQuotientR rnd sinF piHalf sum).bind fun a => (rnd (prefactor1 * a)).bind fun p =>
    (sineQuotientR rnd sinF piHalf diff).bind fun b => rnd (p * b)

/-- expectation_value.hpp:71-102: constructor of `ExpectationValue2DHalfFilled`; compare `evTable2DF`. -/
noncomputable def evTable2DR (s : Square ℝ) (sched : List (ℕ × ℕ)) : Res (List ℝ) :=
  sched.foldl (fun (acc : Res (List ℝ)) d => acc.bind fun v => (evValue2DR rnd sinF d.1 d.2).bind fun x =>
      assignAt v ((s.sizeY / 2 + 1) * d.1 + d.2) x)
    (.val (List.replicate ((s.sizeX / 2 + 1) * (s.sizeY / 2 + 1)) 0))

/-- The position `x_min + i * dx` of a site along one direction (periodic_chain.hpp:237-240, periodic_square_lattice.hpp:354-359); compare `Chain.posF`. -/
def coordinateR (xMin dx : ℝ) (i : ℕ) : Res ℝ := (rnd i).bind fun i => (rnd (i * dx)).bind fun p => rnd (xMin + p)

/-- fermi_jump/1d.hpp:111: `const auto prod = fermi_momentum * lattice[basis[i].front().index1]`. -/
def phase1DR (c : Chain ℝ) (kF : ℝ) (i : ℕ) : Res ℝ := (coordinateR rnd c.xMin c.dx i).bind fun x => rnd (kF * x)

/-- fermi_jump/2d.hpp:50 and types/blaze/dot_product.hpp:12-17: the scalar product of `k_F` and the position of the site; compare `dot2F`. -/
def phase2DR (s : Square ℝ) (k : ℝ × ℝ) (idx : ℕ) : Res ℝ :=
  (coordinateR rnd s.xMin s.dx (idx / s.sizeX)).bind fun x => (coordinateR rnd s.yMin s.dy (idx % s.sizeX)).bind fun y =>
  (rnd (k.1 * x)).bind fun a => (rnd (k.2 * y)).bind fun b => rnd (a + b)

/-- fermi_jump/1d.hpp:102-115, fermi_jump/2d.hpp:42-55: constructors for the three-operator basis; compare `jumpCtorF`. -/
def jumpCtorR (N : ℕ) (phase : ℕ → Res ℝ) (sched : List ℕ) : Res (List ℂ) :=
  storeLoop (fun i => (phase i).bind fun prod => .val ⟨cosF prod, sinF prod⟩) sched (List.replicate N 0)

variable (ev : HOp → HOp → ℝ)

/-- site_occupation.hpp:41 and 97: `2. * expectation_value_function(a.front(), b.front())`; compare `ev11F`. -/
def ev11R (a b : HMonomial) : Res ℝ :=
  (vecAt a 0).bind fun a0 => (vecAt b 0).bind fun b0 => rnd (2 * ev a0 b0)

/-- site_occupation.hpp:115-127: `expectation_value_1_3`; compare `ev13F`. -/
noncomputable def ev13R (a b : HMonomial) : Res ℝ :=
  (vecAt b 0).bind fun b0 => (vecAt b 1).bind fun b1 =>
  let ret := ev b0 b1
  (if b0.index.1 = b1.index.1 then rnd (ret - 0.5) else .val ret).bind fun ret =>
  (vecAt a 0).bind fun a0 => (vecAt b 2).bind fun b2 =>
  (rnd (ret * ev a0 b2)).bind fun ret => rnd (4 * ret)

/-- site_occupation.hpp:181-223: `expectation_value_3_3`; compare `ev33F`. -/
noncomputable def ev33R (a b : HMonomial) : Res ℝ :=
  (vecAt a 0).bind fun a0 => (vecAt a 1).bind fun a1 => (vecAt a 2).bind fun a2 =>
  (vecAt b 0).bind fun b0 => (vecAt b 1).bind fun b1 => (vecAt b 2).bind fun b2 =>
  (rnd (8 * ev a0 b2)).bind fun x => (rnd (x * ev a1 a2)).bind fun x => (rnd (x * ev b0 b1)).bind fun ev6 =>
  (rnd (8 * ev a0 b2)).bind fun x => (rnd (x * ev a1 b1)).bind fun x =>
  (rnd ((if a2.index.1 = b0.index.1 then 1 else 0) - ev b0 a2)).bind fun d => (rnd (x * d)).bind fun x => (rnd (ev6 + x)).bind fun ev6 =>
  let kronecker1 := a1.index.1 = a2.index.1
  let kronecker2 := b0.index.1 = b1.index.1
  (if kronecker1 then (rnd (4 * ev a0 b2)).bind fun x => (rnd (x * ev b0 b1)).bind fun x => rnd (0 - x) else .val 0).bind fun ev4 =>
  (if kronecker2 then (rnd (4 * ev a0 b2)).bind fun x => (rnd (x * ev a1 a2)).bind fun x => rnd (ev4 - x) else .val ev4).bind fun ev4 =>
  (if kronecker1 ∧ kronecker2 then (rnd (2 * ev a0 b2)).bind fun x => rnd (0 + x) else .val 0).bind fun ev2 =>
  (rnd (ev6 + ev4)).bind fun s => rnd (s + ev2)

/-- types/number/complex.hpp:54-60: `multiply_with_conjugate`; compare `multiplyWithConjugateF`. -/
def multiplyWithConjugateR (a b : ℂ) : Res ℂ :=
  (rnd (a.re * b.re)).bind fun p => (rnd (a.im * b.im)).bind fun q => (rnd (p + q)).bind fun x =>
  (rnd (-a.re * b.im)).bind fun p => (rnd (b.re * a.im)).bind fun q => (rnd (p + q)).bind fun y => .val ⟨x, y⟩

/-- types/number/complex.hpp:62-66: `add_conjugate_products`; compare `addConjugateProductsF`. -/
def addConjugateProductsR (a b : ℂ) : Res ℝ :=
  (rnd (a.re * b.re)).bind fun p => (rnd (a.im * b.im)).bind fun q => (rnd (p + q)).bind fun s => rnd (2 * s)

/-- `std::norm`; compare `normF`. site_occupation.hpp:258-259, fermi_jump/1d.hpp:68, 153. -/
def normR (x : ℂ) : Res ℝ := (rnd (x.re * x.re)).bind fun p => (rnd (x.im * x.im)).bind fun q => rnd (p + q)

variable (basis conj : List HMonomial) (vec : List ℂ)

/-- `f(basis[i], conjugate_basis[j]) * types::multiply_with_conjugate(vector[i], vector[j]) / 2.`; compare `fullTermF`. site_occupation.hpp:57-59. -/
noncomputable def fullTermR (f : HMonomial → HMonomial → Res ℝ) (i j : ℕ) : Res ℂ :=
  (evAt basis conj f i j).bind fun e => (vecAt vec i).bind fun vi => (vecAt vec j).bind fun vj =>
  (multiplyWithConjugateR rnd vi vj).bind fun z => (scaleR rnd e z).bind fun z =>
  (rnd (z.re / 2)).bind fun x => (rnd (z.im / 2)).bind fun y => .val ⟨x, y⟩

/-- `f(basis[i], conjugate_basis[j]) * types::add_conjugate_products(vector[i], vector[j]) / 2.`; compare `symTermF`.
site_occupation.hpp:254-256, 266-268, 276-278. -/
noncomputable def symTermR (f : HMonomial → HMonomial → Res ℝ) (i j : ℕ) : Res ℂ :=
  (evAt basis conj f i j).bind fun e => (vecAt vec i).bind fun vi => (vecAt vec j).bind fun vj =>
  (addConjugateProductsR rnd vi vj).bind fun p => (rnd (e * p)).bind fun x => (rnd (x / 2)).bind fun y => .val (y : ℂ)

/-- `f(basis[i], conjugate_basis[i]) * std::norm(vector[i]) / 2.`; compare `diagTermF`. site_occupation.hpp:258-259, 280-281. -/
noncomputable def diagTermR (f : HMonomial → HMonomial → Res ℝ) (i : ℕ) : Res ℂ :=
  (evAt basis conj f i i).bind fun e => (vecAt vec i).bind fun vi =>
  (normR rnd vi).bind fun p => (rnd (e * p)).bind fun x => (rnd (x / 2)).bind fun y => .val (y : ℂ)

/-- The statements of a triangular loop; compare `triTermF`. site_occupation.hpp:251-260, 273-282. -/
noncomputable def triTermR (f : HMonomial → HMonomial → Res ℝ) (i j : ℕ) : Res ℂ :=
  if j = i then diagTermR rnd basis conj vec f i else symTermR rnd basis conj vec f i j

/-- `results[thread] += x`; compare `addToF`. site_occupation.hpp:57, fermi_jump/1d.hpp:65. -/
def addToR (results : List ℂ) (thread : ℕ) (x : ℂ) : Res (List ℂ) :=
  (vecAt results thread).bind fun r => (addR rnd r x).bind fun y => .val (results.set thread y)

/-- A parallel loop whose statement for `(i, j)` is `results[thread] += body(i, j);`; compare `runLoopF`.
site_occupation.hpp:53-61, 249-317, fermi_jump/1d.hpp:63-66, 148-151. -/
def runLoopR (body : ℕ → ℕ → Res ℂ) (sched : List Event) (results : List ℂ) : Res (List ℂ) :=
  sched.foldl (fun acc e => acc.bind fun r => (body e.2.1 e.2.2).bind fun x => addToR rnd r e.1 x) (.val results)

/-- Several parallel loops one after the other; compare `runLoopsF`. site_occupation.hpp:249-315. -/
def runLoopsR : List ((ℕ → ℕ → Res ℂ) × List Event) → List ℂ → Res (List ℂ)
  | [], results => .val results
  | l :: loops, results => (runLoopR rnd l.1 l.2 results).bind fun results => runLoopsR loops results

/-- `std::accumulate(results.begin(), results.end(), std::complex<Float>(0.))`; compare `accumulateF`. site_occupation.hpp:318-319,
fermi_jump/1d.hpp:69. -/
def accumulateR (results : List ℂ) : Res ℂ := results.foldl (fun (acc : Res ℂ) r => acc.bind fun a => addR rnd a r) (.val 0)

/-- site_occupation.hpp:240-326 (three loops) and 44-68 (one loop); compare `siteOccupationF`. -/
def siteOccupationR (loops : List ((ℕ → ℕ → Res ℂ) × List Event)) (threads : ℕ) : Res ℝ :=
  (runLoopsR rnd loops (List.replicate threads 0)).bind fun results => (accumulateR rnd results).map fun z => z.re

/-- site_occupation.hpp:44-68: `operator()` of the one-operator site occupation; compare `siteOccupation1F`. -/
noncomputable def siteOccupation1R (threads : ℕ) (s : List Event) : Res ℝ :=
  siteOccupationR rnd [(fullTermR rnd basis conj vec (ev11R rnd ev), s)] threads

/-- site_occupation.hpp:240-283, 318-326: `operator()` of the three-operator site occupation; compare `siteOccupation3F`. -/
noncomputable def siteOccupation3R (threads : ℕ) (s1 s2 s3 : List Event) : Res ℝ :=
  siteOccupationR rnd [(triTermR rnd basis conj vec (ev11R rnd ev), s1), (symTermR rnd basis conj vec (ev13R rnd ev), s2),
    (triTermR rnd basis conj vec (ev33R rnd ev), s3)] threads

/-- fermi_jump/1d.hpp:147-153, fermi_jump/2d.hpp:87-93: the final loop; compare `jumpSumF`. -/
def jumpSumR (f v : List ℂ) (threads : ℕ) (sched : List Event) : Res ℝ :=
  (runLoopR rnd (fun i _ => (vecAt f i).bind fun fi => (vecAt v i).bind fun vi => mulR rnd fi vi) sched (List.replicate threads 0)).bind fun results =>
  (accumulateR rnd results).bind fun z => normR rnd z

/-- fermi_jump/1d.hpp:134-140, fermi_jump/2d.hpp:74-81: the prefactor `2 * _expectation_value(...)`, minus one on the diagonal. -/
def prefactorR (diagonal : Prop) [Decidable diagonal] (e : ℝ) : Res ℝ :=
  (rnd (2 * e)).bind fun prefactor => if diagonal then rnd (prefactor - 1) else .val prefactor

/-- fermi_jump/1d.hpp:129-144, fermi_jump/2d.hpp:69-84: the value of `h_NO[i]` after iteration `i`; compare `hNoValueF`. -/
def hNoValueR (N : ℕ) (i : ℕ) : Res ℂ :=
  ((List.range N).flatMap fun j => (List.range N).map fun k => (j, k)).foldl (fun acc jk => acc.bind fun x =>
    (opAt basis jk.1 0).bind fun oj => (opAt basis jk.2 0).bind fun ok =>
    (prefactorR rnd (jk.1 = jk.2) (ev oj ok)).bind fun prefactor =>
    (vecAt vec (get3opIndex N i jk.1 jk.2)).bind fun hh => (scaleR rnd prefactor hh).bind fun t => addR rnd x t) (vecAt vec i)

/-- fermi_jump/1d.hpp:120-154, fermi_jump/2d.hpp:60-94: `operator()`; compare `jumpCallF`. -/
def jumpCallR (N : ℕ) (f : List ℂ) (threads : ℕ) (sched1 : List ℕ) (sched2 : List Event) (static_ : Option (List ℂ)) :
    Res (Option (List ℂ) × ℝ) :=
  let hNo := static_.getD (List.replicate N 0)
  (storeLoop (hNoValueR rnd ev basis vec N) sched1 hNo).bind fun hNo =>
  (jumpSumR rnd f hNo threads sched2).map fun r => (some hNo, r)

end

section
variable (rnd : ℝ → Res ℝ) (sinF cosF : ℝ → ℝ)

/-- hubbard_real_1d_rk4.cpp:42-91; compare `Program.real1dRk4F`. -/
noncomputable def real1dRk4R (sort : List (Triplet ℝ) → List (Triplet ℝ)) (e : Program.Execution) (w : ODE.Work ℂ) (N : ℕ)
    (J U dt tEnd : ℝ) (interval : ℕ) (filling : ℝ) : Res (Sim.State Program.Vars ℝ) :=
  let lattice := Chain.real (K := ℝ) N 1
  let basis := basis3 N
  let conjugateBasis := getConjugate e.conjugation basis
  (fermiMomentum1DR rnd filling).bind fun kF =>
  (evTable1DR rnd sinF lattice filling kF e.table).bind fun values =>
  (rnd (U / 2)).bind fun half =>
  (initMatrix sort N 2 lattice.neighbors J (2 * half)).bind fun m => (timesIR rnd m).bind fun m =>
  (Program.initVector basis.length).bind fun h =>
  simulateR rnd (stepVarsR rnd basis.length dt m)
    (fun s => (siteOccupation3R rnd (Program.evFunction lattice values) basis conjugateBasis s.2.2 (e.threads s.1) (e.loop1 s.1)
      (e.loop2 s.1) (e.loop3 s.1)).map fun x => (s, x))
    dt tEnd interval (0, w, h)

/-- hubbard_real_1d_kinetic_rk4.cpp:40-87; compare `Program.real1dKineticRk4F`. -/
noncomputable def real1dKineticRk4R (sort : List (Triplet ℝ) → List (Triplet ℝ)) (e : Program.Execution) (w : ODE.Work ℂ) (N : ℕ)
    (J dt tEnd : ℝ) (interval : ℕ) (filling : ℝ) : Res (Sim.State Program.Vars ℝ) :=
  let lattice := Chain.real (K := ℝ) N 1
  let basis := basis1 N
  let conjugateBasis := getConjugate e.conjugation basis
  (fermiMomentum1DR rnd filling).bind fun kF =>
  (evTable1DR rnd sinF lattice filling kF e.table).bind fun values =>
  (initKineticMatrix sort N 2 lattice.neighbors J).bind fun m => (timesIR rnd m).bind fun m =>
  (Program.initVector basis.length).bind fun h =>
  simulateR rnd (stepVarsR rnd basis.length dt m)
    (fun s => (siteOccupation1R rnd (Program.evFunction lattice values) basis conjugateBasis s.2.2 (e.threads s.1) (e.loop1 s.1)).map fun x => (s, x))
    dt tEnd interval (0, w, h)

/-- `obs = fermi_jump(h)` (hubbard_real_1d_rk4_jump.cpp:56, hubbard_real_2d_rk4_jump.cpp:66); compare `Program.measureJumpF`. -/
noncomputable def measureJumpR (ev : HOp → HOp → ℝ) (basis : List HMonomial) (N : ℕ) (f : List ℂ) (e : Program.JumpExecution)
    (s : Program.JumpVars) : Res (Program.JumpVars × ℝ) :=
  (jumpCallR rnd ev basis s.1.2.2 N f (e.threads s.1.1) (e.normalOrder s.1.1) (e.sum s.1.1) s.2).map fun r => ((s.1, r.1), r.2)

/-- `integrator.step(M, h)` (hubbard_real_1d_rk4_jump.cpp:75); compare `Program.stepJumpF`. -/
noncomputable def stepJumpR (n : ℕ) (dt : ℝ) (m : Sparse ℂ) (s : Program.JumpVars) : Res Program.JumpVars :=
  (stepVarsR rnd n dt m s.1).map fun v => (v, s.2)

/-- hubbard_real_1d_rk4_jump.cpp:43-88; compare `Program.real1dRk4JumpF`. The members `x_max` and `x_length` of the lattice, which the program does not
use, are not rounded. -/
noncomputable def real1dRk4JumpR (sort : List (Triplet ℝ) → List (Triplet ℝ)) (e : Program.JumpExecution) (w : ODE.Work ℂ) (N : ℕ)
    (J U dt tEnd : ℝ) (interval : ℕ) (filling : ℝ) : Res (Sim.State Program.JumpVars ℝ) :=
  let lattice := Chain.real (K := ℝ) N 1
  let basis := basis3 N
  (fermiMomentum1DR rnd filling).bind fun kF =>
  (evTable1DR rnd sinF lattice filling kF e.table).bind fun values =>
  (rnd (U / 2)).bind fun half =>
  (initMatrix sort N 2 lattice.neighbors J (2 * half)).bind fun m => (timesIR rnd m).bind fun m =>
  (Program.initVector basis.length).bind fun h =>
  (jumpCtorR sinF cosF N (phase1DR rnd lattice kF) e.coefficients).bind fun f =>
  simulateR rnd (stepJumpR rnd basis.length dt m) (measureJumpR rnd (Program.evFunction lattice values) basis N f e) dt tEnd interval
    ((0, w, h), none)

/-- hubbard_real_2d_rk4_jump.cpp:47-101; compare `Program.real2dRk4JumpF`. The members of the lattice which the program does not use are not
rounded. -/
noncomputable def real2dRk4JumpR (sort : List (Triplet ℝ) → List (Triplet ℝ)) (e : Program.JumpExecution) (w : ODE.Work ℂ)
    (Nx Ny : ℕ) (J U dt tEnd : ℝ) (interval : ℕ) (kx ky : ℝ) : Res (Sim.State Program.JumpVars ℝ) :=
  let lattice := Square.real (K := ℝ) Nx Ny 1 1
  let basis := basis3 lattice.size
  (evTable2DR rnd sinF lattice e.table2).bind fun values =>
  (rnd (U / 2)).bind fun half =>
  (initMatrix sort lattice.size 4 lattice.neighbors J (2 * half)).bind fun m => (timesIR rnd m).bind fun m =>
  (jumpCtorR sinF cosF lattice.size (phase2DR rnd lattice (kx, ky)) e.coefficients).bind fun f =>
  (Program.initVector basis.length).bind fun h =>
  simulateR rnd (stepJumpR rnd basis.length dt m) (measureJumpR rnd (Program.evFunction2D lattice values) basis lattice.size f e) dt tEnd
    interval ((0, w, h), none)

end

end Ieompp.IEEE
