import Verif.Model.ExtendedOccupation

/-!
# The programs that write the Fermi jump with infinities and NaN

`hubbard_real_1d_rk4_jump` and `hubbard_real_2d_rk4_jump` with parameters that need not be finite (`Ext`), as built without assertions. `std::sin` and `std::cos` are
arbitrary functions on numbers and NaN elsewhere. Integers are converted to `double` by `rnd`. The number of steps is part of the variables, to look up how the next
measurement is executed.
-/

set_option autoImplicit false

namespace Ieompp.RealSpace

open MomentumSpace (vecAt opAt)

section
variable (rnd : ℝ → Res ℝ) (sinF cosF : ℝ → ℝ)

/-- expectation_value.hpp:96-97: `std::sin(pi_half * d) / d`; compare `IEEE.sineQuotientR`. -/
noncomputable def sineQuotientX (piHalf : Ext) (d : ℕ) : Ext :=
  Ext.div rnd (sinX sinF (Ext.mul rnd piHalf (Ext.round rnd d))) (Ext.round rnd d)

/-- expectation_value.hpp:76-99: the value for distances `dist_x`, `dist_y`; compare `IEEE.evValue2DR`. -/
noncomputable def evValue2DX (distX distY : ℕ) : Ext :=
  let pi := Ext.round rnd Real.pi
  let prefactor1 := Ext.div rnd (.fin 2) (Ext.mul rnd pi pi)
  let prefactor2 := Ext.div rnd (.fin 1) pi
  let piHalf := Ext.round rnd (Real.pi / 2)
  let sum := distX + distY
  let diff := if distX > distY then distX - distY else distY - distX
  if distX = distY then
    if distX = 0 then .fin 0.5
    else Ext.div rnd (Ext.mul rnd prefactor2 (sinX sinF (Ext.mul rnd piHalf (Ext.round rnd sum)))) (Ext.round rnd sum)
  else Ext.mul rnd (Ext.mul rnd prefactor1 (sineQuotientX rnd sinF piHalf sum)) (sineQuotientX rnd sinF piHalf diff)

/-- expectation_value.hpp:71-102: constructor of `ExpectationValue2DHalfFilled`; compare `IEEE.evTable2DR`. -/
noncomputable def evTable2DX (s : Square ℝ) (sched : List (ℕ × ℕ)) : Res (List Ext) :=
  sched.foldl (fun (acc : Res (List Ext)) d => acc.bind fun v => assignAt v ((s.sizeY / 2 + 1) * d.1 + d.2) (evValue2DX rnd sinF d.1 d.2))
    (.val (List.replicate ((s.sizeX / 2 + 1) * (s.sizeY / 2 + 1)) (.fin 0)))

/-- hubbard_real_2d_rk4_jump.cpp:55-57 and expectation_value.hpp:104-109: `ev(a.index1, b.index1)`; compare `Program.evFunction2D`. -/
def evFunction2DX (s : Square ℝ) (values : List Ext) (a b : HOp) : Res Ext :=
  vecAt values ((s.sizeY / 2 + 1) * wrappedDistanceX s a.index.1 b.index.1 + wrappedDistanceY s a.index.1 b.index.1)

/-- The position of a site along one direction (periodic_chain.hpp:237-240, periodic_square_lattice.hpp:354-359); compare `IEEE.coordinateR`. -/
noncomputable def coordinateX (xMin dx : ℝ) (i : ℕ) : Ext := Ext.add rnd (.fin xMin) (Ext.mul rnd (Ext.round rnd i) (.fin dx))

/-- fermi_jump/1d.hpp:111: `fermi_momentum * lattice[basis[i].front().index1]`; compare `IEEE.phase1DR`. -/
noncomputable def phase1DX (c : Chain ℝ) (kF : Ext) (i : ℕ) : Ext := Ext.mul rnd kF (coordinateX rnd c.xMin c.dx i)

/-- fermi_jump/2d.hpp:50 and types/blaze/dot_product.hpp:12-17: the scalar product of `k_F` and the position of the site; compare `IEEE.phase2DR`. -/
noncomputable def phase2DX (s : Square ℝ) (k : Ext × Ext) (idx : ℕ) : Ext :=
  Ext.add rnd (Ext.mul rnd k.1 (coordinateX rnd s.xMin s.dx (idx / s.sizeX))) (Ext.mul rnd k.2 (coordinateX rnd s.yMin s.dy (idx % s.sizeX)))

/-- fermi_jump/1d.hpp:114, fermi_jump/2d.hpp:53: `Complex(std::cos(prod), std::sin(prod))`; an infinity gives NaN. -/
def phaseFactorX (prod : Ext) : ExtC := ⟨sinX cosF prod, sinX sinF prod⟩

/-- fermi_jump/1d.hpp:102-115, fermi_jump/2d.hpp:42-55: constructors for the three-operator basis; compare `IEEE.jumpCtorR`. -/
def jumpCtorX (N : ℕ) (phase : ℕ → Ext) (sched : List ℕ) : Res (List ExtC) :=
  storeLoop (fun i => .val (phaseFactorX sinF cosF (phase i))) sched (List.replicate N ExtC.zero)

variable (ev : HOp → HOp → Res Ext) (basis : List HMonomial) (vec : List ExtC)

/-- fermi_jump/1d.hpp:134-140, fermi_jump/2d.hpp:74-81: the prefactor `2 * _expectation_value(...)`, minus one on the diagonal; compare `IEEE.prefactorR`. -/
noncomputable def prefactorX (diagonal : Prop) [Decidable diagonal] (e : Ext) : Ext :=
  if diagonal then Ext.sub rnd (Ext.mul rnd (.fin 2) e) (.fin 1) else Ext.mul rnd (.fin 2) e

/-- fermi_jump/1d.hpp:129-144, fermi_jump/2d.hpp:69-84: the value of `h_NO[i]` after iteration `i`; compare `IEEE.hNoValueR`. -/
noncomputable def hNoValueX (N : ℕ) (i : ℕ) : Res ExtC :=
  ((List.range N).flatMap fun j => (List.range N).map fun k => (j, k)).foldl (fun acc jk => acc.bind fun x =>
    (opAt basis jk.1 0).bind fun oj => (opAt basis jk.2 0).bind fun ok => (ev oj ok).bind fun e =>
    (vecAt vec (get3opIndex N i jk.1 jk.2)).map fun hh => ExtC.add rnd x (ExtC.scale rnd (prefactorX rnd (jk.1 = jk.2) e) hh)) (vecAt vec i)

/-- fermi_jump/1d.hpp:147-153, fermi_jump/2d.hpp:87-93: the final loop; compare `IEEE.jumpSumR`. -/
noncomputable def jumpSumX (f v : List ExtC) (threads : ℕ) (sched : List Event) : Res Ext :=
  (runLoopX rnd (fun i _ => (vecAt f i).bind fun fi => (vecAt v i).map fun vi => ExtC.mul rnd fi vi) sched (List.replicate threads ExtC.zero)).map
    fun results => normX rnd (accumulateX rnd results)

/-- fermi_jump/1d.hpp:120-154, fermi_jump/2d.hpp:60-94: `operator()`; compare `IEEE.jumpCallR`. -/
noncomputable def jumpCallX (N : ℕ) (f : List ExtC) (threads : ℕ) (sched1 : List ℕ) (sched2 : List Event) (static_ : Option (List ExtC)) :
    Res (Option (List ExtC) × Ext) :=
  let hNo := static_.getD (List.replicate N ExtC.zero)
  (storeLoop (hNoValueX rnd ev basis vec N) sched1 hNo).bind fun hNo =>
  (jumpSumX rnd f hNo threads sched2).map fun r => (some hNo, r)

end

end Ieompp.RealSpace

namespace Ieompp.Program

open RealSpace

variable (rnd : ℝ → Res ℝ) (sinF cosF : ℝ → ℝ)

/-- The number of steps, the vector and the static vector `h_NO`; compare `JumpVars`. hubbard_real_1d_rk4_jump.cpp:49, 53 and fermi_jump/1d.hpp:124. -/
abbrev JumpVarsX := (ℕ × List ExtC) × Option (List ExtC)

/-- `obs = fermi_jump(h)` (hubbard_real_1d_rk4_jump.cpp:56, hubbard_real_2d_rk4_jump.cpp:66); compare `IEEE.measureJumpR`. -/
noncomputable def measureJumpX (ev : HOp → HOp → Res Ext) (basis : List HMonomial) (N : ℕ) (f : List ExtC) (e : JumpExecution) (s : JumpVarsX) :
    Res (JumpVarsX × Ext) :=
  (jumpCallX rnd ev basis s.1.2 N f (e.threads s.1.1) (e.normalOrder s.1.1) (e.sum s.1.1) s.2).map fun r => ((s.1, r.1), r.2)

/-- `integrator.step(M, h)` (hubbard_real_1d_rk4_jump.cpp:75); compare `IEEE.stepJumpR`. -/
noncomputable def stepJumpX (n : ℕ) (dt : Ext) (m : Sparse ExtC) (s : JumpVarsX) : Res JumpVarsX := (stepVarsX rnd n dt m s.1).map fun v => (v, s.2)

/-- hubbard_real_1d_rk4_jump.cpp:43-88; compare `IEEE.real1dRk4JumpR`. -/
noncomputable def real1dRk4JumpX (sort : List (Triplet Ext) → List (Triplet Ext)) (e : JumpExecution) (N : ℕ) (J U dt tEnd : Ext) (interval : ℕ) (filling : Ext) :
    Res (Sim.StateX JumpVarsX Ext) :=
  let lattice := Chain.real (K := ℝ) N 1
  let basis := basis3 N
  let kF := fermiMomentum1DX rnd filling
  (evTable1DX rnd sinF lattice filling kF e.table).bind fun values =>
  (initMatrixX rnd sort N 2 lattice.neighbors J U).bind fun m => (initVectorX basis.length).bind fun h =>
  (jumpCtorX sinF cosF N (phase1DX rnd lattice kF) e.coefficients).bind fun f =>
  Sim.simulateX rnd (stepJumpX rnd basis.length dt (timesIX rnd m)) (measureJumpX rnd (evFunctionX lattice values) basis N f e) dt tEnd interval ((0, h), none)

/-- hubbard_real_2d_rk4_jump.cpp:47-101; compare `IEEE.real2dRk4JumpR`. -/
noncomputable def real2dRk4JumpX (sort : List (Triplet Ext) → List (Triplet Ext)) (e : JumpExecution) (Nx Ny : ℕ) (J U dt tEnd : Ext) (interval : ℕ) (kx ky : Ext) :
    Res (Sim.StateX JumpVarsX Ext) :=
  let lattice := Square.real (K := ℝ) Nx Ny 1 1
  let basis := basis3 lattice.size
  (evTable2DX rnd sinF lattice e.table2).bind fun values =>
  (initMatrixX rnd sort lattice.size 4 lattice.neighbors J U).bind fun m =>
  (jumpCtorX sinF cosF lattice.size (phase2DX rnd lattice (kx, ky)) e.coefficients).bind fun f => (initVectorX basis.length).bind fun h =>
  Sim.simulateX rnd (stepJumpX rnd basis.length dt (timesIX rnd m)) (measureJumpX rnd (evFunction2DX lattice values) basis lattice.size f e) dt tEnd interval
    ((0, h), none)

end Ieompp.Program
