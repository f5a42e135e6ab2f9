import Verif.Model.ExtendedProgram
import Verif.Model.Binary64Observables

/-!
# The programs that write the site occupation with infinities and NaN

`hubbard_real_1d_rk4` and `hubbard_real_1d_kinetic_rk4` with parameters that need not be finite (`Ext`), as built without assertions. `std::sin` is an arbitrary
function on numbers and NaN elsewhere. Integers are converted to `double` by `rnd`. The number of steps is part of the variables, to look up how the next measurement is executed.
-/

set_option autoImplicit false

namespace Ieompp.RealSpace

open MomentumSpace (vecAt)

section
variable (rnd : ℝ → Res ℝ) (sinF : ℝ → ℝ)

/-- `std::sin`: an infinity gives NaN. expectation_value.hpp:43. -/
def sinX : Ext → Ext
  | .fin x => .fin (sinF x)
  | _ => .nan

/-- dispersion.hpp:17-21; compare `IEEE.fermiMomentum1DR`. -/
noncomputable def fermiMomentum1DX (filling : Ext) : Ext := Ext.mul rnd filling (Ext.round rnd Real.pi)

/-- expectation_value.hpp:43-44; compare `IEEE.evValue1DR`. -/
noncomputable def evValue1DX (kF : Ext) (dx : ℝ) (dist : ℕ) : Ext :=
  Ext.div rnd (sinX sinF (Ext.mul rnd (Ext.mul rnd kF (Ext.round rnd dist)) (.fin dx)))
    (Ext.mul rnd (Ext.mul rnd (Ext.round rnd Real.pi) (Ext.round rnd dist)) (.fin dx))

/-- expectation_value.hpp:29-46: constructor of `ExpectationValue1DHalfFilled`; compare `IEEE.evTable1DR`. -/
noncomputable def evTable1DX (c : Chain ℝ) (filling kF : Ext) (sched : List ℕ) : Res (List Ext) :=
  (assignAt (List.replicate (c.size / 2 + 1) (.fin 0)) 0 filling).bind fun values =>
  storeLoop (fun dist => .val (evValue1DX rnd sinF kF c.dx dist)) sched values

/-- real_space/site_occupation.hpp:15-18 and expectation_value.hpp:48-51: `ev(a.index1, b.index1)`. -/
def evFunctionX (c : Chain ℝ) (values : List Ext) (a b : HOp) : Res Ext := vecAt values (c.latticeDistance a.index.1 b.index.1)

variable (ev : HOp → HOp → Res Ext)

/-- site_occupation.hpp:41 and 97; compare `IEEE.ev11R`. -/
noncomputable def ev11X (a b : HMonomial) : Res Ext :=
  (vecAt a 0).bind fun a0 => (vecAt b 0).bind fun b0 => (ev a0 b0).map fun x => Ext.mul rnd (.fin 2) x

/-- site_occupation.hpp:115-127: `expectation_value_1_3`; compare `IEEE.ev13R`. -/
noncomputable def ev13X (a b : HMonomial) : Res Ext :=
  (vecAt b 0).bind fun b0 => (vecAt b 1).bind fun b1 => (ev b0 b1).bind fun ret =>
  (vecAt a 0).bind fun a0 => (vecAt b 2).bind fun b2 => (ev a0 b2).map fun x =>
  Ext.mul rnd (.fin 4) (Ext.mul rnd (if b0.index.1 = b1.index.1 then Ext.sub rnd ret (.fin 0.5) else ret) x)

/-- site_occupation.hpp:181-223: the values from which `expectation_value_3_3` is computed, in the order `ev(a0, b2)`, `ev(a1, a2)`, `ev(b0, b1)`, `ev(a1, b1)`, `ev(b0, a2)`;
`k1`, `k2`, `k3` say whether `a1`, `a2` and `b0`, `b1` and `a2`, `b0` are the same site. Compare `IEEE.ev33R`. -/
noncomputable def value33X (k1 k2 k3 : Bool) (x1 x2 x3 x4 x5 : Ext) : Ext :=
  let ev6 := Ext.mul rnd (Ext.mul rnd (Ext.mul rnd (.fin 8) x1) x2) x3
  let ev6 := Ext.add rnd ev6 (Ext.mul rnd (Ext.mul rnd (Ext.mul rnd (.fin 8) x1) x4) (Ext.sub rnd (.fin (if k3 then 1 else 0)) x5))
  let ev4 := if k1 then Ext.sub rnd (.fin 0) (Ext.mul rnd (Ext.mul rnd (.fin 4) x1) x3) else .fin 0
  let ev4 := if k2 then Ext.sub rnd ev4 (Ext.mul rnd (Ext.mul rnd (.fin 4) x1) x2) else ev4
  let ev2 := if k1 && k2 then Ext.add rnd (.fin 0) (Ext.mul rnd (.fin 2) x1) else .fin 0
  Ext.add rnd (Ext.add rnd ev6 ev4) ev2

/-- site_occupation.hpp:181-223: `expectation_value_3_3`; compare `IEEE.ev33R`. -/
noncomputable def ev33X (a b : HMonomial) : Res Ext :=
  (vecAt a 0).bind fun a0 => (vecAt a 1).bind fun a1 => (vecAt a 2).bind fun a2 =>
  (vecAt b 0).bind fun b0 => (vecAt b 1).bind fun b1 => (vecAt b 2).bind fun b2 =>
  (ev a0 b2).bind fun x1 => (ev a1 a2).bind fun x2 => (ev b0 b1).bind fun x3 => (ev a1 b1).bind fun x4 => (ev b0 a2).map fun x5 =>
  value33X rnd (decide (a1.index.1 = a2.index.1)) (decide (b0.index.1 = b1.index.1)) (decide (a2.index.1 = b0.index.1)) x1 x2 x3 x4 x5

/-- types/number/complex.hpp:54-60: `multiply_with_conjugate`; compare `IEEE.multiplyWithConjugateR`. -/
noncomputable def multiplyWithConjugateX (a b : ExtC) : ExtC :=
  ⟨Ext.add rnd (Ext.mul rnd a.re b.re) (Ext.mul rnd a.im b.im), Ext.add rnd (Ext.mul rnd (Ext.neg a.re) b.im) (Ext.mul rnd b.re a.im)⟩

/-- types/number/complex.hpp:62-66: `add_conjugate_products`; compare `IEEE.addConjugateProductsR`. -/
noncomputable def addConjugateProductsX (a b : ExtC) : Ext := Ext.mul rnd (.fin 2) (Ext.add rnd (Ext.mul rnd a.re b.re) (Ext.mul rnd a.im b.im))

/-- `std::norm`; compare `IEEE.normR`. site_occupation.hpp:258-259. -/
noncomputable def normX (x : ExtC) : Ext := Ext.add rnd (Ext.mul rnd x.re x.re) (Ext.mul rnd x.im x.im)

variable (basis conj : List HMonomial) (vec : List ExtC)

/-- `f(basis[i], conjugate_basis[j])`; compare `evAt`. site_occupation.hpp:58. -/
def evAtX (f : HMonomial → HMonomial → Res Ext) (i j : ℕ) : Res Ext := (vecAt basis i).bind fun a => (vecAt conj j).bind fun b => f a b

/-- site_occupation.hpp:57-59; compare `IEEE.fullTermR`. -/
noncomputable def fullTermX (f : HMonomial → HMonomial → Res Ext) (i j : ℕ) : Res ExtC :=
  (evAtX basis conj f i j).bind fun e => (vecAt vec i).bind fun vi => (vecAt vec j).map fun vj =>
  let z := ExtC.scale rnd e (multiplyWithConjugateX rnd vi vj)
  ⟨Ext.div rnd z.re (.fin 2), Ext.div rnd z.im (.fin 2)⟩

/-- site_occupation.hpp:254-256, 266-268, 276-278; compare `IEEE.symTermR`. -/
noncomputable def symTermX (f : HMonomial → HMonomial → Res Ext) (i j : ℕ) : Res ExtC :=
  (evAtX basis conj f i j).bind fun e => (vecAt vec i).bind fun vi => (vecAt vec j).map fun vj =>
  ⟨Ext.div rnd (Ext.mul rnd e (addConjugateProductsX rnd vi vj)) (.fin 2), .fin 0⟩

/-- site_occupation.hpp:258-259, 280-281; compare `IEEE.diagTermR`. -/
noncomputable def diagTermX (f : HMonomial → HMonomial → Res Ext) (i : ℕ) : Res ExtC :=
  (evAtX basis conj f i i).bind fun e => (vecAt vec i).map fun vi => ⟨Ext.div rnd (Ext.mul rnd e (normX rnd vi)) (.fin 2), .fin 0⟩

/-- site_occupation.hpp:251-260, 273-282; compare `IEEE.triTermR`. -/
noncomputable def triTermX (f : HMonomial → HMonomial → Res Ext) (i j : ℕ) : Res ExtC :=
  if j = i then diagTermX rnd basis conj vec f i else symTermX rnd basis conj vec f i j

/-- `results[thread] += x`; compare `IEEE.addToR`. site_occupation.hpp:57. -/
noncomputable def addToX (results : List ExtC) (thread : ℕ) (x : ExtC) : Res (List ExtC) :=
  (vecAt results thread).map fun r => results.set thread (ExtC.add rnd r x)

/-- A parallel loop; compare `IEEE.runLoopR`. site_occupation.hpp:53-61, 249-317. -/
noncomputable def runLoopX (body : ℕ → ℕ → Res ExtC) (sched : List Event) (results : List ExtC) : Res (List ExtC) :=
  sched.foldl (fun acc e => acc.bind fun r => (body e.2.1 e.2.2).bind fun x => addToX rnd r e.1 x) (.val results)

/-- Several parallel loops one after the other; compare `IEEE.runLoopsR`. site_occupation.hpp:249-315. -/
noncomputable def runLoopsX : List ((ℕ → ℕ → Res ExtC) × List Event) → List ExtC → Res (List ExtC)
  | [], results => .val results
  | l :: loops, results => (runLoopX rnd l.1 l.2 results).bind fun results => runLoopsX loops results

/-- site_occupation.hpp:318-319: `std::accumulate`; compare `IEEE.accumulateR`. -/
noncomputable def accumulateX (results : List ExtC) : ExtC := results.foldl (ExtC.add rnd) ExtC.zero

/-- site_occupation.hpp:240-326 and 44-68; compare `IEEE.siteOccupationR`. -/
noncomputable def siteOccupationX (loops : List ((ℕ → ℕ → Res ExtC) × List Event)) (threads : ℕ) : Res Ext :=
  (runLoopsX rnd loops (List.replicate threads ExtC.zero)).map fun results => (accumulateX rnd results).re

/-- site_occupation.hpp:44-68; compare `IEEE.siteOccupation1R`. -/
noncomputable def siteOccupation1X (threads : ℕ) (s : List Event) : Res Ext :=
  siteOccupationX rnd [(fullTermX rnd basis conj vec (ev11X rnd ev), s)] threads

/-- site_occupation.hpp:240-283, 318-326; compare `IEEE.siteOccupation3R`. -/
noncomputable def siteOccupation3X (threads : ℕ) (s1 s2 s3 : List Event) : Res Ext :=
  siteOccupationX rnd [(triTermX rnd basis conj vec (ev11X rnd ev), s1), (symTermX rnd basis conj vec (ev13X rnd ev), s2),
    (triTermX rnd basis conj vec (ev33X rnd ev), s3)] threads

end

end Ieompp.RealSpace

namespace Ieompp.Program

open RealSpace

variable (rnd : ℝ → Res ℝ) (sinF : ℝ → ℝ)

/-- `integrator.step(M, h)` (hubbard_real_1d_rk4.cpp:78); compare `IEEE.stepVarsR`. -/
noncomputable def stepVarsX (n : ℕ) (dt : Ext) (m : Sparse ExtC) (s : ℕ × List ExtC) : Res (ℕ × List ExtC) :=
  (ODE.stepMatrixX rnd n dt m s.2).map fun h => (s.1 + 1, h)

/-- hubbard_real_1d_rk4.cpp:42-91; compare `IEEE.real1dRk4R`. -/
noncomputable def real1dRk4X (sort : List (Triplet Ext) → List (Triplet Ext)) (e : Execution) (N : ℕ) (J U dt tEnd : Ext) (interval : ℕ) (filling : Ext) :
    Res (Sim.StateX (ℕ × List ExtC) Ext) :=
  let lattice := Chain.real (K := ℝ) N 1
  let basis := basis3 N
  let conjugateBasis := getConjugate e.conjugation basis
  (evTable1DX rnd sinF lattice filling (fermiMomentum1DX rnd filling) e.table).bind fun values =>
  (initMatrixX rnd sort N 2 lattice.neighbors J U).bind fun m => (initVectorX basis.length).bind fun h =>
  Sim.simulateX rnd (stepVarsX rnd basis.length dt (timesIX rnd m))
    (fun s => (siteOccupation3X rnd (evFunctionX lattice values) basis conjugateBasis s.2 (e.threads s.1) (e.loop1 s.1) (e.loop2 s.1) (e.loop3 s.1)).map
      fun x => (s, x)) dt tEnd interval (0, h)

/-- hubbard_real_1d_kinetic_rk4.cpp:40-87; compare `IEEE.real1dKineticRk4R`. -/
noncomputable def real1dKineticRk4X (sort : List (Triplet Ext) → List (Triplet Ext)) (e : Execution) (N : ℕ) (J dt tEnd : Ext) (interval : ℕ) (filling : Ext) :
    Res (Sim.StateX (ℕ × List ExtC) Ext) :=
  let lattice := Chain.real (K := ℝ) N 1
  let basis := basis1 N
  let conjugateBasis := getConjugate e.conjugation basis
  (evTable1DX rnd sinF lattice filling (fermiMomentum1DX rnd filling) e.table).bind fun values =>
  (initKineticMatrixX sort N 2 lattice.neighbors J).bind fun m => (initVectorX basis.length).bind fun h =>
  Sim.simulateX rnd (stepVarsX rnd basis.length dt (timesIX rnd m))
    (fun s => (siteOccupation1X rnd (evFunctionX lattice values) basis conjugateBasis s.2 (e.threads s.1) (e.loop1 s.1)).map fun x => (s, x)) dt tEnd interval (0, h)

end Ieompp.Program
