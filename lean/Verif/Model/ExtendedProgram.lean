import Verif.Model.Extended
import Verif.Model.JumpProgram

/-!
# The coefficient programs with infinities and NaN

`hubbard_real_1d_rk4_coefficients` and `hubbard_real_1d_kinetic_rk4_coefficients` with parameters that need not be finite (`Ext`): matrix, Runge-Kutta step and
time loop. The static work vectors of the integrator are assigned before they are read (rk4.hpp:43-46) and left out.
-/

set_option autoImplicit false

namespace Ieompp

/-- `std::complex<double>`: rk4.hpp:41, real_space/matrix.hpp:11. -/
structure ExtC where
  re : Ext
  im : Ext

namespace ExtC

/-- `0.`: vector.hpp:13 (`reset`). -/
def zero : ExtC := ⟨.fin 0, .fin 0⟩

/-- `operator+` of `std::complex`. rk4.hpp:43-47. -/
noncomputable def add (rnd : ℝ → Res ℝ) (x y : ExtC) : ExtC := ⟨Ext.add rnd x.re y.re, Ext.add rnd x.im y.im⟩

/-- `isinf`. Part of the multiplication of `std::complex` in the run time library of the compiler, called in rk4.hpp:43-46. -/
def isInf : Ext → Bool
  | .inf _ => true
  | _ => false

/-- `isnan`, as above. rk4.hpp:43-46. -/
def isNan : Ext → Bool
  | .nan => true
  | _ => false

/-- `copysign(isinf(a) ? 1 : 0, a)`, as above; signs of zeros are not modelled. rk4.hpp:43-46. -/
noncomputable def box : Ext → Ext
  | .inf s => .fin (if s then -1 else 1)
  | _ => .fin 0

/-- `if(isnan(a)) a = copysign(0, a)`, as above. rk4.hpp:43-46. -/
noncomputable def unNan : Ext → Ext
  | .nan => .fin 0
  | a => a

/-- The four products with which the multiplication starts, and their combination. rk4.hpp:43-46. -/
noncomputable def plainMul (rnd : ℝ → Res ℝ) (x y : ExtC) : ExtC :=
  ⟨Ext.sub rnd (Ext.mul rnd x.re y.re) (Ext.mul rnd x.im y.im), Ext.add rnd (Ext.mul rnd x.re y.im) (Ext.mul rnd x.im y.re)⟩

/-- The recovery of infinities (C99, Annex G) when both parts of the plain product are NaN: the operands with infinities replaced by units and NaN by zeros, or `none` if
there is nothing to recover. Run time library, called in rk4.hpp:43-46. -/
noncomputable def recover (rnd : ℝ → Res ℝ) (x y : ExtC) : Option (ExtC × ExtC) :=
  let f := isInf x.re || isInf x.im
  let x1 : ExtC := if f then ⟨box x.re, box x.im⟩ else x
  let y1 : ExtC := if f then ⟨unNan y.re, unNan y.im⟩ else y
  let g := isInf y1.re || isInf y1.im
  let y2 : ExtC := if g then ⟨box y1.re, box y1.im⟩ else y1
  let x2 : ExtC := if g then ⟨unNan x1.re, unNan x1.im⟩ else x1
  if f || g then some (x2, y2)
  else if isInf (Ext.mul rnd x.re y.re) || isInf (Ext.mul rnd x.im y.im) || isInf (Ext.mul rnd x.re y.im) || isInf (Ext.mul rnd x.im y.re) then
    some (⟨unNan x.re, unNan x.im⟩, ⟨unNan y.re, unNan y.im⟩)
  else none

/-- `operator*` of `std::complex`. rk4.hpp:43-46, real_space/matrix.hpp:17. -/
noncomputable def mul (rnd : ℝ → Res ℝ) (x y : ExtC) : ExtC :=
  let z := plainMul rnd x y
  if isNan z.re && isNan z.im then
    match recover rnd x y with
    | some p => ⟨Ext.mul rnd (.inf false) (plainMul rnd p.1 p.2).re, Ext.mul rnd (.inf false) (plainMul rnd p.1 p.2).im⟩
    | none => z
  else z

/-- `c * z` with real `c`. rk4.hpp:44-47. -/
noncomputable def scale (rnd : ℝ → Res ℝ) (c : Ext) (z : ExtC) : ExtC := ⟨Ext.mul rnd c z.re, Ext.mul rnd c z.im⟩

end ExtC

namespace ODE

/-- `a + b` for vectors of the same size. rk4.hpp:44-47. -/
noncomputable def vaddX (rnd : ℝ → Res ℝ) (a b : List ExtC) : Res (List ExtC) :=
  if a.length = b.length then .val ((a.zip b).map fun p => ExtC.add rnd p.1 p.2) else .ub

/-- `c * v`. rk4.hpp:44-47. -/
noncomputable def vscaleX (rnd : ℝ → Res ℝ) (c : Ext) (v : List ExtC) : List ExtC := v.map (ExtC.scale rnd c)

/-- One row of the product of the sparse matrix and a vector. rk4.hpp:43-46. -/
noncomputable def rowX (rnd : ℝ → Res ℝ) (v : List ExtC) : List (ℕ × ExtC) → ExtC
  | [] => ExtC.zero
  | e :: es => es.foldl (fun acc e => ExtC.add rnd acc (ExtC.mul rnd e.2 (v.getD e.1 ExtC.zero))) (ExtC.mul rnd e.2 (v.getD e.1 ExtC.zero))

/-- `m * v`. rk4.hpp:43-46. -/
noncomputable def matVecX (rnd : ℝ → Res ℝ) (n : ℕ) (m : Sparse ExtC) (v : List ExtC) : Res (List ExtC) :=
  if v.length = n then .val ((List.range n).map fun i => rowX rnd v (m.done.getD i [])) else .ub

/-- `u + (h / d) * k`. rk4.hpp:44-45. -/
noncomputable def shiftX (rnd : ℝ → Res ℝ) (u : List ExtC) (h : Ext) (d : ℝ) (k : List ExtC) : Res (List ExtC) :=
  vaddX rnd u (vscaleX rnd (Ext.div rnd h (.fin d)) k)

/-- rk4.hpp:32-48, `RK4::step`; compare `IEEE.stepMatrixR`. -/
noncomputable def stepMatrixX (rnd : ℝ → Res ℝ) (n : ℕ) (h : Ext) (m : Sparse ExtC) (u : List ExtC) : Res (List ExtC) :=
  (matVecX rnd n m u).bind fun k1 =>
  (shiftX rnd u h 2 k1).bind fun x => (matVecX rnd n m x).bind fun k2 =>
  (shiftX rnd u h 2 k2).bind fun x => (matVecX rnd n m x).bind fun k3 =>
  (vaddX rnd u (vscaleX rnd h k3)).bind fun x => (matVecX rnd n m x).bind fun k4 =>
  (vaddX rnd k1 (vscaleX rnd (.fin 2) k2)).bind fun s => (vaddX rnd s (vscaleX rnd (.fin 2) k3)).bind fun s => (vaddX rnd s k4).bind fun s =>
  shiftX rnd u h 6 s

end ODE

namespace RealSpace

/-- hubbard_real_space/blaze_sparse.hpp:53-56; compare `kineticTriplets`. -/
noncomputable def kineticTripletsX (nb : ℕ → List ℕ) (J : Ext) (row : ℕ) : List (Triplet Ext) := (nb row).map fun n => ⟨row, n, Ext.neg J⟩

/-- hubbard_real_space/blaze_sparse.hpp:35-64; compare `initKineticMatrix`. -/
noncomputable def initKineticMatrixX (sort : List (Triplet Ext) → List (Triplet Ext)) (N z : ℕ) (nb : ℕ → List ℕ) (J : Ext) : Res (Sparse Ext) :=
  Sparse.fillRows (fun row => some (sort (kineticTripletsX nb J row))) (List.range N) (Sparse.init (basis1 N).length (numberOfKineticElements1 N z))

/-- hubbard_real_space/blaze_sparse.hpp:83-90; compare `oneTriplets`. -/
noncomputable def oneTripletsX (rnd : ℝ → Res ℝ) (N : ℕ) (nb : ℕ → List ℕ) (J U : Ext) (row : ℕ) : List (Triplet Ext) :=
  (nb row).map (fun n => ⟨row, n, Ext.neg J⟩) ++ [⟨row, row, Ext.div rnd U (.fin 2)⟩, ⟨row, get3opIndex N row row row, Ext.div rnd U (.fin 2)⟩]

/-- hubbard_real_space/blaze_sparse.hpp:104-130; compare `threeTriplets`. -/
noncomputable def threeTripletsX (rnd : ℝ → Res ℝ) (N : ℕ) (nb : ℕ → List ℕ) (J U : Ext) (row a b c : ℕ) : List (Triplet Ext) :=
  (nb a).map (fun n => ⟨row, get3opIndex N n b c, Ext.neg J⟩) ++
  (nb b).map (fun n => ⟨row, get3opIndex N a n c, Ext.neg J⟩) ++
  (nb c).map (fun n => ⟨row, get3opIndex N a b n, J⟩) ++
  (if a = b ∧ a = c then [⟨row, a, Ext.div rnd U (.fin 2)⟩] else []) ++
  [⟨row, row, Ext.div rnd U (.fin 2)⟩]

/-- hubbard_real_space/blaze_sparse.hpp:81-137; compare `rowTriplets`. -/
noncomputable def rowTripletsX (rnd : ℝ → Res ℝ) (N : ℕ) (nb : ℕ → List ℕ) (J U : Ext) (row : ℕ) : Option (List (Triplet Ext)) :=
  if row < N then some (oneTripletsX rnd N nb J U row)
  else (basisSites (basis3 N) row).map fun s => threeTripletsX rnd N nb J U row s.1 s.2.1 s.2.2

/-- hubbard_real_space/blaze_sparse.hpp:66-138; compare `initMatrix`. -/
noncomputable def initMatrixX (rnd : ℝ → Res ℝ) (sort : List (Triplet Ext) → List (Triplet Ext)) (N z : ℕ) (nb : ℕ → List ℕ) (J U : Ext) : Res (Sparse Ext) :=
  Sparse.fillRows (fun row => (rowTripletsX rnd N nb J U row).map sort) (List.range (basis3 N).length)
    (Sparse.init (basis3 N).length (numberOfKineticElements3 N z + numberOfInteractionElements N))

/-- `M *= std::complex<double>(0, 1)` (real_space/matrix.hpp:17, 34); compare `IEEE.timesIR`. -/
noncomputable def timesIX (rnd : ℝ → Res ℝ) (m : Sparse Ext) : Sparse ExtC :=
  ⟨m.rows, m.columns, m.capacity, m.done.map (List.map fun e => (e.1, ExtC.mul rnd ⟨e.2, .fin 0⟩ ⟨.fin 0, .fin 1⟩)), []⟩

end RealSpace

namespace Program

/-- vector.hpp:8-17, `init_vector`; compare `initVector`. -/
def initVectorX (size : ℕ) : Res (List ExtC) := if 0 < size then .val (⟨.fin 1, .fin 0⟩ :: List.replicate (size - 1) ExtC.zero) else .ub

/-- hubbard_real_1d_rk4_coefficients.cpp:52-54, 65-67: the numbers of a row; compare `coefficientRow`. -/
def coefficientRowX (h : List ExtC) : List Ext := h.flatMap fun el => [el.re, el.im]

/-- hubbard_real_1d_rk4_coefficients.cpp:39-91 with the time loop of `Sim.simulateX`; compare `IEEE.real1dRk4CoefficientsR`. -/
noncomputable def real1dRk4CoefficientsX (rnd : ℝ → Res ℝ) (sort : List (Triplet Ext) → List (Triplet Ext)) (N : ℕ) (J U dt tEnd : Ext) (interval : ℕ) :
    Res (Sim.StateX (List ExtC) (List Ext)) :=
  let lattice := Chain.real (K := ℝ) N 1
  let basis := RealSpace.basis3 N
  (RealSpace.initMatrixX rnd sort N 2 lattice.neighbors J U).bind fun m => (initVectorX basis.length).bind fun h =>
  Sim.simulateX rnd (ODE.stepMatrixX rnd basis.length dt (RealSpace.timesIX rnd m)) (fun h => .val (h, coefficientRowX h)) dt tEnd interval h

/-- hubbard_real_1d_kinetic_rk4_coefficients.cpp:37-89; compare `IEEE.real1dKineticRk4CoefficientsR`. -/
noncomputable def real1dKineticRk4CoefficientsX (rnd : ℝ → Res ℝ) (sort : List (Triplet Ext) → List (Triplet Ext)) (N : ℕ) (J dt tEnd : Ext) (interval : ℕ) :
    Res (Sim.StateX (List ExtC) (List Ext)) :=
  let lattice := Chain.real (K := ℝ) N 1
  let basis := RealSpace.basis1 N
  (RealSpace.initKineticMatrixX sort N 2 lattice.neighbors J).bind fun m => (initVectorX basis.length).bind fun h =>
  Sim.simulateX rnd (ODE.stepMatrixX rnd basis.length dt (RealSpace.timesIX rnd m)) (fun h => .val (h, coefficientRowX h)) dt tEnd interval h

end Program

end Ieompp
