import Verif.Model.Program
import Verif.Model.ExpectationValue

/-!
# Model of the programs which write the Fermi jump and the coefficients

`src/hubbard/hubbard_real_1d_rk4_jump.cpp:17-91`, `hubbard_real_2d_rk4_jump.cpp:17-107`,
`hubbard_real_1d_rk4_coefficients.cpp:13-96` and `hubbard_real_1d_kinetic_rk4_coefficients.cpp:13-94`, in the manner of
`Verif.Model.Program`. `basis.get_conjugate()`, which three of them call without using the result, is left out.
-/

set_option autoImplicit false

namespace Ieompp.Program

open RealSpace

/-- How the parallel parts of a run happen to be executed: the constructors of the tables of expectation values (of the
chain and of the square lattice) and of the Fourier coefficients, and, for the measurement after `k` steps, the loop which
computes `h_NO`, the number of threads and the execution of the final loop. hubbard_real_1d_rk4_jump.cpp:44-51, 56, 66, 82. -/
structure JumpExecution where
  table : List ℕ
  table2 : List (ℕ × ℕ)
  coefficients : List ℕ
  normalOrder : ℕ → List ℕ
  threads : ℕ → ℕ
  sum : ℕ → List Event

/-- The variables of the integration and the static vector `h_NO`.
hubbard_real_1d_rk4_jump.cpp:49, 53 and fermi_jump/1d.hpp:124. -/
abbrev JumpVars := Vars × Option (List ℂ)

/-- `obs = fermi_jump(h)` (hubbard_real_1d_rk4_jump.cpp:56, hubbard_real_2d_rk4_jump.cpp:66). -/
noncomputable def measureJump (ev : HOp → HOp → ℝ) (basis : List HMonomial) (N : ℕ) (f : List ℂ) (e : JumpExecution)
    (s : JumpVars) : Res (JumpVars × ℝ) :=
  (jumpCall ev basis N f s.1.2.2 (e.threads s.1.1) (e.normalOrder s.1.1) (e.sum s.1.1) s.2).map fun r => ((s.1, r.1), r.2)

/-- `integrator.step(M, h)`; the static vector of the Fermi jump is not touched. hubbard_real_1d_rk4_jump.cpp:75. -/
noncomputable def stepJump (n : ℕ) (dt : ℝ) (m : Sparse ℝ) (s : JumpVars) : Res JumpVars :=
  (stepVars n dt m s.1).map fun v => (v, s.2)

/-- hubbard_real_1d_rk4_jump.cpp:43-88, with `init_fermi_jump` (real_space/fermi_jump.hpp:10-22). -/
noncomputable def real1dRk4Jump (sort : List (Triplet ℝ) → List (Triplet ℝ)) (e : JumpExecution) (w : ODE.Work ℂ) (N : ℕ)
    (J U dt tEnd : ℝ) (interval : ℕ) (filling : ℝ) : Res (Sim.State JumpVars ℝ) :=
  let lattice := Chain.real (K := ℝ) N 1
  let basis := basis3 N
  (evTable1D lattice filling (fermiMomentum1D filling) e.table).bind fun values =>
  (initMatrix sort N 2 lattice.neighbors J U).bind fun m =>
  (initVector basis.length).bind fun h =>
  (jumpCtor N (fun i => fermiMomentum1D filling * lattice.pos i) e.coefficients).bind fun f =>
  Sim.simulateM (stepJump basis.length dt m) (measureJump (evFunction lattice values) basis N f e) dt tEnd interval
    ((0, w, h), none)

/-- hubbard_real_2d_rk4_jump.cpp:55-57, the lambda: `ev(a.index1, b.index1)`; compare `evFunction`. -/
noncomputable def evFunction2D (s : Square ℝ) (values : List ℝ) (a b : HOp) : ℝ :=
  match evLookup2D s values a.index.1 b.index.1 with
  | .val x => x
  | _ => 0

/-- hubbard_real_2d_rk4_jump.cpp:47-101. -/
noncomputable def real2dRk4Jump (sort : List (Triplet ℝ) → List (Triplet ℝ)) (e : JumpExecution) (w : ODE.Work ℂ)
    (Nx Ny : ℕ) (J U dt tEnd : ℝ) (interval : ℕ) (kx ky : ℝ) : Res (Sim.State JumpVars ℝ) :=
  let lattice := Square.real (K := ℝ) Nx Ny 1 1
  let basis := basis3 lattice.size
  (evTable2D lattice e.table2).bind fun values =>
  (initMatrix sort lattice.size 4 lattice.neighbors J U).bind fun m =>
  (jumpCtor lattice.size (fun i => Hubbard.dot2 (kx, ky) (lattice.pos i)) e.coefficients).bind fun f =>
  (initVector basis.length).bind fun h =>
  Sim.simulateM (stepJump basis.length dt m) (measureJump (evFunction2D lattice values) basis lattice.size f e) dt tEnd
    interval ((0, w, h), none)

/-- The numbers of a row after the time (hubbard_real_1d_rk4_coefficients.cpp:52-54). -/
def coefficientRow (h : List ℂ) : List ℝ := h.flatMap fun el => [el.re, el.im]

/-- hubbard_real_1d_rk4_coefficients.cpp:39-91. -/
noncomputable def real1dRk4Coefficients (sort : List (Triplet ℝ) → List (Triplet ℝ)) (w : ODE.Work ℂ) (N : ℕ)
    (J U dt tEnd : ℝ) (interval : ℕ) : Res (Sim.State Vars (List ℝ)) :=
  let lattice := Chain.real (K := ℝ) N 1
  let basis := basis3 N
  (initMatrix sort N 2 lattice.neighbors J U).bind fun m =>
  (initVector basis.length).bind fun h =>
  Sim.simulate (stepVars basis.length dt m) (fun s => .val (coefficientRow s.2.2)) dt tEnd interval (0, w, h)

/-- hubbard_real_1d_kinetic_rk4_coefficients.cpp:37-89. -/
noncomputable def real1dKineticRk4Coefficients (sort : List (Triplet ℝ) → List (Triplet ℝ)) (w : ODE.Work ℂ) (N : ℕ)
    (J dt tEnd : ℝ) (interval : ℕ) : Res (Sim.State Vars (List ℝ)) :=
  let lattice := Chain.real (K := ℝ) N 1
  let basis := basis1 N
  (initKineticMatrix sort N 2 lattice.neighbors J).bind fun m =>
  (initVector basis.length).bind fun h =>
  Sim.simulate (stepVars basis.length dt m) (fun s => .val (coefficientRow s.2.2)) dt tEnd interval (0, w, h)

end Ieompp.Program
