import Verif.Model.ProgramFloat

/-!
# The Runge–Kutta programs on the chain with underflow and overflow

The programs of `Verif.Model.ProgramFloat` once more. Every operation on `double` is now rounded by a function `rnd : ℝ → Res ℝ`: where the result
of an operation is too large for a `double`, an infinity comes up and the model stops with the outcome `ub`. (The program goes on with infinities and
NaN; the model does not say with which results.) So `val` means that neither an infinity nor a NaN came up anywhere in the run. Gradual underflow is a
property of `rnd`, see `Verif.Spec.Binary64`. As long as no NaN comes up, `operator*` of `std::complex` is the formula `(ac - bd) + (ad + bc) i`; fused operations
are not modelled.
-/

set_option autoImplicit false

namespace Ieompp.IEEE

open MomentumSpace (vecAt)
open RealSpace

/-- A loop that computes the elements of a new vector one after the other. rk4.hpp:43-47. -/
def mapR {α β : Type*} (f : α → Res β) : List α → Res (List β)
  | [] => .val []
  | a :: as => (f a).bind fun b => (mapR f as).bind fun bs => .val (b :: bs)

section
variable (rnd : ℝ → Res ℝ)

/-- `operator+` of `std::complex`; compare `addC`. rk4.hpp:43-47, fermi_jump/1d.hpp:65. -/
def addR (x y : ℂ) : Res ℂ := (rnd (x.re + y.re)).bind fun a => (rnd (x.im + y.im)).bind fun b => .val ⟨a, b⟩

/-- `operator*` of `std::complex`; compare `mulC`. rk4.hpp:43-46, fermi_jump/1d.hpp:65. -/
def mulR (x y : ℂ) : Res ℂ :=
  (rnd (x.re * y.re)).bind fun a => (rnd (x.im * y.im)).bind fun b => (rnd (x.re * y.im)).bind fun c => (rnd (x.im * y.re)).bind fun d =>
  (rnd (a - b)).bind fun p => (rnd (c + d)).bind fun q => .val ⟨p, q⟩

/-- `c * z`, `c` real; compare `ODE.scaleC`. rk4.hpp:44-47. -/
def scaleR (c : ℝ) (z : ℂ) : Res ℂ := (rnd (c * z.re)).bind fun a => (rnd (c * z.im)).bind fun b => .val ⟨a, b⟩

/-- `a + b` for vectors; compare `ODE.vaddF`. rk4.hpp:44-47. -/
def vaddR (a b : List ℂ) : Res (List ℂ) := if a.length = b.length then mapR (fun p => addR rnd p.1 p.2) (a.zip b) else .ub

/-- `c * v` for vectors; compare `ODE.vscaleF`. rk4.hpp:44-47. -/
def vscaleR (c : ℝ) (v : List ℂ) : Res (List ℂ) := mapR (scaleR rnd c) v

/-- One row of the product of a sparse matrix and a vector; compare `ODE.rowF`. rk4.hpp:43-46. -/
def rowR (m : ℕ → ℂ) (v : List ℂ) : List ℕ → Res ℂ
  | [] => .val 0
  | j :: js => js.foldl (fun acc j => acc.bind fun a => (mulR rnd (m j) (v.getD j 0)).bind fun p => addR rnd a p) (mulR rnd (m j) (v.getD j 0))

/-- `m * v`; compare `ODE.matVecF`. rk4.hpp:43-46. -/
def matVecR (n : ℕ) (m : ℕ → ℕ → ℂ) (cols : ℕ → List ℕ) (v : List ℂ) : Res (List ℂ) :=
  if v.length = n then mapR (fun i => rowR rnd (m i) v (cols i)) (List.range n) else .ub

/-- `u + c * k`, where `c` is the quotient `h / d`. rk4.hpp:44-45. -/
noncomputable def shiftR (u : List ℂ) (h d : ℝ) (k : List ℂ) : Res (List ℂ) :=
  (rnd (h / d)).bind fun c => (vscaleR rnd c k).bind fun x => vaddR rnd u x

/-- rk4.hpp:47 and 73: `u += (_step_size / 6) * (k_1 + 2. * k_2 + 2. * k_3 + k_4)`; compare `ODE.combineF`. -/
noncomputable def combineR (h : ℝ) (w : ODE.Work ℂ) (u : List ℂ) : Res (List ℂ) :=
  (vscaleR rnd 2 w.k2).bind fun a => (vaddR rnd w.k1 a).bind fun s =>
  (vscaleR rnd 2 w.k3).bind fun a => (vaddR rnd s a).bind fun s => (vaddR rnd s w.k4).bind fun s => shiftR rnd u h 6 s

/-- rk4.hpp:32-48; compare `ODE.stepMatrixF`. -/
noncomputable def stepMatrixR (n : ℕ) (h : ℝ) (m : ℕ → ℕ → ℂ) (cols : ℕ → List ℕ) (w : ODE.Work ℂ) (u : List ℂ) : Res (ODE.Work ℂ × List ℂ) :=
  (matVecR rnd n m cols u).bind fun k1 => let w := { w with k1 := k1 }
  (shiftR rnd u h 2 w.k1).bind fun x => (matVecR rnd n m cols x).bind fun k2 => let w := { w with k2 := k2 }
  (shiftR rnd u h 2 w.k2).bind fun x => (matVecR rnd n m cols x).bind fun k3 => let w := { w with k3 := k3 }
  (vscaleR rnd h w.k3).bind fun a => (vaddR rnd u a).bind fun x => (matVecR rnd n m cols x).bind fun k4 => let w := { w with k4 := k4 }
  (combineR rnd h w u).map fun u => (w, u)

/-- `M *= std::complex<double>(0, 1)` (real_space/matrix.hpp:17, 34): the stored elements as complex numbers, times the imaginary unit; compare
`Program.timesIF`. -/
noncomputable def timesIR (m : Sparse ℝ) : Res (Sparse ℂ) :=
  (mapR (mapR fun e => (mulR rnd (e.2 : ℂ) Complex.I).map fun z => (e.1, z)) m.done).map fun d => ⟨m.rows, m.columns, m.capacity, d, []⟩

open Classical in
/-- common.hpp:57-62, `has_time_interval_passed`; compare `Sim.hasTimeIntervalPassedF`. -/
noncomputable def hasTimeIntervalPassedR (t last dt : ℝ) (interval : ℕ) : Res Bool :=
  if last ≥ t then .val false
  else if dt = 0 then .ub
  else (rnd (t - last)).bind fun d => (rnd (d / dt)).bind fun q => (Sim.castU64 (Sim.cround q)).map fun n => decide (n ≥ interval)

variable {H O : Type}

/-- The measurement block (hubbard_real_1d_rk4.cpp:67-75 and 83-91); compare `Sim.maybeMeasureF`. -/
noncomputable def maybeMeasureR (measure : H → Res (H × O)) (dt : ℝ) (interval : ℕ) (s : Sim.State H O) : Res (Sim.State H O) :=
  (hasTimeIntervalPassedR rnd s.t s.last dt interval).bind fun b =>
    if b then (measure s.h).map fun r => { s with h := r.1, out := s.out ++ [(s.t, r.2)], last := s.t } else .val s

/-- The body of the time loop (hubbard_real_1d_rk4.cpp:66-81); compare `Sim.bodyF`. -/
noncomputable def bodyR (step : H → Res H) (measure : H → Res (H × O)) (dt : ℝ) (interval : ℕ) (s : Sim.State H O) : Res (Sim.State H O) :=
  (maybeMeasureR rnd measure dt interval s).bind fun s => (step s.h).bind fun h => (rnd (s.t + dt)).bind fun t => .val { s with h := h, t := t }

/-- hubbard_real_1d_rk4.cpp:54-91; compare `Sim.simulateF`. -/
noncomputable def simulateR (step : H → Res H) (measure : H → Res (H × O)) (dt tEnd : ℝ) (interval : ℕ) (h0 : H) : Res (Sim.State H O) :=
  (measure h0).bind fun r =>
  let s : Sim.State H O := { h := r.1, t := 0, last := 0, out := [(0, r.2)] }
  ((whileLoop (Sim.running tEnd) (fun s => s.bind (bodyR rnd step measure dt interval)) (.val s)).bind id).bind
    (maybeMeasureR rnd measure dt interval)

/-- `integrator.step(M, h)` (hubbard_real_1d_rk4.cpp:78); compare `Program.stepVarsF`. -/
noncomputable def stepVarsR (n : ℕ) (dt : ℝ) (m : Sparse ℂ) (s : Program.Vars) : Res Program.Vars :=
  (stepMatrixR rnd n dt (fun i j => m.get i j) (storedColumns m) s.2.1 s.2.2).map fun r => (s.1 + 1, r.1, r.2)

/-- hubbard_real_1d_rk4_coefficients.cpp:39-91; compare `Program.real1dRk4CoefficientsF`. The elements `liouvillian.U / 2.` of the matrix are
rounded (blaze_sparse.hpp:83, 85, 128, 130), `±liouvillian.J` is exact. -/
noncomputable def real1dRk4CoefficientsR (sort : List (Triplet ℝ) → List (Triplet ℝ)) (w : ODE.Work ℂ) (N : ℕ)
    (J U dt tEnd : ℝ) (interval : ℕ) : Res (Sim.State Program.Vars (List ℝ)) :=
  let lattice := Chain.real (K := ℝ) N 1
  let basis := basis3 N
  (rnd (U / 2)).bind fun half =>
  (initMatrix sort N 2 lattice.neighbors J (2 * half)).bind fun m => (timesIR rnd m).bind fun m =>
  (Program.initVector basis.length).bind fun h =>
  simulateR rnd (stepVarsR rnd basis.length dt m) (fun s => .val (s, Program.coefficientRow s.2.2)) dt tEnd interval (0, w, h)

/-- hubbard_real_1d_kinetic_rk4_coefficients.cpp:37-89; compare `Program.real1dKineticRk4CoefficientsF`. -/
noncomputable def real1dKineticRk4CoefficientsR (sort : List (Triplet ℝ) → List (Triplet ℝ)) (w : ODE.Work ℂ) (N : ℕ)
    (J dt tEnd : ℝ) (interval : ℕ) : Res (Sim.State Program.Vars (List ℝ)) :=
  let lattice := Chain.real (K := ℝ) N 1
  let basis := basis1 N
  (initKineticMatrix sort N 2 lattice.neighbors J).bind fun m => (timesIR rnd m).bind fun m =>
  (Program.initVector basis.length).bind fun h =>
  simulateR rnd (stepVarsR rnd basis.length dt m) (fun s => .val (s, Program.coefficientRow s.2.2)) dt tEnd interval (0, w, h)

end

end Ieompp.IEEE
