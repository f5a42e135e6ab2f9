import Verif.Model.RK4
import Verif.Model.ParallelFloat
import Verif.Model.Sparse

/-!
# The Runge–Kutta step in `double` arithmetic

`include/ieompp/ode/rk4.hpp` and `types/{blaze,eigen}/multiply_assign.hpp` again, with every operation on `double` rounded by `fl`.
The step size is real, the vectors and matrices are complex, as in the programs. A real number times a complex vector multiplies both
components. The stored matrix is a sparse matrix of blaze: a row is multiplied element by element in the order of the stored columns,
the first product is assigned, the others are added. Infinities, NaN, underflow and fused operations are not modelled.
-/

set_option autoImplicit false

namespace Ieompp.RealSpace

/-- The stored columns of a row of a sparse matrix, in their order. rk4.hpp:43-46. -/
def storedColumns {S : Type*} (m : Sparse S) (i : ℕ) : List ℕ := (m.done.getD i []).map (·.1)

end Ieompp.RealSpace

namespace Ieompp.ODE

open RealSpace (assignAt addC mulC)
open MomentumSpace (vecAt)

section
variable (fl : ℝ → ℝ)

/-- `a + b` for vectors. rk4.hpp:44-47. -/
def vaddF (a b : List ℂ) : Res (List ℂ) := if a.length = b.length then .val (List.zipWith (addC fl) a b) else .ub

/-- `c * z`, `c` real. rk4.hpp:44-47. -/
def scaleC (c : ℝ) (z : ℂ) : ℂ := ⟨fl (c * z.re), fl (c * z.im)⟩

/-- `c * v` for vectors. rk4.hpp:44-47. -/
def vscaleF (c : ℝ) (v : List ℂ) : List ℂ := v.map (scaleC fl c)

/-- One row of the product of a sparse matrix and a vector; `cols` are the stored columns. rk4.hpp:43-46. -/
def rowF (m : ℕ → ℂ) (v : List ℂ) : List ℕ → ℂ
  | [] => 0
  | j :: js => js.foldl (fun acc j => addC fl acc (mulC fl (m j) (v.getD j 0))) (mulC fl (m j) (v.getD j 0))

/-- `m * v` for an `n × n` sparse matrix with the stored columns `cols row`. rk4.hpp:43-46. -/
def matVecF (n : ℕ) (m : ℕ → ℕ → ℂ) (cols : ℕ → List ℕ) (v : List ℂ) : Res (List ℂ) :=
  if v.length = n then .val ((List.range n).map fun i => rowF fl (m i) v (cols i)) else .ub

/-- rk4.hpp:47 and 73: `u += (_step_size / 6) * (k_1 + 2. * k_2 + 2. * k_3 + k_4)`. -/
noncomputable def combineF (h : ℝ) (w : Work ℂ) (u : List ℂ) : Res (List ℂ) :=
  (vaddF fl w.k1 (vscaleF fl 2 w.k2)).bind fun s => (vaddF fl s (vscaleF fl 2 w.k3)).bind fun s => (vaddF fl s w.k4).bind fun s =>
  vaddF fl u (vscaleF fl (fl (h / 6)) s)

/-- rk4.hpp:32-48. -/
noncomputable def stepMatrixF (n : ℕ) (h : ℝ) (m : ℕ → ℕ → ℂ) (cols : ℕ → List ℕ) (w : Work ℂ) (u : List ℂ) : Res (Work ℂ × List ℂ) :=
  (matVecF fl n m cols u).bind fun k1 => let w := { w with k1 := k1 }
  (vaddF fl u (vscaleF fl (fl (h / 2)) w.k1)).bind fun x => (matVecF fl n m cols x).bind fun k2 => let w := { w with k2 := k2 }
  (vaddF fl u (vscaleF fl (fl (h / 2)) w.k2)).bind fun x => (matVecF fl n m cols x).bind fun k3 => let w := { w with k3 := k3 }
  (vaddF fl u (vscaleF fl h w.k3)).bind fun x => (matVecF fl n m cols x).bind fun k4 => let w := { w with k4 := k4 }
  (combineF fl h w u).map fun u => (w, u)

/-- The time loop of the programs without the measurements. hubbard_real_1d_rk4.cpp:66-81. -/
noncomputable def integrateF (n : ℕ) (h : ℝ) (m : ℕ → ℕ → ℂ) (cols : ℕ → List ℕ) : ℕ → Work ℂ → List ℂ → Res (Work ℂ × List ℂ)
  | 0, w, u => .val (w, u)
  | steps + 1, w, u => (stepMatrixF fl n h m cols w u).bind fun (w, u) => integrateF n h m cols steps w u

/-- One access of the parallel loop of multiply_assign: `element += matrix(row, col) * vector(col)`.
types/blaze/multiply_assign.hpp:33. -/
def macStepF (m : ℕ → ℕ → ℂ) (vector : List ℂ) (acc : Res (List ℂ)) (e : ℕ × ℕ) : Res (List ℂ) :=
  acc.bind fun temp => (vecAt temp e.1).bind fun element => (vecAt vector e.2).bind fun x =>
    assignAt temp e.1 (addC fl element (mulC fl (m e.1 e.2) x))

/-- types/blaze/multiply_assign.hpp:14-38, types/eigen/multiply_assign.hpp:14-39. -/
def multiplyAssignF (rows : ℕ) (m : ℕ → ℕ → ℂ) (junk : List ℂ → ℕ → ℂ) (sched : List (ℕ × ℕ)) (temp vector : List ℂ) :
    Res (List ℂ × List ℂ) :=
  let temp := (List.range rows).map (junk temp)
  let temp := temp.map fun _ => (0 : ℂ)
  (sched.foldl (macStepF fl m vector) (.val temp)).map fun temp => (vector, temp)

/-- rk4.hpp:50-74. -/
noncomputable def stepFunctionF (n : ℕ) (h : ℝ) (m : ℕ → ℕ → ℂ) (junk : List ℂ → ℕ → ℂ) (s1 s2 s3 s4 : List (ℕ × ℕ))
    (state : Work ℂ × List ℂ) (u : List ℂ) : Res ((Work ℂ × List ℂ) × List ℂ) :=
  let (w, temp) := state
  let w := { w with k1 := u }
  (multiplyAssignF fl n m junk s1 temp w.k1).bind fun (temp, k1) => let w := { w with k1 := k1 }
  (vaddF fl u (vscaleF fl (fl (h / 2)) w.k1)).bind fun x => let w := { w with k2 := x }
  (multiplyAssignF fl n m junk s2 temp w.k2).bind fun (temp, k2) => let w := { w with k2 := k2 }
  (vaddF fl u (vscaleF fl (fl (h / 2)) w.k2)).bind fun x => let w := { w with k3 := x }
  (multiplyAssignF fl n m junk s3 temp w.k3).bind fun (temp, k3) => let w := { w with k3 := k3 }
  (vaddF fl u (vscaleF fl h w.k3)).bind fun x => let w := { w with k4 := x }
  (multiplyAssignF fl n m junk s4 temp w.k4).bind fun (temp, k4) => let w := { w with k4 := k4 }
  (combineF fl h w u).map fun u => ((w, temp), u)

end

end Ieompp.ODE
