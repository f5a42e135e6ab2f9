import Verif.Model.FermiJump
import Mathlib.Algebra.Field.Defs

/-!
# Model of `include/ieompp/ode/rk4.hpp` and `include/ieompp/types/{blaze,eigen}/multiply_assign.hpp`

Exact arithmetic in a field `K` (real step size, complex vectors in the programs). The vectors are `std::vector`-like lists.
Arithmetic of vectors of different sizes throws in blaze (and is asserted in Eigen); here it is `ub`.
The function-local `static` work vectors are process-wide state: they are explicit arguments and results.
A function matrix is its element function; the `assert`s are preconditions.
-/

set_option autoImplicit false

namespace Ieompp.ODE

open RealSpace (assignAt)
open MomentumSpace (vecAt)

variable {K : Type*} [Field K]

/-- `a + b` for vectors. rk4.hpp:44-47 (library operator). -/
def vadd (a b : List K) : Res (List K) := if a.length = b.length then .val (List.zipWith (· + ·) a b) else .ub

/-- `c * v` for vectors. rk4.hpp:44-47 (library operator). -/
def vscale (c : K) (v : List K) : List K := v.map (c * ·)

/-- `m * v` for an `n × n` matrix (blaze, Eigen). rk4.hpp:43-46 (library operator). -/
def matVec (n : ℕ) (m : ℕ → ℕ → K) (v : List K) : Res (List K) :=
  if v.length = n then .val ((List.range n).map fun i => ((List.range n).map fun j => m i j * v.getD j 0).sum) else .ub

/-- One access of the parallel loop of multiply_assign: `element += matrix(row, col) * vector(col)`.
types/blaze/multiply_assign.hpp:33. -/
def macStep (m : ℕ → ℕ → K) (vector : List K) (acc : Res (List K)) (e : ℕ × ℕ) : Res (List K) :=
  acc.bind fun temp => (vecAt temp e.1).bind fun element => (vecAt vector e.2).bind fun x =>
    assignAt temp e.1 (element + m e.1 e.2 * x)

/-- types/blaze/multiply_assign.hpp:14-38 (and types/eigen/multiply_assign.hpp:14-39): `temp.resize(rows, false)` leaves
unspecified elements `junk`, `reset()`/`setZero()` clears them; the accumulations `(row, col)` happen in the order `sched`,
in which the rows belonging to different threads interleave; finally the vectors are swapped.
Arguments: the static `temp` and the vector; result: the new `temp` and the new vector. -/
def multiplyAssign (rows : ℕ) (m : ℕ → ℕ → K) (junk : List K → ℕ → K) (sched : List (ℕ × ℕ)) (temp vector : List K) :
    Res (List K × List K) :=
  let temp := (List.range rows).map (junk temp)
  let temp := temp.map fun _ => (0 : K)
  (sched.foldl (macStep m vector) (.val temp)).map fun temp => (vector, temp)

/-- `static Vector k_1, k_2, k_3, k_4;`. rk4.hpp:41, 59. -/
structure Work (K : Type*) where
  k1 : List K
  k2 : List K
  k3 : List K
  k4 : List K

/-- `u += (_step_size / 6) * (k_1 + 2. * k_2 + 2. * k_3 + k_4)` (rk4.hpp:47 and 73). -/
def combine (h : K) (w : Work K) (u : List K) : Res (List K) :=
  (vadd w.k1 (vscale 2 w.k2)).bind fun s => (vadd s (vscale 2 w.k3)).bind fun s => (vadd s w.k4).bind fun s =>
  vadd u (vscale (h / 6) s)

/-- rk4.hpp:32-48: `step` for a stored matrix. `w` holds the static vectors (which are only written before they are
read, so the model passes them for uniformity). -/
def stepMatrix (n : ℕ) (h : K) (m : ℕ → ℕ → K) (w : Work K) (u : List K) : Res (Work K × List K) :=
  (matVec n m u).bind fun k1 => let w := { w with k1 := k1 }
  (vadd u (vscale (h / 2) w.k1)).bind fun x => (matVec n m x).bind fun k2 => let w := { w with k2 := k2 }
  (vadd u (vscale (h / 2) w.k2)).bind fun x => (matVec n m x).bind fun k3 => let w := { w with k3 := k3 }
  (vadd u (vscale h w.k3)).bind fun x => (matVec n m x).bind fun k4 => let w := { w with k4 := k4 }
  (combine h w u).map fun u => (w, u)

/-- rk4.hpp:50-74: `step` for a function matrix. The state consists of the static vectors of `step` and the static
`temp` of `multiply_assign`; `s1 … s4` are the schedules of the four multiplications. -/
def stepFunction (n : ℕ) (h : K) (m : ℕ → ℕ → K) (junk : List K → ℕ → K) (s1 s2 s3 s4 : List (ℕ × ℕ))
    (state : Work K × List K) (u : List K) : Res ((Work K × List K) × List K) :=
  let (w, temp) := state
  let w := { w with k1 := u }
  (multiplyAssign n m junk s1 temp w.k1).bind fun (temp, k1) => let w := { w with k1 := k1 }
  (vadd u (vscale (h / 2) w.k1)).bind fun x => let w := { w with k2 := x }
  (multiplyAssign n m junk s2 temp w.k2).bind fun (temp, k2) => let w := { w with k2 := k2 }
  (vadd u (vscale (h / 2) w.k2)).bind fun x => let w := { w with k3 := x }
  (multiplyAssign n m junk s3 temp w.k3).bind fun (temp, k3) => let w := { w with k3 := k3 }
  (vadd u (vscale h w.k3)).bind fun x => let w := { w with k4 := x }
  (multiplyAssign n m junk s4 temp w.k4).bind fun (temp, k4) => let w := { w with k4 := k4 }
  (combine h w u).map fun u => ((w, temp), u)

/-- One call in the life of a process: `multiply_assign`, or a step of either kind, of any dimension.
rk4.hpp:32-74, types/blaze/multiply_assign.hpp:14-38. -/
inductive Call (K : Type*) where
  | multiply (n : ℕ) (m : ℕ → ℕ → K) (sched : List (ℕ × ℕ)) (v : List K)
  | stepMatrix (n : ℕ) (h : K) (m : ℕ → ℕ → K) (u : List K)
  | stepFunction (n : ℕ) (h : K) (m : ℕ → ℕ → K) (s1 s2 s3 s4 : List (ℕ × ℕ)) (u : List K)

/-- All static variables: those of the two `step` overloads and of `multiply_assign`.
rk4.hpp:41, 59, types/blaze/multiply_assign.hpp:23. -/
structure Statics (K : Type*) where
  forMatrix : Work K
  forFunction : Work K
  temp : List K

/-- A process that performs calls one after the other; the results are the new values of the vector arguments.
User code; the calls are rk4.hpp:32-74, types/blaze/multiply_assign.hpp:14-38. -/
def run (junk : List K → ℕ → K) : List (Call K) → Statics K → Res (List (List K))
  | [], _ => .val []
  | .multiply n m sched v :: cs, s =>
    (multiplyAssign n m junk sched s.temp v).bind fun (temp, r) => (run junk cs { s with temp := temp }).map (r :: ·)
  | .stepMatrix n h m u :: cs, s =>
    (stepMatrix n h m s.forMatrix u).bind fun (w, r) => (run junk cs { s with forMatrix := w }).map (r :: ·)
  | .stepFunction n h m s1 s2 s3 s4 u :: cs, s =>
    (stepFunction n h m junk s1 s2 s3 s4 (s.forFunction, s.temp) u).bind fun (w, r) =>
    (run junk cs { s with forFunction := w.1, temp := w.2 }).map (r :: ·)

end Ieompp.ODE

namespace Ieompp.ODE

/-- The time loop of the programs without the measurements (e.g. src/hubbard/hubbard_real_1d_rk4.cpp:66-81):
`steps` calls of `integrator.step(M, h)`. -/
def integrate {K : Type*} [Field K] (n : ℕ) (h : K) (m : ℕ → ℕ → K) : ℕ → Work K → List K → Res (Work K × List K)
  | 0, w, u => .val (w, u)
  | steps + 1, w, u => (stepMatrix n h m w u).bind fun (w, u) => integrate n h m steps w u

end Ieompp.ODE
