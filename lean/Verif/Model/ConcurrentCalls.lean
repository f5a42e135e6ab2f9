import Verif.Model.Threads

/-!
# Calls of the library from several threads of the caller

`RungeKutta4::step` (rk4.hpp:32-48), `multiply_assign` (types/blaze/multiply_assign.hpp:14-38, types/eigen/multiply_assign.hpp:14-39) and
`FermiJump{1D,2D}::operator() const` (fermi_jump/1d.hpp:120-154, 2d.hpp:60-94) keep work vectors in function-local `static` variables, which all
threads of a process share. Here each caller `who` performs one call for a vector of its own; inside of the call there is one thread
(nested parallel regions are serialised by default). The machine is the one of `Model/Threads.lean`. The static vectors have their
size already (an earlier call of the same dimension); what `resize` and the construction of the static variable do in addition is not modelled.
-/

set_option autoImplicit false

namespace Ieompp.Threads

/-- The elements of the static work vectors and of the vectors which belong to the callers.
rk4.hpp:41, 59, multiply_assign.hpp:23, fermi_jump/1d.hpp:124. -/
inductive CallLoc where
  | k1 (i : ℕ)
  | k2 (i : ℕ)
  | k3 (i : ℕ)
  | k4 (i : ℕ)
  | temp (i : ℕ)
  | hNo (i : ℕ)
  | vector (who i : ℕ)
  | fourier (who i : ℕ)
  | result (who : ℕ)
deriving DecidableEq

variable {K : Type*} [Field K]

/-- `k(i) = sum_j m(i, j) * (u(j) + c * q(j))` for all `i`: one of the assignments rk4.hpp:44-46. -/
def stageStmts (n : ℕ) (c : K) (m : ℕ → ℕ → K) (u q k : ℕ → CallLoc) : List (Stmt CallLoc K) :=
  (List.range n).map fun i => ⟨(List.range n).map u ++ (List.range n).map q, k i,
    fun vs => ((List.range n).map fun j => m i j * (vs.getD j 0 + c * vs.getD (n + j) 0)).sum⟩

/-- rk4.hpp:43-47: `step` for a stored matrix, called by `who` for its vector. -/
def stepCall (n : ℕ) (h : K) (m : ℕ → ℕ → K) (who : ℕ) : List (Stmt CallLoc K) :=
  ((List.range n).map fun i => ⟨(List.range n).map (.vector who), .k1 i,
    fun vs => ((List.range n).map fun j => m i j * vs.getD j 0).sum⟩) ++
  stageStmts n (h / 2) m (.vector who) .k1 .k2 ++ stageStmts n (h / 2) m (.vector who) .k2 .k3 ++ stageStmts n h m (.vector who) .k3 .k4 ++
  (List.range n).map fun i => ⟨[.vector who i, .k1 i, .k2 i, .k3 i, .k4 i], .vector who i,
    fun vs => vs.getD 0 0 + h / 6 * (vs.getD 1 0 + 2 * vs.getD 2 0 + 2 * vs.getD 3 0 + vs.getD 4 0)⟩

/-- types/blaze/multiply_assign.hpp:23-38: clearing `temp`, the loop over the rows, and the swap, of which only the half that concerns
the caller's vector is modelled. -/
def multiplyCall (n : ℕ) (m : ℕ → ℕ → K) (who : ℕ) : List (Stmt CallLoc K) :=
  ((List.range n).map fun i => ⟨[], .temp i, fun _ => 0⟩) ++
  ((List.range n).flatMap fun row => (List.range n).map fun col => ⟨[.vector who col, .temp row], .temp row,
    fun vs => vs.getD 1 0 + m row col * vs.getD 0 0⟩) ++
  (List.range n).map fun i => ⟨[.temp i], .vector who i, fun vs => vs.getD 0 0⟩

/-- fermi_jump/1d.hpp:120-154, 2d.hpp:60-94: `operator()`, up to the sum whose squared absolute value is returned. -/
def jumpCallStmts (N : ℕ) (prefactor : ℕ → ℕ → K) (who : ℕ) : List (Stmt CallLoc K) :=
  ((List.range N).flatMap fun i => ⟨[.vector who i], .hNo i, fun vs => vs.getD 0 0⟩ ::
    (List.range N).flatMap fun j => (List.range N).map fun k =>
      ⟨[.vector who (RealSpace.get3opIndex N i j k), .hNo i], .hNo i, fun vs => vs.getD 1 0 + prefactor j k * vs.getD 0 0⟩) ++
  (⟨[], .result who, fun _ => 0⟩ :: (List.range N).map fun i => ⟨[.fourier who i, .hNo i, .result who], .result who,
    fun vs => vs.getD 2 0 + vs.getD 0 0 * vs.getD 1 0⟩)

/-- The callers `0, ..., callers - 1` perform their calls at the same time.
User code; the callees are rk4.hpp:32-74, multiply_assign.hpp:14-38, fermi_jump/1d.hpp:120-154. -/
def callers (mem : CallLoc → K) (call : ℕ → List (Stmt CallLoc K)) (count : ℕ) : Config CallLoc K :=
  ⟨mem, fun who => if who < count then compile (call who) else .done⟩

end Ieompp.Threads
