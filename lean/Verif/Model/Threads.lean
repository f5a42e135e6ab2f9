import Verif.Model.ParallelFloat
import Mathlib.Data.Set.Basic
import Mathlib.Data.List.Perm.Basic
import Mathlib.Logic.Function.Basic

/-!
# The parallel loops at the granularity of single memory accesses

The other models execute whole statements of a parallel loop one after the other. Here the threads of a `#pragma omp parallel for`
interleave between any two memory accesses: a thread is a sequence of loads and stores, and a step of the machine is one access of one
thread. Memory is sequentially consistent; C++ guarantees this for programs without data races, and their absence is what is proved.
A location is an element of one of the vectors (the objects `std::complex<double>` and `Monomial` are single locations). Loads of
variables which no thread of the loop changes (lattice, basis, loop bounds, function objects) are not listed.
-/

set_option autoImplicit false

namespace Ieompp.Threads

/-- What a thread still has to do. The threads of `#pragma omp parallel for`, e.g. types/blaze/multiply_assign.hpp:27-35. -/
inductive Prog (L V : Type*) where
  | done
  | read (l : L) (next : V → Prog L V)
  | write (l : L) (v : V) (next : Prog L V)

/-- An access of the shared memory. e.g. types/blaze/multiply_assign.hpp:33. -/
structure Access (L : Type*) where
  thread : ℕ
  loc : L
  isWrite : Bool

/-- The memory and the remaining programs of all threads. e.g. types/blaze/multiply_assign.hpp:27-35. -/
structure Config (L V : Type*) where
  mem : L → V
  code : ℕ → Prog L V

/-- An assignment statement: load the locations `reads` one after the other, compute, store.
e.g. types/blaze/multiply_assign.hpp:33, site_occupation.hpp:57-59, fermi_jump/1d.hpp:142. -/
structure Stmt (L V : Type*) where
  reads : List L
  target : L
  value : List V → V

variable {L V : Type*}

/-- The loads which are still to come, the values already loaded, then the store. e.g. types/blaze/multiply_assign.hpp:33. -/
def loads (target : L) (value : List V → V) (next : Prog L V) : List L → List V → Prog L V
  | [], vs => .write target (value vs) next
  | l :: ls, vs => .read l fun v => loads target value next ls (vs ++ [v])

/-- The accesses of a sequence of statements. e.g. the inner loop of types/blaze/multiply_assign.hpp:32-34. -/
def compile : List (Stmt L V) → Prog L V
  | [] => .done
  | s :: ss => loads s.target s.value (compile ss) s.reads []

section
variable [DecidableEq L]

/-- The next access of thread `t`. e.g. types/blaze/multiply_assign.hpp:33. -/
def step (t : ℕ) (c : Config L V) : Config L V × List (Access L) :=
  match c.code t with
  | .done => (c, [])
  | .read l k => (⟨c.mem, Function.update c.code t (k (c.mem l))⟩, [⟨t, l, false⟩])
  | .write l v p => (⟨Function.update c.mem l v, Function.update c.code t p⟩, [⟨t, l, true⟩])

/-- An execution: at each step the thread that moves is given. Returns the final configuration and all accesses.
e.g. types/blaze/multiply_assign.hpp:27-35. -/
def run : List ℕ → Config L V → Config L V × List (Access L)
  | [], c => (c, [])
  | t :: sched, c => ((run sched (step t c).1).1, (step t c).2 ++ (run sched (step t c).1).2)

/-- The same statements executed by a single thread.
The same loops compiled without OpenMP, e.g. types/blaze/multiply_assign.hpp:30-35. -/
def exec (mem : L → V) (ss : List (Stmt L V)) : L → V :=
  ss.foldl (fun mem s => Function.update mem s.target (s.value (s.reads.map mem))) mem

end

/-- `#pragma omp parallel for`: the iterations `work t` are executed by thread `t` one after the other.
e.g. types/blaze/multiply_assign.hpp:28, site_occupation.hpp:53. -/
def start {ι : Type*} (mem : L → V) (body : ℕ → ι → List (Stmt L V)) (work : ℕ → List ι) : Config L V :=
  ⟨mem, fun t => compile ((work t).flatMap (body t))⟩

/-- The elements of the vectors which the loops touch.
types/blaze/multiply_assign.hpp:31-33, site_occupation.hpp:57, fermi_jump/1d.hpp:113, 129, 142, 150, expectation_value.hpp:42-45, 81-86, hubbard_real_space/basis.hpp:40-42, dispersion.hpp:43-50. -/
inductive Loc where
  | values (i : ℕ)
  | conjBasis (i : ℕ)
  | vector (i : ℕ)
  | temp (i : ℕ)
  | hNo (i : ℕ)
  | fourier (i : ℕ)
  | results (thread : ℕ)
  | table (i step : ℕ)
  | tableConj (i step : ℕ)
  | resultsAt (thread step : ℕ)
deriving DecidableEq

/-- `v[i] = f(i);` in a loop over `i`: fermi_jump/1d.hpp:50-54 and 108-114, fermi_jump/2d.hpp:48-54, fermi_jump_no.hpp:54-58 and 112-116,
expectation_value.hpp:41-45, dispersion.hpp:42-50. -/
def storeBody (f : ℕ → V) (i : ℕ) : List (Stmt Loc V) := [⟨[], .values i, fun _ => f i⟩]

/-- expectation_value.hpp:80-101: `_values[(max_y + 1) * x + y] = f(x, y);`. -/
def table2DBody (maxY : ℕ) (f : ℕ → ℕ → V) (x : ℕ) : List (Stmt Loc V) :=
  (List.range (maxY + 1)).map fun y => ⟨[], .values ((maxY + 1) * x + y), fun _ => f x y⟩

section
variable [Inhabited V]

/-- hubbard_real_space/basis.hpp:39-42 and 87-90, hubbard_momentum_space/basis.hpp:51-54 and 62-65: `conj_basis[i].conjugate();`. -/
def conjugateBody (conjugate : V → V) (i : ℕ) : List (Stmt Loc V) :=
  [⟨[.conjBasis i], .conjBasis i, fun vs => conjugate (vs.getD 0 default)⟩]

/-- types/blaze/multiply_assign.hpp:28-36, types/eigen/multiply_assign.hpp:29-37: `element += matrix(row, col) * vector(col);` for all `col`;
`mac m x y` is `m * x` added to `y` (with or without rounding). -/
def rowBody {S : Type*} (n : ℕ) (m : ℕ → ℕ → S) (mac : S → V → V → V) (row : ℕ) : List (Stmt Loc V) :=
  (List.range n).map fun col =>
    ⟨[.vector col, .temp row], .temp row, fun vs => mac (m row col) (vs.getD 0 default) (vs.getD 1 default)⟩

/-- fermi_jump/1d.hpp:126-145, fermi_jump/2d.hpp:66-85: `h_NO[i] = h[i];` and `h_NO[i] += prefactor * h[get_3op_index(i, j, k)];` for all
`j`, `k`. -/
def hNoBody {S : Type*} (N : ℕ) (prefactor : ℕ → ℕ → S) (mac : S → V → V → V) (i : ℕ) : List (Stmt Loc V) :=
  ⟨[.vector i], .hNo i, fun vs => vs.getD 0 default⟩ ::
  (List.range N).flatMap fun j => (List.range N).map fun k =>
    ⟨[.vector (RealSpace.get3opIndex N i j k), .hNo i], .hNo i, fun vs => mac (prefactor j k) (vs.getD 0 default) (vs.getD 1 default)⟩

/-- fermi_jump/1d.hpp:63-66 and 148-151, fermi_jump/2d.hpp:88-91, fermi_jump_no.hpp:65-68 and 124-127:
`results[omp_get_thread_num()] += _fourier_coefficients[i] * h[i];` (`src i` is `h[i]` or `h_NO[i]`). -/
def jumpBody (src : ℕ → Loc) (mul add : V → V → V) (thread i : ℕ) : List (Stmt Loc V) :=
  [⟨[.fourier i, src i, .results thread], .results thread,
    fun vs => add (vs.getD 2 default) (mul (vs.getD 0 default) (vs.getD 1 default))⟩]

/-- site_occupation.hpp:53-62, 250-315: `results[thread] += term(i, j, vector[i], vector[j]);` for the `j` in `inner i`. The statements
with `std::norm(vector[i])` are those with `j = i`; loading `vector[i]` twice makes no difference. -/
def occupationBody (inner : ℕ → List ℕ) (term : ℕ → ℕ → V → V → V) (add : V → V → V) (thread i : ℕ) : List (Stmt Loc V) :=
  (inner i).map fun j => ⟨[.vector i, .vector j, .results thread], .results thread,
    fun vs => add (vs.getD 2 default) (term i j (vs.getD 0 default) (vs.getD 1 default))⟩

end

/-- hubbard_real_1d_kinetic_theory.cpp:48-59: `h_vals[i][step] = f(i, step); h_vals_conj[i][step] = g(i, step);` for all steps (the two
`resize` calls touch the row `i` only and are part of the location's owner). -/
def theoryTableBody (steps : ℕ) (f g : ℕ → ℕ → V) (i : ℕ) : List (Stmt Loc V) :=
  (List.range steps).flatMap fun s => [⟨[], .table i s, fun _ => f i s⟩, ⟨[], .tableConj i s, fun _ => g i s⟩]

/-- hubbard_real_1d_kinetic_theory.cpp:73-82: `results[thread][step] += ev * (h_vals[i][step] * h_vals_conj[j][step]);` for all `j` and all
steps. -/
def theorySumBody [Inhabited V] (N steps : ℕ) (term : ℕ → ℕ → V → V → V) (add : V → V → V) (thread i : ℕ) : List (Stmt Loc V) :=
  (List.range N).flatMap fun j => (List.range steps).map fun s =>
    ⟨[.table i s, .tableConj j s, .resultsAt thread s], .resultsAt thread s,
      fun vs => add (vs.getD 2 default) (term i j (vs.getD 0 default) (vs.getD 1 default))⟩

end Ieompp.Threads
