import Verif.Model.SiteOccupation
import Mathlib.Analysis.SpecialFunctions.Trigonometric.Basic

/-!
# Model of `include/ieompp/models/hubbard_real_space/fermi_jump/{1d,2d}.hpp` and `fermi_jump_no.hpp`

Exact arithmetic. `phase i` is `k_F * lattice[i]` (1d) respectively `dot_product(k_F, lattice[...])` (2d).
`static Vector h_NO(basis.N)` is a process-wide variable, shared by all objects of the same type: it is `none` before
the first call, is created with the size of that call, and keeps its size.
-/

set_option autoImplicit false

namespace Ieompp.RealSpace

open MomentumSpace (vecAt opAt)

/-- `v[i] = x` for a `std::vector`; undefined when `i` is not below the size (whatever the capacity).
fermi_jump/1d.hpp:53, 113, 129. -/
def assignAt {τ : Type*} (v : List τ) (i : ℕ) (x : τ) : Res (List τ) :=
  if i < v.length then .val (v.set i x) else .ub

/-- A parallel loop in which iteration `i` computes `f(i)` and stores it in `v[i]`, executed in the order `sched`.
fermi_jump/1d.hpp:50-54, 108-115. -/
def storeLoop {τ : Type*} (f : ℕ → Res τ) (sched : List ℕ) (v : List τ) : Res (List τ) :=
  sched.foldl (fun acc i => acc.bind fun v => (f i).bind fun x => assignAt v i x) (.val v)

/-- `Complex(std::cos(prod), std::sin(prod))`. fermi_jump/1d.hpp:53, 113. -/
noncomputable def phaseFactor (phase : ℕ → ℝ) (i : ℕ) : ℂ := ⟨Real.cos (phase i), Real.sin (phase i)⟩

/-- fermi_jump/1d.hpp:102-115 and fermi_jump/2d.hpp:42-55: constructors for the three-operator basis. -/
noncomputable def jumpCtor (N : ℕ) (phase : ℕ → ℝ) (sched : List ℕ) : Res (List ℂ) :=
  storeLoop (fun i => .val (phaseFactor phase i)) sched (List.replicate N 0)

/-- fermi_jump/1d.hpp:44-55, fermi_jump_no.hpp:46-59 and 104-117: these constructors only `reserve` memory, the size of
the vector stays 0. -/
noncomputable def jumpCtorReserve (phase : ℕ → ℝ) (sched : List ℕ) : Res (List ℂ) :=
  storeLoop (fun i => .val (phaseFactor phase i)) sched []

/-- fermi_jump/1d.hpp:129-144, fermi_jump/2d.hpp:69-84: the value of `h_NO[i]` after iteration `i`. -/
noncomputable def hNoValue (ev : HOp → HOp → ℝ) (basis : List HMonomial) (N : ℕ) (h : List ℂ) (i : ℕ) : Res ℂ :=
  ((List.range N).flatMap fun j => (List.range N).map fun k => (j, k)).foldl (fun acc jk => acc.bind fun x =>
    (opAt basis jk.1 0).bind fun oj => (opAt basis jk.2 0).bind fun ok =>
    let prefactor := 2 * ev oj ok
    let prefactor := if jk.1 = jk.2 then prefactor - 1 else prefactor
    (vecAt h (get3opIndex N i jk.1 jk.2)).bind fun hh => .val (x + (prefactor : ℂ) * hh)) (vecAt h i)

/-- The final loop (fermi_jump/1d.hpp:62-70 and 147-153, 2d.hpp:87-93, fermi_jump_no.hpp:64-72 and 122-131): the sum of
`f[i] * v[i]` over `i < N`, accumulated per thread; the result is `std::norm`. The events are `(thread, (i, 0))`. -/
noncomputable def jumpSum (f v : List ℂ) (threads : ℕ) (sched : List Event) : Res ℝ :=
  (runLoop (fun i _ => (vecAt f i).bind fun fi => (vecAt v i).bind fun vi => .val (fi * vi)) sched
    (List.replicate threads 0)).map fun results => Complex.normSq results.sum

/-- fermi_jump/1d.hpp:120-154, fermi_jump/2d.hpp:60-94: `operator()`; `static_` is the static `h_NO` (`none`: not yet
created). Returns the new static variable and the result. -/
noncomputable def jumpCall (ev : HOp → HOp → ℝ) (basis : List HMonomial) (N : ℕ) (f h : List ℂ) (threads : ℕ)
    (sched1 : List ℕ) (sched2 : List Event) (static_ : Option (List ℂ)) : Res (Option (List ℂ) × ℝ) :=
  let hNo := static_.getD (List.replicate N 0)
  (storeLoop (hNoValue ev basis N h) sched1 hNo).bind fun hNo =>
  (jumpSum f hNo threads sched2).map fun r => (some hNo, r)

/-- One call of `operator()` in the life of a process: the number of sites of the object, the vector, and how the
parallel loops happen to be executed. fermi_jump/1d.hpp:120-154. -/
structure JumpCall where
  N : ℕ
  phase : ℕ → ℝ
  h : List ℂ
  threads : ℕ
  sched0 : List ℕ
  sched1 : List ℕ
  sched2 : List Event

/-- A process which constructs objects and evaluates them, one after the other. Returns the results.
fermi_jump/1d.hpp:124: the static variable lives as long as the process. -/
noncomputable def jumpRun (ev : HOp → HOp → ℝ) : List JumpCall → Option (List ℂ) → Res (List ℝ)
  | [], _ => .val []
  | c :: cs, static_ =>
    (jumpCtor c.N c.phase c.sched0).bind fun f =>
    (jumpCall ev (basis3 c.N) c.N f c.h c.threads c.sched1 c.sched2 static_).bind fun (s, r) =>
    (jumpRun ev cs s).map (r :: ·)

end Ieompp.RealSpace
