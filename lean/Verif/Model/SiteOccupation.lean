import Verif.Model.ParticleNumber
import Verif.Model.HubbardBasis

/-!
# Model of `include/ieompp/models/hubbard_real_space/site_occupation.hpp`

Exact arithmetic: `Float` is `ℝ`, `std::complex<Float>` is `ℂ`. The correlation function handed to the object is an
arbitrary function of two operators (`std::function`). Accesses outside a container are undefined behaviour.

A parallel loop adds to `results[omp_get_thread_num()]`; the model executes its `+=` statements in an arbitrary order
given by a list of (thread, statement), so every distribution of the iterations over the threads and every
interleaving of the threads is covered.
-/

set_option autoImplicit false

namespace Ieompp.RealSpace

open MomentumSpace (vecAt opAt)

/-- One executed statement of a parallel loop: the thread that executes it, and the loop indices `(i, j)`.
site_occupation.hpp:53-61, 249-317. -/
abbrev Event := ℕ × (ℕ × ℕ)

/-- `results[thread] += x`. site_occupation.hpp:57. -/
def addTo (results : List ℂ) (thread : ℕ) (x : ℂ) : Res (List ℂ) :=
  (vecAt results thread).bind fun r => .val (results.set thread (r + x))

/-- A parallel loop whose statement for `(i, j)` is `results[thread] += body(i, j);`. site_occupation.hpp:53-61. -/
def runLoop (body : ℕ → ℕ → Res ℂ) (sched : List Event) (results : List ℂ) : Res (List ℂ) :=
  sched.foldl (fun acc e => acc.bind fun r => (body e.2.1 e.2.2).bind fun x => addTo r e.1 x) (.val results)

/-- The index pairs of `for(i = lo; i < hi; ++i) for(j = lo'; j < hi'; ++j)`.
site_occupation.hpp:54-56, 263-265, 286-288, 296-298, 309-311. -/
def pairsRect (lo hi lo' hi' : ℕ) : List (ℕ × ℕ) :=
  (List.range' lo (hi - lo)).flatMap fun i => (List.range' lo' (hi' - lo')).map fun j => (i, j)

/-- The index pairs of `for(i = lo; i < hi; ++i) { for(j = lo; j < i; ++j) ...(i, j); ...(i, i); }`.
site_occupation.hpp:251-259, 273-281. -/
def pairsTri (lo hi : ℕ) : List (ℕ × ℕ) :=
  (List.range' lo (hi - lo)).flatMap fun i => ((List.range' lo (i - lo)).map fun j => (i, j)) ++ [(i, i)]

section
variable (ev : HOp → HOp → ℝ)

/-- site_occupation.hpp:36-42 and 85-98: `expectation_value` of the one-operator basis, `expectation_value_1_1`. -/
noncomputable def ev11 (a b : HMonomial) : Res ℝ :=
  (vecAt a 0).bind fun a0 => (vecAt b 0).bind fun b0 => .val (2 * ev a0 b0)

/-- site_occupation.hpp:100-129: `expectation_value_1_3`. -/
noncomputable def ev13 (a b : HMonomial) : Res ℝ :=
  (vecAt b 0).bind fun b0 => (vecAt b 1).bind fun b1 =>
  let ret := ev b0 b1
  let ret := if b0.index.1 = b1.index.1 then ret - 0.5 else ret
  (vecAt a 0).bind fun a0 => (vecAt b 2).bind fun b2 =>
  let ret := ret * ev a0 b2
  .val (4 * ret)

/-- site_occupation.hpp:131-160: `expectation_value_3_1`. -/
noncomputable def ev31 (a b : HMonomial) : Res ℝ :=
  (vecAt a 1).bind fun a1 => (vecAt a 2).bind fun a2 =>
  let ret := ev a1 a2
  let ret := if a1.index.1 = a2.index.1 then ret - 0.5 else ret
  (vecAt a 0).bind fun a0 => (vecAt b 0).bind fun b0 =>
  let ret := ret * ev a0 b0
  .val (4 * ret)

/-- site_occupation.hpp:162-224: `expectation_value_3_3`. -/
noncomputable def ev33 (a b : HMonomial) : Res ℝ :=
  (vecAt a 0).bind fun a0 => (vecAt a 1).bind fun a1 => (vecAt a 2).bind fun a2 =>
  (vecAt b 0).bind fun b0 => (vecAt b 1).bind fun b1 => (vecAt b 2).bind fun b2 =>
  let ev6 := 8 * ev a0 b2 * ev a1 a2 * ev b0 b1
  let ev6 := ev6 + 8 * ev a0 b2 * ev a1 b1 * ((if a2.index.1 = b0.index.1 then 1 else 0) - ev b0 a2)
  let kronecker1 := a1.index.1 = a2.index.1
  let kronecker2 := b0.index.1 = b1.index.1
  let ev4 := 0
  let ev4 := if kronecker1 then ev4 - 4 * ev a0 b2 * ev b0 b1 else ev4
  let ev4 := if kronecker2 then ev4 - 4 * ev a0 b2 * ev a1 a2 else ev4
  let ev2 := 0
  let ev2 := if kronecker1 ∧ kronecker2 then ev2 + 2 * ev a0 b2 else ev2
  .val (ev6 + ev4 + ev2)

variable (basis conj : List HMonomial) (vec : List ℂ)

/-- `f(basis[i], conjugate_basis[j])`. site_occupation.hpp:58. -/
def evAt (f : HMonomial → HMonomial → Res ℝ) (i j : ℕ) : Res ℝ :=
  (vecAt basis i).bind fun a => (vecAt conj j).bind fun b => f a b

/-- `f(basis[i], conjugate_basis[j]) * types::multiply_with_conjugate(vector[i], vector[j]) / 2.`.
site_occupation.hpp:57-59, 289-291. -/
noncomputable def fullTerm (f : HMonomial → HMonomial → Res ℝ) (i j : ℕ) : Res ℂ :=
  (evAt basis conj f i j).bind fun e => (vecAt vec i).bind fun vi => (vecAt vec j).bind fun vj =>
    .val ((e : ℂ) * multiplyWithConjugate vi vj / 2)

/-- `f(basis[i], conjugate_basis[j]) * types::add_conjugate_products(vector[i], vector[j]) / 2.`.
site_occupation.hpp:254-256, 266-268. -/
noncomputable def symTerm (f : HMonomial → HMonomial → Res ℝ) (i j : ℕ) : Res ℂ :=
  (evAt basis conj f i j).bind fun e => (vecAt vec i).bind fun vi => (vecAt vec j).bind fun vj =>
    .val ((e * addConjugateProducts vi vj / 2 : ℝ) : ℂ)

/-- `f(basis[i], conjugate_basis[i]) * std::norm(vector[i]) / 2.`. site_occupation.hpp:258-259, 280-281. -/
noncomputable def diagTerm (f : HMonomial → HMonomial → Res ℝ) (i : ℕ) : Res ℂ :=
  (evAt basis conj f i i).bind fun e => (vecAt vec i).bind fun vi =>
    .val ((e * Complex.normSq vi / 2 : ℝ) : ℂ)

/-- The statements of a triangular loop: the diagonal is the statement after the inner loop.
site_occupation.hpp:251-260, 273-282. -/
noncomputable def triTerm (f : HMonomial → HMonomial → Res ℝ) (i j : ℕ) : Res ℂ :=
  if j = i then diagTerm basis conj vec f i else symTerm basis conj vec f i j

/-- site_occupation.hpp:299-304: the statement of the mixed loop without symmetry. -/
noncomputable def mixedTerm (i j : ℕ) : Res ℂ :=
  (fullTerm basis conj vec (ev13 ev) i j).bind fun x => (fullTerm basis conj vec (ev31 ev) j i).bind fun y =>
    .val (x + y)

/-- site_occupation.hpp:44-68: the accumulated complex number of the one-operator `operator()` with `threads` threads. -/
noncomputable def siteSum1 (threads : ℕ) (s : List Event) : Res ℂ :=
  (runLoop (fullTerm basis conj vec (ev11 ev)) s (List.replicate threads 0)).map List.sum

/-- site_occupation.hpp:44-68: `operator()` of the one-operator site occupation. -/
noncomputable def siteOccupation1 (threads : ℕ) (s : List Event) : Res ℝ :=
  (siteSum1 ev basis conj vec threads s).map Complex.re

/-- site_occupation.hpp:240-321: the accumulated complex number of the three-operator `operator()`; `s1`, `s2`, `s3`
are the executions of its three parallel loops (`N` does not occur: the loop bounds are a matter of the schedules). -/
noncomputable def siteSum3 (exploit : Bool) (threads : ℕ) (s1 s2 s3 : List Event) : Res ℂ :=
  let results := List.replicate threads (0 : ℂ)
  (if exploit then
    (runLoop (triTerm basis conj vec (ev11 ev)) s1 results).bind fun results =>
    (runLoop (symTerm basis conj vec (ev13 ev)) s2 results).bind fun results =>
    runLoop (triTerm basis conj vec (ev33 ev)) s3 results
  else
    (runLoop (fullTerm basis conj vec (ev11 ev)) s1 results).bind fun results =>
    (runLoop (mixedTerm ev basis conj vec) s2 results).bind fun results =>
    runLoop (fullTerm basis conj vec (ev33 ev)) s3 results).map List.sum

/-- site_occupation.hpp:240-326: `operator()` of the three-operator site occupation; the assertion on the imaginary
part is a separate claim. -/
noncomputable def siteOccupation3 (exploit : Bool) (threads : ℕ) (s1 s2 s3 : List Event) : Res ℝ :=
  (siteSum3 ev basis conj vec exploit threads s1 s2 s3).map Complex.re

end

/-- An execution of a parallel loop over `pairs` by `threads` threads: every statement is executed exactly once, by
some thread, in some order. site_occupation.hpp:51-61, 247-319. -/
def Executes (threads : ℕ) (pairs : List (ℕ × ℕ)) (s : List Event) : Prop :=
  (s.map Prod.snd).Perm pairs ∧ ∀ e ∈ s, e.1 < threads

/-- site_occupation.hpp:54-56: the loop of the one-operator `operator()`. -/
def loop1 (size : ℕ) : List (ℕ × ℕ) := pairsRect 0 size 0 size

/-- site_occupation.hpp:251-259 (symmetric), 286-288 (full). -/
def loopA (exploit : Bool) (N : ℕ) : List (ℕ × ℕ) := if exploit then pairsTri 0 N else pairsRect 0 N 0 N

/-- site_occupation.hpp:263-265, 296-298. -/
def loopB (N size : ℕ) : List (ℕ × ℕ) := pairsRect 0 N N size

/-- site_occupation.hpp:273-280 (symmetric), 309-311 (full). -/
def loopC (exploit : Bool) (N size : ℕ) : List (ℕ × ℕ) := if exploit then pairsTri N size else pairsRect N size N size

end Ieompp.RealSpace
