import Verif.Model.FermiJump

/-!
# Parallel sums with rounded operations

The loops of `site_occupation.hpp`, `fermi_jump/{1d,2d}.hpp` and `hubbard_real_1d_kinetic_theory.cpp` again, now with every addition
and multiplication of `std::complex<double>` rounded by `fl`. Multiplication is the formula `(ac - bd) + (ad + bc) i` without fused
operations; the special treatment of infinities and NaN is not modelled.
-/

set_option autoImplicit false

namespace Ieompp.RealSpace

open MomentumSpace (vecAt)

section
variable (fl : ℝ → ℝ)

/-- `operator+` of `std::complex`. fermi_jump/1d.hpp:65. -/
def addC (x y : ℂ) : ℂ := ⟨fl (x.re + y.re), fl (x.im + y.im)⟩

/-- `operator*` of `std::complex`. fermi_jump/1d.hpp:65. -/
def mulC (x y : ℂ) : ℂ := ⟨fl (fl (x.re * y.re) - fl (x.im * y.im)), fl (fl (x.re * y.im) + fl (x.im * y.re))⟩

/-- `std::norm`. fermi_jump/1d.hpp:68, 153. -/
def normF (x : ℂ) : ℝ := fl (fl (x.re * x.re) + fl (x.im * x.im))

/-- `results[thread] += x`, rounded (site_occupation.hpp:57, fermi_jump/1d.hpp:65). -/
def addToF (results : List ℂ) (thread : ℕ) (x : ℂ) : Res (List ℂ) :=
  (vecAt results thread).bind fun r => .val (results.set thread (addC fl r x))

/-- A parallel loop whose statement for `(i, j)` is `results[thread] += body(i, j);`, rounded; `body i j` is the right-hand side as it
comes out in floating point arithmetic. site_occupation.hpp:53-61, 249-317, fermi_jump/1d.hpp:63-66, 148-151. -/
def runLoopF (body : ℕ → ℕ → Res ℂ) (sched : List Event) (results : List ℂ) : Res (List ℂ) :=
  sched.foldl (fun acc e => acc.bind fun r => (body e.2.1 e.2.2).bind fun x => addToF fl r e.1 x) (.val results)

/-- `std::accumulate(results.begin(), results.end(), std::complex<Float>(0.))` (site_occupation.hpp:318-319, fermi_jump/1d.hpp:69). -/
def accumulateF (results : List ℂ) : ℂ := results.foldl (addC fl) 0

/-- fermi_jump/1d.hpp:57-70: `operator()` of the one-operator Fermi jump; also the final loop of the others
(fermi_jump/1d.hpp:147-153, 2d.hpp:87-93, fermi_jump_no.hpp:64-72, 122-131). The events are `(thread, (i, 0))`. -/
def jumpSumF (f v : List ℂ) (threads : ℕ) (sched : List Event) : Res ℝ :=
  (runLoopF fl (fun i _ => (vecAt f i).bind fun fi => (vecAt v i).bind fun vi => .val (mulC fl fi vi)) sched
    (List.replicate threads 0)).map fun results => normF fl (accumulateF fl results)

/-- Several parallel loops one after the other (site_occupation.hpp:249-315). -/
def runLoopsF : List ((ℕ → ℕ → Res ℂ) × List Event) → List ℂ → Res (List ℂ)
  | [], results => .val results
  | l :: loops, results => (runLoopF fl l.1 l.2 results).bind fun results => runLoopsF loops results

/-- site_occupation.hpp:240-326 (three loops) and 44-68 (one loop): the loops one after the other, then `accumulate` and the real part.
The statements of the loops are given by the values of their right-hand sides. -/
def siteOccupationF (loops : List ((ℕ → ℕ → Res ℂ) × List Event)) (threads : ℕ) : Res ℝ :=
  (runLoopsF fl loops (List.replicate threads 0)).map fun results => (accumulateF fl results).re

end

end Ieompp.RealSpace
