import Verif.Model.Basic
import Mathlib.Data.Real.Archimedean
import Mathlib.Algebra.Order.Round

/-!
# Model of `has_time_interval_passed` and of the time loop of the simulation programs

`src/hubbard/include/common.hpp:57-62` and the identical loops of `hubbard_real_1d_rk4.cpp:54-91`,
`hubbard_real_1d_kinetic_rk4.cpp:52-87`, `hubbard_real_1d_rk4_jump.cpp:53-88`, `hubbard_real_2d_rk4_jump.cpp:63-99`,
`hubbard_real_1d_rk4_coefficients.cpp:48-91` and `hubbard_real_1d_kinetic_rk4_coefficients.cpp:46-89`.

Exact arithmetic: times are real numbers. Logging is not modelled.
-/

set_option autoImplicit false

namespace Ieompp.Sim

/-- `std::round`: to the nearest integer, halfway cases away from zero. Library function, called in common.hpp:61. -/
noncomputable def cround (x : ℝ) : ℤ := if 0 ≤ x then ⌊x + 1 / 2⌋ else ⌈x - 1 / 2⌉

/-- `static_cast<uint64_t>` of an integral floating point value: undefined outside the range of the type. common.hpp:61. -/
def castU64 (x : ℤ) : Res ℕ := if 0 ≤ x ∧ x < 2 ^ 64 then .val x.toNat else .ub

open Classical in
/-- common.hpp:57-62, `has_time_interval_passed`. For `dt == 0` the quotient is infinite (`last < t` holds there) and its
cast undefined. -/
noncomputable def hasTimeIntervalPassed (t last dt : ℝ) (interval : ℕ) : Res Bool :=
  if last ≥ t then .val false
  else if dt = 0 then .ub
  else (castU64 (cround ((t - last) / dt))).map fun n => decide (n ≥ interval)

variable {H O : Type*}

/-- The variables of the programs: the coefficient vector `h`, `t`, `last_measurement` and the rows of the output file.
hubbard_real_1d_rk4.cpp:50-59. -/
structure State (H O : Type*) where
  h : H
  t : ℝ
  last : ℝ
  out : List (ℝ × O)

/-- The measurement block guarded by `has_time_interval_passed` (hubbard_real_1d_rk4.cpp:67-75 and 83-91). A measurement
may change variables (the static work vector of the Fermi jump), hence it returns the new variables and the observable. -/
noncomputable def maybeMeasureM (measure : H → Res (H × O)) (dt : ℝ) (interval : ℕ) (s : State H O) : Res (State H O) :=
  (hasTimeIntervalPassed s.t s.last dt interval).bind fun b =>
    if b then (measure s.h).map fun r => { s with h := r.1, out := s.out ++ [(s.t, r.2)], last := s.t } else .val s

/-- The body of the time loop (hubbard_real_1d_rk4.cpp:66-81). -/
noncomputable def bodyM (step : H → Res H) (measure : H → Res (H × O)) (dt : ℝ) (interval : ℕ) (s : State H O) :
    Res (State H O) :=
  (maybeMeasureM measure dt interval s).bind fun s => (step s.h).map fun h => { s with h := h, t := s.t + dt }

/-- The loop condition; after undefined behaviour the loop is considered finished. hubbard_real_1d_rk4.cpp:66. -/
def running (tEnd : ℝ) : Res (State H O) → Prop
  | .val s => s.t < tEnd
  | .ub => False
  | .diverges => False

/-- hubbard_real_1d_rk4.cpp:54-91: measurement at `t = 0`, time loop, final measurement. -/
noncomputable def simulateM (step : H → Res H) (measure : H → Res (H × O)) (dt tEnd : ℝ) (interval : ℕ) (h0 : H) :
    Res (State H O) :=
  (measure h0).bind fun r =>
  let s : State H O := { h := r.1, t := 0, last := 0, out := [(0, r.2)] }
  ((whileLoop (running tEnd) (fun s => s.bind (bodyM step measure dt interval)) (.val s)).bind id).bind
    (maybeMeasureM measure dt interval)

/-- The same for a measurement which does not change the variables. hubbard_real_1d_rk4.cpp:54-91. -/
noncomputable def simulate (step : H → Res H) (measure : H → Res O) (dt tEnd : ℝ) (interval : ℕ) (h0 : H) : Res (State H O) :=
  simulateM step (fun h => (measure h).map fun o => (h, o)) dt tEnd interval h0

end Ieompp.Sim
