import Verif.Model.Simulation

/-!
# The time loop with rounded arithmetic

The same code as in `Model/Simulation.lean` (src/hubbard/include/common.hpp:57-62, hubbard_real_1d_rk4.cpp:54-91 and the
identical loops of the other programs), with every addition, subtraction and division of times rounded by `fl`.
Assignments, comparisons and `std::round` are exact in floating point arithmetic. The coefficient vector and its
integration are an arbitrary type and an arbitrary function, so their rounding is included. Overflow, underflow and NaN are
not modelled.
-/

set_option autoImplicit false

namespace Ieompp.Sim

variable {H O : Type*}

open Classical in
/-- common.hpp:57-62, `has_time_interval_passed`. -/
noncomputable def hasTimeIntervalPassedF (fl : ℝ → ℝ) (t last dt : ℝ) (interval : ℕ) : Res Bool :=
  if last ≥ t then .val false
  else if dt = 0 then .ub
  else (castU64 (cround (fl (fl (t - last) / dt)))).map fun n => decide (n ≥ interval)

/-- The measurement block (hubbard_real_1d_rk4.cpp:67-75 and 83-91). -/
noncomputable def maybeMeasureF (fl : ℝ → ℝ) (measure : H → Res (H × O)) (dt : ℝ) (interval : ℕ) (s : State H O) :
    Res (State H O) :=
  (hasTimeIntervalPassedF fl s.t s.last dt interval).bind fun b =>
    if b then (measure s.h).map fun r => { s with h := r.1, out := s.out ++ [(s.t, r.2)], last := s.t } else .val s

/-- The body of the time loop (hubbard_real_1d_rk4.cpp:66-81). -/
noncomputable def bodyF (fl : ℝ → ℝ) (step : H → Res H) (measure : H → Res (H × O)) (dt : ℝ) (interval : ℕ)
    (s : State H O) : Res (State H O) :=
  (maybeMeasureF fl measure dt interval s).bind fun s => (step s.h).map fun h => { s with h := h, t := fl (s.t + dt) }

/-- hubbard_real_1d_rk4.cpp:54-91: measurement at `t = 0`, time loop, final measurement. -/
noncomputable def simulateF (fl : ℝ → ℝ) (step : H → Res H) (measure : H → Res (H × O)) (dt tEnd : ℝ) (interval : ℕ)
    (h0 : H) : Res (State H O) :=
  (measure h0).bind fun r =>
  let s : State H O := { h := r.1, t := 0, last := 0, out := [(0, r.2)] }
  ((whileLoop (running tEnd) (fun s => s.bind (bodyF fl step measure dt interval)) (.val s)).bind id).bind
    (maybeMeasureF fl measure dt interval)

end Ieompp.Sim
