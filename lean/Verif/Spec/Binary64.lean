import Verif.Model.Basic
import Verif.Spec.Rounding

/-!
# Specification: the binary64 format of IEEE 754

Results of operations are rounded to nearest, ties to even: to 53 significant digits, but never finer than `2^-1074` (gradual underflow). Results of
`2^1024` or more overflow.
-/

set_option autoImplicit false

namespace Ieompp.Spec

/-- The rounded value when the exponent is not bounded from above. -/
noncomputable def binary64Value (x : ℝ) : ℝ :=
  if |x| < 1 / 2 ^ 1022 then (roundEven (x * 2 ^ 1074) : ℝ) / 2 ^ 1074 else double x

open Classical in
/-- The result of an operation whose exact value is `x`; `ub` when it is an infinity. -/
noncomputable def binary64 (x : ℝ) : Res ℝ := if |binary64Value x| < 2 ^ 1024 then .val (binary64Value x) else .ub

/-- A finite number of the format. -/
def IsBinary64 (x : ℝ) : Prop := ∃ m e : ℤ, x = m * 2 ^ e ∧ |m| < 2 ^ 53 ∧ -1074 ≤ e ∧ e ≤ 971

/-- A rounded arithmetic with unit roundoff `u`, smallest normal number `tiny`, and no overflow up to `huge`. -/
structure Arithmetic (rnd : ℝ → Res ℝ) (u tiny huge : ℝ) : Prop where
  unit_nonneg : 0 ≤ u
  tiny_nonneg : 0 ≤ tiny
  rounds : ∀ x, |x| ≤ huge → ∃ y, rnd x = .val y ∧ |y - x| ≤ u * max |x| tiny

end Ieompp.Spec
