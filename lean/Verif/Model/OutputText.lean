import Verif.Model.KroneckerNumber
import Mathlib.Data.Int.Log

/-!
# Model of the text of the result files

The programs write their results with `operator<<` of a `std::ostream` whose format flags and precision are never changed
(hubbard_real_1d_rk4.cpp:59, 71, 87 and the same statements of the other programs; function_matrix.hpp:82 is the only place that changes them, for another
stream, C88). For a `double` that is the conversion `%g` with precision 6: six significant digits, correctly rounded (ties to even), without trailing zeros, with an exponent
if it is less than -4 or at least 6. Infinities and NaN are not modelled.
-/

set_option autoImplicit false

namespace Ieompp
namespace OutputText

open Ieompp.IO (Text)
open KroneckerNumber (Double padded)

/-- Six significant decimal digits `n` and the decimal exponent `X` of the first digit: the conversion `%e` with precision 5 on which `%g` is based. Library function, called in
hubbard_real_1d_rk4.cpp:59, 71, 87. -/
noncomputable def sixDigits (m : ℝ) : ℕ × ℤ :=
  let e := Int.log 10 m
  let n := (Spec.roundEven (m / (10 : ℝ) ^ (e - 5))).toNat
  if n = 10 ^ 6 then (10 ^ 5, e + 1) else (n, e)

/-- `%g` removes trailing zeros of the fraction. Library function, called in hubbard_real_1d_rk4.cpp:59, 71, 87. -/
def stripZeros (t : Text) : Text := (t.reverse.dropWhile (· = '0')).reverse

/-- The point is only written if digits follow. Library function, called in hubbard_real_1d_rk4.cpp:59, 71, 87. -/
def withPoint (ip fp : Text) : Text := ip ++ (if fp = [] then [] else '.' :: fp)

/-- An exponent: a sign and at least two digits. Library function, called in hubbard_real_1d_rk4.cpp:59, 71, 87. -/
def exponentText (X : ℤ) : Text := 'e' :: (if X < 0 then '-' else '+') :: padded 2 X.natAbs

/-- The magnitude of a number, from its six digits and its exponent. Library function, called in hubbard_real_1d_rk4.cpp:59, 71, 87. -/
def writeDigits (n : ℕ) (X : ℤ) : Text :=
  let ds := Nat.toDigits 10 n
  if -4 ≤ X ∧ X < 6 then
    if 0 ≤ X then withPoint (ds.take (X.toNat + 1)) (stripZeros (ds.drop (X.toNat + 1)))
    else '0' :: '.' :: (List.replicate (-X - 1).toNat '0' ++ stripZeros ds)
  else withPoint (ds.take 1) (stripZeros (ds.drop 1)) ++ exponentText X

/-- `strm << x` for a finite `double` (`%g`). hubbard_real_1d_rk4.cpp:59, 71, 87. -/
noncomputable def writeDouble (x : Double) : Text :=
  (if x.negative then ['-'] else []) ++
    if x.magnitude = 0 then ['0'] else writeDigits (sixDigits x.magnitude).1 (sixDigits x.magnitude).2

/-- A row: the first number, then the others after a tabulator each, then the end of the line. hubbard_real_1d_rk4.cpp:71, 87, hubbard_real_1d_kinetic_rk4.cpp:67, 83,
hubbard_real_1d_rk4_jump.cpp:68, 84, hubbard_real_2d_rk4_jump.cpp:79, 95, hubbard_real_1d_rk4_coefficients.cpp:65-69, 83-87, hubbard_real_1d_kinetic_rk4_coefficients.cpp:63-67, 81-85,
hubbard_dispersion_1d.cpp:16, hubbard_real_1d_kinetic_theory.cpp:90, hubbard_trivial.cpp:44-50. -/
noncomputable def writeRow (x : Double) (xs : List Double) : Text :=
  writeDouble x ++ xs.flatMap (fun y => '\t' :: writeDouble y) ++ ['\n']

/-- The first row: the time is the integer constant 0. hubbard_real_1d_rk4.cpp:59, hubbard_real_1d_kinetic_rk4.cpp:57, hubbard_real_1d_rk4_jump.cpp:58,
hubbard_real_2d_rk4_jump.cpp:67, hubbard_real_1d_rk4_coefficients.cpp:51-55, hubbard_real_1d_kinetic_rk4_coefficients.cpp:49-53. -/
noncomputable def writeFirstRow (xs : List Double) : Text := IO.printNat 0 ++ xs.flatMap (fun y => '\t' :: writeDouble y) ++ ['\n']

/-- The rows that a simulation adds to the output file after the header: the measurement at `t = 0`, then the others. hubbard_real_1d_rk4.cpp:59, 71, 87 and the same
statements of the other programs. -/
noncomputable def simulationText : List (Double × List Double) → Text
  | [] => []
  | first :: rest => writeFirstRow first.2 ++ rest.flatMap fun r => writeRow r.1 r.2

/-- A file written row by row. hubbard_dispersion_1d.cpp:16, hubbard_real_1d_kinetic_theory.cpp:90, hubbard_trivial.cpp:44-50. -/
noncomputable def tableText (rows : List (Double × List Double)) : Text := rows.flatMap fun r => writeRow r.1 r.2

end OutputText
end Ieompp
