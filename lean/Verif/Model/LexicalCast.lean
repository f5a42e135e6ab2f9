import Verif.Model.Main
import Mathlib.Data.Rat.Cast.Order
import Mathlib.Data.Real.Basic

/-!
# The conversion of the texts of options to numbers

`store` converts the text of an option of type `uint64_t` or `double` with `boost::lexical_cast` (`make_value<T>` asks for nothing else:
cli.hpp:16-26, and the programs check nothing afterwards). Modelled after the documentation and the source of boost: unsigned integers are an optional sign and
digits, a value above the maximum of the type is an error, and a minus sign negates modulo `2 ^ 64`; floating point numbers are read
by `std::istream`, i.e. sign, digits with at most one point, exponent, and nothing after it.
-/

set_option autoImplicit false

namespace Ieompp.Main

open IO App

/-- An optional sign: whether it is a minus, and the rest. Start of the conversion called in cli.hpp:38, 51. -/
def takeSign : Text → Bool × Text
  | '-' :: t => (true, t)
  | '+' :: t => (false, t)
  | t => (false, t)

/-- The value of a sequence of digits, the most significant first. Library function, called through cli.hpp:38, 51. -/
def digitsValue (ds : Text) : ℕ := ds.foldl (fun acc c => 10 * acc + (c.toNat - '0'.toNat)) 0

/-- `boost::lexical_cast<uint64_t>`: cli.hpp:38, 51 for the options declared with `make_value<uint64_t>`, hubbard_real_1d_rk4.cpp:23, 28. -/
def lexicalNat (t : Text) : Option ℕ :=
  let neg := (takeSign t).1
  let ds := (takeSign t).2
  if ds ≠ [] ∧ ds.all Char.isDigit = true then
    if digitsValue ds < 2 ^ 64 then some (if neg then (2 ^ 64 - digitsValue ds) % 2 ^ 64 else digitsValue ds) else none
  else none

/-- The digits after an optional point, and the rest. Library function, called through cli.hpp:38, 51. -/
def takeFraction : Text → Text × Text
  | '.' :: t => (t.takeWhile Char.isDigit, t.dropWhile Char.isDigit)
  | t => ([], t)

/-- The exponent without its letter: a sign and at least one digit. Library function, called through cli.hpp:38, 51. -/
def readExponentDigits (t : Text) : Option ℤ :=
  let neg := (takeSign t).1
  let ds := (takeSign t).2
  if ds ≠ [] ∧ ds.all Char.isDigit = true then some (if neg then -(digitsValue ds : ℤ) else digitsValue ds) else none

/-- The exponent, if there is one, up to the end of the text. Library function, called through cli.hpp:38, 51. -/
def readExponent : Text → Option ℤ
  | [] => some 0
  | c :: t => if c = 'e' ∨ c = 'E' then readExponentDigits t else none

/-- The rational number which a text denotes. Library function, called through cli.hpp:38, 51. -/
def readDecimal (t : Text) : Option ℚ :=
  let neg := (takeSign t).1
  let ip := (takeSign t).2.takeWhile Char.isDigit
  let rest := (takeSign t).2.dropWhile Char.isDigit
  let fp := (takeFraction rest).1
  if ip ++ fp = [] then none
  else (readExponent (takeFraction rest).2).map fun e : ℤ =>
    (if neg then -1 else 1 : ℚ) * digitsValue (ip ++ fp) * (10 : ℚ) ^ (e - (fp.length : ℤ))

/-- From this magnitude on a number is rounded to infinity, which is an error. Library function, called through cli.hpp:38, 51. -/
def overflowBound : ℚ := 2 ^ 1024 - 2 ^ 970

/-- `boost::lexical_cast<double>`: cli.hpp:38, 51 for the options declared with `make_value<double>`, hubbard_real_1d_rk4.cpp:24-29. `rnd` is the
rounding to a `double`. The texts for infinity and NaN, which boost accepts, are errors here; they are in `lexicalExt`. -/
noncomputable def lexicalNum (rnd : ℚ → ℝ) (t : Text) : Option ℝ :=
  (readDecimal t).bind fun x => if |x| < overflowBound then some (rnd x) else none

/-- The conversions used by the programs: cli.hpp:38, 51. -/
noncomputable def lexicalConv (rnd : ℚ → ℝ) : Conv := ⟨lexicalNat, lexicalNum rnd⟩

/-- The programs with the types of their options. hubbard_real_1d_rk4.cpp:22-29 and the same lines of the other programs. -/
def programKinds : List (Prog × List (Text × Kind)) :=
  [(progReal1dRk4, kindsReal1dRk4), (progReal1dKineticRk4, kindsReal1dKineticRk4), (progReal1dRk4Coefficients, kindsReal1dRk4Coefficients),
    (progReal1dKineticRk4Coefficients, kindsReal1dKineticRk4Coefficients), (progReal1dRk4Jump, kindsReal1dRk4Jump),
    (progReal2dRk4Jump, kindsReal2dRk4Jump), (progMomentum1dRk4, kindsMomentum1dRk4)]

end Ieompp.Main
