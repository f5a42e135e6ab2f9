import Verif.Model.Prefactor
import Verif.Model.SymbolicIndex
import Verif.Spec.Rounding

/-!
# Model of `make_kronecker` for numbers (`include/ieompp/algebra/kronecker.hpp:45-50`)

`to_string` is `std::to_string` (the name is unqualified in the header and is only found if a using-directive for `std` precedes it):
a minus sign and decimal digits for the integer types (`bool` and `char` are promoted to `int`), the conversion `%f` for the floating
point types, i.e. the decimal representation rounded to six digits after the point, ties to even.
-/

set_option autoImplicit false

namespace Ieompp
namespace KroneckerNumber

open IO (Text)

/-- A finite `double`: sign bit and magnitude. Argument of `to_string` in kronecker.hpp:49. -/
structure Double where
  negative : Bool
  magnitude : ℝ
  nonneg : 0 ≤ magnitude

/-- The value of the argument of kronecker.hpp:49. -/
def Double.value (x : Double) : ℝ := if x.negative then -x.magnitude else x.magnitude

/-- The magnitude in units of the last printed digit: `%f` in `std::to_string(double)`, kronecker.hpp:49. -/
noncomputable def Double.millionths (x : Double) : ℕ := (Spec.roundEven (x.magnitude * 10 ^ 6)).toNat

/-- Decimal digits with leading zeros up to a given width: `%f` in `std::to_string(double)`, kronecker.hpp:49. -/
def padded (width n : ℕ) : Text := List.replicate (width - (Nat.toDigits 10 n).length) '0' ++ Nat.toDigits 10 n

/-- `std::to_string(double)`. kronecker.hpp:49. -/
noncomputable def toStringDouble (x : Double) : Text :=
  (if x.negative then ['-'] else []) ++ Nat.toDigits 10 (x.millionths / 10 ^ 6) ++ ['.'] ++ padded 6 (x.millionths % 10 ^ 6)

/-- `make_kronecker` for integers. kronecker.hpp:45-50. -/
def makeInt (a b : ℤ) : Kronecker Text := ⟨Symbolic.toString' a, Symbolic.toString' b⟩

/-- `make_kronecker` for `bool`, which `std::to_string` converts to `int`. kronecker.hpp:45-50. -/
def makeBool (a b : Bool) : Kronecker Text := makeInt (if a then 1 else 0) (if b then 1 else 0)

/-- `make_kronecker` for `double`. kronecker.hpp:45-50. -/
noncomputable def makeDouble (a b : Double) : Kronecker Text := ⟨toStringDouble a, toStringDouble b⟩

end KroneckerNumber
end Ieompp
