import Verif.Model.OutputText
import Verif.Model.Extended

/-!
# Model of the text of the result files when infinities and NaN are written

`operator<<` of a `std::ostream` for a `double` that need not be finite, i.e. the conversion `%g` of the C library: `inf`, `nan`, with a minus sign if the sign bit is set (the
GNU library, which writes the sign of a NaN as well). The sign bit of a NaN is part of the value here; the arithmetic of `Verif.Model.Extended` leaves it open.
-/

set_option autoImplicit false

namespace Ieompp
namespace OutputText

open Ieompp.IO (Text)
open KroneckerNumber (Double)

/-- A `double` as it is written: a finite one with its sign bit, an infinity, or a NaN with its sign bit. hubbard_real_1d_rk4.cpp:71. -/
inductive Value where
  | fin (x : Double)
  | inf (negative : Bool)
  | nan (negative : Bool)

/-- The value that `double` stands for. hubbard_real_1d_rk4.cpp:71. -/
def Value.toExt : Value → Ext
  | .fin x => .fin x.value
  | .inf s => .inf s
  | .nan _ => .nan

/-- `strm << x`; compare `writeDouble`. hubbard_real_1d_rk4.cpp:59, 71, 87. -/
noncomputable def writeValue : Value → Text
  | .fin x => writeDouble x
  | .inf s => (if s then ['-'] else []) ++ ['i', 'n', 'f']
  | .nan s => (if s then ['-'] else []) ++ ['n', 'a', 'n']

/-- A row; compare `writeRow`. hubbard_real_1d_rk4.cpp:71, 87, hubbard_real_1d_kinetic_rk4.cpp:67, 83, hubbard_real_1d_rk4_jump.cpp:68, 84, hubbard_real_2d_rk4_jump.cpp:79, 95,
hubbard_real_1d_rk4_coefficients.cpp:65-69, 83-87, hubbard_real_1d_kinetic_rk4_coefficients.cpp:63-67, 81-85. -/
noncomputable def writeRowX (x : Value) (xs : List Value) : Text :=
  writeValue x ++ xs.flatMap (fun y => '\t' :: writeValue y) ++ ['\n']

/-- The first row: the time is the integer constant 0; compare `writeFirstRow`. hubbard_real_1d_rk4.cpp:59, hubbard_real_1d_kinetic_rk4.cpp:57, hubbard_real_1d_rk4_jump.cpp:58,
hubbard_real_2d_rk4_jump.cpp:67, hubbard_real_1d_rk4_coefficients.cpp:51-55, hubbard_real_1d_kinetic_rk4_coefficients.cpp:49-53. -/
noncomputable def writeFirstRowX (xs : List Value) : Text := IO.printNat 0 ++ xs.flatMap (fun y => '\t' :: writeValue y) ++ ['\n']

/-- The rows that a simulation adds to the output file after the header; compare `simulationText`. hubbard_real_1d_rk4.cpp:59, 71, 87 and the same statements of the other
programs. -/
noncomputable def simulationTextX : List (Value × List Value) → Text
  | [] => []
  | first :: rest => writeFirstRowX first.2 ++ rest.flatMap fun r => writeRowX r.1 r.2

/-- The two lines of `hubbard_momentum_1d_rk4`; compare `momentumText`. hubbard_momentum_1d_rk4.cpp:61, 70. -/
noncomputable def momentumTextX (first second : Value) : Text := writeValue first ++ ['\n'] ++ (writeValue second ++ ['\n'])

end OutputText
end Ieompp
