import Verif.Model.OutputText

/-! # Model of the standard output of `hubbard_momentum_1d_rk4` -/

set_option autoImplicit false

namespace Ieompp
namespace OutputText

open Ieompp.IO (Text)
open KroneckerNumber (Double)

/-- The two lines, one for each call of `particle_number`. hubbard_momentum_1d_rk4.cpp:61, 70. Simplification: the messages that the logger writes to the console (C100) are left out. -/
noncomputable def momentumText (first second : Double) : Text := writeDouble first ++ ['\n'] ++ (writeDouble second ++ ['\n'])

end OutputText
end Ieompp
