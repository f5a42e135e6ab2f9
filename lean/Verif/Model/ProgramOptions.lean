import Verif.Model.Application

/-!
# The programs of `src/hubbard` that use `Application`: their names and options

Default values are kept as the text that boost makes of them (`lexical_cast`, 17 significant digits for `double`).
-/

set_option autoImplicit false

namespace Ieompp.App

open IO

/-- A program: the name of the executable (CMake: the stem of the source file), `Application::name` and its own options with the
texts of their default values. hubbard_real_1d_rk4.cpp:17-30 and the same lines of the other programs. -/
structure Prog where
  executable : Text
  name : Text
  own : List (Text × Text)

/-- hubbard_momentum_1d_rk4.cpp:14-27 -/
def progMomentum1dRk4 : Prog :=
  { executable := ['h', 'u', 'b', 'b', 'a', 'r', 'd', '_', 'm', 'o', 'm', 'e', 'n', 't', 'u', 'm', '_', '1', 'd', '_', 'r', 'k', '4']
    name := ['h', 'u', 'b', 'b', 'a', 'r', 'd', '_', 'm', 'o', 'm', 'e', 'n', 't', 'u', 'm', '_', '1', 'd', '_', 'r', 'k', '4']
    own := [(['N'], ['1', '6']),
      (['J'], ['1']),
      (['U'], ['1']),
      (['d', 't'], ['0', '.', '0', '1']),
      (['t', '_', 'e', 'n', 'd'], ['1', '0']),
      (['m', 'e', 'a', 's', 'u', 'r', 'e', 'm', 'e', 'n', 't', '_', 'i', 'n', 't', 'e', 'r', 'v', 'a', 'l'], ['0', '.', '1', '0', '0', '0', '0', '0', '0', '0', '0', '0', '0', '0', '0', '0', '0', '0', '1'])] }

/-- hubbard_real_1d_kinetic_rk4.cpp:17-30 -/
def progReal1dKineticRk4 : Prog :=
  { executable := ['h', 'u', 'b', 'b', 'a', 'r', 'd', '_', 'r', 'e', 'a', 'l', '_', '1', 'd', '_', 'k', 'i', 'n', 'e', 't', 'i', 'c', '_', 'r', 'k', '4']
    name := ['h', 'u', 'b', 'b', 'a', 'r', 'd', '_', 'r', 'e', 'a', 'l', '_', '1', 'd', '_', 'k', 'i', 'n', 'e', 't', 'i', 'c', '_', 'r', 'k', '4']
    own := [(['N'], ['1', '6']),
      (['J'], ['1']),
      (['d', 't'], ['0', '.', '0', '1']),
      (['t', '_', 'e', 'n', 'd'], ['1', '0']),
      (['m', 'e', 'a', 's', 'u', 'r', 'e', 'm', 'e', 'n', 't', '_', 'i', 'n', 't', 'e', 'r', 'v', 'a', 'l'], ['1', '0', '0']),
      (['f', 'i', 'l', 'l', 'i', 'n', 'g', '_', 'f', 'a', 'c', 't', 'o', 'r'], ['0', '.', '5'])] }

/-- hubbard_real_1d_kinetic_rk4_coefficients.cpp:15-27 -/
def progReal1dKineticRk4Coefficients : Prog :=
  { executable := ['h', 'u', 'b', 'b', 'a', 'r', 'd', '_', 'r', 'e', 'a', 'l', '_', '1', 'd', '_', 'k', 'i', 'n', 'e', 't', 'i', 'c', '_', 'r', 'k', '4', '_', 'c', 'o', 'e', 'f', 'f', 'i', 'c', 'i', 'e', 'n', 't', 's']
    name := ['h', 'u', 'b', 'b', 'a', 'r', 'd', '_', 'r', 'e', 'a', 'l', '_', '1', 'd', '_', 'r', 'k', '4', '_', 'c', 'o', 'e', 'f', 'f', 'i', 'c', 'i', 'e', 'n', 't', 's']
    own := [(['N'], ['1', '6']),
      (['J'], ['1']),
      (['d', 't'], ['0', '.', '0', '1']),
      (['t', '_', 'e', 'n', 'd'], ['1', '0']),
      (['m', 'e', 'a', 's', 'u', 'r', 'e', 'm', 'e', 'n', 't', '_', 'i', 'n', 't', 'e', 'r', 'v', 'a', 'l'], ['1', '0', '0'])] }

/-- hubbard_real_1d_rk4.cpp:17-31 -/
def progReal1dRk4 : Prog :=
  { executable := ['h', 'u', 'b', 'b', 'a', 'r', 'd', '_', 'r', 'e', 'a', 'l', '_', '1', 'd', '_', 'r', 'k', '4']
    name := ['h', 'u', 'b', 'b', 'a', 'r', 'd', '_', 'r', 'e', 'a', 'l', '_', '1', 'd', '_', 'r', 'k', '4']
    own := [(['N'], ['1', '6']),
      (['J'], ['1']),
      (['U'], ['1']),
      (['d', 't'], ['0', '.', '0', '1']),
      (['t', '_', 'e', 'n', 'd'], ['1', '0']),
      (['m', 'e', 'a', 's', 'u', 'r', 'e', 'm', 'e', 'n', 't', '_', 'i', 'n', 't', 'e', 'r', 'v', 'a', 'l'], ['1', '0', '0']),
      (['f', 'i', 'l', 'l', 'i', 'n', 'g', '_', 'f', 'a', 'c', 't', 'o', 'r'], ['0', '.', '5'])] }

/-- hubbard_real_1d_rk4_coefficients.cpp:15-28 -/
def progReal1dRk4Coefficients : Prog :=
  { executable := ['h', 'u', 'b', 'b', 'a', 'r', 'd', '_', 'r', 'e', 'a', 'l', '_', '1', 'd', '_', 'r', 'k', '4', '_', 'c', 'o', 'e', 'f', 'f', 'i', 'c', 'i', 'e', 'n', 't', 's']
    name := ['h', 'u', 'b', 'b', 'a', 'r', 'd', '_', 'r', 'e', 'a', 'l', '_', '1', 'd', '_', 'r', 'k', '4', '_', 'c', 'o', 'e', 'f', 'f', 'i', 'c', 'i', 'e', 'n', 't', 's']
    own := [(['N'], ['1', '6']),
      (['J'], ['1']),
      (['U'], ['1']),
      (['d', 't'], ['0', '.', '0', '1']),
      (['t', '_', 'e', 'n', 'd'], ['1', '0']),
      (['m', 'e', 'a', 's', 'u', 'r', 'e', 'm', 'e', 'n', 't', '_', 'i', 'n', 't', 'e', 'r', 'v', 'a', 'l'], ['1', '0', '0'])] }

/-- hubbard_real_1d_rk4_jump.cpp:17-31 -/
def progReal1dRk4Jump : Prog :=
  { executable := ['h', 'u', 'b', 'b', 'a', 'r', 'd', '_', 'r', 'e', 'a', 'l', '_', '1', 'd', '_', 'r', 'k', '4', '_', 'j', 'u', 'm', 'p']
    name := ['h', 'u', 'b', 'b', 'a', 'r', 'd', '_', 'r', 'e', 'a', 'l', '_', '1', 'd', '_', 'r', 'k', '4', '_', 'j', 'u', 'm', 'p']
    own := [(['N'], ['1', '6']),
      (['J'], ['1']),
      (['U'], ['1']),
      (['d', 't'], ['0', '.', '0', '1']),
      (['t', '_', 'e', 'n', 'd'], ['1', '0']),
      (['m', 'e', 'a', 's', 'u', 'r', 'e', 'm', 'e', 'n', 't', '_', 'i', 'n', 't', 'e', 'r', 'v', 'a', 'l'], ['1', '0', '0']),
      (['f', 'i', 'l', 'l', 'i', 'n', 'g', '_', 'f', 'a', 'c', 't', 'o', 'r'], ['0', '.', '5'])] }

/-- hubbard_real_2d_rk4_jump.cpp:17-33 -/
def progReal2dRk4Jump : Prog :=
  { executable := ['h', 'u', 'b', 'b', 'a', 'r', 'd', '_', 'r', 'e', 'a', 'l', '_', '2', 'd', '_', 'r', 'k', '4', '_', 'j', 'u', 'm', 'p']
    name := ['h', 'u', 'b', 'b', 'a', 'r', 'd', '_', 'r', 'e', 'a', 'l', '_', '2', 'd', '_', 'r', 'k', '4']
    own := [(['N', 'x'], ['4']),
      (['N', 'y'], ['4']),
      (['J'], ['1']),
      (['U'], ['1']),
      (['d', 't'], ['0', '.', '0', '1']),
      (['t', '_', 'e', 'n', 'd'], ['1', '0']),
      (['m', 'e', 'a', 's', 'u', 'r', 'e', 'm', 'e', 'n', 't', '_', 'i', 'n', 't', 'e', 'r', 'v', 'a', 'l'], ['1', '0', '0']),
      (['k', 'x'], ['1', '.', '5', '7', '0', '7', '9', '6', '3', '2', '6', '7', '9', '4', '8', '9', '6', '6']),
      (['k', 'y'], ['1', '.', '5', '7', '0', '7', '9', '6', '3', '2', '6', '7', '9', '4', '8', '9', '6', '6'])] }

/-- All programs that use `Application`: hubbard_real_1d_rk4.cpp:17-30 and the same lines of the other programs in src/hubbard. -/
def programs : List Prog := [progMomentum1dRk4, progReal1dKineticRk4, progReal1dKineticRk4Coefficients, progReal1dRk4, progReal1dRk4Coefficients, progReal1dRk4Jump, progReal2dRk4Jump]

/-- The options of a program: application.hpp:107-119 and its own calls of `add_options`. -/
def Prog.options (p : Prog) : List Opt := programOptions p.name p.own

end Ieompp.App
