import Verif.Model.Log

/-!
# The calls of `info` in the programs

Generated by `tools/gen_logcalls.py` from the sources: file, line, logger, format string and number of arguments of every
call of `info` in `src/hubbard`.
-/

set_option autoImplicit false

namespace Ieompp.Log

/-- One call of `info`. checkpoint.hpp:23-84, application.hpp:53-104. -/
structure Call where
  file : String
  line : ℕ
  logger : Logger
  format : String
  args : ℕ
  deriving DecidableEq

/-- hubbard_real_1d_kinetic_rk4.cpp: every call of `info`. hubbard_real_1d_kinetic_rk4.cpp:54-85. -/
def calls_hubbard_real_1d_kinetic_rk4_cpp : List Call :=
  [⟨"hubbard_real_1d_kinetic_rk4.cpp", 54, .main, "Measuring at t=0", 0⟩,
   ⟨"hubbard_real_1d_kinetic_rk4.cpp", 56, .main, "  <n_{{0,↑}}>(0) = {}", 1⟩,
   ⟨"hubbard_real_1d_kinetic_rk4.cpp", 59, .main, "Finish measurement at t=0", 0⟩,
   ⟨"hubbard_real_1d_kinetic_rk4.cpp", 64, .main, "Measuring at t={}", 1⟩,
   ⟨"hubbard_real_1d_kinetic_rk4.cpp", 66, .main, "  <n_{{0,↑}}>({}) = {}", 2⟩,
   ⟨"hubbard_real_1d_kinetic_rk4.cpp", 69, .main, "Finish measurement at t={}", 1⟩,
   ⟨"hubbard_real_1d_kinetic_rk4.cpp", 73, .ode, "Integrate from t={}", 1⟩,
   ⟨"hubbard_real_1d_kinetic_rk4.cpp", 75, .ode, "Finished integration t={} -> t={}", 2⟩,
   ⟨"hubbard_real_1d_kinetic_rk4.cpp", 80, .main, "Measuring at t={}", 1⟩,
   ⟨"hubbard_real_1d_kinetic_rk4.cpp", 82, .main, "  <n_{{0,↑}}>({}) = {}", 2⟩,
   ⟨"hubbard_real_1d_kinetic_rk4.cpp", 85, .main, "Finish measurement at t={}", 1⟩]

/-- hubbard_real_1d_kinetic_rk4_coefficients.cpp: every call of `info`. hubbard_real_1d_kinetic_rk4_coefficients.cpp:48-87. -/
def calls_hubbard_real_1d_kinetic_rk4_coefficients_cpp : List Call :=
  [⟨"hubbard_real_1d_kinetic_rk4_coefficients.cpp", 48, .main, "Measuring at t=0", 0⟩,
   ⟨"hubbard_real_1d_kinetic_rk4_coefficients.cpp", 55, .main, "Finish measurement at t=0", 0⟩,
   ⟨"hubbard_real_1d_kinetic_rk4_coefficients.cpp", 58, .main, "h[0] = {}", 1⟩,
   ⟨"hubbard_real_1d_kinetic_rk4_coefficients.cpp", 62, .main, "Measuring at t={}", 1⟩,
   ⟨"hubbard_real_1d_kinetic_rk4_coefficients.cpp", 69, .main, "Finish measurement at t={}", 1⟩,
   ⟨"hubbard_real_1d_kinetic_rk4_coefficients.cpp", 73, .ode, "Integrate from t={}", 1⟩,
   ⟨"hubbard_real_1d_kinetic_rk4_coefficients.cpp", 75, .ode, "Finished integration t={} -> t={}", 2⟩,
   ⟨"hubbard_real_1d_kinetic_rk4_coefficients.cpp", 80, .main, "Measuring at t={}", 1⟩,
   ⟨"hubbard_real_1d_kinetic_rk4_coefficients.cpp", 87, .main, "Finish measurement at t={}", 1⟩]

/-- hubbard_real_1d_rk4.cpp: every call of `info`. hubbard_real_1d_rk4.cpp:56-89. -/
def calls_hubbard_real_1d_rk4_cpp : List Call :=
  [⟨"hubbard_real_1d_rk4.cpp", 56, .main, "Measuring at t=0", 0⟩,
   ⟨"hubbard_real_1d_rk4.cpp", 58, .main, "  <n_{{0,↑}}>(0) = {}", 1⟩,
   ⟨"hubbard_real_1d_rk4.cpp", 61, .main, "Finish measurement at t=0", 0⟩,
   ⟨"hubbard_real_1d_rk4.cpp", 64, .main, "h[0] = {}", 1⟩,
   ⟨"hubbard_real_1d_rk4.cpp", 68, .main, "Measuring at t={}", 1⟩,
   ⟨"hubbard_real_1d_rk4.cpp", 70, .main, "  <n_{{0,↑}}>({}) = {}", 2⟩,
   ⟨"hubbard_real_1d_rk4.cpp", 73, .main, "Finish measurement at t={}", 1⟩,
   ⟨"hubbard_real_1d_rk4.cpp", 77, .ode, "Integrate from t={}", 1⟩,
   ⟨"hubbard_real_1d_rk4.cpp", 79, .ode, "Finished integration t={} -> t={}", 2⟩,
   ⟨"hubbard_real_1d_rk4.cpp", 84, .main, "Measuring at t={}", 1⟩,
   ⟨"hubbard_real_1d_rk4.cpp", 86, .main, "  <n_{{0,↑}}>({}) = {}", 2⟩,
   ⟨"hubbard_real_1d_rk4.cpp", 89, .main, "Finish measurement at t={}", 1⟩]

/-- hubbard_real_1d_rk4_coefficients.cpp: every call of `info`. hubbard_real_1d_rk4_coefficients.cpp:50-89. -/
def calls_hubbard_real_1d_rk4_coefficients_cpp : List Call :=
  [⟨"hubbard_real_1d_rk4_coefficients.cpp", 50, .main, "Measuring at t=0", 0⟩,
   ⟨"hubbard_real_1d_rk4_coefficients.cpp", 57, .main, "Finish measurement at t=0", 0⟩,
   ⟨"hubbard_real_1d_rk4_coefficients.cpp", 60, .main, "h[0] = {}", 1⟩,
   ⟨"hubbard_real_1d_rk4_coefficients.cpp", 64, .main, "Measuring at t={}", 1⟩,
   ⟨"hubbard_real_1d_rk4_coefficients.cpp", 71, .main, "Finish measurement at t={}", 1⟩,
   ⟨"hubbard_real_1d_rk4_coefficients.cpp", 75, .ode, "Integrate from t={}", 1⟩,
   ⟨"hubbard_real_1d_rk4_coefficients.cpp", 77, .ode, "Finished integration t={} -> t={}", 2⟩,
   ⟨"hubbard_real_1d_rk4_coefficients.cpp", 82, .main, "Measuring at t={}", 1⟩,
   ⟨"hubbard_real_1d_rk4_coefficients.cpp", 89, .main, "Finish measurement at t={}", 1⟩]

/-- hubbard_real_1d_rk4_jump.cpp: every call of `info`. hubbard_real_1d_rk4_jump.cpp:55-86. -/
def calls_hubbard_real_1d_rk4_jump_cpp : List Call :=
  [⟨"hubbard_real_1d_rk4_jump.cpp", 55, .main, "Measuring at t=0", 0⟩,
   ⟨"hubbard_real_1d_rk4_jump.cpp", 57, .main, "  <Δn_{{k_F,↑}}>(0) = {}", 1⟩,
   ⟨"hubbard_real_1d_rk4_jump.cpp", 60, .main, "Finish measurement at t=0", 0⟩,
   ⟨"hubbard_real_1d_rk4_jump.cpp", 65, .main, "Measuring at t={}", 1⟩,
   ⟨"hubbard_real_1d_rk4_jump.cpp", 67, .main, "  <Δn_{{k_F,↑}}>({}) = {}", 2⟩,
   ⟨"hubbard_real_1d_rk4_jump.cpp", 70, .main, "Finish measurement at t={}", 1⟩,
   ⟨"hubbard_real_1d_rk4_jump.cpp", 74, .ode, "Integrate from t={}", 1⟩,
   ⟨"hubbard_real_1d_rk4_jump.cpp", 76, .ode, "Finished integration t={} -> t={}", 2⟩,
   ⟨"hubbard_real_1d_rk4_jump.cpp", 81, .main, "Measuring at t={}", 1⟩,
   ⟨"hubbard_real_1d_rk4_jump.cpp", 83, .main, "  <Δn_{{k_F,↑}}>({}) = {}", 2⟩,
   ⟨"hubbard_real_1d_rk4_jump.cpp", 86, .main, "Finish measurement at t={}", 1⟩]

/-- hubbard_real_2d_rk4_jump.cpp: every call of `info`. hubbard_real_2d_rk4_jump.cpp:64-97. -/
def calls_hubbard_real_2d_rk4_jump_cpp : List Call :=
  [⟨"hubbard_real_2d_rk4_jump.cpp", 64, .main, "Measuring at t=0", 0⟩,
   ⟨"hubbard_real_2d_rk4_jump.cpp", 66, .main, "  Δn_{{k_F,↑}}(0) = {}", 1⟩,
   ⟨"hubbard_real_2d_rk4_jump.cpp", 69, .main, "Finish measurement at t=0", 0⟩,
   ⟨"hubbard_real_2d_rk4_jump.cpp", 72, .main, "h[0] = {}", 1⟩,
   ⟨"hubbard_real_2d_rk4_jump.cpp", 76, .main, "Measuring at t={}", 1⟩,
   ⟨"hubbard_real_2d_rk4_jump.cpp", 78, .main, "  Δn_{{k_F,↑}}({}) = {}", 2⟩,
   ⟨"hubbard_real_2d_rk4_jump.cpp", 81, .main, "Finish measurement at t={}", 1⟩,
   ⟨"hubbard_real_2d_rk4_jump.cpp", 85, .ode, "Integrate from t={}", 1⟩,
   ⟨"hubbard_real_2d_rk4_jump.cpp", 87, .ode, "Finished integration t={} -> t={}", 2⟩,
   ⟨"hubbard_real_2d_rk4_jump.cpp", 92, .main, "Measuring at t={}", 1⟩,
   ⟨"hubbard_real_2d_rk4_jump.cpp", 94, .main, "  Δn_{{k_F,↑}}({}) = {}", 2⟩,
   ⟨"hubbard_real_2d_rk4_jump.cpp", 97, .main, "Finish measurement at t={}", 1⟩]

/-- include/application.hpp: every call of `info`. application.hpp:53-104. -/
def calls_include_application_hpp : List Call :=
  [⟨"include/application.hpp", 53, .main, "CLI options:", 0⟩,
   ⟨"include/application.hpp", 55, .main, "\t{} = {}", 2⟩,
   ⟨"include/application.hpp", 64, .io, "Write response file \"{}\"", 1⟩,
   ⟨"include/application.hpp", 70, .io, "Close response file \"{}\"", 1⟩,
   ⟨"include/application.hpp", 73, .io, "Opening output file \"{}\"", 1⟩,
   ⟨"include/application.hpp", 75, .io, "File \"{}\" is now open", 1⟩,
   ⟨"include/application.hpp", 100, .io, "Closing output file \"{}\"", 1⟩,
   ⟨"include/application.hpp", 102, .io, "File \"{}\" closed", 1⟩,
   ⟨"include/application.hpp", 104, .main, "Execution time: {}", 1⟩]

/-- include/checkpoint.hpp: every call of `info`. checkpoint.hpp:23-84. -/
def calls_include_checkpoint_hpp : List Call :=
  [⟨"include/checkpoint.hpp", 23, .io, "Create checkpoint file \"{}\" using vector with {} elements", 2⟩,
   ⟨"include/checkpoint.hpp", 29, .io, "Finished writing checkpoint file \"{}\"", 1⟩,
   ⟨"include/checkpoint.hpp", 32, .io, "Create checkpoint info file \"{}\" for t={}", 2⟩,
   ⟨"include/checkpoint.hpp", 36, .io, "Finished writing checkpoint info file \"{}\"", 1⟩,
   ⟨"include/checkpoint.hpp", 45, .io, "Read checkpoint file \"{}\"", 1⟩,
   ⟨"include/checkpoint.hpp", 50, .io, "Finished reading checkpoint file \"{}\"", 1⟩,
   ⟨"include/checkpoint.hpp", 55, .io, "Clean output file \"{}\" to contain {} entries", 2⟩,
   ⟨"include/checkpoint.hpp", 56, .io, "Renam output file \"{}\" -> \"{}\"", 2⟩,
   ⟨"include/checkpoint.hpp", 58, .io, "Finished renaming file", 0⟩,
   ⟨"include/checkpoint.hpp", 60, .io, "Open old output file \"{}\"", 1⟩,
   ⟨"include/checkpoint.hpp", 63, .io, "Open new output \"{}\" file for writing", 1⟩,
   ⟨"include/checkpoint.hpp", 66, .io, "Finished opening both files", 0⟩,
   ⟨"include/checkpoint.hpp", 68, .io, "Start copying \"{}\" entries", 1⟩,
   ⟨"include/checkpoint.hpp", 79, .io, "Finished copying entries {}", 1⟩,
   ⟨"include/checkpoint.hpp", 81, .io, "Close files \"{}\" and \"{}\"", 2⟩,
   ⟨"include/checkpoint.hpp", 84, .io, "Finished closing both files", 0⟩]

/-- include/cli.hpp: every call of `info`. cli.hpp:31-42. -/
def calls_include_cli_hpp : List Call :=
  [⟨"include/cli.hpp", 31, .main, "Reading response file \"{}\"", 1⟩,
   ⟨"include/cli.hpp", 42, .main, "Finish reading response file \"{}\"", 1⟩]

/-- include/common.hpp: every call of `info`. common.hpp:27-51. -/
def calls_include_common_hpp : List Call :=
  [⟨"include/common.hpp", 27, .io, "Write matrix {}x{} matrix to \"{}\"", 3⟩,
   ⟨"include/common.hpp", 34, .io, "Finished writing matrix file \"{}\"", 1⟩,
   ⟨"include/common.hpp", 39, .main, "Read initial vector from checkpoint file", 0⟩,
   ⟨"include/common.hpp", 46, .main, "Clean up output file to be in the state according to checkpoint for step TODO", 0⟩,
   ⟨"include/common.hpp", 51, .main, "Finished reading vector from checkpoint file", 0⟩]

/-- include/logging.hpp: every call of `info`. logging.hpp:24-36. -/
def calls_include_logging_hpp : List Call :=
  [⟨"include/logging.hpp", 24, .main, "Enable logging", 0⟩,
   ⟨"include/logging.hpp", 25, .main, "", 0⟩,
   ⟨"include/logging.hpp", 26, .main, "Platform:", 0⟩,
   ⟨"include/logging.hpp", 27, .main, "\tieompp:     \t{}", 1⟩,
   ⟨"include/logging.hpp", 28, .main, "\tboost:      \t{}", 1⟩,
   ⟨"include/logging.hpp", 29, .main, "\tblaze:      \t{}", 1⟩,
   ⟨"include/logging.hpp", 30, .main, "\tarch:       \t{}", 1⟩,
   ⟨"include/logging.hpp", 31, .main, "\tos:         \t{}", 1⟩,
   ⟨"include/logging.hpp", 32, .main, "\tcompiler:   \t{}", 1⟩,
   ⟨"include/logging.hpp", 33, .main, "\tstd lib:    \t{}", 1⟩,
   ⟨"include/logging.hpp", 34, .main, "\tcompiled by:\t{}@{}", 2⟩,
   ⟨"include/logging.hpp", 35, .main, "\tendianess   \t{}", 1⟩,
   ⟨"include/logging.hpp", 36, .main, "", 0⟩]

/-- include/rk4.hpp: every call of `info`. rk4.hpp:11-13. -/
def calls_include_rk4_hpp : List Call :=
  [⟨"include/rk4.hpp", 11, .ode, "Init RK4 integrator", 0⟩,
   ⟨"include/rk4.hpp", 13, .ode, "Finished RK4 initializing integrator", 0⟩]

/-- include/vector.hpp: every call of `info`. vector.hpp:11-16. -/
def calls_include_vector_hpp : List Call :=
  [⟨"include/vector.hpp", 11, .main, "Create {} dimensional vector with initial conditions (1, 0, 0, …)", 1⟩,
   ⟨"include/vector.hpp", 16, .main, "Finish creating vector", 0⟩]

/-- momentum_space/momentum_space.hpp: every call of `info`. momentum_space.hpp:12-21. -/
def calls_momentum_space_momentum_space_hpp : List Call :=
  [⟨"momentum_space/momentum_space.hpp", 12, .main, "Creating {}x{} complex sparse matrix", 2⟩,
   ⟨"momentum_space/momentum_space.hpp", 14, .main, "Computing matrix elements", 0⟩,
   ⟨"momentum_space/momentum_space.hpp", 16, .main, "  {} out of {} matrix elements are non-zero ({:.5f}% filling)", 3⟩,
   ⟨"momentum_space/momentum_space.hpp", 19, .main, "Multiply matrix with prefactor 1i", 0⟩,
   ⟨"momentum_space/momentum_space.hpp", 21, .main, "Finished matrix initialization", 0⟩]

/-- momentum_space/momentum_space_1d.hpp: every call of `info`. momentum_space_1d.hpp:17-19. -/
def calls_momentum_space_momentum_space_1d_hpp : List Call :=
  [⟨"momentum_space/momentum_space_1d.hpp", 17, .main, "Set up basis", 0⟩,
   ⟨"momentum_space/momentum_space_1d.hpp", 19, .main, "Finished setting up basis with {} elements", 1⟩]

/-- real_space/basis1.hpp: every call of `info`. basis1.hpp:17-19. -/
def calls_real_space_basis1_hpp : List Call :=
  [⟨"real_space/basis1.hpp", 17, .main, "Set up basis", 0⟩,
   ⟨"real_space/basis1.hpp", 19, .main, "Finished setting up basis with {} elements", 1⟩]

/-- real_space/basis3.hpp: every call of `info`. basis3.hpp:17-19. -/
def calls_real_space_basis3_hpp : List Call :=
  [⟨"real_space/basis3.hpp", 17, .main, "Set up basis", 0⟩,
   ⟨"real_space/basis3.hpp", 19, .main, "Finished setting up basis with {} elements", 1⟩]

/-- real_space/expectation_value_1d.hpp: every call of `info`. expectation_value_1d.hpp:12-16. -/
def calls_real_space_expectation_value_1d_hpp : List Call :=
  [⟨"real_space/expectation_value_1d.hpp", 12, .main, "Start to precalculate expectation values", 0⟩,
   ⟨"real_space/expectation_value_1d.hpp", 16, .main, "Finish precalculating expectation values", 0⟩]

/-- real_space/expectation_value_2d.hpp: every call of `info`. expectation_value_2d.hpp:11-13. -/
def calls_real_space_expectation_value_2d_hpp : List Call :=
  [⟨"real_space/expectation_value_2d.hpp", 11, .main, "Start to precalculate expectation values", 0⟩,
   ⟨"real_space/expectation_value_2d.hpp", 13, .main, "Finish precalculating expectation values", 0⟩]

/-- real_space/fermi_jump.hpp: every call of `info`. fermi_jump.hpp:13-19. -/
def calls_real_space_fermi_jump_hpp : List Call :=
  [⟨"real_space/fermi_jump.hpp", 13, .main, "Init <Δn_{{k_F,↑}}> observable for half-filled model", 0⟩,
   ⟨"real_space/fermi_jump.hpp", 19, .main, "Finished initializing <Δn_{{k_F,↑}}> observable", 0⟩]

/-- real_space/fermi_jump_no.hpp: every call of `info`. fermi_jump_no.hpp:12-17. -/
def calls_real_space_fermi_jump_no_hpp : List Call :=
  [⟨"real_space/fermi_jump_no.hpp", 12, .main, "Init <Δn_{{k_F,↑}}> observable for half-filled model", 0⟩,
   ⟨"real_space/fermi_jump_no.hpp", 17, .main, "Finished initializing <Δn_{{k_F,↑}}> observable", 0⟩]

/-- real_space/liouvillian.hpp: every call of `info`. liouvillian.hpp:10-23. -/
def calls_real_space_liouvillian_hpp : List Call :=
  [⟨"real_space/liouvillian.hpp", 10, .main, "Set up Liouvillian with:", 0⟩,
   ⟨"real_space/liouvillian.hpp", 11, .main, "\tJ = {}", 1⟩,
   ⟨"real_space/liouvillian.hpp", 13, .main, "Finished setting up Liouvillian", 0⟩,
   ⟨"real_space/liouvillian.hpp", 19, .main, "Set up Liouvillian with:", 0⟩,
   ⟨"real_space/liouvillian.hpp", 20, .main, "\tJ = {}", 1⟩,
   ⟨"real_space/liouvillian.hpp", 21, .main, "\tU = {}", 1⟩,
   ⟨"real_space/liouvillian.hpp", 23, .main, "Finished setting up Liouvillian", 0⟩]

/-- real_space/matrix.hpp: every call of `info`. matrix.hpp:11-36. -/
def calls_real_space_matrix_hpp : List Call :=
  [⟨"real_space/matrix.hpp", 11, .main, "Creating {}x{} complex sparse matrix", 2⟩,
   ⟨"real_space/matrix.hpp", 13, .main, "Computing matrix elements", 0⟩,
   ⟨"real_space/matrix.hpp", 15, .main, "  {} out of {} matrix elements are non-zero ({}% filling)", 3⟩,
   ⟨"real_space/matrix.hpp", 18, .main, "Multiply matrix with prefactor 1i", 0⟩,
   ⟨"real_space/matrix.hpp", 20, .main, "Finished matrix initialization", 0⟩,
   ⟨"real_space/matrix.hpp", 27, .main, "Creating {}x{} complex sparse matrix", 2⟩,
   ⟨"real_space/matrix.hpp", 29, .main, "Computing matrix elements", 0⟩,
   ⟨"real_space/matrix.hpp", 31, .main, "  {} out of {} matrix elements are non-zero ({:.5f}% filling)", 3⟩,
   ⟨"real_space/matrix.hpp", 34, .main, "Multiply matrix with prefactor 1i", 0⟩,
   ⟨"real_space/matrix.hpp", 36, .main, "Finished matrix initialization", 0⟩]

/-- real_space/matrix_no.hpp: every call of `info`. matrix_no.hpp:12-37. -/
def calls_real_space_matrix_no_hpp : List Call :=
  [⟨"real_space/matrix_no.hpp", 12, .main, "Creating {}x{} complex sparse matrix", 2⟩,
   ⟨"real_space/matrix_no.hpp", 14, .main, "Computing matrix elements", 0⟩,
   ⟨"real_space/matrix_no.hpp", 16, .main, "  {} out of {} matrix elements are non-zero ({}% filling)", 3⟩,
   ⟨"real_space/matrix_no.hpp", 19, .main, "Multiply matrix with prefactor 1i", 0⟩,
   ⟨"real_space/matrix_no.hpp", 21, .main, "Finished matrix initialization", 0⟩,
   ⟨"real_space/matrix_no.hpp", 28, .main, "Creating {}x{} complex sparse matrix", 2⟩,
   ⟨"real_space/matrix_no.hpp", 30, .main, "Computing matrix elements", 0⟩,
   ⟨"real_space/matrix_no.hpp", 32, .main, "  {} out of {} matrix elements are non-zero ({:.5f}% filling)", 3⟩,
   ⟨"real_space/matrix_no.hpp", 35, .main, "Multiply matrix with prefactor 1i", 0⟩,
   ⟨"real_space/matrix_no.hpp", 37, .main, "Finished matrix initialization", 0⟩]

/-- real_space/periodic_chain.hpp: every call of `info`. periodic_chain.hpp:10-12. -/
def calls_real_space_periodic_chain_hpp : List Call :=
  [⟨"real_space/periodic_chain.hpp", 10, .main, "Init periodic chain with N = {} sites", 0⟩,
   ⟨"real_space/periodic_chain.hpp", 12, .main, "Finished setting up lattice", 0⟩]

/-- real_space/periodic_square_lattice.hpp: every call of `info`. periodic_square_lattice.hpp:10-12. -/
def calls_real_space_periodic_square_lattice_hpp : List Call :=
  [⟨"real_space/periodic_square_lattice.hpp", 10, .main, "Init periodic square lattice with N = {} sites", 0⟩,
   ⟨"real_space/periodic_square_lattice.hpp", 12, .main, "Finished setting up lattice", 0⟩]

/-- real_space/site_occupation.hpp: every call of `info`. site_occupation.hpp:13-18. -/
def calls_real_space_site_occupation_hpp : List Call :=
  [⟨"real_space/site_occupation.hpp", 13, .main, "Init <n_{0,↑}> observable for half-filled model", 0⟩,
   ⟨"real_space/site_occupation.hpp", 18, .main, "Finished initializing <n_{0,↑}> observable", 0⟩]

/-- All calls of `info` in the programs. application.hpp:53-104, checkpoint.hpp:23-84. -/
def calls : List Call :=
  calls_hubbard_real_1d_kinetic_rk4_cpp ++
  calls_hubbard_real_1d_kinetic_rk4_coefficients_cpp ++
  calls_hubbard_real_1d_rk4_cpp ++
  calls_hubbard_real_1d_rk4_coefficients_cpp ++
  calls_hubbard_real_1d_rk4_jump_cpp ++
  calls_hubbard_real_2d_rk4_jump_cpp ++
  calls_include_application_hpp ++
  calls_include_checkpoint_hpp ++
  calls_include_cli_hpp ++
  calls_include_common_hpp ++
  calls_include_logging_hpp ++
  calls_include_rk4_hpp ++
  calls_include_vector_hpp ++
  calls_momentum_space_momentum_space_hpp ++
  calls_momentum_space_momentum_space_1d_hpp ++
  calls_real_space_basis1_hpp ++
  calls_real_space_basis3_hpp ++
  calls_real_space_expectation_value_1d_hpp ++
  calls_real_space_expectation_value_2d_hpp ++
  calls_real_space_fermi_jump_hpp ++
  calls_real_space_fermi_jump_no_hpp ++
  calls_real_space_liouvillian_hpp ++
  calls_real_space_matrix_hpp ++
  calls_real_space_matrix_no_hpp ++
  calls_real_space_periodic_chain_hpp ++
  calls_real_space_periodic_square_lattice_hpp ++
  calls_real_space_site_occupation_hpp

end Ieompp.Log
