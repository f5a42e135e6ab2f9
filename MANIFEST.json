{
 "claims": [
  {
   "property": "C01",
   "status": "proved",
   "theorems": [
    "op_eq_iff",
    "op_ne_eq_not",
    "op_eq_iff_eq",
    "op2_eq_iff",
    "op2_ne_eq_not",
    "op2_agrees_with_generic"
   ],
   "note": ""
  },
  {
   "property": "C02",
   "status": "proved",
   "theorems": [
    "op_conjugate_involutive",
    "op_conjugate_eq_getConjugate",
    "op_getConjugate_isAdjoint",
    "op_isConjugate_iff",
    "op_isConjugate_comm",
    "op_isConjugate_irrefl",
    "op2_conjugate_agrees",
    "op_make"
   ],
   "note": ""
  },
  {
   "property": "C03",
   "status": "proved",
   "theorems": [
    "opN_smaller_iff",
    "opN_greater_eq",
    "op_smaller_iff",
    "op_greater_eq",
    "op2_smaller_iff",
    "op2_greater_eq",
    "opN_smaller_strictTotal",
    "op_smaller_strictTotal",
    "op2_smaller_strictTotal"
   ],
   "note": ""
  },
  {
   "property": "C04",
   "status": "proved",
   "theorems": [
    "monomial_getConjugate_getElem",
    "monomial_conjugate_eq",
    "monomial_getConjugate_involutive",
    "monomial_getConjugate_mul",
    "monomial_isConjugate_iff",
    "monomial_isConjugate_comm",
    "monomial_eq_iff",
    "monomial_ne_eq_not",
    "monomial_getConjugate_value"
   ],
   "note": ""
  },
  {
   "property": "C05",
   "status": "partial",
   "theorems": [
    "monomial_mul_monoid",
    "monomial_mul_getElem",
    "monomial_mulAssign_partial",
    "monomial_mulAssignSelf_partial",
    "monomial_mulAssignSelf_iff",
    "monomial_mulAssignSelf_ub"
   ],
   "note": "Holds for distinct operands and for m*=m with spare capacity; m*=m with a full buffer is undefined behaviour (witness monomial_mulAssignSelf_ub), so the full property is false of the code."
  },
  {
   "property": "C06",
   "status": "proved",
   "theorems": [
    "commutate_graded",
    "commutate_sound",
    "commutate_odd",
    "commutate_terms"
   ],
   "note": ""
  },
  {
   "property": "C07",
   "status": "proved",
   "theorems": [
    "anticommutates_correct",
    "anticommutates_symm"
   ],
   "note": ""
  },
  {
   "property": "C08",
   "status": "proved",
   "theorems": [
    "commutateSym_sound"
   ],
   "note": ""
  },
  {
   "property": "C09",
   "status": "proved",
   "theorems": [
    "kronecker_eq_iff",
    "kronecker_eq_equivalence",
    "kronecker_ne_eq_not",
    "kronecker_order_le",
    "kronecker_order_idem",
    "kronecker_order_value",
    "kronecker_eq_iff_order_eq"
   ],
   "note": ""
  },
  {
   "property": "C10",
   "status": "partial",
   "theorems": [
    "krLess_strictWeak",
    "orderKroneckers_value",
    "orderKroneckers_canonical_partial",
    "orderKroneckers_canonical_iff",
    "orderKroneckers_not_canonical"
   ],
   "note": "Comparator legality and value preservation proved; canonicity is false of the code (orderKroneckers_not_canonical) and holds exactly for the prefactors in which no two different deltas share their smaller symbol (orderKroneckers_canonical_iff)."
  },
  {
   "property": "C11",
   "status": "proved",
   "theorems": [
    "prefactor_mul_value",
    "prefactor_mul_assoc"
   ],
   "note": ""
  },
  {
   "property": "C12",
   "status": "proved",
   "theorems": [
    "term_smaller_iff",
    "term_greater_eq",
    "term_smaller_strictWeak",
    "term_smaller_op",
    "term_smaller_op2"
   ],
   "note": ""
  },
  {
   "property": "C13",
   "status": "proved",
   "theorems": [
    "copyAsUniqueTerms_correct",
    "copyAsUniqueTerms_value"
   ],
   "note": "The C++ calls a method same_operators that does not exist; modelled as has_same_operators, as evidently intended."
  },
  {
   "property": "C14",
   "status": "proved",
   "theorems": [
    "term_mul_value",
    "term_mul_assoc",
    "term_getConjugate_value",
    "monomial_getConjugate_value",
    "term_getConjugate_mul"
   ],
   "note": ""
  },
  {
   "property": "C15",
   "status": "proved",
   "theorems": [
    "totalCreations_eq",
    "counters_mul",
    "counters_conjugate",
    "commutate_conserves"
   ],
   "note": ""
  },
  {
   "property": "C16",
   "status": "proved",
   "theorems": [
    "makeColumnsUnique_correct",
    "makeColumnsUnique_columnSum",
    "hasUniqueColumns_iff",
    "makeColumnsUnique_hasUnique",
    "makeColumnsUnique_empty_ub"
   ],
   "note": "For non-empty lists; on the empty list both functions are undefined (makeColumnsUnique_empty_ub). Column sums in exact arithmetic."
  },
  {
   "property": "C17",
   "status": "partial",
   "theorems": [
    "integerIterator_walk",
    "integerIterator_laws_partial",
    "integerIterator_end_sub_begin",
    "integerIterator_subAssign_wrong",
    "integerIterator_subAssign_iff",
    "integerIterator_moves_partial",
    "integerIterator_moves",
    "integerIterator_pre",
    "integerIterator_post_ub",
    "integerIterator_reference_moves"
   ],
   "note": "it -= n adds n (exact consequence for operation sequences: integerIterator_moves), the value of it++ is a dangling reference, and references obtained from *it follow the iterator; so the full property is false of the code. All other laws proved."
  },
  {
   "property": "C18",
   "status": "proved",
   "theorems": [
    "chain_neighbors_lt",
    "chain_neighboring_iff",
    "chain_neighbors_symm",
    "chain_neighbors_nodup",
    "chain_uniqueNeighbor_bonds",
    "chain_small_degenerate"
   ],
   "note": ""
  },
  {
   "property": "C19",
   "status": "proved",
   "theorems": [
    "chain_distance_metric",
    "chain_distance_invariant",
    "chain_distance_shortest"
   ],
   "note": ""
  },
  {
   "property": "C20",
   "status": "partial",
   "theorems": [
    "chain_lookup_momentum",
    "chain_lookup_real",
    "chain_lookup_lattice",
    "chain_lookup_pos",
    "chain_lookup_momentum_sum",
    "chain_lookup_periodic",
    "chain_lookup_nearest_partial",
    "chain_lookup_real_ub",
    "chain_lookup_diverges"
   ],
   "note": "Exact arithmetic. Everything holds in momentum space and at lattice points; in real space positions in ((N-1)dx,(N-1/2)dx] are undefined (chain_lookup_real_ub)."
  },
  {
   "property": "C21",
   "status": "partial",
   "theorems": [
    "chain_closest_real",
    "chain_closest_momentum_iff",
    "chain_closest_momentum_partial",
    "chain_closest_momentum_wrong"
   ],
   "note": "True in real space for every position; false in momentum space exactly for the positions that are taken into the half cells next to pi by subtracting periods (UpperCell, chain_closest_momentum_iff), among them pi itself for every N >= 2 (chain_closest_momentum_wrong)."
  },
  {
   "property": "C22",
   "status": "partial",
   "theorems": [
    "square_index_iff",
    "square_neighbors_iff",
    "square_neighbors_partial",
    "square_uniqueNeighbors_partial",
    "square_distance_partial",
    "square_rect_broken"
   ],
   "note": "Holds for Nx = Ny; false of the code for Nx != Ny: the index functions are consistent exactly for Nx = Ny (square_index_iff), the neighbours are valid and mutual exactly for Nx = Ny and the degenerate 1 x 2 and 1 x 3 (square_neighbors_iff); further failures in square_rect_broken."
  },
  {
   "property": "C23",
   "status": "partial",
   "theorems": [
    "square_lookup_pos_partial",
    "square_lookup_pos_iff",
    "square_lookup_momentum_iff",
    "square_lookup_real_exact",
    "square_lookup_lattice_partial",
    "square_lookup_momentum_out",
    "square_lookup_real_ub",
    "square_lookup_rect_broken"
   ],
   "note": "Exact characterisation. Site positions: in real space found again if and only if Nx = Ny, in momentum space if and only if the extents differ by at most one. Arbitrary positions on N x N: in momentum space wrong exactly in the upper half cell, in real space undefined exactly between the last site and the middle of the last cell."
  },
  {
   "property": "C24",
   "status": "proved",
   "theorems": [
    "RealSpace.realBasis_size",
    "RealSpace.realBasis_getElem",
    "RealSpace.realBasis_index_bijective",
    "RealSpace.realBasis_entries",
    "RealSpace.realBasis_nodup",
    "RealSpace.realBasis_getConjugate"
   ],
   "note": ""
  },
  {
   "property": "C25",
   "status": "proved",
   "theorems": [
    "MomentumSpace.momentumBasis_eq",
    "MomentumSpace.momentumBasis_getElem",
    "MomentumSpace.momentumBasis_nodup",
    "MomentumSpace.momentumBasis_conserved"
   ],
   "note": "On the one-dimensional momentum space; the two-dimensional one inherits the lookup defects of C23."
  },
  {
   "property": "C26",
   "status": "partial",
   "theorems": [
    "RealSpace.initKineticMatrix_ok",
    "RealSpace.initMatrix_ok",
    "chain_regular",
    "square_regular",
    "RealSpace.realMatrix_ub_of_dup",
    "RealSpace.realMatrix_small_chain_ub",
    "chain_assembly_iff",
    "chain_assemblyNo_iff",
    "square_assembly_iff",
    "square_kinetic_assembly_iff"
   ],
   "note": "Exact: chains with N>=3, square lattices with Nx=Ny>=3 (chain_assembly_iff, square_assembly_iff); on all others blaze's append precondition is violated (neighbours coincide or are out of range), so the unrestricted property is false of the code. The kinetic matrix is also assembled on some rectangular lattices (square_kinetic_assembly_iff), with wrong elements (C22). Momentum-space part: C30."
  },
  {
   "property": "C27",
   "status": "proved",
   "theorems": [
    "RealSpace.kineticMatrix_commutator",
    "RealSpace.matrix_hopping_commutator"
   ],
   "note": ""
  },
  {
   "property": "C28",
   "status": "proved",
   "theorems": [
    "RealSpace.matrix_commutator",
    "RealSpace.matrix_projection",
    "RealSpace.trace_gram",
    "labelOpAdj_star",
    "fock_trace"
   ],
   "note": ""
  },
  {
   "property": "C29",
   "status": "proved",
   "theorems": [
    "RealSpace.initMatrix_symm",
    "RealSpace.initKineticMatrix_symm",
    "flow_norm",
    "RealSpace.matrix_flow_norm",
    "RealSpace.kineticMatrix_flow_norm",
    "RealSpace.kineticMatrix_heisenberg",
    "MomentumSpace.momentumMatrix_symm",
    "MomentumSpace.momentumMatrix_flow_norm"
   ],
   "note": ""
  },
  {
   "property": "C30",
   "status": "proved",
   "theorems": [
    "MomentumSpace.momentumMatrix_ok",
    "MomentumSpace.momentumMatrix_first_row",
    "MomentumSpace.momentumMatrix_kinetic",
    "MomentumSpace.momentumMatrix_projection",
    "MomentumSpace.momentumInteraction_eq"
   ],
   "note": "All rows are moreover shown to be the projected Liouvillian (momentumMatrix_projection). One-dimensional momentum space."
  },
  {
   "property": "C31",
   "status": "partial",
   "theorems": [
    "RealSpace.initMatrixNo_ok_partial",
    "RealSpace.noMatrix_hopping_partial",
    "RealSpace.noMatrix_one_row",
    "RealSpace.noMatrix_one_row_wrong",
    "RealSpace.noMatrix_three_row",
    "RealSpace.initKineticMatrixNo_ok",
    "RealSpace.comm_three_no",
    "RealSpace.noOp_eq_wick"
   ],
   "note": "Assembly (unique increasing columns, capacity) and the hopping part are proved; the interaction part is false of the code: the coefficients U and U<n> of the one-operator rows are exchanged (noMatrix_one_row gives the exact error, noMatrix_one_row_wrong the refutation at half filling). noMatrix_three_row gives the exact error of the three-operator rows (three of the signs are wrong)."
  },
  {
   "property": "C32",
   "status": "proved",
   "theorems": [
    "MomentumSpace.FermiSea.fermiSea_correct",
    "MomentumSpace.FermiSea.fermiSea_sorted"
   ],
   "note": ""
  },
  {
   "property": "C33",
   "status": "partial",
   "theorems": [
    "MomentumSpace.FermiSea.fermiSea_return_partial",
    "MomentumSpace.FermiSea.fermiSea_return_wrong",
    "MomentumSpace.FermiSea.fermiSea_particle_return"
   ],
   "note": "False of the code: on a state that vanished before, the call returns false (fermiSea_return_wrong), although it returns true when the state vanishes during the call."
  },
  {
   "property": "C34",
   "status": "partial",
   "theorems": [
    "MomentumSpace.nonVanishing_partial",
    "MomentumSpace.nonVanishing_symm",
    "MomentumSpace.contributionLess_strictTotal",
    "MomentumSpace.nonVanishing_sorted",
    "MomentumSpace.nonVanishing_wrong"
   ],
   "note": "Completeness, uniqueness, range, symmetry and order proved; the values are those for the operators 2xyz + delta x, whereas the basis of the matrix is 2xyz - delta x (nonVanishing_wrong), so the value part is false of the code."
  },
  {
   "property": "C35",
   "status": "proved",
   "theorems": [
    "MomentumSpace.particleNumber_real"
   ],
   "note": ""
  },
  {
   "property": "C36",
   "status": "proved",
   "theorems": [
    "RealSpace.siteOccupation_wick",
    "RealSpace.siteOccupation1_wick",
    "RealSpace.fermiSea_quasiFree",
    "RealSpace.wick_of_split"
   ],
   "note": "Exact arithmetic. The hypotheses (a quasi-free state) are met by the Fermi sea of any unitary set of orbitals (fermiSea_quasiFree, which is Wick's theorem). The dispatching method expectation_value of the three-operator class does not compile when instantiated and is not modelled."
  },
  {
   "property": "C37",
   "status": "proved",
   "theorems": [
    "RealSpace.siteOccupation_deterministic",
    "RealSpace.siteOccupation1_deterministic",
    "RealSpace.executes_sequential"
   ],
   "note": "Exact arithmetic, so the order of additions does not matter; in floating point only up to rounding."
  },
  {
   "property": "C38",
   "status": "partial",
   "theorems": [
    "RealSpace.fermiJump_history_partial",
    "RealSpace.fermiJump_reserve_ub",
    "RealSpace.fermiJump_nonneg",
    "RealSpace.fermiJump_initial",
    "RealSpace.fermiJump_normalOrdered",
    "RealSpace.fermiJump_plain"
   ],
   "note": "Value, non-negativity and the meaning of the normal-ordered coefficients proved; safety is false of the code: the constructors that only reserve write outside the vector for every N >= 1 (fermiJump_reserve_ub), and a later evaluation of a larger system writes outside the static work vector (second half of fermiJump_history_partial)."
  },
  {
   "property": "C39",
   "status": "partial",
   "theorems": [
    "RealSpace.expectationValue1D",
    "RealSpace.expectationValue2D_partial",
    "RealSpace.expectationValue2D_range_iff",
    "RealSpace.expectationValue2D_rect_wrong",
    "RealSpace.expectationValue2D_rect_ub",
    "halfFilledSea_iff",
    "squareCorrelation_eq",
    "chainCorrelation_eq",
    "chainCorrelation_zero"
   ],
   "note": "One dimension complete; two dimensions for Nx = Ny. On every rectangular lattice the property is false of the code: two distinct sites get the on-site value (expectationValue2D_rect_wrong); expectationValue2D_range_iff gives the exact condition under which all lookups are inside the table (for Nx + 2 <= Ny never, expectationValue2D_rect_ub)."
  },
  {
   "property": "C40",
   "status": "proved",
   "theorems": [
    "Hubbard.dispersion_values",
    "Hubbard.dispersion_bounded",
    "Hubbard.dispersion_edges",
    "Hubbard.dispersion_even_periodic",
    "Hubbard.dispersion_chain",
    "Hubbard.dispersion_square",
    "Hubbard.dispersion_eigenvalue_partial",
    "Hubbard.dispersion_odd_wrong"
   ],
   "note": "Exact arithmetic. That the values are the eigenvalues of the hopping operator on the same lattice holds for even N only (dispersion_eigenvalue_partial); for odd N the momentum grid is antiperiodic (dispersion_odd_wrong)."
  },
  {
   "property": "C41",
   "status": "proved",
   "theorems": [
    "complex_helpers",
    "multiplyWithConjugate_self",
    "isEqual_consistent",
    "isEqualDevC_norm",
    "isEqualInt_exact",
    "isEqualR_not_transitive"
   ],
   "note": "Exact arithmetic."
  },
  {
   "property": "C42",
   "status": "partial",
   "theorems": [
    "Mat.isSymmetric_iff",
    "Mat.isHermitianFunction_iff",
    "Mat.tolerance_hypotheses",
    "Mat.matrix_compare",
    "Mat.isHermitianGeneric_partial",
    "Mat.isHermitianGeneric_wrong",
    "Mat.isHermitianGeneric_real"
   ],
   "note": "is_symmetric and is_hermitian of a FunctionMatrix are correct; the generic is_hermitian compares an element with its own conjugate and is wrong in both directions (isHermitianGeneric_wrong)."
  },
  {
   "property": "C43",
   "status": "proved",
   "theorems": [
    "ODE.multiplyAssign_correct",
    "ODE.stepMatrix_correct",
    "ODE.stepFunction_correct",
    "ODE.rk4_history"
   ],
   "note": "Exact arithmetic."
  },
  {
   "property": "C44",
   "status": "proved",
   "theorems": [
    "ODE.rk4_converges",
    "ODE.rk4_linear",
    "ODE.integrate_correct",
    "ODE.norm_exp_sub_exp4_le",
    "ODE.norm_pow_sub_pow_le",
    "ODE.rk4_linear_error",
    "ODE.taylor_error"
   ],
   "note": "Exact arithmetic."
  },
  {
   "property": "C45",
   "status": "partial",
   "theorems": [
    "Sim.cround_round",
    "Sim.simulate_output",
    "Sim.simulate_times_increasing",
    "Sim.hasTimeIntervalPassed_grid",
    "Sim.simulate_final_measured_iff",
    "Sim.simulate_final_not_measured",
    "Sim.simulate_diverges"
   ],
   "note": "Exact arithmetic. Everything holds except that the final time is measured only when the number of steps is a multiple of the interval (simulate_final_measured_iff gives the exact condition)."
  },
  {
   "property": "C46",
   "status": "partial",
   "theorems": [
    "IO.checkpoints_in_process_partial",
    "IO.checkpoint_crash_safe_partial",
    "IO.readCheckpoint_correct",
    "IO.checkpoint_restart_overwrites",
    "IO.checkpoint_restart_crash_wrong",
    "IO.checkpoint_restart_mixed_wrong"
   ],
   "note": "Holds within one process; false across restarts: the static counter restarts at 0, so older checkpoints are overwritten and a crash can leave no complete checkpoint."
  },
  {
   "property": "C47",
   "status": "partial",
   "theorems": [
    "IO.cleanOutputFile_enough",
    "IO.bak_name",
    "IO.clean_crash_safe",
    "IO.cleanOutputFile_diverges",
    "IO.cleanOutputFile_duplicates",
    "IO.clean_destroys_rows",
    "IO.clean_twice_loses",
    "IO.lines_join"
   ],
   "note": "Crash safety of one call is proved; the rest is false of the code: line breaks are dropped, so no data row survives (clean_destroys_rows), the call hangs when there are fewer rows (cleanOutputFile_diverges), and a second call loses the backup (clean_twice_loses)."
  },
  {
   "property": "C48",
   "status": "partial",
   "theorems": [
    "IO.nextLine_found",
    "IO.nextLine_iff",
    "IO.nextLine_diverges",
    "IO.isSkippableLine_iff",
    "IO.isSkippableLine_partial",
    "IO.isSkippableLine_crlf_wrong"
   ],
   "note": "The first data line is returned if there is one; false of the code: no termination at the end of the file, and comment lines with a carriage return count as data."
  },
  {
   "property": "C49",
   "status": "proved",
   "theorems": [
    "Program.initVector_correct",
    "Program.initVector_empty_ub",
    "Program.initVector_observed",
    "Program.initVector_observed_momentum",
    "Program.siteOccupation_initial"
   ],
   "note": "The empty basis is undefined (initVector_empty_ub); the bases of the programs are never empty for N >= 1."
  },
  {
   "property": "C50",
   "status": "proved",
   "theorems": [
    "Program.minusIPower_eq",
    "Program.theoryValue_eq",
    "Program.kineticTheory_file"
   ],
   "note": "Exact arithmetic; the Bessel function of the C++ library is taken to be the true one."
  },
  {
   "property": "C51",
   "status": "partial",
   "theorems": [
    "IO.readMatrix_wellformed_partial",
    "IO.matrix_roundtrip_wrong",
    "IO.readTripletList_noop",
    "IO.tripletList_roundtrip_wrong",
    "IO.readTripletList_diverges",
    "IO.writeTripletList_lines"
   ],
   "note": "False of the code: no written sparse matrix can be read back (the writer omits the dimension and count lines), and read_triplet_list discards everything. Proved: read_matrix reads every well-formed file correctly."
  },
  {
   "property": "C52",
   "status": "partial",
   "theorems": [
    "IO.writeHeader_eq",
    "IO.writeHeader_partial",
    "IO.maxKeyLen_le",
    "IO.writeHeader_prefix_wrong",
    "IO.writeHeader_empty_wrong",
    "IO.writeHeader_newline_wrong"
   ],
   "note": "Exact text proved for all inputs; all-comments and completeness for the prefix #, no newlines and no empty description, and refuted in each of the three other cases."
  },
  {
   "property": "C53",
   "status": "partial",
   "theorems": [
    "EigenTriplet.tlist_shape",
    "EigenTriplet.tlist_cols_wrong",
    "EigenTriplet.tlist_sort_keeps",
    "EigenTriplet.tlist_sort_partial",
    "EigenTriplet.tlist_sort_wrong",
    "EigenTriplet.tlist_sort_unordered"
   ],
   "note": "False of the code: cols() returns the number of rows, and the two sorts have their comparators exchanged."
  },
  {
   "property": "C54",
   "status": "partial",
   "theorems": [
    "IO.printOperator_correct",
    "IO.printTuple_eq",
    "IO.printTuple_single_partial",
    "IO.printTuple_wrong"
   ],
   "note": "Operators correct for every arity; print_tuple prints the last component for every component (printTuple_eq), so false for tuples."
  },
  {
   "property": "C55",
   "status": "proved",
   "theorems": [
    "ODE.rk4_stable",
    "RealSpace.matrix_rk4_stable",
    "MomentumSpace.momentumMatrix_rk4_stable"
   ],
   "note": "Exact arithmetic."
  },
  {
   "property": "C56",
   "status": "partial",
   "theorems": [
    "Program.theory_solves_infinite_chain",
    "Program.theory_solves_ring_partial",
    "Program.theory_ring_wrong",
    "Program.theory_initial_wrong",
    "Spec.besselJ_hasDerivAt",
    "Spec.besselJ_rec"
   ],
   "note": "The closed form solves the flow equation on the infinite chain; on the periodic chain of the program the equation holds except at the wrap-around sites (theory_ring_wrong)."
  },
  {
   "property": "C57",
   "status": "proved",
   "theorems": [
    "IO.printHOp_injective",
    "IO.printMonomial_eq",
    "IO.printMonomial_injective"
   ],
   "note": "Printing an empty monomial is undefined (second half of printMonomial_eq)."
  },
  {
   "property": "C58",
   "status": "proved",
   "theorems": [
    "Program.real1dRk4_correct",
    "Program.flow_exists",
    "RealSpace.quasiFree_exists"
   ],
   "note": "Exact arithmetic; command line and output file: C94."
  },
  {
   "property": "C59",
   "status": "partial",
   "theorems": [
    "Program.occupation_between",
    "Program.occupation_half_filling_iff",
    "Program.occupation_wrong",
    "Program.occupation_wrong_two",
    "Program.occupation_wrong_odd"
   ],
   "note": "False of the code: the table (infinite chain correlations at ring distances) is not that of a fermionic state. At half filling the claim holds exactly on rings of one or two sites (occupation_half_filling_iff): on every ring of 4n (16 is the default) or 4n+2 >= 6 sites some orbital is occupied above 1 and another below 0 (occupation_wrong, occupation_wrong_two), on every ring with an odd number of sites, at least 3, some orbital leaves the interval (occupation_wrong_odd). Proved for the tables of Slater determinants."
  },
  {
   "property": "C60",
   "status": "proved",
   "theorems": [
    "Program.real1dKineticRk4_correct",
    "Program.flow_exists"
   ],
   "note": "Exact arithmetic; command line and output file: C94."
  },
  {
   "property": "C61",
   "status": "partial",
   "theorems": [
    "Program.real1dRk4Jump_correct",
    "Program.real1dRk4Jump_free",
    "Program.real2dRk4Jump_partial",
    "Program.flow_exists",
    "RealSpace.expectationValue2D_rect_ub",
    "Program.real2dRk4Jump_outcome"
   ],
   "note": "One dimension complete; two dimensions for square systems; on every rectangular system the program has undefined behaviour (real2dRk4Jump_outcome). Exact arithmetic."
  },
  {
   "property": "C62",
   "status": "proved",
   "theorems": [
    "Program.real1dRk4Coefficients_correct",
    "Program.real1dKineticRk4Coefficients_correct",
    "Program.hopping_flow",
    "Program.flow_exists"
   ],
   "note": "Exact arithmetic; formatting of numbers: C115."
  },
  {
   "property": "C63",
   "status": "partial",
   "theorems": [
    "Program.momentum1dRk4_partial",
    "Program.momentum1dRk4_sharp_partial",
    "Program.momentum1dRk4_right",
    "Program.momentum1dRk4_excess",
    "Program.momentum1dRk4_occupied_wrong",
    "Program.momentum1dRk4_positive_hopping_wrong",
    "Program.bandEnergy_half",
    "Program.seaNumber_difference",
    "Program.seaNumber_error",
    "Program.seaValue_rows",
    "Program.momentum1dRk4_wrong",
    "Program.flow_exists"
   ],
   "note": "Termination, safety, non-negativity, first number and error bound proved for all parameters; but the table of expectation values belongs to the operators 2xyz + delta x while the matrix belongs to 2xyz - delta x. Exact extent: the second number is the particle number (momentum1dRk4_right) if U = 0 or the momentum is initially empty (for N >= 2: J <= 0); otherwise it is too large by 2 nu (U t)^2 up to higher orders, nu the filling (momentum1dRk4_excess), and for every N >= 2, J > 0, U != 0 it is wrong for all small step widths (momentum1dRk4_positive_hopping_wrong). For one momentum it is 5 - 4 cos(Ut) instead of 1 (momentum1dRk4_wrong)."
  },
  {
   "property": "C64",
   "status": "partial",
   "theorems": [
    "Program.trivial_partial",
    "Program.trivial_flow",
    "Program.trivial_wrong"
   ],
   "note": "Coefficients, times and number of rows proved for all parameters; the particle number is false of the code: h_i h_j is used without conjugation, the second row has a negative imaginary part (trivial_wrong)."
  },
  {
   "property": "C65",
   "status": "proved",
   "theorems": [
    "Program.dispersion1d_correct"
   ],
   "note": "Exact arithmetic; formatting of numbers: C115."
  },
  {
   "property": "C66",
   "status": "proved",
   "theorems": [
    "Program.printCommutators_correct",
    "Program.commutatorsMomentum_correct",
    "Program.commutatorsReal_correct"
   ],
   "note": "Numbers range over any commutative ring; what << prints for a number is a parameter."
  },
  {
   "property": "C67",
   "status": "proved",
   "theorems": [
    "Program.printTerm_injective",
    "Program.printTerm_words"
   ],
   "note": "What << prints for a number is a parameter; addresses of literals are not visible in the text."
  },
  {
   "property": "C68",
   "status": "partial",
   "theorems": [
    "App.option_names",
    "App.construct_precedence",
    "App.readResponseFile_some",
    "App.readResponseFile_none",
    "App.construct_diverges",
    "App.example_run"
   ],
   "note": "Precedence and complete reading proved for every file that can be opened; termination is false of the code for a response file that cannot be opened (construct_diverges). The parser and store of boost::program_options are modelled after their documentation; conversion of values is a predicate."
  },
  {
   "property": "C69",
   "status": "proved",
   "theorems": [
    "App.response_file_reproduces",
    "App.example_run",
    "App.example_second"
   ],
   "note": "The response file must survive: see C71. boost::program_options modelled after its documentation."
  },
  {
   "property": "C70",
   "status": "partial",
   "theorems": [
    "App.header_partial",
    "App.header_wrong",
    "App.header_comments",
    "App.lines_headerText",
    "App.output_path_eq",
    "App.output_path_wrong",
    "App.example_second"
   ],
   "note": "True without response file; false of the code with one: the header lists the defaults of the options which the response file sets (header_wrong), and the path out of the response file is ignored (output_path_wrong)."
  },
  {
   "property": "C71",
   "status": "partial",
   "theorems": [
    "App.paths_partial",
    "App.paths_shared",
    "App.paths_between_runs",
    "App.response_lost",
    "App.stem_append",
    "App.stem_eq"
   ],
   "note": "The files of one run differ except when the output is called *.rsp or *.log (exact condition in paths_partial); different runs share files when their names differ only after the last dot, such as U_0.5 and U_0.75 (paths_shared; exactly when they do: paths_between_runs)."
  },
  {
   "property": "C72",
   "status": "proved",
   "theorems": [
    "Eigen.initSparse_correct",
    "Eigen.initSymmetricSparse_correct",
    "Eigen.initDense_correct",
    "Eigen.initSymmetricDense_correct",
    "Eigen.initSymmetricSparse_eq_init",
    "Eigen.initSymmetricDense_eq_init",
    "Eigen.initSymmetricSparse_symmetric",
    "Eigen.initSparse_close"
   ],
   "note": "Bodies modelled as written; the signatures name members that the traits do not declare, so the file does not compile as it is."
  },
  {
   "property": "C73",
   "status": "proved",
   "theorems": [
    "Sim.simulateF_output",
    "Sim.hasTimeIntervalPassedF_exact",
    "Sim.time_error",
    "Sim.steps_unique",
    "Sim.simulateF_id",
    "Sim.simulateF_extra_step",
    "Sim.simulateF_stagnates"
   ],
   "note": "Standard model of floating point arithmetic for the times; the number of steps can be one more than in exact arithmetic (simulateF_extra_step), and without the bound on the number of steps the loop may never end (simulateF_stagnates)."
  },
  {
   "property": "C74",
   "status": "partial",
   "theorems": [
    "OpIndex.make_indices",
    "OpIndex.getIndex_eq",
    "OpIndex.setIndex_correct",
    "OpIndex.setIndex_defined",
    "OpIndex.isSymbolicOperator_iff",
    "OpIndex.isSymbolicOperator_index",
    "OpIndex.isHubbard_iff",
    "OpIndex.spatialIndexType_partial",
    "OpIndex.hasIndexOfType_wrong",
    "OpIndex.hasIndexOfTypeHelper_intended",
    "OpIndex.spatialIndexType_wrong"
   ],
   "note": "Accessors, IsSymbolicOperator and IsHubbardOperator proved; HasIndexOfType compiles for no operator (off by one) and SpatialIndexType for no two-dimensional operator."
  },
  {
   "property": "C75",
   "status": "proved",
   "theorems": [
    "Symbolic.index_ofInt",
    "Symbolic.index_kinds",
    "Symbolic.index_eq",
    "Symbolic.index_ofString_collides",
    "Symbolic.compose_eq",
    "Symbolic.createException_determines",
    "Symbolic.typeName_injective",
    "Symbolic.typeDescription_injective",
    "Symbolic.index_text",
    "Symbolic.typeName_fixedWidth",
    "Symbolic.typeName_other",
    "Symbolic.typeDescription_text",
    "Symbolic.toString'_eq"
   ],
   "note": "File names without colon. An index made from a text may coincide with a numbered one (index_ofString_collides)."
  },
  {
   "property": "C76",
   "status": "partial",
   "theorems": [
    "Traits.classified_partial",
    "Traits.eigenSparse_wrong",
    "Traits.dense_sparse_exclusive",
    "Traits.library_partial",
    "Traits.compressedVector_wrong",
    "Traits.dimensionInfo_partial",
    "Traits.dimensionInfo_wrong"
   ],
   "note": "classified_partial lists exactly the types for which it is false: Eigen sparse matrices, 1x1 Eigen matrices, Blaze static vectors; the shape of row vectors is transposed."
  },
  {
   "property": "C77",
   "status": "partial",
   "theorems": [
    "cround_round",
    "Chain.lookupF_close",
    "Chain.posF_close",
    "Chain.lookupF_posF",
    "Chain.lookupF_sum",
    "MomentumSpace.momentumBasisF_eq",
    "MomentumSpace.momentumBasisF_double",
    "Chain.realF_lookupF_posF",
    "Chain.realF_lookupF_posF_double",
    "Chain.realF_lookupF_sum_ub",
    "Spec.double_rounding",
    "Spec.double_monotone",
    "Spec.double_idem",
    "chainFloat_id"
   ],
   "note": "Proved in momentum space for every rounding, in real space for the positions themselves; for sums of positions in real space it is false of the code: with dx = 0.3 and 7 sites the lookup of lattice[5] + lattice[1] in double arithmetic is undefined behaviour (realF_lookupF_sum_ub)."
  },
  {
   "property": "C78",
   "status": "partial",
   "theorems": [
    "App.restart_reads_partial",
    "App.checkpoint_option_rejected",
    "App.restart_throws",
    "App.restart_loses_rows",
    "App.restart_hangs",
    "App.example_restart"
   ],
   "note": "Only reading the stored vector works (restart_reads_partial). The rest is false of the code: --checkpoint is not a declared option, so every program called with it dies (checkpoint_option_rejected), read_vector_from_checkpoint throws in every started program (restart_throws), starting deletes all earlier rows (restart_loses_rows), and with the option declared the function would never return (restart_hangs)."
  },
  {
   "property": "C79",
   "status": "proved",
   "theorems": [
    "App.program_starts",
    "App.command_line_starts",
    "App.help_exits",
    "App.exits_iff",
    "App.option_names",
    "App.programs_good"
   ],
   "note": "boost::program_options modelled after its documentation; the conversion of texts to numbers enters as the predicate valid."
  },
  {
   "property": "C80",
   "status": "partial",
   "theorems": [
    "App.default_outputs_partial",
    "App.default_outputs_wrong"
   ],
   "note": "Holds for programs with different names; hubbard_real_1d_rk4_coefficients and hubbard_real_1d_kinetic_rk4_coefficients have the same Application::name, so the second truncates the results of the first (default_outputs_wrong)."
  },
  {
   "property": "C81",
   "status": "partial",
   "theorems": [
    "RealSpace.siteOccupation_rounded",
    "RealSpace.siteOccupation_double",
    "RealSpace.siteOccupation_reproducible",
    "RealSpace.fermiJump_rounded",
    "RealSpace.fermiJump_threads_wrong",
    "RealSpace.parallel_sum",
    "RealSpace.siteOccupationF_id",
    "RealSpace.jumpSumF_id",
    "RealSpace.runLoopF_id"
   ],
   "note": "The error bound holds for every schedule, number of threads and rounding. Equality to the last bit is false: for the coefficients (0, 1, 2^53, -2^53) one thread gives 0 and two threads give 1 (fermiJump_threads_wrong). Overflow and underflow: see C118 and C119."
  },
  {
   "property": "C82",
   "status": "proved",
   "theorems": [
    "ODE.stepMatrix_rounded",
    "ODE.stepFunction_rounded",
    "ODE.multiplyAssign_rounded",
    "ODE.integrate_rounded",
    "ODE.rk4_error_linear",
    "ODE.stepMatrixF_id",
    "ODE.rk4_total_error",
    "ODE.rk4_total_error_double",
    "RealSpace.matrix_rk4_double",
    "RealSpace.initMatrix_stored"
   ],
   "note": "Standard model of floating point arithmetic (relative error u, no overflow, underflow or fused operations); for double u = 2^-53 with rounding to nearest even. The matrix elements -J, J, U/2 and their product with i are exact in double."
  },
  {
   "property": "C83",
   "status": "partial",
   "theorems": [
    "App.start_iff",
    "App.start_without_logname",
    "App.help_prints",
    "App.version_prints",
    "App.start_of_construct"
   ],
   "note": "Exact condition: LOGNAME is set and the host name is shorter than 128 characters. Otherwise false of the code: Platform::user() makes a string of a null pointer, so every start and --version have undefined behaviour (start_without_logname); only --help works."
  },
  {
   "property": "C84",
   "status": "proved",
   "theorems": [
    "Threads.storeLoop_interleaved",
    "Threads.table2D_interleaved",
    "Threads.conjugate_interleaved",
    "Threads.multiply_interleaved",
    "Threads.hNo_interleaved",
    "Threads.jump_interleaved",
    "Threads.occupation_interleaved",
    "Threads.theorySum_interleaved",
    "Threads.theoryTable_interleaved",
    "Threads.multiply_product",
    "Threads.storeLoop_link",
    "Threads.conjugate_link",
    "Threads.multiply_link",
    "Threads.occupation_link",
    "Threads.jump_link",
    "Threads.hNo_link",
    "Threads.footprints",
    "Threads.roundRobin",
    "Threads.Spec.Deterministic.exists_run"
   ],
   "note": ""
  },
  {
   "property": "C85",
   "status": "partial",
   "theorems": [
    "Threads.single_caller",
    "Threads.stepCall_correct",
    "Threads.multiplyCall_correct",
    "Threads.jumpCallStmts_correct",
    "Threads.step_concurrent_race",
    "Threads.multiply_concurrent_race",
    "Threads.jump_concurrent_race",
    "Threads.step_concurrent_wrong",
    "Threads.multiply_concurrent_wrong",
    "Threads.jump_concurrent_wrong"
   ],
   "note": "True for calls that do not overlap. False of the code otherwise: the work vectors are function-local static variables, so every complete execution of two overlapping calls has a data race, and the results can be wrong."
  },
  {
   "property": "C86",
   "status": "partial",
   "theorems": [
    "Aliasing.prefactor_mulAssignSelf_iff",
    "Aliasing.prefactor_mulKroneckersSelf_iff",
    "Aliasing.prefactor_mulKroneckerSelf",
    "Aliasing.prefactor_mulAssignSelf_ub",
    "Aliasing.term_mulAssignSelf_iff",
    "Aliasing.term_mulAssignSelf_sym_iff",
    "Aliasing.commutate_outside",
    "Aliasing.commutate_inside_iff",
    "Aliasing.commutate_elements",
    "Aliasing.commutate_elements_ub"
   ],
   "note": "Exact characterisation: right when the vectors have enough spare capacity, undefined behaviour otherwise (dangling iterators or references), so the property as stated is false of the code."
  },
  {
   "property": "C87",
   "status": "proved",
   "theorems": [
    "Width.chain_width",
    "Width.chain_lookup_width",
    "Width.square_size_iff",
    "Width.square_width",
    "Width.square_lookup_width",
    "Width.square_index_collides",
    "Width.square_size_zero",
    "Width.real_index_width",
    "Width.real_index_wrong",
    "Width.momentum_index_width",
    "Width.momentum_index_wrong",
    "Width.counts_width",
    "Width.momentum_count_width",
    "Width.wrapSub_width"
   ],
   "note": "For square lattices N x N (rectangular ones are wrong anyway, C22). The lookup and the reservations need the room stated in their hypotheses (N*N+N, the largest count)."
  },
  {
   "property": "C88",
   "status": "partial",
   "theorems": [
    "StreamFormat.operator_keeps_format",
    "StreamFormat.monomial_keeps_format",
    "StreamFormat.prefactor_keeps_format",
    "StreamFormat.term_keeps_format",
    "StreamFormat.tripletList_keeps_format",
    "StreamFormat.timer_keeps_format",
    "StreamFormat.operator_text",
    "StreamFormat.hubbard_operator_text",
    "StreamFormat.operator_text_iff",
    "StreamFormat.matrix_text",
    "StreamFormat.matrix_shape",
    "StreamFormat.matrix_format",
    "StreamFormat.matrix_keeps_format_iff",
    "StreamFormat.matrix_twice",
    "StreamFormat.matrix_then_operator",
    "StreamFormat.monomial_text",
    "StreamFormat.prefactor_text",
    "StreamFormat.term_text",
    "StreamFormat.tripletList_text",
    "StreamFormat.empty_undefined"
   ],
   "note": "False of the code for FunctionMatrix, which leaves fixed notation, one digit and showpos behind (matrix_format, exact condition matrix_keeps_format_iff; visible effect matrix_then_operator). Proved for all other printed objects."
  },
  {
   "property": "C89",
   "status": "proved",
   "theorems": [
    "Durability.crash_output",
    "Durability.crash_output_log",
    "Durability.crash_before_open",
    "Durability.finished_output",
    "Durability.simulateT_fst",
    "Durability.run_iff",
    "Durability.occupationRow_text",
    "Durability.coefficientsRow_text",
    "Durability.durability_example"
   ],
   "note": "Death of the process; loss of power (no fsync) is not modelled. The rows are those of the time loop of C45 (simulateT_fst)."
  },
  {
   "property": "C90",
   "status": "partial",
   "theorems": [
    "Durability.write_errors_silent",
    "Durability.open_failure_silent",
    "Durability.file_never_wrong"
   ],
   "note": "False of the code: nothing checks the state of the stream. For every beginning of the complete file there is a run on a failing disk that ends normally, reports everything as finished and leaves just that (write_errors_silent), or the earlier file when opening fails (open_failure_silent). Proved: whatever fails, the file has its earlier content or a beginning of the complete one."
  },
  {
   "property": "C91",
   "status": "partial",
   "theorems": [
    "Durability.crash_torn",
    "Durability.crash_torn_header",
    "Durability.crash_complete_lines",
    "Durability.plain_crash_iff",
    "Durability.plain_finished"
   ],
   "note": "False of the code: a row (and the header) can be torn at every character, so the last line may be a shortened number (crash_torn); three programs never flush and can lose everything until the end (plain_crash_iff). Proved: the lines that end with a line break are lines of the complete file."
  },
  {
   "property": "C92",
   "status": "partial",
   "theorems": [
    "chain_lookup_ends_partial",
    "square_lookup_ends_partial",
    "chain_lookup_hangs",
    "square_lookup_hangs",
    "double_absorb",
    "chain_lookup_exact_ends"
   ],
   "note": "False of the code: for every lattice and every double more than 2^54 periods away from zero the wrapping loops do not change their variable and never end (chain_lookup_hangs, square_lookup_hangs). Proved: for every rounding with error u they end when u|v| is less than a period, for double up to 2^53 periods. Infinities and NaN: C129."
  },
  {
   "property": "C93",
   "status": "partial",
   "theorems": [
    "Square.momentumF_lookupF_posF_partial",
    "Square.realF_lookupF_posF_partial",
    "Square.lookupF_posF_double",
    "Square.latticeFloat_id",
    "square_lookup_pos_iff"
   ],
   "note": "Proved for Nx = Ny (for double up to 9e13 x 9e13 sites); for Nx != Ny already false without rounding (C23)."
  },
  {
   "property": "C94",
   "status": "proved",
   "theorems": [
    "Main.mainReal1dRk4_behaves",
    "Main.mainReal1dKineticRk4_behaves",
    "Main.mainReal1dRk4Coefficients_behaves",
    "Main.mainReal1dKineticRk4Coefficients_behaves",
    "Main.mainReal1dRk4Jump_behaves",
    "Main.mainReal2dRk4Jump_behaves",
    "Main.mainReal1dRk4_status",
    "Main.mainReal1dKineticRk4_status",
    "Main.mainReal1dRk4Coefficients_status",
    "Main.mainReal1dKineticRk4Coefficients_status",
    "Main.mainReal1dRk4Jump_status",
    "Main.mainReal2dRk4Jump_status",
    "Main.mainMomentum1dRk4_status",
    "Main.mainMomentum1dRk4_run",
    "Main.real1dRk4_run",
    "Main.real1dRk4_default_run"
   ],
   "note": "From the command line (boost program_options as in C68-C80) through the simulation (C45, C58-C65) to the text of the output file (C89-C91). The conversion of texts to numbers is a parameter of which only DefaultsConvert is assumed."
  },
  {
   "property": "C95",
   "status": "partial",
   "theorems": [
    "Main.mainReal1dRk4_outcome",
    "Main.mainReal1dKineticRk4_outcome",
    "Main.mainReal1dRk4Coefficients_outcome",
    "Main.mainReal1dKineticRk4Coefficients_outcome",
    "Main.mainReal1dRk4Jump_outcome",
    "Main.mainReal2dRk4Jump_outcome",
    "Main.real1dRk4_unchecked"
   ],
   "note": "False of the code: nothing is checked. Exact outcome for all parameters: fewer than 3 sites (per direction) or Nx != Ny is undefined behaviour, dt <= 0 < t_end never ends, t_end <= 0 writes one line, everything else is simulated; --N=2 and --dt=0 as instances."
  },
  {
   "property": "C96",
   "status": "partial",
   "theorems": [
    "Main.mainReal1dRk4_times",
    "Main.mainReal1dKineticRk4_times",
    "Main.mainReal1dRk4Coefficients_times",
    "Main.mainReal1dKineticRk4Coefficients_times",
    "Main.mainReal1dRk4Jump_times",
    "Main.mainReal2dRk4Jump_times",
    "Main.mainReal1dRk4_outcome",
    "Main.mainReal1dKineticRk4_outcome",
    "Main.mainReal1dRk4Coefficients_outcome",
    "Main.mainReal1dKineticRk4Coefficients_outcome",
    "Main.mainReal1dRk4Jump_outcome",
    "Main.mainReal2dRk4Jump_outcome",
    "Main.momentum_ignores_t_end",
    "Main.momentum_t_end_wrong"
   ],
   "note": "False of the code for hubbard_momentum_1d_rk4, which always does eight steps and prints two numbers (momentum_ignores_t_end, momentum_t_end_wrong); true of the six others whenever the simulation is possible at all (mainX_times; the other cases in mainX_outcome)."
  },
  {
   "property": "C97",
   "status": "partial",
   "theorems": [
    "MomentumSpace.squareBasis_conserves_partial"
   ],
   "note": "Layout, size and distinctness proved for all N and q; momentum conservation and valid indices hold if and only if q is the last site (exact condition in the theorem), so the claim is false of the code for every other q: the lookup does not fold the upper edge of the zone back (C23). Exact arithmetic; rectangular momentum spaces are wrong already in C20-C22."
  },
  {
   "property": "C98",
   "status": "partial",
   "theorems": [
    "square_closest_real_iff",
    "square_closest_momentum_iff",
    "square_closest_momentum_exact",
    "square_closest_pos_real_iff",
    "square_closest_pos_momentum_iff"
   ],
   "note": "False of the code in general; the sizes for which it holds are determined exactly: in real space N x N (and degenerate lattices with a side of length 1), in momentum space only lattices with a side of length 1; on N x N momenta the failing positions are exactly those of UpperCell. The round trip holds exactly for Nx = Ny (real space) and for |Nx - Ny| <= 1 (momentum space). Exact arithmetic; with rounding see C92."
  },
  {
   "property": "C99",
   "status": "partial",
   "theorems": [
    "occupiedF_iff",
    "occupiedF_right_partial",
    "occupiedF_double_partial",
    "occupiedF_exact",
    "occupied_exact_arithmetic",
    "fermiPoint_pow_two",
    "fermi_sea_asymmetric",
    "fermi_sea_size"
   ],
   "note": "False of the code at the Fermi points: with double and 300 sites k = -pi/2 is empty and k = +pi/2 is occupied (fermi_sea_asymmetric); in exact arithmetic both are empty (occupied_exact_arithmetic). Proved: for every rounding, every schedule and every cosine with relative error below 1 all other momenta are right (double: up to 9e13 sites), hence everything if 4 does not divide N; with double and a power of two both Fermi points are occupied, so that the sea has N/2 + 1 instead of N/2 - 1 momenta per spin."
  },
  {
   "property": "C100",
   "status": "proved",
   "theorems": [
    "Log.simulateL_fst",
    "Log.log_content",
    "Log.log_example"
   ],
   "note": "The formatter of the fmt library is modelled after its documentation (the sources are not in the repository); prefix and sinks are not modelled."
  },
  {
   "property": "C101",
   "status": "partial",
   "theorems": [
    "Log.format_iff",
    "Log.lone_message_iff",
    "Log.messages_partial",
    "Log.lattice_message_wrong",
    "Log.observable_message_wrong",
    "Log.filling_message",
    "Log.filling_message_wrong",
    "Log.oldFile_message_wrong"
   ],
   "note": "Exactly 8 of the 165 calls are not in order (messages_partial, from a table of all calls generated from the sources): the number of lattice sites is never shown, and no kind of logger shows the names of both observables. The number before the percent sign is the fraction, wrong for every matrix with a stored element; the old output file is announced with the wrong name."
  },
  {
   "property": "C102",
   "status": "proved",
   "theorems": [
    "BlazeInsert.matrixInsert_all",
    "BlazeInsert.matrixInsert_order",
    "BlazeInsert.matrixInsert_eigen"
   ],
   "note": "insert of blaze::CompressedMatrix modelled after its documentation; positions outside the shape are undefined behaviour in the model."
  },
  {
   "property": "C103",
   "status": "partial",
   "theorems": [
    "Main.count_iff",
    "Main.count_partial",
    "Main.count_roundtrip",
    "Main.count_negative",
    "Main.program_count",
    "Main.program_negative_count",
    "Main.program_rejects",
    "Main.lexical_defaults"
   ],
   "note": "False for negative numbers: --N=-k starts every program with 2^64 - k sites (count_negative, program_negative_count); exactly characterised by count_iff. boost::lexical_cast modelled after its documentation and source."
  },
  {
   "property": "C104",
   "status": "partial",
   "theorems": [
    "Main.number_iff",
    "Main.lexicalExt_iff",
    "Main.program_special",
    "Main.program_rejects_rest",
    "Main.special_examples",
    "Main.decimalText_unique",
    "Main.number_roundtrip",
    "Main.program_number",
    "Main.program_rejects",
    "Main.lexical_defaults",
    "Main.real1dRk4_default_run_lexical"
   ],
   "note": "Exactly characterised by lexicalExt_iff and program_rejects_rest. False for the texts of infinities and NaN, which every program accepts for every number option (program_special); what happens then is C128. Rounding is a parameter. real1dRk4_default_run_lexical discharges the conversion hypotheses of C94."
  },
  {
   "property": "C105",
   "status": "partial",
   "theorems": [
    "Program.kinetic_bounded_iff",
    "Program.kinetic_sum",
    "Program.hopping_sum",
    "Program.complete_bounded_iff",
    "Program.complete_unbounded",
    "Program.complete_bounded",
    "Program.exact_bounded"
   ],
   "note": "False for large steps: the output of the kinetic program is bounded exactly if (2 J dt)^2 <= 8 (kinetic_bounded_iff), the sum of the coefficients has the squared modulus (1 - x^6/72 + x^8/576)^k. For the complete program the exact condition is complete_bounded_iff: every frequency l of the matrix that occurs in the initial operator satisfies (dt l)^2 <= 8; hence dt (6|J|+|U|) <= sqrt 8 is sufficient (complete_bounded) and dt^2 (2 J^2 + U^2/2) > 8 makes the output grow without bound (complete_unbounded)."
  },
  {
   "property": "C106",
   "status": "proved",
   "theorems": [
    "RealSpace.chain_symmetries",
    "RealSpace.square_symmetries",
    "RealSpace.kineticMatrix_symmetry",
    "RealSpace.matrix_symmetry",
    "RealSpace.matrixNo_symmetry",
    "Program.kineticCoefficients_reflection",
    "Program.coefficients_reflection",
    "Program.coefficients_negative_hopping",
    "Program.coefficients_negative_energies",
    "Program.coefficients_negative_interaction",
    "Program.jump2d_symmetry"
   ],
   "note": "In exact arithmetic; the sums are executed in a different order for mirror images, so that the floating-point numbers can differ in the last digits (C82 bounds by how much)."
  },
  {
   "property": "C107",
   "status": "partial",
   "theorems": [
    "KroneckerNumber.makeInt_eq_iff",
    "KroneckerNumber.makeBool_eq_iff",
    "KroneckerNumber.makeDouble_eq_iff",
    "KroneckerNumber.toStringDouble_text",
    "KroneckerNumber.makeDouble_wrong"
   ],
   "note": "True for the integer types and bool. False for double: to_string keeps six decimals, so that different numbers give equal deltas, and distinguishes the two zeros (makeDouble_wrong; exact characterisation makeDouble_eq_iff)."
  },
  {
   "property": "C108",
   "status": "proved",
   "theorems": [
    "Program.real1dRk4_convergence",
    "Program.real1dRk4Jump_convergence",
    "Program.real2dRk4Jump_convergence",
    "Program.real1dRk4Coefficients_convergence",
    "Program.real1dKineticRk4Coefficients_convergence",
    "Program.real1dKineticRk4_convergence",
    "Program.rk4Error_le"
   ],
   "note": "In exact arithmetic (rounding: C82); in two dimensions for N x N lattices."
  },
  {
   "property": "C109",
   "status": "proved",
   "theorems": [
    "Program.real1dRk4_double",
    "Program.real1dRk4_shipped",
    "Program.real1dKineticRk4_shipped",
    "Program.weight_rows",
    "Program.real1dKineticRk4_double",
    "Program.real1dRk4Coefficients_double",
    "Program.real1dKineticRk4Coefficients_double",
    "Program.real1dRk4F_correct",
    "Program.real1dKineticRk4F_correct",
    "Program.real1dRk4CoefficientsF_correct",
    "Program.real1dKineticRk4CoefficientsF_correct",
    "RealSpace.siteOccupation3F_close",
    "RealSpace.siteOccupation1F_close",
    "RealSpace.tableF_ok",
    "Program.real1dRk4F_id",
    "Program.real1dKineticRk4F_id",
    "Program.real1dRk4CoefficientsF_id",
    "Program.real1dKineticRk4CoefficientsF_id",
    "ODE.stepMatrixF_eq"
   ],
   "note": "Overflow, underflow, infinities and NaN are the subject of C117 and C118; J and U must be doubles (they are read as doubles). std::sin is any function accurate to 2^-53."
  },
  {
   "property": "C110",
   "status": "partial",
   "theorems": [
    "Program.real1dRk4Jump_double",
    "Program.real1dRk4Jump_shipped",
    "Program.half_jumpWeight",
    "Program.real2dRk4Jump_double_partial",
    "Program.real1dRk4JumpF_correct",
    "Program.real2dRk4JumpF_correct",
    "RealSpace.jumpCallF_close",
    "RealSpace.table2F_ok",
    "Program.real1dRk4JumpF_id",
    "Program.real2dRk4JumpF_id"
   ],
   "note": "The chain is complete; the square lattice is proved for Nx = Ny: on rectangular systems the lattice and the table are wrong (C20, C39), so the claim does not hold there. Overflow and underflow: C119; std::sin and std::cos are any functions accurate to 2^-53."
  },
  {
   "property": "C111",
   "status": "proved",
   "theorems": [
    "Program.dispersion1d_double",
    "Program.dispersion1dF_rows",
    "Program.dispersion1dF_id"
   ],
   "note": "Overflow, underflow, infinities and NaN are not modelled here; see C125."
  },
  {
   "property": "C112",
   "status": "proved",
   "theorems": [
    "Program.kineticTheory_double",
    "Program.theoryValueF_close",
    "Program.theorySum_eq",
    "Program.theoryNumber_im",
    "Spec.besselJ_lipschitz",
    "Program.kineticTheoryF_id"
   ],
   "note": "boost::math::cyl_bessel_j is any function with error at most eta. That the closed form itself is not the expectation value is C49/C50."
  },
  {
   "property": "C113",
   "status": "partial",
   "theorems": [
    "Program.trivial_double",
    "Program.trivial_shipped",
    "Program.trivial_shipped_wrong",
    "Program.trivialWritten_im",
    "Program.trivialWritten_lipschitz",
    "Program.trivialF_id"
   ],
   "note": "Everything but the particle number is proved; the claim about the particle number is refuted for the shipped program in double arithmetic: in row 50 its imaginary part is below -1/5 (a missing complex conjugation, C64). What the two columns contain is proved exactly."
  },
  {
   "property": "C114",
   "status": "partial",
   "theorems": [
    "Program.momentum1dRk4_double_partial",
    "Program.momentum1dRk4_double_excess",
    "Program.momentum1dRk4_shipped_wrong",
    "Program.momentumErrorDouble_default",
    "ODE.solutions_close",
    "Program.momentumMatrix_double",
    "Program.momentumEnergies_double",
    "Program.quadratic_close_rows",
    "Program.momentum1dRk4F_id"
   ],
   "note": "Everything but the meaning of the second number is proved: it is the matrix element with the wrong sign that C63 refutes, i.e. the particle number plus 2 nu (U t)^2 and higher orders (momentum1dRk4_double_excess); with the shipped parameters it is too large by at least 0.003 (momentum1dRk4_shipped_wrong). Overflow, underflow, infinities and NaN: see C122."
  },
  {
   "property": "C115",
   "status": "proved",
   "theorems": [
    "OutputText.tableText_cells",
    "OutputText.simulationText_cells",
    "OutputText.tableText_shows",
    "OutputText.simulationText_shows",
    "OutputText.writeDouble_nearest",
    "OutputText.written_error",
    "OutputText.written_mono",
    "OutputText.written_distinct",
    "OutputText.writeDouble_again",
    "OutputText.writeDouble_exponent",
    "OutputText.writeDouble_fraction",
    "OutputText.natural_text",
    "OutputText.written_accuracy",
    "OutputText.outputFile_shows",
    "OutputText.crash_readData",
    "OutputText.real1dKineticRk4_file",
    "OutputText.real1dRk4_file",
    "OutputText.real1dRk4Jump_file"
   ],
   "note": "Infinities and NaN are not modelled. `written x` is the number that `writeDouble_text` shows to be the one in the text. The three _file theorems give the contents of the files of programs run without options."
  },
  {
   "property": "C116",
   "status": "partial",
   "theorems": [
    "OutputText.file_times_partial",
    "OutputText.file_times_equal",
    "OutputText.real1dKineticRk4_equal_times",
    "OutputText.shipped_file",
    "OutputText.rows_times",
    "Sim.simulateF_times"
   ],
   "note": "Proved if the time between two measurements is more than 1/87500 of the end time, and for programs run without options. False in general: with --measurement_interval=1 and --t_end=20000 the rows 1000000 and 1000001 both have the time 10000."
  },
  {
   "property": "C117",
   "status": "proved",
   "theorems": [
    "IEEE.real1dRk4Coefficients_binary64",
    "IEEE.real1dKineticRk4Coefficients_binary64",
    "IEEE.stepMatrixR_correct",
    "IEEE.SettingR.simulate",
    "Spec.binary64_arithmetic",
    "Spec.binary64_exact",
    "Spec.binary64_overflow",
    "Spec.binary64_underflow",
    "IEEE.binary64_nearest",
    "IEEE.binary64_overflow_iff",
    "IEEE.double_nearest"
   ],
   "note": "Rounding to nearest even, subnormal numbers, overflow: that the formulas of the specification are this rounding is proved (binary64_nearest, binary64_overflow_iff; double_nearest for the rounding without limits of the exponent). An infinity ends the model with `ub`, so a result `val` says that none came up. `U` must not be subnormal (U / 2 would be rounded). `stepMatrixR_correct` and `SettingR.simulate` hold for every arithmetic that satisfies `Arithmetic`."
  },
  {
   "property": "C118",
   "status": "proved",
   "theorems": [
    "IEEE.real1dRk4_binary64",
    "IEEE.real1dKineticRk4_binary64",
    "IEEE.siteOccupation3R_close",
    "IEEE.siteOccupation1R_close",
    "IEEE.tableR_ok",
    "IEEE.weightsR_ok"
   ],
   "note": "As C117: an infinity or NaN ends the model with `ub`, so a result `val` says that none came up. std::sin is any function accurate to 2^-53; the number of terms of the sum plus the number of threads plus 72 must not exceed 2^53. The lemmas hold for every arithmetic that satisfies `Machine`."
  },
  {
   "property": "C119",
   "status": "partial",
   "theorems": [
    "IEEE.real1dRk4Jump_binary64",
    "IEEE.real2dRk4Jump_binary64_partial",
    "IEEE.jumpCallR_close",
    "IEEE.table2R_ok",
    "IEEE.binary64_nonneg"
   ],
   "note": "Proved for the chain and for square lattices with Nx = Ny; missing: rectangles, for which the lattice itself is wrong (C20, C39). As C117: an infinity or NaN ends the model with `ub`, so a result `val` says that none came up. std::sin and std::cos are any functions accurate to 2^-53. jumpCallR_close: one measurement, for every arithmetic that satisfies `Machine`."
  },
  {
   "property": "C120",
   "status": "proved",
   "theorems": [
    "IEEE.simulateR_binary64",
    "IEEE.simulateR_eq",
    "IEEE.real1dKineticRk4R_file",
    "IEEE.real1dRk4R_file",
    "IEEE.real1dRk4JumpR_file",
    "IEEE.real1dKineticRk4R_shipped",
    "IEEE.real1dRk4R_shipped",
    "IEEE.real1dRk4JumpR_shipped"
   ],
   "note": "The text after the header of the file; operator<< of double as in C115. An infinity or NaN ends the model with `ub`. std::sin and std::cos are any functions accurate to 2^-53. Exact solution: the flow of the matrix of the program (C29, C108)."
  },
  {
   "property": "C121",
   "status": "partial",
   "theorems": [
    "RealSpace.siteOccupation3_assertions",
    "RealSpace.siteOccupation1_structure",
    "RealSpace.siteOccupation1_exact",
    "RealSpace.siteOccupation1_imaginary",
    "RealSpace.siteOccupation1_assertion_fails",
    "Sim.simulateA_eq",
    "Sim.simulateA_guarded",
    "Program.real1dRk4_assertions",
    "Program.real1dRk4Coefficients_assertions",
    "Program.real1dKineticRk4Coefficients_assertions",
    "Program.real1dRk4Jump_assertions",
    "Program.real2dRk4Jump_assertions",
    "Program.programs_abort",
    "Program.programs_abort_empty",
    "Program.real1dKineticRk4_guarded",
    "Program.real1dKineticRk4_exact",
    "Program.momentum1dRk4_guarded",
    "Program.momentum1dRk4_exact",
    "RealSpace.ev1A_form",
    "RealSpace.ev11A_form",
    "RealSpace.ev13A_form",
    "RealSpace.ev33A_form"
   ],
   "note": "Everything in the statement is proved. Missing, because the code does not have it: that the assertion on the imaginary part holds in floating point arithmetic. It compares a sum of rounding errors with the absolute bound 2^-52 and fails for some vectors (siteOccupation1_assertion_fails); siteOccupation1_imaginary bounds the imaginary part."
  },
  {
   "property": "C122",
   "status": "partial",
   "theorems": [
    "IEEE.momentum1dRk4_binary64_partial",
    "IEEE.momentum1dRk4_binary64_excess",
    "IEEE.momentum1dRk4_binary64_wrong",
    "IEEE.momentum1dRk4_binary64_overflow",
    "IEEE.chainDispersionR_ok",
    "IEEE.momentumBasis3R_ok",
    "IEEE.momentumMatrixR_ok",
    "IEEE.particleNumberR_close",
    "IEEE.particleNumberR_unit",
    "IEEE.momentumErrorBinary64_default"
   ],
   "note": "Everything but the meaning of the second number is proved: it is the matrix element with the wrong sign that C63 refutes, i.e. the occupation plus 2 nu (U t)^2 and higher orders (momentum1dRk4_binary64_excess); with the shipped parameters it is too large by at least 0.003 (momentum1dRk4_binary64_wrong). For J of 2^1023 or more an infinity comes up (momentum1dRk4_binary64_overflow)."
  },
  {
   "property": "C123",
   "status": "proved",
   "theorems": [
    "App.platformLines_identify",
    "App.boostText_inj",
    "App.compilerText_inj",
    "App.compilerText_wraps",
    "App.compilerText_order",
    "App.libraryText_inj",
    "App.endianText_inj",
    "App.endianess_text",
    "App.endianess_littleWord_wrong"
   ],
   "note": "The bound on the version of an Intel compiler is needed (compilerText_wraps). A platform with the byte order LittleWord, or with none that boost knows, cannot compile the header: the macro BOOST_LITTLE_WORD and the enumerator Endian::Unkown do not exist (endianess_littleWord_wrong)."
  },
  {
   "property": "C124",
   "status": "partial",
   "theorems": [
    "StreamFormat.operator_padded",
    "StreamFormat.operator_width",
    "StreamFormat.operator_fills_field_iff",
    "StreamFormat.matrix_width"
   ],
   "note": "False of the code for every width above one: the width is used up by the letter c, or by the first element of a matrix. Exact text and number of characters for all operators and streams."
  },
  {
   "property": "C125",
   "status": "proved",
   "theorems": [
    "IEEE.dispersion1d_binary64",
    "IEEE.dispersion1dR_eq",
    "IEEE.cosine_rounded"
   ],
   "note": "With IEEE.cosine_rounded as an example of an admissible cosine."
  },
  {
   "property": "C126",
   "status": "partial",
   "theorems": [
    "IEEE.trivial_binary64",
    "IEEE.trivial_shipped_binary64",
    "IEEE.trivial_shipped_binary64_wrong",
    "IEEE.trivialStep_rounded",
    "IEEE.trivialParticleNumberR_close"
   ],
   "note": "Everything but the particle number is proved; the claim about the particle number is refuted for the shipped program: in row 50 its imaginary part is below -1/5 (C64, C113). What the two columns contain is proved exactly."
  },
  {
   "property": "C127",
   "status": "proved",
   "theorems": [
    "IEEE.kineticTheory_binary64",
    "IEEE.theoryValueR_close",
    "IEEE.theoryNumber_perturbed",
    "IEEE.evValue1DR_half"
   ],
   "note": "boost::math::cyl_bessel_j is any function with error at most eta. That the closed form itself is not the expectation value is C49/C50."
  },
  {
   "property": "C128",
   "status": "partial",
   "theorems": [
    "Program.real1dRk4CoefficientsX_outcomes",
    "Program.real1dKineticRk4CoefficientsX_outcomes",
    "Program.real1dRk4CoefficientsX_nan",
    "Program.real1dKineticRk4CoefficientsX_nan",
    "Program.real1dRk4CoefficientsX_nan_example",
    "Sim.simulateX_not_started",
    "Sim.simulateX_undefined",
    "Sim.simulateX_minus_infinity",
    "Sim.simulateX_forever",
    "Sim.simulateX_no_end",
    "Sim.simulateX_extends",
    "Program.real1dRk4Coefficients_extends",
    "Program.real1dKineticRk4Coefficients_extends",
    "ODE.stepMatrixX_val",
    "RealSpace.initMatrixX_val",
    "RealSpace.initKineticMatrixX_val",
    "Main.program_special",
    "Ext.order_stands",
    "Ext.order_nan",
    "Ext.add_stands",
    "Ext.mul_stands",
    "Ext.div_stands",
    "Ext.nan_stays",
    "ExtC.mul_finite",
    "ExtC.mul_infinite",
    "ExtC.mul_direction",
    "ExtC.mul_overflow"
   ],
   "note": "False of the code: nothing is refused. Exact outcomes: an end time that is NaN, minus infinity or not positive writes the row of time 0; otherwise a step width NaN or +inf is undefined behaviour (conversion of NaN to an integer), -inf runs for ever, and an infinite end time runs for ever. An infinite or undefined coupling fills every row after the first with NaN, and the program ends normally. The time loop is that of all programs (simulateX_* hold for every step function and measurement); the two coefficient programs are modelled as a whole, and agree with those of C117 as long as everything is finite (real1dRk4Coefficients_extends). The arithmetic of the model is that of the extended reals and of Annex G of the C standard (Ext.mul_stands, ExtC.mul_infinite)."
  },
  {
   "property": "C129",
   "status": "partial",
   "theorems": [
    "chain_lookup_special",
    "chain_closest_special",
    "square_lookup_special",
    "square_closest_special",
    "chain_lookup_finite",
    "chain_closest_finite",
    "square_lookup_finite",
    "square_closest_finite",
    "finiteBounds_binary64"
   ],
   "note": "False of the code: operator() is undefined for NaN and never ends for an infinity; closest returns site 0 for NaN and never ends for an infinity. For finite positions the model agrees with that of C92 (chain_lookup_finite, chain_closest_finite, square_lookup_finite, square_closest_finite)."
  },
  {
   "property": "C130",
   "status": "proved",
   "theorems": [
    "IEEE.dispersion1d_file_binary64",
    "IEEE.kineticTheory_file_binary64",
    "IEEE.trivial_file_binary64",
    "IEEE.time_text"
   ],
   "note": "operator<< of double as in C115. The last two columns of hubbard_trivial are those of the expression the program computes, which is not the particle number (C126)."
  },
  {
   "property": "C131",
   "status": "proved",
   "theorems": [
    "IEEE.real1dRk4Coefficients_file_binary64",
    "IEEE.real1dKineticRk4Coefficients_file_binary64"
   ],
   "note": "operator<< of double as in C115; the header of the file is C70."
  },
  {
   "property": "C132",
   "status": "partial",
   "theorems": [
    "IEEE.momentum1dRk4_text_binary64_partial",
    "IEEE.momentum1dRk4_text_binary64_wrong",
    "IEEE.momentumText_cells"
   ],
   "note": "Proved but for the meaning of the second number, which is the matrix element with the wrong sign (C63, C122): without options the printed number exceeds the occupation by at least 0.003, up to the sixth digit (momentum1dRk4_text_binary64_wrong)."
  },
  {
   "property": "C133",
   "status": "partial",
   "theorems": [
    "Program.real1dRk4X_outcomes",
    "Program.real1dKineticRk4X_outcomes",
    "Program.real1dRk4X_filling",
    "Program.real1dKineticRk4X_filling",
    "Program.real1dRk4X_filling_example",
    "Program.real1dRk4X_coupling_example",
    "Program.real1dKineticRk4X_filling_example",
    "Program.real1dRk4_extends",
    "Program.real1dKineticRk4_extends",
    "RealSpace.siteOccupation3X_val",
    "RealSpace.siteOccupation1X_val",
    "RealSpace.siteOccupation3_extends",
    "RealSpace.siteOccupation1_extends",
    "RealSpace.evTable1D_extends",
    "RealSpace.evValue1DX_nan",
    "Program.filling_assertion"
   ],
   "note": "False of the code as built without assertions: nothing is refused (with assertions, such a filling aborts: filling_assertion and C121). Exact outcomes for every execution of the parallel loops: step widths and end times as in C128; an infinite or undefined coupling fills every row after the first with NaN, and the first row does not depend on the couplings; an infinite or undefined filling fills every row with NaN; the program ends normally. The model agrees with that of C118 as long as everything is finite (real1dRk4_extends)."
  },
  {
   "property": "C134",
   "status": "partial",
   "theorems": [
    "Program.real1dRk4JumpX_outcomes",
    "Program.real2dRk4JumpX_outcomes_partial",
    "Program.real1dRk4JumpX_filling",
    "Program.real2dRk4JumpX_momentum_partial",
    "Program.real1dRk4JumpX_filling_example",
    "Program.real2dRk4JumpX_coupling_example",
    "Program.real2dRk4JumpX_momentum_example",
    "Program.real1dRk4Jump_extends",
    "Program.real2dRk4Jump_extends_partial"
   ],
   "note": "False of the code as built without assertions: nothing is refused. Exact outcomes for every execution of the parallel loops: step widths and end times as in C128; an infinite or undefined coupling fills every row after the first with NaN; an infinite or undefined filling (1d) or momentum component (2d) fills every row with NaN; the program ends normally. In two dimensions for square lattices; on other rectangles the program reads outside its tables for finite parameters, too (C20, C39). The models agree with those of C119 as long as everything is finite (real1dRk4Jump_extends, real2dRk4Jump_extends_partial)."
  },
  {
   "property": "C135",
   "status": "partial",
   "theorems": [
    "IEEE.momentum1dRk4X_outcomes_partial",
    "IEEE.momentum1dRk4X_not_refused",
    "IEEE.momentum1dRk4X_hopping_nan",
    "IEEE.momentum1dRk4X_hopping_inf",
    "IEEE.momentum1dRk4X_hopping_infinity",
    "IEEE.momentum1dRk4X_hopping_overflow",
    "IEEE.momentum1dRk4X_rest",
    "IEEE.momentum1dRk4_extends"
   ],
   "note": "False of the code: nothing is refused. Exact outcomes: an undefined J empties the Fermi sea and the program prints 0 and 0, as if nothing were wrong; an infinite J, one so large that -2J overflows, or a non-finite U or dt with an ordinary J > 0 print the occupation of the Fermi sea and then NaN. General form: the first number is 1 or 0 by the energy of the mode, the second 0 when no mode is occupied and NaN otherwise. momentum1dRk4_extends: where the arithmetic of C122 stays finite the same two numbers come out."
  },
  {
   "property": "C136",
   "status": "partial",
   "theorems": [
    "OutputText.outputFileX_cells",
    "OutputText.outputFileX_says",
    "OutputText.writeValue_says",
    "OutputText.says_unique",
    "OutputText.lexicalExt_writeValue",
    "OutputText.writeValue_minus",
    "OutputText.written_bound",
    "OutputText.writeValue_cut",
    "OutputText.real1dRk4CoefficientsX_file",
    "OutputText.real1dKineticRk4CoefficientsX_file",
    "OutputText.real1dRk4X_coupling_file",
    "OutputText.real1dKineticRk4X_coupling_file",
    "OutputText.real1dRk4JumpX_coupling_file",
    "OutputText.real2dRk4JumpX_coupling_file_partial",
    "OutputText.real1dRk4X_filling_file",
    "OutputText.momentumTextX_says",
    "OutputText.momentum1dRk4X_text_rest",
    "OutputText.momentum1dRk4X_text_nan"
   ],
   "note": "Proved but for the last sentence, which is false of hubbard_momentum_1d_rk4 with --J=nan: it prints the two zeros of an empty lattice (momentum1dRk4X_text_nan). In the simulation programs every row after the first holds only NaN after its time (in two dimensions for square lattices). operator<< as in C115, for infinities and NaN as in the GNU C library."
  }
 ]
}