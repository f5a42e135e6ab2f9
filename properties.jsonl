{"id": "C01", "title": "Operator equality is structural and != is its exact complement", "statement": "Two ladder operators compare equal exactly when they have the same creator flag and the same indices, and a != b is the negation of a == b, for the generic, the one-index and the two-index class template alike.", "quantifier": "all pairs of operators, every arity, every index type with decidable equality", "why_tests_cant": "the index space is unbounded and three hand-written specialisations have to agree on all of it", "anchors": ["include/ieompp/algebra/operator/operator.hpp:Operator::operator==", "include/ieompp/algebra/operator/operator.hpp:Operator::operator!=", "include/ieompp/algebra/operator/operator.hpp:Operator::same_indices"]}
{"id": "C02", "title": "Operator conjugation is an involution and is_conjugate recognises exactly it", "statement": "Conjugating twice gives the operator back, the in-place and the copying conjugation agree, conjugation keeps the indices, and a.is_conjugate(b) holds exactly when b is the conjugate of a; hence it is symmetric and never holds between an operator and itself.", "quantifier": "all operators and pairs of operators of every arity", "why_tests_cant": "an equivalence over an unbounded index space cannot be enumerated", "anchors": ["include/ieompp/algebra/operator/operator.hpp:Operator::conjugate", "include/ieompp/algebra/operator/operator.hpp:Operator::get_conjugate", "include/ieompp/algebra/operator/operator.hpp:Operator::is_conjugate"]}
{"id": "C03", "title": "OperatorSmaller is a strict total order, creators first; OperatorGreater is its converse", "statement": "OperatorSmaller is irreflexive, transitive and total, puts creators before annihilators and orders by indices lexicographically; OperatorGreater(a,b) equals OperatorSmaller(b,a); the one- and two-index specialisations agree with the generic recursion. It can therefore be handed to std::sort / std::lower_bound.", "quantifier": "all operators over any linearly ordered index types, any number of indices", "why_tests_cant": "transitivity ranges over all triples; a comparator that is not a strict weak order makes std::sort undefined", "anchors": ["include/ieompp/algebra/operator/order.hpp:OperatorSmaller", "include/ieompp/algebra/operator/order.hpp:OperatorGreater", "include/ieompp/algebra/operator/order.hpp:detail::OperatorComparisonHelper"]}
{"id": "C04", "title": "Monomial conjugation reverses and conjugates, is an involutive anti-homomorphism", "statement": "The conjugate of a monomial is the reversed list of conjugated operators, in place and copying versions agree, conjugation is an involution, (ab)^+ = b^+ a^+, and a.is_conjugate(b) holds exactly when b equals the conjugate of a.", "quantifier": "all monomials of every length", "why_tests_cant": "the claim is about words of unbounded length", "anchors": ["include/ieompp/algebra/monomial/monomial.hpp:Monomial::conjugate", "include/ieompp/algebra/monomial/monomial.hpp:Monomial::get_conjugate", "include/ieompp/algebra/monomial/monomial.hpp:Monomial::is_conjugate"]}
{"id": "C05", "title": "Monomial product is concatenation and *= never corrupts its operand", "statement": "a*b is the word a followed by b (associative, unit = empty monomial), a*=b leaves a equal to a*b, also when both sides are the same object.", "quantifier": "all pairs of monomials, including aliased operands and every state of the vector capacity", "why_tests_cant": "the aliased case depends on the unobservable capacity of the vector, so a passing run says nothing about another one", "anchors": ["include/ieompp/algebra/monomial/monomial.hpp:Monomial::operator*=", "include/ieompp/algebra/monomial/monomial.hpp:Monomial::operator*"]}
{"id": "C06", "title": "commutate computes the commutator in every CAR algebra", "statement": "For terms a and b with an even product of lengths, the terms appended by commutate sum to ab-ba in every ring whose elements satisfy the canonical anticommutation relations; terms already in the output container stay untouched.", "quantifier": "all pairs of terms of any length over any index set, all realisations of the CAR, any initial output container", "why_tests_cant": "the identity must hold for words of all lengths and in all representations; tests compare a handful of literal outputs", "anchors": ["include/ieompp/algebra/commutator.hpp:commutate", "include/ieompp/algebra/anticommutator.hpp:anticommutates"]}
{"id": "C07", "title": "anticommutates decides vanishing of the anticommutator", "statement": "For non-symbolic operators anticommutates(x,y) is true exactly when {x,y}=0 in the CAR algebra, and otherwise {x,y}=1.", "quantifier": "all pairs of operators", "why_tests_cant": "unbounded index space; the 'only if' needs a concrete non-trivial representation", "anchors": ["include/ieompp/algebra/anticommutator.hpp:anticommutates"]}
{"id": "C08", "title": "Symbolic commutators are right under every substitution of the symbols", "statement": "When some indices are symbols, substituting any values for the symbols in the result of commutate (with each Kronecker delta evaluated) gives the commutator of the substituted terms.", "quantifier": "all symbolic terms, all valuations of the symbols, all CAR realisations", "why_tests_cant": "quantifies over all substitutions", "anchors": ["include/ieompp/algebra/anticommutator.hpp:detail::AnticommutatorHelper", "include/ieompp/algebra/anticommutator.hpp:detail::AnticommutatesHelper", "include/ieompp/algebra/commutator.hpp:commutate", "include/ieompp/symbolic/prefactor.hpp:Prefactor"]}
{"id": "C09", "title": "Kronecker equality ignores the order of the two symbols", "statement": "Kronecker == is an equivalence relation identifying exactly delta_ab and delta_ba, order() is idempotent and value preserving, and two deltas are equal exactly when their ordered forms coincide literally.", "quantifier": "all pairs and triples of Kronecker deltas over all strings", "why_tests_cant": "transitivity over all triples of strings", "anchors": ["include/ieompp/algebra/kronecker.hpp:Kronecker"]}
{"id": "C10", "title": "order_kroneckers is a legal sort and gives a canonical form", "statement": "order_kroneckers never changes the value of a prefactor, its comparator meets the requirements of std::sort, and two prefactors with the same multiset of (unordered) deltas end up with the same list.", "quantifier": "all prefactors, every result std::sort is allowed to return", "why_tests_cant": "std::sort's outcome is only specified up to the order of equivalent elements; a test observes one implementation", "anchors": ["include/ieompp/symbolic/prefactor.hpp:Prefactor::order_kroneckers"]}
{"id": "C11", "title": "Prefactor multiplication is multiplication of its value", "statement": "Multiplying prefactors, or a prefactor with a number or a delta, multiplies the values under every valuation of the symbols; the product is associative.", "quantifier": "all prefactors and valuations", "why_tests_cant": "quantifies over all valuations", "anchors": ["include/ieompp/symbolic/prefactor.hpp:Prefactor::operator*=", "include/ieompp/symbolic/prefactor.hpp:Prefactor::operator*"]}
{"id": "C12", "title": "TermSmaller is a strict weak order that ignores exactly the prefactor", "statement": "TermSmaller is irreflexive and transitive, shorter terms come first, two terms are incomparable exactly when they carry the same operators; TermGreater is its converse.", "quantifier": "all terms of all lengths", "why_tests_cant": "transitivity over all triples of words", "anchors": ["include/ieompp/algebra/term/order.hpp:TermSmaller", "include/ieompp/algebra/term/order.hpp:TermGreater", "include/ieompp/algebra/term/term.hpp:Term::have_same_operators"]}
{"id": "C13", "title": "copy_as_unique_terms collects like terms without losing any weight", "statement": "The terms appended to the result are strictly increasing under TermSmaller (so no operator string occurs twice), for every operator string the sum of prefactors is the same as in the input, and what was in the result before stays.", "quantifier": "all input lists of any length and order", "why_tests_cant": "an invariant over all insertion histories", "anchors": ["include/ieompp/algebra/term/list.hpp:copy_as_unique_terms"]}
{"id": "C14", "title": "Term product and conjugate mean the product and the adjoint", "statement": "Interpreting a term as prefactor times operators in any star algebra, a*b is interpreted as the product and get_conjugate as the adjoint; * and *= agree.", "quantifier": "all terms and all star-algebra interpretations", "why_tests_cant": "quantifies over all interpretations", "anchors": ["include/ieompp/algebra/term/term.hpp:Term::operator*", "include/ieompp/algebra/term/term.hpp:Term::operator*=", "include/ieompp/algebra/term/term.hpp:Term::get_conjugate"]}
{"id": "C15", "title": "Charge-like counters of terms are additive and invariant under commutators", "statement": "total_creations and total_spin are additive under the term product, change sign under conjugation, and every term produced by commutate(a,b) has the value of a*b; total_momentum likewise.", "quantifier": "all terms of every length", "why_tests_cant": "conservation over words of unbounded length", "anchors": ["include/ieompp/algebra/term/checks.hpp:total_creations", "include/ieompp/algebra/term/checks.hpp:total_spin", "include/ieompp/algebra/term/checks.hpp:total_momentum"]}
{"id": "C16", "title": "TripletList::make_columns_unique merges duplicate columns and keeps every column sum", "statement": "After sorting by column and make_columns_unique, the list has strictly increasing columns and each column sum is that of the original list (entries dropped as zero contribute zero).", "quantifier": "all non-empty triplet lists (on the empty list the functions are undefined), every outcome std::sort may return, every zero-test tolerance", "why_tests_cant": "the loop has off-by-one prone first/last element handling and std::sort is unstable", "anchors": ["include/ieompp/types/triplet.hpp:TripletList::sort", "include/ieompp/types/triplet.hpp:TripletList::make_columns_unique", "include/ieompp/types/triplet.hpp:TripletList::has_unique_columns"]}
{"id": "C17", "title": "IntegerIterator is a random access iterator over a lattice's sites", "statement": "Walking from begin to end visits 0,...,N-1 once each, the difference end-begin is N, it+=n, it-=n, it+n, it-n, it[n] and the comparisons obey the random access iterator laws (in particular it -= n undoes it += n).", "quantifier": "all iterators, all offsets, all operation sequences", "why_tests_cant": "laws over all offsets and all interleavings of operations", "anchors": ["include/ieompp/iterators/integer_iterator.hpp:IntegerIterator"]}
{"id": "C18", "title": "Chain neighbours are in range, mutual, and what neighboring() says", "statement": "On a periodic chain the two neighbours of a site are valid sites, b is a neighbour of a exactly when a is a neighbour of b and exactly when neighboring(a,b); the unique-neighbour enumeration lists every bond once (N>=3).", "quantifier": "all chain lengths N>=1 and all sites", "why_tests_cant": "every N and the two wrap-around sites", "anchors": ["include/ieompp/lattices/periodic_chain.hpp:PeriodicChain::neighbors", "include/ieompp/lattices/periodic_chain.hpp:PeriodicChain::unique_neighbors", "include/ieompp/lattices/periodic_chain.hpp:PeriodicChain::neighboring"]}
{"id": "C19", "title": "Chain lattice_distance is the graph metric of the ring", "statement": "lattice_distance is symmetric, zero exactly on the diagonal, satisfies the triangle inequality, never exceeds N/2, equals the length of the shortest neighbour path, and is translation and reflection invariant.", "quantifier": "all N and all sites", "why_tests_cant": "triangle inequality over all triples and all N", "anchors": ["include/ieompp/lattices/periodic_chain.hpp:PeriodicChain::lattice_distance"]}
{"id": "C20", "title": "Chain position lookup inverts site positions and respects periodicity", "statement": "chain(chain[i]) = i for every site, chain(v + m L) = chain(v) for every integer m, sums and differences of lattice momenta are looked up to the sum modulo N, and the lookup never leaves [0,N).", "quantifier": "all N, all lattice constants dx>0, all positions, real space and momentum space", "why_tests_cant": "continuous domain, all N; the wrap loops and rounding have boundary cases", "anchors": ["include/ieompp/lattices/periodic_chain.hpp:PeriodicChain::operator()", "include/ieompp/lattices/periodic_chain.hpp:PeriodicChain::operator[]"]}
{"id": "C21", "title": "Chain closest() returns a nearest site", "statement": "closest(v) returns a site at minimal (periodic) distance from v.", "quantifier": "all positions v, all N, real space and momentum space", "why_tests_cant": "continuous domain and all N", "anchors": ["include/ieompp/lattices/periodic_chain.hpp:PeriodicChain::closest"]}
{"id": "C22", "title": "Square lattice index, neighbours and distance are consistent", "statement": "index(x,y) is a bijection between coordinates and [0,Nx*Ny) with x_index,y_index its inverse; the four neighbours are valid, mutual and differ by one step in one direction; lattice_distance is a metric and neighboring agrees with it.", "quantifier": "all extents Nx,Ny (equal and unequal) and all sites", "why_tests_cant": "unequal extents are not covered by tests; all sizes", "anchors": ["include/ieompp/lattices/periodic_square_lattice.hpp:PeriodicSquareLattice::index", "include/ieompp/lattices/periodic_square_lattice.hpp:PeriodicSquareLattice::neighbors", "include/ieompp/lattices/periodic_square_lattice.hpp:PeriodicSquareLattice::lattice_distance", "include/ieompp/lattices/periodic_square_lattice.hpp:PeriodicSquareLattice::neighboring"]}
{"id": "C23", "title": "Square lattice position lookup inverts site positions and stays in range", "statement": "lattice(lattice[i]) = i for every site and the lookup of any position returns a valid site.", "quantifier": "all extents, spacings and positions", "why_tests_cant": "continuous domain, boundary values such as +pi", "anchors": ["include/ieompp/lattices/periodic_square_lattice.hpp:PeriodicSquareLattice::operator()", "include/ieompp/lattices/periodic_square_lattice.hpp:PeriodicSquareLattice::operator[]"]}
{"id": "C24", "title": "Real-space bases enumerate every monomial once and get_3op_index inverts the enumeration", "statement": "Basis1 lists N one-particle creators, Basis3 additionally lists all N^3 three-operator monomials; the size is N+N^3, entries are pairwise distinct, and get_3op_index(i,j,k) is the position of that monomial; the conjugate bases hold the conjugates.", "quantifier": "all lattices", "why_tests_cant": "a bijection for every N", "anchors": ["include/ieompp/models/hubbard_real_space/basis.hpp:Basis1Operator", "include/ieompp/models/hubbard_real_space/basis.hpp:Basis3Operator"]}
{"id": "C25", "title": "Momentum-space basis conserves total momentum", "statement": "Every basis monomial for external momentum q carries the momentum of q modulo reciprocal lattice vectors, total spin up and one net creation; size is N^2+1 and get_3op_index inverts the enumeration.", "quantifier": "all N, all q", "why_tests_cant": "all N and q", "anchors": ["include/ieompp/models/hubbard_momentum_space/basis.hpp:Basis3Operator"]}
{"id": "C26", "title": "Liouvillian matrices are assembled within reserved capacity and in append order", "statement": "While the sparse Liouvillian is filled, every row receives strictly increasing in-range columns and the number of entries never exceeds the reserved capacity (the precondition of blaze's append).", "quantifier": "all lattices a caller may pass, kinetic/interaction/complete fill, Basis1 and Basis3", "why_tests_cant": "blaze's append has unchecked preconditions; violation is silent heap corruption", "anchors": ["include/ieompp/models/hubbard_real_space/blaze_sparse.hpp:init_kinetic_matrix", "include/ieompp/models/hubbard_real_space/blaze_sparse.hpp:init_matrix", "include/ieompp/models/hubbard_momentum_space/blaze_sparse.hpp:init_matrix"]}
{"id": "C27", "title": "The kinetic real-space matrix is exactly the commutator with the hopping Hamiltonian", "statement": "For every row r, sum over columns of M(r,c) A_c equals [T, A_r] in the CAR algebra, T the nearest-neighbour hopping Hamiltonian with amplitude -J, for Basis1 and Basis3.", "quantifier": "all N>=3, all J, every CAR realisation", "why_tests_cant": "operator identity for all N", "anchors": ["include/ieompp/models/hubbard_real_space/blaze_sparse.hpp:init_kinetic_matrix", "include/ieompp/models/hubbard_real_space/liouvillian.hpp:Liouvillian"]}
{"id": "C28", "title": "The complete real-space matrix is the projection of the Hubbard Liouvillian", "statement": "For Basis3 one-particle rows sum M(r,c) A_c equals [H,A_r]; three-particle rows equal [H,A_r] up to a remainder orthogonal to the basis (infinite temperature scalar product), i.e. M is the projected Liouvillian.", "quantifier": "all N>=3, all J,U, all rows", "why_tests_cant": "operator identity for all N", "anchors": ["include/ieompp/models/hubbard_real_space/blaze_sparse.hpp:init_matrix"]}
{"id": "C29", "title": "Liouvillian matrices are symmetric so the generated flow is norm preserving", "statement": "The assembled M is real symmetric, hence i*M is anti-Hermitian and the exact flow conserves the norm of the coefficient vector.", "quantifier": "all lattices and parameters, real and momentum space", "why_tests_cant": "all N and all pairs of entries", "anchors": ["include/ieompp/models/hubbard_real_space/blaze_sparse.hpp:init_matrix", "include/ieompp/models/hubbard_momentum_space/blaze_sparse.hpp:init_matrix"]}
{"id": "C30", "title": "The momentum-space matrix has the documented entries and its first row is the exact commutator", "statement": "Row 0 of the matrix reproduces [H, c^+_q] in momentum space; all other rows have diagonal e1+e2-e3+U/2 and coupling U/2N to column 0; within each row columns are strictly increasing and the reserve suffices.", "quantifier": "all N, q, J, U", "why_tests_cant": "all N and q", "anchors": ["include/ieompp/models/hubbard_momentum_space/blaze_sparse.hpp:init_matrix", "include/ieompp/models/hubbard_momentum_space/liouvillian.hpp:Liouvillian"]}
{"id": "C31", "title": "The normal-ordered matrix reproduces the commutators it stands for", "statement": "The rows of the normal-ordered (_no) matrix reproduce [H,A_r] for the normal-ordered basis on one-particle rows, and the rows are filled with unique increasing columns.", "quantifier": "all lattices, all parameters, all expectation value tables", "why_tests_cant": "operator identity for all N", "anchors": ["include/ieompp/models/hubbard_real_space/blaze_sparse_no.hpp:init_matrix"]}
{"id": "C32", "title": "ExcitedFermiSea tracks the occupation of the true Fermi state", "statement": "After any sequence of create/annihilate calls, `vanishes` is set exactly when the operator string applied to the Fermi sea is zero, and otherwise created/annihilated describe exactly the difference to the Fermi sea; is_initial_fermi_sea is true exactly when the state is again the Fermi sea.", "quantifier": "all operation sequences, all dispersions, all Fermi energies", "why_tests_cant": "all histories of operations", "anchors": ["include/ieompp/models/hubbard_momentum_space/excited_fermi_sea.hpp:ExcitedFermiSea"]}
{"id": "C33", "title": "The return value of apply_monomial reports survival", "statement": "apply_monomial returns the same indication of a vanished state whether the state vanished before or during the call.", "quantifier": "all states and monomials", "why_tests_cant": "all histories", "anchors": ["include/ieompp/models/hubbard_momentum_space/excited_fermi_sea.hpp:ExcitedFermiSea::apply_monomial"]}
{"id": "C34", "title": "The list of non-vanishing expectation values is complete, unique, sorted and symmetric", "statement": "The list holds every index pair with a non-vanishing contribution exactly once, indices lie inside the basis, it is symmetric under exchanging the two indices, and the value is that of the Fermi-sea expectation value.", "quantifier": "all N, q, fillings", "why_tests_cant": "all index pairs for all N", "anchors": ["include/ieompp/models/hubbard_momentum_space/non_vanishing_expectation_values.hpp:NonVanishingExpectationValues"]}
{"id": "C35", "title": "Particle number is real", "statement": "The imaginary part dropped by the momentum-space particle number is exactly zero for every coefficient vector.", "quantifier": "all complex vectors of the right size and all N", "why_tests_cant": "all vectors", "anchors": ["include/ieompp/models/hubbard_momentum_space/particle_number.hpp:ParticleNumber", "include/ieompp/types/number/complex.hpp:multiply_with_conjugate"]}
{"id": "C36", "title": "Site occupation evaluates the quasi-free expectation value", "statement": "The site occupation of a coefficient vector is sum_ij conj-weighted h_i h_j^* times the quasi-free (Wick) expectation value of the corresponding product of basis monomials; all table accesses are in range.", "quantifier": "all lattices, all symmetric correlation tables, all vectors", "why_tests_cant": "sum over N^6 pairs; Wick identity for all index patterns", "anchors": ["include/ieompp/models/hubbard_real_space/site_occupation.hpp:SiteOccupation"]}
{"id": "C37", "title": "exploit_inversion_symmetry and the thread schedule do not change the result", "statement": "The shortcut that evaluates only the upper triangle and doubles real parts gives the same value as the full double sum; any distribution of loop iterations over any number of threads gives the same sum.", "quantifier": "all vectors, all schedules, all thread counts", "why_tests_cant": "all schedules", "anchors": ["include/ieompp/models/hubbard_real_space/site_occupation.hpp:SiteOccupation", "include/ieompp/openmp.hpp:threads"]}
{"id": "C38", "title": "Fermi jump is a squared modulus, never negative, and safe to construct", "statement": "The Fermi jump equals |sum_i f_i h_i|^2 with the normal-ordered coefficients, hence is non-negative; constructing and evaluating it accesses only existing elements, also when evaluated for several system sizes in one process.", "quantifier": "all lattices, vectors and call histories", "why_tests_cant": "history dependence (function-local statics) and all sizes", "anchors": ["include/ieompp/models/hubbard_real_space/fermi_jump/1d.hpp:FermiJump1D", "include/ieompp/models/hubbard_real_space/fermi_jump/2d.hpp:FermiJump2D", "include/ieompp/models/hubbard_real_space/fermi_jump_no.hpp"]}
{"id": "C39", "title": "Expectation value tables are read in range and depend only on the distance", "statement": "The half-filling correlation table is symmetric, translation and inversion invariant and every lookup is inside the table.", "quantifier": "all lattices and all pairs of sites", "why_tests_cant": "all sizes", "anchors": ["include/ieompp/models/hubbard_real_space/expectation_value.hpp:ExpectationValue1DHalfFilled", "include/ieompp/models/hubbard_real_space/expectation_value.hpp:ExpectationValue2DHalfFilled"]}
{"id": "C40", "title": "Dispersion is bounded, even and periodic", "statement": "The tabulated dispersion equals -2J sum cos(k a), lies within [-2dJ, 2dJ] (J>=0), is even in k and has period 2 pi / a.", "quantifier": "all momenta, lattice vectors and J", "why_tests_cant": "continuous domain", "anchors": ["include/ieompp/models/hubbard/dispersion.hpp:make_dispersion"]}
{"id": "C41", "title": "Complex helper functions compute what their names say", "statement": "multiply_with_conjugate(a,b)=a b^*, add_conjugate_products(a,b)=a b^* + a^* b (real), conjugate on reals is the identity, IsEqual / IsZero are symmetric tolerance tests consistent with each other.", "quantifier": "all numbers", "why_tests_cant": "continuous domain", "anchors": ["include/ieompp/types/number/complex.hpp", "include/ieompp/types/number/is_equal.hpp:IsEqual", "include/ieompp/types/number/is_zero.hpp:IsZero"]}
{"id": "C42", "title": "Matrix checks decide symmetry and hermiticity", "statement": "is_symmetric / is_hermitian return true exactly when the matrix is symmetric / Hermitian (up to the tolerance) for every matrix type they accept.", "quantifier": "all matrices of all sizes", "why_tests_cant": "all matrices", "anchors": ["include/ieompp/types/matrix_check.hpp:is_symmetric", "include/ieompp/types/matrix_check.hpp:is_hermitian", "include/ieompp/types/function_matrix.hpp:FunctionMatrix"]}
{"id": "C43", "title": "multiply_assign and the RK4 step are pure functions of their arguments", "statement": "multiply_assign(M,v,r) leaves r = M v and an RK4 step maps v to (1+hM+(hM)^2/2+(hM)^3/6+(hM)^4/24) v, regardless of what the process computed before (function-local static work vectors), and both overloads agree.", "quantifier": "all matrices, vectors, step sizes and all call histories", "why_tests_cant": "static buffers make the result a function of history in principle", "anchors": ["include/ieompp/ode/rk4.hpp:RK4", "include/ieompp/types/blaze/multiply_assign.hpp:multiply_assign"]}
{"id": "C44", "title": "RK4 agrees with the exact flow to fourth order and is linear", "statement": "The RK4 step is linear in the vector and its coefficients match the exponential series up to h^4.", "quantifier": "all matrices and steps", "why_tests_cant": "all inputs", "anchors": ["include/ieompp/ode/rk4.hpp:RK4"]}
{"id": "C45", "title": "Measurement loop measures at t=0, at every interval and at the end, never twice", "statement": "Starting at step 0 the program measures exactly at the steps prescribed by the measurement interval, including t=0 and the final time, exactly once each, and terminates.", "quantifier": "all dt>0, end times, intervals", "why_tests_cant": "all parameter values", "anchors": ["src/hubbard/include/common.hpp:has_time_interval_passed", "src/hubbard/hubbard_real_1d_rk4.cpp:main"]}
{"id": "C46", "title": "Checkpoints never overwrite each other and survive a crash at any point", "statement": "At every crash point there is a complete checkpoint (vector and info) on disk that restores the last checkpointed state; restarting does not destroy older checkpoints.", "quantifier": "all crash points, all histories of checkpoints and restarts", "why_tests_cant": "crash points and restart histories", "anchors": ["src/hubbard/include/checkpoint.hpp:write_checkpoint_file", "src/hubbard/include/checkpoint.hpp:read_checkpoint_file"]}
{"id": "C47", "title": "clean_output_file keeps exactly the rows before the restart and terminates", "statement": "After cleaning, the output file holds the header and exactly the first n data rows, each on its own line; the call terminates for every file; a crash in between never loses the data.", "quantifier": "all files, all row counts, all crash points", "why_tests_cant": "all file contents", "anchors": ["src/hubbard/include/checkpoint.hpp:clean_output_file", "include/ieompp/io/line.hpp:next_line"]}
{"id": "C48", "title": "next_line returns the next data line", "statement": "next_line skips blank and comment lines only, returns the first other line, and terminates also when there is none.", "quantifier": "all files", "why_tests_cant": "all inputs, non-termination", "anchors": ["include/ieompp/io/line.hpp:next_line", "include/ieompp/io/line.hpp:is_skippable_line"]}
{"id": "C49", "title": "Initial vector is the observed operator", "statement": "The start vector has coefficient 1 for the observed operator, 0 elsewhere, for every basis size.", "quantifier": "all sizes from 1 on", "why_tests_cant": "all sizes", "anchors": ["src/hubbard/include/vector.hpp:init_vector"]}
{"id": "C50", "title": "Kinetic theory program uses the exact powers of -i", "statement": "The closed-form kinetic coefficients use (-i)^d for every site distance d.", "quantifier": "all distances", "why_tests_cant": "all integers", "anchors": ["src/hubbard/hubbard_real_1d_kinetic_theory.cpp:main"]}
{"id": "C51", "title": "Matrix and vector files are read back as written", "statement": "Reading a triplet list or sparse matrix file back gives the object that was written.", "quantifier": "all matrices", "why_tests_cant": "all matrices", "anchors": ["include/ieompp/io/triplet_list.hpp", "include/ieompp/io/eigen/sparse.hpp"]}
{"id": "C52", "title": "File headers comment out every description line", "statement": "write_header puts the comment prefix in front of every line it writes and writes all descriptions.", "quantifier": "all prefixes and lists of descriptions", "why_tests_cant": "all strings", "anchors": ["include/ieompp/io/file_header.hpp:write_header"]}
{"id": "C53", "title": "Eigen triplet list reports its shape and sorts column-major", "statement": "rows()/cols() return the constructor arguments and sort_column_major orders by column then row.", "quantifier": "all shapes and lists", "why_tests_cant": "all inputs", "anchors": ["include/ieompp/types/eigen/triplet_list.hpp"]}
{"id": "C54", "title": "Tuples and operators print every component once, in order", "statement": "Printing a tuple (and a generic operator) outputs each component once, in order.", "quantifier": "all tuples", "why_tests_cant": "all inputs and arities", "anchors": ["include/ieompp/tuple.hpp:TuplePrinter", "include/ieompp/algebra/operator/io.hpp"]}
{"id": "C55", "title": "Integration never increases the norm for small steps", "statement": "Integrating the flow equation of a real symmetric matrix with the RK4 integrator never increases the norm of the coefficient vector, in any number of steps, when step size times the largest absolute row sum is at most sqrt 8; for the real-space Hubbard matrix 6 |J| + |U| (chain) bounds the row sums.", "quantifier": "all symmetric matrices, initial vectors, step sizes in the stability range, numbers of steps, lattice sizes", "why_tests_cant": "all matrices and numbers of steps", "anchors": ["include/ieompp/ode/rk4.hpp:RK4", "include/ieompp/models/hubbard_real_space/blaze_sparse.hpp:init_matrix"]}
{"id": "C56", "title": "The kinetic theory program outputs the solution of the flow equation", "statement": "The coefficients the kinetic theory program computes at time t solve the flow equation of the hopping Hamiltonian with the initial state 'one operator at site 0', so that they agree with what the RK4 program without interaction approximates.", "quantifier": "all times, lattice sizes and sites", "why_tests_cant": "infinitely many times and lattice sizes", "anchors": ["src/hubbard/hubbard_real_1d_kinetic_theory.cpp:main"]}
{"id": "C57", "title": "Printed operators and non-empty monomials can be told apart", "statement": "Operators print as their name, dagger and indices; a non-empty monomial prints its operators in order separated by single spaces; two different operators, or two different non-empty monomials, of the Hubbard programs never print the same text.", "quantifier": "all operators and monomials", "why_tests_cant": "all pairs of monomials of unbounded length", "anchors": ["include/ieompp/algebra/operator/io.hpp", "include/ieompp/algebra/monomial/io.hpp"]}
{"id": "C58", "title": "The real-space program writes the occupation of the projected dynamics", "statement": "For N >= 3 sites, dt > 0 and every interval, the program hubbard_real_1d_rk4 terminates without out-of-range access and writes one row for every interval-th step up to t_end; the number in the row at time t approximates <A(t) A(t)^dagger>, where A(t) solves the equation of motion of the program's matrix with A(0) = c^dagger_0 and the expectation value is taken with Wick's theorem and the Fermi gas correlations; the error is bounded by an explicit expression of fourth order in dt.", "quantifier": "all lattice sizes, couplings, fillings, step sizes, end times, intervals and thread schedules", "why_tests_cant": "all parameters, schedules and numbers of steps", "anchors": ["src/hubbard/hubbard_real_1d_rk4.cpp:main", "src/hubbard/real_space/site_occupation.hpp:init_site_occupation", "include/ieompp/ode/rk4.hpp:RK4"]}
{"id": "C59", "title": "Occupations lie between zero and one", "statement": "For every coefficient vector h the site occupation computed with the table of expectation values of the programs lies between 0 and |h|^2, as the occupation of an orbital in a fermionic state must.", "quantifier": "all lattice sizes, fillings and coefficient vectors", "why_tests_cant": "all vectors", "anchors": ["include/ieompp/models/hubbard_real_space/expectation_value.hpp:ExpectationValue1DHalfFilled", "include/ieompp/models/hubbard_real_space/site_occupation.hpp:SiteOccupation"]}
{"id": "C60", "title": "Without interaction the occupation stays at the filling", "statement": "For N >= 3 sites the program hubbard_real_1d_kinetic_rk4 terminates and writes one row for every interval-th step; the exact value of its observable is the filling at all times, and every number written differs from the filling by at most an explicit error of fourth order in dt.", "quantifier": "all lattice sizes, hopping strengths, fillings, step sizes, end times, intervals and thread schedules", "why_tests_cant": "all parameters, schedules and numbers of steps", "anchors": ["src/hubbard/hubbard_real_1d_kinetic_rk4.cpp:main", "include/ieompp/ode/rk4.hpp:RK4"]}
{"id": "C61", "title": "The Fermi jump programs write the jump of the projected dynamics", "statement": "For N >= 3 sites (in two dimensions Nx, Ny >= 3) and dt > 0 the programs hubbard_real_1d_rk4_jump and hubbard_real_2d_rk4_jump terminate without out-of-range access, write one row per interval, and the number at time t is |sum_i exp(i kF r_i) h_i^NO(t)|^2 of the exact solution of the equation of motion of their matrix, with an explicit error bound of fourth order in dt; without interaction the jump stays 1 when kF is a momentum of the ring.", "quantifier": "all lattice sizes, couplings, fillings, momenta, step sizes, end times, intervals and thread schedules", "why_tests_cant": "all parameters, schedules and numbers of steps", "anchors": ["src/hubbard/hubbard_real_1d_rk4_jump.cpp:main", "src/hubbard/hubbard_real_2d_rk4_jump.cpp:main", "include/ieompp/models/hubbard_real_space/fermi_jump/1d.hpp:FermiJump1D", "include/ieompp/models/hubbard_real_space/fermi_jump/2d.hpp:FermiJump2D"]}
{"id": "C62", "title": "The coefficient programs write all coefficients of the exact dynamics", "statement": "Each row of hubbard_real_1d_rk4_coefficients holds the time and then real and imaginary part of the coefficient of every basis operator in basis order, each within an explicit fourth order bound of the exact solution; for the kinetic variant the exact solution is 1/N sum_k exp(i k p) exp(-2 i J t cos k).", "quantifier": "all lattice sizes N >= 3, couplings, step sizes, end times and intervals", "why_tests_cant": "all parameters and numbers of steps", "anchors": ["src/hubbard/hubbard_real_1d_rk4_coefficients.cpp:main", "src/hubbard/hubbard_real_1d_kinetic_rk4_coefficients.cpp:main"]}
{"id": "C63", "title": "The momentum-space program writes the particle number of the projected dynamics", "statement": "For every number N >= 1 of momenta, dt >= 0 and every schedule the program hubbard_momentum_1d_rk4 terminates without out-of-range access and prints the particle number of momentum N/2 in the Fermi sea at time 0 and after eight steps: the second number differs from <FS| A(t) A(t)^dagger |FS>, where A(t) solves the equation of motion of the program's matrix with A(0) = c^dagger_{q up}, by at most an explicit error of fourth order in dt, and neither number is negative.", "quantifier": "all numbers of momenta, couplings, step sizes and thread schedules", "why_tests_cant": "all parameters and schedules", "anchors": ["src/hubbard/hubbard_momentum_1d_rk4.cpp:main", "src/hubbard/momentum_space/momentum_space.hpp", "include/ieompp/models/hubbard_momentum_space/particle_number.hpp"]}
{"id": "C64", "title": "The four-operator program follows the closed-form solution", "statement": "Each row of hubbard_trivial holds the time, real and imaginary part of the four coefficients, each within an explicit fourth order bound of the closed-form solution of the four-operator equation of motion, and real and imaginary part of the particle number sum_ij h_i conj(h_j) e_ij, which is real.", "quantifier": "all couplings, step sizes and numbers of steps", "why_tests_cant": "all parameters and numbers of steps", "anchors": ["src/hubbard/hubbard_trivial.cpp:main", "src/hubbard/hubbard_trivial.cpp:particle_number"]}
{"id": "C65", "title": "The dispersion program writes the band structure of the chain", "statement": "hubbard_dispersion_1d writes one row per momentum of the Brillouin zone, momenta increasing from -pi (inclusive) to pi (exclusive), each with the energy -2 cos k; opposite momenta have equal energies.", "quantifier": "all numbers of momenta and thread schedules", "why_tests_cant": "all sizes and schedules", "anchors": ["src/hubbard/hubbard_dispersion_1d.cpp:main", "include/ieompp/models/hubbard/dispersion.hpp:Dispersion"]}
{"id": "C66", "title": "The commutator programs print exactly the commutators", "statement": "Each block printed by hubbard_commutators_momentum_space and hubbard_commutators_real_space lists terms, with ordered Kronecker deltas, that for every value of the symbols and in every realisation of the anticommutation relations sum to the commutator of the Hamiltonian terms with the given term; the program terminates without undefined behaviour, whatever the addresses the compiler gives to equal string literals and whatever algorithm std::sort uses.", "quantifier": "all Hamiltonian terms and terms with an even product of lengths, all values of the symbols, all representations, all literal addresses and sorting algorithms", "why_tests_cant": "quantifies over algebras, valuations of symbols and compiler choices", "anchors": ["src/hubbard/hubbard_commutators_momentum_space.cpp:main", "src/hubbard/hubbard_commutators_real_space.cpp:main", "include/ieompp/algebra/commutator.hpp:commutate", "include/ieompp/symbolic/prefactor.hpp:Prefactor::order_kroneckers"]}
{"id": "C67", "title": "The printed form of a symbolic term determines the term", "statement": "If two terms with at least one operator print the same text, they have the same number, the same Kronecker deltas in the same order and the same operators, provided numbers print injectively without blanks and deltas and symbols contain no comma, blank or closing brace.", "quantifier": "all pairs of terms of every length", "why_tests_cant": "injectivity ranges over all pairs of unbounded terms", "anchors": ["include/ieompp/algebra/term/io.hpp:operator<<", "include/ieompp/symbolic/prefactor.hpp:operator<<", "include/ieompp/algebra/kronecker.hpp:operator<<", "include/ieompp/algebra/operator/io.hpp:operator<<"]}
{"id": "C68", "title": "Parameters come from the command line, then the response file, then the defaults", "statement": "A program that starts sees for every option the value given on the command line, otherwise the first value given in the response file, otherwise the declared default; the response file is read to its end and reading it terminates.", "quantifier": "all sets of options, command lines, response files and file systems", "why_tests_cant": "quantifies over all command lines and files", "anchors": ["src/hubbard/include/cli.hpp:read_response_file", "src/hubbard/include/cli.hpp:parse_command_line_options", "src/hubbard/include/application.hpp:Application::Application"]}
{"id": "C69", "title": "A run can be repeated from the response file it wrote", "statement": "Starting the program with the response file written by an earlier run (itself started without one, with values that are not empty and have no line breaks) succeeds and gives every parameter the value it had in the earlier run.", "quantifier": "all command lines, options, file systems and environments of both runs", "why_tests_cant": "a round trip over all parameter values", "anchors": ["src/hubbard/include/application.hpp:Application::Application", "src/hubbard/include/cli.hpp:read_response_file", "src/hubbard/include/cli.hpp:parse_command_line_options"]}
{"id": "C70", "title": "The header of the output file documents the parameters and the output path used", "statement": "The header of the output file lists exactly the parameters the program sees, every line of it is a comment that the readers of the library skip, and the output is written to the path which the parameter out holds.", "quantifier": "all command lines, response files and file systems", "why_tests_cant": "quantifies over all parameter sources", "anchors": ["src/hubbard/include/application.hpp:Application::Application", "include/ieompp/io/line.hpp:is_skippable_line"]}
{"id": "C71", "title": "The files of a run are its own", "statement": "Output, response, log, matrix and checkpoint files of a run have different paths, and two runs with different output paths share none of them.", "quantifier": "all output paths", "why_tests_cant": "quantifies over all pairs of paths", "anchors": ["src/hubbard/include/application.hpp:Application::Application", "src/hubbard/include/checkpoint.hpp:write_checkpoint_file"]}
{"id": "C72", "title": "init and init_symmetric fill an Eigen matrix with the given function", "statement": "init sets every coefficient of a dense matrix to f(i,j) and of a sparse matrix to f(i,j) up to values that count as zero (closer than the machine epsilon), storing no position twice or out of range, whatever the matrix held before; init_symmetric always gives a symmetric matrix with the values of f below the diagonal, and the same matrix as init when f is symmetric.", "quantifier": "all sizes, functions, scalar types and previous contents", "why_tests_cant": "all sizes and functions", "anchors": ["include/ieompp/types/eigen/init.hpp:init", "include/ieompp/types/eigen/init.hpp:init_symmetric"]}
{"id": "C73", "title": "Rounding errors of the times do not change which steps are measured", "statement": "With floating point times (every operation rounded with relative error u) a simulation of at most N steps, 32 N^2 u <= 1, terminates, measures exactly at the steps 0, I, 2I, ..., writes times within dt/16 of the exact ones, and performs the number of steps of exact arithmetic for an end time shifted by at most dt/16.", "quantifier": "all rounding functions with relative error u, all step sizes, end times, intervals, integrators and observables", "why_tests_cant": "quantifies over all rounding behaviours and run lengths", "anchors": ["src/hubbard/include/common.hpp:has_time_interval_passed", "src/hubbard/hubbard_real_1d_rk4.cpp:main"]}
{"id": "C74", "title": "Operators give back the indices they were made from, and their type predicates are right", "statement": "For operators with any number of indices, get_index, get_indices and index_tuple return the indices given to make_creator or make_annihilator, assigning through get_index changes only that index; IsSymbolicOperator, HasIndexOfType, IsHubbardOperator and SpatialIndexType hold exactly for the types they describe.", "quantifier": "all numbers and types of indices", "why_tests_cant": "quantifies over all arities and index types", "anchors": ["include/ieompp/algebra/operator/get_index.hpp:get_index", "include/ieompp/algebra/operator/make.hpp:make_creator", "include/ieompp/algebra/operator/is_symbolic.hpp:IsSymbolicOperator", "include/ieompp/algebra/operator.hpp:HasIndexOfType", "include/ieompp/models/hubbard/operator_traits.hpp:IsHubbardOperator"]}
{"id": "C75", "title": "Numbered symbols, type descriptions and exception messages identify what they stand for", "statement": "Symbolic indices numbered by different integers are different, also from the index without number and from indices of other kinds; the text of an exception determines file, line and message (for file names without colon and texts without null characters); the description of a scalar type determines the type; compose concatenates its arguments.", "quantifier": "all integers, texts, types and kinds of indices", "why_tests_cant": "injectivity over unbounded domains", "anchors": ["include/ieompp/symbolic/index.hpp:Index", "include/ieompp/string.hpp:compose", "include/ieompp/exception.hpp:create_exception", "include/ieompp/types/names.hpp:type_name", "include/ieompp/types/description.hpp:TypeDescription"]}
{"id": "C76", "title": "The type traits classify matrices and vectors", "statement": "Every matrix or vector type of Eigen and Blaze is reported as exactly one of matrix, row vector and column vector, and MatrixDimensionInfo gives the shape of an object as a matrix.", "quantifier": "all matrix and vector types and sizes", "why_tests_cant": "quantifies over all types and sizes", "anchors": ["include/ieompp/types/eigen/traits.hpp:IsMatrix", "include/ieompp/types/blaze/traits.hpp:MatrixDimensionInfo", "include/ieompp/types/matrix.hpp:IsVector"]}
{"id": "C77", "title": "Rounding errors do not change the site found for positions and their sums", "statement": "With floating point coordinates (every operation rounded with relative error u), looking up the position of a site gives that site, looking up k_i + k_j - k_q gives the site i + j - q modulo N, and so the momentum-space basis is exactly the one of exact arithmetic, for chains of at most 1/(100 u) sites; the same for sums of positions in real space.", "quantifier": "all rounding functions with relative error u, all numbers of sites, all sites", "why_tests_cant": "quantifies over all rounding behaviours and sizes", "anchors": ["include/ieompp/lattices/periodic_chain.hpp:PeriodicChain::operator()", "include/ieompp/lattices/periodic_chain.hpp:PeriodicChain::operator[]", "include/ieompp/models/hubbard_momentum_space/basis.hpp:Basis3Operator"]}
{"id": "C78", "title": "A run can be continued from a checkpoint", "statement": "A program called with --checkpoint=<path>, as its help text announces, continues from the vector in that checkpoint, and the rows written to the output file before the checkpoint are kept.", "quantifier": "all programs, command lines, response files, file systems and checkpoints", "why_tests_cant": "quantifies over all files left by an earlier run and all command lines", "anchors": ["src/hubbard/include/common.hpp:read_vector_from_checkpoint", "src/hubbard/include/application.hpp:Application::print_help", "src/hubbard/include/application.hpp:Application::add_default_options"]}
{"id": "C79", "title": "Every program starts with valid settings and exits on --help and --version", "statement": "A program called with --name=value for any of its options, each at most once and with values that can be converted, starts; options that were given have the given values, the others the defaults of the source. With --help or --version anywhere among such settings it exits without writing any file, and it exits in this way in no other case.", "quantifier": "all programs, all sets of settings, all file systems", "why_tests_cant": "quantifies over all command lines", "anchors": ["src/hubbard/include/application.hpp:Application::Application", "src/hubbard/include/application.hpp:Application::add_default_options", "src/hubbard/include/cli.hpp:parse_command_line_options"]}
{"id": "C80", "title": "Different programs do not overwrite each other's results", "statement": "Two different programs run in the same directory without options write to different output, log, response and matrix files.", "quantifier": "all pairs of programs, all file systems", "why_tests_cant": "quantifies over all pairs of programs and all file systems", "anchors": ["src/hubbard/include/application.hpp:Application::Application", "src/hubbard/hubbard_real_1d_kinetic_rk4_coefficients.cpp:main", "src/hubbard/hubbard_real_1d_rk4_coefficients.cpp:main"]}
{"id": "C81", "title": "Parallel observables are reproducible", "statement": "Running the same measurement with any number of threads and any interleaving of the iterations gives the same site occupation and Fermi jump, in double arithmetic up to rounding errors of the size of the machine epsilon times the number of summands.", "quantifier": "all numbers of threads, all legal schedules, all coefficient vectors, all rounding functions with relative error u", "why_tests_cant": "quantifies over all schedules and all floating point inputs", "anchors": ["include/ieompp/models/hubbard_real_space/site_occupation.hpp:SiteOccupation", "include/ieompp/models/hubbard_real_space/fermi_jump/1d.hpp:FermiJump1D", "src/hubbard/hubbard_real_1d_kinetic_theory.cpp:main"]}
{"id": "C82", "title": "The computed coefficients stay close to the exact solution", "statement": "In double arithmetic the coefficients after k Runge-Kutta steps of width dt differ from the exact solution of the equations of motion at time k dt by an amount that grows only linearly with k: discretisation error x^5/120 exp(x) and rounding error of order machine epsilon per step, x = dt (3 z |J| + |U|), as long as x <= sqrt 8. Rounding errors are not amplified.", "quantifier": "all regular lattices, parameters J and U, initial vectors, step numbers, orders of stored elements, roundings with relative error u; for function matrices all schedules", "why_tests_cant": "quantifies over all floating point inputs and numbers of steps", "anchors": ["include/ieompp/ode/rk4.hpp:RK4", "include/ieompp/types/blaze/multiply_assign.hpp:multiply_assign", "include/ieompp/models/hubbard_real_space/blaze_sparse.hpp:init_matrix", "src/hubbard/hubbard_real_1d_rk4_coefficients.cpp:main"]}
{"id": "C83", "title": "The programs start on every machine", "statement": "Whatever the environment of the process, a program called with valid settings starts, writes the platform lines into the header of its output, and --help and --version print their texts.", "quantifier": "all programs, settings, environments, host names and file systems", "why_tests_cant": "quantifies over all environments", "anchors": ["include/ieompp/platform.hpp:Platform", "src/hubbard/include/logging.hpp:Loggers::init", "src/hubbard/include/application.hpp:Application::print_version"]}
{"id": "C84", "title": "Parallel loops have no data races", "statement": "However the single loads and stores of the threads interleave, no parallel loop of the library has a data race, every loop ends, and the vectors it fills contain what the serial loop computes (for sums: in each thread's element the sum of this thread's contributions in its own order, with or without rounding).", "quantifier": "all parallel loops of the library, numbers of threads, distributions of the iterations and interleavings of the single memory accesses", "why_tests_cant": "quantifies over all interleavings", "anchors": ["include/ieompp/types/blaze/multiply_assign.hpp:multiply_assign", "include/ieompp/models/hubbard_real_space/fermi_jump/1d.hpp:FermiJump1D", "include/ieompp/models/hubbard_real_space/site_occupation.hpp:SiteOccupation", "include/ieompp/models/hubbard_real_space/expectation_value.hpp:ExpectationValue2DHalfFilled", "include/ieompp/models/hubbard/dispersion.hpp:Dispersion", "include/ieompp/models/hubbard_real_space/basis.hpp:get_conjugate", "src/hubbard/hubbard_real_1d_kinetic_theory.cpp:main"]}
{"id": "C85", "title": "Calls from several threads", "statement": "Several threads of a program may call RK4::step, multiply_assign and the Fermi jump (all of them const or free functions) at the same time for vectors of their own, and each gets the result it would get alone.", "quantifier": "all dimensions, matrices, vectors, numbers of callers and interleavings", "why_tests_cant": "quantifies over all interleavings", "anchors": ["include/ieompp/ode/rk4.hpp:RK4::step", "include/ieompp/types/blaze/multiply_assign.hpp:multiply_assign", "include/ieompp/models/hubbard_real_space/fermi_jump/1d.hpp:FermiJump1D::operator()"]}
{"id": "C86", "title": "Arguments that are part of the changed object", "statement": "The compound assignments and commutate work also when an argument is (part of) the object that is changed: p *= p, p *= p.kroneckers, p *= p.kroneckers[i], t *= t leave the product with a copy of the argument, and commutate(c[i], c[j], c) appends the commutator of the two elements.", "quantifier": "all contents, capacities, growth policies of the vectors and positions i, j", "why_tests_cant": "quantifies over all allocation states", "anchors": ["include/ieompp/symbolic/prefactor.hpp:Prefactor::operator*=", "include/ieompp/algebra/term/term.hpp:Term::operator*=", "include/ieompp/algebra/commutator.hpp:commutate"]}
{"id": "C87", "title": "Index arithmetic does not overflow", "statement": "For every lattice size and every unsigned index type in which the exact numbers fit, sizes, neighbours, distances, lookups, positions in the basis and reserved element counts have the values of exact integer arithmetic.", "quantifier": "all widths of the index type, lattice sizes and sites", "why_tests_cant": "the limits are far beyond any lattice a test can build", "anchors": ["include/ieompp/lattices/periodic_chain.hpp:PeriodicChain", "include/ieompp/lattices/periodic_square_lattice.hpp:PeriodicSquareLattice", "include/ieompp/models/hubbard_real_space/basis.hpp:get_3op_index", "include/ieompp/models/hubbard_momentum_space/basis.hpp:get_3op_index", "include/ieompp/models/hubbard_real_space/blaze_sparse.hpp:number_of_kinetic_elements"]}
{"id": "C88", "title": "Printing leaves the format settings of the stream as they were", "statement": "Writing a library object to a stream changes no format setting of the stream (except that the width is used up), and the text does not depend on what was printed before; a matrix is printed as one line per row with all elements.", "quantifier": "all objects, settings of the stream and formatting functions of the scalars", "why_tests_cant": "streams of tests are fresh; the damage shows in what is printed later", "anchors": ["include/ieompp/types/function_matrix.hpp:operator<<", "include/ieompp/algebra/operator/io.hpp:operator<<", "include/ieompp/algebra/monomial/io.hpp:operator<<", "include/ieompp/algebra/term/io.hpp:operator<<", "include/ieompp/symbolic/prefactor.hpp:operator<<", "include/ieompp/io/triplet_list.hpp:write_triplet_list", "src/hubbard/include/application_timer.hpp:operator<<"]}
{"id": "C89", "title": "Measurements reported as finished survive a crash", "statement": "Wherever a simulation program is killed, the output file starts with the header and the complete rows of all measurements the log reports as finished, and contains nothing but a beginning of what the finished run would have written; after a normal end it is complete.", "quantifier": "all crash points, numbers of steps and rows, formats of the numbers, and all moments at which the buffer of the stream may be written", "why_tests_cant": "the crash point and the moments at which a stream empties its buffer cannot be enumerated by tests", "anchors": ["src/hubbard/include/application.hpp:Application", "src/hubbard/hubbard_real_1d_rk4.cpp:main", "src/hubbard/hubbard_real_1d_rk4_coefficients.cpp:main", "src/hubbard/include/logging.hpp:Loggers"]}
{"id": "C90", "title": "Results which cannot be written are reported", "statement": "A simulation program which runs to its end and reports its measurements as finished has written all of them; a failure to open or write the output file does not go unnoticed.", "quantifier": "all runs and all points at which opening or writing fails", "why_tests_cant": "tests run on disks that work", "anchors": ["src/hubbard/include/application.hpp:Application", "src/hubbard/hubbard_real_1d_rk4.cpp:main", "src/hubbard/hubbard_real_1d_rk4_coefficients.cpp:main", "src/hubbard/include/logging.hpp:Loggers"]}
{"id": "C91", "title": "The lines found after a crash are results", "statement": "Every line found in an output file after a crash is a line of the header or a complete row.", "quantifier": "all crash points, rows and formats of the numbers", "why_tests_cant": "the crash point and the moments at which a stream empties its buffer cannot be enumerated by tests", "anchors": ["src/hubbard/include/application.hpp:Application", "src/hubbard/hubbard_real_1d_rk4.cpp:main", "src/hubbard/hubbard_real_1d_rk4_coefficients.cpp:main", "src/hubbard/include/logging.hpp:Loggers", "src/hubbard/hubbard_trivial.cpp:main", "src/hubbard/hubbard_dispersion_1d.cpp:main", "src/hubbard/hubbard_real_1d_kinetic_theory.cpp:main"]}
{"id": "C92", "title": "Looking up a position comes to an end", "statement": "For every lattice and every position that is a floating-point number, the lookup and the search for the closest site come to an end (the latter with a site of the lattice).", "quantifier": "all sizes, lattice constants and positions, and all roundings within a relative error", "why_tests_cant": "a test that does not end is no test, and the positions at which the loops stagnate depend on the last digit of the type", "anchors": ["include/ieompp/lattices/periodic_chain.hpp:PeriodicChain::operator()", "include/ieompp/lattices/periodic_chain.hpp:PeriodicChain::closest", "include/ieompp/lattices/periodic_square_lattice.hpp:PeriodicSquareLattice::operator()", "include/ieompp/lattices/periodic_square_lattice.hpp:PeriodicSquareLattice::closest"]}
{"id": "C93", "title": "Site positions of the square lattice are found again in floating point", "statement": "With rounded arithmetic, the lookup of the position of a site of a square lattice returns the site, in momentum space and in real space.", "quantifier": "all sizes, sites, lattice constants and roundings", "why_tests_cant": "rounding errors depend on size, site and lattice constant", "anchors": ["include/ieompp/lattices/periodic_chain.hpp:PeriodicChain::operator()", "include/ieompp/lattices/periodic_chain.hpp:PeriodicChain::closest", "include/ieompp/lattices/periodic_square_lattice.hpp:PeriodicSquareLattice::operator()", "include/ieompp/lattices/periodic_square_lattice.hpp:PeriodicSquareLattice::closest"]}
{"id": "C94", "title": "A program does what its command line says", "statement": "A program called with --name=value for any of its options uses exactly these values and its defaults for the others; the simulation runs with these parameters, and when it has ended the output file named by --out consists of the header and one line per measurement, whatever was in that file before. Otherwise it ends with an exception (a text that does not convert) or with status 1 (help, version).", "quantifier": "all command lines, environments, file systems, schedules of the parallel loops and portions in which streams write", "why_tests_cant": "the tests of the project call no program, and the space of command lines is unbounded", "anchors": ["src/hubbard/hubbard_real_1d_rk4.cpp:main", "src/hubbard/hubbard_real_1d_kinetic_rk4.cpp:main", "src/hubbard/hubbard_real_1d_rk4_coefficients.cpp:main", "src/hubbard/hubbard_real_1d_kinetic_rk4_coefficients.cpp:main", "src/hubbard/hubbard_real_1d_rk4_jump.cpp:main", "src/hubbard/hubbard_real_2d_rk4_jump.cpp:main", "src/hubbard/hubbard_momentum_1d_rk4.cpp:main"]}
{"id": "C95", "title": "Parameters without meaning are rejected", "statement": "A program called with a number of sites, a step width or an end time with which no simulation is possible reports an error instead of running into undefined behaviour or running forever.", "quantifier": "all command lines and all values of N, Nx, Ny, dt, t_end, measurement_interval", "why_tests_cant": "that a program never ends or has undefined behaviour cannot be observed by a test", "anchors": ["src/hubbard/hubbard_real_1d_rk4.cpp:main", "src/hubbard/hubbard_real_1d_kinetic_rk4.cpp:main", "src/hubbard/hubbard_real_1d_rk4_coefficients.cpp:main", "src/hubbard/hubbard_real_1d_kinetic_rk4_coefficients.cpp:main", "src/hubbard/hubbard_real_1d_rk4_jump.cpp:main", "src/hubbard/hubbard_real_2d_rk4_jump.cpp:main", "src/hubbard/hubbard_momentum_1d_rk4.cpp:main"]}
{"id": "C96", "title": "t_end and measurement_interval have an effect in every program", "statement": "Every program with the options t_end and measurement_interval simulates up to t_end and reports every measurement_interval steps.", "quantifier": "all programs and all values of the two options", "why_tests_cant": "a test would have to try every value", "anchors": ["src/hubbard/hubbard_real_1d_rk4.cpp:main", "src/hubbard/hubbard_real_1d_kinetic_rk4.cpp:main", "src/hubbard/hubbard_real_1d_rk4_coefficients.cpp:main", "src/hubbard/hubbard_real_1d_kinetic_rk4_coefficients.cpp:main", "src/hubbard/hubbard_real_1d_rk4_jump.cpp:main", "src/hubbard/hubbard_real_2d_rk4_jump.cpp:main", "src/hubbard/hubbard_momentum_1d_rk4.cpp:main"]}
{"id": "C97", "title": "The momentum-space basis works on a two-dimensional momentum space", "statement": "On the momentum space of a square lattice the three-operator basis for the external momentum q consists of c^+_q followed by one monomial per pair of momenta, found by get_3op_index, pairwise different, each referring to existing momenta only and with total momentum q modulo the reciprocal lattice.", "quantifier": "all sizes N x N and all external momenta q", "why_tests_cant": "the failing monomials are those whose sum hits the upper edge of the zone; a test of one q sees only some of them", "anchors": ["include/ieompp/models/hubbard_momentum_space/basis.hpp:Basis3Operator", "include/ieompp/lattices/periodic_square_lattice.hpp:operator()"]}
{"id": "C98", "title": "closest on a square lattice returns a nearest site", "statement": "For every position v, closest(v) of a two-dimensional periodic lattice returns, and the site it returns is at least as close to v as every periodic image of every site; in particular closest(lattice[i]) is i for every site i.", "quantifier": "all sizes Nx, Ny, both constructors, all positions (exact arithmetic)", "why_tests_cant": "the failing positions are half cells at the upper edge, which a test with lattice points does not meet, and rectangular lattices", "anchors": ["include/ieompp/lattices/periodic_square_lattice.hpp:closest", "include/ieompp/lattices/periodic_square_lattice.hpp:operator[]"]}
{"id": "C99", "title": "At half filling exactly the momenta with |k| <= pi/2 are initially occupied", "statement": "For every chain, with the Fermi energy 0 and J > 0, is_initially_occupied answers true exactly for the momenta k of the Brillouin zone with |k| <= pi/2 (what the library's own tests expect), whatever the rounding of the machine arithmetic and the schedule of the threads; in particular opposite momenta get the same answer.", "quantifier": "all numbers of sites N, all momentum indices and spins, all roundings of the arithmetic and accuracies of the cosine, all schedules", "why_tests_cant": "the answer at k = +-pi/2 is the sign of a rounding error: it differs between chain lengths (the tested ones are fine, 300 is not), between number types and from exact arithmetic", "anchors": ["include/ieompp/models/hubbard/dispersion.hpp:Dispersion", "include/ieompp/models/hubbard_momentum_space/excited_fermi_sea.hpp:is_initially_occupied", "include/ieompp/lattices/periodic_chain.hpp:operator[]", "include/ieompp/constants.hpp:Pi"]}
{"id": "C100", "title": "The log of a simulation tells the same story as its output file", "statement": "Logging does not influence the results. In the log file of every finished run the messages about measurements correspond one to one and in the same order to the rows of the output file, with the time and the value of the row, and the messages of the integrator are one pair per integration step, from t = k dt to t = (k+1) dt, as many as steps were made.", "quantifier": "all matrices, vectors, observables, step sizes, end times, measurement intervals and numbers of steps; the five kinds of simulation programs; loggers which treat lone messages literally or as format strings", "why_tests_cant": "one run gives one log; a measurement logged but not written, or a step logged twice, would appear only for particular intervals and end times", "anchors": ["src/hubbard/hubbard_real_1d_rk4.cpp:main", "src/hubbard/hubbard_real_1d_kinetic_rk4.cpp:main", "src/hubbard/hubbard_real_1d_rk4_jump.cpp:main", "src/hubbard/hubbard_real_2d_rk4_jump.cpp:main", "src/hubbard/hubbard_real_1d_rk4_coefficients.cpp:main", "src/hubbard/include/logging.hpp:Loggers"]}
{"id": "C101", "title": "Every log message shows the values it announces", "statement": "Each message of the programs is a well-formed format string with as many place holders as arguments, so that the logged text is the message with the values filled in, whatever the values and whichever way the logger treats messages without arguments; the number shown as percentage of non-zero elements is this percentage, and a file said to be opened is the one opened.", "quantifier": "all calls of info in the programs, all values of the arguments, all matrices, all paths, both treatments of messages without arguments", "why_tests_cant": "a defective message only shows up when that code is reached, and with some logger versions not at all (the error is swallowed)", "anchors": ["src/hubbard/real_space/periodic_chain.hpp:init_lattice", "src/hubbard/real_space/periodic_square_lattice.hpp:init_lattice", "src/hubbard/real_space/site_occupation.hpp:init_site_occupation", "src/hubbard/real_space/fermi_jump.hpp:init_fermi_jump", "src/hubbard/real_space/matrix.hpp:compute_matrix", "src/hubbard/momentum_space/momentum_space.hpp:compute_matrix", "src/hubbard/include/checkpoint.hpp:clean_output_file"]}
{"id": "C102", "title": "A Blaze matrix filled element by element has exactly the inserted elements", "statement": "After any sequence of matrix_insert calls with positions inside the shape, on an empty compressed matrix with either storage order, the matrix has the inserted values at their positions and zero elsewhere, independently of the order of the calls; a position used twice is reported by an exception. The same calls on an Eigen triplet list describe the same matrix.", "quantifier": "all shapes, storage orders, sequences of insertions of any length and order", "why_tests_cant": "all permutations of arbitrarily long sequences; the place of an element in its line depends on everything inserted before", "anchors": ["include/ieompp/types/blaze/matrix_insert.hpp:matrix_insert", "include/ieompp/types/eigen/triplet_list.hpp:matrix_insert"]}
{"id": "C103", "title": "A count on the command line is the number that was written", "statement": "If a program is started with --N=TEXT (or Nx, Ny, measurement_interval), then TEXT is a whole number in decimal notation and the program uses exactly this number; every other text is refused before any file is touched.", "quantifier": "all texts, all count options of all programs, all values below 2^64", "why_tests_cant": "infinitely many texts; the values at which the conversion wraps around are not among natural test inputs", "anchors": ["src/hubbard/include/cli.hpp:make_value", "src/hubbard/include/cli.hpp:parse_command_line_options", "src/hubbard/hubbard_real_1d_rk4.cpp:main", "src/hubbard/hubbard_real_2d_rk4_jump.cpp:main"]}
{"id": "C104", "title": "A number on the command line is the number that was written", "statement": "If a program is started with --J=TEXT (or any other option with a real value), it uses the number that TEXT denotes in decimal or scientific notation, rounded once; a text that denotes no number in the range of double is refused.", "quantifier": "all texts, all number options of all programs", "why_tests_cant": "infinitely many texts with signs, points and exponents", "anchors": ["src/hubbard/include/cli.hpp:make_value", "src/hubbard/include/cli.hpp:parse_command_line_options", "src/hubbard/hubbard_real_1d_rk4.cpp:main"]}
{"id": "C105", "title": "The coefficients stay bounded for every step width", "statement": "The exact coefficients are at most 1 in magnitude at all times, and their sum over the sites of a non-interacting chain has modulus 1; the coefficients a program prints are bounded independently of t_end as well, whatever dt it was given.", "quantifier": "all numbers of sites, couplings, step widths, end times and intervals", "why_tests_cant": "the growth per step can be arbitrarily small and shows only after arbitrarily many steps", "anchors": ["src/hubbard/hubbard_real_1d_kinetic_rk4_coefficients.cpp:main", "src/hubbard/hubbard_real_1d_rk4_coefficients.cpp:main", "include/ieompp/ode/rk4.hpp:RK4::step"]}
{"id": "C106", "title": "Sites and momenta that are equivalent by symmetry give the same results", "statement": "The kinetic, the complete and the normal-ordered matrix have the same elements between basis operators and between their images under every symmetry of the lattice; translations and reflections of a chain, and translations, reflections and the exchange of the coordinates of an N x N lattice are such symmetries. In the output of the coefficient programs mirror images have equal coefficients; with an even number of sites the sign of J only changes the sign of the coefficients on every other site and the sign of U only conjugates them in addition; changing the sign of all energies conjugates them. The Fermi jump on the N x N lattice is the same for (kx, ky) and (ky, kx), and for (-kx, ky) if kx is a momentum of the lattice.", "quantifier": "all lattice sizes, couplings, symmetries, step widths, times and thread schedules", "why_tests_cant": "the numbers of sites, couplings and momenta are unbounded and the equality must hold for all pairs of basis operators and every row of the output", "anchors": ["include/ieompp/models/hubbard_real_space/blaze_sparse.hpp:init_matrix", "include/ieompp/models/hubbard_real_space/blaze_sparse.hpp:init_kinetic_matrix", "include/ieompp/models/hubbard_real_space/blaze_sparse_no.hpp:init_matrix_no", "src/hubbard/hubbard_real_1d_rk4_coefficients.cpp:main", "src/hubbard/hubbard_real_1d_kinetic_rk4_coefficients.cpp:main", "src/hubbard/hubbard_real_2d_rk4_jump.cpp:main"]}
{"id": "C107", "title": "Kronecker deltas of numbers are equal exactly for equal numbers", "statement": "Two deltas made by make_kronecker from numbers compare equal if and only if they were made from the same two numbers, in either order.", "quantifier": "all pairs of values of every arithmetic type", "why_tests_cant": "unbounded domain; rounding of the texts shows only for special values", "anchors": ["include/ieompp/algebra/kronecker.hpp:make_kronecker", "include/ieompp/algebra/kronecker.hpp:Kronecker::operator==", "include/ieompp/algebra/anticommutator.hpp:anticommutator"]}
{"id": "C108", "title": "Results converge with the fourth power of the step width", "statement": "For every end time T there are a step width and a constant K such that with every smaller dt every number which a real-space program writes for a time up to T differs by at most K dt^4 from the exact value for that time.", "quantifier": "all lattice sizes, couplings, fillings, end times, step widths, intervals and executions of the parallel parts", "why_tests_cant": "a limit; tests can only compare finitely many step widths", "anchors": ["src/hubbard/hubbard_real_1d_rk4.cpp:main", "src/hubbard/hubbard_real_1d_rk4_jump.cpp:main", "src/hubbard/hubbard_real_2d_rk4_jump.cpp:main", "src/hubbard/hubbard_real_1d_rk4_coefficients.cpp:main", "src/hubbard/hubbard_real_1d_kinetic_rk4_coefficients.cpp:main", "include/ieompp/ode/rk4.hpp:RK4::step"]}
{"id": "C109", "title": "The numbers written by the chain programs in double arithmetic", "statement": "With every operation rounded to double - table of expectation values, matrix, integration, times, sums over threads - the programs for the chain in real space terminate, write exactly one row per measuring interval, the times are off by at most dt/16, and every number differs from its exact value (expectation value, filling, coefficient) by at most an explicit bound made of discretisation and rounding errors.", "quantifier": "all numbers of sites from 3, double parameters inside the stability region, fillings, end times up to 2^24 steps, intervals, executions of the parallel parts, implementations of std::sort and of std::sin accurate to 2^-53", "why_tests_cant": "an error bound over all inputs and all rounding histories; the exact values are not available to a test", "anchors": ["src/hubbard/hubbard_real_1d_rk4.cpp:main", "src/hubbard/hubbard_real_1d_kinetic_rk4.cpp:main", "src/hubbard/hubbard_real_1d_rk4_coefficients.cpp:main", "src/hubbard/hubbard_real_1d_kinetic_rk4_coefficients.cpp:main", "include/ieompp/models/hubbard_real_space/site_occupation.hpp:SiteOccupation", "include/ieompp/models/hubbard_real_space/expectation_value.hpp:ExpectationValue1DHalfFilled", "include/ieompp/ode/rk4.hpp:RK4::step"]}
{"id": "C110", "title": "The Fermi jump written by the programs in double arithmetic", "statement": "With every operation rounded to double - phases, table of expectation values, matrix, integration, times, sums over threads - the programs which write the Fermi jump terminate, write exactly one row per measuring interval, the times are off by at most dt/16, and every number is non-negative and differs from the exact Fermi jump by at most an explicit bound made of discretisation and rounding errors.", "quantifier": "all system sizes from 3 per direction, double parameters inside the stability region, fillings or Fermi momenta, end times up to 2^24 steps, intervals, executions of the parallel parts, implementations of std::sort and of std::sin and std::cos accurate to 2^-53", "why_tests_cant": "an error bound over all inputs and all rounding histories; the exact values are not available to a test", "anchors": ["src/hubbard/hubbard_real_1d_rk4_jump.cpp:main", "src/hubbard/hubbard_real_2d_rk4_jump.cpp:main", "include/ieompp/models/hubbard_real_space/fermi_jump/1d.hpp:FermiJump1D", "include/ieompp/models/hubbard_real_space/fermi_jump/2d.hpp:FermiJump2D", "include/ieompp/models/hubbard_real_space/expectation_value.hpp:ExpectationValue2DHalfFilled", "include/ieompp/ode/rk4.hpp:RK4::step"]}
{"id": "C111", "title": "The band structure written by the dispersion program in double arithmetic", "statement": "With every operation rounded to double, hubbard_dispersion_1d writes one row per momentum; the momenta are strictly increasing, stay inside [-pi, pi) and are off by at most 2^-48, the energies by at most 2^-47 from -2 cos k.", "quantifier": "all numbers of momenta up to 9*10^13, schedules of the parallel loop, implementations of std::cos accurate to 2^-53", "why_tests_cant": "an error bound over all sizes and rounding histories; the exact values are not available to a test", "anchors": ["src/hubbard/hubbard_dispersion_1d.cpp:main", "include/ieompp/models/hubbard/dispersion.hpp:Dispersion", "include/ieompp/lattices/periodic_chain.hpp:PeriodicChain"]}
{"id": "C112", "title": "The numbers of the kinetic theory program in double arithmetic", "statement": "With every operation rounded to double, hubbard_real_1d_kinetic_theory writes 10000 rows; the time of row k is off by at most 2^-45 from k/100, the complex number by at most 40000 eta + 2^-18 from the closed-form sum over Bessel functions at this time, whose imaginary part is zero; eta is the error of the Bessel functions.", "quantifier": "all executions of the parallel parts with up to 2^16 threads, implementations of std::sin accurate to 2^-53 and of the Bessel functions accurate to eta <= 1/8", "why_tests_cant": "an error bound over all schedules and rounding histories; the exact values are not available to a test", "anchors": ["src/hubbard/hubbard_real_1d_kinetic_theory.cpp:main", "include/ieompp/models/hubbard_real_space/expectation_value.hpp:ExpectationValue1DHalfFilled"]}
{"id": "C113", "title": "The file of hubbard_trivial in double arithmetic", "statement": "With every operation rounded to double, hubbard_trivial writes one row per step and one for the initial state, with the rounded time, the four coefficients of the exact solution (to within an explicit bound; 10^-6 for the shipped parameters) and the particle number Sum_ij h_i conj(h_j) e_ij, which is real.", "quantifier": "all double couplings, step widths inside the stability region, numbers of steps up to 2^24, orders of the additions in the matrix-vector product, contents of the work vectors", "why_tests_cant": "an error bound over all parameters and rounding histories; the exact values are not available to a test", "anchors": ["src/hubbard/hubbard_trivial.cpp:main", "src/hubbard/hubbard_trivial.cpp:particle_number", "include/ieompp/ode/rk4.hpp:RK4::step"]}
{"id": "C114", "title": "The numbers printed by the momentum space program in double arithmetic", "statement": "With every operation rounded to double, hubbard_momentum_1d_rk4 prints two numbers: the first is exactly the initial occupation (1 or 0), the second is the particle number after eight steps for the exact solution of the exact equations of motion, to within an explicit bound (0.002 for the default parameters, 16 momenta); the Fermi sea is the exact one except possibly at momenta with energy exactly zero.", "quantifier": "all numbers of momenta up to 1024, hopping J > 0 and interactions U that are double numbers, step widths with dt (6J + (N+1)/2 |U|) <= 2.8, schedules of the parallel loops, contents of the work vectors, implementations of std::cos accurate to 2^-53", "why_tests_cant": "an error bound over all parameters and rounding histories; the exact values are not available to a test", "anchors": ["src/hubbard/hubbard_momentum_1d_rk4.cpp:main", "include/ieompp/models/hubbard_momentum_space/blaze_sparse.hpp:init_matrix", "include/ieompp/models/hubbard_momentum_space/particle_number.hpp:ParticleNumber", "include/ieompp/ode/rk4.hpp:RK4::step"]}
{"id": "C115", "title": "The numbers in the result files", "statement": "Reading a result file as a table (rows end with a line feed, columns are separated by tabulators) gives back exactly the rows and columns that were measured; every number is the nearest decimal number with six significant digits, so its relative error is at most 5e-6, the order of two numbers is never reversed, numbers that differ by more than 1e-5 of the larger one are told apart, and reading a file and writing it again gives the same file. A number has an exponent exactly if it is written as less than 0.0001 or at least a million, a fraction never ends with a zero, and whole numbers below a million are written as their digits.", "quantifier": "all finite double numbers, rows and numbers of columns of all programs", "why_tests_cant": "all numbers, including ties, carries to the next power of ten and exponents", "anchors": ["src/hubbard/hubbard_real_1d_rk4.cpp:main", "src/hubbard/hubbard_real_1d_kinetic_rk4.cpp:main", "src/hubbard/hubbard_real_1d_rk4_coefficients.cpp:main", "src/hubbard/hubbard_real_1d_rk4_jump.cpp:main", "src/hubbard/hubbard_trivial.cpp:main", "src/hubbard/hubbard_dispersion_1d.cpp:main"]}
{"id": "C116", "title": "The times in the result files identify the rows", "statement": "The times in the first column of the result file of a simulation increase strictly from row to row and are the times of the measurements to within the rounding of six digits; a program run without options writes exactly the times 0, 1, ..., 10.", "quantifier": "all simulation programs, step widths, end times, measurement intervals, in double arithmetic", "why_tests_cant": "the times are accumulated with rounding and then rounded to six digits; collisions appear only in runs of a million steps", "anchors": ["src/hubbard/hubbard_real_1d_rk4.cpp:main", "src/hubbard/hubbard_real_1d_kinetic_rk4.cpp:main", "src/hubbard/include/common.hpp:has_time_interval_passed"]}
{"id": "C117", "title": "No infinity or NaN in the coefficients", "statement": "In IEEE binary64 arithmetic, with gradual underflow and overflow, the programs that write the coefficients on the chain never produce an infinity or a NaN, finish, and write every coefficient with an error of at most k (2^-41 + x^5/120 exp x) after k steps, x = dt times the largest row sum of the matrix, as long as x is at most the square root of 8.", "quantifier": "all chains of at least three sites that fit into memory, coupling constants of any size in the format, step widths from 2^-1000 to 2^900, up to 2^24 steps, measurement intervals", "why_tests_cant": "underflow and overflow depend on the magnitudes of all intermediate results of all steps", "anchors": ["src/hubbard/hubbard_real_1d_rk4_coefficients.cpp:main", "src/hubbard/hubbard_real_1d_kinetic_rk4_coefficients.cpp:main", "include/ieompp/ode/rk4.hpp:RK4", "src/hubbard/include/common.hpp:has_time_interval_passed"]}
{"id": "C118", "title": "No infinity or NaN in the site occupation", "statement": "In IEEE binary64 arithmetic, with gradual underflow and overflow, the programs that write the site occupation on the chain never produce an infinity or a NaN, finish, and write every number with an error of at most S e (2 + e) + r 2^-52 18 n (1 + e)^2 (kinetic program: 3 N in place of 18 n), e the error of the coefficients of C117, n the size of the basis, r the number of terms of the sum plus the number of threads plus 72, S the largest row sum of the absolute values of the expectation values, on any schedule of the parallel loops.", "quantifier": "all chains of at least three sites, fillings between 0 and 1, coupling constants of any size in the format, step widths from 2^-1000 to 2^900, up to 2^24 steps, measurement intervals, numbers of threads and schedules", "why_tests_cant": "underflow and overflow depend on the magnitudes of all intermediate results, and these on the schedule", "anchors": ["src/hubbard/hubbard_real_1d_rk4.cpp:main", "src/hubbard/hubbard_real_1d_kinetic_rk4.cpp:main", "include/ieompp/models/hubbard_real_space/site_occupation.hpp:SiteOccupation", "include/ieompp/models/hubbard_real_space/expectation_value.hpp:ExpectationValue1D"]}
{"id": "C119", "title": "No infinity or NaN in the Fermi jump", "statement": "In IEEE binary64 arithmetic, with gradual underflow and overflow, the programs that write the Fermi jump never produce an infinity or a NaN, finish, and write numbers that are not negative and differ from the Fermi jump of the exact solution by at most S e (2 + e) + r 2^-52 10 n (1 + e)^2, e the error of the coefficients, n the size of the basis, r the number of roundings and S the sum of the squares of the factors with which the coefficients enter the amplitude, on any schedule of the parallel loops and whatever the static vector contains.", "quantifier": "all chains and lattices of at least three sites in a direction, fillings between 0 and 1, Fermi momenta, coupling constants of any size in the format, step widths from 2^-1000 to 2^900, up to 2^24 steps, measurement intervals, numbers of threads and schedules", "why_tests_cant": "underflow and overflow depend on the magnitudes of all intermediate results, and these on the schedule", "anchors": ["src/hubbard/hubbard_real_1d_rk4_jump.cpp:main", "src/hubbard/hubbard_real_2d_rk4_jump.cpp:main", "include/ieompp/models/hubbard_real_space/fermi_jump/1d.hpp:FermiJump1D", "include/ieompp/models/hubbard_real_space/fermi_jump/2d.hpp:FermiJump2D", "include/ieompp/models/hubbard_real_space/expectation_value.hpp:ExpectationValue2DHalfFilled"]}
{"id": "C120", "title": "Result files in full binary64 arithmetic", "statement": "In IEEE binary64 arithmetic, with gradual underflow and overflow, whatever is integrated and measured, neither underflow nor overflow comes up in the time variable of a simulation, so the times of its rows are those of an arithmetic with unbounded exponents. The files that the programs hubbard_real_1d_kinetic_rk4, hubbard_real_1d_rk4 and hubbard_real_1d_rk4_jump write without options have, on every schedule of the parallel loops, exactly eleven rows whose times are the texts 0, 1, ..., 10; in the first of them every other number is the text 0.5, in the second and third the numbers read back differ from the exact expectation value and the Fermi jump of the exact solution by at most 0.0025 and 0.008, plus half a unit of the sixth digit.", "quantifier": "all step functions and measurements, step widths from 2^-1000 to 2^900, up to 2^24 steps, measurement intervals; for the files: all schedules, up to 2^16 threads, all implementations of sin and cos accurate to one unit roundoff, all ways to sort the triplets", "why_tests_cant": "the text depends on the rounding of every operation of a thousand steps and on the schedule", "anchors": ["src/hubbard/hubbard_real_1d_kinetic_rk4.cpp:main", "src/hubbard/hubbard_real_1d_rk4.cpp:main", "src/hubbard/hubbard_real_1d_rk4_jump.cpp:main", "src/hubbard/include/common.hpp:has_time_interval_passed"]}
{"id": "C121", "title": "Assertions in a build with assertions", "statement": "In a build in which the assertions are compiled in (the default: no build type is set), no assertion fails in the programs hubbard_real_1d_rk4, hubbard_real_1d_rk4_jump, hubbard_real_2d_rk4_jump and the two programs that write coefficients, and their runs are those of a build without assertions, as long as the lattice has sites and the filling lies between 0 and 1; otherwise the programs abort. The programs hubbard_real_1d_kinetic_rk4 and hubbard_momentum_1d_rk4 assert that the imaginary part of an accumulated sum is zero: this holds in exact arithmetic, and in floating point arithmetic no other assertion can fail.", "quantifier": "all numbers of sites, parameters, roundings that keep zero, implementations of sin and cos, numbers of threads, schedules of the parallel loops and numbers of steps", "why_tests_cant": "an assertion may fail in any element of the basis, at any step and for any order of the additions", "anchors": ["include/ieompp/models/hubbard_real_space/site_occupation.hpp:SiteOccupation", "include/ieompp/models/hubbard_momentum_space/particle_number.hpp:ParticleNumber", "include/ieompp/models/hubbard_real_space/expectation_value.hpp:ExpectationValue1DHalfFilled", "include/ieompp/ode/rk4.hpp:RK4", "include/ieompp/lattices/periodic_chain.hpp:PeriodicChain", "src/hubbard/hubbard_real_1d_rk4.cpp:main", "src/hubbard/hubbard_real_1d_kinetic_rk4.cpp:main", "src/hubbard/hubbard_momentum_1d_rk4.cpp:main"]}
{"id": "C122", "title": "The momentum space program in binary64 with underflow and overflow", "statement": "In IEEE binary64 arithmetic with gradual underflow and overflow, with up to 1024 momenta, J and |U| between 2^-1000 and 2^1000 (or U = 0) and a stable step width, hubbard_momentum_1d_rk4 meets neither an infinity nor a NaN and prints two numbers: exactly 1 or 0 for the occupation of the chosen momentum at the start, and after eight steps the occupation of this momentum in the evolved state, to within a given error that only depends on the number of momenta and the step width.", "quantifier": "all numbers of momenta up to 1024, binary64 parameters J and U, step widths, implementations of the cosine with error at most 2^-53, schedules of the parallel loops and initial contents of the workspace", "why_tests_cant": "one sum that leaves the range, or one product that underflows and changes the sign of an energy, spoils all results after it; tests sample a few parameters", "anchors": ["src/hubbard/hubbard_momentum_1d_rk4.cpp:main", "include/ieompp/models/hubbard_momentum_space/particle_number.hpp:ParticleNumber", "include/ieompp/models/hubbard_momentum_space/blaze_sparse.hpp:init_matrix", "include/ieompp/models/hubbard_momentum_space/basis.hpp:Basis3Operator", "include/ieompp/models/hubbard/dispersion.hpp:Dispersion", "include/ieompp/lattices/periodic_chain.hpp:PeriodicChain", "include/ieompp/ode/rk4.hpp:RK4"]}
{"id": "C123", "title": "The platform lines identify the build", "statement": "Two programs whose headers or --version texts have the same platform lines were built with the same versions of the project, of boost and of blaze, with the same compiler of the same version (for an Intel compiler: as long as its major version fits into 16 bits), for the same architecture, operating system, C++ library and byte order, and they run with the same maximal number of threads; the byte order is the one that boost finds.", "quantifier": "all version numbers, compilers, platforms, users, hosts and numbers of threads", "why_tests_cant": "a collision may occur between any two of infinitely many versions; a test runs on one platform", "anchors": ["include/ieompp/platform.hpp:Platform", "include/ieompp/string.hpp:compose", "src/hubbard/include/application.hpp:Application::print_version"]}
{"id": "C124", "title": "A field width applies to the printed object", "statement": "An operator printed after std::setw(w) takes max(w, length) characters: its text with the fill characters before or after it, so that columns of operators (and of matrix elements) are aligned.", "quantifier": "all widths, fill characters, adjustments, operators and matrices", "why_tests_cant": "the effect of a width depends on how an object is split into insertions, for every length of its text", "anchors": ["include/ieompp/algebra/operator/io.hpp:operator<<", "include/ieompp/types/function_matrix.hpp:operator<<"]}
{"id": "C125", "title": "hubbard_dispersion_1d in binary64, with underflow and overflow", "statement": "With 53-bit round-to-nearest arithmetic that can overflow and underflow, no infinity and no NaN comes up: the program writes N rows with strictly increasing momenta in [-pi, pi), every momentum within 2^-48 of the lattice momentum and every energy within 2^-47 of -2 cos k.", "quantifier": "all N between 1 and 9*10^13, all cosines good to 2^-53 whose values are doubles and all orders of the parallel loop that fills the table", "why_tests_cant": "every intermediate result has to stay inside the range of double, for every N; a test runs a few N", "anchors": ["src/hubbard/hubbard_dispersion_1d.cpp:main", "include/ieompp/lattices/periodic_chain.hpp:PeriodicChain", "include/ieompp/models/hubbard/dispersion.hpp:Dispersion"]}
{"id": "C126", "title": "hubbard_trivial in binary64, with underflow and overflow", "statement": "In IEEE binary64 arithmetic, with gradual underflow and overflow, no infinity and no NaN comes up in hubbard_trivial; it writes one row per step and one for the initial state, with the rounded time, the four coefficients of the exact solution (to within an explicit bound; 10^-6 for the shipped parameters) and the particle number Sum_ij h_i conj(h_j) e_ij, which is real.", "quantifier": "all binary64 couplings whose half is exact, step widths between 2^-1000 and 2^900 inside the stability region, up to 2^24 steps, orders of the additions in the matrix-vector product, contents of the work vectors", "why_tests_cant": "every intermediate result of every step has to stay inside the range of double, for all parameters and rounding histories", "anchors": ["src/hubbard/hubbard_trivial.cpp:main", "src/hubbard/hubbard_trivial.cpp:particle_number", "include/ieompp/ode/rk4.hpp:RK4::step"]}
{"id": "C127", "title": "hubbard_real_1d_kinetic_theory in binary64, with underflow and overflow", "statement": "In IEEE binary64 arithmetic, with gradual underflow and overflow, no infinity and no NaN comes up in hubbard_real_1d_kinetic_theory; it writes 10000 rows; the time of row k is off by at most 2^-45 from k/100, the complex number by at most 40000 eta + 2^-17 from the closed-form sum over Bessel functions at this time, whose imaginary part is zero; eta is the error of the Bessel functions.", "quantifier": "all executions of the parallel parts with up to 2^16 threads, implementations of std::sin accurate to 2^-53 and of the Bessel functions accurate to eta <= 1/8", "why_tests_cant": "an error bound over all schedules and rounding histories", "anchors": ["src/hubbard/hubbard_real_1d_kinetic_theory.cpp:main", "include/ieompp/models/hubbard_real_space/expectation_value.hpp:ExpectationValue1DHalfFilled"]}
{"id": "C128", "title": "Infinite and undefined step widths, end times and couplings are refused", "statement": "If a program is given an infinity or NaN as step width, end time, hopping or interaction, it refuses to run or still ends, with defined behaviour and with numbers in its rows.", "quantifier": "all texts for infinities and NaN, all combinations of finite and non-finite values of --dt, --t_end, --J and --U, all numbers of sites and measurement intervals", "why_tests_cant": "whether a time loop ends is a statement about all its rounds", "anchors": ["src/hubbard/include/common.hpp:has_time_interval_passed", "src/hubbard/hubbard_real_1d_rk4.cpp:main", "src/hubbard/hubbard_real_1d_rk4_coefficients.cpp:main", "src/hubbard/hubbard_real_1d_kinetic_rk4_coefficients.cpp:main", "include/ieompp/ode/rk4.hpp:RK4::step", "include/ieompp/models/hubbard_real_space/blaze_sparse.hpp:init_matrix"]}
{"id": "C129", "title": "The lookup of a position that is not finite is defined and ends", "statement": "operator() and closest of the chain and of the square lattice return a site, or report an error, for a position with a coordinate that is an infinity or NaN.", "quantifier": "all lattices, all arithmetics, all positions with a non-finite coordinate", "why_tests_cant": "whether the wrapping loops end is a statement about all their rounds", "anchors": ["include/ieompp/lattices/periodic_chain.hpp:PeriodicChain::operator()", "include/ieompp/lattices/periodic_chain.hpp:PeriodicChain::closest", "include/ieompp/lattices/periodic_square_lattice.hpp:PeriodicSquareLattice::operator()", "include/ieompp/lattices/periodic_square_lattice.hpp:PeriodicSquareLattice::closest"]}
{"id": "C130", "title": "The files of hubbard_dispersion_1d, hubbard_real_1d_kinetic_theory and hubbard_trivial", "statement": "In IEEE binary64 arithmetic, a reader of the text that hubbard_dispersion_1d writes finds 1024 rows of two numbers, momenta that are strictly increasing and, like the energies, right up to 0.00002; a reader of the file of hubbard_real_1d_kinetic_theory finds 10000 rows of three numbers, exactly k/100 as the time of row k, and the exact occupation and 0 up to the errors of the Bessel function and of six digits; a reader of the file of hubbard_trivial finds 2001 rows of eleven numbers, exactly i/100 as the time of row i and the exact amplitudes up to 0.000007.", "quantifier": "all implementations of cos, sin (error at most 2^-53) and of the Bessel functions (error eta), all orders of the terms of the sums, all executions on up to 2^16 threads, all earlier contents of the work space, both signs of every zero", "why_tests_cant": "a test sees one library, one compiler and one schedule", "anchors": ["src/hubbard/hubbard_dispersion_1d.cpp:main", "src/hubbard/hubbard_real_1d_kinetic_theory.cpp:main", "src/hubbard/hubbard_trivial.cpp:main"]}
{"id": "C131", "title": "The files of the coefficient programs, in binary64", "statement": "In IEEE binary64 arithmetic, a reader of the file of hubbard_real_1d_rk4_coefficients or hubbard_real_1d_kinetic_rk4_coefficients finds one row per measurement, in it the time and two numbers for every operator of the basis, in the order of the basis; the time and the coefficients are those of the exact solution up to the bounds of C117 and six significant digits.", "quantifier": "all lattice sizes from 3 on, all couplings that are numbers of the format, all step widths from 2^-1000 to 2^900 with a stable method, all end times up to 2^24 steps, all measurement intervals, all earlier contents of the work space, both signs of every zero", "why_tests_cant": "a test sees one parameter set; the file has 8225 columns by default", "anchors": ["src/hubbard/hubbard_real_1d_rk4_coefficients.cpp:main", "src/hubbard/hubbard_real_1d_kinetic_rk4_coefficients.cpp:main"]}
{"id": "C132", "title": "The output of hubbard_momentum_1d_rk4, in binary64", "statement": "In IEEE binary64 arithmetic, hubbard_momentum_1d_rk4 prints two lines: exactly 1 or 0 for the momentum that is initially occupied or empty, and the occupation after eight steps, up to the errors of C122 and six significant digits.", "quantifier": "all numbers of sites up to 1024, all couplings and step widths as in C122, all cosines with an error of at most 2^-53, all earlier contents of the work space, both signs of every zero", "why_tests_cant": "a test sees one parameter set and one library", "anchors": ["src/hubbard/hubbard_momentum_1d_rk4.cpp:main", "include/ieompp/models/hubbard_momentum_space/particle_number.hpp:ParticleNumber"]}
{"id": "C133", "title": "The site occupation programs refuse parameters that are not finite", "statement": "If hubbard_real_1d_rk4 or hubbard_real_1d_kinetic_rk4 is given an infinity or NaN as filling, coupling, step width or end time, it refuses to run or still ends, with defined behaviour and with numbers in its rows.", "quantifier": "all combinations of finite and non-finite values of --filling, --J, --U, --dt and --t_end, all numbers of sites from 3 on, all measurement intervals, all numbers of threads and all distributions and orders of the iterations of the parallel loops", "why_tests_cant": "whether one NaN reaches a sum over (N + N^3)^2 / 2 terms, distributed over threads, is a statement about all distributions", "anchors": ["src/hubbard/hubbard_real_1d_rk4.cpp:main", "src/hubbard/hubbard_real_1d_kinetic_rk4.cpp:main", "include/ieompp/models/hubbard_real_space/expectation_value.hpp:ExpectationValue1DHalfFilled", "include/ieompp/models/hubbard_real_space/site_occupation.hpp:SiteOccupation", "include/ieompp/types/number/complex.hpp:add_conjugate_products"]}
{"id": "C134", "title": "The Fermi jump programs refuse parameters that are not finite", "statement": "If hubbard_real_1d_rk4_jump or hubbard_real_2d_rk4_jump is given an infinity or NaN as filling, momentum component, coupling, step width or end time, it refuses to run or still ends, with defined behaviour and with numbers in its rows.", "quantifier": "all combinations of finite and non-finite values of --filling or of --kx and --ky, --J, --U, --dt and --t_end, all numbers of sites from 3 on (in two dimensions all square lattices), all measurement intervals, all numbers of threads and all distributions and orders of the iterations of the parallel loops", "why_tests_cant": "one NaN has to be followed through tables, phases and a double sum distributed over threads, for all distributions", "anchors": ["src/hubbard/hubbard_real_1d_rk4_jump.cpp:main", "src/hubbard/hubbard_real_2d_rk4_jump.cpp:main", "include/ieompp/models/hubbard_real_space/fermi_jump/1d.hpp:FermiJump1D", "include/ieompp/models/hubbard_real_space/fermi_jump/2d.hpp:FermiJump2D", "include/ieompp/models/hubbard_real_space/expectation_value.hpp:ExpectationValue2DHalfFilled"]}
{"id": "C135", "title": "The momentum-space program refuses parameters that are not finite", "statement": "If hubbard_momentum_1d_rk4 is given an infinity or NaN as J, U or dt, or a J so large that -2J is not a number, it refuses to run, or still prints, with defined behaviour, two particle numbers that are numbers.", "quantifier": "all combinations of finite and non-finite values of --J, --U and --dt, all numbers of sites up to 1024, all implementations of the cosine that have the sign of the cosine where the theorems need it, and all distributions and orders of the iterations of the two parallel loops", "why_tests_cant": "an energy that is NaN changes which modes are occupied, and from there the table and the matrix; the second number depends on eight integrator steps through the whole matrix, for every number of sites", "anchors": ["src/hubbard/hubbard_momentum_1d_rk4.cpp:main", "include/ieompp/models/hubbard/dispersion.hpp:Dispersion", "include/ieompp/models/hubbard_momentum_space/blaze_sparse.hpp:BlazeSparse", "include/ieompp/models/hubbard_momentum_space/particle_number.hpp:ParticleNumber", "include/ieompp/models/hubbard_momentum_space/excited_fermi_sea.hpp:ExcitedFermiSea"]}
{"id": "C136", "title": "Infinities and NaN in the result files can be told from numbers", "statement": "A reader of the output can tell which entries are numbers, which are infinite and which are undefined: the file is the table that was written, the text of a finite entry is the nearest number with six digits, that of any other is one that stands for that infinity or for NaN and cannot be read as a number, and an entry cut short by a crash is neither. The programs accept what they wrote as the same value of an option. A run whose coupling is not finite can be recognised by its output.", "quantifier": "all values including infinities and NaN with both signs, all tables and headers; all numbers of sites (from 3 on), couplings, step widths, end times, measurement intervals, executions of the parallel loops", "why_tests_cant": "the texts of all values and all tables, and the contents of the files for all parameters", "anchors": ["src/hubbard/hubbard_real_1d_rk4.cpp:main", "src/hubbard/hubbard_real_1d_rk4_coefficients.cpp:main", "src/hubbard/hubbard_real_1d_rk4_jump.cpp:main", "src/hubbard/hubbard_real_2d_rk4_jump.cpp:main", "src/hubbard/hubbard_momentum_1d_rk4.cpp:main"]}
