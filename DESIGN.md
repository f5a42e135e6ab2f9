# Formal model of f-koehler/ieompp in Lean 4 — design

## Layout

* `lean/Verif/Model/*.lean` – the model: total, (mostly) computable Lean functions, one per C++ function,
  each with a comment citing the file and the lines in /repo and naming every simplification.
* `lean/Verif/Spec/*.lean` – small specifications, independent of the model's helpers
  (CAR algebra, lexicographic order, ring distance, occupation-number states, quasi-free states ...).
* `lean/Verif/Lemmas/*.lean` – helper lemmas.
* `lean/Verif/Props/*.lean` – the property theorems and, beside each, `example`s that a concrete
  non-trivial case meets the hypotheses; plus witnesses for the findings (properties the code violates).
* `lean/Verif/Props/Instances.lean` – concrete cases for theorems whose own files have none (shipped parameters with infinities allowed, assertions,
  a ring of four sites, a matrix file, two threads).
* `lean/Verif/Props/RepoTests.lean` – validation of the reading of the code: expected values from `/repo/tests` (which are known of
  the real program) evaluated on the model, e.g. the whole table of non-vanishing expectation values for three momenta. Tests, not
  claims; nothing in the manifest refers to them.
* `properties.jsonl`, `MANIFEST.json`, `seeded/LOG.jsonl` – the property list, the claims, the mutation log.

## Trusted base

* Lean 4.33.0's kernel. Axioms: at most `propext`, `Classical.choice`, `Quot.sound`. No own axioms,
  no compiled-code reduction.
* The reading of the C++ text: the code is never compiled or run here.
* Numbers: `double` is modelled as an exact field (`ℝ`, `ℂ`, or any linear ordered field / commutative ring, as
  stated per theorem), with rounding in the `*Float` models. Underflow and overflow are modelled in `Model/Binary64`, `Model/Binary64Observables` , `Model/Binary64Momentum` and `Model/Binary64Small` (C117–C120, C122, C125–C127: an infinity ends the model);
  calculations with infinities and NaN are modelled in `Model/Extended` and `Model/ExtendedProgram` (C104, C128, C129: option texts, time loops, coefficient programs, lattices), nowhere else.
  `std::uint64_t` / `std::size_t` arithmetic is modelled on `Nat`, where a subtraction below zero is an explicit failure
  or a hypothesis excludes it; that nothing wraps around above 2^64 is C87.
* Undefined behaviour (out-of-range vector access, `front()` of an empty vector, appending to a container from itself,
  float→unsigned of a negative number, blaze `append` out of order or beyond capacity) is a distinct outcome
  (`none`) in the model. `assert` is modelled as a precondition; the programs with their assertions are C121.
* `std::sort` is modelled by its specification (any permutation sorted with respect to the comparator),
  `std::lower_bound` by the partition point, `std::copy`/`back_inserter` by append.
* OpenMP: a parallel loop is modelled as an arbitrary assignment of iterations to threads in arbitrary order, with
  thread-private accumulators, as in the code. Data races are not modelled beyond checking disjointness of writes.
* File system: a map from paths to contents with atomic single operations (create/truncate, append, rename).
* Templates: a class template is modelled by a polymorphic definition. Code that cannot be instantiated at all
  (it does not compile) is recorded below and modelled as evidently intended, when stated so.

## Plan per property

| id | modelled | proof |
|----|----------|-------|
| C01 | `Operator` generic (list of indices), 1-index, 2-index | case analysis; the three agree through the embedding into index lists |
| C02 | `conjugate`, `get_conjugate`, `is_conjugate` | case analysis |
| C03 | comparison helpers incl. the `I..N` recursion | induction over the index list; spec: lexicographic order with creators first |
| C04 | `Monomial` as list | list induction; spec: `(l.map †).reverse` |
| C05 | product; `*=` with explicit capacity and aliasing | UB witness for self-multiplication, partial theorem for distinct operands |
| C06 | `commutate` as double loop over k,l | induction on words in an arbitrary ring satisfying CAR; CAR realised by a Jordan–Wigner Fock space |
| C07 | `anticommutates` | CAR for ⇒, Fock space non-triviality for ⇐ |
| C08 | symbolic indices, `AnticommutatesHelper`, `AnticommutatorHelper`, `Prefactor` | C06 after substitution, deltas evaluated |
| C09 | `Kronecker` | case analysis over a linear order |
| C10 | `order_kroneckers` with a relational `std::sort` | strict weak order on ordered deltas; value preserved; canonicity refuted by a witness |
| C11 | `Prefactor` products | evaluation homomorphism |
| C12 | `TermSmaller/Greater` | induction over equal-length words |
| C13 | `copy_as_unique_terms` (with the evident method name) | insertion invariant by induction over the input |
| C14 | `Term` products / conjugate | evaluation in a star algebra |
| C15 | counters | list induction; each commutator term drops a conjugate pair |
| C16 | `TripletList` | loop invariant; relational sort |
| C17 | `IntegerIterator` | arithmetic; `-=` refuted by a witness, partial theorem for the rest |
| C18–C21 | `PeriodicChain` over an ordered field with floor | `omega` for indices, floor/round lemmas for positions, wrap loops as least-index iteration; boundary findings as witnesses |
| C22–C23 | `PeriodicSquareLattice` | as chain; failures for Nx ≠ Ny as witnesses |
| C24–C25 | bases | bijection with mixed-radix indices |
| C26 | blaze append as checked state machine | strictly increasing columns per row; N<3 refuted by witnesses |
| C27–C28 | matrix rows as finite sums in a CAR algebra | operator identities; remainder stated explicitly; orthogonality under the normalised trace |
| C29 | matrix entries as a function | symmetry lemma per pattern |
| C30 | momentum-space rows | operator identity for row 0, plane-wave Hamiltonian |
| C31 | `_no` rows | refuted by witness; what holds is partial |
| C32–C33 | `ExcitedFermiSea` state machine | refinement to occupation sets by induction over operations; return value refuted |
| C34–C35 | table constructor and particle number | counting/uniqueness; reality by symmetry |
| C36–C37 | site occupation | Wick expansion as spec; Finset sums; schedule = any list partition |
| C38 | jump | square modulus; OOB and static-size UB as witnesses |
| C39–C40 | tables and dispersion | arithmetic; bounds from |cos| ≤ 1 |
| C41–C42 | number helpers, matrix checks | field identities; generic hermiticity refuted |
| C43–C44 | RK4, multiply_assign with a static-buffer state | history invariant; polynomial identity in the matrix algebra |
| C45 | time loop in exact arithmetic (`simulate`) | induction over steps; the output is the list of multiples of the interval |
| C46 | `checkpoint`, counter, restart | crash points = prefixes of the list of file operations |
| C47–C48 | `getline` stream model, skippable-line recogniser, `clean_output_file` | non-termination is an outcome of `whileLoop` (no step count makes the condition false) |
| C49–C50 | `vector.hpp`, `hubbard_real_1d_kinetic_theory.cpp` | power of −i by induction |
| C51 | `io/eigen/sparse.hpp`, `io/triplet_list.hpp` with token streams | every written file is refused; well-formed files read correctly |
| C52, C54, C57 | `file_header.hpp`, `tuple.hpp`, `operator/io.hpp`, `monomial/io.hpp` as functions to character lists | injectivity of the printed text by list induction |
| C53 | `types/eigen/triplet_list.hpp` | sort by its specification |
| C55 | RK4 with the Liouvillian | norm of the RK4 polynomial of a skew-Hermitian matrix |
| C56 | closed form with Bessel functions (defined by their power series) | derivative and recurrence of the series |
| C58, C60–C64 | whole programs: lattice, basis, matrix, RK4, observable and output composed | refinement: loop lemma (C45) + RK4 local error + Grönwall-free telescoping; ODE solution `exp(tM)` as spec |
| C59 | observable with the program's table | Slater determinants: bounds from 0 ≤ P ≤ 1; refuted for the program's table |
| C65 | `hubbard_dispersion_1d.cpp` | arithmetic |
| C66–C67 | commutator programs, `term/io.hpp`, `prefactor.hpp` printing | value of the printed list = commutator in every CAR algebra; injectivity of printing |
| C68–C71 | `cli.hpp`, `application.hpp` with boost's parser and `store` | induction over the parsed options and over the lines of the response file |
| C72 | `types/eigen/init.hpp` | loop invariants |
| C73 | the time loop of C45 with every operation rounded by a function `fl` with relative error `u` | error of the accumulated time by induction; the measured steps are unchanged below an explicit bound |
| C77 | positions, lookup and momentum-space basis with every operation rounded by `fl` (also IEEE double: 53 digits, ties to even) | error bounds through at most two rounds of each wrapping loop; refuted for sums in real space |
| C78 | `read_vector_from_checkpoint` on the disk left by the constructor (any part of the header flushed) | the option is not declared (list of all programs' options); otherwise the copying loop of C47 diverges on a file of comments |
| C79 | names, options and defaults of all programs; constructor of `Application` | the parser accepts settings; `store` succeeds on distinct keys; exact condition for the exit |
| C80 | same | comparison of the paths for all pairs of programs; one pair refutes it |
| C81 | the parallel sums of C37/C38 with every addition and product rounded | error bound carried through every schedule; a vector for which the result depends on the number of threads |
| C82 | `step`, `multiply_assign` and the sparse product with every operation rounded | calculus of relative errors in the Euclidean norm (Schur test), contraction property of C55, norm conservation of the exact flow |
| C83 | `Platform::user/host`, `Loggers::init`, `print_help`, `print_version`, order of the calls in the constructor | case analysis on the machine, C79 for the settings |
| C84 | all `#pragma omp parallel for` loops as loads and stores of threads (`Model/Threads.lean`) | invariant over the steps of the machine: each thread still computes what it would compute alone; then the links to the statement-level models |
| C85 | the static work vectors of `step`, `multiply_assign`, `FermiJump::operator()` on the same machine | both callers store to the same static element in every complete execution; explicit interleavings for the wrong results |
| C86 | `p *= p`, `t *= t`, `commutate(c[i], c[j], c)` with the capacity of the vectors (`Model/Aliasing.lean`) | induction over the copied range and over the pairs of the loops: defined exactly when no reallocation happens before the last read |
| C87 | all index arithmetic of lattices, bases, reservations in `BitVec w` (`Model/Width.lean`) | no intermediate result exceeds `2^w`, so the unbounded model is refined; beyond the limit explicit collisions |
| C88 | all `operator<<` as sequences of insertions into a stream with format settings (`Model/StreamFormat.lean`) | induction over the insertions; refuted for `FunctionMatrix` |
| C89 | the effects of the programs (log, insertions, flush, close) recorded along the time loop of C45; a buffered stream which may be written at any moment (`Model/Durability.lean`) | exact characterisation of the possible files (`run_iff`), invariant over all prefixes of the effects |
| C90 | the same with opening and writing that may fail | refuted for all runs; prefix invariant proved |
| C91 | the same; programs without flush | refuted for all rows; complete lines proved |
| C92 | the wrapping loops of `operator()` and `closest` of both lattices with rounded arithmetic (`Model/LatticeFloat.lean`) | progress of at least `L - u max(|v|, L)` per round; refuted beyond 2^54 periods by absorption in 53 digits |
| C93 | constructors, `operator[]`, `operator()` of the square lattice with rounded arithmetic | coordinate by coordinate from the lemmas of C77 |
| C94 | `main` of all seven programs: constructor of the application, `as<T>()`, loop, output (`Model/Main.lean`) | composition of C68-C80, C58-C65 and C89-C91; invariant of `store` for the converted values |
| C95 | the same | case distinction over the parameters, `simulateM_nonpos` for the endless loop; refuted |
| C96 | the same | `momentum1dRk4` does not depend on the two options; refuted |
| C97 | constructor of `Basis3Operator` of the momentum space with `PeriodicSquareLattice` (`Model/MomentumBasis2D.lean`) | closed form of the lookup of `k1+k2-q` (C23); the equivalence by exhibiting the pair hitting the edge |
| C98 | `closest` of `PeriodicSquareLattice` (`Model/Square.lean`), spec `IsNearest2` | the search minimises the two coordinates separately (`square_search`, `isNearest2_iff`), each axis as for the chain (`axis_real`, `axis_momentum_iff`, `axis_wrong`) |
| C99 | `Dispersion` and `is_initially_occupied` with rounding (`Model/FermiFloat.lean`), spec `InFermiSea`, `FermiPoint`, `double` | sign of the energy is the sign of the cosine of the rounded momentum (`occupiedF_iff`); error bound on the momentum against the gap π/(2N); explicit `double` evaluation at the Fermi points for N = 2^m and N = 300 |
| C100 | the time loops with their log calls and a formatter after the documentation of fmt (`Model/Log.lean`), spec `Spec/Log.lean` (templates, lines of a measurement and of a step) | erasing the log gives the loop of C45; invariant over the iterations of the loop: lines of each logger as a function of the rows written and the steps made |
| C101 | all 165 calls of `info`, extracted from the sources by `tools/gen_logcalls.py` (`Model/LogCalls.lean`) | the formatter succeeds exactly on format strings of templates with enough arguments (`format_iff`); a decision procedure for calls in order (`check_iff`), evaluated on all calls |
| C102 | `matrix_insert` for Blaze, with the contract of `CompressedMatrix::insert` (`Model/BlazeInsert.lean`) | invariant: every line is sorted and a permutation of the inserted elements of that line; sorted permutations are equal |
| C103 | `boost::lexical_cast<uint64_t>` behind the options of type `uint64_t` (`Model/LexicalCast.lean`), specification `Spec/LexicalCast.lean` (decimal notation as an inductive relation) | parser equivalent to the relation; false for negative numbers (`count_negative`), exact: `count_iff` |
| C104 | `boost::lexical_cast<double>`, as above; the texts for infinities and NaN (`Model/Extended`) | parser equivalent to the relations `DecimalText` and `SpecialText`; program level through C79; refuted for `inf`, `nan` |
| C105 | the coefficient programs (`Model/JumpProgram.lean`) | the vector of ones is an eigenvector of the kinetic matrix, hence of every Runge-Kutta step; its amplification factor in closed form; stability (C55) for the other direction; for the complete program the spectral theorem gives an orthonormal basis of eigenvectors in which every step is diagonal (`Props/StepWidthExact.lean`) |
| C106 | the matrices and the coefficient and jump programs | a symmetry of the sites permutes the basis; the matrix elements are equal; the Runge-Kutta step commutes with signed permutation matrices and with complex conjugation |
| C107 | `make_kronecker` for numbers (`Model/KroneckerNumber.lean`): the texts of `std::to_string` | injectivity of decimal representations; the text is cut at the point |
| C108 | the real-space programs | uniform version of the error bounds of C58, C61, C62: inside the stability region the error is linear in the time and of fourth order in `dt`; the rows go at most one step beyond the end time |
| C109 | the real-space chain programs in `double` arithmetic (`Model/ProgramFloat`) | every operation on `double` rounded by `fl`; running error analysis: table of expectation values (20 u), coefficients of the double sum (67 roundings), products and sums over threads, Runge-Kutta steps (C82), times (C73); `IsFlow` and quasi-free states as in C58 |
| C110 | the programs which write the Fermi jump in `double` arithmetic (`Model/ProgramFloat`) | as C109, with the phases `exp(i k x)` through `std::sin` and `std::cos`, the table on the square lattice and the square of the absolute value of a complex sum over threads |
| C111 | `hubbard_dispersion_1d` in `double` arithmetic (`Model/SmallProgramsFloat`) | errors of the lattice (C77), `double π`, monotonicity of rounding for the order and the interval |
| C112 | `hubbard_real_1d_kinetic_theory` in `double` arithmetic (`Model/SmallProgramsFloat`) | the Bessel functions are 1-Lipschitz and bounded by 1; parallel sums as in C81 |
| C113 | `hubbard_trivial` in `double` arithmetic (`Model/SmallProgramsFloat`) | `rk4_total_error` (C82) for the dense matrix, the error of the double loop, and the closed form of the imaginary part for the exact solution |
| C114 | `hubbard_momentum_1d_rk4` in `double` arithmetic (`Model/MomentumProgramFloat`) | errors of energies (C77, C99) and matrix elements; the flow of a perturbed Hermitian matrix (`Props/FlowPerturbation`); Runge–Kutta rounding (C82); Schur's test for the measured form (`Props/FormSchur`), row sums of the table (`Props/MomentumRows`); the size of the wrong part from a short-time expansion of a level coupled to N² others (`Props/StarFlow`, `Props/MomentumExact`, `Props/MomentumShipped`) |
| C115 | the text of the result files (`Model/OutputText`: conversion `%g` with precision 6, rows and columns) against `Spec/OutputText` (nearest number with six digits, cells of a table) | the digits from `Int.log` and rounding to even, carries; the grammar of C103 for the text |
| C116 | the first column of the result files: the times of `simulateF` (C73) written as in C115 | induction over the loop (`simulateF_times`: the times do not depend on what is integrated), error of the accumulated times, gap of the rounded numbers; counterexample with a million rows |
| C117 | the programs of C109 that write coefficients with a rounding that can underflow and overflow (`Model/Binary64`), the format itself in `Spec/Binary64` (its rounding functions are characterised as nearest, ties to even, in `Props/Binary64Nearest`) | error analysis with an absolute error of `u * tiny` per operation, a bound of all intermediate results of a step, induction over the steps |
| C118 | the programs of C109 that write the site occupation with a rounding that can underflow and overflow (`Model/Binary64Observables`) | error analysis relative to a bound that is never below the smallest normal number; the sums of the parallel loops with one absolute error per addition; C117 for the vectors |
| C119 | the programs of C110 with a rounding that can underflow and overflow (`Model/Binary64Observables`) | as C118; the static vector by an invariant of the time loop (`SettingR.simulateState`); the table of the square lattice with quotients; the phases |
| C120 | no new definitions: the programs of `Model/Binary64Observables` and the text of `Model/OutputText` | iterates of the two time loops agree as long as the times are normal numbers; the bounds of C118 and C119 with the default parameters; the text of numbers near 1/2 and near integers (C115) |
| C121 | `Model/Assertions`: the functions and programs with their assertions, `Chk` = outcome or failed assertion | the operators of the basis have the asserted shape; without the symmetric loops the imaginary part is a sum of rounding errors, with them it is zero; a simulation argument links the two families of programs |
| C122 | `hubbard_momentum_1d_rk4` with a rounding that can underflow and overflow (`Model/Binary64Momentum`) | sums of numbers of the format lie on its grid and are rounded as without a bound on the exponent (`Props/Binary64Grid`), so that lattice, basis, energies and matrix are those of C114; Runge–Kutta as C117; the table sum relative to a bound that is never below the smallest normal number |
| C123 | the texts of `platform.hpp` as functions of what the preprocessor knows (`Model/PlatformTexts`) | decimal numbers are injective and contain no point; the texts of different branches differ in one of the first characters |
| C124 | as C88 | only the first of the insertions is padded; lengths |
| C125 | `hubbard_dispersion_1d` with the partial rounding of C117 (`Model/Binary64Small`) | every operation is in the normal range or exact, so the run is the run of C111 |
| C126 | `hubbard_trivial` with the partial rounding of C117 (`Model/Binary64Small`) | the dense matrix as a sparse one with full rows, `SettingR` of C117; the double loop with an absolute error per operation |
| C127 | `hubbard_real_1d_kinetic_theory` with the partial rounding of C117 (`Model/Binary64Small`) | as C112, with the parallel sums of C118 |
| C128 | `double` with infinities and NaN (`Model/Extended`), the time loop with them, the two coefficient programs with them (`Model/ExtendedProgram`), multiplication of complex numbers with the recovery of C99 Annex G | invariants of the loop; absorption of `dt` in 53 digits; NaN is absorbing and every row of the matrix meets a zero or NaN of the vector |
| C129 | the lookups of both lattices with infinities and NaN (`Model/Extended`) | an infinity is a fixed point of both wrapping loops, NaN passes both |
| C130 | nothing new: the programs of C125–C127 and the text of C115 | the numbers of C125–C127, their six digits computed from the bounds |
| C131 | nothing new: the programs of C117 and the text of C115 | the numbers of C117, and the error of six digits for both parts of a complex number |
| C132 | the standard output of the momentum program (`Model/MomentumText`) | the numbers of C122 and the error of six digits |
| C133 | the two site occupation programs over numbers, infinities and NaN (`Model/ExtendedOccupation`) | every term of the sums is defined, one term of the first loop is NaN, and NaN stays in the partial sum of its thread and in the total; term by term comparison with C118 |
| C134 | the two Fermi jump programs over numbers, infinities and NaN (`Model/ExtendedJump`) | every phase and every expectation value is defined; with a non-finite filling or momentum one term of the sum is NaN, which stays; the coefficients as in C128 |
| C135 | `hubbard_momentum_1d_rk4` over numbers, infinities and NaN (`Model/ExtendedMomentum`) | energies are all NaN or infinite together; the comparison with the Fermi energy fixes the sea and the table; every row of the matrix holds an entry of column 0 or of its own diagonal, so after one step the whole vector is NaN |
| C136 | `operator<<` and the rows for values that may be infinite or NaN (`Model/SpecialOutput`) | the special texts are no decimal texts (first character); cells by the separators; the outcomes of C128, C133–C135 give the files |




| C74–C76 | accessors, traits, symbols | recursion over index lists; finite case analyses over type constructors with universally quantified sizes |

The models with rounding (C109–C114) and the exact models (C58–C65) are two sets of definitions of the same functions. `Props/FloatReduction` proves that with `fl = id`, exact `sin`, `cos` and π each program of the first set equals the program of the second set, for every execution, so that they cannot drift apart.

## What is modelled and what is not

Modelled, function by function (each definition cites its lines): everything under `include/ieompp/algebra`, `symbolic`,
`lattices`, `iterators`, `models`, `ode`, `io`, `types` (numbers, triplets, function matrices, checks, traits, Eigen
initialisation and triplet list, multiply-assign, dot product, names, descriptions), `tuple.hpp`, `string.hpp`,
`exception.hpp`, and the programs of `src/hubbard` with their headers (command line, checkpoint, time loop, output).

Not modelled: the internals of `spdlog` and `fmt` (C100, C101 model the calls and the documented formatting), wall-clock timers, the internals of Blaze/Eigen (by their documented element access, `append`/`insert`
and product), `BlazeSerialisation` (a matrix or vector archive is an opaque value that is read back as written), thread timing, build
scripts, tests and python tools. Rounding is modelled only where a property says so (C73 and later ones named so); everything else is
exact arithmetic. Overflow of doubles is modelled for C117–C120, C122, C125–C127, C130–C132, and with infinities and NaN as values for C128, C129, C133–C136; overflow of the index types is (C87).
`tools/check_citations.py` checks that every definition of the model cites existing lines of existing files.

## Findings: where the code does not do what its user relies on

Each is a theorem in `Props` (name in parentheses), or a line of source that cannot be compiled (then only noted here).

* `m *= m` with a full buffer is undefined (`monomial_mulAssignSelf_ub`).
* `order_kroneckers` is not canonical: it sorts before/after ordering each delta inconsistently (`orderKroneckers_not_canonical`).
* `IntegerIterator -= n` adds n (`integerIterator_subAssign_wrong`).
* Real-space chain and square lookups are undefined in the last half cell (`chain_lookup_real_ub`, `square_lookup_real_ub`), the square
  lattice in momentum space returns a site outside the lattice (`square_lookup_momentum_out`), `closest` is wrong there
  (`chain_closest_momentum_wrong`), rectangular lattices are wrong everywhere (`square_rect_broken`, `expectationValue2D_rect_ub`, `expectationValue2D_rect_wrong`).
* Lattices with fewer than three sites per direction violate Blaze's `append` precondition (`realMatrix_small_chain_ub`).
* The `_no` matrix has the coefficients U and U⟨n⟩ exchanged (`noMatrix_one_row_wrong`) and three wrong signs in the three-operator rows (`noMatrix_three_row`).
* In double arithmetic the real-space lookup of `lattice[5] + lattice[1]` (7 sites, dx = 0.3) is undefined (`realF_lookupF_sum_ub`).
* A Blaze `CompressedVector` is not an `IsBlazeVector` (`compressedVector_wrong`).
* The momentum-space table of expectation values uses 2xyz+δx, the matrix 2xyz−δx (`nonVanishing_wrong`, `momentum1dRk4_wrong`). Consequence for `hubbard_momentum_1d_rk4`: the printed number is right only if U = 0 or the momentum N/2 is empty (for N ≥ 2: J ≤ 0); otherwise it exceeds the particle number by 2ν(8 U dt)² to leading order (`momentum1dRk4_right`, `momentum1dRk4_excess`, `momentum1dRk4_occupied_wrong`; with the shipped options in double arithmetic by at least 0.003: `momentum1dRk4_shipped_wrong`).
* `apply_monomial` on a vanished state returns false (`fermiSea_return_wrong`).
* Fermi jump constructors write outside their vectors (`fermiJump_reserve_ub`, `fermiJump_history_partial`).
* The generic `is_hermitian` compares an element with its own conjugate (`isHermitianGeneric_wrong`).
* The final time is measured only when the interval divides the number of steps (`simulate_final_not_measured`); dt = 0 and dt < 0 loop for
  ever (`simulate_diverges`); with rounding there can be one step more (`simulateF_extra_step`), and time can stop (`simulateF_stagnates`).
* Checkpoints of a restarted process overwrite older ones (`checkpoint_restart_overwrites`, …).
* `clean_output_file` drops line breaks and can hang (`clean_destroys_rows`, `cleanOutputFile_diverges`), `next_line` hangs at the end
  of the file (`nextLine_diverges`).
* Written sparse matrices cannot be read (`matrix_roundtrip_wrong`), `read_triplet_list` keeps nothing (`readTripletList_noop`).
* Eigen triplet list: `cols()` and the comparators (`tlist_cols_wrong`, `tlist_sort_wrong`).
* `print_tuple` prints the last component repeatedly (`printTuple_wrong`).
* The kinetic theory program ignores the periodic boundary (`theory_ring_wrong`).
* The table of the real-space programs is not that of a fermionic state: at half filling, on every ring of at least three sites some orbital has an occupation outside [0, 1] (`occupation_half_filling_iff`).
* `hubbard_trivial`'s particle number lacks a complex conjugation (`trivial_wrong`).
* A response file that cannot be opened gives an endless loop (`construct_diverges`); header and `out` ignore the response file
  (`header_wrong`, `output_path_wrong`); runs share files (`paths_shared`).
* Restart: `--checkpoint=<path>` is announced by the help text but not declared (`checkpoint_option_rejected`, `restart_throws`); starting
  a program deletes the rows of an earlier run (`restart_loses_rows`); `read_vector_from_checkpoint` would hang (`restart_hangs`).
* Two programs have the same `Application::name` and overwrite each other's default output (`default_outputs_wrong`).
* The parallel Fermi jump depends on the number of threads beyond its last bits: for the coefficients (0, 1, 2^53, -2^53) it is 0 with one
  thread and 1 with two (`fermiJump_threads_wrong`).
* Without the environment variable LOGNAME every program has undefined behaviour at its start (`start_without_logname`).
* `RungeKutta4::step`, `multiply_assign` and `FermiJump*D::operator() const` are not thread-safe: overlapping calls always race on the static work vectors (`step_concurrent_race` ...).
* `p *= p`, `t *= t` and `commutate(c[i], c[j], c)` read through dangling references as soon as the container reallocates before the last read (C86).
* A square lattice with more sites than the index type holds is accepted when the wrapped product is not 0; sites then share indices (`Width.square_index_collides`).
* Printing a `FunctionMatrix` switches the stream permanently to fixed notation with one digit and explicit signs (`StreamFormat.matrix_format`).
* I/O errors of the output file go unnoticed: the program runs to the end and reports every measurement as finished (`Durability.write_errors_silent`, `open_failure_silent`). A crash can tear a row into one that reads like another number (`crash_torn`).
* The lookup of a position hangs for positions more than 2^54 periods away from zero (`chain_lookup_hangs`): `v += length` no longer changes `v`.
* No program checks its parameters: `--N=2` is undefined behaviour and `--dt=0` never ends (`Main.real1dRk4_unchecked`).
* `hubbard_momentum_1d_rk4` ignores `t_end` and `measurement_interval` (`Main.momentum_t_end_wrong`).
* On a two-dimensional momentum space the basis is right only for the external momentum in the corner of the zone (`squareBasis_conserves_partial`).
* `closest` of a square lattice in momentum space is wrong in the half cells next to the upper edge for all sizes >= 2, and on rectangular lattices in both spaces (`square_closest_momentum_iff`, `square_closest_real_iff`).
* The occupation of the momenta ±π/2 is decided by a rounding error: with `double` both are occupied for N = 2^m, for N = 300 only +π/2 is (`fermi_sea_asymmetric`), in exact arithmetic none is.
* Of the 165 log messages eight are malformed: the number of lattice sites is never shown (`init_lattice` passes no argument) and the messages about the observables are wrong either for the site occupation or for the Fermi jump; the "% filling" is not a percentage.
* `make_value<uint64_t>` leaves the conversion to `boost::lexical_cast`, which accepts `-1` and gives `2^64 - 1`. So `--N=-1` or `--measurement_interval=-1` is not refused but taken as a huge number, by every program (`Main.program_negative_count`).
* `dt` is not checked against the stability region of the integrator: for `(2 J dt)^2 > 8` the coefficients printed by `hubbard_real_1d_kinetic_rk4_coefficients` grow without bound (`Program.kinetic_bounded_iff`).
* `make_kronecker` of two `double`s goes through `to_string`, which keeps six decimals: deltas of different numbers are equal, those of `0.` and `-0.` are not (`KroneckerNumber.makeDouble_wrong`). The name `to_string` is moreover unqualified: the overload is only usable if a using-directive for `std` precedes the include.
* **Times in the result files (C116).** The programs never call `precision`, so times have six significant digits. With the default step width and
  `--measurement_interval=1`, all rows from time 10000 on share their time with about nine others (`file_times_equal`, `real1dKineticRk4_equal_times`).

* The site occupation of the one-operator basis and the particle number in momentum space assert that the imaginary part of a sum is below `2⁻⁵²` in absolute value. The
  exact imaginary part is zero, the computed one is a sum of rounding errors which scales with the coefficients, and it reaches the bound for some vectors (C121): a build
  with assertions may abort where a build without them writes a result. The default build keeps the assertions. A filling outside of `[0, 1]` and a lattice without sites
  abort the programs in such a build.
* `Platform::endianess()` tests the macro `BOOST_LITTLE_WORD`, which boost does not define (`BOOST_ENDIAN_LITTLE_WORD`), and returns `Endian::Unkown`, which is not an
  enumerator (`Unknown`): on such platforms the programs do not compile (C123). The third number of the version of an Intel compiler is the last digit of the second.
* `<<` of an operator or a matrix uses a field width for the first character or the first element only; a left-adjusted operator is torn apart, as in
  `c.....^†_{3,↑}` (C124).
* Every program accepts `inf`, `nan` and the like for every number option (`Main.program_special`). `--dt=nan` and `--dt=inf` lead to the conversion of NaN to an
  integer, `--dt=-inf` and `--t_end=inf` to runs without end, `--U=inf` to files full of NaN (C128). The lookup of an infinite position never ends (C129).
* **C133**: `hubbard_real_1d_rk4` and `hubbard_real_1d_kinetic_rk4` accept a filling or a coupling that is infinite or NaN and write files full of `nan`; without assertions nothing reports it.
* **C134**: `hubbard_real_1d_rk4_jump` and `hubbard_real_2d_rk4_jump` accept fillings, momenta and couplings that are infinite or NaN and write files full of `nan`.
* **C135**: `hubbard_momentum_1d_rk4 --J nan` prints two zeros, the result of an empty lattice, and with an infinite J or a non-finite U or dt it prints `nan`; no parameter is checked.
* **C136**: the output of `hubbard_momentum_1d_rk4 --J=nan` is that of an empty lattice and cannot be told from a valid result.
* Uncompilable or dangling: `HasIndexOfType` (`hasIndexOfType_wrong`), `SpatialIndexType` in two dimensions, the rvalue overload of
  `get_index` for three or more indices, `ieompp/description.hpp` is missing, `eigen/init.hpp` names undeclared members,
  `Term::conjugate()` iterates over `*this`, `copy_as_unique_terms` calls `same_operators`, `total_spin` uses `IndexType::type`,
  `IsZero` of a matrix uses an undeclared name, `site_occupation.hpp`'s `expectation_value` calls `expectation_value_3_3` without
  arguments, post-increment of `IntegerIterator` returns a reference to a local.

## Wrong programs

`tools/mutate.py` applies an edit to a copy of the model and records the declarations that fail; `tools/automutate.py` generates edits
mechanically (operators, comparisons, constants, projections, argument order, negated conditions) and reports survivors, which are
either tightened away or explained in `seeded/LOG.jsonl`.
