{
 "C01": {
  "note": "Exact arithmetic over any commutative ring; serial CRS/CCS products and row-range variant."
 },
 "C02": {
  "note": "CCS: full. CRS: proved for matrices with at least one row; with no row the code leaves the output unset (C02_crs_empty_witness)."
 },
 "C03": {
  "status": "partial",
  "note": "Plain multi-RHS products proved. The transposed multi-RHS kernels omit conjugation: proved equal to the plain transpose product for every matrix (C03_mrhs_t_plain_transpose), agreement with the Hermitian single product under trivial star (_partial), and refuted for complex values (C03_mrhs_t_witness)."
 },
 "C04": {
  "note": "All interleavings of the threads' row writes. C04_small_team_witness: if the runtime grants fewer threads than requested, rows are left out (assumption: team size as requested)."
 },
 "C05": {
  "note": "All four variants; C05_empty_wraps documents the n=0 wrap-around."
 },
 "C06": {
  "note": "All four variants."
 },
 "C07": {
  "status": "partial",
  "note": "All variants except the two transposed lower multi-RHS kernels, which are wrong (witness theorems); the CRS one proved under a hypothesis (_partial), the CCS one proved to be a no-op."
 },
 "C08": {
  "note": "Both directions, entries, nonzero count, sortedness and round trip."
 },
 "C09": {
  "status": "partial",
  "note": "Valid inputs accepted; accepted inputs valid when the pointer array is not over-long and status is defined (_partial); witnesses for the remaining gaps, including out-of-range reads inside the validator."
 },
 "C10": {
  "note": "Every sequence of one-range, two-range and empty pushes, including wrong declared sizes."
 },
 "C11": {
  "status": "partial",
  "note": "compute_perm full. extract_leading for non-empty leading blocks; empty leading block refuted (witness)."
 },
 "C12": {
  "note": "split, split with positions, and split into the other storage order; entries, lines, counts."
 },
 "C13": {
  "note": ""
 },
 "C14": {
  "status": "partial",
  "note": "Safety direction for eps<=1 and exactness for eps<=0; the documented completeness for eps>0 is false (witness)."
 },
 "C15": {
  "status": "partial",
  "note": "Lines free of duplicates or already ordered; unsorted duplicates and the empty matrix are refuted by witnesses."
 },
 "C49": {
  "note": "CRS and CCS, matrices without repeated positions (what check_validity enforces)."
 },
 "C16": {
  "note": "Every history of make_eye/build_inv/interchange/interchange_inv; is_eye for bijections (it sums displacements, so it is only meaningful there)."
 },
 "C18": {
  "note": "All histories of rounds with increasing steps; restore_cur_state proved to make the same step reusable."
 },
 "C20": {
  "note": "Exact arithmetic in any ordered field; kappa > 0."
 },
 "C21": {
  "note": "Quantified over every selection routine meeting the C++ standard's promise for nth_element; such a routine exists (C21_selection_exists)."
 },
 "C26": {
  "note": "For all matrices, options and behaviours of the level kernels meeting a size contract (Spec.KernelsOK); recursion depth bound 2n+2 proved. Numerical content of a level is a parameter."
 },
 "C27": {
  "note": "Every number of levels; exact arithmetic over any field; dense block assumed exact at the chosen rank (DenseExact)."
 },
 "C28": {
  "note": "Every number of levels; real scalings (their type in the code)."
 },
 "C29": {
  "status": "partial",
  "note": "Single-level preconditioners proved; multilevel refuted by witness (copies in prec_solve_mrhs are reversed)."
 },
 "C30": {
  "status": "partial",
  "note": "All call histories of width >= N; refuted for narrower then wider calls (witnesses)."
 },
 "C31": {
  "note": "All N, all operators meeting OpOK (proved for CRS and CCS)."
 },
 "C32": {
  "note": "Truthfulness of iterations and flag for all inputs."
 },
 "C33": {
  "note": "Default filter and user function; reversed range handled as in code."
 },
 "C39": {
  "note": "Whole effect of factorize on the object is equal for the one-based and lowered zero-based input. C39_c_refinement_witness: refinement through the C interface takes one-based arrays as zero-based and reads out of bounds."
 },
 "C40": {
  "status": "partial",
  "note": "Nothing old survives (all failure points); failures before the end of the first level are safe; later failures refuted by witnesses (dereference of end of list, unfactorized dense block used); a solve on an unfinished chain never completes."
 },
 "C41": {
  "status": "partial",
  "note": "Full for objects without dense block; with a dense block level = number of sparse levels passes the check and dereferences end() (C41_witness, for all such objects)."
 },
 "C42": {
  "note": "All objects (nnz, empty) and all completed factorizations (ranks, levels) under the contract that a dense solver's rank is at most its size."
 },
 "C22": {
  "note": "A without repeated indices in a row; exact arithmetic in a commutative ring."
 },
 "C23": {
  "note": "Interleaving at the granularity of one row per step; the shared arrays are written in disjoint places, and a step reads shared data only from its own row's segment and from row_start, which is constant in the second part. C23_threaded_finishes shows that complete schedules exist."
 },
 "C53": {
  "note": "Statement corrected against the code: the kept entries of a shortened line need not stay in order (the sort is commented out); C53_empty_reference_undefined shows the precondition on the reference is needed. Serial routine; nth_element is any function meeting the standard's promise."
 },
 "C24": {
  "note": "Plain (non-symmetric, non-pivoting) level kernel: loads, updates, deferral, compression and interchange of positions, all modelled; exact arithmetic over any field; dropping as an arbitrary rule for the factor form, no dropping for exactness."
 },
 "C25": {
  "note": "Every sequence of deferrals the kernel makes, any dropping rule within its contract (proved for the code's own rules)."
 },
 "C54": {
  "note": "Exact arithmetic; both estimators (L and U)."
 },
 "C56": {
  "status": "partial",
  "note": "The property is false of the code: the tuple returned by determine_fac_pars is unpacked in the other order, so tau_L and tau_U are exchanged (C56_tolerances_exchanged). The values themselves and the first-level refinement are proved."
 },
 "C57": {
  "note": "Kernel without pivoting; bound with the estimator value the code used at the step; space-based dropping off."
 },
 "C34": {
  "status": "partial",
  "note": "set_option_attr: proved for every name and value (table complete, distinct, exactly one field changes, unknown names refused). Stream: proved when pivot has its default ... operator>> skips the pivot field, so every later field is read one position off (C34_stream_misreads, witness)."
 },
 "C35": {
  "note": "All slots, all values; defaults; one-slot change; uniform setters."
 },
 "C36": {
  "note": "All histories of calls. Ownership rule explicit (Allowed): no destroyed handles; matrices referred to are live when refinement uses them. C36_empty_matrix_witness: a handle made from NULL arrays leads to a null dereference."
 },
 "C37": {
  "status": "partial",
  "note": "Proved for refinement; proved that the rank is ignored without refinement and for products (C37_rank_ignored), with a witness that this differs from the core's solve with that rank."
 },
 "C38": {
  "note": "All histories; reported once."
 },
 "C55": {
  "status": "partial",
  "note": "The C constants are one bit lower than the core's: proved which core class each enables (C55_shifted); only NULL/mute correct."
 },
 "C43": {
  "note": "All matrices, orderings and m0; both orderings rearranged by one permutation, order kept inside both groups."
 },
 "C44": {
  "note": "All permutations and block sizes."
 },
 "C46": {
  "note": "Pattern of B: proved in full. Pattern of B+B^T: proved when rows of the block have no entry outside; otherwise the mask is read out of range (witness)."
 },
 "C47": {
  "note": "All matrices, zero rows/columns included; the symmetric variant (row factors on both sides) is proved separately, with a witness that entries can grow."
 },
 "C48": {
  "note": "Square root assumed exact on nonnegative numbers."
 },
 "C58": {
  "note": "Matching, AMD and RCM by contract in C58_preprocess_partial; with the modelled library routines in C58_preprocess_kernels_partial (conditions of C71 on the matching). Missing: iterative scaling with zero rows, empty leading block, nonsymmetric RCM with deferrals (witnesses C59, C11, C46)."
 },
 "C59": {
  "note": "Missing: zero rows/columns, where the factor is 1/sqrt(0) (witness)."
 },
 "C45": {
  "note": "Proved for every symmetric graph, including termination and memory safety; witness for nonsymmetric adjacency. The index shift of the pattern by run_rcm (const_cast) is not modelled."
 },
 "C17": {
  "status": "partial",
  "note": "Proved for every history a program may execute under the rules stated in Legit (no shallow copy of a moved-from array, unchecked allocations succeed, one buffer is not taken over twice, wrapped memory is there when read). The full statement fails in the code: witnesses for copying a moved-from array, failed allocations, double steal; also for assignment between arrays sharing data and for push_back on shared spare capacity."
 },
 "C19": {
  "note": "Rows and columns exchanged for AugCCS. Preconditions: pushed indices ascending and in range, build_aug from a valid sorted matrix, deferral to an empty position behind all stored entries of the rows concerned (witnesses show it is needed). Termination of the loops and absence of out-of-bounds accesses are part of the conclusion."
 },
 "C50": {
  "status": "partial",
  "note": "syev is a parameter with its LAPACK contract (EigDecomp). The property as stated is false: the threshold is eps times the signed dominant eigenvalue (negative dominant eigenvalue: nothing is truncated, zero eigenvalues are divided by, see C50_negative_dominant_witness, C50_singular_indefinite_witness), and for definite flags the truncation scan starts from the dominant end (C50_definite_witness, C50_singular_definite_witness). Proved: positive-dominant indefinite spectra; definite spectra in which all eigenvalues are acceptable; solve/multiply are the pseudo-inverse/operator restricted to the kept eigenvalues."
 },
 "C51": {
  "status": "partial",
  "note": "True for one right-hand side; for two or more the column pointer &_mrhs(0, i*Nrhs) runs out of bounds (witnesses)."
 },
 "C52": {
  "status": "partial",
  "note": "Query result, reading of general and of expanded symmetric/Hermitian/skew files (row- and column-major, C++ and C interface) and of vectors proved at character level for every file of the described layout. The bound on the reported number of entries holds for general files only: for symmetric kinds the caller's arrays are always overrun (witness for every such file); diagonal-only symmetric files leave uninitialised memory; further witnesses: endless loop, buffer overrun by long words, exception out of a C function, unchecked indices."
 },
 "C60": {
  "status": "partial",
  "note": "Round trip proved for all matrices with at least one stored entry whose arrays have no unused tail, and for all vectors. A matrix without entries is written but cannot be read (witness); an unused tail of the value array is counted in the header, so the file cannot be read (witness). Numbers are a parameter: print followed by scan is assumed to be the identity."
 },
 "C61": {
  "note": "E and F of every level, both loops of each function with all index bounds; both results are sorted."
 },
 "C62": {
  "note": "level_factorize<false> as the composition of the models of C08, C58, C24/C57, C12, C53, C22, C61 (Level.lean). Matching, AMD, nth_element by contract; RCM of nonsymmetric patterns (symm_pre_lvls > 0 with reorder=auto) only if it returns a permutation; iterative scaling (pre_scale = 2) not included here (zero lines divide by zero, C59); for nonsingular matrices without dropping see C63_exact_scaled. Reference sizes are inputs of the level; C86 threads them through the driver as in the code. C62_level_kernels uses the modelled matching, AMD and RCM instead of contracts (conditions on the matrix only). C62_reference_size: the driver hands the same N to every level, whatever kernels, retries and levels."
 },
 "C63": {
  "note": "Driver, level kernels (with and without pivoting, automatic mode) and solve composed; not symmetric, whole leading block (m0 = 0). Dense solver by contract (exact on nonsingular blocks of size 1..n), shown satisfiable and met by QRCP (C64_end_to_end). Reference sizes are given per level here; C86 proves the same with the sizes computed and carried along as in the code. C63_exact_scaled: every pre_scale setting including iterative scaling, for nonsingular matrices with nothing dropped."
 },
 "C64": {
  "status": "partial",
  "note": "geqp3 and laic1 are parameters with their LAPACK contracts (Geqp3OK, Laic1OK; shown satisfiable for every real matrix by a Householder construction, QrcpEx.lean). The property fails for the zero block (C64_zero_block: full rank, division by zero), hence the hypothesis of a nonzero block and the suffix _partial. C64_max_unused: the estimator of the largest singular value never has an effect. The C++ applies ormqr to all right-hand sides at once, the model column by column; QRCP with HIF_TQRCP_USE_1NORM not modelled."
 },
 "C65": {
  "note": "The sorting by magnitude is any routine that rearranges its list; the Array d is uninitialized in the code and arbitrary in the model; pivot counters (messages only) are not modelled. Invariants of AugmentedStorage come from C19."
 },
 "C66": {
  "note": "IsSymm = false path with m0 = n; reference sizes are inputs of every level (positive; C62_initial_sizes, C62_next_sizes show the code provides that); std::sort is any function that rearranges. C66_level_kernels uses the modelled matching, AMD and RCM instead of contracts (conditions on the matrix only)."
 },
 "C67": {
  "note": "The exceptions are real: after a deferral the next candidate becomes the pivot without a new search, and the search stops after four rounds. Magnitude is an absolute value; sorting is any rearrangement by decreasing magnitude."
 },
 "C68": {
  "note": "Real value types (the code states that complex Hermitian matrices do not work). Proved by simulating the symmetric loop step by step by the general loop of C24 on the symmetric data (SymmSim.lean); sorting/selection in dropping by contract as in C24."
 },
 "C69": {
  "note": "make_transpose aliases the arrays, so both storages are one; preprocessing: none, or matching/AMD by contract and RCM by C45; iterative scaling (pre_scale=2) excluded; symmetric values with a nonsymmetric stored pattern excluded (RCM would be handed a nonsymmetric graph)."
 },
 "C70": {
  "note": "Dense solver by contract (exact on the block); the definiteness of the last block is a hypothesis, because dropping can destroy it. m0 = 0. C70_end_to_end composes this with the model of SYEIG (C50); there the only contract left is LAPACK's ?syev, which C70_syev_exists shows to be satisfiable over the reals for every size. C70_end_to_end_definite covers the default rank when the definiteness is declared and true: every Schur complement inherits it, so SYEIG keeps all eigenvalues. C70_exact_scaled: exactness for every pre_scale setting including iterative scaling."
 },
 "C71": {
  "note": "Proved for matrices without stored zeros and with lines that satisfy min(length, n-1) <= n - n/2; both conditions are needed (witness theorems; items 56, 57 of DESIGN.md). log and exp by their functional equations, exact arithmetic. The input check compiled in with HIF_DEBUG is not modelled."
 },
 "C72": {
  "note": "Same conditions as C71; C72_overlap_witness shows a valid matrix with a longer line for which the scaled entries exceed 1."
 },
 "C73": {
  "note": "Same conditions as C71; C73_overlap_witness shows a structurally nonsingular matrix that the code reports as singular."
 },
 "C74": {
  "note": "run_amd<false> (the only instance used); integers unbounded, no allocation failure, statistics not modelled; wbig, dense, aggressive and the previous contents of all arrays are arbitrary."
 },
 "C75": {
  "note": "postorder of amd.hpp."
 },
 "C76": {
  "note": "aat/one/preprocess of amd.hpp."
 },
 "C77": {
  "status": "partial",
  "note": "getrf is a parameter with its LAPACK contract (LuOK); the textbook factorization is proved to meet it (C77_getrf), and C77_end_to_end uses that one, so it assumes nothing of LAPACK. The round trip with the transpose flag fails for complex matrices (C77_tran_complex: plain transpose in solve, conjugate in multiply), hence C77_adjoint_partial. Further witnesses: C77_stale, C77_stale_oob (set_matrix keeps the old pivots and rank), C77_rank_low (the rank reported for a singular block is not its rank). A zero pivot in getrs is the outcome ub."
 },
 "C78": {
  "note": "Exact arithmetic with a square root (contract SqrtOK, met by Real.sqrt); real scalars. For complex scalars the drivers are wrong (C78_complex: the inner product conjugates the wrong argument). C78_false_success: SUCCESS without convergence if maxit is a multiple of restart or 0, DIVERGED with a converged result. FGMRES: 1 << it_outer overflows from 31 outer iterations on (outcome ub, excluded). C78_end_to_end: mutable work array of the preconditioner put back before each call."
 },
 "C79": {
  "note": "For positive limiters and the team size requested. Interleaving granularity: one dropped line of one block (the threads touch disjoint lines, shared gap arrays at distinct positions and private value buffers). nth_element meets the standard's promise and compares only elements of its range (NthLocal). C79_one_thread_witness and C79_zero_limiter_witness show both conditions are needed."
 },
 "C80": {
  "note": "Exact values (no conversion of value or index types). Blocks must have exactly sized arrays; C80_factorized and C80_factorized_symm prove that the factorization makes them so (C80_factorized_level, C80_factorized_solves: end to end; the restoration of a preconditioner is the user's code, modelled by `rebuild`). C80_empty_level_witness: export of a level with m = 0 in the stored format reads an empty array. C80_jit: L is not freed."
 },
 "C81": {
  "note": "HDF5 by contract: named datasets, raw words copied when read with the file's type, zero fill value. Interruption is modelled between the create and write calls of the datasets (an exception), not inside one HDF5 call. C81_narrow and C81_unwritten_values prove the two exceptions in the statement."
 },
 "C82": {
  "note": "Full equivalence for non-negative indices (CRS of any shape, CCS square); the three witnesses show that the code violates the property outside these conditions. A pointer array that decreases is undefined behaviour in the code (reversed iterator range) and counts as not accepted."
 },
 "C84": {
  "note": "The Crout loop, the level and the whole driver; the dense solver, matching and orderings through their contracts as in C63. C84_noPre_wrong is the witness that the code breaks the promise for no_pre with m0 < n."
 },
 "C85": {
  "note": "The whole symmetric driver with a leading block; the dense solver, matching and orderings through their contracts as in C70. A leading block without any stored entry is excluded (the matching would be handed an empty pattern)."
 },
 "C86": {
  "note": "The driver with row_sizes and col_sizes as local variables of factorize (Sizes.lean); C86_sizes reduces it to the driver of C63 (symmetric: C70) with given sizes, so their theorems apply; C86_factorize, C86_exact and C86_exact_symm are the instances. C86_lines is the sharper bound by lines. m0 = 0; matching, orderings and nth_element by contract as in C62; the dense solver is arbitrary in the bounds."
 },
 "C87": {
  "note": "Exact arithmetic. The contraction of the preconditioner is a hypothesis, in any measure that depends only on the entries of the vector; C87_perturbation derives it from closeness of the matrices, C87_nearby meets it end to end. C87_bounded assumes rho <= beta_1 where it excludes flag 1."
 },
 "C88": {
  "note": "Character level; integers by their digits (no overflow), printing followed by >> of a value is the identity by hypothesis (PrintOK), which is shown satisfiable. The code does not refuse truncated files and does not terminate on files without information line (witnesses, item 72)."
 },
 "C89": {
  "note": "Histories exclude (permission conditions): use of moved-from matrices, failing allocations of resize and copy, and assignments between two objects that share their memory but have different numbers of entries. The code fails there: C89_assign_shared_witness (sizes set, array left as it is, a row loop meets entries that are not in the matrix), C89_moved_resize_witness (moved-from objects keep their sizes, so resize to the same sizes does nothing), C89_failed_resize_witness. The null matrix, the conversion from compressed storage (C06/C07) and between value types are elsewhere or not modelled."
 },
 "C90": {
  "note": "Missing, because the code fails there: the deprecated mumps_blr has no line (C90_mumps_witness), and with warnings and information both enabled get_verbose does not report the second; INFO2 is never reported (C90_verbose_hides_info, C90_verbose_witness). to_string(double) is a parameter that prints no space and no newline."
 },
 "C91": {
  "note": "Covers solve and solve with the transpose flag without null-space filter (a filter is itself a projection, C33). The dense solver of the last block enters as an operation that multiplies by a fixed matrix, which is proved for exact solvers (LU, C77), for QRCP (C64) and for SYEIG (C50) with every usable rank. Exact arithmetic. solve_mrhs is not covered, because the code is wrong there (C29_witness)."
 },
 "C92": {
  "note": "C92_refinement, C92_bounded: after any history of applying calls; W is existential but shared with solve (the first conjunct), so the iterates are determined. Hypotheses as C91 (Usable: invertible levels, dense solver a fixed linear operation; Fits: work space), no filter, a matrix operator (OpOK; C01/C02 provide it for CRS and CCS). C92_error, C92_fixed_point: algebra of the iterates; C92_returned_error: the same for what hifir returns. Exact arithmetic."
 },
 "C93": {
  "note": "Hypotheses: Usable/Multiplies (invertible levels; the dense solver of the last block solves with a fixed matrix T and multiplies with a fixed matrix V), Fits (work space), no filter for solves; the round trips need T V T = T or V T V = V (GenInv) on the last block. C93_dense_qrcp and C93_dense_syeig prove all of it for the two dense solvers whenever the pivots or kept eigenvalues are nonzero (C64, C50 say when that is). Exact arithmetic; geqp3 and syev by contract (Fac, EigDecomp)."
 },
 "C94": {
  "note": "C94_filtered_solve, C94_filtered_refinement: any filter that multiplies by a matrix (Filters: a user routine or the constant one); W, Wt are existential but the same for all pairs of filters including none, so the first conjunct determines them. C94_constant_filter, C94_refinement_mean_free: the constant filter (characteristic 0). C94_bad_range: error. Hypotheses as C91/C92. Exact arithmetic."
 },
 "C95": {
  "note": "C95_factorize_consistent (general), C95_lead_consistent (leading symmetric block m0), C95_symm_consistent (symmetric, SYEIG), C95_adjoint (transposed calls are the adjoints for real scalings, which over the reals is no condition). Hypotheses: the contracts of the sorting, selection and norm primitives (LevelContract, SymmContract) and of LAPACK (Geqp3OK, Laic1OK, SyevOK) as in C63, C64, C70, C84; nothing is assumed about dropping or regularity. The exceptions are real: a zero block makes the first solve divide by zero (C64_zero_block), and so does a zero eigenvalue counted in the rank (C50_singular_indefinite_witness, C50_singular_definite_witness)."
 },
 "C96": {
  "note": "C96_symm_rank. Same hypotheses as C95_symm_consistent; C70_symmetric covers the full-rank solve with a regular last block, C96 every rank, both operations and singular blocks."
 },
 "C97": {
  "note": "C97_semidefinite. Hypotheses as C96, real ordered field. C70_definite covers the full-rank solve with a definite last block."
 }
}