{"id": "C01", "title": "Sparse matrix-vector product is exact and in bounds", "statement": "For every well-formed CRS or CCS matrix A and every input vector x, the product routines return y with y_i = sum over stored entries of A_ij x_j for every row i, and touch no memory outside the arrays they are given.", "quantifier": "all matrices (any size, any sparsity, empty rows, rectangular), all vectors, both storage orders", "why_tests_cant": "a test fixes a handful of sparsity patterns; index arithmetic errors show up only for particular patterns (empty rows, last row, rectangular shapes)", "anchors": ["src/hif/ds/CompressedStorage.hpp: CRS::multiply_nt_low, CRS::multiply_nt, CCS::multiply_nt_low, CCS::multiply_nt"]}
{"id": "C02", "title": "Hermitian-transpose product is exact", "statement": "For every well-formed CRS or CCS matrix A and vector x, the transpose product routines return y with y_j = sum_i conj(A_ij) x_i for every column j.", "quantifier": "all matrices with at least one primary line, all vectors, both storage orders, real and complex", "why_tests_cant": "random tests are usually real, so conjugation mistakes and empty-matrix cases are not exercised", "anchors": ["src/hif/ds/CompressedStorage.hpp: CRS::multiply_t_low, CCS::multiply_t_low, multiply_t"]}
{"id": "C03", "title": "Multi-right-hand-side products agree column by column with the single product", "statement": "For every number of right-hand sides k, column c of the multi-RHS (transpose) product of A with X equals the single-RHS (transpose) product of A with column c of X.", "quantifier": "all matrices, all X, all k >= 1, real and complex", "why_tests_cant": "must hold for every k and every complex value; tests sample real data and small k", "anchors": ["src/hif/ds/CompressedStorage.hpp: CRS::multiply_mrhs_nt_low, CRS::multiply_mrhs_t_low, CCS::multiply_mrhs_nt_low, CCS::multiply_mrhs_t_low"]}
{"id": "C04", "title": "Threaded product equals serial product under every interleaving", "statement": "For every thread count and every interleaving of the threads' row writes, the multi-threaded product leaves exactly the serial product in the output vector; the row ranges given to the threads partition the rows.", "quantifier": "all matrices, vectors, thread counts and schedules", "why_tests_cant": "a test observes only the schedules the machine happens to produce", "anchors": ["src/hif/utils/mt.hpp: uniform_partition", "src/hif/utils/mt_mv.hpp: multiply_nt", "src/hif/ds/CompressedStorage.hpp: CRS::multiply_nt_low(x,istart,len,y)"]}
{"id": "C05", "title": "Unit-triangular solves are exact", "statement": "For every strictly lower (upper) triangular CRS or CCS matrix T and right-hand side b, the in-place solve leaves x with (I+T) x = b (for the solves that sweep backwards: for every nonempty T, as the code asserts).", "quantifier": "all sizes (nonzero for the backward sweeps), all strictly triangular sparsity patterns, all b", "why_tests_cant": "substitution order errors depend on the pattern and on the size (first/last row)", "anchors": ["src/hif/ds/CompressedStorage.hpp: solve_as_strict_lower, solve_as_strict_upper (CRS and CCS)"]}
{"id": "C06", "title": "Hermitian-transposed unit-triangular solves are exact", "statement": "For every strictly lower (upper) triangular matrix T and b, the transposed in-place solve leaves x with (I+T)^H x = b (for the solves that sweep backwards: for every nonempty T, as the code asserts).", "quantifier": "all sizes (nonzero for the backward sweeps), patterns and b, real and complex", "why_tests_cant": "needs complex data and every pattern; tests only sample", "anchors": ["src/hif/ds/CompressedStorage.hpp: solve_as_strict_lower_tran, solve_as_strict_upper_tran (CRS and CCS)"]}
{"id": "C07", "title": "Multi-RHS triangular solves agree with the single-RHS solves", "statement": "For every number of right-hand sides, each column of the multi-RHS triangular solve equals the corresponding single-RHS solve, for all four triangular variants and both storage orders.", "quantifier": "all strictly triangular matrices, all blocks of right-hand sides", "why_tests_cant": "there is one code path per variant and storage order; a test of one says nothing about the others, and boundary rows are easily missed", "anchors": ["src/hif/ds/CompressedStorage.hpp: solve_as_strict_*_mrhs, solve_as_strict_*_mrhs_tran (CRS and CCS)"]}
{"id": "C08", "title": "Changing storage order preserves the matrix", "statement": "Converting a well-formed CRS matrix to CCS (or back) yields a well-formed matrix with exactly the same entry at every position and the same number of nonzeros; converting back returns the original arrays.", "quantifier": "all well-formed matrices, rectangular included", "why_tests_cant": "counting-sort pointer shifting is right for most patterns even when off by one for empty leading/trailing lines", "anchors": ["src/hif/ds/CompressedStorage.hpp: internal::convert_storage, CRS(const CCS&), CCS(const CRS&)"]}
{"id": "C09", "title": "Input validation accepts exactly the well-formed matrices", "statement": "check_validity returns without error iff the pointer array is monotone, starts at zero and matches the array lengths, and every line has strictly increasing in-range indices; after it succeeds no kernel can index out of range.", "quantifier": "all candidate triples of arrays, including malformed ones", "why_tests_cant": "soundness of a validator is a statement about every malformed input", "anchors": ["src/hif/ds/CompressedStorage.hpp: CompressedStorage::check_validity"]}
{"id": "C10", "title": "Line-by-line assembly reproduces the pushed lines", "statement": "After begin-assemble, any sequence of line push-backs and end-assemble, line k of the matrix is exactly the k-th pushed list of index/value pairs and the total nonzero count is the sum of the lengths.", "quantifier": "all numbers and lengths of pushed lines, one-list and two-list pushes", "why_tests_cant": "depends on the whole history of pushes", "anchors": ["src/hif/ds/CompressedStorage.hpp: _begin_assemble_rows, _push_back_primary, _end_assemble_rows"]}
{"id": "C11", "title": "Permuted and leading-block extraction", "statement": "For all permutations p and q, compute_perm(p, q^{-1}) returns a well-formed matrix whose (i,j) entry is A(p_i,q_j); with a leading size m it is the leading m-by-m block of that; extract_leading(m) returns the leading m-by-m block of A.", "quantifier": "all matrices, all permutation pairs, all leading sizes", "why_tests_cant": "the number of permutations is factorial; sorted output must hold for all of them", "anchors": ["src/hif/ds/CompressedStorage.hpp: _compute_perm, compute_perm, _extract_leading, extract_leading"]}
{"id": "C12", "title": "Splitting by leading size loses and duplicates nothing", "statement": "Splitting a matrix at secondary index m gives two blocks: entries with secondary index < m keep their index, the rest are shifted down by m; together they contain every stored entry exactly once.", "quantifier": "all matrices with sorted lines, all m", "why_tests_cant": "boundary m values (0, full) and empty lines must all work", "anchors": ["src/hif/ds/CompressedStorage.hpp: _split, _split_dual, split, split_crs, split_ccs"]}
{"id": "C13", "title": "Diagonal scaling", "statement": "scale_diag_left(s) (resp. right(t)) changes every entry to s_i A_ij (resp. A_ij t_j) and leaves the sparsity structure untouched, for both storage orders.", "quantifier": "all matrices and scaling vectors", "why_tests_cant": "must hold at every entry of every pattern", "anchors": ["src/hif/ds/CompressedStorage.hpp: scale_diag_left, scale_diag_right (CRS and CCS)"]}
{"id": "C14", "title": "Pruning removes only negligible entries", "statement": "Pruning with relative threshold eps keeps the order and values of the retained entries, never removes an entry larger than eps times the largest magnitude in its row and column reference, and removes every entry the documentation says is removed.", "quantifier": "all matrices, all eps", "why_tests_cant": "order-dependent threshold computations give the right answer on most inputs", "anchors": ["src/hif/ds/CompressedStorage.hpp: _prune, prune"]}
{"id": "C15", "title": "Coordinate to compressed conversion preserves the matrix", "statement": "Converting coordinate triples to compressed storage yields a matrix whose entry (i,j) is the sum of the values of the triples at (i,j), with sorted lines.", "quantifier": "all triple lists in any order, duplicates included", "why_tests_cant": "orderings and duplicates are combinatorially many", "anchors": ["src/hif/utils/coo2compress.hpp: convert_coo2cs"]}
{"id": "C16", "title": "Permutation objects stay consistent under every history", "statement": "After any sequence of make_eye, interchange and inverse-interchange calls with in-range arguments, followed or not by build_inv, the forward and inverse maps are mutually inverse bijections; is_eye holds iff the permutation is the identity.", "quantifier": "all sizes and all operation histories", "why_tests_cant": "an invariant over unbounded histories", "anchors": ["src/hif/ds/PermMatrix.hpp: PermMatrix, BiPermMatrix"]}
{"id": "C17", "title": "Reference-counted arrays never double free, leak or use freed memory", "statement": "For every history of constructions, shallow copies, clones, moves, assignments, resizes, swaps and destructions of Array objects, owned buffers are freed exactly once, when the last owner goes away, and never used after that; wrapped user memory is never freed.", "quantifier": "all histories of Array operations", "why_tests_cant": "memory-lifetime invariants over unbounded histories", "anchors": ["src/hif/ds/Array.hpp: Array constructors, operator=, resize, swap, destructor"]}
{"id": "C18", "title": "Sparse work vector behaves as a map with deduplicated indices", "statement": "After reset_counter and any sequence of pushes at a given step, the index list contains each pushed index exactly once, push_back returns true exactly the first time, and mark_delete/compress_indices removes exactly the marked indices, keeping the order of the others; later steps are unaffected by earlier ones.", "quantifier": "all push/mark/compress histories and increasing steps", "why_tests_cant": "stale tags from earlier steps matter only in long histories", "anchors": ["src/hif/ds/SparseVec.hpp: SparseVector"]}
{"id": "C19", "title": "Augmented storage supports interchange and deferral", "statement": "After any history of begin_assemble, push_back (one or two ranges), build_aug, interchange of two rows/columns and deferral of one to an empty position behind all others, no operation having failed or accessed memory out of bounds, the augmented matrix represents exactly the matrix the history stands for: its primary lines are sorted and contain exactly the stored entries, the linked list of every secondary index enumerates exactly its stored entries in ascending order, and nnz_in_col/nnz_in_row is their number.", "quantifier": "all matrices and all histories of operations", "why_tests_cant": "linked lists plus rotation must stay mutually consistent over unbounded histories", "anchors": ["src/hif/ds/AugmentedStorage.hpp: AugmentedCore, AugCRS, AugCCS: build_aug, push_back_row/col, interchange_cols/rows, defer_col/row, start_col_id, next_col_id, val_from_col_id"]}
{"id": "C20", "title": "Numerical dropping keeps exactly the entries above the tolerance", "statement": "apply_num_dropping with tolerance tau and kappa removes exactly the entries whose magnitude is at most tau/kappa, keeps the order of the others, and does nothing when the tolerance is not positive.", "quantifier": "all sparse vectors, tau and kappa", "why_tests_cant": "must hold for all values, including ties with the tolerance", "anchors": ["src/hif/alg/thresholds.hpp: apply_num_dropping"]}
{"id": "C21", "title": "Space-limited dropping keeps the largest entries", "statement": "apply_space_dropping keeps exactly min(size, max(1, ceil(alpha*nnz)-start)) entries (at least one), and no dropped entry is larger in magnitude than a kept one; nothing changes if alpha is not positive.", "quantifier": "all sparse vectors, alpha, reference sizes, and every legal behaviour of the standard library selection", "why_tests_cant": "std::nth_element may return any legal arrangement; tests see one", "anchors": ["src/hif/alg/thresholds.hpp: apply_space_dropping"]}
{"id": "C22", "title": "Schur complement formula", "statement": "The computed Schur complement has entry (i,j) equal to s_{p_{m+i}} A(p_{m+i},q_{m+j}) t_{q_{m+j}} minus sum_k L_E(i,k) d_k U_F(k,j), for every matrix, permutation and scaling.", "quantifier": "all inputs of the Schur kernel", "why_tests_cant": "index shifts by m and inverse permutations must be right for every permutation", "anchors": ["src/hif/alg/Schur.hpp: compute_Schur_simple"]}
{"id": "C23", "title": "Threaded Schur complement equals the serial one", "statement": "For every thread count and every interleaving between barriers the threaded Schur routine produces the same matrix as the serial routine.", "quantifier": "all inputs, thread counts and schedules", "why_tests_cant": "schedules cannot be enumerated by testing", "anchors": ["src/hif/alg/Schur.hpp: mt::compute_Schur_simple"]}
{"id": "C24", "title": "Crout factorization is exact when nothing is dropped", "statement": "If no entry is dropped and no row or column is deferred then the computed factors satisfy L D U = P S A T Q exactly on the leading block, with L and U unit triangular.", "quantifier": "all matrices whose pivots are nonzero", "why_tests_cant": "an algebraic identity over all matrices", "anchors": ["src/hif/alg/Crout.hpp: compute_l, compute_ut, update_diag, scale_inv_diag", "src/hif/alg/factor.hpp: level_factorize"]}
{"id": "C25", "title": "Deferral keeps permutations bijective whatever is deferred", "statement": "Whatever set of steps is deferred during a level factorization, the final row and column orderings are permutations of 0..n-1, their inverse arrays are their inverses, non-deferred rows keep their relative order at the front and deferred ones follow in order of deferral.", "quantifier": "all deferral decision sequences (any oracle), all sizes", "why_tests_cant": "the number of decision sequences is exponential", "anchors": ["src/hif/alg/factor.hpp: level_factorize deferral loop", "src/hif/alg/Crout.hpp: compress_array, assign_gap_array"]}
{"id": "C26", "title": "Factorization terminates: level sizes strictly decrease", "statement": "Every level that is not the last eliminates at least one unknown, so factorize creates at most n levels and the sizes satisfy n_{k+1} = n_k - m_k.", "quantifier": "all inputs for which each level call returns", "why_tests_cant": "termination is not observable by testing", "anchors": ["src/hif/builder.hpp: _factorize_kernel", "src/hif/alg/factor.hpp: level_factorize post_flag/m/dense decision", "src/hif/alg/Prec.hpp: is_last_level"]}
{"id": "C27", "title": "solve inverts mmultiply on every multilevel preconditioner", "statement": "For every factorized preconditioner with nonzero pivots and scalings whose final dense block is solved exactly, solve(mmultiply(x)) = x and mmultiply(solve(b)) = b for every vector, independently of the number of levels.", "quantifier": "all preconditioners (any number of levels, any block sizes), all vectors", "why_tests_cant": "recursion depth, permutations and block sizes are unbounded", "anchors": ["src/hif/alg/prec_solve.hpp: prec_solve", "src/hif/alg/prec_prod.hpp: prec_prod", "src/hif/builder.hpp: HIF::solve, HIF::mmultiply"]}
{"id": "C28", "title": "Hermitian solve and product are the adjoints", "statement": "For every factorized preconditioner, the transposed solve is the adjoint of the solve and the transposed product is the adjoint of the product: <solve(b), y> = <b, solve_tran(y)> for all b and y.", "quantifier": "all preconditioners and all pairs of vectors, real and complex", "why_tests_cant": "a bilinear identity over all vectors; conj mistakes are invisible on real data", "anchors": ["src/hif/alg/prec_solve.hpp: prec_solve_tran", "src/hif/alg/prec_prod.hpp: prec_prod_tran"]}
{"id": "C29", "title": "Multi-RHS preconditioner solve agrees with the single solve", "statement": "solve_mrhs returns, in each column, exactly what solve returns for the corresponding right-hand side.", "quantifier": "all preconditioners, all blocks of right-hand sides", "why_tests_cant": "only some level structures expose a difference", "anchors": ["src/hif/alg/prec_solve.hpp: prec_solve_mrhs", "src/hif/builder.hpp: solve_mrhs"]}
{"id": "C30", "title": "The solve workspace is always large enough", "statement": "In every history of factorize, solve, solve_mrhs (any k), mmultiply, hifir and clear calls, each call's workspace holds at least the number of scalars the recursion touches.", "quantifier": "all call histories", "why_tests_cant": "a property of unbounded call histories", "anchors": ["src/hif/builder.hpp: HIF::solve, solve_mrhs, mmultiply, clear, factorize", "src/hif/alg/prec_solve.hpp: compute_prec_work_space"]}
{"id": "C31", "title": "Fixed-count iterative refinement", "statement": "After N iterations refinement returns x_N with x_1 = M^{-1}b and x_{k+1} = x_k + M^{-1}(b - A x_k); if A x = b has solution x* and M inverts A it returns x*, and the error satisfies e_{k+1} = (I - M^{-1}A) e_k.", "quantifier": "all N, operators A and M, right-hand sides", "why_tests_cant": "holds for every iteration count", "anchors": ["src/hif/alg/IterRefine.hpp: iter_refine"]}
{"id": "C32", "title": "Refinement with residual bounds reports truthfully", "statement": "iter_refine with bounds returns at most max(N,1) iterations; with N <= 1 it is the plain solve, reported as one iteration with flag -1; with N >= 2: flag 0 only if the relative residual of the returned x is at most beta_0, flag 1 only if it exceeds beta_1, flag -1 only if N iterations were performed; the returned x is the fixed-count result for the returned number of iterations; a zero right-hand side returns zero with 0 iterations.", "quantifier": "all inputs, bounds and operators", "why_tests_cant": "status flags must be truthful on every run", "anchors": ["src/hif/alg/IterRefine.hpp: iter_refine with betas"]}
{"id": "C33", "title": "Constant null-space filter", "statement": "Filtering subtracts the mean over [start,end) from exactly those components, so their sum becomes zero, other components are unchanged and filtering twice is filtering once; a range that does not fit the vector raises an error before any component changes (an end before the start stands for the end of the vector).", "quantifier": "all vectors, lengths and ranges", "why_tests_cant": "must hold for every length and range including sentinel values", "anchors": ["src/hif/NspFilter.hpp: filter, _const_filter, set_nsp_const"]}
{"id": "C34", "title": "Options by name and by stream", "statement": "set_option_attr changes exactly the named field and reports success, and reports failure and changes nothing for unknown names; writing all the fields in declaration order and reading them back with operator>> restores the same options.", "quantifier": "all names, values and option records", "why_tests_cant": "must hold for every field and record", "anchors": ["src/hif/Options.h: set_option_attr, option_tag2pos, operator>>"]}
{"id": "C35", "title": "C parameter array maps faithfully to options", "statement": "create_params after lhfSetDefaultParams gives the default options; changing one documented slot changes exactly the corresponding option; the uniform setters change exactly the two documented slots.", "quantifier": "all parameter arrays", "why_tests_cant": "each slot and each value", "anchors": ["libhifir/src/libhifir.cpp: create_params, lhfSetDefaultParams, lhfSetDroptol, lhfSetAlpha, lhfSetKappa"]}
{"id": "C36", "title": "C handle life cycle is safe", "statement": "For every history of create/setup/update/refactorize/apply calls, NULL handles give LHF_NULL_OBJ without touching memory, refinement never runs with a matrix whose size differs from the factorization, and setup uses S for factorization and A for refinement with the documented fallbacks.", "quantifier": "all call histories with arbitrary NULLs and sizes", "why_tests_cant": "unbounded histories of API calls", "anchors": ["libhifir/src/libhifir.cpp: lhfdCreate, lhfdSetup, lhfdUpdate, lhfdRefactorize, lhfdApply"]}
{"id": "C37", "title": "An explicit rank passed to apply is honoured", "statement": "lhf?Apply with an explicit rank uses that rank for the final dense solve in every operation mode, and LHF_DEFAULT_RANK selects the documented default.", "quantifier": "all modes, refinement counts and ranks", "why_tests_cant": "each combination of mode, nirs and rank must be right", "anchors": ["libhifir/src/libhifir.cpp: lhfdApply"]}
{"id": "C38", "title": "Error message channel", "statement": "lhfGetErrorMsg returns the message of the most recent internal error not yet reported, once, and NULL otherwise, in every history of failing and succeeding calls.", "quantifier": "all histories of calls", "why_tests_cant": "a history property", "anchors": ["libhifir/src/libhifir.cpp: error_msgs, lhfGetErrorMsg, _LHF_RETURN_FROM_HIFIR_ERROR"]}
{"id": "C39", "title": "Zero- and one-based inputs factorize the same matrix", "statement": "For every well-formed zero-based matrix, passing the same matrix in one-based form hands exactly the same matrix to the factorization; any other base is rejected with an error; the user's arrays are not modified.", "quantifier": "all matrices and index bases", "why_tests_cant": "every matrix", "anchors": ["src/hif/builder.hpp: HIF::factorize index-base conversion"]}
{"id": "C40", "title": "A failed factorize leaves the object in a safe state", "statement": "If factorize throws at any point, a subsequent solve raises an error instead of running on a partial multilevel structure.", "quantifier": "all inputs and all failure points", "why_tests_cant": "failure points are many and hard to trigger", "anchors": ["src/hif/builder.hpp: factorize, _factorize_kernel, solve", "src/hif/alg/prec_solve.hpp: prec_solve"]}
{"id": "C41", "title": "Level accessor is bounds-checked", "statement": "prec(level) either raises an error or returns an existing level, for every level number and every preconditioner.", "quantifier": "all level numbers and preconditioners", "why_tests_cant": "boundary value depends on the structure of the last level", "anchors": ["src/hif/builder.hpp: prec, levels"]}
{"id": "C42", "title": "Reported counts are consistent", "statement": "On every factorized preconditioner, nnz = nnz_ldu + nnz_ef, rank = n - (schur_size - schur_rank), schur_rank <= schur_size, levels counts the sparse levels plus one for a non-empty dense block, and an empty object reports zero everywhere.", "quantifier": "all preconditioners", "why_tests_cant": "must hold for every structure", "anchors": ["src/hif/builder.hpp: nnz, nnz_ef, nnz_ldu, rank, schur_rank, schur_size, levels", "src/hif/alg/Prec.hpp: nnz, nnz_ef, last_rank"]}
{"id": "C43", "title": "Static deferral of tiny diagonals", "statement": "For every matrix and initial permutations, defer_tiny_diags returns m <= m0 such that the first m permuted diagonals are present and not negligible, the orderings stay permutations, kept rows keep their relative order and every deferred one failed the test.", "quantifier": "all matrices, permutations and m0", "why_tests_cant": "in-place compression with a moving boundary", "anchors": ["src/hif/pre/matching_scaling.hpp: defer_tiny_diags"]}
{"id": "C44", "title": "Reordering composes permutations", "statement": "After reordering, the final ordering is the matching permutation followed by the fill-reducing ordering on the leading block and unchanged beyond it, it is a bijection and the inverse array is its inverse.", "quantifier": "all permutations and block sizes", "why_tests_cant": "all permutations", "anchors": ["src/hif/pre/driver.hpp: reorder_finalize_perm"]}
{"id": "C45", "title": "RCM returns a permutation", "statement": "For every graph with symmetric adjacency, run_rcm returns a permutation of the vertices and terminates.", "quantifier": "all symmetric graphs", "why_tests_cant": "graph traversal over all graphs", "anchors": ["src/hif/pre/rcm.hpp: genrcm_, fnroot_, rootls_, degree_, rcm_"]}
{"id": "C46", "title": "Leading-block pattern is exact and memory safe", "statement": "compute_leading_block returns, for every matrix and permutations, exactly the pattern of the permuted leading block B (or of B + B^T) with sorted columns, without out-of-range accesses.", "quantifier": "all matrices, permutations, block sizes", "why_tests_cant": "out-of-range reads of a bit mask do not crash in tests", "anchors": ["src/hif/pre/matching_scaling.hpp: compute_leading_block"]}
{"id": "C47", "title": "Extreme-value scaling bounds entries by one", "statement": "After scale_extreme_values on a general matrix, the scaling factors are positive, the new matrix is diag(r) B diag(c), all magnitudes are at most one and every column containing a nonzero attains one.", "quantifier": "all matrices, zero rows and columns included", "why_tests_cant": "a bound over all entries of all matrices", "anchors": ["src/hif/pre/a_priori_scaling.hpp: scale_extreme_values"]}
{"id": "C48", "title": "Poor-scaling repair preserves the matched product and positivity", "statement": "fix_poor_scaling keeps all scalings positive, leaves s_{p_i} t_{q_i} unchanged for every matched pair and afterwards every repaired pair satisfies the beta ratio bound; it does nothing on level one.", "quantifier": "all scalings, permutations and beta", "why_tests_cant": "all real scalings", "anchors": ["src/hif/pre/matching_scaling.hpp: fix_poor_scaling"]}
{"id": "C49", "title": "Dense conversion is exact", "statement": "DenseMatrix::from_sparse gives a dense column-major matrix with the same entry at every position for CRS and CCS input.", "quantifier": "all matrices without duplicate entries", "why_tests_cant": "all shapes", "anchors": ["src/hif/ds/DenseMatrix.hpp: copy_sparse, from_sparse"]}
{"id": "C50", "title": "Eigenvalue truncation keeps exactly the significant eigenvalues", "statement": "After the symmetric dense factorization the reported rank is the number of eigenvalues the definiteness flag and threshold accept, and solve divides only by those.", "quantifier": "all real spectra and definiteness flags", "why_tests_cant": "depends on signs of extreme eigenvalues", "anchors": ["src/hif/small_scale/SYEIG.hpp: factorize, solve"]}
{"id": "C51", "title": "Symmetric dense multi-RHS stays in bounds and agrees with the single solve", "statement": "SYEIG::solve_mrhs accesses only its n-by-k buffer and treats each column like solve.", "quantifier": "all sizes and k", "why_tests_cant": "out-of-bounds accesses may go unnoticed in tests", "anchors": ["src/hif/small_scale/SYEIG.hpp: solve_mrhs, multiply_mrhs"]}
{"id": "C52", "title": "MatrixMarket query and read agree", "statement": "For every MatrixMarket file the number of entries reported by the query is an upper bound of what the read routine stores in the caller's arrays, and the read matrix is the one described by the file (symmetric kinds expanded).", "quantifier": "all files of all symmetry kinds", "why_tests_cant": "each symmetry kind with and without off-diagonal entries", "anchors": ["src/hif/utils/io.hpp: mm_read_firstline, mm_read_sparse_size, mm_read_sparse_data, read_mm_sparse, read_mm_vector", "libhifir/src/libhifir.cpp: lhfQueryMmFile, mm_read_sparse"]}
{"id": "C53", "title": "Dropping in off-diagonal blocks keeps the largest entries of each line", "statement": "drop_L_E / drop_U_F keep in every line the min(len, ceil(alpha*ref)) largest-magnitude entries with their values (lines that fit are unchanged, shortened lines may be reordered), or clear the block when alpha is not positive.", "quantifier": "all blocks, references and alpha", "why_tests_cant": "in-place compaction across lines", "anchors": ["src/hif/alg/Schur.hpp: drop_offsets_kernel, drop_L_E, drop_U_F"]}
{"id": "C54", "title": "Inverse-norm estimator is a true lower bound", "statement": "At every step the estimator value is a component of the solution of L^T-type system with a right-hand side of entries +-1, hence its magnitude never exceeds the infinity norm of the inverse of the leading unit-triangular factor, and it is at least one.", "quantifier": "all unit triangular factors and steps", "why_tests_cant": "a bound over all matrices", "anchors": ["src/hif/alg/Crout.hpp: update_kappa"]}
{"id": "C55", "title": "C verbosity constants mean what their names say", "statement": "Setting the C parameter LHF_VERBOSE to a documented LHF_VERBOSE_* constant enables the core verbosity class of the same name.", "quantifier": "all verbosity constants and their combinations", "why_tests_cant": "messages are not checked by tests", "anchors": ["libhifir/include/libhifir.h: LHF_VERBOSE_*", "src/hif/Options.h: HIF_VERBOSE_*", "libhifir/src/libhifir.cpp: create_params"]}
{"id": "C56", "title": "Drop tolerances reach the factor they are named after", "statement": "The factorization applies the user's tau_L to columns of L and tau_U to rows of U, with the documented first-level refinement.", "quantifier": "all option records and levels", "why_tests_cant": "only visible when tau_L and tau_U differ", "anchors": ["src/hif/alg/factor.hpp: determine_fac_pars, level_factorize"]}
{"id": "C57", "title": "Error committed by threshold dropping is bounded entry by entry", "statement": "When only the drop tolerances are active, every off-diagonal entry of L*D*U on the leading block and its borders differs from the scaled and permuted input by at most |d_a|*tau/(|kappa_a|*kappa_d), where a is the step at which the entry is eliminated; diagonal entries and kept positions are exact.", "quantifier": "all inputs, tolerances and deferral histories of a level", "why_tests_cant": "a bound over all matrices and all deferral decisions", "anchors": ["src/hif/alg/Crout.hpp", "src/hif/alg/thresholds.hpp: apply_num_dropping", "src/hif/alg/factor.hpp: level_factorize"]}
{"id": "C58", "title": "Preprocessing hands the factorization valid orderings and scalings", "statement": "After the preprocessing of a level, the row and column orderings are bijections stored with their inverses, all row and column scaling factors are positive, rows and columns beyond the requested leading size keep their place, and the leading block consists of exactly those permuted diagonals that are stored and not negligible in their row and column; an invalid reordering option or a failed matching is reported as an error.", "quantifier": "all matrices, options, levels, and all results of the matching and ordering packages within their contracts", "why_tests_cant": "depends on what the external packages return and on the order of several in-place rearrangements", "anchors": ["src/hif/pre/driver.hpp: do_preprocessing", "src/hif/pre/matching_scaling.hpp: do_maching", "src/hif/pre/EqlDriver.hpp: do_matching"]}
{"id": "C59", "title": "Iterative scaling is a positive equilibration", "statement": "iterative_scale ends after at most the given number of passes with positive row and column factors, the matrix is replaced by diag(r) B diag(c), and in the general case all magnitudes are at most one.", "quantifier": "all square matrices, tolerances and numbers of passes", "why_tests_cant": "zero rows and the accumulated effect of all passes", "anchors": ["src/hif/pre/a_priori_scaling.hpp: iterative_scale"]}
{"id": "C60", "title": "A matrix or vector written to a MatrixMarket file is read back unchanged", "statement": "Writing a valid sparse matrix with sorted lines and reading the file with the reader of the same format gives the same sizes, positions and values, array by array; reading it with the reader of the other format gives the same matrix; a vector is read back with the same length and values.", "quantifier": "all matrices and vectors, real and complex, whose numbers survive printing and scanning", "why_tests_cant": "every digit, separator and index of a text file of any size matters", "anchors": ["src/hif/utils/io.hpp: write_mm_sparse, write_mm_vector, read_mm_sparse, read_mm_vector", "src/hif/ds/CompressedStorage.hpp: from_mm"]}
{"id": "C61", "title": "Stored off-diagonal blocks are the scaled, permuted blocks of the level's input", "statement": "The blocks E and F kept for a level are exactly the trailing-rows/leading-columns and leading-rows/trailing-columns blocks of the scaled and permuted input of that level: same stored positions, values s_p(i) A_p(i)q(j) t_q(j), in exactly sized arrays; a leading block larger than the matrix is refused.", "quantifier": "all matrices, scalings, orderings and leading block sizes", "why_tests_cant": "every combination of sparsity pattern and permutation", "anchors": ["src/hif/alg/factor.hpp: extract_E, extract_F"]}
{"id": "C62", "title": "One level runs to the end and hands over a valid level and a valid next matrix", "statement": "For every valid square matrix a level of the factorization (conversion, preprocessing, incomplete factorization, splitting, dropping in the off-diagonal blocks, Schur complement, extraction of E and F) finishes without an out-of-range access; if it is kept, its factors are strictly triangular with nonzero pivots, its permutations are mutually inverse, and the matrix for the next level is a valid sorted matrix of dimension n-m; it goes to the dense solver exactly under the stated size criterion, which uses the same reference size (the option N, or the size of the user's matrix) at every level of a factorization. If the parameters drop nothing, level and next matrix together represent the input exactly, and the next matrix is nonsingular if the input is. A kept level obeys the growth thresholds of its level: every inverse pivot is at most kappa_d in magnitude, and both triangular factors have a solution for a right-hand side of plus and minus ones whose entries lie between one and kappa in magnitude.", "quantifier": "all valid square matrices, both storage formats, all dropping and conditioning parameters, all levels, all matchings and orderings keeping their contracts", "why_tests_cant": "the composition has to fit for every pattern, value and deferral decision", "anchors": ["src/hif/alg/factor.hpp: level_factorize (558-1316)"]}
{"id": "C63", "title": "Factorization without dropping followed by solve gives the solution of A x = b", "statement": "For every valid square input (0- or 1-based, row- or column-major) and whatever the object held before, factorize (without pivoting, with pivoting, or switching to pivoting automatically) completes or raises an exception of the dense factorization of the last block; the levels stored by a completed factorization are valid for solve and product. With parameters that drop nothing, a nonsingular matrix and an exact dense solver, factorize completes and solve returns for every right-hand side the solution of A x = b.", "quantifier": "all inputs, dimensions, numbers of levels, deferrals, right-hand sides and object histories", "why_tests_cant": "end-to-end statement over an unbounded number of levels and every deferral pattern", "anchors": ["src/hif/builder.hpp: factorize, _factorize_kernel, solve", "src/hif/alg/factor.hpp: level_factorize"]}
{"id": "C64", "title": "The dense solver QRCP solves, multiplies and transposes consistently for every rank", "statement": "For every square block that is not zero, factorize of the dense QR solver gives a rank k <= n and an order of the columns such that solve, with any rank up to the estimated one, never divides by zero and returns the basic least-squares solution in the leading columns of that order; multiply with rank k is the product with these columns and is undone by solve; the calls with the transpose flag are the adjoints of those without; every column of a call with several right-hand sides is what the single call gives; for nonsingular blocks the full-rank calls are exact, and with QRCP as the dense solver factorize without dropping followed by solve gives the solution of A x = b.", "quantifier": "all block sizes and values, all ranks, right-hand sides and numbers of right-hand sides", "why_tests_cant": "must hold for every rank and every matrix, including rank-deficient ones, and for pairs of vectors (adjointness)", "anchors": ["src/hif/small_scale/QRCP.hpp: factorize, _est_rank_2norm, _solve_nt, _solve_t, _multiply_nt, _multiply_t, solve_mrhs, multiply_mrhs"]}
{"id": "C65", "title": "Thresholded rook pivoting keeps the factorization of a level correct", "statement": "The incomplete factorization of a level with pivoting (row and column exchanges by the threshold gamma, deferrals, dropping) finishes without an out-of-range access for every input; its row and column orderings are permutations with inverses, rows and columns outside the leading block keep their order, and every step is kept or deferred and counted once; the factors are strictly triangular, sorted, obey the space limits and have acceptable pivots; the product of the stored factors and pivots reproduces the diagonal exactly whatever is dropped, the rest up to the entries dropped, and everything if nothing is dropped; the condition estimates are exact solutions bounded by kappa", "quantifier": "all inputs, dimensions, thresholds, orders of ties, patterns of exchanges and deferrals, dropping rules", "why_tests_cant": "every sequence of exchanges and deferrals must keep four index structures and two orderings consistent", "anchors": ["src/hif/alg/PivotCrout.hpp: PivotCrout", "src/hif/alg/pivot_factor.hpp: pivot_level_factorize (165-493)", "src/hif/ds/AugmentedStorage.hpp: AugmentedStorage"]}
{"id": "C66", "title": "One level with pivoting runs to the end and represents its matrix", "statement": "For every valid square matrix, every threshold gamma and every order of the pivot candidates a level of the factorization with pivoting finishes without an out-of-range access; if it eliminates anything, its factors are strictly triangular with nonzero pivots, its permutations are mutually inverse, and the matrix for the next level is a valid sorted matrix of dimension n-m; the deferral statistics add up. If the parameters drop nothing, level and next matrix together represent the input exactly, and the next matrix is nonsingular if the input is. A kept level obeys the growth thresholds of its level: every inverse pivot is at most kappa_d in magnitude, and both triangular factors have a solution for a right-hand side of plus and minus ones whose entries lie between one and kappa in magnitude.", "quantifier": "all valid square matrices, both storage formats, all dropping, conditioning and pivoting parameters, all levels, all matchings and orderings keeping their contracts", "why_tests_cant": "the composition has to fit for every pattern, value, exchange and deferral decision", "anchors": ["src/hif/alg/pivot_factor.hpp: pivot_level_factorize (64-757)", "src/hif/alg/PivotCrout.hpp: PivotCrout"]}
{"id": "C67", "title": "Rook pivoting meets its threshold", "statement": "In a level with pivoting, whatever is dropped, all kept steps except for at most one per deferral and one per four exchanges of columns end with a pivot that is at least gamma times (gamma <= 1) what is left of every later kept column in the pivot's row and of every later kept row in the pivot's column, as far as exchanging with them would keep the condition estimates within kappa; the stored entries there are at most 1/gamma. If nothing is deferred and fewer than four columns were exchanged this holds for every pivot. With gamma <= 0 nothing is exchanged.", "quantifier": "all inputs, thresholds, dropping routines, conditioning limits and (for ties) all sorting orders", "why_tests_cant": "a claim about every step of every elimination; it depends on the interplay of row search, column search, the limit of four rounds and the acceptance test", "anchors": ["src/hif/alg/PivotCrout.hpp: apply_thres_pivot, interchange", "src/hif/alg/pivot_factor.hpp: pivot_level_factorize (pvt_l_op, pvt_u_op)"]}
{"id": "C68", "title": "The symmetric incomplete factorization of a level is L D L^T with the promised ordering, form and error", "statement": "For every symmetric level the incomplete factorization (one factor computed and stored) finishes without an out-of-range access; its single ordering is a permutation with inverse, static and deferred rows keep their order, every step is kept or deferred and counted once; L is valid, sorted, strictly triangular and obeys the space limit; each stored entry is the exact residual of what is stored or absent; L D L^T reproduces the scaled matrix in the leading rows and columns if nothing is dropped and up to the threshold bound otherwise; the condition estimate is an exact solution bounded by kappa; with spd > 0 (< 0) all pivots are positive (negative), so L D L^T is definite whatever is dropped.", "quantifier": "all symmetric inputs, dimensions, scalings, orderings, thresholds, deferral patterns and dropping rules", "why_tests_cant": "every deferral pattern must keep the single factor, its linked lists and the ordering consistent; definiteness is a claim about all vectors", "anchors": ["src/hif/alg/symm_factor.hpp: symm_level_factorize (236-440)", "src/hif/alg/Crout.hpp: Crout"]}
{"id": "C69", "title": "One symmetric level runs to the end and hands over symmetric data", "statement": "For every valid symmetric matrix with symmetric pattern a level of the symmetric factorization finishes without an out-of-range access; if it is kept, its factors satisfy U = L^T and F = E^T with one scaling and one permutation on both sides, its pivots are nonzero with the sign asked for, and the matrix for the next level is valid, symmetric and has a symmetric pattern; the deferral statistics add up; the Schur complement goes to the dense solver exactly under the stated criterion. If the parameters drop nothing, level and next matrix together represent the input exactly. A kept level obeys the growth thresholds of its level: every inverse pivot is at most kappa_d in magnitude, and both triangular factors have a solution for a right-hand side of plus and minus ones whose entries lie between one and kappa in magnitude.", "quantifier": "all valid symmetric matrices, both storage formats, all dropping and conditioning parameters, all levels, all matchings and orderings keeping their contracts", "why_tests_cant": "symmetry of values and of the pattern has to survive preprocessing, deferral, dropping and the Schur complement of every input", "anchors": ["src/hif/alg/symm_factor.hpp: symm_level_factorize (126-675), make_transpose"]}
{"id": "C70", "title": "A symmetric factorization gives a symmetric, and with spd a definite, preconditioner", "statement": "For every valid symmetric input and whatever the object held before, factorize with is_symm completes or raises an exception of the dense factorization; every stored level is symmetric. Whatever is dropped, solve is then a symmetric operator (c.solve(b) = solve(c).b), the transposed solve returns the same vector as the solve, and with spd > 0 (< 0) and a definite last block b.solve(b) > 0 (< 0) for every b != 0. With parameters that drop nothing, a nonsingular matrix and an exact dense solver, solve returns the solution of A x = b; with SYEIG as that solver and a matrix whose declared definiteness is true, so does the default call.", "quantifier": "all symmetric inputs, dimensions, numbers of levels, deferrals, dropping parameters, pairs of right-hand sides and object histories", "why_tests_cant": "a statement about all pairs of vectors and an unbounded number of levels", "anchors": ["src/hif/builder.hpp: factorize, _factorize_kernel, solve", "src/hif/alg/symm_factor.hpp: symm_level_factorize"]}
{"id": "C71", "title": "The weighted matching completes and returns a permutation with positive scalings", "statement": "For every valid square matrix with at least one entry, no repeated index in a line, no stored zero and no line longer than about half the dimension, eql::Equilibrator::compute terminates without accessing anything outside its work arrays (whatever they contain), without forming infinite or undefined numbers, and returns flag 0 or 1, an array whose absolute values are a permutation of 1..n, and positive finite scaling factors; a matrix without lines or entries is reported by a negative flag.", "quantifier": "all such matrices of every dimension and every content of the work arrays", "why_tests_cant": "heap, search tree and entry lists share arrays; their layout must be right for every search of every matrix", "anchors": ["src/hif/pre/equilibrate.hpp: compute (67-160), kernel (388-694), kernel_, kernel__, kernel___, cleanup, Equilibrator (724-798)", "src/hif/pre/EqlDriver.hpp"]}
{"id": "C72", "title": "Matched entries scale to 1, all others to at most 1, and their product is maximal", "statement": "If the matching returns flag 0, then |b_ij| t_i s_j <= 1 for every stored entry, with equality for the entries that the permutation moves to the diagonal; hence no other matching of the pattern has a larger product of magnitudes.", "quantifier": "all matrices as in C71 with flag 0, all entries, all permutations", "why_tests_cant": "optimality compares with all n! matchings", "anchors": ["src/hif/pre/equilibrate.hpp: kernel, cleanup, compute (119-152), Equilibrator::s, Equilibrator::t"]}
{"id": "C73", "title": "The matching finds the structural rank", "statement": "The number of indices matched to a stored entry equals the structural rank (no larger set of lines can be given distinct stored indices), and the flag is 0 exactly if the matrix is structurally nonsingular.", "quantifier": "all matrices as in C71 and all sets of lines with an assignment of indices", "why_tests_cant": "a failed search has to certify that no assignment exists at all, also after later augmentations", "anchors": ["src/hif/pre/equilibrate.hpp: kernel (main loop), compute (146-152)"]}
{"id": "C74", "title": "AMD returns a permutation of every pattern", "statement": "The approximate minimum degree ordering, called with any valid compressed pattern (columns sorted or not, with or without repeated entries, symmetric or not, empty columns, dense rows), ends, never reads or writes outside its arrays (in particular the workspace of 7 n + 1.2 nnz integers is enough), and returns a permutation; a pattern with unsorted columns is ordered like its sorted transpose; a row index out of range is refused with an error.", "quantifier": "all dimensions, patterns, thresholds for dense rows, values at which the marks are reset, initial contents of the work arrays, with and without aggressive absorption", "why_tests_cant": "quotient graph, degree lists, hash buckets and garbage collection share arrays; a broken list shows up only for particular graphs after particular eliminations", "anchors": ["src/hif/pre/amd.hpp: order, valid, one, two, postorder", "src/hif/pre/reordering.hpp: run_amd"]}
{"id": "C75", "title": "The postorder of the elimination tree is a postorder", "statement": "Given a forest on the nodes of positive weight, the postordering numbers exactly these nodes 0, 1, 2, ... without repetition, every node before its parent, and marks the others, whatever the front sizes.", "quantifier": "all dimensions, forests, weights, front sizes >= -1 and initial contents of the work arrays", "why_tests_cant": "depends on the shape of the forest, and the largest child is moved within linked lists", "anchors": ["src/hif/pre/amd.hpp: postorder, post_tree"]}
{"id": "C76", "title": "AMD works on the pattern of A + A'", "statement": "For a pattern with sorted columns, every pair of distinct indices with an entry in position (i,j) or (j,i) is visited exactly once, the list length of an index is the number of its neighbours in A + A' and their sum is returned; a pattern with unsorted or repeated entries is first replaced by its transpose with sorted columns and no repetition.", "quantifier": "all dimensions and patterns", "why_tests_cant": "the merge of the upper and lower triangle advances one pointer per column and relies on the order of all earlier columns", "anchors": ["src/hif/pre/amd.hpp: aat, one, preprocess, valid"]}
{"id": "C77", "title": "LU dense solver: exact solves, faithful rank", "statement": "If the library is compiled with LU as the dense solver: factorizing any square block that is nonsingular reports full rank, solve returns the solution of A x = b for every right-hand side (also column by column for several), multiply returns A x, each undoes the other, also with the transpose flag, and refactorize reproduces the factorization; full rank is reported exactly for nonsingular blocks, the rank is the number of leading columns before the first dependent one, and a singular block is never solved silently. In the real case the whole preconditioner with nothing dropped is then exact.", "quantifier": "all sizes, all matrices over a field, all right-hand sides, ranks passed, and previous contents of the solver object", "why_tests_cant": "tests use a few well-conditioned blocks; row exchanges compose over all steps and the transposed solve applies them backwards", "anchors": ["src/hif/small_scale/LUP.hpp: set_matrix, factorize, refactorize, solve, solve_mrhs, multiply, full_rank", "src/hif/small_scale/lapack.hpp: getrf, getrs, gemv"]}
{"id": "C78", "title": "The GMRES and FGMRES drivers are truthful", "statement": "For real systems, the drivers gmres_hif and fgmres_hifir never access memory outside their workspace, use at most maxit iterations, never return a vector worse than x = 0, and their flag is truthful: SUCCESS means the relative residual of the returned vector is at most rtol or all iterations are used, STAGNATED means the tolerance is missed (up to the factor 1 - 1e-8), DIVERGED means all iterations are used. With a linear preconditioner M such that A M is injective there is no breakdown, the result is at least as good as the best step along M b, and if M inverts A the exact solution is returned with SUCCESS after one iteration; in particular this holds for the factorization with nothing dropped as preconditioner.", "quantifier": "all real matrices, right-hand sides, preconditioners (FGMRES: any function), restart lengths, tolerances, iteration limits (FGMRES: at most 31 outer iterations) and initial contents of the workspace", "why_tests_cant": "the claim compares the recurrence for the residual norm with the true residual after any number of rotations and restarts", "anchors": ["examples/advanced/gmres.hpp: gmres_hif, fgmres_hifir", "src/hif/utils/math.hpp: inner, norm2, norm2_sq"]}
{"id": "C79", "title": "Threaded dropping in the off-diagonal blocks equals the serial one", "statement": "For every pair of off-diagonal blocks, every number of threads and every interleaving of their work on single lines, the threaded dropping of L_E and U_F ends without error, cannot get stuck, and returns exactly the blocks the two serial calls return; so every line keeps its ceil(alpha * reference count) largest entries. This assumes positive limiters and that OpenMP delivers the threads asked for: with one thread where two are asked for L_E is not dropped at all, and with a limiter of zero the threaded version is undefined where the serial one clears the block.", "quantifier": "all blocks, limiters > 0, numbers of threads, interleavings and initial contents of the work arrays", "why_tests_cant": "every interleaving of unboundedly many threads writing into shared index arrays must give the same result", "anchors": ["src/hif/alg/Schur.hpp: mt::drop_L_E_and_U_F (404-565), mt::uniform_partition", "src/hif/alg/Schur.hpp: drop_L_E, drop_U_F"]}
{"id": "C80", "title": "Exporting a level is faithful", "statement": "For every level that factorize stores and that eliminates something (whether or not factorize completes, whatever the object held before, symmetric or not), and for arrays allocated by the answers of inquire_sizes, export_sparse_data (in row- or column-major format) writes only inside the arrays and leaves in them valid matrices L, U, E, F with the same entries, the diagonal, both scalings and all four permutations; a preconditioner built again from its exported levels solves every right-hand side with the same result, also transposed. inquire_or_export_dense returns the shape and then the matrix of the final block. With jit_destroy everything but L is freed and the level reports m = n = 0. Exception: a level that eliminates nothing has default-constructed factors, whose column-major export reads an empty array.", "quantifier": "all levels, formats, preconditioners of any number of levels, right-hand sides and initial contents of the arrays", "why_tests_cant": "a faithful export must hold for every sparsity pattern and block size; equality of solves is a claim about all right-hand sides", "anchors": ["src/hif/alg/Prec.hpp: inquire_sizes, export_sparse_data, inquire_or_export_dense", "src/hif/ds/CompressedStorage.hpp: export_compressed_data (2715-2727), convert_storage"]}
{"id": "C81", "title": "Native binary files return the matrix that was written", "statement": "A matrix (CRS or CCS, real or complex) written with write_bin and read with read_bin or from_bin has the same dimensions and the same arrays; read in the other storage order it is a valid matrix with the same entries. Integer types may differ as long as the stored numbers are representable, floating-point formats too (values converted). Reading never depends on the previous contents of the object or of memory. A real matrix refuses a complex file and vice versa, and a missing file or one whose writing stopped before the value array was created is refused with an error; in these cases the object is unchanged. Exceptions: pointers too large for the reader's integer type are silently reduced modulo 2^32, and a file whose value array was created but never written is read as a matrix of zeros.", "quantifier": "all matrices, storage orders, integer types of 32 or 64 bits, floating-point formats, points at which writing stops, and previous contents", "why_tests_cant": "the test writes one small matrix with one choice of types; the claim ranges over all type combinations, sizes and interruption points", "anchors": ["src/hif/utils/io.hpp: write_bin, read_bin", "src/hif/ds/CompressedStorage.hpp: CRS::read_bin, CRS::write_bin, CRS::from_bin, CCS::read_bin, CCS::write_bin, CCS::from_bin"]}
{"id": "C82", "title": "Wrapping user arrays with the check accepts exactly the valid matrices", "statement": "wrap_const_crs and wrap_const_ccs with check = true return a matrix if and only if the user's pointer array starts at 0 and never decreases, in every line the indices strictly increase and lie between 0 and the other dimension; the returned matrix has exactly the user's pointers, indices and dimensions and passes the library's own validation. The code keeps this promise only if no index is negative and, for columns, if the matrix is square: a negative index that is not the last of its line is accepted, a column-major matrix with fewer rows than columns is checked only in part, and the check of one with more rows than columns reads past the pointer array.", "quantifier": "all dimensions, pointer arrays and index arrays", "why_tests_cant": "the claim is an equivalence over all integer arrays; no test can exhaust the invalid inputs", "anchors": ["src/hif/ds/CompressedStorage.hpp: wrap_const_crs (1760-1801), wrap_const_ccs (2661-2703), CompressedStorage(n, ind_start, indices, vals, wrap)"]}
{"id": "C83", "title": "A failure of LAPACK in the last block surfaces as an exception, and nothing else makes factorize fail", "statement": "For every valid square matrix, singular or not, every parameter and every history of the object, and whatever numbers LAPACK returns, factorize either completes or raises an exception about the failure LAPACK reported for the dense block (?geqp3 or ?getrf with negative info, ?syev with nonzero info); in particular it never returns normally with a dense block whose factorization was reported as failed, and with a LAPACK that never reports a failure every valid matrix can be factorized.", "quantifier": "all valid inputs, parameters, object histories and all values LAPACK may return", "why_tests_cant": "the behaviour of LAPACK on failure cannot be provoked at will, and the blocks it is given depend on the whole factorization", "anchors": ["src/hif/small_scale/QRCP.hpp: factorize", "src/hif/small_scale/LUP.hpp: factorize", "src/hif/small_scale/SYEIG.hpp: factorize", "src/hif/alg/factor.hpp: level_factorize", "src/hif/alg/symm_factor.hpp: symm_level_factorize"]}
{"id": "C84", "title": "Factorizing with a symmetric leading block", "statement": "For every valid square matrix whose leading m0 rows and columns form a symmetric block (0 < m0 <= n), every setting of the options and every history of the object, factorize(A, params, m0) raises an exception only if the dense factorization does, and otherwise stores valid levels. The first level eliminates at most m0 unknowns, its two triangular factors are transposes of each other although only one is computed, and the matrix handed to the next level is valid and has the remaining dimension. With nothing dropped and a nonsingular matrix, solve afterwards returns the exact solution of A x = b for every b, although the rest of the matrix need not be symmetric. Exception: with the option no_pre the code ignores m0 and treats the whole matrix as the symmetric block, so the promise holds only for m0 = n.", "quantifier": "all valid square matrices, storage orders, index bases, block sizes m0, options, object histories and right-hand sides", "why_tests_cant": "the code computes one factor only and copies it; whether this is right for every symmetric block, every deferral of rows inside the block and every dropping pattern cannot be settled by running examples", "anchors": ["src/hif/alg/factor.hpp: level_factorize<true>", "src/hif/alg/Crout.hpp: compute_ut, compute_l with IsSymm, update_L_start, update_compress, defer_entry", "src/hif/builder.hpp: factorize, _factorize_kernel"]}
{"id": "C85", "title": "Symmetric factorization with a leading block", "statement": "For every valid symmetric matrix with symmetric pattern, every m0 with 0 < m0 <= n whose leading block stores an entry, every setting of the options and every history of the object, the symmetric factorize(A, params, m0) raises an exception only if the dense factorization does, and otherwise stores valid symmetric levels whose pivots have the sign asked for by spd; the block left to the dense solver is symmetric. With preprocessing the first level tries at most m0 unknowns, and stats(0) counts exactly the rows of the leading block it did not eliminate. With nothing dropped and a nonsingular matrix, solve afterwards returns the exact solution of A x = b for every b.", "quantifier": "all valid symmetric matrices, storage orders, index bases, block sizes m0, options, signs, object histories and right-hand sides", "why_tests_cant": "restricting the matching and the ordering to a leading block, extending their permutation to the rest, and carrying symmetry of values, pattern and scaling through all levels has to work for every block size and every matrix", "anchors": ["src/hif/alg/symm_factor.hpp: symm_level_factorize", "src/hif/pre/driver.hpp: do_preprocess", "src/hif/builder.hpp: factorize, _factorize_kernel"]}
{"id": "C86", "title": "Memory of the triangular factors is linear in the input, and the reference sizes behind this bound follow the rows", "statement": "For every valid square matrix with at least one entry, every pivoting mode and every history of the object, factorize (whole leading block, m0 = 0) bounds the lines of L and U by reference sizes taken once from the user's matrix: the size of a row or column is the larger of its number of entries and 0.85 nnz / n rounded up, and a row or column deferred to a later level keeps its size there, whatever permutations lie in between. With positive alpha_L and alpha_U all levels together store at most 8 alpha_U (1.85 nnz + n) + n entries in U and 8 alpha_L (1.85 nnz + n) + n in L, for every number of levels and whatever the dense solver does; the symmetric factorization stores at most 2 alpha_L (1.85 nnz + n) + n in each. Carrying the sizes along never makes factorize fail, and with nothing dropped and a nonsingular matrix solve returns the exact solution.", "quantifier": "all valid square (symmetric) matrices with an entry, pivoting modes, parameters, dense solvers and object histories", "why_tests_cant": "the number of levels is unbounded and every level grants its lines space anew; that the sum over all levels stays linear depends on each row being granted space by its own original size", "anchors": ["src/hif/builder.hpp: factorize (row_sizes, col_sizes), _factorize_kernel", "src/hif/alg/factor.hpp: level_factorize (629-653, 1243-1257)", "src/hif/alg/pivot_factor.hpp: pivot_level_factorize (105-124, 696-707)", "src/hif/alg/symm_factor.hpp: symm_level_factorize (165-178, 609-614)", "src/hif/alg/thresholds.hpp: apply_space_dropping"]}
{"id": "C87", "title": "Refinement converges geometrically when the preconditioner is close to the matrix", "statement": "If ||I - M^{-1}A|| <= rho in some measure of vectors, N >= 1 iterations of hifir(A, b, N, x) reduce the error to at most rho^N times the norm of the solution; if ||I - A M^{-1}|| <= rho they reduce the residual to at most rho^N ||b||, whether or not A is singular, also for the transposed system. With bounds (N >= 2, ||b|| > 0, rho <= 1) the residual after the reported number of iterations is at most rho^iterations ||b||, divergence is never reported if rho <= beta_1, and success is reported after at most j iterations as soon as rho^j <= beta_0 for some j < N; if rho < 1 a number of iterations independent of b suffices. In particular a factorization of A with nothing dropped serves every matrix A' with ||(A - A')z|| <= rho ||A z||: refinement with A' reduces the residual of the A' system by rho per iteration.", "quantifier": "all preconditioners, matrices, right-hand sides, iteration counts, bounds, contraction rates, histories of the object", "why_tests_cant": "a rate of convergence is a statement about all right-hand sides and all numbers of iterations", "anchors": ["src/hif/alg/IterRefine.hpp: iter_refine", "src/hif/builder.hpp: hifir"]}
{"id": "C88", "title": "Native ASCII files: what is written is read back, and any text is read safely", "statement": "write_ascii refuses inconsistent arrays (no start position, different numbers of indices and values, last minus first position not the number of indices) and otherwise produces a file from which read_ascii delivers the same start positions, indices, values, storage order, sizes and leading block size; query_info_ascii reports the same. Empty lines and lines starting with # in front are skipped, and files with one-based indices are made zero-based. Whatever the text, read_ascii never accesses memory outside the arrays; if it returns, the arrays have the sizes it reports and the query agrees with it.", "quantifier": "all arrays, storage orders, index values, values, texts", "why_tests_cant": "the format is defined by all files of a layout; a test reads back a few matrices", "anchors": ["src/hif/utils/io.hpp: write_ascii, query_info_ascii, read_ascii"]}
{"id": "C89", "title": "Dense matrices: sizes, entries and views belong together through every history", "statement": "Through every history of constructions (sizes, fill value, copied or wrapped memory), shallow and deep copies, moves, assignments, resizes, entry writes and destructions of DenseMatrix objects, no memory is used after being freed, freed twice or leaked, size() == nrows() * ncols() for every object that has not been moved from, and A(i, j), the column iterators and the strided row iterators show one and the same matrix: they meet exactly its entries, in order, and nothing outside. Writing A(i, j) changes this entry and no other one; resize gives the requested sizes and keeps the entries in column-major order (in place if the number of rows stays); copies have the sizes and entries of the original and deep copies are independent.", "quantifier": "all histories of operations on any number of objects, all sizes, indices, values", "why_tests_cant": "sizes and memory are kept in two places and shared between copies; that they agree is a statement about all histories", "anchors": ["src/hif/ds/DenseMatrix.hpp: DenseMatrix, StrideIterator, resize, operator(), col_begin, col_end, row_begin, row_end", "src/hif/ds/Array.hpp: Array, resize"]}
{"id": "C90", "title": "The text of the options shows every option", "statement": "opt_repr(opt) has one line per option, in the order of the declaration: the name, spaces, and the value; reading the line of an option back gives the value it has (integers exactly, reals as printed, the reordering, the input check, the pivoting mode and the enabled classes of messages by their names). Hence options with the same text have the same integer options and equally printed real ones. get_verbose names the enabled classes of messages in order, separated by commas.", "quantifier": "all option records", "why_tests_cant": "whether a line may be missing, shifted or attributed to another option depends on all values at once, including negative ones and unnamed flags", "anchors": ["src/hif/Options.h: opt_repr, get_verbose, get_reorder_name"]}
{"id": "C91", "title": "Applying the preconditioner is one fixed linear operator, whatever the rank of the last block", "statement": "As long as no factorization or clear intervenes, solve with a given rank and transpose flag multiplies the right-hand side by one and the same matrix: the result does not depend on the previous contents of the solution vector or of the work space, nor on what was applied in between (with any rank, products, refinement, several right-hand sides), so it is linear and repeatable and the object can serve as preconditioner of a non-flexible Krylov method. With real scaling factors the matrix of the transposed solve is the conjugate transpose of the matrix of the solve, also if the last block is singular or its rank is truncated. The dense solvers fulfil what this needs for every rank they can solve with.", "quantifier": "all preconditioners with any number of levels, ranks, right-hand sides, contents of the vectors, histories of applying calls", "why_tests_cant": "independence of earlier calls and of uninitialized memory and linearity are statements about all histories and all pairs of vectors; truncated ranks leave no exact reference solution to compare with", "anchors": ["src/hif/builder.hpp: solve", "src/hif/alg/prec_solve.hpp: prec_solve, prec_solve_tran", "src/hif/small_scale/QRCP.hpp: solve", "src/hif/small_scale/SYEIG.hpp: solve"]}
{"id": "C92", "title": "Refinement with a preconditioner of any rank returns the explicit iterates", "statement": "Refinement with N iterations returns exactly x_N of x_0 = 0, x_{j+1} = x_j + W (b - A x_j), where W is the matrix by which solve multiplies (also if the last block is singular or solved with a truncated rank), at every point of a history of applying calls and for A and its conjugate transpose; for a consistent system A x* = b the error is x* - x_N = (I - W A)^N x*; bounded refinement returns one of these iterates with an honest iteration count and flag.", "quantifier": "all preconditioners with any number of levels and any rank, operators, right-hand sides, iteration counts, norms, bounds, histories of applying calls", "why_tests_cant": "equality with a recursion for every N and after every history; a singular W leaves no exact solution to compare with", "anchors": ["src/hif/builder.hpp: hifir", "src/hif/alg/IterRefine.hpp: iter_refine"]}
{"id": "C93", "title": "Products and solves with the preconditioner are a consistent pair for every rank", "statement": "mmultiply with a given rank multiplies by one fixed matrix (its conjugate transpose with the transpose flag and real scalings), independent of earlier calls and of uninitialized memory. Solve and mmultiply with the same rank are generalized inverses of each other, also if the last block is singular or truncated: solving, multiplying the result and solving again gives the first solution; multiplying, solving and multiplying again gives the first product. This holds with the transpose flag too, at any points of a history of applying calls.", "quantifier": "all preconditioners with any number of levels, ranks, vectors, contents of outputs and work space, histories of applying calls", "why_tests_cant": "for a truncated rank neither call inverts the other, so there is no reference value to compare with; the identities are about all vectors and histories", "anchors": ["src/hif/builder.hpp: solve, mmultiply", "src/hif/alg/prec_prod.hpp: prec_prod, prec_prod_tran", "src/hif/alg/prec_solve.hpp: prec_solve, prec_solve_tran", "src/hif/small_scale/QRCP.hpp: solve, multiply", "src/hif/small_scale/SYEIG.hpp: solve, multiply"]}
{"id": "C94", "title": "Solving and refining with a null-space filter", "statement": "With a filter set, every solve returns the filter applied to what it would return without filters, and only the filter of the requested direction (normal or transposed) is used. With the constant filter on [s, e) the answer is the unfiltered solution minus its mean on that range, its sum there is zero, and so is the sum of every answer of fixed-count and of bounded refinement, whatever the system, the iteration count and the stopping reason; refinement filters every correction and the bounded one still reports honestly. If the range does not fit the vector, the solve fails with an error instead of returning an unfiltered vector, and factors and filters stay. All this holds for every rank of the last block and at every point of a history of applying calls.", "quantifier": "all preconditioners with any number of levels and any rank, pairs of filters, ranges, vectors, operators, iteration counts, bounds, histories of applying calls", "why_tests_cant": "the zero-sum property must hold for all right-hand sides, counts and stopping reasons; a wrong filter for the transposed direction shows only if both are set and differ", "anchors": ["src/hif/builder.hpp: solve, hifir, nsp, nsp_tran", "src/hif/NspFilter.hpp: filter", "src/hif/alg/IterRefine.hpp: iter_refine"]}
{"id": "C95", "title": "Factorizing any square matrix gives a consistent pair of solves and products", "statement": "For every valid square matrix, singular or not, with every mode of pivoting and every dropping parameter, factorize (dense QR for the last block, with or without a leading block declared symmetric) completes whatever the object held before. Afterwards, unless the block left to the dense solver is entirely zero, for every rank up to the numerical one (0 selects it) solve and mmultiply are products with fixed matrices W and M with W M W = W and M W M = M, the same with the transpose flag (over the reals with the transposed matrices), and iterative refinement with N iterations against a system matrix A returns the N-th iterate of x + W (b - A x) started at zero, at every point of a history of applying calls and independent of what the vectors contained. The same for the symmetric factorization of a symmetric matrix with any declared definiteness (dense eigenvalue solver), unless an eigenvalue within the numerical rank is zero.", "quantifier": "all valid square matrices and dimensions, dropping parameters, pivoting modes, previous states of the object, ranks up to the numerical rank, histories of applying calls, vectors", "why_tests_cant": "it composes the factorization of every level with every later call; for singular matrices and with dropping there is no reference solution to compare with", "anchors": ["src/hif/builder.hpp: factorize, solve, mmultiply", "src/hif/alg/factor.hpp: level_factorize", "src/hif/alg/pivot_factor.hpp: pivot_level_factorize", "src/hif/alg/symm_factor.hpp: symm_level_factorize", "src/hif/small_scale/QRCP.hpp: factorize, solve, multiply", "src/hif/alg/IterRefine.hpp: iter_refine", "src/hif/small_scale/SYEIG.hpp: factorize, solve, multiply"]}
{"id": "C96", "title": "The preconditioner of a symmetric factorization is symmetric for every rank", "statement": "For every valid symmetric matrix with symmetric pattern, singular or not, every declared definiteness and every dropping parameter, after the symmetric factorize (dense eigenvalue solver for the last block), unless an eigenvalue within the numerical rank is zero: for every rank up to the numerical one (0 selects it) solve multiplies by a symmetric matrix W and mmultiply by a symmetric matrix M with W M W = W and M W M = M, iterative refinement with any number of iterations against any symmetric system matrix multiplies by a symmetric matrix too, and the transpose flag changes nothing, at every point of a history of applying calls and independent of what the vectors contained. So the object can precondition conjugate gradients or MINRES even when it is truncated.", "quantifier": "all valid symmetric matrices and dimensions, declared definiteness, dropping parameters, previous states of the object, ranks up to the numerical rank, histories of applying calls, vectors, both values of the transpose flag", "why_tests_cant": "symmetry relates the results of two calls with different arguments for every pair of vectors; a test compares a few pairs up to rounding, at full rank", "anchors": ["src/hif/builder.hpp: factorize, solve, mmultiply", "src/hif/alg/symm_factor.hpp: symm_level_factorize", "src/hif/small_scale/SYEIG.hpp: factorize, solve, multiply", "src/hif/alg/prec_solve.hpp: prec_solve, prec_solve_tran", "src/hif/alg/prec_prod.hpp: prec_prod, prec_prod_tran", "src/hif/alg/IterRefine.hpp: iter_refine"]}
{"id": "C97", "title": "A declared definiteness makes the truncated preconditioner semidefinite", "statement": "For every valid real symmetric matrix with symmetric pattern, singular or not, and every dropping parameter, after the symmetric factorize with a declared sign (positive or negative definite; dense eigenvalue solver for the last block), unless an eigenvalue within the numerical rank of the last block does not have the declared sign: for every rank up to the numerical one (0 selects it) every result y of solve and of mmultiply for b satisfies b.y >= 0 (declared positive) or b.y <= 0 (declared negative), with or without the transpose flag, at every point of a history of applying calls.", "quantifier": "all valid real symmetric matrices and dimensions, both signs, dropping parameters, previous states of the object, ranks up to the numerical rank, histories of applying calls, vectors, both values of the transpose flag", "why_tests_cant": "a sign of a quadratic form over all vectors, for every truncation and dropping; a test samples vectors", "anchors": ["src/hif/builder.hpp: factorize, solve, mmultiply", "src/hif/alg/symm_factor.hpp: symm_level_factorize", "src/hif/small_scale/SYEIG.hpp: factorize, solve, multiply"]}
