#!/usr/bin/env python3
"""Source of /verif/properties.jsonl (one tuple per property)."""
import json
CS="src/hif/ds/CompressedStorage.hpp"
P=[]
def p(id,title,statement,quantifier,why,anchors):
    P.append(dict(id=id,title=title,statement=statement,quantifier=quantifier,why_tests_cant=why,anchors=anchors))

p("C01","Sparse matrix-vector product is exact and in bounds",
"For every well-formed CRS or CCS matrix A and every input vector x, the product routines return y with y_i = sum over stored entries of A_ij x_j for every row i, and touch no memory outside the arrays they are given.",
"all matrices (any size, any sparsity, empty rows, rectangular), all vectors, both storage orders",
"a test fixes a handful of sparsity patterns; index arithmetic errors show up only for particular patterns (empty rows, last row, rectangular shapes)",
[CS+": CRS::multiply_nt_low, CRS::multiply_nt, CCS::multiply_nt_low, CCS::multiply_nt"])
p("C02","Hermitian-transpose product is exact",
"For every well-formed CRS or CCS matrix A and vector x, the transpose product routines return y with y_j = sum_i conj(A_ij) x_i for every column j.",
"all matrices with at least one primary line, all vectors, both storage orders, real and complex",
"random tests are usually real, so conjugation mistakes and empty-matrix cases are not exercised",
[CS+": CRS::multiply_t_low, CCS::multiply_t_low, multiply_t"])
p("C03","Multi-right-hand-side products agree column by column with the single product",
"For every number of right-hand sides k, column c of the multi-RHS (transpose) product of A with X equals the single-RHS (transpose) product of A with column c of X.",
"all matrices, all X, all k >= 1, real and complex",
"must hold for every k and every complex value; tests sample real data and small k",
[CS+": CRS::multiply_mrhs_nt_low, CRS::multiply_mrhs_t_low, CCS::multiply_mrhs_nt_low, CCS::multiply_mrhs_t_low"])
p("C04","Threaded product equals serial product under every interleaving",
"For every thread count and every interleaving of the threads' row writes, the multi-threaded product leaves exactly the serial product in the output vector; the row ranges given to the threads partition the rows.",
"all matrices, vectors, thread counts and schedules",
"a test observes only the schedules the machine happens to produce",
["src/hif/utils/mt.hpp: uniform_partition","src/hif/utils/mt_mv.hpp: multiply_nt",CS+": CRS::multiply_nt_low(x,istart,len,y)"])
p("C05","Unit-triangular solves are exact",
"For every strictly lower (upper) triangular CRS or CCS matrix T and right-hand side b, the in-place solve leaves x with (I+T) x = b (for the solves that sweep backwards: for every nonempty T, as the code asserts).",
"all sizes (nonzero for the backward sweeps), all strictly triangular sparsity patterns, all b",
"substitution order errors depend on the pattern and on the size (first/last row)",
[CS+": solve_as_strict_lower, solve_as_strict_upper (CRS and CCS)"])
p("C06","Hermitian-transposed unit-triangular solves are exact",
"For every strictly lower (upper) triangular matrix T and b, the transposed in-place solve leaves x with (I+T)^H x = b (for the solves that sweep backwards: for every nonempty T, as the code asserts).",
"all sizes (nonzero for the backward sweeps), patterns and b, real and complex",
"needs complex data and every pattern; tests only sample",
[CS+": solve_as_strict_lower_tran, solve_as_strict_upper_tran (CRS and CCS)"])
p("C07","Multi-RHS triangular solves agree with the single-RHS solves",
"For every number of right-hand sides, each column of the multi-RHS triangular solve equals the corresponding single-RHS solve, for all four triangular variants and both storage orders.",
"all strictly triangular matrices, all blocks of right-hand sides",
"there is one code path per variant and storage order; a test of one says nothing about the others, and boundary rows are easily missed",
[CS+": solve_as_strict_*_mrhs, solve_as_strict_*_mrhs_tran (CRS and CCS)"])
p("C08","Changing storage order preserves the matrix",
"Converting a well-formed CRS matrix to CCS (or back) yields a well-formed matrix with exactly the same entry at every position and the same number of nonzeros; converting back returns the original arrays.",
"all well-formed matrices, rectangular included",
"counting-sort pointer shifting is right for most patterns even when off by one for empty leading/trailing lines",
[CS+": internal::convert_storage, CRS(const CCS&), CCS(const CRS&)"])
p("C09","Input validation accepts exactly the well-formed matrices",
"check_validity returns without error iff the pointer array is monotone, starts at zero and matches the array lengths, and every line has strictly increasing in-range indices; after it succeeds no kernel can index out of range.",
"all candidate triples of arrays, including malformed ones",
"soundness of a validator is a statement about every malformed input",
[CS+": CompressedStorage::check_validity"])
p("C10","Line-by-line assembly reproduces the pushed lines",
"After begin-assemble, any sequence of line push-backs and end-assemble, line k of the matrix is exactly the k-th pushed list of index/value pairs and the total nonzero count is the sum of the lengths.",
"all numbers and lengths of pushed lines, one-list and two-list pushes",
"depends on the whole history of pushes",
[CS+": _begin_assemble_rows, _push_back_primary, _end_assemble_rows"])
p("C11","Permuted and leading-block extraction",
"For all permutations p and q, compute_perm(p, q^{-1}) returns a well-formed matrix whose (i,j) entry is A(p_i,q_j); with a leading size m it is the leading m-by-m block of that; extract_leading(m) returns the leading m-by-m block of A.",
"all matrices, all permutation pairs, all leading sizes",
"the number of permutations is factorial; sorted output must hold for all of them",
[CS+": _compute_perm, compute_perm, _extract_leading, extract_leading"])
p("C12","Splitting by leading size loses and duplicates nothing",
"Splitting a matrix at secondary index m gives two blocks: entries with secondary index < m keep their index, the rest are shifted down by m; together they contain every stored entry exactly once.",
"all matrices with sorted lines, all m",
"boundary m values (0, full) and empty lines must all work",
[CS+": _split, _split_dual, split, split_crs, split_ccs"])
p("C13","Diagonal scaling",
"scale_diag_left(s) (resp. right(t)) changes every entry to s_i A_ij (resp. A_ij t_j) and leaves the sparsity structure untouched, for both storage orders.",
"all matrices and scaling vectors",
"must hold at every entry of every pattern",
[CS+": scale_diag_left, scale_diag_right (CRS and CCS)"])
p("C14","Pruning removes only negligible entries",
"Pruning with relative threshold eps keeps the order and values of the retained entries, never removes an entry larger than eps times the largest magnitude in its row and column reference, and removes every entry the documentation says is removed.",
"all matrices, all eps",
"order-dependent threshold computations give the right answer on most inputs",
[CS+": _prune, prune"])
p("C15","Coordinate to compressed conversion preserves the matrix",
"Converting coordinate triples to compressed storage yields a matrix whose entry (i,j) is the sum of the values of the triples at (i,j), with sorted lines.",
"all triple lists in any order, duplicates included",
"orderings and duplicates are combinatorially many",
["src/hif/utils/coo2compress.hpp: convert_coo2cs"])
p("C16","Permutation objects stay consistent under every history",
"After any sequence of make_eye, interchange and inverse-interchange calls with in-range arguments, followed or not by build_inv, the forward and inverse maps are mutually inverse bijections; is_eye holds iff the permutation is the identity.",
"all sizes and all operation histories",
"an invariant over unbounded histories",
["src/hif/ds/PermMatrix.hpp: PermMatrix, BiPermMatrix"])
p("C17","Reference-counted arrays never double free, leak or use freed memory",
"For every history of constructions, shallow copies, clones, moves, assignments, resizes, swaps and destructions of Array objects, owned buffers are freed exactly once, when the last owner goes away, and never used after that; wrapped user memory is never freed.",
"all histories of Array operations",
"memory-lifetime invariants over unbounded histories",
["src/hif/ds/Array.hpp: Array constructors, operator=, resize, swap, destructor"])
p("C18","Sparse work vector behaves as a map with deduplicated indices",
"After reset_counter and any sequence of pushes at a given step, the index list contains each pushed index exactly once, push_back returns true exactly the first time, and mark_delete/compress_indices removes exactly the marked indices, keeping the order of the others; later steps are unaffected by earlier ones.",
"all push/mark/compress histories and increasing steps",
"stale tags from earlier steps matter only in long histories",
["src/hif/ds/SparseVec.hpp: SparseVector"])
p("C19","Augmented storage supports interchange and deferral",
"After any history of begin_assemble, push_back (one or two ranges), build_aug, interchange of two rows/columns and deferral of one to an empty position behind all others, no operation having failed or accessed memory out of bounds, the augmented matrix represents exactly the matrix the history stands for: its primary lines are sorted and contain exactly the stored entries, the linked list of every secondary index enumerates exactly its stored entries in ascending order, and nnz_in_col/nnz_in_row is their number.",
"all matrices and all histories of operations",
"linked lists plus rotation must stay mutually consistent over unbounded histories",
["src/hif/ds/AugmentedStorage.hpp: AugmentedCore, AugCRS, AugCCS: build_aug, push_back_row/col, interchange_cols/rows, defer_col/row, start_col_id, next_col_id, val_from_col_id"])
p("C20","Numerical dropping keeps exactly the entries above the tolerance",
"apply_num_dropping with tolerance tau and kappa removes exactly the entries whose magnitude is at most tau/kappa, keeps the order of the others, and does nothing when the tolerance is not positive.",
"all sparse vectors, tau and kappa",
"must hold for all values, including ties with the tolerance",
["src/hif/alg/thresholds.hpp: apply_num_dropping"])
p("C21","Space-limited dropping keeps the largest entries",
"apply_space_dropping keeps exactly min(size, max(1, ceil(alpha*nnz)-start)) entries (at least one), and no dropped entry is larger in magnitude than a kept one; nothing changes if alpha is not positive.",
"all sparse vectors, alpha, reference sizes, and every legal behaviour of the standard library selection",
"std::nth_element may return any legal arrangement; tests see one",
["src/hif/alg/thresholds.hpp: apply_space_dropping"])
p("C22","Schur complement formula",
"The computed Schur complement has entry (i,j) equal to s_{p_{m+i}} A(p_{m+i},q_{m+j}) t_{q_{m+j}} minus sum_k L_E(i,k) d_k U_F(k,j), for every matrix, permutation and scaling.",
"all inputs of the Schur kernel",
"index shifts by m and inverse permutations must be right for every permutation",
["src/hif/alg/Schur.hpp: compute_Schur_simple"])
p("C23","Threaded Schur complement equals the serial one",
"For every thread count and every interleaving between barriers the threaded Schur routine produces the same matrix as the serial routine.",
"all inputs, thread counts and schedules",
"schedules cannot be enumerated by testing",
["src/hif/alg/Schur.hpp: mt::compute_Schur_simple"])
p("C24","Crout factorization is exact when nothing is dropped",
"If no entry is dropped and no row or column is deferred then the computed factors satisfy L D U = P S A T Q exactly on the leading block, with L and U unit triangular.",
"all matrices whose pivots are nonzero",
"an algebraic identity over all matrices",
["src/hif/alg/Crout.hpp: compute_l, compute_ut, update_diag, scale_inv_diag","src/hif/alg/factor.hpp: level_factorize"])
p("C25","Deferral keeps permutations bijective whatever is deferred",
"Whatever set of steps is deferred during a level factorization, the final row and column orderings are permutations of 0..n-1, their inverse arrays are their inverses, non-deferred rows keep their relative order at the front and deferred ones follow in order of deferral.",
"all deferral decision sequences (any oracle), all sizes",
"the number of decision sequences is exponential",
["src/hif/alg/factor.hpp: level_factorize deferral loop","src/hif/alg/Crout.hpp: compress_array, assign_gap_array"])
p("C26","Factorization terminates: level sizes strictly decrease",
"Every level that is not the last eliminates at least one unknown, so factorize creates at most n levels and the sizes satisfy n_{k+1} = n_k - m_k.",
"all inputs for which each level call returns",
"termination is not observable by testing",
["src/hif/builder.hpp: _factorize_kernel","src/hif/alg/factor.hpp: level_factorize post_flag/m/dense decision","src/hif/alg/Prec.hpp: is_last_level"])
p("C27","solve inverts mmultiply on every multilevel preconditioner",
"For every factorized preconditioner with nonzero pivots and scalings whose final dense block is solved exactly, solve(mmultiply(x)) = x and mmultiply(solve(b)) = b for every vector, independently of the number of levels.",
"all preconditioners (any number of levels, any block sizes), all vectors",
"recursion depth, permutations and block sizes are unbounded",
["src/hif/alg/prec_solve.hpp: prec_solve","src/hif/alg/prec_prod.hpp: prec_prod","src/hif/builder.hpp: HIF::solve, HIF::mmultiply"])
p("C28","Hermitian solve and product are the adjoints",
"For every factorized preconditioner, the transposed solve is the adjoint of the solve and the transposed product is the adjoint of the product: <solve(b), y> = <b, solve_tran(y)> for all b and y.",
"all preconditioners and all pairs of vectors, real and complex",
"a bilinear identity over all vectors; conj mistakes are invisible on real data",
["src/hif/alg/prec_solve.hpp: prec_solve_tran","src/hif/alg/prec_prod.hpp: prec_prod_tran"])
p("C29","Multi-RHS preconditioner solve agrees with the single solve",
"solve_mrhs returns, in each column, exactly what solve returns for the corresponding right-hand side.",
"all preconditioners, all blocks of right-hand sides",
"only some level structures expose a difference",
["src/hif/alg/prec_solve.hpp: prec_solve_mrhs","src/hif/builder.hpp: solve_mrhs"])
p("C30","The solve workspace is always large enough",
"In every history of factorize, solve, solve_mrhs (any k), mmultiply, hifir and clear calls, each call's workspace holds at least the number of scalars the recursion touches.",
"all call histories",
"a property of unbounded call histories",
["src/hif/builder.hpp: HIF::solve, solve_mrhs, mmultiply, clear, factorize","src/hif/alg/prec_solve.hpp: compute_prec_work_space"])
p("C31","Fixed-count iterative refinement",
"After N iterations refinement returns x_N with x_1 = M^{-1}b and x_{k+1} = x_k + M^{-1}(b - A x_k); if A x = b has solution x* and M inverts A it returns x*, and the error satisfies e_{k+1} = (I - M^{-1}A) e_k.",
"all N, operators A and M, right-hand sides",
"holds for every iteration count",
["src/hif/alg/IterRefine.hpp: iter_refine"])
p("C32","Refinement with residual bounds reports truthfully",
"iter_refine with bounds returns at most max(N,1) iterations; with N <= 1 it is the plain solve, reported as one iteration with flag -1; with N >= 2: flag 0 only if the relative residual of the returned x is at most beta_0, flag 1 only if it exceeds beta_1, flag -1 only if N iterations were performed; the returned x is the fixed-count result for the returned number of iterations; a zero right-hand side returns zero with 0 iterations.",
"all inputs, bounds and operators",
"status flags must be truthful on every run",
["src/hif/alg/IterRefine.hpp: iter_refine with betas"])
p("C33","Constant null-space filter",
"Filtering subtracts the mean over [start,end) from exactly those components, so their sum becomes zero, other components are unchanged and filtering twice is filtering once; a range that does not fit the vector raises an error before any component changes (an end before the start stands for the end of the vector).",
"all vectors, lengths and ranges",
"must hold for every length and range including sentinel values",
["src/hif/NspFilter.hpp: filter, _const_filter, set_nsp_const"])
p("C34","Options by name and by stream",
"set_option_attr changes exactly the named field and reports success, and reports failure and changes nothing for unknown names; writing all the fields in declaration order and reading them back with operator>> restores the same options.",
"all names, values and option records",
"must hold for every field and record",
["src/hif/Options.h: set_option_attr, option_tag2pos, operator>>"])
p("C35","C parameter array maps faithfully to options",
"create_params after lhfSetDefaultParams gives the default options; changing one documented slot changes exactly the corresponding option; the uniform setters change exactly the two documented slots.",
"all parameter arrays",
"each slot and each value",
["libhifir/src/libhifir.cpp: create_params, lhfSetDefaultParams, lhfSetDroptol, lhfSetAlpha, lhfSetKappa"])
p("C36","C handle life cycle is safe",
"For every history of create/setup/update/refactorize/apply calls, NULL handles give LHF_NULL_OBJ without touching memory, refinement never runs with a matrix whose size differs from the factorization, and setup uses S for factorization and A for refinement with the documented fallbacks.",
"all call histories with arbitrary NULLs and sizes",
"unbounded histories of API calls",
["libhifir/src/libhifir.cpp: lhfdCreate, lhfdSetup, lhfdUpdate, lhfdRefactorize, lhfdApply"])
p("C37","An explicit rank passed to apply is honoured",
"lhf?Apply with an explicit rank uses that rank for the final dense solve in every operation mode, and LHF_DEFAULT_RANK selects the documented default.",
"all modes, refinement counts and ranks",
"each combination of mode, nirs and rank must be right",
["libhifir/src/libhifir.cpp: lhfdApply"])
p("C38","Error message channel",
"lhfGetErrorMsg returns the message of the most recent internal error not yet reported, once, and NULL otherwise, in every history of failing and succeeding calls.",
"all histories of calls",
"a history property",
["libhifir/src/libhifir.cpp: error_msgs, lhfGetErrorMsg, _LHF_RETURN_FROM_HIFIR_ERROR"])
p("C39","Zero- and one-based inputs factorize the same matrix",
"For every well-formed zero-based matrix, passing the same matrix in one-based form hands exactly the same matrix to the factorization; any other base is rejected with an error; the user's arrays are not modified.",
"all matrices and index bases",
"every matrix",
["src/hif/builder.hpp: HIF::factorize index-base conversion"])
p("C40","A failed factorize leaves the object in a safe state",
"If factorize throws at any point, a subsequent solve raises an error instead of running on a partial multilevel structure.",
"all inputs and all failure points",
"failure points are many and hard to trigger",
["src/hif/builder.hpp: factorize, _factorize_kernel, solve","src/hif/alg/prec_solve.hpp: prec_solve"])
p("C41","Level accessor is bounds-checked",
"prec(level) either raises an error or returns an existing level, for every level number and every preconditioner.",
"all level numbers and preconditioners",
"boundary value depends on the structure of the last level",
["src/hif/builder.hpp: prec, levels"])
p("C42","Reported counts are consistent",
"On every factorized preconditioner, nnz = nnz_ldu + nnz_ef, rank = n - (schur_size - schur_rank), schur_rank <= schur_size, levels counts the sparse levels plus one for a non-empty dense block, and an empty object reports zero everywhere.",
"all preconditioners",
"must hold for every structure",
["src/hif/builder.hpp: nnz, nnz_ef, nnz_ldu, rank, schur_rank, schur_size, levels","src/hif/alg/Prec.hpp: nnz, nnz_ef, last_rank"])
p("C43","Static deferral of tiny diagonals",
"For every matrix and initial permutations, defer_tiny_diags returns m <= m0 such that the first m permuted diagonals are present and not negligible, the orderings stay permutations, kept rows keep their relative order and every deferred one failed the test.",
"all matrices, permutations and m0",
"in-place compression with a moving boundary",
["src/hif/pre/matching_scaling.hpp: defer_tiny_diags"])
p("C44","Reordering composes permutations",
"After reordering, the final ordering is the matching permutation followed by the fill-reducing ordering on the leading block and unchanged beyond it, it is a bijection and the inverse array is its inverse.",
"all permutations and block sizes",
"all permutations",
["src/hif/pre/driver.hpp: reorder_finalize_perm"])
p("C45","RCM returns a permutation",
"For every graph with symmetric adjacency, run_rcm returns a permutation of the vertices and terminates.",
"all symmetric graphs",
"graph traversal over all graphs",
["src/hif/pre/rcm.hpp: genrcm_, fnroot_, rootls_, degree_, rcm_"])
p("C46","Leading-block pattern is exact and memory safe",
"compute_leading_block returns, for every matrix and permutations, exactly the pattern of the permuted leading block B (or of B + B^T) with sorted columns, without out-of-range accesses.",
"all matrices, permutations, block sizes",
"out-of-range reads of a bit mask do not crash in tests",
["src/hif/pre/matching_scaling.hpp: compute_leading_block"])
p("C47","Extreme-value scaling bounds entries by one",
"After scale_extreme_values on a general matrix, the scaling factors are positive, the new matrix is diag(r) B diag(c), all magnitudes are at most one and every column containing a nonzero attains one.",
"all matrices, zero rows and columns included",
"a bound over all entries of all matrices",
["src/hif/pre/a_priori_scaling.hpp: scale_extreme_values"])
p("C48","Poor-scaling repair preserves the matched product and positivity",
"fix_poor_scaling keeps all scalings positive, leaves s_{p_i} t_{q_i} unchanged for every matched pair and afterwards every repaired pair satisfies the beta ratio bound; it does nothing on level one.",
"all scalings, permutations and beta",
"all real scalings",
["src/hif/pre/matching_scaling.hpp: fix_poor_scaling"])
p("C49","Dense conversion is exact",
"DenseMatrix::from_sparse gives a dense column-major matrix with the same entry at every position for CRS and CCS input.",
"all matrices without duplicate entries",
"all shapes",
["src/hif/ds/DenseMatrix.hpp: copy_sparse, from_sparse"])
p("C50","Eigenvalue truncation keeps exactly the significant eigenvalues",
"After the symmetric dense factorization the reported rank is the number of eigenvalues the definiteness flag and threshold accept, and solve divides only by those.",
"all real spectra and definiteness flags",
"depends on signs of extreme eigenvalues",
["src/hif/small_scale/SYEIG.hpp: factorize, solve"])
p("C51","Symmetric dense multi-RHS stays in bounds and agrees with the single solve",
"SYEIG::solve_mrhs accesses only its n-by-k buffer and treats each column like solve.",
"all sizes and k",
"out-of-bounds accesses may go unnoticed in tests",
["src/hif/small_scale/SYEIG.hpp: solve_mrhs, multiply_mrhs"])
p("C52","MatrixMarket query and read agree",
"For every MatrixMarket file the number of entries reported by the query is an upper bound of what the read routine stores in the caller's arrays, and the read matrix is the one described by the file (symmetric kinds expanded).",
"all files of all symmetry kinds",
"each symmetry kind with and without off-diagonal entries",
["src/hif/utils/io.hpp: mm_read_firstline, mm_read_sparse_size, mm_read_sparse_data, read_mm_sparse, read_mm_vector","libhifir/src/libhifir.cpp: lhfQueryMmFile, mm_read_sparse"])
p("C53","Dropping in off-diagonal blocks keeps the largest entries of each line",
"drop_L_E / drop_U_F keep in every line the min(len, ceil(alpha*ref)) largest-magnitude entries with their values (lines that fit are unchanged, shortened lines may be reordered), or clear the block when alpha is not positive.",
"all blocks, references and alpha",
"in-place compaction across lines",
["src/hif/alg/Schur.hpp: drop_offsets_kernel, drop_L_E, drop_U_F"])
p("C54","Inverse-norm estimator is a true lower bound",
"At every step the estimator value is a component of the solution of L^T-type system with a right-hand side of entries +-1, hence its magnitude never exceeds the infinity norm of the inverse of the leading unit-triangular factor, and it is at least one.",
"all unit triangular factors and steps",
"a bound over all matrices",
["src/hif/alg/Crout.hpp: update_kappa"])
p("C55","C verbosity constants mean what their names say",
"Setting the C parameter LHF_VERBOSE to a documented LHF_VERBOSE_* constant enables the core verbosity class of the same name.",
"all verbosity constants and their combinations",
"messages are not checked by tests",
["libhifir/include/libhifir.h: LHF_VERBOSE_*","src/hif/Options.h: HIF_VERBOSE_*","libhifir/src/libhifir.cpp: create_params"])
p("C56","Drop tolerances reach the factor they are named after",
"The factorization applies the user's tau_L to columns of L and tau_U to rows of U, with the documented first-level refinement.",
"all option records and levels",
"only visible when tau_L and tau_U differ",
["src/hif/alg/factor.hpp: determine_fac_pars, level_factorize"])
p("C57","Error committed by threshold dropping is bounded entry by entry",
"When only the drop tolerances are active, every off-diagonal entry of L*D*U on the leading block and its borders differs from the scaled and permuted input by at most |d_a|*tau/(|kappa_a|*kappa_d), where a is the step at which the entry is eliminated; diagonal entries and kept positions are exact.",
"all inputs, tolerances and deferral histories of a level",
"a bound over all matrices and all deferral decisions",
["src/hif/alg/Crout.hpp","src/hif/alg/thresholds.hpp: apply_num_dropping","src/hif/alg/factor.hpp: level_factorize"])
p("C58","Preprocessing hands the factorization valid orderings and scalings",
"After the preprocessing of a level, the row and column orderings are bijections stored with their inverses, all row and column scaling factors are positive, rows and columns beyond the requested leading size keep their place, and the leading block consists of exactly those permuted diagonals that are stored and not negligible in their row and column; an invalid reordering option or a failed matching is reported as an error.",
"all matrices, options, levels, and all results of the matching and ordering packages within their contracts",
"depends on what the external packages return and on the order of several in-place rearrangements",
["src/hif/pre/driver.hpp: do_preprocessing","src/hif/pre/matching_scaling.hpp: do_maching","src/hif/pre/EqlDriver.hpp: do_matching"])
p("C59","Iterative scaling is a positive equilibration",
"iterative_scale ends after at most the given number of passes with positive row and column factors, the matrix is replaced by diag(r) B diag(c), and in the general case all magnitudes are at most one.",
"all square matrices, tolerances and numbers of passes",
"zero rows and the accumulated effect of all passes",
["src/hif/pre/a_priori_scaling.hpp: iterative_scale"])
p("C60","A matrix or vector written to a MatrixMarket file is read back unchanged",
"Writing a valid sparse matrix with sorted lines and reading the file with the reader of the same format gives the same sizes, positions and values, array by array; reading it with the reader of the other format gives the same matrix; a vector is read back with the same length and values.",
"all matrices and vectors, real and complex, whose numbers survive printing and scanning",
"every digit, separator and index of a text file of any size matters",
["src/hif/utils/io.hpp: write_mm_sparse, write_mm_vector, read_mm_sparse, read_mm_vector","src/hif/ds/CompressedStorage.hpp: from_mm"])
p("C61","Stored off-diagonal blocks are the scaled, permuted blocks of the level's input",
"The blocks E and F kept for a level are exactly the trailing-rows/leading-columns and leading-rows/trailing-columns blocks of the scaled and permuted input of that level: same stored positions, values s_p(i) A_p(i)q(j) t_q(j), in exactly sized arrays; a leading block larger than the matrix is refused.",
"all matrices, scalings, orderings and leading block sizes",
"every combination of sparsity pattern and permutation",
["src/hif/alg/factor.hpp: extract_E, extract_F"])
p("C62","One level runs to the end and hands over a valid level and a valid next matrix",
"For every valid square matrix a level of the factorization (conversion, preprocessing, incomplete factorization, splitting, dropping in the off-diagonal blocks, Schur complement, extraction of E and F) finishes without an out-of-range access; if it is kept, its factors are strictly triangular with nonzero pivots, its permutations are mutually inverse, and the matrix for the next level is a valid sorted matrix of dimension n-m; it goes to the dense solver exactly under the stated size criterion, which uses the same reference size (the option N, or the size of the user's matrix) at every level of a factorization. If the parameters drop nothing, level and next matrix together represent the input exactly, and the next matrix is nonsingular if the input is. A kept level obeys the growth thresholds of its level: every inverse pivot is at most kappa_d in magnitude, and both triangular factors have a solution for a right-hand side of plus and minus ones whose entries lie between one and kappa in magnitude.",
"all valid square matrices, both storage formats, all dropping and conditioning parameters, all levels, all matchings and orderings keeping their contracts",
"the composition has to fit for every pattern, value and deferral decision",
["src/hif/alg/factor.hpp: level_factorize (558-1316)"])
p("C63","Factorization without dropping followed by solve gives the solution of A x = b",
"For every valid square input (0- or 1-based, row- or column-major) and whatever the object held before, factorize (without pivoting, with pivoting, or switching to pivoting automatically) completes or raises an exception of the dense factorization of the last block; the levels stored by a completed factorization are valid for solve and product. With parameters that drop nothing, a nonsingular matrix and an exact dense solver, factorize completes and solve returns for every right-hand side the solution of A x = b.",
"all inputs, dimensions, numbers of levels, deferrals, right-hand sides and object histories",
"end-to-end statement over an unbounded number of levels and every deferral pattern",
["src/hif/builder.hpp: factorize, _factorize_kernel, solve","src/hif/alg/factor.hpp: level_factorize"])
p("C64","The dense solver QRCP solves, multiplies and transposes consistently for every rank",
"For every square block that is not zero, factorize of the dense QR solver gives a rank k <= n and an order of the columns such that solve, with any rank up to the estimated one, never divides by zero and returns the basic least-squares solution in the leading columns of that order; multiply with rank k is the product with these columns and is undone by solve; the calls with the transpose flag are the adjoints of those without; every column of a call with several right-hand sides is what the single call gives; for nonsingular blocks the full-rank calls are exact, and with QRCP as the dense solver factorize without dropping followed by solve gives the solution of A x = b.",
"all block sizes and values, all ranks, right-hand sides and numbers of right-hand sides",
"must hold for every rank and every matrix, including rank-deficient ones, and for pairs of vectors (adjointness)",
["src/hif/small_scale/QRCP.hpp: factorize, _est_rank_2norm, _solve_nt, _solve_t, _multiply_nt, _multiply_t, solve_mrhs, multiply_mrhs"])
p("C65","Thresholded rook pivoting keeps the factorization of a level correct",
"The incomplete factorization of a level with pivoting (row and column exchanges by the threshold gamma, deferrals, dropping) finishes without an out-of-range access for every input; its row and column orderings are permutations with inverses, rows and columns outside the leading block keep their order, and every step is kept or deferred and counted once; the factors are strictly triangular, sorted, obey the space limits and have acceptable pivots; the product of the stored factors and pivots reproduces the diagonal exactly whatever is dropped, the rest up to the entries dropped, and everything if nothing is dropped; the condition estimates are exact solutions bounded by kappa",
"all inputs, dimensions, thresholds, orders of ties, patterns of exchanges and deferrals, dropping rules",
"every sequence of exchanges and deferrals must keep four index structures and two orderings consistent",
["src/hif/alg/PivotCrout.hpp: PivotCrout","src/hif/alg/pivot_factor.hpp: pivot_level_factorize (165-493)","src/hif/ds/AugmentedStorage.hpp: AugmentedStorage"])
p("C66","One level with pivoting runs to the end and represents its matrix",
"For every valid square matrix, every threshold gamma and every order of the pivot candidates a level of the factorization with pivoting finishes without an out-of-range access; if it eliminates anything, its factors are strictly triangular with nonzero pivots, its permutations are mutually inverse, and the matrix for the next level is a valid sorted matrix of dimension n-m; the deferral statistics add up. If the parameters drop nothing, level and next matrix together represent the input exactly, and the next matrix is nonsingular if the input is. A kept level obeys the growth thresholds of its level: every inverse pivot is at most kappa_d in magnitude, and both triangular factors have a solution for a right-hand side of plus and minus ones whose entries lie between one and kappa in magnitude.",
"all valid square matrices, both storage formats, all dropping, conditioning and pivoting parameters, all levels, all matchings and orderings keeping their contracts",
"the composition has to fit for every pattern, value, exchange and deferral decision",
["src/hif/alg/pivot_factor.hpp: pivot_level_factorize (64-757)","src/hif/alg/PivotCrout.hpp: PivotCrout"])
p("C67","Rook pivoting meets its threshold",
"In a level with pivoting, whatever is dropped, all kept steps except for at most one per deferral and one per four exchanges of columns end with a pivot that is at least gamma times (gamma <= 1) what is left of every later kept column in the pivot's row and of every later kept row in the pivot's column, as far as exchanging with them would keep the condition estimates within kappa; the stored entries there are at most 1/gamma. If nothing is deferred and fewer than four columns were exchanged this holds for every pivot. With gamma <= 0 nothing is exchanged.",
"all inputs, thresholds, dropping routines, conditioning limits and (for ties) all sorting orders",
"a claim about every step of every elimination; it depends on the interplay of row search, column search, the limit of four rounds and the acceptance test",
["src/hif/alg/PivotCrout.hpp: apply_thres_pivot, interchange","src/hif/alg/pivot_factor.hpp: pivot_level_factorize (pvt_l_op, pvt_u_op)"])
p("C68","The symmetric incomplete factorization of a level is L D L^T with the promised ordering, form and error",
"For every symmetric level the incomplete factorization (one factor computed and stored) finishes without an out-of-range access; its single ordering is a permutation with inverse, static and deferred rows keep their order, every step is kept or deferred and counted once; L is valid, sorted, strictly triangular and obeys the space limit; each stored entry is the exact residual of what is stored or absent; L D L^T reproduces the scaled matrix in the leading rows and columns if nothing is dropped and up to the threshold bound otherwise; the condition estimate is an exact solution bounded by kappa; with spd > 0 (< 0) all pivots are positive (negative), so L D L^T is definite whatever is dropped.",
"all symmetric inputs, dimensions, scalings, orderings, thresholds, deferral patterns and dropping rules",
"every deferral pattern must keep the single factor, its linked lists and the ordering consistent; definiteness is a claim about all vectors",
["src/hif/alg/symm_factor.hpp: symm_level_factorize (236-440)","src/hif/alg/Crout.hpp: Crout"])
p("C69","One symmetric level runs to the end and hands over symmetric data",
"For every valid symmetric matrix with symmetric pattern a level of the symmetric factorization finishes without an out-of-range access; if it is kept, its factors satisfy U = L^T and F = E^T with one scaling and one permutation on both sides, its pivots are nonzero with the sign asked for, and the matrix for the next level is valid, symmetric and has a symmetric pattern; the deferral statistics add up; the Schur complement goes to the dense solver exactly under the stated criterion. If the parameters drop nothing, level and next matrix together represent the input exactly. A kept level obeys the growth thresholds of its level: every inverse pivot is at most kappa_d in magnitude, and both triangular factors have a solution for a right-hand side of plus and minus ones whose entries lie between one and kappa in magnitude.",
"all valid symmetric matrices, both storage formats, all dropping and conditioning parameters, all levels, all matchings and orderings keeping their contracts",
"symmetry of values and of the pattern has to survive preprocessing, deferral, dropping and the Schur complement of every input",
["src/hif/alg/symm_factor.hpp: symm_level_factorize (126-675), make_transpose"])
p("C70","A symmetric factorization gives a symmetric, and with spd a definite, preconditioner",
"For every valid symmetric input and whatever the object held before, factorize with is_symm completes or raises an exception of the dense factorization; every stored level is symmetric. Whatever is dropped, solve is then a symmetric operator (c.solve(b) = solve(c).b), the transposed solve returns the same vector as the solve, and with spd > 0 (< 0) and a definite last block b.solve(b) > 0 (< 0) for every b != 0. With parameters that drop nothing, a nonsingular matrix and an exact dense solver, solve returns the solution of A x = b; with SYEIG as that solver and a matrix whose declared definiteness is true, so does the default call.",
"all symmetric inputs, dimensions, numbers of levels, deferrals, dropping parameters, pairs of right-hand sides and object histories",
"a statement about all pairs of vectors and an unbounded number of levels",
["src/hif/builder.hpp: factorize, _factorize_kernel, solve","src/hif/alg/symm_factor.hpp: symm_level_factorize"])
p("C71","The weighted matching completes and returns a permutation with positive scalings",
"For every valid square matrix with at least one entry, no repeated index in a line, no stored zero and no line longer than about half the dimension, eql::Equilibrator::compute terminates without accessing anything outside its work arrays (whatever they contain), without forming infinite or undefined numbers, and returns flag 0 or 1, an array whose absolute values are a permutation of 1..n, and positive finite scaling factors; a matrix without lines or entries is reported by a negative flag.",
"all such matrices of every dimension and every content of the work arrays",
"heap, search tree and entry lists share arrays; their layout must be right for every search of every matrix",
["src/hif/pre/equilibrate.hpp: compute (67-160), kernel (388-694), kernel_, kernel__, kernel___, cleanup, Equilibrator (724-798)","src/hif/pre/EqlDriver.hpp"])
p("C72","Matched entries scale to 1, all others to at most 1, and their product is maximal",
"If the matching returns flag 0, then |b_ij| t_i s_j <= 1 for every stored entry, with equality for the entries that the permutation moves to the diagonal; hence no other matching of the pattern has a larger product of magnitudes.",
"all matrices as in C71 with flag 0, all entries, all permutations",
"optimality compares with all n! matchings",
["src/hif/pre/equilibrate.hpp: kernel, cleanup, compute (119-152), Equilibrator::s, Equilibrator::t"])
p("C73","The matching finds the structural rank",
"The number of indices matched to a stored entry equals the structural rank (no larger set of lines can be given distinct stored indices), and the flag is 0 exactly if the matrix is structurally nonsingular.",
"all matrices as in C71 and all sets of lines with an assignment of indices",
"a failed search has to certify that no assignment exists at all, also after later augmentations",
["src/hif/pre/equilibrate.hpp: kernel (main loop), compute (146-152)"])
p("C74","AMD returns a permutation of every pattern",
"The approximate minimum degree ordering, called with any valid compressed pattern (columns sorted or not, with or without repeated entries, symmetric or not, empty columns, dense rows), ends, never reads or writes outside its arrays (in particular the workspace of 7 n + 1.2 nnz integers is enough), and returns a permutation; a pattern with unsorted columns is ordered like its sorted transpose; a row index out of range is refused with an error.",
"all dimensions, patterns, thresholds for dense rows, values at which the marks are reset, initial contents of the work arrays, with and without aggressive absorption",
"quotient graph, degree lists, hash buckets and garbage collection share arrays; a broken list shows up only for particular graphs after particular eliminations",
["src/hif/pre/amd.hpp: order, valid, one, two, postorder", "src/hif/pre/reordering.hpp: run_amd"])
p("C75","The postorder of the elimination tree is a postorder",
"Given a forest on the nodes of positive weight, the postordering numbers exactly these nodes 0, 1, 2, ... without repetition, every node before its parent, and marks the others, whatever the front sizes.",
"all dimensions, forests, weights, front sizes >= -1 and initial contents of the work arrays",
"depends on the shape of the forest, and the largest child is moved within linked lists",
["src/hif/pre/amd.hpp: postorder, post_tree"])
p("C76","AMD works on the pattern of A + A'",
"For a pattern with sorted columns, every pair of distinct indices with an entry in position (i,j) or (j,i) is visited exactly once, the list length of an index is the number of its neighbours in A + A' and their sum is returned; a pattern with unsorted or repeated entries is first replaced by its transpose with sorted columns and no repetition.",
"all dimensions and patterns",
"the merge of the upper and lower triangle advances one pointer per column and relies on the order of all earlier columns",
["src/hif/pre/amd.hpp: aat, one, preprocess, valid"])
p("C77","LU dense solver: exact solves, faithful rank",
"If the library is compiled with LU as the dense solver: factorizing any square block that is nonsingular reports full rank, solve returns the solution of A x = b for every right-hand side (also column by column for several), multiply returns A x, each undoes the other, also with the transpose flag, and refactorize reproduces the factorization; full rank is reported exactly for nonsingular blocks, the rank is the number of leading columns before the first dependent one, and a singular block is never solved silently. In the real case the whole preconditioner with nothing dropped is then exact.",
"all sizes, all matrices over a field, all right-hand sides, ranks passed, and previous contents of the solver object",
"tests use a few well-conditioned blocks; row exchanges compose over all steps and the transposed solve applies them backwards",
["src/hif/small_scale/LUP.hpp: set_matrix, factorize, refactorize, solve, solve_mrhs, multiply, full_rank","src/hif/small_scale/lapack.hpp: getrf, getrs, gemv"])
p("C78","The GMRES and FGMRES drivers are truthful",
"For real systems, the drivers gmres_hif and fgmres_hifir never access memory outside their workspace, use at most maxit iterations, never return a vector worse than x = 0, and their flag is truthful: SUCCESS means the relative residual of the returned vector is at most rtol or all iterations are used, STAGNATED means the tolerance is missed (up to the factor 1 - 1e-8), DIVERGED means all iterations are used. With a linear preconditioner M such that A M is injective there is no breakdown, the result is at least as good as the best step along M b, and if M inverts A the exact solution is returned with SUCCESS after one iteration; in particular this holds for the factorization with nothing dropped as preconditioner.",
"all real matrices, right-hand sides, preconditioners (FGMRES: any function), restart lengths, tolerances, iteration limits (FGMRES: at most 31 outer iterations) and initial contents of the workspace",
"the claim compares the recurrence for the residual norm with the true residual after any number of rotations and restarts",
["examples/advanced/gmres.hpp: gmres_hif, fgmres_hifir","src/hif/utils/math.hpp: inner, norm2, norm2_sq"])
p("C79","Threaded dropping in the off-diagonal blocks equals the serial one",
"For every pair of off-diagonal blocks, every number of threads and every interleaving of their work on single lines, the threaded dropping of L_E and U_F ends without error, cannot get stuck, and returns exactly the blocks the two serial calls return; so every line keeps its ceil(alpha * reference count) largest entries. This assumes positive limiters and that OpenMP delivers the threads asked for: with one thread where two are asked for L_E is not dropped at all, and with a limiter of zero the threaded version is undefined where the serial one clears the block.",
"all blocks, limiters > 0, numbers of threads, interleavings and initial contents of the work arrays",
"every interleaving of unboundedly many threads writing into shared index arrays must give the same result",
["src/hif/alg/Schur.hpp: mt::drop_L_E_and_U_F (404-565), mt::uniform_partition","src/hif/alg/Schur.hpp: drop_L_E, drop_U_F"])
p("C80","Exporting a level is faithful",
"For every level that factorize stores and that eliminates something (whether or not factorize completes, whatever the object held before, symmetric or not), and for arrays allocated by the answers of inquire_sizes, export_sparse_data (in row- or column-major format) writes only inside the arrays and leaves in them valid matrices L, U, E, F with the same entries, the diagonal, both scalings and all four permutations; a preconditioner built again from its exported levels solves every right-hand side with the same result, also transposed. inquire_or_export_dense returns the shape and then the matrix of the final block. With jit_destroy everything but L is freed and the level reports m = n = 0. Exception: a level that eliminates nothing has default-constructed factors, whose column-major export reads an empty array.",
"all levels, formats, preconditioners of any number of levels, right-hand sides and initial contents of the arrays",
"a faithful export must hold for every sparsity pattern and block size; equality of solves is a claim about all right-hand sides",
["src/hif/alg/Prec.hpp: inquire_sizes, export_sparse_data, inquire_or_export_dense","src/hif/ds/CompressedStorage.hpp: export_compressed_data (2715-2727), convert_storage"])
p("C81","Native binary files return the matrix that was written",
"A matrix (CRS or CCS, real or complex) written with write_bin and read with read_bin or from_bin has the same dimensions and the same arrays; read in the other storage order it is a valid matrix with the same entries. Integer types may differ as long as the stored numbers are representable, floating-point formats too (values converted). Reading never depends on the previous contents of the object or of memory. A real matrix refuses a complex file and vice versa, and a missing file or one whose writing stopped before the value array was created is refused with an error; in these cases the object is unchanged. Exceptions: pointers too large for the reader's integer type are silently reduced modulo 2^32, and a file whose value array was created but never written is read as a matrix of zeros.",
"all matrices, storage orders, integer types of 32 or 64 bits, floating-point formats, points at which writing stops, and previous contents",
"the test writes one small matrix with one choice of types; the claim ranges over all type combinations, sizes and interruption points",
["src/hif/utils/io.hpp: write_bin, read_bin","src/hif/ds/CompressedStorage.hpp: CRS::read_bin, CRS::write_bin, CRS::from_bin, CCS::read_bin, CCS::write_bin, CCS::from_bin"])
p("C82","Wrapping user arrays with the check accepts exactly the valid matrices",
"wrap_const_crs and wrap_const_ccs with check = true return a matrix if and only if the user's pointer array starts at 0 and never decreases, in every line the indices strictly increase and lie between 0 and the other dimension; the returned matrix has exactly the user's pointers, indices and dimensions and passes the library's own validation. The code keeps this promise only if no index is negative and, for columns, if the matrix is square: a negative index that is not the last of its line is accepted, a column-major matrix with fewer rows than columns is checked only in part, and the check of one with more rows than columns reads past the pointer array.",
"all dimensions, pointer arrays and index arrays",
"the claim is an equivalence over all integer arrays; no test can exhaust the invalid inputs",
["src/hif/ds/CompressedStorage.hpp: wrap_const_crs (1760-1801), wrap_const_ccs (2661-2703), CompressedStorage(n, ind_start, indices, vals, wrap)"])
p("C83","A failure of LAPACK in the last block surfaces as an exception, and nothing else makes factorize fail",
"For every valid square matrix, singular or not, every parameter and every history of the object, and whatever numbers LAPACK returns, factorize either completes or raises an exception about the failure LAPACK reported for the dense block (?geqp3 or ?getrf with negative info, ?syev with nonzero info); in particular it never returns normally with a dense block whose factorization was reported as failed, and with a LAPACK that never reports a failure every valid matrix can be factorized.",
"all valid inputs, parameters, object histories and all values LAPACK may return",
"the behaviour of LAPACK on failure cannot be provoked at will, and the blocks it is given depend on the whole factorization",
["src/hif/small_scale/QRCP.hpp: factorize","src/hif/small_scale/LUP.hpp: factorize","src/hif/small_scale/SYEIG.hpp: factorize","src/hif/alg/factor.hpp: level_factorize","src/hif/alg/symm_factor.hpp: symm_level_factorize"])
p("C84","Factorizing with a symmetric leading block",
"For every valid square matrix whose leading m0 rows and columns form a symmetric block (0 < m0 <= n), every setting of the options and every history of the object, factorize(A, params, m0) raises an exception only if the dense factorization does, and otherwise stores valid levels. The first level eliminates at most m0 unknowns, its two triangular factors are transposes of each other although only one is computed, and the matrix handed to the next level is valid and has the remaining dimension. With nothing dropped and a nonsingular matrix, solve afterwards returns the exact solution of A x = b for every b, although the rest of the matrix need not be symmetric. Exception: with the option no_pre the code ignores m0 and treats the whole matrix as the symmetric block, so the promise holds only for m0 = n.",
"all valid square matrices, storage orders, index bases, block sizes m0, options, object histories and right-hand sides",
"the code computes one factor only and copies it; whether this is right for every symmetric block, every deferral of rows inside the block and every dropping pattern cannot be settled by running examples",
["src/hif/alg/factor.hpp: level_factorize<true>","src/hif/alg/Crout.hpp: compute_ut, compute_l with IsSymm, update_L_start, update_compress, defer_entry","src/hif/builder.hpp: factorize, _factorize_kernel"])
p("C85","Symmetric factorization with a leading block",
"For every valid symmetric matrix with symmetric pattern, every m0 with 0 < m0 <= n whose leading block stores an entry, every setting of the options and every history of the object, the symmetric factorize(A, params, m0) raises an exception only if the dense factorization does, and otherwise stores valid symmetric levels whose pivots have the sign asked for by spd; the block left to the dense solver is symmetric. With preprocessing the first level tries at most m0 unknowns, and stats(0) counts exactly the rows of the leading block it did not eliminate. With nothing dropped and a nonsingular matrix, solve afterwards returns the exact solution of A x = b for every b.",
"all valid symmetric matrices, storage orders, index bases, block sizes m0, options, signs, object histories and right-hand sides",
"restricting the matching and the ordering to a leading block, extending their permutation to the rest, and carrying symmetry of values, pattern and scaling through all levels has to work for every block size and every matrix",
["src/hif/alg/symm_factor.hpp: symm_level_factorize","src/hif/pre/driver.hpp: do_preprocess","src/hif/builder.hpp: factorize, _factorize_kernel"])
p("C86","Memory of the triangular factors is linear in the input, and the reference sizes behind this bound follow the rows",
"For every valid square matrix with at least one entry, every pivoting mode and every history of the object, factorize (whole leading block, m0 = 0) bounds the lines of L and U by reference sizes taken once from the user's matrix: the size of a row or column is the larger of its number of entries and 0.85 nnz / n rounded up, and a row or column deferred to a later level keeps its size there, whatever permutations lie in between. With positive alpha_L and alpha_U all levels together store at most 8 alpha_U (1.85 nnz + n) + n entries in U and 8 alpha_L (1.85 nnz + n) + n in L, for every number of levels and whatever the dense solver does; the symmetric factorization stores at most 2 alpha_L (1.85 nnz + n) + n in each. Carrying the sizes along never makes factorize fail, and with nothing dropped and a nonsingular matrix solve returns the exact solution.",
"all valid square (symmetric) matrices with an entry, pivoting modes, parameters, dense solvers and object histories",
"the number of levels is unbounded and every level grants its lines space anew; that the sum over all levels stays linear depends on each row being granted space by its own original size",
["src/hif/builder.hpp: factorize (row_sizes, col_sizes), _factorize_kernel","src/hif/alg/factor.hpp: level_factorize (629-653, 1243-1257)","src/hif/alg/pivot_factor.hpp: pivot_level_factorize (105-124, 696-707)","src/hif/alg/symm_factor.hpp: symm_level_factorize (165-178, 609-614)","src/hif/alg/thresholds.hpp: apply_space_dropping"])
p("C87","Refinement converges geometrically when the preconditioner is close to the matrix",
"If ||I - M^{-1}A|| <= rho in some measure of vectors, N >= 1 iterations of hifir(A, b, N, x) reduce the error to at most rho^N times the norm of the solution; if ||I - A M^{-1}|| <= rho they reduce the residual to at most rho^N ||b||, whether or not A is singular, also for the transposed system. With bounds (N >= 2, ||b|| > 0, rho <= 1) the residual after the reported number of iterations is at most rho^iterations ||b||, divergence is never reported if rho <= beta_1, and success is reported after at most j iterations as soon as rho^j <= beta_0 for some j < N; if rho < 1 a number of iterations independent of b suffices. In particular a factorization of A with nothing dropped serves every matrix A' with ||(A - A')z|| <= rho ||A z||: refinement with A' reduces the residual of the A' system by rho per iteration.",
"all preconditioners, matrices, right-hand sides, iteration counts, bounds, contraction rates, histories of the object",
"a rate of convergence is a statement about all right-hand sides and all numbers of iterations",
["src/hif/alg/IterRefine.hpp: iter_refine","src/hif/builder.hpp: hifir"])
p("C88","Native ASCII files: what is written is read back, and any text is read safely",
"write_ascii refuses inconsistent arrays (no start position, different numbers of indices and values, last minus first position not the number of indices) and otherwise produces a file from which read_ascii delivers the same start positions, indices, values, storage order, sizes and leading block size; query_info_ascii reports the same. Empty lines and lines starting with # in front are skipped, and files with one-based indices are made zero-based. Whatever the text, read_ascii never accesses memory outside the arrays; if it returns, the arrays have the sizes it reports and the query agrees with it.",
"all arrays, storage orders, index values, values, texts",
"the format is defined by all files of a layout; a test reads back a few matrices",
["src/hif/utils/io.hpp: write_ascii, query_info_ascii, read_ascii"])
p("C89","Dense matrices: sizes, entries and views belong together through every history",
"Through every history of constructions (sizes, fill value, copied or wrapped memory), shallow and deep copies, moves, assignments, resizes, entry writes and destructions of DenseMatrix objects, no memory is used after being freed, freed twice or leaked, size() == nrows() * ncols() for every object that has not been moved from, and A(i, j), the column iterators and the strided row iterators show one and the same matrix: they meet exactly its entries, in order, and nothing outside. Writing A(i, j) changes this entry and no other one; resize gives the requested sizes and keeps the entries in column-major order (in place if the number of rows stays); copies have the sizes and entries of the original and deep copies are independent.",
"all histories of operations on any number of objects, all sizes, indices, values",
"sizes and memory are kept in two places and shared between copies; that they agree is a statement about all histories",
["src/hif/ds/DenseMatrix.hpp: DenseMatrix, StrideIterator, resize, operator(), col_begin, col_end, row_begin, row_end","src/hif/ds/Array.hpp: Array, resize"])
p("C90","The text of the options shows every option",
"opt_repr(opt) has one line per option, in the order of the declaration: the name, spaces, and the value; reading the line of an option back gives the value it has (integers exactly, reals as printed, the reordering, the input check, the pivoting mode and the enabled classes of messages by their names). Hence options with the same text have the same integer options and equally printed real ones. get_verbose names the enabled classes of messages in order, separated by commas.",
"all option records",
"whether a line may be missing, shifted or attributed to another option depends on all values at once, including negative ones and unnamed flags",
["src/hif/Options.h: opt_repr, get_verbose, get_reorder_name"])
p("C91","Applying the preconditioner is one fixed linear operator, whatever the rank of the last block",
"As long as no factorization or clear intervenes, solve with a given rank and transpose flag multiplies the right-hand side by one and the same matrix: the result does not depend on the previous contents of the solution vector or of the work space, nor on what was applied in between (with any rank, products, refinement, several right-hand sides), so it is linear and repeatable and the object can serve as preconditioner of a non-flexible Krylov method. With real scaling factors the matrix of the transposed solve is the conjugate transpose of the matrix of the solve, also if the last block is singular or its rank is truncated. The dense solvers fulfil what this needs for every rank they can solve with.",
"all preconditioners with any number of levels, ranks, right-hand sides, contents of the vectors, histories of applying calls",
"independence of earlier calls and of uninitialized memory and linearity are statements about all histories and all pairs of vectors; truncated ranks leave no exact reference solution to compare with",
["src/hif/builder.hpp: solve","src/hif/alg/prec_solve.hpp: prec_solve, prec_solve_tran","src/hif/small_scale/QRCP.hpp: solve","src/hif/small_scale/SYEIG.hpp: solve"])
p("C92","Refinement with a preconditioner of any rank returns the explicit iterates",
"Refinement with N iterations returns exactly x_N of x_0 = 0, x_{j+1} = x_j + W (b - A x_j), where W is the matrix by which solve multiplies (also if the last block is singular or solved with a truncated rank), at every point of a history of applying calls and for A and its conjugate transpose; for a consistent system A x* = b the error is x* - x_N = (I - W A)^N x*; bounded refinement returns one of these iterates with an honest iteration count and flag.",
"all preconditioners with any number of levels and any rank, operators, right-hand sides, iteration counts, norms, bounds, histories of applying calls",
"equality with a recursion for every N and after every history; a singular W leaves no exact solution to compare with",
["src/hif/builder.hpp: hifir","src/hif/alg/IterRefine.hpp: iter_refine"])
p("C93","Products and solves with the preconditioner are a consistent pair for every rank",
"mmultiply with a given rank multiplies by one fixed matrix (its conjugate transpose with the transpose flag and real scalings), independent of earlier calls and of uninitialized memory. Solve and mmultiply with the same rank are generalized inverses of each other, also if the last block is singular or truncated: solving, multiplying the result and solving again gives the first solution; multiplying, solving and multiplying again gives the first product. This holds with the transpose flag too, at any points of a history of applying calls.",
"all preconditioners with any number of levels, ranks, vectors, contents of outputs and work space, histories of applying calls",
"for a truncated rank neither call inverts the other, so there is no reference value to compare with; the identities are about all vectors and histories",
["src/hif/builder.hpp: solve, mmultiply","src/hif/alg/prec_prod.hpp: prec_prod, prec_prod_tran","src/hif/alg/prec_solve.hpp: prec_solve, prec_solve_tran","src/hif/small_scale/QRCP.hpp: solve, multiply","src/hif/small_scale/SYEIG.hpp: solve, multiply"])
p("C94","Solving and refining with a null-space filter",
"With a filter set, every solve returns the filter applied to what it would return without filters, and only the filter of the requested direction (normal or transposed) is used. With the constant filter on [s, e) the answer is the unfiltered solution minus its mean on that range, its sum there is zero, and so is the sum of every answer of fixed-count and of bounded refinement, whatever the system, the iteration count and the stopping reason; refinement filters every correction and the bounded one still reports honestly. If the range does not fit the vector, the solve fails with an error instead of returning an unfiltered vector, and factors and filters stay. All this holds for every rank of the last block and at every point of a history of applying calls.",
"all preconditioners with any number of levels and any rank, pairs of filters, ranges, vectors, operators, iteration counts, bounds, histories of applying calls",
"the zero-sum property must hold for all right-hand sides, counts and stopping reasons; a wrong filter for the transposed direction shows only if both are set and differ",
["src/hif/builder.hpp: solve, hifir, nsp, nsp_tran","src/hif/NspFilter.hpp: filter","src/hif/alg/IterRefine.hpp: iter_refine"])
p("C95","Factorizing any square matrix gives a consistent pair of solves and products",
"For every valid square matrix, singular or not, with every mode of pivoting and every dropping parameter, factorize (dense QR for the last block, with or without a leading block declared symmetric) completes whatever the object held before. Afterwards, unless the block left to the dense solver is entirely zero, for every rank up to the numerical one (0 selects it) solve and mmultiply are products with fixed matrices W and M with W M W = W and M W M = M, the same with the transpose flag (over the reals with the transposed matrices), and iterative refinement with N iterations against a system matrix A returns the N-th iterate of x + W (b - A x) started at zero, at every point of a history of applying calls and independent of what the vectors contained. The same for the symmetric factorization of a symmetric matrix with any declared definiteness (dense eigenvalue solver), unless an eigenvalue within the numerical rank is zero.",
"all valid square matrices and dimensions, dropping parameters, pivoting modes, previous states of the object, ranks up to the numerical rank, histories of applying calls, vectors",
"it composes the factorization of every level with every later call; for singular matrices and with dropping there is no reference solution to compare with",
["src/hif/builder.hpp: factorize, solve, mmultiply","src/hif/alg/factor.hpp: level_factorize","src/hif/alg/pivot_factor.hpp: pivot_level_factorize","src/hif/alg/symm_factor.hpp: symm_level_factorize","src/hif/small_scale/QRCP.hpp: factorize, solve, multiply","src/hif/alg/IterRefine.hpp: iter_refine","src/hif/small_scale/SYEIG.hpp: factorize, solve, multiply"])
p("C96","The preconditioner of a symmetric factorization is symmetric for every rank",
"For every valid symmetric matrix with symmetric pattern, singular or not, every declared definiteness and every dropping parameter, after the symmetric factorize (dense eigenvalue solver for the last block), unless an eigenvalue within the numerical rank is zero: for every rank up to the numerical one (0 selects it) solve multiplies by a symmetric matrix W and mmultiply by a symmetric matrix M with W M W = W and M W M = M, iterative refinement with any number of iterations against any symmetric system matrix multiplies by a symmetric matrix too, and the transpose flag changes nothing, at every point of a history of applying calls and independent of what the vectors contained. So the object can precondition conjugate gradients or MINRES even when it is truncated.",
"all valid symmetric matrices and dimensions, declared definiteness, dropping parameters, previous states of the object, ranks up to the numerical rank, histories of applying calls, vectors, both values of the transpose flag",
"symmetry relates the results of two calls with different arguments for every pair of vectors; a test compares a few pairs up to rounding, at full rank",
["src/hif/builder.hpp: factorize, solve, mmultiply","src/hif/alg/symm_factor.hpp: symm_level_factorize","src/hif/small_scale/SYEIG.hpp: factorize, solve, multiply","src/hif/alg/prec_solve.hpp: prec_solve, prec_solve_tran","src/hif/alg/prec_prod.hpp: prec_prod, prec_prod_tran","src/hif/alg/IterRefine.hpp: iter_refine"])
p("C97","A declared definiteness makes the truncated preconditioner semidefinite",
"For every valid real symmetric matrix with symmetric pattern, singular or not, and every dropping parameter, after the symmetric factorize with a declared sign (positive or negative definite; dense eigenvalue solver for the last block), unless an eigenvalue within the numerical rank of the last block does not have the declared sign: for every rank up to the numerical one (0 selects it) every result y of solve and of mmultiply for b satisfies b.y >= 0 (declared positive) or b.y <= 0 (declared negative), with or without the transpose flag, at every point of a history of applying calls.",
"all valid real symmetric matrices and dimensions, both signs, dropping parameters, previous states of the object, ranks up to the numerical rank, histories of applying calls, vectors, both values of the transpose flag",
"a sign of a quadratic form over all vectors, for every truncation and dropping; a test samples vectors",
["src/hif/builder.hpp: factorize, solve, mmultiply","src/hif/alg/symm_factor.hpp: symm_level_factorize","src/hif/small_scale/SYEIG.hpp: factorize, solve, multiply"])
with open("/verif/properties.jsonl","w") as f:
    for q in P: f.write(json.dumps(q)+"\n")
print(len(P))
