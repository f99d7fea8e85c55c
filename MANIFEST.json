{
 "claims": [
  {
   "property": "C01",
   "status": "proved",
   "theorems": [
    "Hif.Props.C01_crs_multiply",
    "Hif.Props.C01_ccs_multiply",
    "Hif.Props.C01_size_mismatch",
    "Hif.Props.C01_crs_multiply_range"
   ],
   "note": "Exact arithmetic over any commutative ring; serial CRS/CCS products and row-range variant."
  },
  {
   "property": "C02",
   "status": "partial",
   "theorems": [
    "Hif.Props.C02_ccs_multiply_t",
    "Hif.Props.C02_crs_multiply_t_partial",
    "Hif.Props.C02_crs_empty_witness"
   ],
   "note": "CCS: full. CRS: proved for matrices with at least one row; with no row the code leaves the output unset (C02_crs_empty_witness)."
  },
  {
   "property": "C03",
   "status": "partial",
   "theorems": [
    "Hif.Props.C03_crs_mrhs",
    "Hif.Props.C03_ccs_mrhs",
    "Hif.Props.C03_crs_mrhs_t_partial",
    "Hif.Props.C03_ccs_mrhs_t_partial",
    "Hif.Props.C03_mrhs_t_plain_transpose",
    "Hif.Props.C03_mrhs_t_witness"
   ],
   "note": "Plain multi-RHS products proved. The transposed multi-RHS kernels omit conjugation: proved equal to the plain transpose product for every matrix (C03_mrhs_t_plain_transpose), agreement with the Hermitian single product under trivial star (_partial), and refuted for complex values (C03_mrhs_t_witness)."
  },
  {
   "property": "C04",
   "status": "proved",
   "theorems": [
    "Hif.Props.C04_partition",
    "Hif.Props.C04_balanced",
    "Hif.Props.C04_threaded_product",
    "Hif.Props.C04_threaded_eq_serial",
    "Hif.Props.C04_small_team_witness"
   ],
   "note": "All interleavings of the threads' row writes. C04_small_team_witness: if the runtime grants fewer threads than requested, rows are left out (assumption: team size as requested)."
  },
  {
   "property": "C05",
   "status": "proved",
   "theorems": [
    "Hif.Props.C05_crs_lower",
    "Hif.Props.C05_crs_upper",
    "Hif.Props.C05_ccs_lower",
    "Hif.Props.C05_ccs_upper",
    "Hif.Props.C05_empty_wraps"
   ],
   "note": "All four variants; C05_empty_wraps documents the n=0 wrap-around."
  },
  {
   "property": "C06",
   "status": "proved",
   "theorems": [
    "Hif.Props.C06_crs_lower_tran",
    "Hif.Props.C06_crs_upper_tran",
    "Hif.Props.C06_ccs_lower_tran",
    "Hif.Props.C06_ccs_upper_tran"
   ],
   "note": "All four variants."
  },
  {
   "property": "C07",
   "status": "partial",
   "theorems": [
    "Hif.Props.C07_crs_lower_mrhs",
    "Hif.Props.C07_crs_upper_mrhs",
    "Hif.Props.C07_crs_upper_mrhs_tran",
    "Hif.Props.C07_ccs_lower_mrhs",
    "Hif.Props.C07_ccs_upper_mrhs",
    "Hif.Props.C07_ccs_upper_mrhs_tran",
    "Hif.Props.C07_crs_lower_mrhs_tran_partial",
    "Hif.Props.C07_agree_crs_lower",
    "Hif.Props.C07_agree_crs_upper",
    "Hif.Props.C07_agree_ccs_lower",
    "Hif.Props.C07_agree_ccs_upper",
    "Hif.Props.C07_crs_lower_mrhs_tran_witness",
    "Hif.Props.C07_ccs_lower_mrhs_tran_witness",
    "Hif.Props.C07_ccs_lower_mrhs_tran_noop"
   ],
   "note": "All variants except the two transposed lower multi-RHS kernels, which are wrong (witness theorems); the CRS one proved under a hypothesis (_partial), the CCS one proved to be a no-op."
  },
  {
   "property": "C08",
   "status": "proved",
   "theorems": [
    "Hif.Props.C08_crs_to_ccs",
    "Hif.Props.C08_ccs_to_crs",
    "Hif.Props.C08_sorted",
    "Hif.Props.C08_roundtrip"
   ],
   "note": "Both directions, entries, nonzero count, sortedness and round trip."
  },
  {
   "property": "C09",
   "status": "partial",
   "theorems": [
    "Hif.Props.C09_valid_accepted",
    "Hif.Props.C09_accepted_valid_partial",
    "Hif.Props.C09_valid_wf",
    "Hif.Props.C09_undef_witness",
    "Hif.Props.C09_long_start_witness",
    "Hif.Props.C09_validation_ub_witness"
   ],
   "note": "Valid inputs accepted; accepted inputs valid when the pointer array is not over-long and status is defined (_partial); witnesses for the remaining gaps, including out-of-range reads inside the validator."
  },
  {
   "property": "C10",
   "status": "proved",
   "theorems": [
    "Hif.Props.C10_assemble"
   ],
   "note": "Every sequence of one-range, two-range and empty pushes, including wrong declared sizes."
  },
  {
   "property": "C11",
   "status": "partial",
   "theorems": [
    "Hif.Props.C11_compute_perm",
    "Hif.Props.C11_compute_perm_leading",
    "Hif.Props.C11_compute_perm_errors",
    "Hif.Props.C11_extract_leading_partial",
    "Hif.Props.C11_extract_leading_witness"
   ],
   "note": "compute_perm full. extract_leading for non-empty leading blocks; empty leading block refuted (witness)."
  },
  {
   "property": "C12",
   "status": "proved",
   "theorems": [
    "Hif.Props.C12_split",
    "Hif.Props.C12_split_with_positions",
    "Hif.Props.C12_split_other_order",
    "Hif.Props.C12_split_errors"
   ],
   "note": "split, split with positions, and split into the other storage order; entries, lines, counts."
  },
  {
   "property": "C13",
   "status": "proved",
   "theorems": [
    "Hif.Props.C13_scale_primary",
    "Hif.Props.C13_scale_secondary",
    "Hif.Props.C13_errors"
   ],
   "note": ""
  },
  {
   "property": "C14",
   "status": "partial",
   "theorems": [
    "Hif.Props.C14_prune_partial",
    "Hif.Props.C14_prune_zeros",
    "Hif.Props.C14_keeps_small_witness"
   ],
   "note": "Safety direction for eps<=1 and exactness for eps<=0; the documented completeness for eps>0 is false (witness)."
  },
  {
   "property": "C15",
   "status": "partial",
   "theorems": [
    "Hif.Props.C15_coo_to_cs_partial",
    "Hif.Props.C15_distinct_sorted",
    "Hif.Props.C15_unsorted_duplicates_witness",
    "Hif.Props.C15_empty_witness"
   ],
   "note": "Lines free of duplicates or already ordered; unsorted duplicates and the empty matrix are refuted by witnesses."
  },
  {
   "property": "C16",
   "status": "proved",
   "theorems": [
    "Hif.Props.C16_step",
    "Hif.Props.C16_history",
    "Hif.Props.C16_build_inv",
    "Hif.Props.C16_is_eye"
   ],
   "note": "Every history of make_eye/build_inv/interchange/interchange_inv; is_eye for bijections (it sums displacements, so it is only meaningful there)."
  },
  {
   "property": "C17",
   "status": "partial",
   "theorems": [
    "Hif.Props.C17_history_safe_partial",
    "Hif.Props.C17_no_leak_partial",
    "Hif.Props.C17_read_safe",
    "Hif.Props.C17_frame",
    "Hif.Props.C17_share",
    "Hif.Props.C17_write",
    "Hif.Props.C17_resize",
    "Hif.Props.C17_reserve",
    "Hif.Props.C17_clone",
    "Hif.Props.C17_push",
    "Hif.Props.C17_at",
    "Hif.Props.C17_moved_from_witness",
    "Hif.Props.C17_assign_size_witness",
    "Hif.Props.C17_push_alias_witness",
    "Hif.Props.C17_failed_copy_witness",
    "Hif.Props.C17_failed_push_witness",
    "Hif.Props.C17_steal_twice_witness"
   ],
   "note": "Proved for every history a program may execute under the rules stated in Legit (no shallow copy of a moved-from array, unchecked allocations succeed, one buffer is not taken over twice, wrapped memory is there when read). The full statement fails in the code: witnesses for copying a moved-from array, failed allocations, double steal; also for assignment between arrays sharing data and for push_back on shared spare capacity."
  },
  {
   "property": "C18",
   "status": "proved",
   "theorems": [
    "Hif.Props.C18_history",
    "Hif.Props.C18_restore"
   ],
   "note": "All histories of rounds with increasing steps; restore_cur_state proved to make the same step reusable."
  },
  {
   "property": "C19",
   "status": "proved",
   "theorems": [
    "Hif.Props.C19_history_shows",
    "Hif.Props.C19_build_interchanges",
    "Hif.Props.C19_interchange_involutive",
    "Hif.Props.C19_defer_unsorted_witness",
    "Hif.Props.C19_defer_nonempty_witness"
   ],
   "note": "Rows and columns exchanged for AugCCS. Preconditions: pushed indices ascending and in range, build_aug from a valid sorted matrix, deferral to an empty position behind all stored entries of the rows concerned (witnesses show it is needed). Termination of the loops and absence of out-of-bounds accesses are part of the conclusion."
  },
  {
   "property": "C20",
   "status": "proved",
   "theorems": [
    "Hif.Props.C20_num_dropping"
   ],
   "note": "Exact arithmetic in any ordered field; kappa > 0."
  },
  {
   "property": "C21",
   "status": "proved",
   "theorems": [
    "Hif.Crout.C21_factor_lines",
    "Hif.Props.C21_space_dropping",
    "Hif.Props.C21_selection_exists"
   ],
   "note": "Quantified over every selection routine meeting the C++ standard's promise for nth_element; such a routine exists (C21_selection_exists)."
  },
  {
   "property": "C22",
   "status": "proved",
   "theorems": [
    "Hif.Props.C22_schur_formula",
    "Hif.Props.C22_schur_pattern",
    "Hif.Props.C22_schur_empty"
   ],
   "note": "A without repeated indices in a row; exact arithmetic in a commutative ring."
  },
  {
   "property": "C23",
   "status": "proved",
   "theorems": [
    "Hif.Props.C23_threaded_eq_serial",
    "Hif.Props.C23_threaded_finishes"
   ],
   "note": "Interleaving at the granularity of one row per step; the shared arrays are written in disjoint places, and a step reads shared data only from its own row's segment and from row_start, which is constant in the second part. C23_threaded_finishes shows that complete schedules exist."
  },
  {
   "property": "C24",
   "status": "proved",
   "theorems": [
    "Hif.Crout.C24_factor_form",
    "Hif.Crout.C24_recurrence",
    "Hif.Crout.C24_exact_without_dropping",
    "Hif.Crout.C24_exact_level"
   ],
   "note": "Plain (non-symmetric, non-pivoting) level kernel: loads, updates, deferral, compression and interchange of positions, all modelled; exact arithmetic over any field; dropping as an arbitrary rule for the factor form, no dropping for exactness."
  },
  {
   "property": "C25",
   "status": "proved",
   "theorems": [
    "Hif.Crout.C25_deferral_permutations"
   ],
   "note": "Every sequence of deferrals the kernel makes, any dropping rule within its contract (proved for the code's own rules)."
  },
  {
   "property": "C26",
   "status": "proved",
   "theorems": [
    "Hif.Props.C26_factorize_terminates",
    "Hif.Props.C26_pivoting_sticks",
    "Hif.Props.C26_retry_uses_pivoting"
   ],
   "note": "For all matrices, options and behaviours of the level kernels meeting a size contract (Spec.KernelsOK); recursion depth bound 2n+2 proved. Numerical content of a level is a parameter."
  },
  {
   "property": "C27",
   "status": "proved",
   "theorems": [
    "Hif.Props.C27_solve_mmultiply",
    "Hif.Props.C27_mmultiply_solve",
    "Hif.Props.C27_solve_spec"
   ],
   "note": "Every number of levels; exact arithmetic over any field; dense block assumed exact at the chosen rank (DenseExact)."
  },
  {
   "property": "C28",
   "status": "proved",
   "theorems": [
    "Hif.Props.C28_solve_adjoint",
    "Hif.Props.C28_mmultiply_adjoint"
   ],
   "note": "Every number of levels; real scalings (their type in the code)."
  },
  {
   "property": "C29",
   "status": "partial",
   "theorems": [
    "Hif.Props.C29_single_level_partial",
    "Hif.Props.C29_witness"
   ],
   "note": "Single-level preconditioners proved; multilevel refuted by witness (copies in prec_solve_mrhs are reversed)."
  },
  {
   "property": "C30",
   "status": "partial",
   "theorems": [
    "Hif.Props.C30_single_calls_partial",
    "Hif.Props.C30_multi_calls_partial",
    "Hif.Props.C30_witness",
    "Hif.Props.C30_witness_widths"
   ],
   "note": "All call histories of width >= N; refuted for narrower then wider calls (witnesses)."
  },
  {
   "property": "C31",
   "status": "proved",
   "theorems": [
    "Hif.Props.C31_iterate",
    "Hif.Props.C31_exact",
    "Hif.Props.C31_error_recursion"
   ],
   "note": "All N, all operators meeting OpOK (proved for CRS and CCS)."
  },
  {
   "property": "C32",
   "status": "proved",
   "theorems": [
    "Hif.Props.C32_truthful",
    "Hif.Props.C32_single",
    "Hif.Props.C32_zero_rhs"
   ],
   "note": "Truthfulness of iterations and flag for all inputs."
  },
  {
   "property": "C33",
   "status": "proved",
   "theorems": [
    "Hif.Props.C33_filter_subtracts_mean",
    "Hif.Props.C33_filter_sum_zero",
    "Hif.Props.C33_filter_idempotent",
    "Hif.Props.C33_filter_bad_range",
    "Hif.Props.C33_reversed_range_accepted",
    "Hif.Props.C33_solve_applies_filter",
    "Hif.Props.C33_callback_installed"
   ],
   "note": "Default filter and user function; reversed range handled as in code."
  },
  {
   "property": "C34",
   "status": "partial",
   "theorems": [
    "Hif.Props.C34_fields_complete",
    "Hif.Props.C34_names_distinct",
    "Hif.Props.C34_set_named",
    "Hif.Props.C34_set_unknown",
    "Hif.Props.C34_dtypes",
    "Hif.Props.C34_stream_partial",
    "Hif.Props.C34_stream_misreads",
    "Hif.Props.C34_stream_witness"
   ],
   "note": "set_option_attr: proved for every name and value (table complete, distinct, exactly one field changes, unknown names refused). Stream: proved when pivot has its default ... operator>> skips the pivot field, so every later field is read one position off (C34_stream_misreads, witness)."
  },
  {
   "property": "C35",
   "status": "proved",
   "theorems": [
    "Hif.Props.C35_create_params",
    "Hif.Props.C35_defaults",
    "Hif.Props.C35_droptol",
    "Hif.Props.C35_alpha",
    "Hif.Props.C35_kappa",
    "Hif.Props.C35_one_slot"
   ],
   "note": "All slots, all values; defaults; one-slot change; uniform setters."
  },
  {
   "property": "C36",
   "status": "proved",
   "theorems": [
    "Hif.Props.C36_no_dangling",
    "Hif.Props.C36_null_handle",
    "Hif.Props.C36_setup_roles",
    "Hif.Props.C36_create",
    "Hif.Props.C36_refinement_sizes",
    "Hif.Props.C36_update",
    "Hif.Props.C36_solve_is_apply",
    "Hif.Props.C36_apply_operation",
    "Hif.Props.C36_refinement_matrix",
    "Hif.Props.C36_empty_matrix_witness"
   ],
   "note": "All histories of calls. Ownership rule explicit (Allowed): no destroyed handles; matrices referred to are live when refinement uses them. C36_empty_matrix_witness: a handle made from NULL arrays leads to a null dereference."
  },
  {
   "property": "C37",
   "status": "partial",
   "theorems": [
    "Hif.Props.C37_rank_ignored",
    "Hif.Props.C37_refinement_partial",
    "Hif.Props.C37_witness"
   ],
   "note": "Proved for refinement; proved that the rank is ignored without refinement and for products (C37_rank_ignored), with a witness that this differs from the core's solve with that rank."
  },
  {
   "property": "C38",
   "status": "proved",
   "theorems": [
    "Hif.Props.C38_error_message",
    "Hif.Props.C38_once"
   ],
   "note": "All histories; reported once."
  },
  {
   "property": "C39",
   "status": "proved",
   "theorems": [
    "Hif.Props.C39_one_based",
    "Hif.Props.C39_zero_based",
    "Hif.Props.C39_other_base",
    "Hif.Props.C39_c_refinement_witness"
   ],
   "note": "Whole effect of factorize on the object is equal for the one-based and lowered zero-based input. C39_c_refinement_witness: refinement through the C interface takes one-based arrays as zero-based and reads out of bounds."
  },
  {
   "property": "C40",
   "status": "partial",
   "theorems": [
    "Hif.Props.C40_no_stale_levels",
    "Hif.Props.C40_empty_safe_partial",
    "Hif.Props.C40_early_failures",
    "Hif.Props.C40_unfinished_never_completes",
    "Hif.Props.C40_witness_level2",
    "Hif.Props.C40_witness_dense",
    "Hif.Props.C40_clear_resets"
   ],
   "note": "Nothing old survives (all failure points); failures before the end of the first level are safe; later failures refuted by witnesses (dereference of end of list, unfactorized dense block used); a solve on an unfinished chain never completes."
  },
  {
   "property": "C41",
   "status": "partial",
   "theorems": [
    "Hif.Props.C41_prec_partial",
    "Hif.Props.C41_no_dense",
    "Hif.Props.C41_witness"
   ],
   "note": "Full for objects without dense block; with a dense block level = number of sparse levels passes the check and dereferences end() (C41_witness, for all such objects)."
  },
  {
   "property": "C42",
   "status": "proved",
   "theorems": [
    "Hif.Props.C42_nnz",
    "Hif.Props.C42_empty",
    "Hif.Props.C42_ranks",
    "Hif.Props.C42_trivial_level"
   ],
   "note": "All objects (nnz, empty) and all completed factorizations (ranks, levels) under the contract that a dense solver's rank is at most its size."
  },
  {
   "property": "C43",
   "status": "proved",
   "theorems": [
    "Hif.Props.C43_defer_tiny",
    "Hif.Props.C43_permutations"
   ],
   "note": "All matrices, orderings and m0; both orderings rearranged by one permutation, order kept inside both groups."
  },
  {
   "property": "C44",
   "status": "proved",
   "theorems": [
    "Hif.Props.C44_reorder"
   ],
   "note": "All permutations and block sizes."
  },
  {
   "property": "C45",
   "status": "proved",
   "theorems": [
    "Hif.Props.C45_rcm",
    "Hif.Props.C45_nonsymmetric_witness",
    "Hif.Props.C45_contract"
   ],
   "note": "Proved for every symmetric graph, including termination and memory safety; witness for nonsymmetric adjacency. The index shift of the pattern by run_rcm (const_cast) is not modelled."
  },
  {
   "property": "C46",
   "status": "partial",
   "theorems": [
    "Hif.Props.C46_pattern",
    "Hif.Props.C46_symm_pattern_partial",
    "Hif.Props.C46_symm_pattern_witness"
   ],
   "note": "Pattern of B: proved in full. Pattern of B+B^T: proved when rows of the block have no entry outside; otherwise the mask is read out of range (witness)."
  },
  {
   "property": "C47",
   "status": "proved",
   "theorems": [
    "Hif.Props.C47_scale_extreme",
    "Hif.Props.C47_scale_extreme_symm",
    "Hif.Props.C47_scale_eye",
    "Hif.Props.C47_symm_unbounded"
   ],
   "note": "All matrices, zero rows/columns included; the symmetric variant (row factors on both sides) is proved separately, with a witness that entries can grow."
  },
  {
   "property": "C48",
   "status": "proved",
   "theorems": [
    "Hif.Props.C48_unchanged",
    "Hif.Props.C48_fix_poor_scaling"
   ],
   "note": "Square root assumed exact on nonnegative numbers."
  },
  {
   "property": "C49",
   "status": "proved",
   "theorems": [
    "Hif.Props.C49_from_crs",
    "Hif.Props.C49_from_ccs"
   ],
   "note": "CRS and CCS, matrices without repeated positions (what check_validity enforces)."
  },
  {
   "property": "C50",
   "status": "partial",
   "theorems": [
    "Hif.Props.C50_indefinite_partial",
    "Hif.Props.C50_negative_dominant_witness",
    "Hif.Props.C50_definite_partial",
    "Hif.Props.C50_definite_witness",
    "Hif.Props.C50_solve",
    "Hif.Props.C50_solve_full",
    "Hif.Props.C50_multiply",
    "Hif.Props.C50_factorize_solve_partial",
    "Hif.Props.C50_singular_indefinite_witness",
    "Hif.Props.C50_singular_definite_witness"
   ],
   "note": "syev is a parameter with its LAPACK contract (EigDecomp). The property as stated is false: the threshold is eps times the signed dominant eigenvalue (negative dominant eigenvalue: nothing is truncated, zero eigenvalues are divided by, see C50_negative_dominant_witness, C50_singular_indefinite_witness), and for definite flags the truncation scan starts from the dominant end (C50_definite_witness, C50_singular_definite_witness). Proved: positive-dominant indefinite spectra; definite spectra in which all eigenvalues are acceptable; solve/multiply are the pseudo-inverse/operator restricted to the kept eigenvalues."
  },
  {
   "property": "C51",
   "status": "partial",
   "theorems": [
    "Hif.Props.C51_solve_single_partial",
    "Hif.Props.C51_multiply_single_partial",
    "Hif.Props.C51_solve_out_of_bounds_witness",
    "Hif.Props.C51_multiply_out_of_bounds_witness"
   ],
   "note": "True for one right-hand side; for two or more the column pointer &_mrhs(0, i*Nrhs) runs out of bounds (witnesses)."
  },
  {
   "property": "C52",
   "status": "partial",
   "theorems": [
    "Hif.Props.C52_query",
    "Hif.Props.C52_read_crs_partial",
    "Hif.Props.C52_read_ccs_partial",
    "Hif.Props.C52_read_mat_partial",
    "Hif.Props.C52_query_then_read",
    "Hif.Props.C52_symmetric_overflow_witness",
    "Hif.Props.C52_diagonal_only_witness",
    "Hif.Props.C52_read_vector",
    "Hif.Props.C52_read_vec",
    "Hif.Props.C52_read_mat_mismatch",
    "Hif.Props.C52_accepts_only",
    "Hif.Props.C52_accepts_only_vector",
    "Hif.Props.C52_truncated",
    "Hif.Props.C52_truncated_vector",
    "Hif.Props.C52_endless_loop_witness",
    "Hif.Props.C52_long_word_witness",
    "Hif.Props.C52_query_throws_witness",
    "Hif.Props.C52_diagonal_only_oob_witness",
    "Hif.Props.C52_index_zero_witness"
   ],
   "note": "Query result, reading of general and of expanded symmetric/Hermitian/skew files (row- and column-major, C++ and C interface) and of vectors proved at character level for every file of the described layout. The bound on the reported number of entries holds for general files only: for symmetric kinds the caller's arrays are always overrun (witness for every such file); diagonal-only symmetric files leave uninitialised memory; further witnesses: endless loop, buffer overrun by long words, exception out of a C function, unchecked indices."
  },
  {
   "property": "C53",
   "status": "proved",
   "theorems": [
    "Hif.Props.C53_keeps_largest",
    "Hif.Props.C53_cleared",
    "Hif.Props.C53_empty_reference_undefined"
   ],
   "note": "Statement corrected against the code: the kept entries of a shortened line need not stay in order (the sort is commented out); C53_empty_reference_undefined shows the precondition on the reference is needed. Serial routine; nth_element is any function meeting the standard's promise."
  },
  {
   "property": "C54",
   "status": "proved",
   "theorems": [
    "Hif.Crout.C54_estimates"
   ],
   "note": "Exact arithmetic; both estimators (L and U)."
  },
  {
   "property": "C55",
   "status": "partial",
   "theorems": [
    "Hif.Props.C55_null_mutes_partial",
    "Hif.Props.C55_shifted",
    "Hif.Props.C55_combined_partial"
   ],
   "note": "The C constants are one bit lower than the core's: proved which core class each enables (C55_shifted); only NULL/mute correct."
  },
  {
   "property": "C56",
   "status": "partial",
   "theorems": [
    "Hif.Crout.C56_parameters_partial",
    "Hif.Crout.C56_tolerances_exchanged"
   ],
   "note": "The property is false of the code: the tuple returned by determine_fac_pars is unpacked in the other order, so tau_L and tau_U are exchanged (C56_tolerances_exchanged). The values themselves and the first-level refinement are proved."
  },
  {
   "property": "C57",
   "status": "proved",
   "theorems": [
    "Hif.Crout.C57_dropping_error"
   ],
   "note": "Kernel without pivoting; bound with the estimator value the code used at the step; space-based dropping off."
  },
  {
   "property": "C58",
   "status": "partial",
   "theorems": [
    "Hif.Props.C58_preprocess_kernels_partial",
    "Hif.Props.C58_preprocess_mc64_partial",
    "Hif.Props.C58_preprocess_partial",
    "Hif.Props.C58_invalid_reorder",
    "Hif.Props.C58_matching_failed",
    "Hif.Props.C58_preprocess_rcm_partial"
   ],
   "note": "Matching, AMD and RCM by contract in C58_preprocess_partial; with the modelled library routines in C58_preprocess_kernels_partial (conditions of C71 on the matching). Missing: iterative scaling with zero rows, empty leading block, nonsymmetric RCM with deferrals (witnesses C59, C11, C46)."
  },
  {
   "property": "C59",
   "status": "partial",
   "theorems": [
    "Hif.Props.C59_iterative_scale_partial",
    "Hif.Props.C59_iterative_scale_witness"
   ],
   "note": "Missing: zero rows/columns, where the factor is 1/sqrt(0) (witness)."
  },
  {
   "property": "C60",
   "status": "partial",
   "theorems": [
    "Hif.Props.C60_same_format_partial",
    "Hif.Props.C60_cross_format_partial",
    "Hif.Props.C60_vector",
    "Hif.Props.C60_untight_witness",
    "Hif.Props.C60_empty_witness"
   ],
   "note": "Round trip proved for all matrices with at least one stored entry whose arrays have no unused tail, and for all vectors. A matrix without entries is written but cannot be read (witness); an unused tail of the value array is counted in the header, so the file cannot be read (witness). Numbers are a parameter: print followed by scan is assumed to be the identity."
  },
  {
   "property": "C61",
   "status": "proved",
   "theorems": [
    "Hif.Props.C61_extract_E",
    "Hif.Props.C61_extract_E_sorted",
    "Hif.Props.C61_extract_E_pattern",
    "Hif.Props.C61_extract_F",
    "Hif.Props.C61_extract_errors"
   ],
   "note": "E and F of every level, both loops of each function with all index bounds; both results are sorted."
  },
  {
   "property": "C62",
   "status": "proved",
   "theorems": [
    "Hif.Props.C62_dense_criterion",
    "Hif.Props.C62_dense_empty",
    "Hif.Props.C62_growth",
    "Hif.Props.C62_level",
    "Hif.Props.C62_exact",
    "Hif.Props.C62_stats",
    "Hif.Props.C62_initial_sizes",
    "Hif.Props.C62_next_sizes",
    "Hif.Props.C62_level_kernels",
    "Hif.Props.C62_reference_size"
   ],
   "note": "level_factorize<false> as the composition of the models of C08, C58, C24/C57, C12, C53, C22, C61 (Level.lean). Matching, AMD, nth_element by contract; RCM of nonsymmetric patterns (symm_pre_lvls > 0 with reorder=auto) only if it returns a permutation; iterative scaling (pre_scale = 2) not included here (zero lines divide by zero, C59); for nonsingular matrices without dropping see C63_exact_scaled. Reference sizes are inputs of the level; C86 threads them through the driver as in the code. C62_level_kernels uses the modelled matching, AMD and RCM instead of contracts (conditions on the matrix only). C62_reference_size: the driver hands the same N to every level, whatever kernels, retries and levels."
  },
  {
   "property": "C63",
   "status": "proved",
   "theorems": [
    "Hif.Props.C63_exact_scaled",
    "Hif.Props.C63_factorize",
    "Hif.Props.C63_exact"
   ],
   "note": "Driver, level kernels (with and without pivoting, automatic mode) and solve composed; not symmetric, whole leading block (m0 = 0). Dense solver by contract (exact on nonsingular blocks of size 1..n), shown satisfiable and met by QRCP (C64_end_to_end). Reference sizes are given per level here; C86 proves the same with the sizes computed and carried along as in the code. C63_exact_scaled: every pre_scale setting including iterative scaling, for nonsingular matrices with nothing dropped."
  },
  {
   "property": "C64",
   "status": "partial",
   "theorems": [
    "Hif.Props.C64_solve_partial",
    "Hif.Props.C64_multiply",
    "Hif.Props.C64_adjoint",
    "Hif.Props.C64_mrhs",
    "Hif.Props.C64_exact",
    "Hif.Props.C64_rank_pos",
    "Hif.Props.C64_zero_block",
    "Hif.Props.C64_max_unused",
    "Hif.Props.C64_end_to_end"
   ],
   "note": "geqp3 and laic1 are parameters with their LAPACK contracts (Geqp3OK, Laic1OK; shown satisfiable for every real matrix by a Householder construction, QrcpEx.lean). The property fails for the zero block (C64_zero_block: full rank, division by zero), hence the hypothesis of a nonzero block and the suffix _partial. C64_max_unused: the estimator of the largest singular value never has an effect. The C++ applies ormqr to all right-hand sides at once, the model column by column; QRCP with HIF_TQRCP_USE_1NORM not modelled."
  },
  {
   "property": "C65",
   "status": "proved",
   "theorems": [
    "Hif.PCrout.C65_pivot_orderings",
    "Hif.PCrout.C65_pivot_factor_form",
    "Hif.PCrout.C65_pivot_recurrence",
    "Hif.PCrout.C65_pivot_exact",
    "Hif.PCrout.C65_pivot_estimates",
    "Hif.PCrout.C65_pivot_dropping"
   ],
   "note": "The sorting by magnitude is any routine that rearranges its list; the Array d is uninitialized in the code and arbitrary in the model; pivot counters (messages only) are not modelled. Invariants of AugmentedStorage come from C19."
  },
  {
   "property": "C66",
   "status": "proved",
   "theorems": [
    "Hif.Props.C66_dense_criterion",
    "Hif.Props.C66_growth",
    "Hif.Props.C66_level_kernels",
    "Hif.Props.C66_level",
    "Hif.Props.C66_exact",
    "Hif.Props.C66_stats"
   ],
   "note": "IsSymm = false path with m0 = n; reference sizes are inputs of every level (positive; C62_initial_sizes, C62_next_sizes show the code provides that); std::sort is any function that rearranges. C66_level_kernels uses the modelled matching, AMD and RCM instead of contracts (conditions on the matrix only)."
  },
  {
   "property": "C67",
   "status": "proved",
   "theorems": [
    "Hif.PCrout.C67_rook_threshold",
    "Hif.PCrout.C67_rook_everywhere",
    "Hif.PCrout.C67_rook_off"
   ],
   "note": "The exceptions are real: after a deferral the next candidate becomes the pivot without a new search, and the search stops after four rounds. Magnitude is an absolute value; sorting is any rearrangement by decreasing magnitude."
  },
  {
   "property": "C68",
   "status": "proved",
   "theorems": [
    "Hif.Symm.C68_symm_ordering",
    "Hif.Symm.C68_symm_factor_form",
    "Hif.Symm.C68_symm_recurrence",
    "Hif.Symm.C68_symm_exact",
    "Hif.Symm.C68_symm_estimates",
    "Hif.Symm.C68_symm_dropping_error",
    "Hif.Symm.C68_symm_space",
    "Hif.Symm.C68_symm_definite"
   ],
   "note": "Real value types (the code states that complex Hermitian matrices do not work). Proved by simulating the symmetric loop step by step by the general loop of C24 on the symmetric data (SymmSim.lean); sorting/selection in dropping by contract as in C24."
  },
  {
   "property": "C69",
   "status": "proved",
   "theorems": [
    "Hif.Props.C69_dense_criterion",
    "Hif.Props.C69_growth",
    "Hif.Props.C69_level",
    "Hif.Props.C69_exact",
    "Hif.Props.C69_stats"
   ],
   "note": "make_transpose aliases the arrays, so both storages are one; preprocessing: none, or matching/AMD by contract and RCM by C45; iterative scaling (pre_scale=2) excluded; symmetric values with a nonsymmetric stored pattern excluded (RCM would be handed a nonsymmetric graph)."
  },
  {
   "property": "C70",
   "status": "proved",
   "theorems": [
    "Hif.Props.C70_end_to_end_definite",
    "Hif.Props.C70_end_to_end",
    "Hif.Props.C70_syev_exists",
    "Hif.Props.C70_factorize",
    "Hif.Props.C70_exact",
    "Hif.Props.C70_symmetric",
    "Hif.Props.C70_definite",
    "Hif.Props.C70_exact_scaled"
   ],
   "note": "Dense solver by contract (exact on the block); the definiteness of the last block is a hypothesis, because dropping can destroy it. m0 = 0. C70_end_to_end composes this with the model of SYEIG (C50); there the only contract left is LAPACK's ?syev, which C70_syev_exists shows to be satisfiable over the reals for every size. C70_end_to_end_definite covers the default rank when the definiteness is declared and true: every Schur complement inherits it, so SYEIG keeps all eigenvalues. C70_exact_scaled: exactness for every pre_scale setting including iterative scaling."
  },
  {
   "property": "C71",
   "status": "partial",
   "theorems": [
    "Hif.Props.C71_matching_partial",
    "Hif.Props.C71_degenerate",
    "Hif.Props.C71_contract",
    "Hif.Props.C71_stored_zero_witness"
   ],
   "note": "Proved for matrices without stored zeros and with lines that satisfy min(length, n-1) <= n - n/2; both conditions are needed (witness theorems; items 56, 57 of DESIGN.md). log and exp by their functional equations, exact arithmetic. The input check compiled in with HIF_DEBUG is not modelled."
  },
  {
   "property": "C72",
   "status": "partial",
   "theorems": [
    "Hif.Props.C72_scaled_partial",
    "Hif.Props.C72_optimal_partial",
    "Hif.Props.C72_overlap_witness"
   ],
   "note": "Same conditions as C71; C72_overlap_witness shows a valid matrix with a longer line for which the scaled entries exceed 1."
  },
  {
   "property": "C73",
   "status": "partial",
   "theorems": [
    "Hif.Props.C73_structural_rank_partial",
    "Hif.Props.C73_flag_partial",
    "Hif.Props.C73_overlap_witness"
   ],
   "note": "Same conditions as C71; C73_overlap_witness shows a structurally nonsingular matrix that the code reports as singular."
  },
  {
   "property": "C74",
   "status": "proved",
   "theorems": [
    "Hif.Props.C74_amd",
    "Hif.Props.C74_contract",
    "Hif.Props.C74_jumbled",
    "Hif.Props.C74_refused"
   ],
   "note": "run_amd<false> (the only instance used); integers unbounded, no allocation failure, statistics not modelled; wbig, dense, aggressive and the previous contents of all arrays are arbitrary."
  },
  {
   "property": "C75",
   "status": "proved",
   "theorems": [
    "Hif.Props.C75_postorder"
   ],
   "note": "postorder of amd.hpp."
  },
  {
   "property": "C76",
   "status": "proved",
   "theorems": [
    "Hif.Props.C76_lengths",
    "Hif.Props.C76_transpose",
    "Hif.Props.C76_pairs"
   ],
   "note": "aat/one/preprocess of amd.hpp."
  },
  {
   "property": "C77",
   "status": "partial",
   "theorems": [
    "Hif.Props.C77_getrf",
    "Hif.Props.C77_solve",
    "Hif.Props.C77_rank",
    "Hif.Props.C77_singular",
    "Hif.Props.C77_multiply",
    "Hif.Props.C77_round_trip",
    "Hif.Props.C77_adjoint_partial",
    "Hif.Props.C77_refactorize",
    "Hif.Props.C77_mrhs",
    "Hif.Props.C77_ops_mrhs",
    "Hif.Props.C77_refused",
    "Hif.Props.C77_end_to_end",
    "Hif.Props.C77_tran_complex",
    "Hif.Props.C77_stale",
    "Hif.Props.C77_stale_oob",
    "Hif.Props.C77_rank_low"
   ],
   "note": "getrf is a parameter with its LAPACK contract (LuOK); the textbook factorization is proved to meet it (C77_getrf), and C77_end_to_end uses that one, so it assumes nothing of LAPACK. The round trip with the transpose flag fails for complex matrices (C77_tran_complex: plain transpose in solve, conjugate in multiply), hence C77_adjoint_partial. Further witnesses: C77_stale, C77_stale_oob (set_matrix keeps the old pivots and rank), C77_rank_low (the rank reported for a singular block is not its rank). A zero pivot in getrs is the outcome ub."
  },
  {
   "property": "C78",
   "status": "proved",
   "theorems": [
    "Hif.Props.C78_fgmres",
    "Hif.Props.C78_gmres",
    "Hif.Props.C78_total",
    "Hif.Props.C78_progress",
    "Hif.Props.C78_exact",
    "Hif.Props.C78_false_success",
    "Hif.Props.C78_complex",
    "Hif.Props.C78_norms",
    "Hif.Props.C78_end_to_end"
   ],
   "note": "Exact arithmetic with a square root (contract SqrtOK, met by Real.sqrt); real scalars. For complex scalars the drivers are wrong (C78_complex: the inner product conjugates the wrong argument). C78_false_success: SUCCESS without convergence if maxit is a multiple of restart or 0, DIVERGED with a converged result. FGMRES: 1 << it_outer overflows from 31 outer iterations on (outcome ub, excluded). C78_end_to_end: mutable work array of the preconditioner put back before each call."
  },
  {
   "property": "C79",
   "status": "proved",
   "theorems": [
    "Hif.Props.C79_threaded_eq_serial",
    "Hif.Props.C79_keeps_largest",
    "Hif.Props.C79_finishes",
    "Hif.Props.C79_one_thread_witness",
    "Hif.Props.C79_zero_limiter_witness"
   ],
   "note": "For positive limiters and the team size requested. Interleaving granularity: one dropped line of one block (the threads touch disjoint lines, shared gap arrays at distinct positions and private value buffers). nth_element meets the standard's promise and compares only elements of its range (NthLocal). C79_one_thread_witness and C79_zero_limiter_witness show both conditions are needed."
  },
  {
   "property": "C80",
   "status": "proved",
   "theorems": [
    "Hif.Props.C80_matrix",
    "Hif.Props.C80_matrix_roundtrip",
    "Hif.Props.C80_level",
    "Hif.Props.C80_rebuilt_solves",
    "Hif.Props.C80_jit",
    "Hif.Props.C80_empty_level_witness",
    "Hif.Props.C80_dense",
    "Hif.Props.C80_dense_destroyed",
    "Hif.Props.C80_factorized",
    "Hif.Props.C80_factorized_level",
    "Hif.Props.C80_factorized_solves",
    "Hif.Props.C80_factorized_symm"
   ],
   "note": "Exact values (no conversion of value or index types). Blocks must have exactly sized arrays; C80_factorized and C80_factorized_symm prove that the factorization makes them so (C80_factorized_level, C80_factorized_solves: end to end; the restoration of a preconditioner is the user's code, modelled by `rebuild`). C80_empty_level_witness: export of a level with m = 0 in the stored format reads an empty array. C80_jit: L is not freed."
  },
  {
   "property": "C81",
   "status": "proved",
   "theorems": [
    "Hif.Props.C81_roundtrip",
    "Hif.Props.C81_same",
    "Hif.Props.C81_narrow",
    "Hif.Props.C81_other_order",
    "Hif.Props.C81_mixed",
    "Hif.Props.C81_interrupted",
    "Hif.Props.C81_unwritten_values"
   ],
   "note": "HDF5 by contract: named datasets, raw words copied when read with the file's type, zero fill value. Interruption is modelled between the create and write calls of the datasets (an exception), not inside one HDF5 call. C81_narrow and C81_unwritten_values prove the two exceptions in the statement."
  },
  {
   "property": "C82",
   "status": "partial",
   "theorems": [
    "Hif.Props.C82_crs_partial",
    "Hif.Props.C82_ccs_partial",
    "Hif.Props.C82_wrapped",
    "Hif.Props.C82_negative_witness",
    "Hif.Props.C82_wide_ccs_witness",
    "Hif.Props.C82_tall_ccs_witness"
   ],
   "note": "Full equivalence for non-negative indices (CRS of any shape, CCS square); the three witnesses show that the code violates the property outside these conditions. A pointer array that decreases is undefined behaviour in the code (reversed iterator range) and counts as not accepted."
  },
  {
   "property": "C83",
   "status": "proved",
   "theorems": [
    "Hif.Props.C83_qrcp",
    "Hif.Props.C83_lup",
    "Hif.Props.C83_syeig",
    "Hif.Props.C83_factorize_qrcp",
    "Hif.Props.C83_completes_qrcp",
    "Hif.Props.C83_factorize_lup",
    "Hif.Props.C83_factorize_syeig"
   ],
   "note": ""
  },
  {
   "property": "C84",
   "status": "proved",
   "theorems": [
    "Hif.Props.C84_level",
    "Hif.Props.C84_factorize",
    "Hif.Props.C84_exact",
    "Hif.Props.ExPart.C84_noPre_wrong"
   ],
   "note": "The Crout loop, the level and the whole driver; the dense solver, matching and orderings through their contracts as in C63. C84_noPre_wrong is the witness that the code breaks the promise for no_pre with m0 < n."
  },
  {
   "property": "C85",
   "status": "proved",
   "theorems": [
    "Hif.Props.C85_level",
    "Hif.Props.C85_factorize",
    "Hif.Props.C85_exact"
   ],
   "note": "The whole symmetric driver with a leading block; the dense solver, matching and orderings through their contracts as in C70. A leading block without any stored entry is excluded (the matching would be handed an empty pattern)."
  },
  {
   "property": "C86",
   "status": "proved",
   "theorems": [
    "Hif.Props.C86_sizes",
    "Hif.Props.C86_lines",
    "Hif.Props.C86_linear",
    "Hif.Props.C86_factorize",
    "Hif.Props.C86_exact",
    "Hif.Props.C86_sizes_symm",
    "Hif.Props.C86_linear_symm",
    "Hif.Props.C86_exact_symm"
   ],
   "note": "The driver with row_sizes and col_sizes as local variables of factorize (Sizes.lean); C86_sizes reduces it to the driver of C63 (symmetric: C70) with given sizes, so their theorems apply; C86_factorize, C86_exact and C86_exact_symm are the instances. C86_lines is the sharper bound by lines. m0 = 0; matching, orderings and nth_element by contract as in C62; the dense solver is arbitrary in the bounds."
  },
  {
   "property": "C87",
   "status": "proved",
   "theorems": [
    "Hif.Props.C87_error",
    "Hif.Props.C87_residual",
    "Hif.Props.C87_bounded",
    "Hif.Props.C87_reaches",
    "Hif.Props.C87_perturbation",
    "Hif.Props.C87_nearby"
   ],
   "note": "Exact arithmetic. The contraction of the preconditioner is a hypothesis, in any measure that depends only on the entries of the vector; C87_perturbation derives it from closeness of the matrices, C87_nearby meets it end to end. C87_bounded assumes rho <= beta_1 where it excludes flag 1."
  },
  {
   "property": "C88",
   "status": "proved",
   "theorems": [
    "Hif.Props.C88_read",
    "Hif.Props.C88_query",
    "Hif.Props.C88_write",
    "Hif.Props.C88_write_refused",
    "Hif.Props.C88_roundtrip",
    "Hif.Props.C88_any_text",
    "Hif.Props.C88_endless",
    "Hif.Props.C88_truncated_witness",
    "Hif.Props.C88_sizes_witness",
    "Hif.Props.C88_query_witness"
   ],
   "note": "Character level; integers by their digits (no overflow), printing followed by >> of a value is the identity by hypothesis (PrintOK), which is shown satisfiable. The code does not refuse truncated files and does not terminate on files without information line (witnesses, item 72)."
  },
  {
   "property": "C89",
   "status": "partial",
   "theorems": [
    "Hif.Props.C89_history_partial",
    "Hif.Props.C89_views_partial",
    "Hif.Props.C89_write_partial",
    "Hif.Props.C89_resize_partial",
    "Hif.Props.C89_copy_partial",
    "Hif.Props.C89_assign_shared_witness",
    "Hif.Props.C89_moved_resize_witness",
    "Hif.Props.C89_failed_resize_witness"
   ],
   "note": "Histories exclude (permission conditions): use of moved-from matrices, failing allocations of resize and copy, and assignments between two objects that share their memory but have different numbers of entries. The code fails there: C89_assign_shared_witness (sizes set, array left as it is, a row loop meets entries that are not in the matrix), C89_moved_resize_witness (moved-from objects keep their sizes, so resize to the same sizes does nothing), C89_failed_resize_witness. The null matrix, the conversion from compressed storage (C06/C07) and between value types are elsewhere or not modelled."
  },
  {
   "property": "C90",
   "status": "partial",
   "theorems": [
    "Hif.Props.C90_verbose_partial",
    "Hif.Props.C90_verbose_hides_info",
    "Hif.Props.C90_lines_partial",
    "Hif.Props.C90_lookup_partial",
    "Hif.Props.C90_faithful_partial",
    "Hif.Props.C90_mumps_witness",
    "Hif.Props.C90_verbose_witness"
   ],
   "note": "Missing, because the code fails there: the deprecated mumps_blr has no line (C90_mumps_witness), and with warnings and information both enabled get_verbose does not report the second; INFO2 is never reported (C90_verbose_hides_info, C90_verbose_witness). to_string(double) is a parameter that prints no space and no newline."
  },
  {
   "property": "C91",
   "status": "proved",
   "theorems": [
    "Hif.Props.C91_fixed_matrix",
    "Hif.Props.C91_adjoint",
    "Hif.Props.C91_linear",
    "Hif.Props.C91_dense_exact",
    "Hif.Props.C91_exact_usable",
    "Hif.Props.C91_dense_qrcp",
    "Hif.Props.C91_dense_syeig"
   ],
   "note": "Covers solve and solve with the transpose flag without null-space filter (a filter is itself a projection, C33). The dense solver of the last block enters as an operation that multiplies by a fixed matrix, which is proved for exact solvers (LU, C77), for QRCP (C64) and for SYEIG (C50) with every usable rank. Exact arithmetic. solve_mrhs is not covered, because the code is wrong there (C29_witness)."
  },
  {
   "property": "C92",
   "status": "proved",
   "theorems": [
    "Hif.Props.C92_refinement",
    "Hif.Props.C92_bounded",
    "Hif.Props.C92_error",
    "Hif.Props.C92_fixed_point",
    "Hif.Props.C92_returned_error"
   ],
   "note": "C92_refinement, C92_bounded: after any history of applying calls; W is existential but shared with solve (the first conjunct), so the iterates are determined. Hypotheses as C91 (Usable: invertible levels, dense solver a fixed linear operation; Fits: work space), no filter, a matrix operator (OpOK; C01/C02 provide it for CRS and CCS). C92_error, C92_fixed_point: algebra of the iterates; C92_returned_error: the same for what hifir returns. Exact arithmetic."
  },
  {
   "property": "C93",
   "status": "proved",
   "theorems": [
    "Hif.Props.C93_product_matrix",
    "Hif.Props.C93_product_adjoint",
    "Hif.Props.C93_solve_product_solve",
    "Hif.Props.C93_product_solve_product",
    "Hif.Props.C93_dense_qrcp",
    "Hif.Props.C93_dense_syeig"
   ],
   "note": "Hypotheses: Usable/Multiplies (invertible levels; the dense solver of the last block solves with a fixed matrix T and multiplies with a fixed matrix V), Fits (work space), no filter for solves; the round trips need T V T = T or V T V = V (GenInv) on the last block. C93_dense_qrcp and C93_dense_syeig prove all of it for the two dense solvers whenever the pivots or kept eigenvalues are nonzero (C64, C50 say when that is). Exact arithmetic; geqp3 and syev by contract (Fac, EigDecomp)."
  },
  {
   "property": "C94",
   "status": "proved",
   "theorems": [
    "Hif.Props.C94_filtered_solve",
    "Hif.Props.C94_constant_filter",
    "Hif.Props.C94_bad_range",
    "Hif.Props.C94_filtered_refinement",
    "Hif.Props.C94_refinement_mean_free"
   ],
   "note": "C94_filtered_solve, C94_filtered_refinement: any filter that multiplies by a matrix (Filters: a user routine or the constant one); W, Wt are existential but the same for all pairs of filters including none, so the first conjunct determines them. C94_constant_filter, C94_refinement_mean_free: the constant filter (characteristic 0). C94_bad_range: error. Hypotheses as C91/C92. Exact arithmetic."
  },
  {
   "property": "C95",
   "status": "proved",
   "theorems": [
    "Hif.Props.C95_adjoint",
    "Hif.Props.C95_factorize_consistent",
    "Hif.Props.C95_lead_consistent",
    "Hif.Props.C95_symm_consistent"
   ],
   "note": "C95_factorize_consistent (general), C95_lead_consistent (leading symmetric block m0), C95_symm_consistent (symmetric, SYEIG), C95_adjoint (transposed calls are the adjoints for real scalings, which over the reals is no condition). Hypotheses: the contracts of the sorting, selection and norm primitives (LevelContract, SymmContract) and of LAPACK (Geqp3OK, Laic1OK, SyevOK) as in C63, C64, C70, C84; nothing is assumed about dropping or regularity. The exceptions are real: a zero block makes the first solve divide by zero (C64_zero_block), and so does a zero eigenvalue counted in the rank (C50_singular_indefinite_witness, C50_singular_definite_witness)."
  },
  {
   "property": "C96",
   "status": "proved",
   "theorems": [
    "Hif.Props.C96_symm_rank"
   ],
   "note": "C96_symm_rank. Same hypotheses as C95_symm_consistent; C70_symmetric covers the full-rank solve with a regular last block, C96 every rank, both operations and singular blocks."
  },
  {
   "property": "C97",
   "status": "proved",
   "theorems": [
    "Hif.Props.C97_semidefinite"
   ],
   "note": "C97_semidefinite. Hypotheses as C96, real ordered field. C70_definite covers the full-rank solve with a definite last block."
  }
 ]
}