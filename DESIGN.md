# Formal model of hifirworks/hifir in Lean 4 — design

## 1. What is modelled and how

HIFIR is a header-only C++ library (multilevel incomplete LDU preconditioner) plus a C
interface (`libhifir`).  The model in `lean/Verif/` consists of *transliterations*: every C++ loop
becomes a Lean loop combinator (`forUp`, `forDown`, …) over the same index range, every array access
becomes a checked read or write on a buffer with an explicit size.  An access outside
`[0,size)` is the distinct outcome `Err.oob`; other undefined behaviour is `Err.ub`; an exception raised
by the code (`hif_error_if`) is `Err.hif`.  A theorem of the form `Runs (kernel …) Q` therefore states
*both* that the kernel performs no out-of-range access and does not fail, *and* that its result
satisfies `Q`.

Numbers: index types are unbounded `Nat` (or `Int` where negative values can reach the code, e.g.
validation and C parameters).  Values are elements of an arbitrary (commutative) ring / field / star ring /
linearly ordered field: exact arithmetic replaces floating point.  The property theorems are thus about
the *algorithm*; rounding is not modelled.  Where the code only compares magnitudes (dropping,
scaling) we use linear orders or ordered fields.

Threads (`C04`, `C23`): a threaded region is the list of every thread's atomic actions; theorems quantify
over every interleaving (merge) of these lists.

Directory layout (`lean/Verif/`):

* `Core.lean` — outcome monad, checked buffers, loops, Hoare-style rules.
* model modules (one per area), each definition citing the modelled `/repo` lines.
* `Spec*.lean`-style definitions are small and placed at the top of the property files.
* `Props/*.lean` — the property theorems, one file per area, with non-vacuity `example`s beside each.

## 2. Trusted base

* Lean 4.33.0 kernel.  Axioms: at most `propext`, `Classical.choice`, `Quot.sound` (checked with
  `#print axioms` by `vcheck`).  No own axioms, no compiled evaluation.
* The reading of the code: the tie between C++ and Lean is the line-by-line citation in each
  definition.  The code is not run.
* Not modelled: floating-point rounding, overflow of `size_t`/`int`, compiler behaviour,
  LAPACK/BLAS (only through the contract "solves exactly" where used), the size limits, statistics and
  memory failures of AMD (its ordering is modelled, `Amd.lean`), MUMPS interfaces, timers, iostream formatting, OpenMP runtime
  (only the partition logic and data-race freedom by disjointness).

## 3. Discrepancies found in the code

(Properties that the unchanged code violates; each is shown in Lean by a concrete witness theorem
beside a `_partial` theorem giving what does hold.)

1. `CRS::solve_as_strict_lower_mrhs_tran` starts at `_ncols-1` and never processes the last row (and wraps around for an empty matrix).
2. `CCS::solve_as_strict_lower_mrhs_tran` uses `row_ind_cbegin(j1)` as end of the inner loop: no update is done at all.
3. `multiply_mrhs_t_low` (CRS and CCS) does not conjugate, whereas `multiply_t_low` does.
4. `prec_solve_mrhs` has the two copies between `y` and `work` reversed; for a multilevel object it disagrees with `prec_solve`.
5. `tau_L` and `tau_U` are swapped between `determine_fac_pars` and its callers.
6. `mm_read_sparse_data`: symmetric file with only diagonal entries leaves an uninitialised tail.
7. `convert_coo2cs`: duplicated entries of an unsorted row lose values.
8. `_prune`: running threshold depends on the order of entries.
9. `wrap_const_ccs` loops over `nrows` instead of `ncols`; only the last index of each line is checked. Witnesses: `C82_wide_ccs_witness`, `C82_tall_ccs_witness` (out-of-range read for a valid matrix), `C82_negative_witness`.
10. `Array::operator=` is a no-op when the data pointers agree even if the sizes differ; copying from a moved-from `Array` dereferences a null counter.
11. `drop_offsets_kernel` with a zero size bound passes `nth_element` an iterator before the range.
12. `CRS::multiply_t_low` returns without writing `y` for a matrix with no rows.
13. `solve` followed by `solve_mrhs` (k>1) does not enlarge the work space.
14. A `factorize` that throws in a deeper level leaves a non-empty level list; a later `solve` runs past its end.
15. `prec(level)` compares against `levels()`, which counts the dense block, and can dereference `end()`.
16. `operator>>` for `Options` skips `pivot`.
17. C verbosity constants are not translated to the core constants.
18. `lhf?Apply` ignores the rank argument for several operations.
19. `lhfQueryMmFile` reports the stored count for symmetric files while the read routine writes the expanded count.
20. `check_validity` dereferences through unchecked starts; skipped entirely when the index array is unallocated.
21. `SYEIG` thresholds use the signed dominating eigenvalue and the truncation loops scan from the wrong end; `solve_mrhs` indexes column `i*Nrhs`.
22. `compute_leading_block` reads `masks[ind]` before testing `ind < m`.
23. `symm_factor` forms `F` as a non-conjugated transpose.
24. `determine_fac_pars` with its callers (item 5) is proved in `C56_tolerances_exchanged`.
25. `extract_leading` of an empty leading block throws "memory allocation failed"; so does `convert_coo2cs` without entries and `iter_refine` with no column and N >= 2.
26. The threaded product partitions rows by the *requested* number of threads.
27. Triangular solves with `psize = 0` wrap around.
28. `NspFilter` silently replaces a reversed range by `n`.
29. `mt::drop_L_E_and_U_F` with `alpha <= 0` does not clear the blocks, unlike the serial routine.
30. `no_pre` ignores `m0`, so a statistic wraps around.
31. `hifir` takes `r = size_t(-1)` as full dense size, not the numerical rank as documented.
32. INFO2 verbosity with an empty leading block dereferences `end()` of `min_element`.
33. `export_sparse_data` with `jit_destroy` leaves `L_B`.
34. Default-constructed `HIF` has uninitialised `_nrows`, `_ncols`, `_stats`.
35. C interface: refinement takes the user's arrays as zero-based without check; a one-based matrix (accepted by the factorization) is read out
    of bounds (`C39_c_refinement_witness`).
36. C interface: a matrix handle created from NULL arrays is accepted by `lhf?Setup`/`lhf?GetMatrixNnz`, which dereference the null pointer
    (`C36_empty_matrix_witness`).
37. C interface: `rank` of `lhf?Apply` is ignored without refinement and for products (`C37_rank_ignored`, `C37_witness`).
38. C interface: the verbosity constants are one bit lower than the core's (`C55_shifted`); `get_verbose` names INFO only if WARN is off and never INFO2.
39. `operator>>` for options skips `pivot` (`C34_stream_misreads`).
40. Documented default of the C droptol is 1e-3, the code has 1e-4; `lhfcCreate` does not check the second allocation; `wrap_const_crs` declares a
    return type that ignores `IndPtrType`; `Hif` alias ignores `IndexType`; `AugCRS::build_aug` does not compile when instantiated.
41. `compute_leading_block` with `apat` reads the mask out of range as soon as a row of the leading block has an entry outside it
    (`C46_symm_pattern_witness`); the RCM ordering of nonsymmetric matrices with deferred diagonals is affected.
42. `EqlDriver::do_matching` checks squareness by comparing `B.nrows()` with itself; `do_maching` tests the status of `s` twice (and never
    that of `t`).
43. `iterative_scale` divides by `sqrt(0)` for a zero row or column (`C59_iterative_scale_witness`).
44. `scale_extreme_values` in the symmetric case applies the row scaling twice, so entries may grow (`C47_symm_unbounded`).
45. `run_rcm` on a pattern that is not symmetric (e.g. a matrix declared symmetric whose pattern is not) returns an array that repeats vertices and
    loses others (`C45_nonsymmetric_witness`); it also shifts the pattern's arrays to one-based numbering through a `const_cast` and does not restore them.
46. `Array`: copying or assigning a moved-from array dereferences its null counter (`C17_moved_from_witness`); `a = b` with `b` a shallow copy of `a` whose size was
    changed does nothing (`C17_assign_size_witness`); two shallow copies with spare capacity that both `push_back` overwrite each other's element
    (`C17_push_alias_witness`); `Array(n, data)` sets the size to `n` even when its allocation failed (`C17_failed_copy_witness`); `push_back` after a failed
    allocation writes through a null pointer (`C17_failed_push_witness`); `steal_array_ownership` on two shallow copies hands out the same pointer twice
    (`C17_steal_twice_witness`).
47. `AugCCS::row_end() const` and `AugCCS::build_aug(crs_type&&)` do not compile when instantiated (wrong return/parameter type, cf. 40). `build_aug(crs)` shares the
    arrays with `crs` unless `clone` is set, so later interchanges change `crs` too. `defer_col` to a position that is not empty or not behind all entries of the rows
    concerned (nothing tests it) leaves duplicate indices or unsorted rows (`C19_defer_nonempty_witness`, `C19_defer_unsorted_witness`).
48. `SYEIG::factorize` truncates with `eps * w[argmax |w|]`, i.e. with the *signed* dominant eigenvalue: if it is negative nothing is truncated, and the solve divides
    by (nearly) zero eigenvalues (`C50_negative_dominant_witness`). For definite matrices the scan `while` drops eigenvalues from the end at which `syev` puts the dominant
    one, so it stops at once and keeps all eigenvalues, including zero and wrong-signed ones (`C50_definite_witness`). `solve_mrhs`/`multiply_mrhs` address column `i`
    as `_mrhs(0, i * Nrhs)`, out of bounds for `Nrhs >= 2` (`C51_*_out_of_bounds_witness`).
49. MatrixMarket I/O (`MM.lean`, cf. 6, 19): the query reports the number of *listed* entries, so for every symmetric/Hermitian/skew file with an off-diagonal entry the C
    reader overruns arrays allocated with that number (`C52_symmetric_overflow_witness`); for such a file without off-diagonal entries the arrays keep an uninitialised
    second half (`C52_diagonal_only_witness`, `C52_diagonal_only_oob_witness`); `%s` conversions into 65-byte arrays are unbounded (`C52_long_word_witness`); the retry loop
    on the dimensions does not test for end of file or conversion errors and never ends (`C52_endless_loop_witness`); exceptions leave the C function
    `lhfQueryMmFile` (`C52_query_throws_witness`) although its documentation describes status codes; indices are not checked against the dimensions
    (`C52_index_zero_witness`); lines longer than 1023 characters are treated as several lines; the writer uses the size of the value array as the number of entries
    (`C60_untight_witness`); a matrix without entries cannot be read back (`C60_empty_witness`); the documentation says 0 columns are reported for dense files,
    the code reports the file's number.
50. `QRCP::factorize` compares the diagonal with `sqrt(eps)*|R(0,0)|` by `<`: for an all-zero block nothing is smaller than 0, the block gets full rank and `solve` divides by
    zero (`C64_zero_block`).  An explicit rank larger than the numerical rank also divides by zero pivots.
51. `QRCP::_est_rank_2norm` starts its loop with an empty leading block but with the estimates of the block of size one (`?gelsy`, which it is adapted from, starts with rank one):
    in the first step the vector for the largest singular value becomes zero and stays so, and the estimate of the largest singular value never changes from `|R(0,0)|`
    (`C64_max_unused`).
52. `stats[0] += m0 - m` (factor.hpp 1053, pivot_factor.hpp 499): with `no_pre` the leading block becomes `m = nrows` even if the user passed a smaller `m0`
    (680–691), so without deferral the unsigned difference wraps around.
53. Rook pivoting: after a deferral (`pivot_factor.hpp` 320–362) the next row and column become the pivot without a new search, so their pivot need not satisfy the threshold
    `gamma`; and the debug warning for an unsatisfied search tests `pivot_step > max_steps` (`PivotCrout.hpp` 604–608), which is never true after `for (; pivot_step < max_steps; …)`.

54. Symmetric kernel: `F` is made from `E` by a plain transposition (`symm_factor.hpp` 626–631) and `U_F` from `L_E` likewise, without conjugation; together with the aliasing
    `make_transpose` the kernel is only right for real symmetric matrices (a comment says so for `make_transpose`), but nothing in `factorize` refuses complex ones.
55. Symmetric kernel: with symmetric values but a nonsymmetric stored pattern (an explicit zero stored on one side only) the symmetric preprocessing hands a
    nonsymmetric graph to RCM, whose traversal relies on symmetry; hence the hypothesis `PatSym` of C69.
56. Weighted matching (`pre/equilibrate.hpp`, kernel): the shortest-path search keeps the entry numbers of the first column in `q(1..)` while rows reached with zero
    distance are entered from the top of the same array (`low`); when a column has more than about half of all rows, unread entry numbers are overwritten.  A
    structurally nonsingular `4 × 4` matrix is then reported as structurally singular (`C73_overlap_witness`), and for another one the scaled entries exceed 1 although
    the flag is 0 (`C72_overlap_witness`).
57. The same code takes `HUGE_VAL` for `rinf`; stored zeros get cost `inf`, and a line of stored zeros produces `inf - inf` (`C71_stored_zero_witness`).
58. `LUP::solve` with the transpose flag uses the plain transpose (`'T'`), `LUP::multiply` and everything else in the library the conjugate one (`C77_tran_complex`).
59. `LUP::set_matrix` resets neither `_ipiv` nor `_rank`: a `solve` without `factorize` is accepted and wrong (`C77_stale`), or reads beyond `_ipiv` (`C77_stale_oob`); `full_rank` reports the old matrix.
60. The rank LUP reports for a singular block is `info - 1`, not the rank (`C77_rank_low`), the rank argument of `solve` is ignored, and every solve divides by zero (`C77_singular`).
61. `gmres_hif`/`fgmres_hifir` return `SUCCESS` without convergence if `maxit` is a multiple of `restart` (or not positive), and `DIVERGED` with a result that may meet the tolerance: the step after the limit is still used (`C78_false_success`).
62. For complex scalars the same drivers are wrong: `inner(v, Q_k)` conjugates `v`, the step subtracts the coefficient times `Q_k` (`C78_complex`: a `1 × 1` system is not solved in one step and the claimed residual is too small).
63. `1 << it_outer` (gmres.hpp 164) overflows in the 32nd outer iteration.
64. `mt::drop_L_E_and_U_F` with 2 or 3 threads gives `U_F` to thread 0 and `L_E` to thread 1 by thread number: if OpenMP delivers one thread (nested region, dynamic adjustment) `L_E` is returned undropped (`C79_one_thread_witness`); with 4 or more requested and fewer delivered, the lines of the missing threads are not processed and their gap counts are stale.
65. With a limiter `<= 0` the serial dropping clears the blocks; the threaded one (4 or more threads, more than 200 lines) calls `nth_element` with a middle before the first element: undefined (`C79_zero_limiter_witness`).
66. `export_sparse_data` of a level with `m = 0` in column-major format reads `ind_start[0]` of the default-constructed `L_B`/`U_B` (null pointer); row-major it works (`C80_empty_level_witness`).
67. `export_sparse_data(..., jit_destroy = true)` never destroys `L_B`; `inquire_sizes` still reports its entries afterwards (`C80_jit`). After `inquire_or_export_dense(..., destroy)` the shape of the matrices is kept although their arrays are freed, and a further inquiry reports the unused symmetric solver (an error in debug builds, `C80_dense_destroyed`).
68. `read_bin` into a matrix with narrower index pointers or indices reduces the numbers modulo 2^32 without any error (`C81_narrow`); an unsigned 32-bit file read with 64-bit types turns numbers from 2^31 on negative.
69. `read_bin` accepts a file whose `vals` dataset was created but never written and returns a matrix of zeros (`C81_unwritten_values`); all earlier interruptions are refused (`C81_interrupted`).
70. `CRS::read_bin` sets the dimensions before the conversion from the other storage order, which may throw (arrays longer than needed): the object then has the new dimensions with the old arrays (example in `Props/BinIO.lean`). A default-constructed matrix comes back with an uninitialised pointer `ind_start[0]`. The documented return value "leading symmetric block size" is the smaller dimension.
71. With `no_pre` the leading block is the whole matrix whatever `m0` is (factor.hpp 686: `m = A.nrows()`): `factorize(A, params, m0)` with `0 < m0 < n` on a matrix that is only symmetric in its leading block is then factorized as if it were symmetric, silently (`C84_noPre_wrong`), and `stats(0) += m0 - m` wraps. With `HIF_DISABLE_SPACE_DROP` `level_factorize<true>` would push all of `ut`, also the part outside the leading block, into `L` (967–969).
72. `query_info_ascii` and `read_ascii` skip empty lines without testing the stream (io.hpp 377–382, 436–441): for a file without information line (also an empty file) they never terminate (`C88_endless`). The extraction of sizes and data is not tested either: a truncated file is accepted, with whatever the memory contained (`C88_truncated_witness`, `C88_sizes_witness`). The query does not test the letter of the index base, the reader does (`C88_query_witness`). `write_ascii` marks `long double` values as single precision and prints 9 digits (329–332).
73. `DenseMatrix::operator=` is the generated one: it inherits `Array::operator=`, which does nothing if both arrays have the same pointer. After a shallow copy and a shrinking `resize` of the copy, `A = B` sets the sizes of `A` and leaves its array: `size() != nrows() * ncols()` and a loop `row_begin(i)` to `row_end(i)` meets entries of other rows (`C89_assign_shared_witness`). The generated move leaves the sizes of the source: `resize` of a moved-from matrix to the same sizes does nothing and the next access is a null dereference (`C89_moved_resize_witness`). `resize` stores the sizes before it allocates (`C89_failed_resize_witness`).
74. `DenseMatrix::row_end(i)` is `_data.end() + i` (DenseMatrix.hpp 343–350): a pointer beyond one past the end, which C++ does not define; the model compares distances only.
75. `opt_repr` omits `mumps_blr`; `get_verbose` does not report `INFO` when `WARN` is enabled (`else if`, Options.h 604–605) and never reports `INFO2`, so the text of verbosity 64 is empty (`C90_mumps_witness`, `C90_verbose_witness`).

## 4. Plan per property

| id | model | proof |
|----|-------|-------|
| C01 | `multiply_nt_low` (CRS: row dot products, CCS: column axpy) on checked buffers | loop invariants over rows / nonzeros |
| C02 | `multiply_t_low` (both orders) | same; the empty-CRS corner is a witness |
| C03 | `multiply_mrhs_nt_low`, `multiply_mrhs_t_low` | invariants; missing conjugation shown by witness, `_partial` for trivial star |
| C04 | `uniform_partition` + per-thread row writes | partition lemma; every interleaving of disjoint writers equals the serial result |
| C05/C06 | eight single-RHS triangular kernels | invariants by row; statement `(I+T)x=b` |
| C07 | mrhs triangular kernels | column-wise simulation; two violated variants as witnesses |
| C08 | `convert_storage` counting sort | count invariants; entries preserved; round trip |
| C09 | `check_validity` with `Int` indices and UB outcomes | iff theorem for inputs whose starts are in range; witnesses for the unchecked cases |
| C10 | `_begin_assemble`/`_push_back_primary`/`_end_assemble` state machine | induction over pushes |
| C11 | `_compute_perm`, `_extract_leading` | entry formulas |
| C12 | `_split`, `_split_dual` | entry formulas |
| C13 | `scale_diag_left/right` | loop invariants |
| C14 | `_prune` | `_partial`; order dependence witness |
| C15 | `convert_coo2cs` | `_partial` for inputs without duplicates; witness |
| C16 | `PermMatrix` operations | invariant over histories |
| C17 | heap + refcount model of `Array` | invariant over histories (ops with the preconditions the code needs), witnesses for the moved-from cases |
| C18 | `SparseVec`/`DenseMask` model | refinement to a list without duplicates |
| C19 | `AugCRS`/`AugCCS`: assembly, `build_aug`, interchange, deferral, traversal | invariant (positions a permutation, lines sorted, chains) over histories; refinement to a matrix of optional values |
| C20/C21 | `apply_num_dropping`, `apply_space_dropping` | list specs |
| C22/C23 | `compute_Schur_simple` serial / threaded | formula; interleavings |
| C24 | the whole plain level loop of `factor.hpp` 802–1001 with `Crout.hpp` kernels (`Crout*.lean`): linked column lists, deferral to gaps, compression | one phase invariant over steps (`CroutInv`), then `L D U` equals the permuted scaled leading block and borders |
| C25 | deferral bookkeeping of level factorization | invariant over arbitrary deferral decisions |
| C26 | recursion of `_factorize_kernel` over level outcomes | measure |
| C27/C28 | `prec_solve`, `prec_prod`, `*_tran` recursion over levels | induction on levels |
| C29 | `prec_solve_mrhs` | witness for the reversed copies; partial for a single level |
| C30 | workspace sizes over call histories | invariant + witness |
| C31/C32 | `IterRefine` | induction on iterations |
| C33 | `NspFilter` | loop invariants |
| C34/C35/C55 | option tables | finite tables lifted by lemma; round trip; witnesses |
| C36–C38 | `libhifir.cpp` handle state machine | invariants over histories |
| C39–C42 | `HIF` builder state machine | invariants over histories, witnesses |
| C43/C44/C46–C48 | `defer_tiny_diags`, `reorder_finalize_perm`, `compute_leading_block`, `scale_extreme_values`, `fix_poor_scaling` (`Pre.lean`) | loop invariants; `C46` partial for `apat` with witness |
| C58 | `do_preprocessing` with `do_maching` and `EqlDriver::do_matching`; matching and AMD as kernels with contracts, and with the library's own routines (C71, C74, C45) | composition of the kernel theorems |
| C59 | `iterative_scale` | invariant over passes; witness for zero rows |
| C45 | `rcm.hpp` | invariants of the level structure; witness for nonsymmetric adjacency |
| C49 | `DenseMatrix::copy_sparse` | loop invariants |
| C50/C51 | `SYEIG::factorize/solve/multiply/*_mrhs` (`SyEig.lean`), LAPACK `syev` and `std::sort` as contracts | partial (the unconditional statements are false): scan invariants for the truncation, spectral sums for solve/multiply, witnesses |
| C52 | `io.hpp` 540–859 and the C functions on top, on lists of characters (`MM.lean`): `fgets`, `sscanf`/`fscanf` conversions `%s`, `%d` modelled, `%lg` a parameter | a grammar of files as specification (`MMSpec.lean`: words, lines, comments, entries), then the reader returns the described matrix; witnesses |
| C60 | `write_mm_sparse`, `write_mm_vector` | the text written is in the grammar and describes the matrix; composed with C52; sorted lines with the same members are equal |
| C61 | `extract_E`, `extract_F` | counting and scatter loops proved against a list of lines; the permuted entries identified through the inverse ordering |
| C62 | `level_factorize<false>` as a composition of the models of its parts (`Level.lean`) | each part's theorem supplies the precondition of the next (`LevelLemmas`, `LevelRun`); block algebra of the exact level in `LevelAlg`; growth bounds from the estimates of C54 carried to the stored blocks (`LevelGrow`, also for C66, C69); `C62_level_kernels` replaces the contracts on matching and orderings by the modelled kernels (C71, C74, C45) |
| C63 | `factorize` of `Factor.lean` with the levels of `Level.lean` (`FactorRun.lean`) | induction over the levels: validity, exactness and nonsingularity are handed from matrix to Schur complement; composed with C27; `C63_exact_scaled` (iterative scaling): a nonsingular matrix has no zero line, and its Schur complements are nonsingular |
| C64 | `QRCP` (`Qrcp.lean`): rank estimate, solve, multiply, several right-hand sides; LAPACK by contract | reflectors are unitary, substitution solves triangular systems; adjointness and least squares follow; `QrcpRun/QrcpFac/QrcpMrhs.lean`; end to end by composing with C63 and C49 |
| C65 | `PivotCrout` and the loop of `pivot_level_factorize` (`PCrout.lean`) on the augmented storage of C19 | loop invariant with separate ghost positions of rows and columns, every operation is an exchange of two positions; `PCroutSide/Vec/Pos/Loop/Piv/Step/Fin.lean`, common result form with C24 in `CroutRes.lean` |
| C66 | `pivot_level_factorize` (`Level.pivotLevel`): the level of C62 around the Crout phase of C65 | both Crout phases deliver `Crout.Res`, from which the rest of the level is proved once (`LevelRun.conclude_runs`); the driver theorem C63 covers the three pivoting modes (`FactorRun.factorizeKernel_runs`, with the repetition of a level in the automatic mode); `C66_level_kernels` replaces the contracts on matching and orderings by the modelled kernels (C71, C74, C45) |
| C67 | `apply_thres_pivot`, the acceptance predicates and the counters of exchanges | the loop invariant of C65 gets a ghost set of exceptional steps whose size is paid for by deferrals and column exchanges (`PInv.thrU`, `thrL`, `slack`); `ColFine`/`RowFine` hold at the end of a search unless four rounds were used up |
| C68 | the loop of `symm_level_factorize` (`Symm.lean`), real values | simulation: each step equals the `L` half of the general loop on the symmetric data, whose `U` half is the same (`SymmSim.croutPhase_sim`); the theorems of C24, C25, C54, C57, C21 are transferred; sum of squares for definiteness |
| C69 | `symm_level_factorize` (`SymmLevel.lean`) | composition as in C62; symmetry of the Schur complement and of its pattern from C22 (`C22_schur_pattern`, `Has.lean`), symmetric preprocessing from C58 |
| C70 | the driver with all three kinds of levels (`Level.allKernels`) | generic recursion `factorizeKernel_gen` with the invariant "symmetric values and pattern"; the operator algebra of symmetric levels in `SymSpec.lean` (self-adjointness, quadratic form level by level); end to end with SYEIG (`SyEigDense.lean`, `Props/SyEigEnd.lean`): expansion in eigenvectors, spectral theorem for the satisfiability of the `?syev` contract; definite case (`Props/SyEigDef.lean`): the quadratic form of the Schur complement is the one of the matrix at an extended vector, hence definiteness is inherited and no eigenvalue is truncated; full instance over ℝ in `Props/SyEigDefEx.lean`; `C70_exact_scaled` (`Props/SymmScale.lean`): the same exactness with iterative scaling |
| C71 | `eql::Equilibrator::compute` with the heap, the cheap assignment, the searches, `cleanup` and the scalings (`Mc64.lean`, `Mc64Compute.lean`); numbers are an ordered field with `⊤`, log and exp by their functional equations | heap invariant (`Mc64Heap`), matching invariant (`Mc64Inv`), layout of the shared array (`Mc64Lay`), shortest-path invariant (`Mc64Dij`, `Mc64Begin`, `Mc64Search`), augmentation (`Mc64Path`, `Mc64Run`) |
| C72 | the same | dual feasibility and complementary slackness are kept by every augmentation; optimality by the product over a permutation |
| C73 | the same | a failed search yields a set of columns with too few rows; these sets add up over the columns (`Hall` in `Mc64Kernel.lean`) |
| C74 | all of `amd.hpp` except defaults, printing and statistics (`Amd.lean`): `valid`, `preprocess`, `aat`, `one`, `two`, `postorder`; 32-bit overflow and the failure of the allocation are not modelled | ghost quotient graph (`AmdGraph`: variables, elements, lists as segments of `Iw`, degree lists, hash buckets); every part of a pivot keeps the invariant (`AmdPivot` … `AmdStep4`), garbage collection (`AmdGc`, `AmdBuild*`), supervariables (`AmdMerge`), start (`AmdInit`, `AmdWalk`, `AmdOne`, `AmdOrder`), permutation from the tree (`AmdFinish`) |
| C75 | `postorder`, `post_tree` | invariant of the stack (`AmdTree`, `AmdPost`) |
| C76 | `aat`, the traversal shared with `one`, `preprocess` | invariant "pairs seen so far" for the merge (`AmdWalk`), counting pass and filling pass over the columns (`AmdOrder.sweep_runs`) |
| C77 | `LUP`: `setMatrix`, `factorize`, `refactorize`, `solve`, `solveMrhs`, `multiply`; `?getf2`, `?getrs`, `?laswp`, `?gemv` concretely | the exchanges as a permutation (`pvt`), forwards and backwards; triangular substitution; invariant `P A = L U + rest` of the textbook factorization (`LupGetf2`); rank from the first zero pivot |
| C78 | `gmres_hif`, `fgmres_hifir`, `inner`, `norm2`, `norm2_sq` with all work arrays (`Gmres.lean`) | `GmresMath`: the rotated basis `pv`/`tv` (orthonormal, `chain`, `lastStep`); `GmresArn.arnoldi_runs`: one inner iteration keeps `A z_k = Σ R p`, `r0 = Σ y p + y t`; `GmresLoop`, `GmresOuter`: loops, back substitution, true residual = recurrence, optimality by Pythagoras; breakdown excluded by `noBreak`; end to end with C77 |
| C79 | `mt::drop_L_E_and_U_F` as a transition relation (`DropMT.lean`: `Sh` shared state, `parStep` one line of one block, `MtDrop` all outcomes), `dropBlock` of C53 | `DropMTRun`: invariant `PInv` (processed lines equal the serial target, others untouched, buffers private), preserved by every step of every schedule; final compression equals the serial kernel; progress measure for `C79_finishes` |
| C80 | `export_compressed_data`, `inquire_sizes`, `export_sparse_data`, `inquire_or_export_dense` (`Export.lean`) | loop invariants of the copies, C08 for the change of format; `applies_same`: the operator depends on the levels as mathematical objects only; uniqueness of solutions (C27); `C80_factorized…`: exact allocation of the blocks carried through the level kernels (`LevelOut.tight`) and the driver (`factorizeKernel_chain`) |
| C81 | `write_bin`, `read_bin`, `CRS/CCS::read_bin/write_bin/from_bin` (`BinIO.lean`): machine integers by width and signedness, datasets, steps of writing | modular arithmetic of machine integers (`fits_read`), C08 for the other storage order, case analysis over the interruption points |
| C82 | `wrap_const_crs`, `wrap_const_ccs` (`Wrap.lean`) | partial: equivalence with an independent specification (`UserValid`) by induction over lines, for non-negative indices; witnesses for the rest |
| C83 | the three dense solvers (`Qrcp.lean`, `Lup.lean`, `SyEigDense.lean`) with LAPACK as an arbitrary function that keeps the size of the array it overwrites; the drivers of C63 and C70 | size-only invariants of the rank estimation; composition with C63_factorize and C70_factorize, whose hypothesis on the dense solver is discharged |
| C84 | `level_factorize<true>` (`PSymm.lean`: the Crout loop that computes `U`, copies its leading part to `L` and computes only the tail of `L`; `PSymmLevel.lean`: the level) with the driver of C63 | loop invariant of C24 plus `L = Uᵀ` on the leading positions, which makes the skipped computation of `L` equal to the full one; deferral keeps the leading positions in front; composition with the preprocessing (C58) and the recursion (C63); witness for `no_pre` |
| C85 | `symm_level_factorize` with `0 < m0 ≤ n` under the driver of C63 (`Factor.lean`, `allKernels`) | preprocessing of a leading block (C58) keeps the two scalings and permutations equal; C69's level for any `m0`; one step of the driver with the leading block, then the recursion of C70; contracts of matching, ordering, dense solver as in C70 |
| C86 | the driver with the arrays `row_sizes`, `col_sizes` it carries along (`Sizes.lean`: `sizedFactorize`) around the levels of C62, C66, C69 | a simulation shows that it does what the driver of C63/C70 does for some sizes per level (`SizesRun`), whose first are those of the input and whose next are gathered by the permutations; every stored line of a level is at most its limit (`FillLevel`); summing along the chain of levels, every row is charged at most once (`SizesFac.chain_sum`) |
| C87 | refinement of C31, C32 (`Builder.lean`) with a contraction hypothesis on the preconditioner | induction on the iterates; for the bounds, the truthful report of C32 leaves only success; `C87_nearby` composes with the exact factorization of C63 |
| C88 | `write_ascii`, `query_info_ascii`, `read_ascii` at character level (`Ascii.lean`); integers by digits, values by their print/scan pair | the loops by induction over the words of the text; the writer's text satisfies the separate layout specification `Describes` |
| C89 | `DenseMatrix` over the memory model of `Array` (`DenseMat.lean`): all constructors, assignments, `resize`, `operator()`, column and strided row loops; iterators as distances | histories are mapped to legal `Array` histories (C17); invariant size = rows · columns by induction on the history |
| C90 | `opt_repr`, `get_verbose`, `get_reorder_name` at character level (`OptRepr.lean`) | the text is read back line by line by a separate reader; induction over the lines |
| C91 | `solve`, `solve_tran` (`Prec.lean`, `Builder.lean`), histories (`History.lean`), last block as multiplication by a fixed matrix (`PrecFixed.lean`) | induction over the levels with a relation that multiplies by `T` at the end; uniqueness and linearity of the relation give the matrix; adjointness of two total relations gives the conjugate transpose; invariance of the levels under applying calls |
| C92 | `hifir`, `hifirBounded` (`Builder.lean`) over the preconditioners of C91 | loop invariant: the solution vector is the explicit iterate `refined`, for every state of the work space; bounded loop: induction on the remaining iterations (`Props/RefineFixed.lean`) |
| C93 | `prod`, `prodT` (`Prec.lean`), `mmultiply` (`Builder.lean`), last block as multiplication by a fixed matrix (`PrecProdFixed.lean`) | induction over the levels with the relation `Applies` for a last block that need not be invertible; relational round trips by induction over the levels; QRCP and SYEIG as instances (`Props/PrecProd.lean`) |
| C94 | `solve`, `hifir`, `hifirBounded` with filters (`Builder.lean`, `Nsp.lean`) over the preconditioners of C91 | a linear filter composes with the fixed matrix of C91, the refinement loop invariant of C92 is generic in that matrix; the sum over the range of every iterate is zero by induction (`Props/FilterFixed.lean`) |
| C95 | the driver with every level kind (`Factor.lean`, `Level.lean`, `FactorRun.lean`), QRCP (`Qrcp.lean`), `solve`, `mmultiply` (`Builder.lean`) | the invariant of the driver (`Represents`) also records that the levels end in the dense solver of the block left over, whatever property that has; QRCP on a nonzero block has nonzero pivots up to its rank (C64), so products and solves with it are a pair (C93); lifted over the levels by `Gives`/`Applies`; refinement by C92 with the same matrices; the symmetric driver with SYEIG likewise (`Props/FactorFixed.lean`, singular examples in `Props/FactorFixedEx.lean`) |
| C96 | as C95, symmetric driver with SYEIG | symmetric levels: the transposed operator is the operator (`Gives.self_adj`, `Applies.self_adj_triv`), so the matrices of C95 are self-adjoint (`Gives.adjoint`) and the transpose flag selects the same one; refinement commutes with `W A` (`refined_comm`), hence is self-adjoint as well (`Props/SymmFixed.lean`, singular example in `Props/SymmFixedEx.lean`) |
| C97 | as C96, over an ordered field | the stored pivots have the declared sign (`SignedLevel`, C70), the matrices of SYEIG have the kept eigenvalues (`syeig_pair`), so the quadratic form is a sum of terms of one sign (`Gives.semi`, `Applies.semi`) (`Props/SemiDef.lean`, singular example in `Props/SemiDefEx.lean`) |
| C53 | `drop_offsets_kernel` | list spec |
| C54 | `update_kappa_ut` | invariant over steps |
| C56 | `determine_fac_pars` and its unpacking (`FacPars.lean`) | values proved; exchange of tolerances proved for all options |
| C57 | same model as C24 with the code's dropping rules | the recurrence of C24 with the dropped part bounded by the C20 threshold |
