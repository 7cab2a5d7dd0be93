{
 "claims": [
  {
   "property": "C01",
   "status": "proved",
   "theorems": [
    "Istl.C01_find_exact",
    "Istl.C01_get_exact",
    "Istl.C01_modify_exact",
    "Istl.C01_exists_exact"
   ],
   "note": "lower_bound halving loop, find, operator[], exists; write-through access"
  },
  {
   "property": "C02",
   "status": "proved",
   "theorems": [
    "Istl.C02_random_build_exact",
    "Istl.C02_random_build_pattern"
   ],
   "note": "whole program ctor/setrowsize/incrementrowsize/endrowsizes/addindex*/endindices on an explicit memory model"
  },
  {
   "property": "C03",
   "status": "proved",
   "theorems": [
    "Istl.C03_addindex_exact",
    "Istl.C03_endrowsizes_exact"
   ],
   "note": "acceptance is exact, a rejected addindex leaves matrix and memory unchanged; endrowsizes check of the announced nnz"
  },
  {
   "property": "C04",
   "status": "proved",
   "theorems": [
    "Istl.C04_rowwise_build_exact",
    "Istl.C04_rowwise_too_small_throws"
   ],
   "note": "both storage variants (announced nnz: one array; unannounced: one array per row), nonzeroes(), too small nnz"
  },
  {
   "property": "C05",
   "status": "proved",
   "theorems": [
    "Istl.C05_implicit_build_exact",
    "Istl.C05_implicit_build_exact_values"
   ],
   "note": "whole program ctor/entry*/compress on explicit memory; values over either kind of fresh block, exact values when both fresh blocks coincide"
  },
  {
   "property": "C06",
   "status": "proved",
   "theorems": [
    "Istl.C06_compress_fails_iff_exhausted",
    "Istl.C06_enough_overflow_suffices",
    "Istl.C06_average_never_fails",
    "Istl.C06_avg_zero_counterexample"
   ],
   "note": "exact success condition, no undefined behaviour for avg>0; avg=0 counterexample"
  },
  {
   "property": "C07",
   "status": "proved",
   "theorems": [
    "Istl.Bcrs.C07_out_of_order_rejected",
    "Istl.Bcrs.C07_built_is_frozen",
    "Istl.Bcrs.C07_built_only_by_complete_sequence",
    "Istl.Bcrs.C07_failed_call_has_no_effect",
    "Istl.Bcrs.C07_copy_of_unfinished_rejected",
    "Istl.Bcrs.C07_assign_to_unfinished_rejected",
    "Istl.Bcrs.C07_setIndices_counterexample",
    "Istl.Bcrs.C07_setSize_counterexample",
    "Istl.Bcrs.C07_unchecked_entry_counterexample"
   ],
   "note": "all states for the rejections, all call histories from the default constructor for the completeness; setIndices is never refused, setSize of an implicit-mode matrix throws after discarding the old one, entry is checked only with DUNE_ISTL_WITH_CHECKING (three counterexamples); one create iterator at a time, not used across setSize"
  },
  {
   "property": "C08",
   "status": "proved",
   "theorems": [
    "Istl.BcrsWorld.C08_programs_compute_values",
    "Istl.BcrsWorld.C08_other_matrices_unaffected",
    "Istl.BcrsWorld.C08_copy_equal",
    "Istl.BcrsWorld.C08_assign_equal",
    "Istl.BcrsWorld.C08_gap_counterexample",
    "Istl.BcrsWorld.C08_scale_after_copy_counterexample"
   ],
   "note": "all programs over any number of matrices built in any mode with copy, assign, fill, modify, scale, destroy; excluded with counterexamples: random-mode rows announced larger than used (copy corrupts the source) and scaling a row-wise matrix without announced nnz after it was copied/counted"
  },
  {
   "property": "C09",
   "status": "proved",
   "theorems": [
    "Istl.C09_mv",
    "Istl.C09_umv",
    "Istl.C09_mmv",
    "Istl.C09_usmv",
    "Istl.C09_umtv",
    "Istl.C09_mtv",
    "Istl.C09_mmtv",
    "Istl.C09_usmtv",
    "Istl.C09_umhv",
    "Istl.C09_mmhv",
    "Istl.C09_usmhv"
   ],
   "note": "all eleven kernels, any additive block action (scalar, rectangular dense, nested)"
  },
  {
   "property": "C10",
   "status": "proved",
   "theorems": [
    "Istl.C10_mtv_adjoint",
    "Istl.C10_umhv_adjoint",
    "Istl.C10_mv_linear",
    "Istl.C10_update_variants"
   ],
   "note": ""
  },
  {
   "property": "C11",
   "status": "proved",
   "theorems": [
    "Istl.C11_add",
    "Istl.C11_sub",
    "Istl.C11_axpy",
    "Istl.BcrsWorld.C11_scale"
   ],
   "note": "operator+=, -=, axpy on the public view; operator*= and /= on the memory model after any program. Excluded case (row-wise matrix without announced entries after nonzeroes()/copy) is undefined: C08_scale_after_copy_counterexample."
  },
  {
   "property": "C12",
   "status": "proved",
   "theorems": [
    "Istl.C12_frobenius",
    "Istl.C12_infinity",
    "Istl.C12_infinity_bound"
   ],
   "note": "field types without NaN"
  },
  {
   "property": "C13",
   "status": "proved",
   "theorems": [
    "Istl.IndexSet.C13_export",
    "Istl.IndexSet.C13_default",
    "Istl.IndexSet.C13_threshold_irrelevant"
   ],
   "note": "every history of resize/add/import on existing rows, every threshold; export to an empty matrix object in any non-implicit mode, through the memory model of random mode; 32 bit overflow not modelled"
  },
  {
   "property": "C14",
   "status": "proved",
   "theorems": [
    "Istl.VbV.C14_blocks",
    "Istl.VbV.C14_disjoint",
    "Istl.VbV.C14_no_blocks_counterexample"
   ],
   "note": "refinement of independent values for every program over any number of vectors (create, copy, move, assign, swap, resize, build, element and flat updates, destruction) in a memory model; building a vector with zero blocks is undefined behaviour (counterexample)"
  },
  {
   "property": "C15",
   "status": "proved",
   "theorems": [
    "Istl.C15_make",
    "Istl.C15_copy",
    "Istl.C15_assign",
    "Istl.C15_fill",
    "Istl.C15_mulScalar",
    "Istl.C15_divScalar",
    "Istl.C15_add",
    "Istl.C15_sub",
    "Istl.C15_transpose",
    "Istl.C15_mul",
    "Istl.C15_umv",
    "Istl.C15_mmv",
    "Istl.C15_usmv",
    "Istl.C15_mv",
    "Istl.C15_mulVec",
    "Istl.C15_umtv",
    "Istl.C15_mtv",
    "Istl.C15_mmtv",
    "Istl.C15_usmtv",
    "Istl.C15_umhv",
    "Istl.C15_mmhv",
    "Istl.C15_usmhv",
    "Istl.C15_frobenius",
    "Istl.C15_rows",
    "Istl.C15_no_columns_counterexample",
    "Istl.C15_infinity"
   ],
   "note": "every operation (constructor, setSize, copy, assignment, scalar updates, += -=, transpose, products, all mv kernels, norms) is a refinement on the flat row-major array, every shape including 0 x m and n x 0; row iterators visit nothing when there are no columns (counterexample)"
  },
  {
   "property": "C16",
   "status": "proved",
   "theorems": [
    "Istl.C16_matMultMat",
    "Istl.C16_transposeMatMultMat",
    "Istl.C16_matMultTransposeMat",
    "Istl.C16_mismatch_throws",
    "Istl.C16_empty_counterexample"
   ],
   "note": "result object default-constructed (any non-implicit mode), construction in the memory model, values accumulated on its view; a product with zero rows is undefined behaviour (counterexample)"
  },
  {
   "property": "C17",
   "status": "proved",
   "theorems": [
    "Istl.C17_ilu0_reproduces_on_pattern",
    "Istl.C17_closed_pattern_exact"
   ],
   "note": "non-commutative block ring, exact arithmetic; closed pattern gives exact LU"
  },
  {
   "property": "C18",
   "status": "proved",
   "theorems": [
    "Istl.C18_ilu0_succeeds_iff_factorisation_exists",
    "Istl.C18_missing_diagonal_never_succeeds",
    "Istl.C18_no_undefined_behaviour",
    "Istl.C18_missing_diagonal_counterexample"
   ],
   "note": "success iff factorisation exists and uniqueness; missing diagonal; counterexample for a row with only left entries"
  },
  {
   "property": "C19",
   "status": "proved",
   "theorems": [
    "Istl.C19_backsolve_inverts_factors",
    "Istl.C19_ilu0_then_backsolve"
   ],
   "note": "vectors in any module over the block ring"
  },
  {
   "property": "C20",
   "status": "proved",
   "theorems": [
    "Istl.C20_crs_backsolve_eq",
    "Istl.C20_resorted_ilu0",
    "Istl.C20_empty_counterexample"
   ],
   "note": "for matrices with at least one row; empty matrix counterexample (unallocated write)"
  },
  {
   "property": "C21",
   "status": "proved",
   "theorems": [
    "Istl.C21_generation_bound",
    "Istl.C21_pattern_contains",
    "Istl.C21_pattern_level_zero",
    "Istl.C21_pattern_level_one",
    "Istl.C21_level_one_subset",
    "Istl.C21_full_level_closed",
    "Istl.C21_generations_unique",
    "Istl.C21_ilun_is_ilu0_on_fill_pattern",
    "Istl.C21_ilun_factors",
    "Istl.C21_full_level_is_lu",
    "Istl.C21_level_zero_is_ilu0",
    "Istl.C21_monotone_counterexample"
   ],
   "note": "exact generation rule, uniqueness, levels 0, 1 and >=N; counterexample to growth with n (level 2 stores an entry level 3 drops)"
  },
  {
   "property": "C22",
   "status": "proved",
   "theorems": [
    "Istl.C22_ldl_reproduces_on_pattern",
    "Istl.C22_symmetric",
    "Istl.C22_missing_diagonal",
    "Istl.C22_complete",
    "Istl.C22_backsolve",
    "Istl.C22_lower_triangle"
   ],
   "note": "decomposition reproduces A on the stored lower pattern, uniqueness/completeness, back substitution in both modes, lower-triangle copy of SeqILDL; block ring with a transposition"
  },
  {
   "property": "C23",
   "status": "proved",
   "theorems": [
    "Istl.C23_decomposition",
    "Istl.C23_decomposition_complete",
    "Istl.C23_backsolve",
    "Istl.C23_missing_diagonal_counterexample"
   ],
   "note": "diagonal recursion, product form, back substitution; missing diagonal counterexample"
  },
  {
   "property": "C24",
   "status": "proved",
   "theorems": [
    "Istl.C24_succeeds_iff_diagonal_invertible",
    "Istl.C24_bltsolve",
    "Istl.C24_bltsolve_unique",
    "Istl.C24_butsolve",
    "Istl.C24_bdsolve",
    "Istl.C24_ubltsolve",
    "Istl.C24_ubutsolve",
    "Istl.C24_bltsolve_relaxed",
    "Istl.C24_butsolve_relaxed",
    "Istl.C24_bdsolve_relaxed",
    "Istl.C24_unit_relaxed",
    "Istl.C24_bltsolve_two_levels"
   ],
   "note": "bltsolve, butsolve, bdsolve, unit and relaxed variants, any block type with a solve; two nested levels"
  },
  {
   "property": "C25",
   "status": "proved",
   "theorems": [
    "Istl.C25_dbjac",
    "Istl.C25_bsorf",
    "Istl.C25_bsorb",
    "Istl.C25_dbgs",
    "Istl.C25_sweeps_succeed_iff",
    "Istl.C25_exact_solution_is_fixed",
    "Istl.C25_level2_jacobi_counterexample",
    "Istl.C25_level2_sor_counterexample"
   ],
   "note": "block level 1: all four sweeps; counterexamples show that dbjac/bsorf at level 2 move the exact solution"
  },
  {
   "property": "C26",
   "status": "proved",
   "theorems": [
    "Istl.C26_history_independent",
    "Istl.C26_superposition",
    "Istl.C26_sweep_preconditioners_linear",
    "Istl.C26_jacobi_sweeps",
    "Istl.C26_sor_sweeps",
    "Istl.C26_ssor_sweeps",
    "Istl.C26_ilu",
    "Istl.C26_dilu",
    "Istl.C26_ildl",
    "Istl.C26_richardson",
    "Istl.C26_factorisation_preconditioners_linear",
    "Istl.C26_checked_construction"
   ],
   "note": "all eight preconditioners incl. constructors; linear operator, sweeps, triangular solves, history independence; IEEE effects of |w-1|<=1e-15 abstracted as a test"
  },
  {
   "property": "C27",
   "status": "proved",
   "theorems": [
    "Istl.Solver.C27_loop",
    "Istl.Solver.C27_gradient",
    "Istl.Solver.C27_cg",
    "Istl.Solver.C27_bicgstab",
    "Istl.Solver.C27_abort",
    "Istl.Solver.C27_gpcg",
    "Istl.Solver.C27_restartedfcg",
    "Istl.Solver.C27_completefcg",
    "Istl.Solver.C27_minres",
    "Istl.Solver.C27_gmres",
    "Istl.Solver.C27_fgmres",
    "Istl.Solver.C27_abort_step0_counterexample",
    "Istl.Solver.C27_exact_solution_aborts_counterexample"
   ],
   "note": "all ten iterative solvers, without any law of arithmetic (NaN allowed); counterexamples: converged=true after SolverAbort in step 0, FCG aborts after an exact solution"
  },
  {
   "property": "C28",
   "status": "proved",
   "theorems": [
    "Istl.Solver.C28_loop",
    "Istl.Solver.C28_gradient",
    "Istl.Solver.C28_cg",
    "Istl.Solver.C28_bicgstab",
    "Istl.Solver.C28_gpcg",
    "Istl.Solver.C28_gpcg_restart1_diverges",
    "Istl.Solver.C28_restartedfcg",
    "Istl.Solver.C28_completefcg",
    "Istl.Solver.C28_restartedfcg_mmax0_diverges",
    "Istl.Solver.C28_minres",
    "Istl.Solver.C28_gmres",
    "Istl.Solver.C28_fgmres",
    "Istl.Solver.C28_gmres_restart0_diverges"
   ],
   "note": "all solvers; infinite loops for GPCG restart=1, RFCG mmax=0, GMRes restart=0 proved"
  },
  {
   "property": "C29",
   "status": "proved",
   "theorems": [
    "Istl.Solver.C29_loop",
    "Istl.Solver.C29_gradient",
    "Istl.Solver.C29_cg",
    "Istl.Solver.C29_bicgstab",
    "Istl.Solver.C29_gpcg",
    "Istl.Solver.C29_restartedfcg",
    "Istl.Solver.C29_completefcg",
    "Istl.Solver.C29_converged_residual"
   ],
   "note": "exact arithmetic, linear operator; LoopSolver, Gradient, CG, BiCGSTAB, GPCG, RFCG, CFCG"
  },
  {
   "property": "C30",
   "status": "proved",
   "theorems": [
    "Istl.Solver.C30_run",
    "Istl.Solver.C30_conjugate",
    "Istl.Solver.C30_minimises",
    "Istl.Solver.C30_in_span",
    "Istl.Solver.C30_exact"
   ],
   "note": "CG over any ordered field, exact arithmetic"
  },
  {
   "property": "C31",
   "status": "proved",
   "theorems": [
    "Istl.Solver.C31_run",
    "Istl.Solver.C31_orthogonal",
    "Istl.Solver.C31_minimises",
    "Istl.Solver.C31_energy_decreases",
    "Istl.Solver.C31_gpcg_step",
    "Istl.Solver.C31_fcg_step",
    "Istl.Solver.C31_bicgstab_step"
   ],
   "note": "gradient step: orthogonality, minimality along the direction, energy decrease; one-step laws of GPCG, flexible CG, BiCGSTAB"
  },
  {
   "property": "C32",
   "status": "proved",
   "theorems": [
    "Istl.Solver.C32_unitary",
    "Istl.Solver.C32_unitary_minres",
    "Istl.Solver.C32_annihilates",
    "Istl.Solver.C32_annihilates_exact",
    "Istl.Solver.C32_annihilates_minres",
    "Istl.Solver.C32_isometry",
    "Istl.Solver.C32_back_substitution",
    "Istl.Solver.C32_update"
   ],
   "note": "unitarity for all inputs; annihilation is exact except when an argument is non-zero but below 1e-15, where the remaining entry is bounded by 1e-15; back substitution for all sizes"
  },
  {
   "property": "C33",
   "status": "proved",
   "theorems": [
    "Istl.Solver.C33_history",
    "Istl.Solver.C33_history_throw",
    "Istl.Solver.C33_gmres",
    "Istl.Solver.C33_exception_counterexample"
   ],
   "note": "all histories; exception path leaves the call's reduction in force (counterexample to exception safety)"
  },
  {
   "property": "C34",
   "status": "proved",
   "theorems": [
    "Istl.Solver.C34_sequential",
    "Istl.Solver.C34_general",
    "Istl.Solver.C34_config",
    "Istl.Solver.C34_scalar_product"
   ],
   "note": "all constructors incl. ParameterTree and createScalarProduct"
  },
  {
   "property": "C35",
   "status": "proved",
   "theorems": [
    "Istl.Par.C35_history",
    "Istl.Par.C35_dot",
    "Istl.Par.C35_norm",
    "Istl.Par.C35_stale_mask_counterexample",
    "Istl.Par.C35_complex_counterexample"
   ],
   "note": "any number of processes, any history of calls; counterexamples: stale mask after an index set change of equal size, no conjugation for complex numbers"
  },
  {
   "property": "C36",
   "status": "proved",
   "theorems": [
    "Istl.Par.C36_copyOwnerToAll",
    "Istl.Par.C36_consistent",
    "Istl.Par.C36_idempotent",
    "Istl.Par.C36_add",
    "Istl.Par.C36_addOwnerOverlapToAll",
    "Istl.Par.C36_addOwnerCopy",
    "Istl.Par.C36_project",
    "Istl.Par.C36_source_dest_counterexample"
   ],
   "note": "all decompositions and all arrival orders; message layer of dune-common by its contract; counterexample for source != dest; the cached interface is the one of the index set at the first call"
  },
  {
   "property": "C37",
   "status": "proved",
   "theorems": [
    "Istl.C37_tridiagonal_pattern",
    "Istl.C37_diagonal_pattern",
    "Istl.C37_tridiagonal_resize",
    "Istl.C37_diagonal_resize",
    "Istl.C37_thomas",
    "Istl.C37_diagonal_solve",
    "Istl.C37_diagonal_invert",
    "Istl.C37_empty_solve_counterexample",
    "Istl.C37_default_setSize_counterexample"
   ],
   "note": "construction through the memory model of random mode; Thomas algorithm for non-commuting blocks with exact success condition; N()==0 throws length_error and setSize on a default-constructed matrix throws (counterexamples)"
  },
  {
   "property": "C38",
   "status": "proved",
   "theorems": [
    "Istl.C38_full",
    "Istl.C38_subset",
    "Istl.C38_countSet"
   ],
   "note": "both variants (whole matrix, ordered index subset), any dense block size, arrays with explicit undefined behaviour; the subset variant needs M() <= N(); release build (asserts off)"
  },
  {
   "property": "C39",
   "status": "proved",
   "theorems": [
    "Istl.C39_values",
    "Istl.C39_assign_equal",
    "Istl.C39_self_assignment_counterexample",
    "Istl.C39_no_entries_counterexample"
   ],
   "note": "refinement of independent values for every program over any number of matrices in a memory model; self-assignment and assignment of a matrix without entries to a used target are counterexamples; the copy constructor (implicit, shallow) is not modelled"
  },
  {
   "property": "C40",
   "status": "proved",
   "theorems": [
    "Istl.C40_vector",
    "Istl.C40_matrix",
    "Istl.C40_unique",
    "Istl.C40_no_columns_counterexample"
   ],
   "note": "containers nested to any depth (scalar, row-major sparse, index-wise), arbitrary functor; a container with rows but no columns reads an uninitialised variable (counterexample)"
  },
  {
   "property": "C41",
   "status": "proved",
   "theorems": [
    "Istl.Amg.C41_partition",
    "Istl.Amg.C41_connected",
    "Istl.Amg.C41_renumber",
    "Istl.Amg.C41_coarsening",
    "Istl.Amg.C41_sizes_counterexample",
    "Istl.Amg.C41_statistics",
    "Istl.Amg.C41_statistics_start",
    "Istl.Amg.C41_merge_excluded_counterexample"
   ],
   "note": "structurally symmetric graphs without self loops, every set of dependency flags, minAggregateSize <= maxAggregateSize; counterexample with min > max (never ends)"
  },
  {
   "property": "C42",
   "status": "proved",
   "theorems": [
    "Istl.Amg.C42_size",
    "Istl.Amg.C42_size_one",
    "Istl.Amg.C42_merge_counterexample",
    "Istl.Amg.C42_connectivity"
   ],
   "note": "bound for the vertices an aggregate is grown with; merging of left-over single vertices may exceed the bound (counterexample), and the theorem says when merging happens"
  },
  {
   "property": "C43",
   "status": "proved",
   "theorems": [
    "Istl.Amg.C43_numbers",
    "Istl.Amg.C43_partition",
    "Istl.Amg.C43_disconnected_counterexample"
   ],
   "note": "every graph and every map with connected aggregates (UNAGGREGATED counts as a class of its own); a disconnected aggregate is split (counterexample)"
  },
  {
   "property": "C44",
   "status": "proved",
   "theorems": [
    "Istl.Amg.C44_values",
    "Istl.Amg.C44_is_product",
    "Istl.Amg.C44_pattern",
    "Istl.Amg.C44_galerkin"
   ],
   "note": "sequential case: values on any sufficient pattern; pattern produced by build for connected aggregates numbered by first vertex (what C41/C43 deliver); the whole step from the matrix; the parallel build with overlap vertices is not modelled"
  },
  {
   "property": "C45",
   "status": "proved",
   "theorems": [
    "Istl.C45_restrict",
    "Istl.C45_prolongate",
    "Istl.C45_transpose",
    "Istl.C45_adjoint"
   ],
   "note": ""
  },
  {
   "property": "C46",
   "status": "proved",
   "theorems": [
    "Istl.Amg.C46_apply_is_the_cycle",
    "Istl.Amg.C46_defect_consistent",
    "Istl.Amg.C46_failure_is_sticky",
    "Istl.Amg.C46_two_level_apply",
    "Istl.Amg.C46_additive",
    "Istl.Amg.C46_additive_history_counterexample",
    "Istl.Amg.C46_two_level_error",
    "Istl.Amg.C46_coarse_correction_exact",
    "Istl.Amg.C46_cycle_linear"
   ],
   "note": "sequential case, every hierarchy with additive matrices, every smoother/transfer/coarse solver; additive variant depends on what the previous call left in the coarsest vector (counterexample); a failed coarse solve makes every later call throw"
  },
  {
   "property": "C47",
   "status": "proved",
   "theorems": [
    "Istl.MM.C47_read",
    "Istl.MM.C47_read_complex",
    "Istl.MM.C47_too_few_reserved_throws",
    "Istl.MM.C47_round_trip",
    "Istl.MM.C47_vector_round_trip",
    "Istl.MM.C47_truncated_counterexample",
    "Istl.MM.C47_complex_counterexample",
    "Istl.MM.C47_symmetric_zero_diagonal_counterexample",
    "Istl.MM.C47_skew_blocks_counterexample"
   ],
   "note": "Text-level model of the reader and the writer over std::istream semantics, then construction through the BCRS memory model. Any structure, comments anywhere, blocks r x c, scalar and complex (re im) files; read(write A)=A for every well-formed A and every number format that survives printing; vectors likewise. Preconditions made explicit: enough blocks reserved (otherwise BCRSMatrixError, proved) and a complete file (otherwise undefined, proved). Counterexamples: complex matrices do not survive the round trip, symmetric files without diagonal and skew-symmetric blocked files are rejected."
  },
  {
   "property": "C48",
   "status": "proved",
   "theorems": [
    "Istl.Solver.C48_gmres_residual",
    "Istl.Solver.C48_fgmres_residual",
    "Istl.Solver.C48_gmres_minimal",
    "Istl.Solver.C48_missing_restart_counterexample"
   ],
   "note": "real or complex inner product space; counterexample for maxit = k*restart+1 (missing restart): false convergence report and a worse residual"
  },
  {
   "property": "C49",
   "status": "proved",
   "theorems": [
    "Istl.C49_full",
    "Istl.C49_ignored",
    "Istl.C49_empty"
   ],
   "note": "any nesting; with a bit vector the flat matrix is square and the bit vector has the same flat size; integers unbounded; the call into the UMFPack library is not modelled"
  },
  {
   "property": "C50",
   "status": "proved",
   "theorems": [
    "Istl.Amg.C50_edges",
    "Istl.Amg.C50_distinct",
    "Istl.Amg.C50_range",
    "Istl.Amg.C50_findEdge",
    "Istl.Amg.C50_no_diagonal_counterexample"
   ],
   "note": "without a stored diagonal entry findEdge returns the wrong number (counterexample)"
  },
  {
   "property": "C51",
   "status": "proved",
   "theorems": [
    "Istl.Amg.C51_symmetric",
    "Istl.Amg.C51_positive",
    "Istl.Amg.C51_step_reduces_energy"
   ],
   "note": "exact arithmetic over an ordered field; levels are subspaces of one module; hypotheses met by a Gauss-Seidel two-level example"
  },
  {
   "property": "C52",
   "status": "proved",
   "theorems": [
    "Istl.C52_sweep_lowers_functional",
    "Istl.C52_sweep_lowers_energy",
    "Istl.C52_sor_adjoint",
    "Istl.C52_ssor_jacobi_symmetric",
    "Istl.C52_positive",
    "Istl.C52_amg_smoother"
   ],
   "note": "exact arithmetic over an ordered field; blocks with an arbitrary scalar product; block solves by the BlockSolve contract (level-1 blocks). Discharges the smoother hypotheses of C51."
  },
  {
   "property": "C53",
   "status": "proved",
   "theorems": [
    "Istl.FastAmg.C53_presmooth",
    "Istl.FastAmg.C53_postsmooth",
    "Istl.FastAmg.C53_apply_is_the_V_cycle",
    "Istl.FastAmg.C53_symmetric",
    "Istl.FastAmg.C53_unsymmetric_counterexample",
    "Istl.FastAmg.C53_block_counterexample",
    "Istl.FastAmg.C53_missing_diagonal_counterexample",
    "Istl.FastAmg.C53_w_cycle_counterexample"
   ],
   "note": "FastAMG: smoothers, V-cycle by induction over the levels, symmetry. Counterexamples: unsymmetric matrix / unsymmetric off-diagonal blocks (wrong fused defect), missing diagonal (UB), gamma=2 with iterative coarse solver. Sequential case only (the class supports no other)."
  },
  {
   "property": "C54",
   "status": "proved",
   "theorems": [
    "Istl.Par.C54_overlapping_apply",
    "Istl.Par.C54_overlapping_applyscaleadd",
    "Istl.Par.C54_block_preconditioner",
    "Istl.Par.C54_parssor",
    "Istl.Par.C54_pre"
   ],
   "note": "operator, both preconditioner classes and pre, as distributed computations over the communication contract of C36; sequential preconditioner abstract. Rows of overlap indices must be complete (hypothesis OverlapMat, met by the example)."
  },
  {
   "property": "C55",
   "status": "proved",
   "theorems": [
    "Istl.Par.C55_lowest_rank",
    "Istl.Par.C55_applyscaleadd",
    "Istl.Par.C55_apply",
    "Istl.Par.C55_preconditioner",
    "Istl.Par.C55_cross_owner_counterexample",
    "Istl.Par.C55_unowned_counterexample"
   ],
   "note": "set-up phase, local sums and communication; every reachable state of the cached members. Counterexamples: owners of two coupled border indices on different processes (entry added twice), border index without owner (UB)."
  },
  {
   "property": "C56",
   "status": "proved",
   "theorems": [
    "Istl.Par.C56_all_solvers",
    "Istl.Par.C56_overlapping",
    "Istl.Par.C56_nonoverlapping"
   ],
   "note": "simulation proof for all ten solver models; exact summation (associative, commutative) in the reduction, no other law on reals needed; nonoverlapping case needs NoCrossOwners and a right hand side that is zero at ghosts. The run on all processes is modelled as one run on distributed vectors."
  },
  {
   "property": "C57",
   "status": "proved",
   "theorems": [
    "Istl.Ovl.C57_domains_of_rows",
    "Istl.Ovl.C57_constructors_agree",
    "Istl.Ovl.C57_local_matrix",
    "Istl.Ovl.C57_local_matrix_memory",
    "Istl.Ovl.C57_multiplicative",
    "Istl.Ovl.C57_symmetric",
    "Istl.Ovl.C57_additive",
    "Istl.Ovl.C57_returns",
    "Istl.Ovl.C57_on_the_fly",
    "Istl.Ovl.C57_dense_exact",
    "Istl.Ovl.C57_ilu0_exact",
    "Istl.Ovl.C57_ilun_exact",
    "Istl.Ovl.C57_dense_relaxation_counterexample",
    "Istl.Ovl.C57_ilun_counterexample"
   ],
   "note": "Block level; the scalars inside a block, UMFPack and SuperLU subdomain solvers and the base class calls are not modelled. Includes counterexamples for the dense version with relaxation and for the 'exact' ILU(n) solver."
  },
  {
   "property": "C58",
   "status": "proved",
   "theorems": [
    "Istl.Ovl.C58_lowers_functional",
    "Istl.Ovl.C58_lowers_energy",
    "Istl.Ovl.C58_additive_lowers_energy",
    "Istl.Ovl.C58_fixed_point",
    "Istl.Ovl.C58_symmetric_mode_symmetric",
    "Istl.Ovl.C58_symmetric_mode_positive",
    "Istl.Ovl.C58_additive_mode_symmetric",
    "Istl.Ovl.C58_additive_mode_positive",
    "Istl.Ovl.C58_last_subdomain"
   ],
   "note": "For exact subdomain solvers over ordered fields."
  },
  {
   "property": "C59",
   "status": "proved",
   "theorems": [
    "Istl.Amg.C59_build",
    "Istl.Amg.C59_sizes",
    "Istl.Amg.C59_entries",
    "Istl.Amg.C59_pattern",
    "Istl.Amg.C59_rowsums",
    "Istl.Amg.C59_spd",
    "Istl.Amg.C59_nonzeros",
    "Istl.Amg.C59_recalculate",
    "Istl.Amg.C59_recalculate_same",
    "Istl.Amg.C59_vectors_smoothers",
    "Istl.Amg.C59_destroy",
    "Istl.Amg.C59_destroy_unbuilt_counterexample",
    "Istl.Amg.C59_coarsest_on_finest",
    "Istl.Amg.C59_one_level_counterexample"
   ],
   "note": "Sequential case; the dependency criterion is an arbitrary function; the coarsening rate is an exact quotient; random numbers arbitrary in [0,1), termination of drawing them assumed. Counterexamples: destructor without build, coarsest numbers with one level."
  },
  {
   "property": "C60",
   "status": "proved",
   "theorems": [
    "Istl.Amg.C60_matrix",
    "Istl.Amg.C60_symmetric",
    "Istl.Amg.C60_unsymmetric",
    "Istl.Amg.C60_zero_diagonal",
    "Istl.Amg.C60_strong_neighbour",
    "Istl.Amg.C60_agree",
    "Istl.Amg.C60_positive_couplings",
    "Istl.Amg.C60_scaling",
    "Istl.Amg.C60_hierarchy",
    "Istl.Amg.C60_default_parameters"
   ],
   "note": "Sequential case (graph of the whole matrix); exact ordered field; -numeric_limits::max is a parameter lo; division by a zero norm excluded except for the exception it causes. C60_positive_couplings: negative M-matrices are never coarsened by the symmetric criteria."
  },
  {
   "property": "C61",
   "status": "proved",
   "theorems": [
    "Istl.Amg.C61_smoothers",
    "Istl.Amg.C61_preconditioner",
    "Istl.Amg.C61_cg"
   ],
   "note": "Sequential case, exact ordered field, blocks act linearly on a finite dimensional space; coarse solver exact (an iterative or inexact one is a hypothesis not met); Dirichlet preparation in AMG::pre not modelled."
  },
  {
   "property": "C62",
   "status": "proved",
   "theorems": [
    "Istl.C62_vector",
    "Istl.C62_vector_max",
    "Istl.C62_products",
    "Istl.C62_transpose",
    "Istl.C62_matrix_arithmetic",
    "Istl.C62_infinity_norm",
    "Istl.C62_steps",
    "Istl.C62_exact_blocks",
    "Istl.C62_solutions_kept",
    "Istl.C62_exact_blocks_keep_solutions",
    "Istl.C62_dbgs_keeps_only_zero",
    "Istl.C62_dbgs_counterexample"
   ],
   "note": "Blocks and entries are arbitrary types with lawful operations (BlockOps/Implements); nanTracker branch of the maximum norm is C63. Finding: dbgs on MultiTypeBlockMatrix overwrites x_i by the correction (C62_dbgs_keeps_only_zero, C62_dbgs_counterexample)."
  },
  {
   "property": "C63",
   "status": "proved",
   "theorems": [
    "Istl.C63_nan",
    "Istl.C63_finite",
    "Istl.C63_never_wrong",
    "Istl.C63_sums",
    "Istl.C63_matrix",
    "Istl.C63_plain",
    "Istl.C63_tracker_needed",
    "Istl.C63_overflow_counterexample"
   ],
   "note": "Floating point values modelled as finite/inf/NaN with an arbitrary monotone rounding that may overflow; negative values do not occur (norms). Finding: the norm of a finite vector is NaN when the sum of its entries overflows (C63_overflow_counterexample)."
  },
  {
   "property": "C64",
   "status": "proved",
   "theorems": [
    "Istl.MatDim.C64_dims",
    "Istl.MatDim.C64_matlab",
    "Istl.MatDim.C64_numbers_dims",
    "Istl.MatDim.C64_numbers_matlab",
    "Istl.MatDim.C64_empty_rows_shift",
    "Istl.MatDim.C64_empty_columns",
    "Istl.MatDim.C64_hole_counterexample",
    "Istl.MatDim.C64_no_columns_counterexample"
   ],
   "note": "recursive model of MatrixDimension and of the Matlab writer, 64-bit wrap-around of the sentinel in coldim included; C64_empty_rows_shift, C64_empty_columns and the counterexamples are findings. Rows without entries are taken to have a null pointer (not implicit build mode); ostream formatting is not modelled."
  },
  {
   "property": "C65",
   "status": "proved",
   "theorems": [
    "Istl.ScaledId.C65_products",
    "Istl.ScaledId.C65_mv",
    "Istl.ScaledId.C65_arith",
    "Istl.ScaledId.C65_eq",
    "Istl.ScaledId.C65_solve",
    "Istl.ScaledId.C65_determinant",
    "Istl.ScaledId.C65_frobenius",
    "Istl.ScaledId.C65_norm_exists",
    "Istl.ScaledId.C65_toDense"
   ],
   "note": "data refinement to Mathlib matrices; C65_products also makes it a block for C62. Row proxies and iterators (dune-common) and ostream output are not modelled."
  },
  {
   "property": "C66",
   "status": "proved",
   "theorems": [
    "Istl.Solver.C66_energy",
    "Istl.Solver.C66_optimal",
    "Istl.Solver.C66_defined",
    "Istl.Solver.C66_terminates",
    "Istl.Solver.C66_abort_counterexample"
   ],
   "note": "about the model of GeneralizedPCGSolver::apply of C27/C28 over an ordered field; C66_abort_counterexample runs the same model with NaN arithmetic and is a finding."
  },
  {
   "property": "C67",
   "status": "proved",
   "theorems": [
    "Istl.Amg.C67_pre",
    "Istl.Amg.C67_apply",
    "Istl.Amg.C67_failure_ignored",
    "Istl.Amg.C67_energy",
    "Istl.Amg.C67_one_level",
    "Istl.Amg.C67_preconditioner",
    "Istl.Amg.C67_gpcg"
   ],
   "note": "Exact arithmetic: no norm is infinite or NaN (hypothesis), sequential case, default Krylov method GeneralizedPCGSolver; the energy statements need maxLevelKrylovSteps <= restart (default 3 and 10). Parallel levels without coarsest matrix not modelled."
  },
  {
   "property": "C68",
   "status": "proved",
   "theorems": [
    "Istl.C68_power",
    "Istl.C68_inverse",
    "Istl.C68_rayleigh",
    "Istl.C68_tlime",
    "Istl.C68_error",
    "Istl.C68_power_terminates",
    "Istl.C68_power_dominant",
    "Istl.C68_power_oscillates",
    "Istl.C68_inverse_terminates",
    "Istl.C68_inverse_closest",
    "Istl.C68_iteration_operator",
    "Istl.C68_iteration_matrix",
    "Istl.C68_stale_matrix",
    "Istl.C68_missing_diagonal",
    "Istl.C68_flag_ignored",
    "Istl.C68_lambda_output",
    "Istl.C68_nan",
    "Istl.C68_tlime_external"
   ],
   "note": "Arithmetic is exact (real inner product space) except in C68_nan; the linear solver is a parameter (exact whenever it returns). The inverse iteration is shown convergent for shifts below the spectrum of a symmetric matrix, not for shifts inside it; Rayleigh quotient iteration and TLIME are covered by partial correctness. Counterexample theorems: C68_power_oscillates, C68_tlime_external, C68_stale_matrix, C68_missing_diagonal, C68_flag_ignored, C68_nan."
  },
  {
   "property": "C69",
   "status": "proved",
   "theorems": [
    "Istl.Solver.C69_loop",
    "Istl.Solver.C69_gradient",
    "Istl.Solver.C69_both",
    "Istl.Solver.C69_sor",
    "Istl.Solver.C69_schwarz",
    "Istl.Solver.C69_amg",
    "Istl.Solver.C69_jacobi",
    "Istl.Solver.C69_diverges",
    "Istl.Solver.C69_jacobi_diverges"
   ],
   "note": "Exact real arithmetic; E.prec abstracts v=0; prec.apply(v,b). SOR/SSOR/Jacobi/Schwarz/AMG through the models of C25, C26, C52, C57, C58, C61."
  },
  {
   "property": "C70",
   "status": "proved",
   "theorems": [
    "Istl.Amg.C70_aggregation",
    "Istl.Amg.C70_candidates",
    "Istl.Amg.C70_isolated",
    "Istl.Amg.C70_candidate"
   ],
   "note": "The whole run of buildAggregates follows the rules of Spec/Selection (counting edges, taking maxima) and the rules determine the map; quotients are exact rationals instead of doubles."
  },
  {
   "property": "C71",
   "status": "proved",
   "theorems": [
    "Istl.C71_matrix",
    "Istl.C71_apply",
    "Istl.C71_solution",
    "Istl.C71_nothing_left",
    "Istl.C71_size",
    "Istl.C71_history",
    "Istl.C71_stale_map_counterexample",
    "Istl.C71_new_field_counterexample"
   ],
   "note": "Exact numbers; the library is a parameter assumed to solve the packed symmetric system it is given. Two wrong-result bugs on reuse (stale index map) and a leak are exhibited."
  },
  {
   "property": "C72",
   "status": "proved",
   "theorems": [
    "Istl.Amg.C72_local",
    "Istl.Amg.C72_consistent",
    "Istl.Amg.C72_nonoverlapping",
    "Istl.Amg.C72_minimum_counterexample",
    "Istl.Amg.C72_periodic",
    "Istl.Amg.C72_periodic_isolated_counterexample"
   ],
   "note": "IndicesSyncer, RemoteIndices, ParallelIndexSet and the communicator of dune-common enter by their contracts. Connectedness of the aggregates within a process is a hypothesis (guaranteed by the aggregation, C41). The overflow with isolated vertices at periodic boundaries and the unmet promise of the minimal global index are exhibited."
  },
  {
   "property": "C73",
   "status": "proved",
   "theorems": [
    "Istl.Amg.C73_pattern",
    "Istl.Amg.C73_galerkin"
   ],
   "note": "Model: one process' build (both passes, with the branch for the category nonoverlapping) and calculate with the exchange of the diagonal; the order of equal elements under std::sort and all message orders are universally quantified. Builds on the coarsening of C72 (whose statement now also gives the numbering), on C36 and on C44. DirichletBoundarySetter is commented out in the code and not modelled."
  },
  {
   "property": "C74",
   "status": "proved",
   "theorems": [
    "Istl.Solver.C74_run",
    "Istl.Solver.C74_minimal",
    "Istl.Solver.C74_monotone",
    "Istl.Solver.C74_exact",
    "Istl.Solver.C74_norm_counterexample"
   ],
   "note": "exact real arithmetic; rotations with arguments below 1e-15 are excluded by hypothesis (the code replaces them by inexact ones). C74_norm_counterexample: the first defect uses another norm than the later ones, so a run can report convergence without any progress"
  },
  {
   "property": "C75",
   "status": "proved",
   "theorems": [
    "Istl.Solver.C75_residual",
    "Istl.Solver.C75_half",
    "Istl.Solver.C75_minimises",
    "Istl.Solver.C75_run",
    "Istl.Solver.C75_exact"
   ],
   "note": "exact arithmetic; fixed linear preconditioner"
  },
  {
   "property": "C76",
   "status": "proved",
   "theorems": [
    "Istl.Solver.C76_restarted",
    "Istl.Solver.C76_complete",
    "Istl.Solver.C76_defined",
    "Istl.Solver.C76_exact",
    "Istl.Solver.C76_terminates_restarted",
    "Istl.Solver.C76_terminates_complete",
    "Istl.Solver.C76_same_as_gpcg",
    "Istl.Solver.C76_abort_counterexample"
   ],
   "note": "exact arithmetic; runs that return. C76_abort_counterexample: with NaN arithmetic the inner loop goes on after the defect has become exactly zero and the solvers throw; RestartedFCGSolver also where GeneralizedPCGSolver returns"
  },
  {
   "property": "C77",
   "status": "proved",
   "theorems": [
    "Istl.Direct.C77_ldl",
    "Istl.Direct.C77_umfpack",
    "Istl.Direct.C77_spqr",
    "Istl.Direct.C77_superlu",
    "Istl.Direct.C77_umfpack_file",
    "Istl.Direct.C77_apply_after_free",
    "Istl.Direct.C77_free_twice",
    "Istl.Direct.C77_ldl_constructor_leak",
    "Istl.Direct.C77_ldl_ordering_failure",
    "Istl.Direct.C77_spqr_complex",
    "Istl.Direct.C77_empty_leaks",
    "Istl.Direct.C77_umfpack_save_leak"
   ],
   "note": "Library functions enter by their documented contracts: they return a new object or null, and null the handles they release. Numerical content is not modelled (conversion of the matrix: C38, C49). C77_spqr states the leak of one block; the theorems after it exhibit what happens outside the supported calls."
  },
  {
   "property": "C78",
   "status": "proved",
   "theorems": [
    "Istl.MM.C78_read",
    "Istl.MM.C78_array_refused",
    "Istl.MM.C78_short_size_line",
    "Istl.MM.C78_format_error_unchanged",
    "Istl.MM.C78_index_out_of_range_counterexample",
    "Istl.MM.C78_column_counterexample",
    "Istl.MM.C78_vector_read",
    "Istl.MM.C78_vector_format_errors",
    "Istl.MM.C78_vector_truncated_counterexample",
    "Istl.MM.C78_default_counterexample"
   ],
   "note": "Texts of the described shapes; blank separated words in the first line, single blanks in the size line. Numbers are read by the contract of the standard library (no overflow, no signs for indices)."
  },
  {
   "property": "C79",
   "status": "proved",
   "theorems": [
    "Istl.Amg.C79_search",
    "Istl.Amg.C79_reset",
    "Istl.Amg.C79_nonempty_list_counterexample"
   ],
   "note": "C79_nonempty_list_counterexample: a list that is not empty at the call is searched from again."
  },
  {
   "property": "C80",
   "status": "proved",
   "theorems": [
    "Istl.Amg.C80_vertices",
    "Istl.Amg.C80_edges",
    "Istl.Amg.C80_indices",
    "Istl.Amg.C80_findEdge",
    "Istl.Amg.C80_whole",
    "Istl.Amg.C80_refines",
    "Istl.Amg.C80_flags",
    "Istl.Amg.C80_empty_uninitialised"
   ],
   "note": "The graph that the parallel AMG aggregates. maxVertex() and random access of the iterators are not modelled; std::sort and std::lower_bound by their contract. C80_empty_uninitialised documents a defect of the code (noEdges_ is not set for an empty graph)."
  },
  {
   "property": "C81",
   "status": "proved",
   "theorems": [
    "Istl.Par.C81_matrix",
    "Istl.Par.C81_deterministic",
    "Istl.Par.C81_operator",
    "Istl.Par.C81_symmetric",
    "Istl.Par.C81_overlap_lost",
    "Istl.Par.C81_vector",
    "Istl.Par.C81_backward",
    "Istl.Par.C81_agglomerate",
    "Istl.Par.C81_overlap_changes_operator"
   ],
   "note": "overlapping category (owner rows); the extra communication of copy rows for the nonoverlapping category is not modelled. C81_overlap_changes_operator shows the dropped overlap couplings"
  },
  {
   "property": "C82",
   "status": "proved",
   "theorems": [
    "Istl.Par.C82_awaited",
    "Istl.Par.C82_index_set",
    "Istl.Par.C82_decomposition",
    "Istl.Par.C82_closed",
    "Istl.Par.C82_interface",
    "Istl.Par.C82_participation",
    "Istl.Par.C82_neighbours",
    "Istl.Par.C82_neighbours_symmetric",
    "Istl.Par.C82_order",
    "Istl.Par.C82_operator",
    "Istl.Par.C82_copies_unconnected"
   ],
   "note": "New index sets, interfaces, neighbours and ranks for all inputs and arrival orders, with the operator kept by the redistribution of C81. MPI and ParallelIndexSet are used through their contracts. Finding: processes that share only copies of an index do not become neighbours (C82_copies_unconnected)."
  },
  {
   "property": "C83",
   "status": "proved",
   "theorems": [
    "Istl.Par.C83_fill_holes",
    "Istl.Par.C83_no_holes",
    "Istl.Par.C83_vtxdist",
    "Istl.Par.C83_numbering",
    "Istl.Par.C83_graph"
   ],
   "note": "fillIndexSetHoles, ParmetisDuneIndexMap and getAdjArrays for all decompositions; MPI collectives and ParallelIndexSet by contract. Edge weights for the partitioner are C45/C60, not part of this."
  },
  {
   "property": "C84",
   "status": "proved",
   "theorems": [
    "Istl.Par.C84_get_domain",
    "Istl.Par.C84_repartition",
    "Istl.Par.C84_agglomeration",
    "Istl.Par.C84_follows_partition",
    "Istl.Par.C84_comm_graph_repartition",
    "Istl.Par.C84_comm_graph",
    "Istl.Par.C84_valid_graph",
    "Istl.Par.C84_valid_graph_accepts_invalid",
    "Istl.Par.C84_order_matters"
   ],
   "note": "The partitioner (ParMETIS/METIS) is an oracle: every result in range. The extra copyCopyToAll for the nonoverlapping category is not modelled. Findings: C84_order_matters (result of the partitioner read in another order than it was numbered), C84_valid_graph_accepts_invalid (off by one in a debug check)."
  },
  {
   "property": "C85",
   "status": "proved",
   "theorems": [
    "Istl.Amg.C85_restrict",
    "Istl.Amg.C85_prolong",
    "Istl.Amg.C85_adjoint",
    "Istl.Amg.C85_local_transfer",
    "Istl.Amg.C85_transfer_overlap",
    "Istl.Amg.C85_transfer_redistributed",
    "Istl.Amg.C85_coarse_solve",
    "Istl.Amg.C85_coarse_redistributed",
    "Istl.Amg.C85_parallel_cycle",
    "Istl.Amg.C85_converging"
   ],
   "note": "Overlapping category, multiplicative cycle; the program of all processes is modelled in lock step (one distributed state), the orders in which messages arrive are arbitrary but fixed per level. Smoothers and coarse solver are arbitrary local maps with a global counterpart."
  },
  {
   "property": "C86",
   "status": "proved",
   "theorems": [
    "Istl.Amg.C86_build_returns",
    "Istl.Amg.C86_galerkin",
    "Istl.Amg.C86_sizes",
    "Istl.Amg.C86_compose",
    "Istl.Amg.C86_entries",
    "Istl.Amg.C86_represents",
    "Istl.Amg.C86_apply"
   ],
   "note": "All runs of the level loop without redistribution (accumulate=noAccu); the aggregation of the own vertices is an arbitrary function with connected aggregates (C89 proves this of the real one). Finding: dunknowns counts overlap unknowns several times on the finest level only."
  },
  {
   "property": "C87",
   "status": "proved",
   "theorems": [
    "Istl.MM.C87_round_trip",
    "Istl.MM.C87_vector_round_trip",
    "Istl.MM.C87_other_files",
    "Istl.MM.C87_names",
    "Istl.MM.C87_split",
    "Istl.MM.C87_missing_throws",
    "Istl.MM.C87_store_throws",
    "Istl.MM.C87_nonempty_throws",
    "Istl.MM.C87_no_neighbours_counterexample",
    "Istl.MM.C87_newline_counterexample",
    "Istl.MM.C87_stale_counterexample"
   ],
   "note": "Global indices are natural numbers; RemoteIndices::rebuild after loading is dune-common code (contract). Findings: an index file without the line of the neighbours or with a trailing line break makes the reader use uninitialised variables; without extension a stale .mm file wins over .mtx."
  },
  {
   "property": "C88",
   "status": "proved",
   "theorems": [
    "Istl.Amg.C88_dirichlet",
    "Istl.Amg.C88_residual",
    "Istl.Amg.C88_succeeds_iff",
    "Istl.Amg.C88_parallel",
    "Istl.Amg.C88_smoothers",
    "Istl.Amg.C88_pre",
    "Istl.Amg.C88_post",
    "Istl.Amg.C88_post_twice_counterexample"
   ],
   "note": "Overlapping category for the parallel statement. FieldMatrix::solve is a parameter (it either throws or solves; for scalars dune-common divides without a check). Finding: post is called twice for a single smoother when the hierarchy stops before maxlevels."
  },
  {
   "property": "C89",
   "status": "proved",
   "theorems": [
    "Istl.Amg.C89_loop",
    "Istl.Amg.C89_like_sequential",
    "Istl.Amg.C89_partition",
    "Istl.Amg.C89_connected",
    "Istl.Amg.C89_for_hierarchy",
    "Istl.Amg.C89_hierarchy",
    "Istl.Amg.C89_empty_uninitialised"
   ],
   "note": "The dependency flags are arbitrary (C60 models how they are computed). The edges of the subgraph are read before the aggregation. A process without unknowns reads an uninitialised number of edges (C89_empty_uninitialised); in the hierarchy theorem the empty map is taken there."
  },
  {
   "property": "C90",
   "status": "proved",
   "theorems": [
    "Istl.Amg.C90_configured",
    "Istl.Amg.C90_errors",
    "Istl.Amg.C90_ignores",
    "Istl.Amg.C90_sizes_ok",
    "Istl.Amg.C90_successive",
    "Istl.Amg.C90_distance_key",
    "Istl.Amg.C90_capital_only",
    "Istl.Amg.C90_creator",
    "Istl.Amg.C90_creator_accepts"
   ],
   "note": "ParameterTree and the conversions of dune-common are a contract (arbitrary functions); the sizes of the size mode are stated where they do not overflow size_t. Findings: accumulationMode=successive sets coarsenTarget to 2; misspelled key MaxAggregateDistance."
  },
  {
   "property": "C91",
   "status": "proved",
   "theorems": [
    "Istl.Factory.C91_passed",
    "Istl.Factory.C91_passed_accepts",
    "Istl.Factory.C91_history",
    "Istl.Factory.C91_independent",
    "Istl.Factory.C91_registered",
    "Istl.Factory.C91_configured",
    "Istl.Factory.C91_accepts",
    "Istl.Factory.C91_categories",
    "Istl.Factory.C91_direct_parallel",
    "Istl.Factory.C91_direct",
    "Istl.Factory.C91_unknown",
    "Istl.Factory.C91_leak_counterexample",
    "Istl.Factory.C91_concurrent_counterexample"
   ],
   "note": "ParameterTree and ParameterizedObjectFactory of dune-common are contracts; decompositions are arbitrary outcomes. Findings: a passed preconditioner stays in the global factory; two threads can exchange preconditioners."
  },
  {
   "property": "C92",
   "status": "proved",
   "theorems": [
    "Istl.Arpack.C92_products",
    "Istl.Arpack.C92_not_square",
    "Istl.Arpack.C92_eigen",
    "Istl.Arpack.C92_eigen_safe",
    "Istl.Arpack.C92_cond_ends",
    "Istl.Arpack.C92_cond",
    "Istl.Arpack.C92_cond_negative",
    "Istl.Arpack.C92_singular",
    "Istl.Arpack.C92_singular_cond",
    "Istl.Arpack.C92_tall_refused",
    "Istl.Arpack.C92_rectangular_ub",
    "Istl.Arpack.C92_wide_never",
    "Istl.Arpack.C92_cond_indefinite"
   ],
   "note": "Exact arithmetic; ARPACK++ is a parameter with the contract Sound (its answers are right). Findings: computeSymCond2 for matrices that are not positive definite; N() and M() exchanged in the wrapper."
  },
  {
   "property": "C93",
   "status": "proved",
   "theorems": [
    "Istl.HList.C93_contents",
    "Istl.HList.C93_total",
    "Istl.HList.C93_disjoint",
    "Istl.HList.C93_frame",
    "Istl.HList.C93_mk",
    "Istl.HList.C93_empty",
    "Istl.HList.C93_addCoarser",
    "Istl.HList.C93_addRedistributedOnCoarsest",
    "Istl.HList.C93_iterator_redistributed",
    "Istl.HList.C93_copy",
    "Istl.HList.C93_no_cycle",
    "Istl.HList.C93_iterator_owns",
    "Istl.HList.C93_orphan",
    "Istl.HList.C93_assign_counterexample",
    "Istl.HList.C93_throw_counterexample"
   ],
   "note": "contents, totality, frame, effect of every call, deep copy, ownership of iterators; counterexamples for copy assignment and for an exception in addCoarser; shared_ptr/weak_ptr by contract"
  },
  {
   "property": "C94",
   "status": "proved",
   "theorems": [
    "Istl.TextOut.C94_vector",
    "Istl.TextOut.C94_vector_no_columns",
    "Istl.TextOut.C94_matlab_vector",
    "Istl.TextOut.C94_matrix",
    "Istl.TextOut.C94_empty_rows_counterexample",
    "Istl.TextOut.C94_sparse",
    "Istl.TextOut.C94_sparse_never"
   ],
   "note": "Number formatting is a parameter. Counterexamples: columns = 0 (remainder by zero), width <= 0 of printSparseMatrix (never ends), printmatrix with empty rows (documented bug)."
  },
  {
   "property": "C95",
   "status": "proved",
   "theorems": [
    "Istl.Svg.C95_picture",
    "Istl.Svg.C95_apart",
    "Istl.Svg.C95_header",
    "Istl.Svg.C95_auto_size_counterexample",
    "Istl.Svg.C95_clip_counterexample",
    "Istl.Svg.C95_empty_nested_counterexample"
   ],
   "note": "Layout only (no colours, styles, tool tips); doubles of the header are exact. Counterexamples: neither width nor height given, blocks of different width in one block column, nested matrix without blocks."
  },
  {
   "property": "C96",
   "status": "proved",
   "theorems": [
    "Istl.Solver.C96_when",
    "Istl.Solver.C96_not_converged",
    "Istl.Solver.C96_converged_safe",
    "Istl.Solver.C96_bound",
    "Istl.Solver.C96_exact"
   ],
   "note": "Exact arithmetic; ARPACK++ by the contract Sound of C92. Finding: a run that ends at maxit without convergence reads lambdas past its end."
  },
  {
   "property": "C97",
   "status": "proved",
   "theorems": [
    "Istl.C97_sweeps",
    "Istl.C97_apply",
    "Istl.C97_loop",
    "Istl.C97_relaxation_range"
   ],
   "note": "Exact real arithmetic. The converse (Kahan) is for matrices of numbers."
  },
  {
   "property": "C98",
   "status": "proved",
   "theorems": [
    "Istl.BVec.C98_calls",
    "Istl.BVec.C98_consistent",
    "Istl.BVec.C98_memory",
    "Istl.BVec.C98_capacity",
    "Istl.BVec.C98_capacity_ctor",
    "Istl.BVec.C98_window_made",
    "Istl.BVec.C98_window_shows",
    "Istl.BVec.C98_window_put",
    "Istl.BVec.C98_window_fill",
    "Istl.BVec.C98_window_assign",
    "Istl.BVec.C98_window_vector",
    "Istl.BVec.C98_window_stays"
   ],
   "note": "std::vector by its contract (strong guarantee of reserve/resize, element-wise copy assignment); assignment of single blocks through windows and references does not throw; exceptions are one kind. Pointer comparisons of C++ are block/offset pairs."
  },
  {
   "property": "C99",
   "status": "proved",
   "theorems": [
    "Istl.Iter.C99_pass",
    "Istl.Iter.C99_read",
    "Istl.Iter.C99_order",
    "Istl.Iter.C99_write",
    "Istl.Iter.C99_find",
    "Istl.Iter.C99_positions",
    "Istl.Iter.C99_fit_needed_counterexample"
   ],
   "note": "BCRSMatrix rows and entries; the const iterators have the same text. C99_fit_needed_counterexample: why N must fit into size_type."
  },
  {
   "property": "C100",
   "status": "proved",
   "theorems": [
    "Istl.BVec.C100_pass",
    "Istl.BVec.C100_read",
    "Istl.BVec.C100_write",
    "Istl.BVec.C100_find",
    "Istl.BVec.C100_positions"
   ],
   "note": "Forming the pointer p-1 of beforeBegin() is taken as defined, as on flat memory; only access is undefined."
  },
  {
   "property": "C101",
   "status": "proved",
   "theorems": [
    "Istl.MM.C101_file",
    "Istl.MM.C101_load_matrix",
    "Istl.MM.C101_load_vector",
    "Istl.MM.C101_load_mtx",
    "Istl.MM.C101_shadow_counterexample",
    "Istl.MM.C101_other_files",
    "Istl.MM.C101_store_throws",
    "Istl.MM.C101_missing_throws",
    "Istl.MM.C101_wrong_kind_throws",
    "Istl.MM.C101_default_precision_counterexample"
   ],
   "note": "A file is opened, written and closed without other accesses in between; printing and parsing of numbers by contract (Codec), with the number of digits as a parameter."
  },
  {
   "property": "C102",
   "status": "proved",
   "theorems": [
    "Istl.RowStmt.C102_map",
    "Istl.RowStmt.C102_combine",
    "Istl.RowStmt.C102_missing_throws",
    "Istl.RowStmt.C102_copy",
    "Istl.RowStmt.C102_shared_pattern_counterexample"
   ],
   "note": "Without DUNE_ISTL_WITH_CHECKING. A[r] = B[s] only for rows with the same columns: C102_shared_pattern_counterexample shows why. Rows are looked up at the start of a statement."
  },
  {
   "property": "C103",
   "status": "proved",
   "theorems": [
    "Istl.RowStmt.C103_program",
    "Istl.RowStmt.C103_throws",
    "Istl.RowStmt.C103_lookup",
    "Istl.RowStmt.C103_fold",
    "Istl.RowStmt.C103_dot"
   ],
   "note": "Without DUNE_ISTL_WITH_CHECKING; A[r] = B[s] only for rows with the same columns (C102_shared_pattern_counterexample). Norms: the loop over the stored values with any body; the NaN variants of infinity_norm are in the norm properties."
  },
  {
   "property": "C104",
   "status": "proved",
   "theorems": [
    "Istl.RowStmt.C104_program",
    "Istl.RowStmt.C104_throw_changes_nothing",
    "Istl.RowStmt.C104_statement",
    "Istl.RowStmt.C104_unchecked_counterexample"
   ],
   "note": "The build-stage check of operator[] is left out: in these programs only matrices without rows are unfinished, and they throw the same exception. Assignment of rows of the same size with different columns is not checked by the code either (C102_shared_pattern_counterexample)."
  },
  {
   "property": "C105",
   "status": "proved",
   "theorems": [
    "Istl.DenseIter.C105_loop",
    "Istl.DenseIter.C105_find",
    "Istl.DenseIter.C105_no_columns"
   ],
   "note": "Positions modulo 2^64 on flat memory: forming the address before the array is taken as defined, only access is undefined. ConstIterator has the same text."
  },
  {
   "property": "C106",
   "status": "proved",
   "theorems": [
    "Istl.VbV.C106_forward",
    "Istl.VbV.C106_backward",
    "Istl.VbV.C106_backward_index",
    "Istl.VbV.C106_find"
   ],
   "note": "IndexedIterator is in dune-common, not in /repo: assumed to start with index 0 and to move it with ++, -- and +=. The position before the first window is taken as defined, only access is undefined. ConstIterator has the same text."
  },
  {
   "property": "C107",
   "status": "proved",
   "theorems": [
    "Istl.C107_access",
    "Istl.C107_exists",
    "Istl.C107_exists_counterexample",
    "Istl.C107_add_sub",
    "Istl.C107_product",
    "Istl.C107_gather",
    "Istl.C107_scatter",
    "Istl.C107_mulVec"
   ],
   "note": "Row and column numbers are unsigned, so the tests for negative numbers are left out."
  }
 ]
}