Output of `#print axioms` for every theorem named in MANIFEST.json.

'Istl.C01_find_exact' depends on axioms: [propext, Classical.choice, Quot.sound]
'Istl.C01_get_exact' depends on axioms: [propext, Classical.choice, Quot.sound]
'Istl.C01_modify_exact' depends on axioms: [propext, Quot.sound]
'Istl.C01_exists_exact' depends on axioms: [propext, Classical.choice, Quot.sound]
'Istl.C02_random_build_exact' depends on axioms: [propext, Classical.choice, Quot.sound]
'Istl.C02_random_build_pattern' depends on axioms: [propext, Classical.choice, Quot.sound]
'Istl.C03_addindex_exact' depends on axioms: [propext, Classical.choice, Quot.sound]
'Istl.C03_endrowsizes_exact' depends on axioms: [propext, Classical.choice, Quot.sound]
'Istl.C04_rowwise_build_exact' depends on axioms: [propext, Classical.choice, Quot.sound]
'Istl.C04_rowwise_too_small_throws' depends on axioms: [propext, Classical.choice, Quot.sound]
'Istl.C05_implicit_build_exact' depends on axioms: [propext, Classical.choice, Quot.sound]
'Istl.C05_implicit_build_exact_values' depends on axioms: [propext, Classical.choice, Quot.sound]
'Istl.C06_compress_fails_iff_exhausted' depends on axioms: [propext, Classical.choice, Quot.sound]
'Istl.C06_enough_overflow_suffices' depends on axioms: [propext, Classical.choice, Quot.sound]
'Istl.C06_average_never_fails' depends on axioms: [propext, Classical.choice, Quot.sound]
'Istl.C06_avg_zero_counterexample' depends on axioms: [propext, Classical.choice, Quot.sound]
'Istl.Bcrs.C07_out_of_order_rejected' depends on axioms: [propext, Classical.choice, Quot.sound]
'Istl.Bcrs.C07_built_is_frozen' depends on axioms: [propext, Classical.choice, Quot.sound]
'Istl.Bcrs.C07_built_only_by_complete_sequence' depends on axioms: [propext, Classical.choice, Quot.sound]
'Istl.Bcrs.C07_failed_call_has_no_effect' depends on axioms: [propext, Classical.choice, Quot.sound]
'Istl.Bcrs.C07_copy_of_unfinished_rejected' depends on axioms: [propext, Quot.sound]
'Istl.Bcrs.C07_assign_to_unfinished_rejected' depends on axioms: [propext, Quot.sound]
'Istl.Bcrs.C07_setIndices_counterexample' depends on axioms: [propext, Classical.choice, Quot.sound]
'Istl.Bcrs.C07_setSize_counterexample' depends on axioms: [propext, Classical.choice, Quot.sound]
'Istl.Bcrs.C07_unchecked_entry_counterexample' depends on axioms: [propext, Classical.choice, Quot.sound]
'Istl.BcrsWorld.C08_programs_compute_values' depends on axioms: [propext, Classical.choice, Quot.sound]
'Istl.BcrsWorld.C08_other_matrices_unaffected' depends on axioms: [propext, Classical.choice, Quot.sound]
'Istl.BcrsWorld.C08_copy_equal' depends on axioms: [propext, Classical.choice, Quot.sound]
'Istl.BcrsWorld.C08_assign_equal' depends on axioms: [propext, Classical.choice, Quot.sound]
'Istl.BcrsWorld.C08_gap_counterexample' depends on axioms: [propext, Classical.choice, Quot.sound]
'Istl.BcrsWorld.C08_scale_after_copy_counterexample' depends on axioms: [propext, Classical.choice, Quot.sound]
'Istl.C09_mv' depends on axioms: [propext, Classical.choice, Quot.sound]
'Istl.C09_umv' depends on axioms: [propext, Classical.choice, Quot.sound]
'Istl.C09_mmv' depends on axioms: [propext, Classical.choice, Quot.sound]
'Istl.C09_usmv' depends on axioms: [propext, Classical.choice, Quot.sound]
'Istl.C09_umtv' depends on axioms: [propext, Classical.choice, Quot.sound]
'Istl.C09_mtv' depends on axioms: [propext, Classical.choice, Quot.sound]
'Istl.C09_mmtv' depends on axioms: [propext, Classical.choice, Quot.sound]
'Istl.C09_usmtv' depends on axioms: [propext, Classical.choice, Quot.sound]
'Istl.C09_umhv' depends on axioms: [propext, Classical.choice, Quot.sound]
'Istl.C09_mmhv' depends on axioms: [propext, Classical.choice, Quot.sound]
'Istl.C09_usmhv' depends on axioms: [propext, Classical.choice, Quot.sound]
'Istl.C10_mtv_adjoint' depends on axioms: [propext, Classical.choice, Quot.sound]
'Istl.C10_umhv_adjoint' depends on axioms: [propext, Classical.choice, Quot.sound]
'Istl.C10_mv_linear' depends on axioms: [propext, Classical.choice, Quot.sound]
'Istl.C10_update_variants' depends on axioms: [propext, Classical.choice, Quot.sound]
'Istl.C11_add' depends on axioms: [propext, Classical.choice, Quot.sound]
'Istl.C11_sub' depends on axioms: [propext, Classical.choice, Quot.sound]
'Istl.C11_axpy' depends on axioms: [propext, Classical.choice, Quot.sound]
'Istl.BcrsWorld.C11_scale' depends on axioms: [propext, Classical.choice, Quot.sound]
'Istl.C12_frobenius' depends on axioms: [propext, Classical.choice, Quot.sound]
'Istl.C12_infinity' depends on axioms: [propext, Classical.choice, Quot.sound]
'Istl.C12_infinity_bound' depends on axioms: [propext, Classical.choice, Quot.sound]
'Istl.IndexSet.C13_export' depends on axioms: [propext, Classical.choice, Quot.sound]
'Istl.IndexSet.C13_default' depends on axioms: [propext, Classical.choice, Quot.sound]
'Istl.IndexSet.C13_threshold_irrelevant' depends on axioms: [propext, Classical.choice, Quot.sound]
'Istl.VbV.C14_blocks' depends on axioms: [propext, Classical.choice, Quot.sound]
'Istl.VbV.C14_disjoint' depends on axioms: [propext, Classical.choice, Quot.sound]
'Istl.VbV.C14_no_blocks_counterexample' depends on axioms: [propext, Quot.sound]
'Istl.C15_make' depends on axioms: [propext, Quot.sound]
'Istl.C15_copy' depends on axioms: [propext, Classical.choice, Quot.sound]
'Istl.C15_assign' depends on axioms: [propext, Classical.choice, Quot.sound]
'Istl.C15_fill' depends on axioms: [propext, Classical.choice, Quot.sound]
'Istl.C15_mulScalar' depends on axioms: [propext, Classical.choice, Quot.sound]
'Istl.C15_divScalar' depends on axioms: [propext, Classical.choice, Quot.sound]
'Istl.C15_add' depends on axioms: [propext, Classical.choice, Quot.sound]
'Istl.C15_sub' depends on axioms: [propext, Classical.choice, Quot.sound]
'Istl.C15_transpose' depends on axioms: [propext, Classical.choice, Quot.sound]
'Istl.C15_mul' depends on axioms: [propext, Classical.choice, Quot.sound]
'Istl.C15_umv' depends on axioms: [propext, Classical.choice, Quot.sound]
'Istl.C15_mmv' depends on axioms: [propext, Classical.choice, Quot.sound]
'Istl.C15_usmv' depends on axioms: [propext, Classical.choice, Quot.sound]
'Istl.C15_mv' depends on axioms: [propext, Classical.choice, Quot.sound]
'Istl.C15_mulVec' depends on axioms: [propext, Classical.choice, Quot.sound]
'Istl.C15_umtv' depends on axioms: [propext, Classical.choice, Quot.sound]
'Istl.C15_mtv' depends on axioms: [propext, Classical.choice, Quot.sound]
'Istl.C15_mmtv' depends on axioms: [propext, Classical.choice, Quot.sound]
'Istl.C15_usmtv' depends on axioms: [propext, Classical.choice, Quot.sound]
'Istl.C15_umhv' depends on axioms: [propext, Classical.choice, Quot.sound]
'Istl.C15_mmhv' depends on axioms: [propext, Classical.choice, Quot.sound]
'Istl.C15_usmhv' depends on axioms: [propext, Classical.choice, Quot.sound]
'Istl.C15_frobenius' depends on axioms: [propext, Classical.choice, Quot.sound]
'Istl.C15_rows' depends on axioms: [propext, Quot.sound]
'Istl.C15_no_columns_counterexample' does not depend on any axioms
'Istl.C15_infinity' depends on axioms: [propext, Classical.choice, Quot.sound]
'Istl.C16_matMultMat' depends on axioms: [propext, Classical.choice, Quot.sound]
'Istl.C16_transposeMatMultMat' depends on axioms: [propext, Classical.choice, Quot.sound]
'Istl.C16_matMultTransposeMat' depends on axioms: [propext, Classical.choice, Quot.sound]
'Istl.C16_mismatch_throws' depends on axioms: [propext, Classical.choice, Quot.sound]
'Istl.C16_empty_counterexample' depends on axioms: [propext, Classical.choice, Quot.sound]
'Istl.C17_ilu0_reproduces_on_pattern' depends on axioms: [propext, Classical.choice, Quot.sound]
'Istl.C17_closed_pattern_exact' depends on axioms: [propext, Classical.choice, Quot.sound]
'Istl.C18_ilu0_succeeds_iff_factorisation_exists' depends on axioms: [propext, Classical.choice, Quot.sound]
'Istl.C18_missing_diagonal_never_succeeds' depends on axioms: [propext, Classical.choice, Quot.sound]
'Istl.C18_no_undefined_behaviour' depends on axioms: [propext, Classical.choice, Quot.sound]
'Istl.C18_missing_diagonal_counterexample' depends on axioms: [propext, Classical.choice, Quot.sound]
'Istl.C19_backsolve_inverts_factors' depends on axioms: [propext, Classical.choice, Quot.sound]
'Istl.C19_ilu0_then_backsolve' depends on axioms: [propext, Classical.choice, Quot.sound]
'Istl.C20_crs_backsolve_eq' depends on axioms: [propext, Classical.choice, Quot.sound]
'Istl.C20_resorted_ilu0' depends on axioms: [propext, Classical.choice, Quot.sound]
'Istl.C20_empty_counterexample' depends on axioms: [propext]
'Istl.C21_generation_bound' depends on axioms: [propext, Classical.choice, Quot.sound]
'Istl.C21_pattern_contains' depends on axioms: [propext]
'Istl.C21_pattern_level_zero' depends on axioms: [propext, Classical.choice, Quot.sound]
'Istl.C21_pattern_level_one' depends on axioms: [propext, Classical.choice, Quot.sound]
'Istl.C21_level_one_subset' depends on axioms: [propext, Classical.choice, Quot.sound]
'Istl.C21_full_level_closed' depends on axioms: [propext, Classical.choice, Quot.sound]
'Istl.C21_generations_unique' depends on axioms: [propext, Classical.choice, Quot.sound]
'Istl.C21_ilun_is_ilu0_on_fill_pattern' depends on axioms: [propext, Classical.choice, Quot.sound]
'Istl.C21_ilun_factors' depends on axioms: [propext, Classical.choice, Quot.sound]
'Istl.C21_full_level_is_lu' depends on axioms: [propext, Classical.choice, Quot.sound]
'Istl.C21_level_zero_is_ilu0' depends on axioms: [propext, Classical.choice, Quot.sound]
'Istl.C21_monotone_counterexample' depends on axioms: [propext, Classical.choice, Quot.sound]
'Istl.C22_ldl_reproduces_on_pattern' depends on axioms: [propext, Classical.choice, Quot.sound]
'Istl.C22_symmetric' depends on axioms: [propext, Classical.choice, Quot.sound]
'Istl.C22_missing_diagonal' depends on axioms: [propext, Classical.choice, Quot.sound]
'Istl.C22_complete' depends on axioms: [propext, Classical.choice, Quot.sound]
'Istl.C22_backsolve' depends on axioms: [propext, Classical.choice, Quot.sound]
'Istl.C22_lower_triangle' depends on axioms: [propext, Classical.choice, Quot.sound]
'Istl.C23_decomposition' depends on axioms: [propext, Classical.choice, Quot.sound]
'Istl.C23_decomposition_complete' depends on axioms: [propext, Classical.choice, Quot.sound]
'Istl.C23_backsolve' depends on axioms: [propext, Classical.choice, Quot.sound]
'Istl.C23_missing_diagonal_counterexample' depends on axioms: [propext, Classical.choice, Quot.sound]
'Istl.C24_succeeds_iff_diagonal_invertible' depends on axioms: [propext, Classical.choice, Quot.sound]
'Istl.C24_bltsolve' depends on axioms: [propext, Classical.choice, Quot.sound]
'Istl.C24_bltsolve_unique' depends on axioms: [propext, Classical.choice, Quot.sound]
'Istl.C24_butsolve' depends on axioms: [propext, Classical.choice, Quot.sound]
'Istl.C24_bdsolve' depends on axioms: [propext, Classical.choice, Quot.sound]
'Istl.C24_ubltsolve' depends on axioms: [propext, Classical.choice, Quot.sound]
'Istl.C24_ubutsolve' depends on axioms: [propext, Classical.choice, Quot.sound]
'Istl.C24_bltsolve_relaxed' depends on axioms: [propext, Classical.choice, Quot.sound]
'Istl.C24_butsolve_relaxed' depends on axioms: [propext, Classical.choice, Quot.sound]
'Istl.C24_bdsolve_relaxed' depends on axioms: [propext, Classical.choice, Quot.sound]
'Istl.C24_unit_relaxed' depends on axioms: [propext, Classical.choice, Quot.sound]
'Istl.C24_bltsolve_two_levels' depends on axioms: [propext, Classical.choice, Quot.sound]
'Istl.C25_dbjac' depends on axioms: [propext, Classical.choice, Quot.sound]
'Istl.C25_bsorf' depends on axioms: [propext, Classical.choice, Quot.sound]
'Istl.C25_bsorb' depends on axioms: [propext, Classical.choice, Quot.sound]
'Istl.C25_dbgs' depends on axioms: [propext, Classical.choice, Quot.sound]
'Istl.C25_sweeps_succeed_iff' depends on axioms: [propext, Classical.choice, Quot.sound]
'Istl.C25_exact_solution_is_fixed' depends on axioms: [propext, Classical.choice, Quot.sound]
'Istl.C25_level2_jacobi_counterexample' depends on axioms: [propext, Classical.choice, Quot.sound]
'Istl.C25_level2_sor_counterexample' depends on axioms: [propext, Classical.choice, Quot.sound]
'Istl.C26_history_independent' depends on axioms: [propext, Quot.sound]
'Istl.C26_superposition' depends on axioms: [propext, Quot.sound]
'Istl.C26_sweep_preconditioners_linear' depends on axioms: [propext, Classical.choice, Quot.sound]
'Istl.C26_jacobi_sweeps' depends on axioms: [propext, Classical.choice, Quot.sound]
'Istl.C26_sor_sweeps' depends on axioms: [propext, Classical.choice, Quot.sound]
'Istl.C26_ssor_sweeps' depends on axioms: [propext, Classical.choice, Quot.sound]
'Istl.C26_ilu' depends on axioms: [propext, Classical.choice, Quot.sound]
'Istl.C26_dilu' depends on axioms: [propext, Classical.choice, Quot.sound]
'Istl.C26_ildl' depends on axioms: [propext, Classical.choice, Quot.sound]
'Istl.C26_richardson' depends on axioms: [propext, Quot.sound]
'Istl.C26_factorisation_preconditioners_linear' depends on axioms: [propext, Classical.choice, Quot.sound]
'Istl.C26_checked_construction' depends on axioms: [propext, Classical.choice, Quot.sound]
'Istl.Solver.C27_loop' depends on axioms: [propext, Quot.sound]
'Istl.Solver.C27_gradient' depends on axioms: [propext, Quot.sound]
'Istl.Solver.C27_cg' depends on axioms: [propext, Quot.sound]
'Istl.Solver.C27_bicgstab' depends on axioms: [propext, Quot.sound]
'Istl.Solver.C27_abort' depends on axioms: [propext, Quot.sound]
'Istl.Solver.C27_gpcg' depends on axioms: [propext, Quot.sound]
'Istl.Solver.C27_restartedfcg' depends on axioms: [propext, Classical.choice, Quot.sound]
'Istl.Solver.C27_completefcg' depends on axioms: [propext, Classical.choice, Quot.sound]
'Istl.Solver.C27_minres' depends on axioms: [propext, Quot.sound]
'Istl.Solver.C27_gmres' depends on axioms: [propext, Classical.choice, Quot.sound]
'Istl.Solver.C27_fgmres' depends on axioms: [propext, Classical.choice, Quot.sound]
'Istl.Solver.C27_abort_step0_counterexample' depends on axioms: [propext, Classical.choice, Quot.sound]
'Istl.Solver.C27_exact_solution_aborts_counterexample' depends on axioms: [propext, Classical.choice, Quot.sound]
'Istl.Solver.C28_loop' depends on axioms: [propext, Quot.sound]
'Istl.Solver.C28_gradient' depends on axioms: [propext, Quot.sound]
'Istl.Solver.C28_cg' depends on axioms: [propext, Quot.sound]
'Istl.Solver.C28_bicgstab' depends on axioms: [propext, Quot.sound]
'Istl.Solver.C28_gpcg' depends on axioms: [propext, Quot.sound]
'Istl.Solver.C28_gpcg_restart1_diverges' depends on axioms: [propext, Quot.sound]
'Istl.Solver.C28_restartedfcg' depends on axioms: [propext, Classical.choice, Quot.sound]
'Istl.Solver.C28_completefcg' depends on axioms: [propext, Classical.choice, Quot.sound]
'Istl.Solver.C28_restartedfcg_mmax0_diverges' depends on axioms: [propext, Quot.sound]
'Istl.Solver.C28_minres' depends on axioms: [propext, Quot.sound]
'Istl.Solver.C28_gmres' depends on axioms: [propext, Classical.choice, Quot.sound]
'Istl.Solver.C28_fgmres' depends on axioms: [propext, Classical.choice, Quot.sound]
'Istl.Solver.C28_gmres_restart0_diverges' depends on axioms: [propext, Quot.sound]
'Istl.Solver.C29_loop' depends on axioms: [propext, Classical.choice, Quot.sound]
'Istl.Solver.C29_gradient' depends on axioms: [propext, Classical.choice, Quot.sound]
'Istl.Solver.C29_cg' depends on axioms: [propext, Classical.choice, Quot.sound]
'Istl.Solver.C29_bicgstab' depends on axioms: [propext, Classical.choice, Quot.sound]
'Istl.Solver.C29_gpcg' depends on axioms: [propext, Classical.choice, Quot.sound]
'Istl.Solver.C29_restartedfcg' depends on axioms: [propext, Classical.choice, Quot.sound]
'Istl.Solver.C29_completefcg' depends on axioms: [propext, Classical.choice, Quot.sound]
'Istl.Solver.C29_converged_residual' depends on axioms: [propext, Classical.choice, Quot.sound]
'Istl.Solver.C30_run' depends on axioms: [propext, Quot.sound]
'Istl.Solver.C30_conjugate' depends on axioms: [propext, Classical.choice, Quot.sound]
'Istl.Solver.C30_minimises' depends on axioms: [propext, Classical.choice, Quot.sound]
'Istl.Solver.C30_in_span' depends on axioms: [propext, Quot.sound]
'Istl.Solver.C30_exact' depends on axioms: [propext, Classical.choice, Quot.sound]
'Istl.Solver.C31_run' depends on axioms: [propext, Quot.sound]
'Istl.Solver.C31_orthogonal' depends on axioms: [propext, Classical.choice, Quot.sound]
'Istl.Solver.C31_minimises' depends on axioms: [propext, Classical.choice, Quot.sound]
'Istl.Solver.C31_energy_decreases' depends on axioms: [propext, Classical.choice, Quot.sound]
'Istl.Solver.C31_gpcg_step' depends on axioms: [propext, Classical.choice, Quot.sound]
'Istl.Solver.C31_fcg_step' depends on axioms: [propext, Classical.choice, Quot.sound]
'Istl.Solver.C31_bicgstab_step' depends on axioms: [propext, Classical.choice, Quot.sound]
'Istl.Solver.C32_unitary' depends on axioms: [propext, Classical.choice, Quot.sound]
'Istl.Solver.C32_unitary_minres' depends on axioms: [propext, Classical.choice, Quot.sound]
'Istl.Solver.C32_annihilates' depends on axioms: [propext, Classical.choice, Quot.sound]
'Istl.Solver.C32_annihilates_exact' depends on axioms: [propext, Classical.choice, Quot.sound]
'Istl.Solver.C32_annihilates_minres' depends on axioms: [propext, Classical.choice, Quot.sound]
'Istl.Solver.C32_isometry' depends on axioms: [propext, Classical.choice, Quot.sound]
'Istl.Solver.C32_back_substitution' depends on axioms: [propext, Classical.choice, Quot.sound]
'Istl.Solver.C32_update' depends on axioms: [propext, Classical.choice, Quot.sound]
'Istl.Solver.C33_history' depends on axioms: [propext]
'Istl.Solver.C33_history_throw' depends on axioms: [propext]
'Istl.Solver.C33_gmres' depends on axioms: [propext, Classical.choice, Quot.sound]
'Istl.Solver.C33_exception_counterexample' depends on axioms: [propext, Classical.choice, Quot.sound]
'Istl.Solver.C34_sequential' depends on axioms: [propext, Quot.sound]
'Istl.Solver.C34_general' depends on axioms: [propext, Quot.sound]
'Istl.Solver.C34_config' depends on axioms: [propext, Quot.sound]
'Istl.Solver.C34_scalar_product' depends on axioms: [propext, Quot.sound]
'Istl.Par.C35_history' depends on axioms: [propext, Classical.choice, Quot.sound]
'Istl.Par.C35_dot' depends on axioms: [propext, Classical.choice, Quot.sound]
'Istl.Par.C35_norm' depends on axioms: [propext, Classical.choice, Quot.sound]
'Istl.Par.C35_stale_mask_counterexample' depends on axioms: [propext]
'Istl.Par.C35_complex_counterexample' depends on axioms: [propext, Classical.choice, Quot.sound]
'Istl.Par.C36_copyOwnerToAll' depends on axioms: [propext, Classical.choice, Quot.sound]
'Istl.Par.C36_consistent' depends on axioms: [propext, Classical.choice, Quot.sound]
'Istl.Par.C36_idempotent' depends on axioms: [propext, Classical.choice, Quot.sound]
'Istl.Par.C36_add' depends on axioms: [propext, Classical.choice, Quot.sound]
'Istl.Par.C36_addOwnerOverlapToAll' depends on axioms: [propext, Classical.choice, Quot.sound]
'Istl.Par.C36_addOwnerCopy' depends on axioms: [propext, Classical.choice, Quot.sound]
'Istl.Par.C36_project' depends on axioms: [propext, Quot.sound]
'Istl.Par.C36_source_dest_counterexample' does not depend on any axioms
'Istl.C37_tridiagonal_pattern' depends on axioms: [propext, Classical.choice, Quot.sound]
'Istl.C37_diagonal_pattern' depends on axioms: [propext, Classical.choice, Quot.sound]
'Istl.C37_tridiagonal_resize' depends on axioms: [propext, Classical.choice, Quot.sound]
'Istl.C37_diagonal_resize' depends on axioms: [propext, Classical.choice, Quot.sound]
'Istl.C37_thomas' depends on axioms: [propext, Classical.choice, Quot.sound]
'Istl.C37_diagonal_solve' depends on axioms: [propext, Classical.choice, Quot.sound]
'Istl.C37_diagonal_invert' depends on axioms: [propext, Classical.choice, Quot.sound]
'Istl.C37_empty_solve_counterexample' depends on axioms: [propext, Quot.sound]
'Istl.C37_default_setSize_counterexample' depends on axioms: [propext, Classical.choice, Quot.sound]
'Istl.C38_full' depends on axioms: [propext, Classical.choice, Quot.sound]
'Istl.C38_subset' depends on axioms: [propext, Classical.choice, Quot.sound]
'Istl.C38_countSet' depends on axioms: [propext, Quot.sound]
'Istl.C39_values' depends on axioms: [propext, Classical.choice, Quot.sound]
'Istl.C39_assign_equal' depends on axioms: [propext, Classical.choice, Quot.sound]
'Istl.C39_self_assignment_counterexample' depends on axioms: [propext]
'Istl.C39_no_entries_counterexample' depends on axioms: [propext]
'Istl.C40_vector' depends on axioms: [propext, Quot.sound]
'Istl.C40_matrix' depends on axioms: [propext, Classical.choice, Quot.sound]
'Istl.C40_unique' depends on axioms: [propext, Classical.choice, Quot.sound]
'Istl.C40_no_columns_counterexample' does not depend on any axioms
'Istl.Amg.C41_partition' depends on axioms: [propext, Classical.choice, Quot.sound]
'Istl.Amg.C41_connected' depends on axioms: [propext, Classical.choice, Quot.sound]
'Istl.Amg.C41_renumber' depends on axioms: [propext, Classical.choice, Quot.sound]
'Istl.Amg.C41_coarsening' depends on axioms: [propext, Classical.choice, Quot.sound]
'Istl.Amg.C41_sizes_counterexample' depends on axioms: [propext, Classical.choice, Quot.sound]
'Istl.Amg.C41_statistics' depends on axioms: [propext, Classical.choice, Quot.sound]
'Istl.Amg.C41_statistics_start' depends on axioms: [propext, Classical.choice, Quot.sound]
'Istl.Amg.C41_merge_excluded_counterexample' depends on axioms: [propext, Classical.choice, Quot.sound]
'Istl.Amg.C42_size' depends on axioms: [propext, Classical.choice, Quot.sound]
'Istl.Amg.C42_size_one' depends on axioms: [propext, Classical.choice, Quot.sound]
'Istl.Amg.C42_merge_counterexample' depends on axioms: [propext, Classical.choice, Quot.sound]
'Istl.Amg.C42_connectivity' depends on axioms: [propext, Classical.choice, Quot.sound]
'Istl.Amg.C43_numbers' depends on axioms: [propext, Classical.choice, Quot.sound]
'Istl.Amg.C43_partition' depends on axioms: [propext, Classical.choice, Quot.sound]
'Istl.Amg.C43_disconnected_counterexample' does not depend on any axioms
'Istl.Amg.C44_values' depends on axioms: [propext, Classical.choice, Quot.sound]
'Istl.Amg.C44_is_product' depends on axioms: [propext, Classical.choice, Quot.sound]
'Istl.Amg.C44_pattern' depends on axioms: [propext, Classical.choice, Quot.sound]
'Istl.Amg.C44_galerkin' depends on axioms: [propext, Classical.choice, Quot.sound]
'Istl.C45_restrict' depends on axioms: [propext, Classical.choice, Quot.sound]
'Istl.C45_prolongate' depends on axioms: [propext, Classical.choice, Quot.sound]
'Istl.C45_transpose' depends on axioms: [propext, Classical.choice, Quot.sound]
'Istl.C45_adjoint' depends on axioms: [propext, Classical.choice, Quot.sound]
'Istl.Amg.C46_apply_is_the_cycle' depends on axioms: [propext, Classical.choice, Quot.sound]
'Istl.Amg.C46_defect_consistent' depends on axioms: [propext, Classical.choice, Quot.sound]
'Istl.Amg.C46_failure_is_sticky' depends on axioms: [propext, Classical.choice, Quot.sound]
'Istl.Amg.C46_two_level_apply' depends on axioms: [propext]
'Istl.Amg.C46_additive' depends on axioms: [propext, Classical.choice, Quot.sound]
'Istl.Amg.C46_additive_history_counterexample' depends on axioms: [propext]
'Istl.Amg.C46_two_level_error' depends on axioms: [propext, Classical.choice, Quot.sound]
'Istl.Amg.C46_coarse_correction_exact' depends on axioms: [propext, Classical.choice, Quot.sound]
'Istl.Amg.C46_cycle_linear' depends on axioms: [propext, Classical.choice, Quot.sound]
'Istl.MM.C47_read' depends on axioms: [propext, Classical.choice, Quot.sound]
'Istl.MM.C47_read_complex' depends on axioms: [propext, Classical.choice, Quot.sound]
'Istl.MM.C47_too_few_reserved_throws' depends on axioms: [propext, Classical.choice, Quot.sound]
'Istl.MM.C47_round_trip' depends on axioms: [propext, Classical.choice, Quot.sound]
'Istl.MM.C47_vector_round_trip' depends on axioms: [propext, Classical.choice, Quot.sound]
'Istl.MM.C47_truncated_counterexample' depends on axioms: [propext, Classical.choice, Quot.sound]
'Istl.MM.C47_complex_counterexample' depends on axioms: [propext, Classical.choice, Quot.sound]
'Istl.MM.C47_symmetric_zero_diagonal_counterexample' depends on axioms: [propext, Classical.choice, Quot.sound]
'Istl.MM.C47_skew_blocks_counterexample' depends on axioms: [propext, Classical.choice, Quot.sound]
'Istl.Solver.C48_gmres_residual' depends on axioms: [propext, Classical.choice, Quot.sound]
'Istl.Solver.C48_fgmres_residual' depends on axioms: [propext, Classical.choice, Quot.sound]
'Istl.Solver.C48_gmres_minimal' depends on axioms: [propext, Classical.choice, Quot.sound]
'Istl.Solver.C48_missing_restart_counterexample' depends on axioms: [propext, Classical.choice, Quot.sound]
'Istl.C49_full' depends on axioms: [propext, Classical.choice, Quot.sound]
'Istl.C49_ignored' depends on axioms: [propext, Classical.choice, Quot.sound]
'Istl.C49_empty' depends on axioms: [propext, Classical.choice, Quot.sound]
'Istl.Amg.C50_edges' depends on axioms: [propext, Classical.choice, Quot.sound]
'Istl.Amg.C50_distinct' depends on axioms: [propext, Classical.choice, Quot.sound]
'Istl.Amg.C50_range' depends on axioms: [propext, Classical.choice, Quot.sound]
'Istl.Amg.C50_findEdge' depends on axioms: [propext, Classical.choice, Quot.sound]
'Istl.Amg.C50_no_diagonal_counterexample' depends on axioms: [propext, Classical.choice, Quot.sound]
'Istl.Amg.C51_symmetric' depends on axioms: [propext, Classical.choice, Quot.sound]
'Istl.Amg.C51_positive' depends on axioms: [propext, Classical.choice, Quot.sound]
'Istl.Amg.C51_step_reduces_energy' depends on axioms: [propext, Classical.choice, Quot.sound]
'Istl.C52_sweep_lowers_functional' depends on axioms: [propext, Classical.choice, Quot.sound]
'Istl.C52_sweep_lowers_energy' depends on axioms: [propext, Classical.choice, Quot.sound]
'Istl.C52_sor_adjoint' depends on axioms: [propext, Classical.choice, Quot.sound]
'Istl.C52_ssor_jacobi_symmetric' depends on axioms: [propext, Classical.choice, Quot.sound]
'Istl.C52_positive' depends on axioms: [propext, Classical.choice, Quot.sound]
'Istl.C52_amg_smoother' depends on axioms: [propext, Classical.choice, Quot.sound]
'Istl.FastAmg.C53_presmooth' depends on axioms: [propext, Classical.choice, Quot.sound]
'Istl.FastAmg.C53_postsmooth' depends on axioms: [propext, Classical.choice, Quot.sound]
'Istl.FastAmg.C53_apply_is_the_V_cycle' depends on axioms: [propext, Classical.choice, Quot.sound]
'Istl.FastAmg.C53_symmetric' depends on axioms: [propext, Classical.choice, Quot.sound]
'Istl.FastAmg.C53_unsymmetric_counterexample' depends on axioms: [propext, Classical.choice, Quot.sound]
'Istl.FastAmg.C53_block_counterexample' depends on axioms: [propext, Classical.choice, Quot.sound]
'Istl.FastAmg.C53_missing_diagonal_counterexample' depends on axioms: [propext, Classical.choice, Quot.sound]
'Istl.FastAmg.C53_w_cycle_counterexample' depends on axioms: [propext, Classical.choice, Quot.sound]
'Istl.Par.C54_overlapping_apply' depends on axioms: [propext, Classical.choice, Quot.sound]
'Istl.Par.C54_overlapping_applyscaleadd' depends on axioms: [propext, Classical.choice, Quot.sound]
'Istl.Par.C54_block_preconditioner' depends on axioms: [propext, Classical.choice, Quot.sound]
'Istl.Par.C54_parssor' depends on axioms: [propext, Classical.choice, Quot.sound]
'Istl.Par.C54_pre' depends on axioms: [propext, Classical.choice, Quot.sound]
'Istl.Par.C55_lowest_rank' does not depend on any axioms
'Istl.Par.C55_applyscaleadd' depends on axioms: [propext, Classical.choice, Quot.sound]
'Istl.Par.C55_apply' depends on axioms: [propext, Classical.choice, Quot.sound]
'Istl.Par.C55_preconditioner' depends on axioms: [propext, Classical.choice, Quot.sound]
'Istl.Par.C55_cross_owner_counterexample' depends on axioms: [propext, Quot.sound]
'Istl.Par.C55_unowned_counterexample' depends on axioms: [propext, Quot.sound]
'Istl.Par.C56_all_solvers' depends on axioms: [propext, Quot.sound]
'Istl.Par.C56_overlapping' depends on axioms: [propext, Classical.choice, Quot.sound]
'Istl.Par.C56_nonoverlapping' depends on axioms: [propext, Classical.choice, Quot.sound]
'Istl.Ovl.C57_domains_of_rows' depends on axioms: [propext, Classical.choice, Quot.sound]
'Istl.Ovl.C57_constructors_agree' depends on axioms: [propext]
'Istl.Ovl.C57_local_matrix' depends on axioms: [propext, Classical.choice, Quot.sound]
'Istl.Ovl.C57_local_matrix_memory' depends on axioms: [propext, Classical.choice, Quot.sound]
'Istl.Ovl.C57_multiplicative' depends on axioms: [propext, Classical.choice, Quot.sound]
'Istl.Ovl.C57_symmetric' depends on axioms: [propext, Classical.choice, Quot.sound]
'Istl.Ovl.C57_additive' depends on axioms: [propext, Classical.choice, Quot.sound]
'Istl.Ovl.C57_returns' depends on axioms: [propext, Quot.sound]
'Istl.Ovl.C57_on_the_fly' depends on axioms: [propext, Quot.sound]
'Istl.Ovl.C57_dense_exact' depends on axioms: [propext, Classical.choice, Quot.sound]
'Istl.Ovl.C57_ilu0_exact' depends on axioms: [propext, Classical.choice, Quot.sound]
'Istl.Ovl.C57_ilun_exact' depends on axioms: [propext, Classical.choice, Quot.sound]
'Istl.Ovl.C57_dense_relaxation_counterexample' depends on axioms: [propext, Classical.choice, Quot.sound]
'Istl.Ovl.C57_ilun_counterexample' depends on axioms: [propext, Classical.choice, Quot.sound]
'Istl.Ovl.C58_lowers_functional' depends on axioms: [propext, Classical.choice, Quot.sound]
'Istl.Ovl.C58_lowers_energy' depends on axioms: [propext, Classical.choice, Quot.sound]
'Istl.Ovl.C58_additive_lowers_energy' depends on axioms: [propext, Classical.choice, Quot.sound]
'Istl.Ovl.C58_fixed_point' depends on axioms: [propext, Classical.choice, Quot.sound]
'Istl.Ovl.C58_symmetric_mode_symmetric' depends on axioms: [propext, Classical.choice, Quot.sound]
'Istl.Ovl.C58_symmetric_mode_positive' depends on axioms: [propext, Classical.choice, Quot.sound]
'Istl.Ovl.C58_additive_mode_symmetric' depends on axioms: [propext, Classical.choice, Quot.sound]
'Istl.Ovl.C58_additive_mode_positive' depends on axioms: [propext, Classical.choice, Quot.sound]
'Istl.Ovl.C58_last_subdomain' depends on axioms: [propext, Classical.choice, Quot.sound]
'Istl.Amg.C59_build' depends on axioms: [propext, Classical.choice, Quot.sound]
'Istl.Amg.C59_sizes' depends on axioms: [propext, Classical.choice, Quot.sound]
'Istl.Amg.C59_entries' depends on axioms: [propext, Classical.choice, Quot.sound]
'Istl.Amg.C59_pattern' depends on axioms: [propext, Classical.choice, Quot.sound]
'Istl.Amg.C59_rowsums' depends on axioms: [propext, Classical.choice, Quot.sound]
'Istl.Amg.C59_spd' depends on axioms: [propext, Classical.choice, Quot.sound]
'Istl.Amg.C59_nonzeros' depends on axioms: [propext, Classical.choice, Quot.sound]
'Istl.Amg.C59_recalculate' depends on axioms: [propext, Classical.choice, Quot.sound]
'Istl.Amg.C59_recalculate_same' depends on axioms: [propext, Classical.choice, Quot.sound]
'Istl.Amg.C59_vectors_smoothers' depends on axioms: [propext, Classical.choice, Quot.sound]
'Istl.Amg.C59_destroy' depends on axioms: [propext, Quot.sound]
'Istl.Amg.C59_destroy_unbuilt_counterexample' depends on axioms: [propext, Quot.sound]
'Istl.Amg.C59_coarsest_on_finest' depends on axioms: [propext, Classical.choice, Quot.sound]
'Istl.Amg.C59_one_level_counterexample' depends on axioms: [propext, Classical.choice, Quot.sound]
'Istl.Amg.C60_matrix' depends on axioms: [propext, Classical.choice, Quot.sound]
'Istl.Amg.C60_symmetric' depends on axioms: [propext, Classical.choice, Quot.sound]
'Istl.Amg.C60_unsymmetric' depends on axioms: [propext, Classical.choice, Quot.sound]
'Istl.Amg.C60_zero_diagonal' depends on axioms: [propext, Classical.choice, Quot.sound]
'Istl.Amg.C60_strong_neighbour' depends on axioms: [propext, Classical.choice, Quot.sound]
'Istl.Amg.C60_agree' depends on axioms: [propext, Classical.choice, Quot.sound]
'Istl.Amg.C60_positive_couplings' depends on axioms: [propext, Classical.choice, Quot.sound]
'Istl.Amg.C60_scaling' depends on axioms: [propext, Classical.choice, Quot.sound]
'Istl.Amg.C60_hierarchy' depends on axioms: [propext, Classical.choice, Quot.sound]
'Istl.Amg.C60_default_parameters' depends on axioms: [propext, Quot.sound]
'Istl.Amg.C61_smoothers' depends on axioms: [propext, Classical.choice, Quot.sound]
'Istl.Amg.C61_preconditioner' depends on axioms: [propext, Classical.choice, Quot.sound]
'Istl.Amg.C61_cg' depends on axioms: [propext, Classical.choice, Quot.sound]
'Istl.C62_vector' depends on axioms: [propext, Classical.choice, Quot.sound]
'Istl.C62_vector_max' depends on axioms: [propext, Quot.sound]
'Istl.C62_products' depends on axioms: [propext, Classical.choice, Quot.sound]
'Istl.C62_transpose' depends on axioms: [propext, Classical.choice, Quot.sound]
'Istl.C62_matrix_arithmetic' depends on axioms: [propext, Classical.choice, Quot.sound]
'Istl.C62_infinity_norm' depends on axioms: [propext, Classical.choice, Quot.sound]
'Istl.C62_steps' depends on axioms: [propext, Classical.choice, Quot.sound]
'Istl.C62_exact_blocks' depends on axioms: [propext, Classical.choice, Quot.sound]
'Istl.C62_solutions_kept' depends on axioms: [propext, Classical.choice, Quot.sound]
'Istl.C62_exact_blocks_keep_solutions' depends on axioms: [propext, Classical.choice, Quot.sound]
'Istl.C62_dbgs_keeps_only_zero' depends on axioms: [propext, Classical.choice, Quot.sound]
'Istl.C62_dbgs_counterexample' depends on axioms: [propext, Classical.choice, Quot.sound]
'Istl.C63_nan' depends on axioms: [propext, Classical.choice, Quot.sound]
'Istl.C63_finite' depends on axioms: [propext, Classical.choice, Quot.sound]
'Istl.C63_never_wrong' depends on axioms: [propext, Classical.choice, Quot.sound]
'Istl.C63_sums' depends on axioms: [propext, Classical.choice, Quot.sound]
'Istl.C63_matrix' depends on axioms: [propext, Classical.choice, Quot.sound]
'Istl.C63_plain' depends on axioms: [propext, Classical.choice, Quot.sound]
'Istl.C63_tracker_needed' depends on axioms: [propext, Classical.choice, Quot.sound]
'Istl.C63_overflow_counterexample' depends on axioms: [propext, Classical.choice, Quot.sound]
'Istl.MatDim.C64_dims' depends on axioms: [propext, Classical.choice, Quot.sound]
'Istl.MatDim.C64_matlab' depends on axioms: [propext, Classical.choice, Quot.sound]
'Istl.MatDim.C64_numbers_dims' depends on axioms: [propext, Classical.choice, Quot.sound]
'Istl.MatDim.C64_numbers_matlab' depends on axioms: [propext, Classical.choice, Quot.sound]
'Istl.MatDim.C64_empty_rows_shift' depends on axioms: [propext, Classical.choice, Quot.sound]
'Istl.MatDim.C64_empty_columns' depends on axioms: [propext, Classical.choice, Quot.sound]
'Istl.MatDim.C64_hole_counterexample' depends on axioms: [propext, Quot.sound]
'Istl.MatDim.C64_no_columns_counterexample' depends on axioms: [propext, Quot.sound]
'Istl.ScaledId.C65_products' depends on axioms: [propext, Classical.choice, Quot.sound]
'Istl.ScaledId.C65_mv' depends on axioms: [propext, Classical.choice, Quot.sound]
'Istl.ScaledId.C65_arith' depends on axioms: [propext, Classical.choice, Quot.sound]
'Istl.ScaledId.C65_eq' depends on axioms: [propext, Quot.sound]
'Istl.ScaledId.C65_solve' depends on axioms: [propext, Classical.choice, Quot.sound]
'Istl.ScaledId.C65_determinant' depends on axioms: [propext, Classical.choice, Quot.sound]
'Istl.ScaledId.C65_frobenius' depends on axioms: [propext, Classical.choice, Quot.sound]
'Istl.ScaledId.C65_norm_exists' depends on axioms: [propext, Classical.choice, Quot.sound]
'Istl.ScaledId.C65_toDense' depends on axioms: [propext, Classical.choice, Quot.sound]
'Istl.Solver.C66_energy' depends on axioms: [propext, Classical.choice, Quot.sound]
'Istl.Solver.C66_optimal' depends on axioms: [propext, Classical.choice, Quot.sound]
'Istl.Solver.C66_defined' depends on axioms: [propext, Classical.choice, Quot.sound]
'Istl.Solver.C66_terminates' depends on axioms: [propext, Classical.choice, Quot.sound]
'Istl.Solver.C66_abort_counterexample' depends on axioms: [propext, Classical.choice, Quot.sound]
'Istl.Amg.C67_pre' depends on axioms: [propext, Quot.sound]
'Istl.Amg.C67_apply' depends on axioms: [propext, Classical.choice, Quot.sound]
'Istl.Amg.C67_failure_ignored' depends on axioms: [propext, Quot.sound]
'Istl.Amg.C67_energy' depends on axioms: [propext, Classical.choice, Quot.sound]
'Istl.Amg.C67_one_level' depends on axioms: [propext, Quot.sound]
'Istl.Amg.C67_preconditioner' depends on axioms: [propext, Classical.choice, Quot.sound]
'Istl.Amg.C67_gpcg' depends on axioms: [propext, Classical.choice, Quot.sound]
'Istl.C68_power' depends on axioms: [propext, Classical.choice, Quot.sound]
'Istl.C68_inverse' depends on axioms: [propext, Classical.choice, Quot.sound]
'Istl.C68_rayleigh' depends on axioms: [propext, Classical.choice, Quot.sound]
'Istl.C68_tlime' depends on axioms: [propext, Classical.choice, Quot.sound]
'Istl.C68_error' depends on axioms: [propext, Classical.choice, Quot.sound]
'Istl.C68_power_terminates' depends on axioms: [propext, Classical.choice, Quot.sound]
'Istl.C68_power_dominant' depends on axioms: [propext, Classical.choice, Quot.sound]
'Istl.C68_power_oscillates' depends on axioms: [propext, Classical.choice, Quot.sound]
'Istl.C68_inverse_terminates' depends on axioms: [propext, Classical.choice, Quot.sound]
'Istl.C68_inverse_closest' depends on axioms: [propext, Classical.choice, Quot.sound]
'Istl.C68_iteration_operator' depends on axioms: [propext, Classical.choice, Quot.sound]
'Istl.C68_iteration_matrix' depends on axioms: [propext, Classical.choice, Quot.sound]
'Istl.C68_stale_matrix' depends on axioms: [propext, Classical.choice, Quot.sound]
'Istl.C68_missing_diagonal' depends on axioms: [propext, Quot.sound]
'Istl.C68_flag_ignored' depends on axioms: [propext, Quot.sound]
'Istl.C68_lambda_output' depends on axioms: [propext, Quot.sound]
'Istl.C68_nan' depends on axioms: [propext, Classical.choice, Quot.sound]
'Istl.C68_tlime_external' depends on axioms: [propext, Classical.choice, Quot.sound]
'Istl.Solver.C69_loop' depends on axioms: [propext, Classical.choice, Quot.sound]
'Istl.Solver.C69_gradient' depends on axioms: [propext, Classical.choice, Quot.sound]
'Istl.Solver.C69_both' depends on axioms: [propext, Classical.choice, Quot.sound]
'Istl.Solver.C69_sor' depends on axioms: [propext, Classical.choice, Quot.sound]
'Istl.Solver.C69_schwarz' depends on axioms: [propext, Classical.choice, Quot.sound]
'Istl.Solver.C69_amg' depends on axioms: [propext, Classical.choice, Quot.sound]
'Istl.Solver.C69_jacobi' depends on axioms: [propext, Classical.choice, Quot.sound]
'Istl.Solver.C69_diverges' depends on axioms: [propext, Classical.choice, Quot.sound]
'Istl.Solver.C69_jacobi_diverges' depends on axioms: [propext, Classical.choice, Quot.sound]
'Istl.Amg.C70_aggregation' depends on axioms: [propext, Classical.choice, Quot.sound]
'Istl.Amg.C70_candidates' depends on axioms: [propext, Classical.choice, Quot.sound]
'Istl.Amg.C70_isolated' depends on axioms: [propext, Classical.choice, Quot.sound]
'Istl.Amg.C70_candidate' depends on axioms: [propext, Classical.choice, Quot.sound]
'Istl.C71_matrix' depends on axioms: [propext, Classical.choice, Quot.sound]
'Istl.C71_apply' depends on axioms: [propext, Classical.choice, Quot.sound]
'Istl.C71_solution' depends on axioms: [propext, Classical.choice, Quot.sound]
'Istl.C71_nothing_left' depends on axioms: [propext, Classical.choice, Quot.sound]
'Istl.C71_size' depends on axioms: [propext]
'Istl.C71_history' depends on axioms: [propext, Classical.choice, Quot.sound]
'Istl.C71_stale_map_counterexample' depends on axioms: [propext, Classical.choice, Quot.sound]
'Istl.C71_new_field_counterexample' depends on axioms: [propext, Quot.sound]
'Istl.Amg.C72_local' depends on axioms: [propext, Classical.choice, Quot.sound]
'Istl.Amg.C72_consistent' depends on axioms: [propext, Classical.choice, Quot.sound]
'Istl.Amg.C72_nonoverlapping' depends on axioms: [propext, Classical.choice, Quot.sound]
'Istl.Amg.C72_minimum_counterexample' depends on axioms: [propext]
'Istl.Amg.C72_periodic' depends on axioms: [propext, Classical.choice, Quot.sound]
'Istl.Amg.C72_periodic_isolated_counterexample' depends on axioms: [propext]
'Istl.Amg.C73_pattern' depends on axioms: [propext, Classical.choice, Quot.sound]
'Istl.Amg.C73_galerkin' depends on axioms: [propext, Classical.choice, Quot.sound]
'Istl.Solver.C74_run' depends on axioms: [propext, Classical.choice, Quot.sound]
'Istl.Solver.C74_minimal' depends on axioms: [propext, Classical.choice, Quot.sound]
'Istl.Solver.C74_monotone' depends on axioms: [propext, Classical.choice, Quot.sound]
'Istl.Solver.C74_exact' depends on axioms: [propext, Classical.choice, Quot.sound]
'Istl.Solver.C74_norm_counterexample' depends on axioms: [propext, Classical.choice, Quot.sound]
'Istl.Solver.C75_residual' depends on axioms: [propext, Classical.choice, Quot.sound]
'Istl.Solver.C75_half' depends on axioms: [propext, Classical.choice, Quot.sound]
'Istl.Solver.C75_minimises' depends on axioms: [propext, Classical.choice, Quot.sound]
'Istl.Solver.C75_run' depends on axioms: [propext, Quot.sound]
'Istl.Solver.C75_exact' depends on axioms: [propext, Classical.choice, Quot.sound]
'Istl.Solver.C76_restarted' depends on axioms: [propext, Classical.choice, Quot.sound]
'Istl.Solver.C76_complete' depends on axioms: [propext, Classical.choice, Quot.sound]
'Istl.Solver.C76_defined' depends on axioms: [propext, Classical.choice, Quot.sound]
'Istl.Solver.C76_exact' depends on axioms: [propext, Classical.choice, Quot.sound]
'Istl.Solver.C76_terminates_restarted' depends on axioms: [propext, Classical.choice, Quot.sound]
'Istl.Solver.C76_terminates_complete' depends on axioms: [propext, Classical.choice, Quot.sound]
'Istl.Solver.C76_same_as_gpcg' depends on axioms: [propext, Quot.sound]
'Istl.Solver.C76_abort_counterexample' depends on axioms: [propext, Classical.choice, Quot.sound]
'Istl.Direct.C77_ldl' depends on axioms: [propext, Classical.choice, Quot.sound]
'Istl.Direct.C77_umfpack' depends on axioms: [propext, Classical.choice, Quot.sound]
'Istl.Direct.C77_spqr' depends on axioms: [propext, Classical.choice, Quot.sound]
'Istl.Direct.C77_superlu' depends on axioms: [propext, Classical.choice, Quot.sound]
'Istl.Direct.C77_umfpack_file' depends on axioms: [propext, Classical.choice, Quot.sound]
'Istl.Direct.C77_apply_after_free' depends on axioms: [propext, Classical.choice, Quot.sound]
'Istl.Direct.C77_free_twice' depends on axioms: [propext, Classical.choice, Quot.sound]
'Istl.Direct.C77_ldl_constructor_leak' depends on axioms: [propext, Classical.choice, Quot.sound]
'Istl.Direct.C77_ldl_ordering_failure' depends on axioms: [propext, Classical.choice, Quot.sound]
'Istl.Direct.C77_spqr_complex' depends on axioms: [propext, Classical.choice, Quot.sound]
'Istl.Direct.C77_empty_leaks' depends on axioms: [propext, Classical.choice, Quot.sound]
'Istl.Direct.C77_umfpack_save_leak' depends on axioms: [propext, Classical.choice, Quot.sound]
'Istl.MM.C78_read' depends on axioms: [propext, Classical.choice, Quot.sound]
'Istl.MM.C78_array_refused' depends on axioms: [propext, Classical.choice, Quot.sound]
'Istl.MM.C78_short_size_line' depends on axioms: [propext, Classical.choice, Quot.sound]
'Istl.MM.C78_format_error_unchanged' depends on axioms: [propext, Classical.choice, Quot.sound]
'Istl.MM.C78_index_out_of_range_counterexample' depends on axioms: [propext, Classical.choice, Quot.sound]
'Istl.MM.C78_column_counterexample' depends on axioms: [propext, Classical.choice, Quot.sound]
'Istl.MM.C78_vector_read' depends on axioms: [propext, Classical.choice, Quot.sound]
'Istl.MM.C78_vector_format_errors' depends on axioms: [propext, Classical.choice, Quot.sound]
'Istl.MM.C78_vector_truncated_counterexample' depends on axioms: [propext, Classical.choice, Quot.sound]
'Istl.MM.C78_default_counterexample' depends on axioms: [propext, Classical.choice, Quot.sound]
'Istl.Amg.C79_search' depends on axioms: [propext, Classical.choice, Quot.sound]
'Istl.Amg.C79_reset' depends on axioms: [propext, Classical.choice, Quot.sound]
'Istl.Amg.C79_nonempty_list_counterexample' does not depend on any axioms
'Istl.Amg.C80_vertices' depends on axioms: [propext, Classical.choice, Quot.sound]
'Istl.Amg.C80_edges' depends on axioms: [propext, Classical.choice, Quot.sound]
'Istl.Amg.C80_indices' depends on axioms: [propext, Classical.choice, Quot.sound]
'Istl.Amg.C80_findEdge' depends on axioms: [propext, Classical.choice, Quot.sound]
'Istl.Amg.C80_whole' depends on axioms: [propext, Classical.choice, Quot.sound]
'Istl.Amg.C80_refines' depends on axioms: [propext, Classical.choice, Quot.sound]
'Istl.Amg.C80_flags' depends on axioms: [propext, Quot.sound]
'Istl.Amg.C80_empty_uninitialised' depends on axioms: [propext, Quot.sound]
'Istl.Par.C81_matrix' depends on axioms: [propext, Classical.choice, Quot.sound]
'Istl.Par.C81_deterministic' depends on axioms: [propext, Classical.choice, Quot.sound]
'Istl.Par.C81_operator' depends on axioms: [propext, Classical.choice, Quot.sound]
'Istl.Par.C81_symmetric' depends on axioms: [propext, Classical.choice, Quot.sound]
'Istl.Par.C81_overlap_lost' depends on axioms: [propext, Classical.choice, Quot.sound]
'Istl.Par.C81_vector' depends on axioms: [propext, Classical.choice, Quot.sound]
'Istl.Par.C81_backward' depends on axioms: [propext, Classical.choice, Quot.sound]
'Istl.Par.C81_agglomerate' depends on axioms: [propext, Classical.choice, Quot.sound]
'Istl.Par.C81_overlap_changes_operator' depends on axioms: [propext, Classical.choice, Quot.sound]
'Istl.Par.C82_awaited' depends on axioms: [propext, Classical.choice, Quot.sound]
'Istl.Par.C82_index_set' depends on axioms: [propext, Classical.choice, Quot.sound]
'Istl.Par.C82_decomposition' depends on axioms: [propext, Classical.choice, Quot.sound]
'Istl.Par.C82_closed' depends on axioms: [propext, Classical.choice, Quot.sound]
'Istl.Par.C82_interface' depends on axioms: [propext, Classical.choice, Quot.sound]
'Istl.Par.C82_participation' depends on axioms: [propext, Classical.choice, Quot.sound]
'Istl.Par.C82_neighbours' depends on axioms: [propext, Classical.choice, Quot.sound]
'Istl.Par.C82_neighbours_symmetric' depends on axioms: [propext, Classical.choice, Quot.sound]
'Istl.Par.C82_order' depends on axioms: [propext, Classical.choice, Quot.sound]
'Istl.Par.C82_operator' depends on axioms: [propext, Classical.choice, Quot.sound]
'Istl.Par.C82_copies_unconnected' depends on axioms: [propext, Classical.choice, Quot.sound]
'Istl.Par.C83_fill_holes' depends on axioms: [propext, Classical.choice, Quot.sound]
'Istl.Par.C83_no_holes' depends on axioms: [propext, Classical.choice, Quot.sound]
'Istl.Par.C83_vtxdist' depends on axioms: [propext, Classical.choice, Quot.sound]
'Istl.Par.C83_numbering' depends on axioms: [propext, Classical.choice, Quot.sound]
'Istl.Par.C83_graph' depends on axioms: [propext, Classical.choice, Quot.sound]
'Istl.Par.C84_get_domain' depends on axioms: [propext, Classical.choice, Quot.sound]
'Istl.Par.C84_repartition' depends on axioms: [propext, Classical.choice, Quot.sound]
'Istl.Par.C84_agglomeration' depends on axioms: [propext, Classical.choice, Quot.sound]
'Istl.Par.C84_follows_partition' depends on axioms: [propext, Classical.choice, Quot.sound]
'Istl.Par.C84_comm_graph_repartition' depends on axioms: [propext, Classical.choice, Quot.sound]
'Istl.Par.C84_comm_graph' depends on axioms: [propext, Classical.choice, Quot.sound]
'Istl.Par.C84_valid_graph' depends on axioms: [propext, Quot.sound]
'Istl.Par.C84_valid_graph_accepts_invalid' depends on axioms: [propext]
'Istl.Par.C84_order_matters' depends on axioms: [propext, Classical.choice, Quot.sound]
'Istl.Amg.C85_restrict' depends on axioms: [propext, Classical.choice, Quot.sound]
'Istl.Amg.C85_prolong' depends on axioms: [propext, Classical.choice, Quot.sound]
'Istl.Amg.C85_adjoint' depends on axioms: [propext, Classical.choice, Quot.sound]
'Istl.Amg.C85_local_transfer' depends on axioms: [propext, Quot.sound]
'Istl.Amg.C85_transfer_overlap' depends on axioms: [propext, Classical.choice, Quot.sound]
'Istl.Amg.C85_transfer_redistributed' depends on axioms: [propext, Classical.choice, Quot.sound]
'Istl.Amg.C85_coarse_solve' depends on axioms: [propext, Classical.choice, Quot.sound]
'Istl.Amg.C85_coarse_redistributed' depends on axioms: [propext, Classical.choice, Quot.sound]
'Istl.Amg.C85_parallel_cycle' depends on axioms: [propext, Classical.choice, Quot.sound]
'Istl.Amg.C85_converging' depends on axioms: [propext, Classical.choice, Quot.sound]
'Istl.Amg.C86_build_returns' depends on axioms: [propext, Classical.choice, Quot.sound]
'Istl.Amg.C86_galerkin' depends on axioms: [propext, Classical.choice, Quot.sound]
'Istl.Amg.C86_sizes' depends on axioms: [propext, Classical.choice, Quot.sound]
'Istl.Amg.C86_compose' depends on axioms: [propext, Classical.choice, Quot.sound]
'Istl.Amg.C86_entries' depends on axioms: [propext, Classical.choice, Quot.sound]
'Istl.Amg.C86_represents' depends on axioms: [propext, Classical.choice, Quot.sound]
'Istl.Amg.C86_apply' depends on axioms: [propext, Classical.choice, Quot.sound]
'Istl.MM.C87_round_trip' depends on axioms: [propext, Classical.choice, Quot.sound]
'Istl.MM.C87_vector_round_trip' depends on axioms: [propext, Classical.choice, Quot.sound]
'Istl.MM.C87_other_files' depends on axioms: [propext, Classical.choice, Quot.sound]
'Istl.MM.C87_names' depends on axioms: [propext, Classical.choice, Quot.sound]
'Istl.MM.C87_split' depends on axioms: [propext, Classical.choice, Quot.sound]
'Istl.MM.C87_missing_throws' depends on axioms: [propext, Classical.choice, Quot.sound]
'Istl.MM.C87_store_throws' depends on axioms: [propext, Classical.choice, Quot.sound]
'Istl.MM.C87_nonempty_throws' depends on axioms: [propext, Classical.choice, Quot.sound]
'Istl.MM.C87_no_neighbours_counterexample' depends on axioms: [propext, Classical.choice, Quot.sound]
'Istl.MM.C87_newline_counterexample' depends on axioms: [propext, Classical.choice, Quot.sound]
'Istl.MM.C87_stale_counterexample' depends on axioms: [propext, Classical.choice, Quot.sound]
'Istl.Amg.C88_dirichlet' depends on axioms: [propext, Classical.choice, Quot.sound]
'Istl.Amg.C88_residual' depends on axioms: [propext, Classical.choice, Quot.sound]
'Istl.Amg.C88_succeeds_iff' depends on axioms: [propext, Classical.choice, Quot.sound]
'Istl.Amg.C88_parallel' depends on axioms: [propext, Classical.choice, Quot.sound]
'Istl.Amg.C88_smoothers' depends on axioms: [propext, Classical.choice, Quot.sound]
'Istl.Amg.C88_pre' depends on axioms: [propext, Classical.choice, Quot.sound]
'Istl.Amg.C88_post' depends on axioms: [propext, Quot.sound]
'Istl.Amg.C88_post_twice_counterexample' depends on axioms: [propext, Classical.choice, Quot.sound]
'Istl.Amg.C89_loop' depends on axioms: [propext, Classical.choice, Quot.sound]
'Istl.Amg.C89_like_sequential' depends on axioms: [propext, Classical.choice, Quot.sound]
'Istl.Amg.C89_partition' depends on axioms: [propext, Classical.choice, Quot.sound]
'Istl.Amg.C89_connected' depends on axioms: [propext, Classical.choice, Quot.sound]
'Istl.Amg.C89_for_hierarchy' depends on axioms: [propext, Classical.choice, Quot.sound]
'Istl.Amg.C89_hierarchy' depends on axioms: [propext, Classical.choice, Quot.sound]
'Istl.Amg.C89_empty_uninitialised' depends on axioms: [propext, Classical.choice, Quot.sound]
'Istl.Amg.C90_configured' depends on axioms: [propext, Classical.choice, Quot.sound]
'Istl.Amg.C90_errors' depends on axioms: [propext, Classical.choice, Quot.sound]
'Istl.Amg.C90_ignores' depends on axioms: [propext, Classical.choice, Quot.sound]
'Istl.Amg.C90_sizes_ok' depends on axioms: [propext, Classical.choice, Quot.sound]
'Istl.Amg.C90_successive' depends on axioms: [propext, Classical.choice, Quot.sound]
'Istl.Amg.C90_distance_key' depends on axioms: [propext, Classical.choice, Quot.sound]
'Istl.Amg.C90_capital_only' depends on axioms: [propext, Classical.choice, Quot.sound]
'Istl.Amg.C90_creator' depends on axioms: [propext, Classical.choice, Quot.sound]
'Istl.Amg.C90_creator_accepts' depends on axioms: [propext, Classical.choice, Quot.sound]
'Istl.Factory.C91_passed' depends on axioms: [propext, Classical.choice, Quot.sound]
'Istl.Factory.C91_passed_accepts' depends on axioms: [propext, Classical.choice, Quot.sound]
'Istl.Factory.C91_history' depends on axioms: [propext]
'Istl.Factory.C91_independent' depends on axioms: [propext, Classical.choice, Quot.sound]
'Istl.Factory.C91_registered' depends on axioms: [propext]
'Istl.Factory.C91_configured' depends on axioms: [propext, Classical.choice, Quot.sound]
'Istl.Factory.C91_accepts' depends on axioms: [propext, Classical.choice, Quot.sound]
'Istl.Factory.C91_categories' depends on axioms: [propext, Classical.choice, Quot.sound]
'Istl.Factory.C91_direct_parallel' depends on axioms: [propext, Classical.choice, Quot.sound]
'Istl.Factory.C91_direct' depends on axioms: [propext, Classical.choice, Quot.sound]
'Istl.Factory.C91_unknown' depends on axioms: [propext, Classical.choice, Quot.sound]
'Istl.Factory.C91_leak_counterexample' depends on axioms: [propext, Classical.choice, Quot.sound]
'Istl.Factory.C91_concurrent_counterexample' depends on axioms: [propext, Classical.choice, Quot.sound]
'Istl.Arpack.C92_products' depends on axioms: [propext, Classical.choice, Quot.sound]
'Istl.Arpack.C92_not_square' depends on axioms: [propext, Classical.choice, Quot.sound]
'Istl.Arpack.C92_eigen' depends on axioms: [propext, Classical.choice, Quot.sound]
'Istl.Arpack.C92_eigen_safe' depends on axioms: [propext, Classical.choice, Quot.sound]
'Istl.Arpack.C92_cond_ends' depends on axioms: [propext, Classical.choice, Quot.sound]
'Istl.Arpack.C92_cond' depends on axioms: [propext, Classical.choice, Quot.sound]
'Istl.Arpack.C92_cond_negative' depends on axioms: [propext, Classical.choice, Quot.sound]
'Istl.Arpack.C92_singular' depends on axioms: [propext, Classical.choice, Quot.sound]
'Istl.Arpack.C92_singular_cond' depends on axioms: [propext, Classical.choice, Quot.sound]
'Istl.Arpack.C92_tall_refused' depends on axioms: [propext, Classical.choice, Quot.sound]
'Istl.Arpack.C92_rectangular_ub' depends on axioms: [propext, Classical.choice, Quot.sound]
'Istl.Arpack.C92_wide_never' depends on axioms: [propext, Classical.choice, Quot.sound]
'Istl.Arpack.C92_cond_indefinite' depends on axioms: [propext, Classical.choice, Quot.sound]
'Istl.HList.C93_contents' depends on axioms: [propext, Classical.choice, Quot.sound]
'Istl.HList.C93_total' depends on axioms: [propext, Classical.choice, Quot.sound]
'Istl.HList.C93_disjoint' depends on axioms: [propext, Classical.choice, Quot.sound]
'Istl.HList.C93_frame' depends on axioms: [propext, Classical.choice, Quot.sound]
'Istl.HList.C93_mk' depends on axioms: [propext, Classical.choice, Quot.sound]
'Istl.HList.C93_empty' depends on axioms: [propext, Classical.choice, Quot.sound]
'Istl.HList.C93_addCoarser' depends on axioms: [propext, Classical.choice, Quot.sound]
'Istl.HList.C93_addRedistributedOnCoarsest' depends on axioms: [propext, Classical.choice, Quot.sound]
'Istl.HList.C93_iterator_redistributed' depends on axioms: [propext, Classical.choice, Quot.sound]
'Istl.HList.C93_copy' depends on axioms: [propext, Classical.choice, Quot.sound]
'Istl.HList.C93_no_cycle' depends on axioms: [propext, Classical.choice, Quot.sound]
'Istl.HList.C93_iterator_owns' depends on axioms: [propext, Classical.choice, Quot.sound]
'Istl.HList.C93_orphan' depends on axioms: [propext, Classical.choice, Quot.sound]
'Istl.HList.C93_assign_counterexample' depends on axioms: [propext, Classical.choice, Quot.sound]
'Istl.HList.C93_throw_counterexample' depends on axioms: [propext, Classical.choice, Quot.sound]
'Istl.TextOut.C94_vector' depends on axioms: [propext, Classical.choice, Quot.sound]
'Istl.TextOut.C94_vector_no_columns' depends on axioms: [propext, Quot.sound]
'Istl.TextOut.C94_matlab_vector' depends on axioms: [propext, Quot.sound]
'Istl.TextOut.C94_matrix' depends on axioms: [propext, Classical.choice, Quot.sound]
'Istl.TextOut.C94_empty_rows_counterexample' depends on axioms: [propext, Classical.choice, Quot.sound]
'Istl.TextOut.C94_sparse' depends on axioms: [propext, Classical.choice, Quot.sound]
'Istl.TextOut.C94_sparse_never' depends on axioms: [propext, Classical.choice, Quot.sound]
'Istl.Svg.C95_picture' depends on axioms: [propext, Classical.choice, Quot.sound]
'Istl.Svg.C95_apart' depends on axioms: [propext, Classical.choice, Quot.sound]
'Istl.Svg.C95_header' depends on axioms: [propext, Classical.choice, Quot.sound]
'Istl.Svg.C95_auto_size_counterexample' depends on axioms: [propext, Classical.choice, Quot.sound]
'Istl.Svg.C95_clip_counterexample' depends on axioms: [propext]
'Istl.Svg.C95_empty_nested_counterexample' depends on axioms: [propext, Quot.sound]
'Istl.Solver.C96_when' depends on axioms: [propext, Classical.choice, Quot.sound]
'Istl.Solver.C96_not_converged' depends on axioms: [propext, Classical.choice, Quot.sound]
'Istl.Solver.C96_converged_safe' depends on axioms: [propext, Classical.choice, Quot.sound]
'Istl.Solver.C96_bound' depends on axioms: [propext, Classical.choice, Quot.sound]
'Istl.Solver.C96_exact' depends on axioms: [propext, Classical.choice, Quot.sound]
'Istl.C97_sweeps' depends on axioms: [propext, Classical.choice, Quot.sound]
'Istl.C97_apply' depends on axioms: [propext, Classical.choice, Quot.sound]
'Istl.C97_loop' depends on axioms: [propext, Classical.choice, Quot.sound]
'Istl.C97_relaxation_range' depends on axioms: [propext, Classical.choice, Quot.sound]
'Istl.BVec.C98_calls' depends on axioms: [propext, Classical.choice, Quot.sound]
'Istl.BVec.C98_consistent' depends on axioms: [propext, Classical.choice, Quot.sound]
'Istl.BVec.C98_memory' depends on axioms: [propext, Classical.choice, Quot.sound]
'Istl.BVec.C98_capacity' depends on axioms: [propext, Classical.choice, Quot.sound]
'Istl.BVec.C98_capacity_ctor' depends on axioms: [propext, Classical.choice, Quot.sound]
'Istl.BVec.C98_window_made' depends on axioms: [propext, Classical.choice, Quot.sound]
'Istl.BVec.C98_window_shows' depends on axioms: [propext, Classical.choice, Quot.sound]
'Istl.BVec.C98_window_put' depends on axioms: [propext, Classical.choice, Quot.sound]
'Istl.BVec.C98_window_fill' depends on axioms: [propext, Classical.choice, Quot.sound]
'Istl.BVec.C98_window_assign' depends on axioms: [propext, Classical.choice, Quot.sound]
'Istl.BVec.C98_window_vector' depends on axioms: [propext, Classical.choice, Quot.sound]
'Istl.BVec.C98_window_stays' depends on axioms: [propext, Classical.choice, Quot.sound]
'Istl.Iter.C99_pass' depends on axioms: [propext, Classical.choice, Quot.sound]
'Istl.Iter.C99_read' depends on axioms: [propext, Classical.choice, Quot.sound]
'Istl.Iter.C99_order' depends on axioms: [propext, Classical.choice, Quot.sound]
'Istl.Iter.C99_write' depends on axioms: [propext, Classical.choice, Quot.sound]
'Istl.Iter.C99_find' depends on axioms: [propext, Classical.choice, Quot.sound]
'Istl.Iter.C99_positions' depends on axioms: [propext, Classical.choice, Quot.sound]
'Istl.Iter.C99_fit_needed_counterexample' depends on axioms: [propext, Classical.choice, Quot.sound]
'Istl.BVec.C100_pass' depends on axioms: [propext, Classical.choice, Quot.sound]
'Istl.BVec.C100_read' depends on axioms: [propext, Classical.choice, Quot.sound]
'Istl.BVec.C100_write' depends on axioms: [propext, Classical.choice, Quot.sound]
'Istl.BVec.C100_find' depends on axioms: [propext, Classical.choice, Quot.sound]
'Istl.BVec.C100_positions' depends on axioms: [propext, Classical.choice, Quot.sound]
'Istl.MM.C101_file' depends on axioms: [propext, Classical.choice, Quot.sound]
'Istl.MM.C101_load_matrix' depends on axioms: [propext, Classical.choice, Quot.sound]
'Istl.MM.C101_load_vector' depends on axioms: [propext, Classical.choice, Quot.sound]
'Istl.MM.C101_load_mtx' depends on axioms: [propext, Classical.choice, Quot.sound]
'Istl.MM.C101_shadow_counterexample' depends on axioms: [propext, Classical.choice, Quot.sound]
'Istl.MM.C101_other_files' depends on axioms: [propext, Classical.choice, Quot.sound]
'Istl.MM.C101_store_throws' depends on axioms: [propext, Classical.choice, Quot.sound]
'Istl.MM.C101_missing_throws' depends on axioms: [propext, Classical.choice, Quot.sound]
'Istl.MM.C101_wrong_kind_throws' depends on axioms: [propext, Classical.choice, Quot.sound]
'Istl.MM.C101_default_precision_counterexample' depends on axioms: [propext, Classical.choice, Quot.sound]
'Istl.RowStmt.C102_map' depends on axioms: [propext, Classical.choice, Quot.sound]
'Istl.RowStmt.C102_combine' depends on axioms: [propext, Classical.choice, Quot.sound]
'Istl.RowStmt.C102_missing_throws' depends on axioms: [propext, Classical.choice, Quot.sound]
'Istl.RowStmt.C102_copy' depends on axioms: [propext, Classical.choice, Quot.sound]
'Istl.RowStmt.C102_shared_pattern_counterexample' depends on axioms: [propext, Classical.choice, Quot.sound]
'Istl.RowStmt.C103_program' depends on axioms: [propext, Classical.choice, Quot.sound]
'Istl.RowStmt.C103_throws' depends on axioms: [propext, Classical.choice, Quot.sound]
'Istl.RowStmt.C103_lookup' depends on axioms: [propext, Classical.choice, Quot.sound]
'Istl.RowStmt.C103_fold' depends on axioms: [propext, Classical.choice, Quot.sound]
'Istl.RowStmt.C103_dot' depends on axioms: [propext, Classical.choice, Quot.sound]
'Istl.RowStmt.C104_program' depends on axioms: [propext, Classical.choice, Quot.sound]
'Istl.RowStmt.C104_throw_changes_nothing' depends on axioms: [propext, Classical.choice, Quot.sound]
'Istl.RowStmt.C104_statement' depends on axioms: [propext, Classical.choice, Quot.sound]
'Istl.RowStmt.C104_unchecked_counterexample' depends on axioms: [propext, Classical.choice, Quot.sound]
'Istl.DenseIter.C105_loop' depends on axioms: [propext, Classical.choice, Quot.sound]
'Istl.DenseIter.C105_find' depends on axioms: [propext, Quot.sound]
'Istl.DenseIter.C105_no_columns' depends on axioms: [propext, Classical.choice, Quot.sound]
'Istl.VbV.C106_forward' depends on axioms: [propext, Classical.choice, Quot.sound]
'Istl.VbV.C106_backward' depends on axioms: [propext, Classical.choice, Quot.sound]
'Istl.VbV.C106_backward_index' depends on axioms: [propext, Quot.sound]
'Istl.VbV.C106_find' depends on axioms: [propext, Classical.choice, Quot.sound]
'Istl.C107_access' depends on axioms: [propext, Classical.choice, Quot.sound]
'Istl.C107_exists' depends on axioms: [propext, Quot.sound]
'Istl.C107_exists_counterexample' depends on axioms: [propext, Classical.choice, Quot.sound]
'Istl.C107_add_sub' depends on axioms: [propext, Classical.choice, Quot.sound]
'Istl.C107_product' depends on axioms: [propext, Classical.choice, Quot.sound]
'Istl.C107_gather' depends on axioms: [propext, Classical.choice, Quot.sound]
'Istl.C107_scatter' depends on axioms: [propext, Classical.choice, Quot.sound]
'Istl.C107_mulVec' depends on axioms: [propext, Classical.choice, Quot.sound]
