# Axioms used by each theorem

From `#print axioms`.

## none

`Lfa.C01_into_eq_to`, `Lfa.C07_variants_agree`, `Lfa.C07_map_dense`, `Lfa.C16_fold_dense`, `Lfa.C17_closure_iff`, `Lfa.C23_no_inputs`, `Lfa.C27_from_space_covered`, `Lfa.C27_short_seq`, `Lfa.C27_accepts_only`, `Lfa.C35_constructors`, `Lfa.C44_deterministic`, `Lfa.C59_shape`, `Lfa.C59_infinite_panics`, `Lfa.C76_construct`, `Lfa.C82_case_analysis`, `Lfa.C140_update_can`, `Lfa.C140_update`, `Lfa.C140_run`

## `propext`

`Lfa.C18_fixed_dense_wrong`, `Lfa.C19_fixed_dense_empty_panics`, `Lfa.C21_stack_errors`, `Lfa.C21_stack_ok_only_if`, `Lfa.C21_stack_dim`, `Lfa.C30_no_error`, `Lfa.C31_same_cells`, `Lfa.C33_empty_panics`, `Lfa.C38_non_ard_ignores_coordinates`, `Lfa.C39_no_lengthscale`, `Lfa.C44_new_sized`, `Lfa.C45_sgd`, `Lfa.C45_others`, `Lfa.C60_failed`, `Lfa.C63_out_of_range`, `Lfa.C64_stateless`, `Lfa.C66_first_failure`, `Lfa.C66_all_stepped`, `Lfa.C67_out_of_range_panics`, `Lfa.C81_dense_dense`, `Lfa.C106_no_lengthscale`, `Lfa.C121_never_sound`, `Lfa.C123_closure_undefined`, `Lfa.C134_layout`, `Lfa.C135_read_from`, `Lfa.C139_stack_panics`, `Lfa.C140_update_with_partial`, `Lfa.C146_same_call`, `Lfa.C146_dense_partial`, `Lfa.C146_products`, `Lfa.C146_moments_left`, `Lfa.C155_stack_ith`, `Lfa.C188_stream`, `Lfa.C209_update`

## `Quot.sound`, `propext`

`Lfa.C02_remove`, `Lfa.C02_fold`, `Lfa.C03_dense_panics_iff`, `Lfa.C03_sparse_panics_iff`, `Lfa.C04_matmul_panics_iff`, `Lfa.C05_dense_broadcasts`, `Lfa.C10_remove_noop`, `Lfa.C10_remove_idem`, `Lfa.C10_remove_comm`, `Lfa.C11_index_sparse`, `Lfa.C13_eq_panics_iff`, `Lfa.C14_from_sparse`, `Lfa.C17_dim`, `Lfa.C17_fixed_sparse_out_of_range`, `Lfa.C19_project_never_errs`, `Lfa.C19_ith_rejects_partial`, `Lfa.C19_fixed_dense_iff`, `Lfa.C20_ith_panics_iff`, `Lfa.C61_update_with`, `Lfa.C61_panics`, `Lfa.C63_one_column`, `Lfa.C64_independent_partial`, `Lfa.C65_lengths`, `Lfa.C66_firstFailure_spec`, `Lfa.C67_scalar`, `Lfa.C67_vector`, `Lfa.C75_dot_reads_active`, `Lfa.C75_local`, `Lfa.C76_evaluate`, `Lfa.C76_update`, `Lfa.C76_history`, `Lfa.C80_map_keeps_sparse`, `Lfa.C83_fourier`, `Lfa.C84_default_ith_sparse`, `Lfa.C85_compare_floats`, `Lfa.C121_place_iff`, `Lfa.C121_map_dense_lost_iff`, `Lfa.C123_ith_value`, `Lfa.C135_total_partial`, `Lfa.C135_incomplete`, `Lfa.C139_in_order_iff`, `Lfa.C139_inverted`, `Lfa.C139_sliced`, `Lfa.C139_to_vec_iff`, `Lfa.C139_update_with_buffer`, `Lfa.C139_update_with_inverted`, `Lfa.C139_update_with_sliced`, `Lfa.C139_update_with_partial`, `Lfa.C146_same_step`, `Lfa.C146_sparse_prefix`, `Lfa.C146_velocity_prefix`, `Lfa.C150_assemble`, `Lfa.C155_tile_debug`, `Lfa.C155_tile_agree`, `Lfa.C155_stack`, `Lfa.C155_stack_overflow`, `Lfa.C155_stack_overwrites`, `Lfa.C155_from`, `Lfa.C155_stack_basis`, `Lfa.C197_optimisers`

## `Classical.choice`, `Quot.sound`, `propext`

`Lfa.C01_dense_view`, `Lfa.C01_view_entries`, `Lfa.C01_panics_iff`, `Lfa.C02_order_irrelevant`, `Lfa.C02_map`, `Lfa.C02_stack`, `Lfa.C02_merge`, `Lfa.C02_dot_sum`, `Lfa.C03_dot_eq_inner`, `Lfa.C03_dot_sparse_any_length`, `Lfa.C04_matmul_columns`, `Lfa.C04_real_order`, `Lfa.C04_matmul_real`, `Lfa.C05_scaled_addto`, `Lfa.C05_addto`, `Lfa.C05_scaled_addto_real`, `Lfa.C05_addto_eq_scaled`, `Lfa.C05_addto_eq_scaled_f64`, `Lfa.C06_stack`, `Lfa.C06_stack_assoc`, `Lfa.C07_map_pointwise_partial`, `Lfa.C07_map_error_bound`, `Lfa.C07_map_not_pointwise`, `Lfa.C07_map_pointwise_iff`, `Lfa.C08_merge_pointwise_partial`, `Lfa.C08_merge_sparse_sparse`, `Lfa.C08_merge_dense_right`, `Lfa.C08_merge_dense_sparse_not_pointwise`, `Lfa.C08_merge_sparse_sparse_not_pointwise`, `Lfa.C08_dense_sparse_iff`, `Lfa.C08_sparse_sparse_iff`, `Lfa.C09_merge_agree`, `Lfa.C09_merge_panics_where_into_returns`, `Lfa.C10_remove`, `Lfa.C11_get`, `Lfa.C11_index_partial`, `Lfa.C11_index_sparse_wrong`, `Lfa.C11_index_iff`, `Lfa.C12_dot_partial`, `Lfa.C12_dot_sparse_counts`, `Lfa.C12_dot_symm`, `Lfa.C12_dot_sparse_sparse_wrong`, `Lfa.C12_sparse_sparse_iff`, `Lfa.C13_eq_hash_order`, `Lfa.C13_eq_refl`, `Lfa.C13_eq_symm`, `Lfa.C13_eq_trans`, `Lfa.C13_eq_iff_same`, `Lfa.C13_eq_view`, `Lfa.C13_nan_not_reflexive`, `Lfa.C14_sparse`, `Lfa.C14_unitary`, `Lfa.C14_from_indices`, `Lfa.C15_n_active_partial`, `Lfa.C15_n_active_bounds`, `Lfa.C15_n_active_unitary`, `Lfa.C15_n_active_counts_stored_zeros`, `Lfa.C15_n_active_iff`, `Lfa.C16_sum`, `Lfa.C16_fold`, `Lfa.C17_in_range_partial`, `Lfa.C17_fixed_sparse_iff`, `Lfa.C17_fixed_sparse_built`, `Lfa.C18_ith_agrees_partial`, `Lfa.C18_fixed_dense_iff`, `Lfa.C20_ith_agrees_partial`, `Lfa.C21_stack_concat`, `Lfa.C22_with_bias`, `Lfa.C22_with_bias_error`, `Lfa.C23_multi_indices_unique`, `Lfa.C23_enumeration`, `Lfa.C24_monomials`, `Lfa.C24_expressive`, `Lfa.C25_polynomial_partial`, `Lfa.C25_polynomial_nonempty`, `Lfa.C25_polynomial_panics`, `Lfa.C25_chebyshev`, `Lfa.C25_chebyshev_special`, `Lfa.C26_hard_coded`, `Lfa.C26_orders`, `Lfa.C26_features`, `Lfa.C26_bounded`, `Lfa.C27_round_trip_partial`, `Lfa.C27_with_zeroth_lost`, `Lfa.C27_duplicates`, `Lfa.C27_missing`, `Lfa.C27_order_panics`, `Lfa.C27_round_trip_iff`, `Lfa.C28_features`, `Lfa.C28_bounded`, `Lfa.C28_lower_corner`, `Lfa.C28_upper_corner`, `Lfa.C28_periodic`, `Lfa.C29_pointwise`, `Lfa.C29_affine`, `Lfa.C29_degenerate`, `Lfa.C29_degenerate_fourier`, `Lfa.C30_activity`, `Lfa.C30_panics`, `Lfa.C30_scalars`, `Lfa.C30_infinite_input_panics`, `Lfa.C31_same_intervals`, `Lfa.C32_hash_of_tiles`, `Lfa.C32_uniform_width_partial`, `Lfa.C32_tile_zero_width`, `Lfa.C32_tile_zero_is_wider`, `Lfa.C32_no_separation`, `Lfa.C33_one_active`, `Lfa.C33_equipartition_lawful`, `Lfa.C34_injective`, `Lfa.C34_surjective`, `Lfa.C35_kernel_grid`, `Lfa.C36_symmetric`, `Lfa.C36_symmetric_scalar`, `Lfa.C36_variance_at_zero`, `Lfa.C36_bounded_partial`, `Lfa.C36_matern52_bound`, `Lfa.C36_matern52_exceeds_variance`, `Lfa.C36_matern52_maximum`, `Lfa.C37_positive`, `Lfa.C37_decay_partial`, `Lfa.C37_matern52_increases`, `Lfa.C37_matern52_shape`, `Lfa.C38_all_coordinates_partial`, `Lfa.C38_depends_on_each`, `Lfa.C38_non_ard_iff`, `Lfa.C39_scalar_eq_slice`, `Lfa.C39_negative_lengthscale_differs`, `Lfa.C40_l1`, `Lfa.C40_l2`, `Lfa.C40_linf`, `Lfa.C40_kept`, `Lfa.C41_null`, `Lfa.C41_scale_l1`, `Lfa.C41_scale_l2`, `Lfa.C41_scale_linf`, `Lfa.C41_idempotent`, `Lfa.C41_idempotent_linf`, `Lfa.C42_dense_null`, `Lfa.C42_sparse_null`, `Lfa.C43_active_count`, `Lfa.C43_unitary_sum`, `Lfa.C44_history`, `Lfa.C45_f64`, `Lfa.C45_law`, `Lfa.C46_weighted_sum`, `Lfa.C46_permutation`, `Lfa.C47_residual`, `Lfa.C47_converges_iff`, `Lfa.C48_implicit`, `Lfa.C48_contracts`, `Lfa.C49_adamax_iff`, `Lfa.C49_sparse_eq_dense`, `Lfa.C49_adam_partial`, `Lfa.C49_adam_inactive_differ`, `Lfa.C49_adam_iff`, `Lfa.C50_reset_eq_new`, `Lfa.C50_adam_partial`, `Lfa.C50_adam_not_reset`, `Lfa.C50_adam_iff`, `Lfa.C51_velocity`, `Lfa.C51_bounded`, `Lfa.C51_bound_tight`, `Lfa.C52_step_partial`, `Lfa.C52_zero_scale_moves`, `Lfa.C52_claim_false`, `Lfa.C52_iff`, `Lfa.C53_accumulator`, `Lfa.C53_nonneg`, `Lfa.C53_bounded_step`, `Lfa.C54_moments`, `Lfa.C54_correction_partial`, `Lfa.C54_factor_lt_one`, `Lfa.C54_factor_tends_to_one`, `Lfa.C54_first_step_differs`, `Lfa.C54_iff`, `Lfa.C55_safe`, `Lfa.C55_bounded`, `Lfa.C56_infinity_norm`, `Lfa.C56_safe_bounded`, `Lfa.C57_zero_scale_partial`, `Lfa.C57_nag_moves`, `Lfa.C57_nag_iff`, `Lfa.C58_inactive`, `Lfa.C58_adagrad`, `Lfa.C58_momentum_moves`, `Lfa.C59_fresh`, `Lfa.C59_fresh_f64`, `Lfa.C59_fresh_f64_example`, `Lfa.C62_consistent`, `Lfa.C62_index_panics_iff`, `Lfa.C64_momentum_shared`, `Lfa.C64_momentum_iff`, `Lfa.C64_nag_iff`, `Lfa.C64_adagrad_iff`, `Lfa.C64_adamax_iff`, `Lfa.C67_built`, `Lfa.C67_optimisers`, `Lfa.C68_sgd_prediction`, `Lfa.C68_self`, `Lfa.C69_session_exists`, `Lfa.C69_sgd_robust`, `Lfa.C70_session_exists`, `Lfa.C70_isgd_robust`, `Lfa.C71_sgd_distance`, `Lfa.C71_sgd_monotone`, `Lfa.C71_sgd_converges`, `Lfa.C71_isgd_distance`, `Lfa.C71_isgd_converges`, `Lfa.C72_kernel_expansion`, `Lfa.C73_l1_bounded`, `Lfa.C73_l1_convex`, `Lfa.C73_l2_bounded`, `Lfa.C74_same_cell`, `Lfa.C74_other_cell`, `Lfa.C74_table`, `Lfa.C75_optimisers`, `Lfa.C77_sequential`, `Lfa.C78_zero_momentum`, `Lfa.C79_nag_history`, `Lfa.C80_map_densifies`, `Lfa.C81_dense_sparse`, `Lfa.C81_sparse_dense`, `Lfa.C81_sparse_sparse`, `Lfa.C83_chebyshev`, `Lfa.C84_default_ith`, `Lfa.C85_index_error`, `Lfa.C85_nan`, `Lfa.C86_stationary_partial`, `Lfa.C86_rational`, `Lfa.C86_cosine_line`, `Lfa.C86_cosine_plane`, `Lfa.C86_matern52_not_positive`, `Lfa.C86_matern52_textbook`, `Lfa.C86_scalar`, `Lfa.C86_stationary_iff`, `Lfa.C86_rational_iff`, `Lfa.C87_l1`, `Lfa.C87_linf`, `Lfa.C87_l2_partial`, `Lfa.C87_l2_binary64`, `Lfa.C87_l2_underflow`, `Lfa.C87_l2_binary64_fails`, `Lfa.C87_l2_tight`, `Lfa.C88_rescale`, `Lfa.C88_polynomial`, `Lfa.C88_fourier`, `Lfa.C88_binary64`, `Lfa.C89_symmetric`, `Lfa.C89_peak`, `Lfa.C89_exponential_bound`, `Lfa.C89_expQuad_bound`, `Lfa.C89_rational_bound`, `Lfa.C89_exponential_decay`, `Lfa.C90_step`, `Lfa.C90_adagrad`, `Lfa.C91_sgd`, `Lfa.C91_isgd_rate`, `Lfa.C91_isgd`, `Lfa.C91_momentum`, `Lfa.C91_nag`, `Lfa.C91_adam`, `Lfa.C91_adamax`, `Lfa.C92_sgd`, `Lfa.C92_isgd`, `Lfa.C92_target`, `Lfa.C92_isgd_target`, `Lfa.C93_evaluate`, `Lfa.C93_evaluate_vector`, `Lfa.C93_column_order`, `Lfa.C93_hash_order`, `Lfa.C94_sgd`, `Lfa.C95_l1`, `Lfa.C96_polynomial`, `Lfa.C97_sgd_identity`, `Lfa.C97_sgd_regret`, `Lfa.C97_sgd_best`, `Lfa.C98_adagrad_coordinate`, `Lfa.C98_adagrad_regret`, `Lfa.C99_polynomial`, `Lfa.C99_polynomial_zeroth`, `Lfa.C99_chebyshev`, `Lfa.C99_too_few`, `Lfa.C100_fourier`, `Lfa.C100_uniform_grid`, `Lfa.C101_stationary`, `Lfa.C101_rational`, `Lfa.C101_missing_lengthscale`, `Lfa.C102_interpolation`, `Lfa.C102_kernel_grids`, `Lfa.C103_stream_exists`, `Lfa.C103_sgd_cycle`, `Lfa.C104_isgd_cycle`, `Lfa.C105_cell`, `Lfa.C105_grid`, `Lfa.C105_overshoot`, `Lfa.C106_non_ard`, `Lfa.C106_default`, `Lfa.C106_slice_scalar`, `Lfa.C106_negative_lengthscale`, `Lfa.C106_invariant`, `Lfa.C106_features`, `Lfa.C107_permanent`, `Lfa.C108_prediction`, `Lfa.C108_contagion`, `Lfa.C108_dense`, `Lfa.C109_exact`, `Lfa.C110_exact`, `Lfa.C110_order`, `Lfa.C110_saturates`, `Lfa.C111_features`, `Lfa.C111_discovered`, `Lfa.C111_exact`, `Lfa.C111_candidate_from_vec`, `Lfa.C112_once_partial`, `Lfa.C112_duplicates`, `Lfa.C112_count`, `Lfa.C112_iff`, `Lfa.C113_credit_partial`, `Lfa.C113_dense`, `Lfa.C113_inactive_counterexample`, `Lfa.C113_iff`, `Lfa.C114_project_partial`, `Lfa.C114_inactive`, `Lfa.C114_both_active_counterexample`, `Lfa.C114_inactive_counterexample`, `Lfa.C114_iff`, `Lfa.C115_momentum_iff`, `Lfa.C115_momentum_weights`, `Lfa.C115_momentum_exact`, `Lfa.C115_exists`, `Lfa.C116_nag_limit`, `Lfa.C116_nag_never`, `Lfa.C116_exists`, `Lfa.C117_adagrad_converges`, `Lfa.C117_exists`, `Lfa.C118_expQuad_universal`, `Lfa.C118_non_ard`, `Lfa.C118_cosine_periodic`, `Lfa.C119_grid_oscillation`, `Lfa.C119_grid_universal`, `Lfa.C120_sgd`, `Lfa.C120_isgd`, `Lfa.C120_kernel_sgd`, `Lfa.C120_kernel_isgd`, `Lfa.C120_exists`, `Lfa.C121_returned_partial`, `Lfa.C121_map_sparse_lost_iff`, `Lfa.C121_merge_lost_iff`, `Lfa.C122_merge_defined`, `Lfa.C122_merge_value`, `Lfa.C122_detected`, `Lfa.C123_undefined_iff`, `Lfa.C123_built_partial`, `Lfa.C124_prediction`, `Lfa.C124_sgd`, `Lfa.C124_momentum`, `Lfa.C124_nag`, `Lfa.C124_adagrad`, `Lfa.C124_isgd`, `Lfa.C125_with_zeroth`, `Lfa.C125_plain_iff`, `Lfa.C126_with_bias`, `Lfa.C126_plain_iff`, `Lfa.C127_polynomial`, `Lfa.C127_polynomial_zeroth`, `Lfa.C127_chebyshev`, `Lfa.C127_fourier`, `Lfa.C127_chebyshev_not_universal`, `Lfa.C127_sharp`, `Lfa.C127_sharp_chebyshev`, `Lfa.C127_sharp_fourier`, `Lfa.C128_sgd`, `Lfa.C128_isgd`, `Lfa.C128_momentum`, `Lfa.C128_nag`, `Lfa.C129_sgd`, `Lfa.C129_isgd`, `Lfa.C130_sgd`, `Lfa.C130_isgd`, `Lfa.C131_step`, `Lfa.C131_example`, `Lfa.C132_sgd`, `Lfa.C132_isgd`, `Lfa.C132_sampling_exists`, `Lfa.C133_sgd`, `Lfa.C133_isgd`, `Lfa.C134_features`, `Lfa.C134_error`, `Lfa.C134_optimiser`, `Lfa.C134_basis`, `Lfa.C134_scalar`, `Lfa.C134_vector`, `Lfa.C134_zeroth_lost`, `Lfa.C135_chebyshev_panics_iff`, `Lfa.C135_unvalidated`, `Lfa.C136_text`, `Lfa.C136_display`, `Lfa.C136_ith`, `Lfa.C137_coarse`, `Lfa.C137_predictions`, `Lfa.C137_polynomial_partial`, `Lfa.C137_fourier_partial`, `Lfa.C137_chebyshev_partial`, `Lfa.C137_kernel_partial`, `Lfa.C138_shared`, `Lfa.C138_training`, `Lfa.C138_neighbours`, `Lfa.C138_next_cell`, `Lfa.C138_collision_free_exists`, `Lfa.C139_stack_iff`, `Lfa.C139_stack_partial`, `Lfa.C139_plain_std`, `Lfa.C139_update_with_list`, `Lfa.C139_to_vec_counterexample`, `Lfa.C139_stack_counterexample`, `Lfa.C139_stack_sliced_counterexample`, `Lfa.C139_update_with_counterexample`, `Lfa.C140_order_free`, `Lfa.C140_built_maps`, `Lfa.C140_real`, `Lfa.C140_two_active`, `Lfa.C140_three_active_counterexample`, `Lfa.C140_isgd_counterexample`, `Lfa.C140_update_with_counterexample`, `Lfa.C141_sgd`, `Lfa.C141_isgd`, `Lfa.C141_diverges`, `Lfa.C141_run_exists`, `Lfa.C142_sgd`, `Lfa.C142_isgd`, `Lfa.C143_sgd`, `Lfa.C143_sampling_exists`, `Lfa.C144_quality`, `Lfa.C144_values`, `Lfa.C145_sgd`, `Lfa.C146_weights_kept`, `Lfa.C146_velocity`, `Lfa.C146_vector_dense_partial`, `Lfa.C146_sparse_counterexample`, `Lfa.C146_adam_counterexample`, `Lfa.C146_adagrad_left`, `Lfa.C146_columns_left`, `Lfa.C147_superposition`, `Lfa.C147_nag_mean`, `Lfa.C147_units`, `Lfa.C147_forgetting`, `Lfa.C147_exists`, `Lfa.C147_counterexamples`, `Lfa.C148_inner_products`, `Lfa.C148_counterexamples`, `Lfa.C149_renumbering`, `Lfa.C149_stack_order`, `Lfa.C150_outputs`, `Lfa.C150_converges`, `Lfa.C150_exists`, `Lfa.C150_seven_features`, `Lfa.C150_order_matters`, `Lfa.C151_hovers`, `Lfa.C151_exists`, `Lfa.C151_bias`, `Lfa.C152_exists`, `Lfa.C152_converges`, `Lfa.C152_two_iff`, `Lfa.C152_tight`, `Lfa.C152_example`, `Lfa.C153_converges`, `Lfa.C153_exists`, `Lfa.C153_first_call`, `Lfa.C154_converges`, `Lfa.C154_exists`, `Lfa.C154_idle_iff`, `Lfa.C154_example`, `Lfa.C154_example_converges`, `Lfa.C155_tile_release`, `Lfa.C155_from_max`, `Lfa.C155_grid`, `Lfa.C155_grid_overflow`, `Lfa.C155_infinite_input`, `Lfa.C156_momentum`, `Lfa.C156_compare`, `Lfa.C156_example`, `Lfa.C157_sgd`, `Lfa.C157_prediction`, `Lfa.C157_repeated`, `Lfa.C157_uniform`, `Lfa.C157_example`, `Lfa.C158_error`, `Lfa.C158_error_isgd`, `Lfa.C158_sgd_iff`, `Lfa.C158_isgd_iff`, `Lfa.C158_sgd_exists`, `Lfa.C158_isgd_exists`, `Lfa.C159_mean`, `Lfa.C159_mean_isgd`, `Lfa.C159_almost_surely`, `Lfa.C159_almost_surely_isgd`, `Lfa.C159_table`, `Lfa.C160_step`, `Lfa.C160_iff`, `Lfa.C160_isgd_iff`, `Lfa.C161_rate`, `Lfa.C161_isgd`, `Lfa.C161_uniform`, `Lfa.C161_repeated`, `Lfa.C161_example`, `Lfa.C162_l2`, `Lfa.C163_sgd`, `Lfa.C163_sgd_small`, `Lfa.C163_isgd`, `Lfa.C164_sgd`, `Lfa.C164_isgd`, `Lfa.C164_least`, `Lfa.C165_dot`, `Lfa.C165_matmul`, `Lfa.C165_scaled_addto`, `Lfa.C165_to_dense`, `Lfa.C165_n_active`, `Lfa.C165_sum`, `Lfa.C165_bias`, `Lfa.C165_fixed`, `Lfa.C165_polynomial`, `Lfa.C165_fourier`, `Lfa.C165_chebyshev`, `Lfa.C165_chebyshev_new`, `Lfa.C165_tile_coding`, `Lfa.C165_uniform_grid`, `Lfa.C165_kernel`, `Lfa.C165_rational_quadratic`, `Lfa.C165_number_kernel`, `Lfa.C165_stack`, `Lfa.C165_normalised`, `Lfa.C165_optimisers`, `Lfa.C165_evaluate`, `Lfa.C165_update`, `Lfa.C165_update_with`, `Lfa.C165_updates`, `Lfa.C165_evaluate_vector`, `Lfa.C165_update_vector`, `Lfa.C165_updates_vector`, `Lfa.C165_unsigned_evaluate`, `Lfa.C165_crossed_limits`, `Lfa.C165_scalar_kernel`, `Lfa.C165_signs`, `Lfa.C166_optimisers`, `Lfa.C166_bases`, `Lfa.C166_composites`, `Lfa.C166_equal_iff`, `Lfa.C166_training`, `Lfa.C166_projections`, `Lfa.C166_fourier`, `Lfa.C166_kernels`, `Lfa.C166_tile_coding`, `Lfa.C166_composite_projections`, `Lfa.C166_chebyshev`, `Lfa.C166_chebyshev_differs`, `Lfa.C166_tile_coding_laws`, `Lfa.C166_chebyshev_laws`, `Lfa.C167_polynomials`, `Lfa.C167_rescale`, `Lfa.C167_chebyshev`, `Lfa.C167_fourier`, `Lfa.C168_sgd`, `Lfa.C168_prediction`, `Lfa.C168_polynomial`, `Lfa.C168_fourier`, `Lfa.C168_chebyshev`, `Lfa.C168_example`, `Lfa.C169_distance`, `Lfa.C169_exponential`, `Lfa.C169_expQuad`, `Lfa.C169_rational`, `Lfa.C169_cosine`, `Lfa.C169_matern32`, `Lfa.C169_matern52`, `Lfa.C169_scalar_distance`, `Lfa.C169_scalar`, `Lfa.C169_matern_far`, `Lfa.C170_stationary`, `Lfa.C170_cosine`, `Lfa.C170_rational`, `Lfa.C171_adagrad`, `Lfa.C171_exact_run`, `Lfa.C171_finite`, `Lfa.C172_momentum`, `Lfa.C172_nag`, `Lfa.C172_momentum_exact_run`, `Lfa.C172_nag_exact_run`, `Lfa.C172_momentum_finite`, `Lfa.C172_nag_finite`, `Lfa.C173_adam`, `Lfa.C173_adamax`, `Lfa.C173_adam_exact_run`, `Lfa.C173_adamax_exact_run`, `Lfa.C173_adam_finite`, `Lfa.C173_adamax_finite`, `Lfa.C174_l0`, `Lfa.C174_l1`, `Lfa.C174_linf`, `Lfa.C175_sgd`, `Lfa.C175_prediction`, `Lfa.C175_isgd`, `Lfa.C175_example`, `Lfa.C176_momentum`, `Lfa.C176_nag`, `Lfa.C176_example`, `Lfa.C176_example_nag`, `Lfa.C177_sgd`, `Lfa.C177_isgd`, `Lfa.C177_example`, `Lfa.C178_sgd`, `Lfa.C178_isgd`, `Lfa.C178_random`, `Lfa.C178_example`, `Lfa.C179_fourier`, `Lfa.C179_polynomial`, `Lfa.C179_chebyshev`, `Lfa.C179_tiles`, `Lfa.C179_training`, `Lfa.C179_fourier_ruined`, `Lfa.C179_example`, `Lfa.C180_factor`, `Lfa.C180_sgd`, `Lfa.C180_isgd`, `Lfa.C180_example`, `Lfa.C181_excited`, `Lfa.C181_excited_example`, `Lfa.C181_examples`, `Lfa.C181_sgd`, `Lfa.C181_isgd`, `Lfa.C181_example`, `Lfa.C182_nan`, `Lfa.C182_infinite`, `Lfa.C182_ruined`, `Lfa.C182_unheard`, `Lfa.C182_grids`, `Lfa.C182_example`, `Lfa.C182_exact`, `Lfa.C183_nan`, `Lfa.C183_linf`, `Lfa.C183_infinite`, `Lfa.C183_example`, `Lfa.C184_sgd`, `Lfa.C184_isgd`, `Lfa.C184_sgd_shadow`, `Lfa.C184_isgd_shadow`, `Lfa.C184_sgd_fit`, `Lfa.C184_isgd_fit`, `Lfa.C184_example`, `Lfa.C185_sgd`, `Lfa.C185_isgd`, `Lfa.C185_sgd_outputs`, `Lfa.C185_isgd_outputs`, `Lfa.C185_polynomial`, `Lfa.C185_fourier`, `Lfa.C185_chebyshev`, `Lfa.C185_stationary`, `Lfa.C185_example`, `Lfa.C185_polynomial_example`, `Lfa.C186_sgd`, `Lfa.C186_isgd`, `Lfa.C186_greedy`, `Lfa.C186_total`, `Lfa.C186_grid`, `Lfa.C186_example`, `Lfa.C187_sgd`, `Lfa.C187_isgd`, `Lfa.C187_sgd_total`, `Lfa.C187_isgd_total`, `Lfa.C187_example`, `Lfa.C188_sgd`, `Lfa.C188_isgd`, `Lfa.C188_sgd_runs`, `Lfa.C188_isgd_runs`, `Lfa.C188_example`, `Lfa.C189_order_matters`, `Lfa.C189_eq_iff`, `Lfa.C189_equivalence`, `Lfa.C189_projects`, `Lfa.C189_update`, `Lfa.C189_example`, `Lfa.C190_momentum`, `Lfa.C190_nag`, `Lfa.C190_excited`, `Lfa.C190_example`, `Lfa.C191_momentum`, `Lfa.C191_nag`, `Lfa.C191_momentum_runs`, `Lfa.C191_nag_runs`, `Lfa.C191_example`, `Lfa.C192_sgd`, `Lfa.C192_isgd`, `Lfa.C192_momentum`, `Lfa.C192_nag`, `Lfa.C192_sgd_forgets`, `Lfa.C192_isgd_forgets`, `Lfa.C192_momentum_forgets`, `Lfa.C192_nag_forgets`, `Lfa.C192_example`, `Lfa.C193_sgd`, `Lfa.C193_isgd`, `Lfa.C193_tile_coding`, `Lfa.C193_uniform_grid`, `Lfa.C193_polynomial`, `Lfa.C193_fourier`, `Lfa.C193_kernels`, `Lfa.C193_exponential`, `Lfa.C193_expQuad`, `Lfa.C193_rational`, `Lfa.C193_constants`, `Lfa.C193_bias`, `Lfa.C193_l1`, `Lfa.C193_linf`, `Lfa.C193_l2`, `Lfa.C193_stack`, `Lfa.C193_runs`, `Lfa.C193_example`, `Lfa.C193_chebyshev`, `Lfa.C193_cosine`, `Lfa.C193_matern`, `Lfa.C193_matern_example`, `Lfa.C194_growth`, `Lfa.C194_lost`, `Lfa.C194_scratch`, `Lfa.C194_tile_coding`, `Lfa.C194_example`, `Lfa.C195_adam`, `Lfa.C195_adamax`, `Lfa.C195_sgd`, `Lfa.C195_runs`, `Lfa.C195_example`, `Lfa.C196_isgd`, `Lfa.C196_momentum`, `Lfa.C196_nag`, `Lfa.C196_adagrad`, `Lfa.C196_example`, `Lfa.C196_nag_example`, `Lfa.C197_scalar`, `Lfa.C197_vector`, `Lfa.C197_limit`, `Lfa.C197_runs`, `Lfa.C197_example`, `Lfa.C198_bounded`, `Lfa.C198_realisable`, `Lfa.C198_table_bounded`, `Lfa.C198_table`, `Lfa.C198_runs`, `Lfa.C198_grid`, `Lfa.C198_example`, `Lfa.C199_fourier`, `Lfa.C199_chebyshev`, `Lfa.C199_polynomial`, `Lfa.C199_kernels`, `Lfa.C199_rational`, `Lfa.C199_fourier_sharp`, `Lfa.C199_chebyshev_sharp`, `Lfa.C199_kernel_sharp`, `Lfa.C199_example`, `Lfa.C200_adam`, `Lfa.C200_adamax`, `Lfa.C200_example`, `Lfa.C201_sgd`, `Lfa.C201_isgd`, `Lfa.C201_separable`, `Lfa.C201_f64`, `Lfa.C201_table`, `Lfa.C201_runs`, `Lfa.C201_example`, `Lfa.C202_adagrad`, `Lfa.C202_adamax`, `Lfa.C202_adam`, `Lfa.C202_targets`, `Lfa.C202_usual`, `Lfa.C202_runs`, `Lfa.C202_example`, `Lfa.C203_sgd`, `Lfa.C203_isgd`, `Lfa.C203_separable`, `Lfa.C203_table`, `Lfa.C203_table_isgd`, `Lfa.C203_runs`, `Lfa.C203_example`, `Lfa.C203_f64`, `Lfa.C203_f64_example`, `Lfa.C204_adagrad`, `Lfa.C204_adamax`, `Lfa.C204_adam`, `Lfa.C204_q_learning`, `Lfa.C204_runs`, `Lfa.C204_example`, `Lfa.C205_adam`, `Lfa.C205_adam_mixed`, `Lfa.C205_adamax`, `Lfa.C205_adamax_mixed`, `Lfa.C205_with_bias`, `Lfa.C205_example`, `Lfa.C206_sgd`, `Lfa.C206_momentum`, `Lfa.C206_nag`, `Lfa.C206_adagrad`, `Lfa.C206_adam`, `Lfa.C206_adamax`, `Lfa.C206_with_bias`, `Lfa.C206_example`, `Lfa.C207_growth`, `Lfa.C207_lost`, `Lfa.C207_isgd`, `Lfa.C207_scratch`, `Lfa.C207_isgd_scratch`, `Lfa.C207_runs`, `Lfa.C207_isgd_runs`, `Lfa.C207_every_rate`, `Lfa.C207_example`, `Lfa.C207_isgd_every_rate`, `Lfa.C208_runs`, `Lfa.C208_sgd`, `Lfa.C208_isgd`, `Lfa.C208_example`, `Lfa.C209_evaluate`, `Lfa.C209_sgd`, `Lfa.C209_isgd`, `Lfa.C209_sgd_runs`, `Lfa.C209_isgd_runs`, `Lfa.C209_sgd_family`, `Lfa.C209_isgd_family`, `Lfa.C209_example`, `Lfa.C210_sgd`, `Lfa.C210_isgd`, `Lfa.C210_runs`, `Lfa.C210_example`, `Lfa.C211_sgd`, `Lfa.C211_isgd`, `Lfa.C211_sgd_forgets`, `Lfa.C211_isgd_forgets`, `Lfa.C211_example`
