{
 "claims": [
  {
   "property": "C01",
   "status": "proved",
   "theorems": [
    "Lfa.C01_dense_view",
    "Lfa.C01_into_eq_to",
    "Lfa.C01_view_entries",
    "Lfa.C01_panics_iff"
   ],
   "note": ""
  },
  {
   "property": "C02",
   "status": "proved",
   "theorems": [
    "Lfa.C02_order_irrelevant",
    "Lfa.C02_remove",
    "Lfa.C02_map",
    "Lfa.C02_stack",
    "Lfa.C02_merge",
    "Lfa.C02_fold",
    "Lfa.C02_dot_sum"
   ],
   "note": ""
  },
  {
   "property": "C03",
   "status": "proved",
   "theorems": [
    "Lfa.C03_dot_eq_inner",
    "Lfa.C03_dot_sparse_any_length",
    "Lfa.C03_dense_panics_iff",
    "Lfa.C03_sparse_panics_iff"
   ],
   "note": ""
  },
  {
   "property": "C04",
   "status": "proved",
   "theorems": [
    "Lfa.C04_matmul_columns",
    "Lfa.C04_real_order",
    "Lfa.C04_matmul_panics_iff",
    "Lfa.C04_matmul_real"
   ],
   "note": ""
  },
  {
   "property": "C05",
   "status": "proved",
   "theorems": [
    "Lfa.C05_scaled_addto",
    "Lfa.C05_addto",
    "Lfa.C05_scaled_addto_real",
    "Lfa.C05_addto_eq_scaled",
    "Lfa.C05_dense_broadcasts",
    "Lfa.C05_addto_eq_scaled_f64"
   ],
   "note": ""
  },
  {
   "property": "C06",
   "status": "proved",
   "theorems": [
    "Lfa.C06_stack",
    "Lfa.C06_stack_assoc"
   ],
   "note": ""
  },
  {
   "property": "C07",
   "status": "partial",
   "theorems": [
    "Lfa.C07_variants_agree",
    "Lfa.C07_map_dense",
    "Lfa.C07_map_pointwise_partial",
    "Lfa.C07_map_error_bound",
    "Lfa.C07_map_not_pointwise",
    "Lfa.C07_map_pointwise_iff"
   ],
   "note": "Full claim false for the code. Proved: pointwise for dense features, for sparse features when f(0) is exactly 0 or |f(0)| >= 1e-5, and a 1e-5 error bound otherwise. Missing and refuted by C07_map_not_pointwise: sparse features with 0 < |f(0)| < 1e-5. C07_map_pointwise_iff: exactly when the code satisfies the claim."
  },
  {
   "property": "C08",
   "status": "partial",
   "theorems": [
    "Lfa.C08_merge_pointwise_partial",
    "Lfa.C08_merge_sparse_sparse",
    "Lfa.C08_merge_dense_right",
    "Lfa.C08_merge_dense_sparse_not_pointwise",
    "Lfa.C08_merge_sparse_sparse_not_pointwise",
    "Lfa.C08_dense_sparse_iff",
    "Lfa.C08_sparse_sparse_iff"
   ],
   "note": "Full claim false. Proved pointwise for all four representation pairs when f(x,0)=x (C08_merge_pointwise_partial), sparse-sparse when f(0,0)=0 (C08_merge_sparse_sparse), and always with a dense right operand (C08_merge_dense_right). Refuted otherwise by C08_merge_dense_sparse_not_pointwise and C08_merge_sparse_sparse_not_pointwise. C08_dense_sparse_iff and C08_sparse_sparse_iff: exactly when the code satisfies the claim."
  },
  {
   "property": "C09",
   "status": "proved",
   "theorems": [
    "Lfa.C09_merge_agree",
    "Lfa.C09_merge_panics_where_into_returns"
   ],
   "note": ""
  },
  {
   "property": "C10",
   "status": "proved",
   "theorems": [
    "Lfa.C10_remove",
    "Lfa.C10_remove_noop",
    "Lfa.C10_remove_idem",
    "Lfa.C10_remove_comm"
   ],
   "note": ""
  },
  {
   "property": "C11",
   "status": "partial",
   "theorems": [
    "Lfa.C11_get",
    "Lfa.C11_index_partial",
    "Lfa.C11_index_sparse",
    "Lfa.C11_index_sparse_wrong",
    "Lfa.C11_index_iff"
   ],
   "note": "get and uget proved in full (C11_get). Indexing proved for dense features; C11_index_sparse gives what sparse indexing does (1.0 for any stored key). Agreement refuted by C11_index_sparse_wrong. C11_index_iff: exactly when the code satisfies the claim."
  },
  {
   "property": "C12",
   "status": "partial",
   "theorems": [
    "Lfa.C12_dot_partial",
    "Lfa.C12_dot_sparse_counts",
    "Lfa.C12_dot_symm",
    "Lfa.C12_dot_sparse_sparse_wrong",
    "Lfa.C12_sparse_sparse_iff"
   ],
   "note": "Proved for the three pairs with a dense side and symmetric always. Sparse-sparse counts shared indices (C12_dot_sparse_counts); the inner-product claim is refuted by C12_dot_sparse_sparse_wrong. C12_sparse_sparse_iff: exactly when it holds."
  },
  {
   "property": "C13",
   "status": "proved",
   "theorems": [
    "Lfa.C13_eq_panics_iff",
    "Lfa.C13_eq_hash_order",
    "Lfa.C13_eq_refl",
    "Lfa.C13_eq_symm",
    "Lfa.C13_eq_trans",
    "Lfa.C13_eq_iff_same",
    "Lfa.C13_eq_view",
    "Lfa.C13_nan_not_reflexive"
   ],
   "note": ""
  },
  {
   "property": "C14",
   "status": "proved",
   "theorems": [
    "Lfa.C14_sparse",
    "Lfa.C14_unitary",
    "Lfa.C14_from_indices",
    "Lfa.C14_from_sparse"
   ],
   "note": ""
  },
  {
   "property": "C15",
   "status": "partial",
   "theorems": [
    "Lfa.C15_n_active_partial",
    "Lfa.C15_n_active_bounds",
    "Lfa.C15_n_active_unitary",
    "Lfa.C15_n_active_counts_stored_zeros",
    "Lfa.C15_n_active_iff"
   ],
   "note": "Proved for dense features, for unitary features and for sparse features with no tiny stored activation; C15_n_active_bounds in general. Refuted by C15_n_active_counts_stored_zeros. C15_n_active_iff: exactly when the code satisfies the claim."
  },
  {
   "property": "C16",
   "status": "proved",
   "theorems": [
    "Lfa.C16_sum",
    "Lfa.C16_fold",
    "Lfa.C16_fold_dense"
   ],
   "note": ""
  },
  {
   "property": "C17",
   "status": "partial",
   "theorems": [
    "Lfa.C17_closure_iff",
    "Lfa.C17_dim",
    "Lfa.C17_in_range_partial",
    "Lfa.C17_fixed_sparse_out_of_range",
    "Lfa.C17_fixed_sparse_iff",
    "Lfa.C17_fixed_sparse_built"
   ],
   "note": "Dimension proved for every nesting (C17_dim). In-range indices proved for nestings whose Fixed::sparse leaves are in range; Fixed::sparse with stored index >= dim refutes the rest (C17_fixed_sparse_out_of_range). C17_fixed_sparse_iff: exactly when the code satisfies the claim."
  },
  {
   "property": "C18",
   "status": "partial",
   "theorems": [
    "Lfa.C18_ith_agrees_partial",
    "Lfa.C18_fixed_dense_wrong",
    "Lfa.C18_fixed_dense_iff"
   ],
   "note": "Proved for every stack of the listed bases except dense Fixed with two or more constants (ith checks the index against 1; refuted by C18_fixed_dense_wrong) and sparse Fixed with an out-of-range index. C18_fixed_dense_iff: exactly when the code satisfies the claim."
  },
  {
   "property": "C19",
   "status": "partial",
   "theorems": [
    "Lfa.C19_project_never_errs",
    "Lfa.C19_ith_rejects_partial",
    "Lfa.C19_fixed_dense_empty_panics",
    "Lfa.C19_fixed_dense_iff"
   ],
   "note": "Proved for every built basis except dense Fixed with other than one constant; C19_fixed_dense_empty_panics and C18_fixed_dense_wrong show the failures. C19_fixed_dense_iff: exactly when the code satisfies the claim."
  },
  {
   "property": "C20",
   "status": "partial",
   "theorems": [
    "Lfa.C20_ith_agrees_partial",
    "Lfa.C20_ith_panics_iff"
   ],
   "note": "Proved at every stored index (all indices when the inner projection is dense). C20_ith_panics_iff: ith panics at exactly the other indices, which refutes the full claim."
  },
  {
   "property": "C21",
   "status": "proved",
   "theorems": [
    "Lfa.C21_stack_concat",
    "Lfa.C21_stack_errors",
    "Lfa.C21_stack_ok_only_if",
    "Lfa.C21_stack_dim"
   ],
   "note": ""
  },
  {
   "property": "C22",
   "status": "proved",
   "theorems": [
    "Lfa.C22_with_bias",
    "Lfa.C22_with_bias_error"
   ],
   "note": ""
  },
  {
   "property": "C23",
   "status": "proved",
   "theorems": [
    "Lfa.C23_multi_indices_unique",
    "Lfa.C23_enumeration",
    "Lfa.C23_no_inputs"
   ],
   "note": ""
  },
  {
   "property": "C24",
   "status": "proved",
   "theorems": [
    "Lfa.C24_monomials",
    "Lfa.C24_expressive"
   ],
   "note": ""
  },
  {
   "property": "C25",
   "status": "partial",
   "theorems": [
    "Lfa.C25_polynomial_partial",
    "Lfa.C25_polynomial_nonempty",
    "Lfa.C25_polynomial_panics",
    "Lfa.C25_chebyshev",
    "Lfa.C25_chebyshev_special"
   ],
   "note": "Chebyshev in full. Polynomial proved whenever it has a feature (order >= 1 and dimension >= 1); without features with_zeroth panics (C25_polynomial_panics)."
  },
  {
   "property": "C26",
   "status": "proved",
   "theorems": [
    "Lfa.C26_hard_coded",
    "Lfa.C26_orders",
    "Lfa.C26_features",
    "Lfa.C26_bounded"
   ],
   "note": ""
  },
  {
   "property": "C27",
   "status": "partial",
   "theorems": [
    "Lfa.C27_round_trip_partial",
    "Lfa.C27_from_space_covered",
    "Lfa.C27_with_zeroth_lost",
    "Lfa.C27_duplicates",
    "Lfa.C27_missing",
    "Lfa.C27_short_seq",
    "Lfa.C27_order_panics",
    "Lfa.C27_round_trip_iff",
    "Lfa.C27_accepts_only"
   ],
   "note": "Round trip proved for every basis built by new or from_space, in any field order, with the error cases in full. Bases extended by with_zeroth lose the constant feature (C27_with_zeroth_lost), which refutes the full claim; a stored order above 11 panics (C27_order_panics). C27_round_trip_iff: exactly when the code satisfies the claim."
  },
  {
   "property": "C28",
   "status": "proved",
   "theorems": [
    "Lfa.C28_features",
    "Lfa.C28_bounded",
    "Lfa.C28_lower_corner",
    "Lfa.C28_upper_corner",
    "Lfa.C28_periodic"
   ],
   "note": ""
  },
  {
   "property": "C29",
   "status": "proved",
   "theorems": [
    "Lfa.C29_pointwise",
    "Lfa.C29_affine",
    "Lfa.C29_degenerate",
    "Lfa.C29_degenerate_fourier"
   ],
   "note": ""
  },
  {
   "property": "C30",
   "status": "proved",
   "theorems": [
    "Lfa.C30_activity",
    "Lfa.C30_no_error",
    "Lfa.C30_panics",
    "Lfa.C30_scalars",
    "Lfa.C30_infinite_input_panics"
   ],
   "note": ""
  },
  {
   "property": "C31",
   "status": "proved",
   "theorems": [
    "Lfa.C31_same_cells",
    "Lfa.C31_same_intervals"
   ],
   "note": ""
  },
  {
   "property": "C32",
   "status": "partial",
   "theorems": [
    "Lfa.C32_hash_of_tiles",
    "Lfa.C32_uniform_width_partial",
    "Lfa.C32_tile_zero_width",
    "Lfa.C32_tile_zero_is_wider",
    "Lfa.C32_no_separation"
   ],
   "note": "Proved for every tile but tile 0, which truncating division makes 2n-1 cells wide (C32_tile_zero_width, C32_tile_zero_is_wider)."
  },
  {
   "property": "C33",
   "status": "proved",
   "theorems": [
    "Lfa.C33_one_active",
    "Lfa.C33_empty_panics",
    "Lfa.C33_equipartition_lawful"
   ],
   "note": ""
  },
  {
   "property": "C34",
   "status": "proved",
   "theorems": [
    "Lfa.C34_injective",
    "Lfa.C34_surjective"
   ],
   "note": ""
  },
  {
   "property": "C35",
   "status": "proved",
   "theorems": [
    "Lfa.C35_kernel_grid",
    "Lfa.C35_constructors"
   ],
   "note": ""
  },
  {
   "property": "C36",
   "status": "partial",
   "theorems": [
    "Lfa.C36_symmetric",
    "Lfa.C36_symmetric_scalar",
    "Lfa.C36_variance_at_zero",
    "Lfa.C36_bounded_partial",
    "Lfa.C36_matern52_bound",
    "Lfa.C36_matern52_exceeds_variance",
    "Lfa.C36_matern52_maximum"
   ],
   "note": "Symmetry and peak in full. Bound proved for every kernel but Matern52, whose use of sqrt 3 lets it exceed its variance (C36_matern52_exceeds_variance; its maximum is 11/9 e^(-1/5) times the variance, C36_matern52_maximum)."
  },
  {
   "property": "C37",
   "status": "partial",
   "theorems": [
    "Lfa.C37_positive",
    "Lfa.C37_decay_partial",
    "Lfa.C37_matern52_increases",
    "Lfa.C37_matern52_shape"
   ],
   "note": "Positivity in full. Monotone decay proved for all but Matern52, which strictly increases up to the scaled distance 1/(5 sqrt 3) and strictly decreases beyond (C37_matern52_shape, C37_matern52_increases)."
  },
  {
   "property": "C38",
   "status": "partial",
   "theorems": [
    "Lfa.C38_all_coordinates_partial",
    "Lfa.C38_depends_on_each",
    "Lfa.C38_non_ard_ignores_coordinates",
    "Lfa.C38_non_ard_iff"
   ],
   "note": "Proved for ARD kernels. Non-ARD constructors use only the first coordinate (C38_non_ard_ignores_coordinates; C38_non_ard_iff: exactly when that gives the right value)."
  },
  {
   "property": "C39",
   "status": "proved",
   "theorems": [
    "Lfa.C39_scalar_eq_slice",
    "Lfa.C39_negative_lengthscale_differs",
    "Lfa.C39_no_lengthscale"
   ],
   "note": ""
  },
  {
   "property": "C40",
   "status": "proved",
   "theorems": [
    "Lfa.C40_l1",
    "Lfa.C40_l2",
    "Lfa.C40_linf",
    "Lfa.C40_kept"
   ],
   "note": ""
  },
  {
   "property": "C41",
   "status": "proved",
   "theorems": [
    "Lfa.C41_null",
    "Lfa.C41_scale_l1",
    "Lfa.C41_scale_l2",
    "Lfa.C41_scale_linf",
    "Lfa.C41_idempotent",
    "Lfa.C41_idempotent_linf"
   ],
   "note": ""
  },
  {
   "property": "C42",
   "status": "proved",
   "theorems": [
    "Lfa.C42_dense_null",
    "Lfa.C42_sparse_null"
   ],
   "note": ""
  },
  {
   "property": "C43",
   "status": "proved",
   "theorems": [
    "Lfa.C43_active_count",
    "Lfa.C43_unitary_sum"
   ],
   "note": ""
  },
  {
   "property": "C44",
   "status": "proved",
   "theorems": [
    "Lfa.C44_new_sized",
    "Lfa.C44_history",
    "Lfa.C44_deterministic"
   ],
   "note": ""
  },
  {
   "property": "C45",
   "status": "proved",
   "theorems": [
    "Lfa.C45_f64",
    "Lfa.C45_sgd",
    "Lfa.C45_others",
    "Lfa.C45_law"
   ],
   "note": ""
  },
  {
   "property": "C46",
   "status": "proved",
   "theorems": [
    "Lfa.C46_weighted_sum",
    "Lfa.C46_permutation"
   ],
   "note": ""
  },
  {
   "property": "C47",
   "status": "proved",
   "theorems": [
    "Lfa.C47_residual",
    "Lfa.C47_converges_iff"
   ],
   "note": ""
  },
  {
   "property": "C48",
   "status": "proved",
   "theorems": [
    "Lfa.C48_implicit",
    "Lfa.C48_contracts"
   ],
   "note": ""
  },
  {
   "property": "C49",
   "status": "partial",
   "theorems": [
    "Lfa.C49_adamax_iff",
    "Lfa.C49_sparse_eq_dense",
    "Lfa.C49_adam_partial",
    "Lfa.C49_adam_inactive_differ",
    "Lfa.C49_adam_iff"
   ],
   "note": "Proved for SGD, ISGD, Momentum, NAG, Adagrad. For Adam and AdaMax the optimiser state and the active weights agree; inactive weights differ (C49_adam_inactive_differ). C49_adam_iff and C49_adamax_iff: exactly when the code satisfies the claim."
  },
  {
   "property": "C50",
   "status": "partial",
   "theorems": [
    "Lfa.C50_reset_eq_new",
    "Lfa.C50_adam_partial",
    "Lfa.C50_adam_not_reset",
    "Lfa.C50_adam_iff"
   ],
   "note": "Proved for SGD, ISGD, Momentum, NAG, Adagrad. For Adam and AdaMax everything but the bias-correction products is restored (C50_adam_partial); refuted in full by C50_adam_not_reset. C50_adam_iff: exactly when the code satisfies the claim."
  },
  {
   "property": "C51",
   "status": "proved",
   "theorems": [
    "Lfa.C51_velocity",
    "Lfa.C51_bounded",
    "Lfa.C51_bound_tight"
   ],
   "note": ""
  },
  {
   "property": "C52",
   "status": "partial",
   "theorems": [
    "Lfa.C52_step_partial",
    "Lfa.C52_zero_scale_moves",
    "Lfa.C52_claim_false",
    "Lfa.C52_iff"
   ],
   "note": "C52_step_partial gives the update the code performs: the look-ahead uses unscaled features. The stated claim is refuted by C52_claim_false and C52_zero_scale_moves. C52_iff: it holds exactly for momentum 0, scale 1 or zero features."
  },
  {
   "property": "C53",
   "status": "proved",
   "theorems": [
    "Lfa.C53_accumulator",
    "Lfa.C53_nonneg",
    "Lfa.C53_bounded_step"
   ],
   "note": ""
  },
  {
   "property": "C54",
   "status": "partial",
   "theorems": [
    "Lfa.C54_moments",
    "Lfa.C54_correction_partial",
    "Lfa.C54_factor_lt_one",
    "Lfa.C54_factor_tends_to_one",
    "Lfa.C54_first_step_differs",
    "Lfa.C54_iff"
   ],
   "note": "Moments proved in full. The correction divides by 1 - beta^(t+1), not 1 - beta^t: C54_correction_partial gives the exact factor; refuted by C54_first_step_differs. C54_iff: the claim holds exactly when both decay rates are 0."
  },
  {
   "property": "C55",
   "status": "proved",
   "theorems": [
    "Lfa.C55_safe",
    "Lfa.C55_bounded"
   ],
   "note": ""
  },
  {
   "property": "C56",
   "status": "proved",
   "theorems": [
    "Lfa.C56_infinity_norm",
    "Lfa.C56_safe_bounded"
   ],
   "note": ""
  },
  {
   "property": "C57",
   "status": "partial",
   "theorems": [
    "Lfa.C57_zero_scale_partial",
    "Lfa.C57_nag_moves",
    "Lfa.C57_nag_iff"
   ],
   "note": "Proved for fresh optimisers of every kind but NAG, which moves the weights (C57_nag_moves). C57_nag_iff: exactly when the code satisfies the claim."
  },
  {
   "property": "C58",
   "status": "proved",
   "theorems": [
    "Lfa.C58_inactive",
    "Lfa.C58_adagrad",
    "Lfa.C58_momentum_moves"
   ],
   "note": "SGD, ISGD, Adam, AdaMax in any arithmetic; Adagrad in exact arithmetic."
  },
  {
   "property": "C59",
   "status": "proved",
   "theorems": [
    "Lfa.C59_shape",
    "Lfa.C59_infinite_panics",
    "Lfa.C59_fresh",
    "Lfa.C59_fresh_f64",
    "Lfa.C59_fresh_f64_example"
   ],
   "note": ""
  },
  {
   "property": "C60",
   "status": "proved",
   "theorems": [
    "Lfa.C60_failed"
   ],
   "note": ""
  },
  {
   "property": "C61",
   "status": "proved",
   "theorems": [
    "Lfa.C61_update_with",
    "Lfa.C61_panics"
   ],
   "note": ""
  },
  {
   "property": "C62",
   "status": "proved",
   "theorems": [
    "Lfa.C62_consistent",
    "Lfa.C62_index_panics_iff"
   ],
   "note": ""
  },
  {
   "property": "C63",
   "status": "proved",
   "theorems": [
    "Lfa.C63_one_column",
    "Lfa.C63_out_of_range"
   ],
   "note": ""
  },
  {
   "property": "C64",
   "status": "partial",
   "theorems": [
    "Lfa.C64_independent_partial",
    "Lfa.C64_stateless",
    "Lfa.C64_momentum_shared",
    "Lfa.C64_momentum_iff",
    "Lfa.C64_nag_iff",
    "Lfa.C64_adagrad_iff",
    "Lfa.C64_adamax_iff"
   ],
   "note": "Proved for stateless optimisers, SGD and ISGD (C64_independent_partial, C64_stateless). False with state: momentum leaks between columns (C64_momentum_shared). C64_momentum_iff, C64_nag_iff, C64_adagrad_iff and C64_adamax_iff say exactly when a shared optimiser acts like separate ones."
  },
  {
   "property": "C65",
   "status": "proved",
   "theorems": [
    "Lfa.C65_lengths"
   ],
   "note": ""
  },
  {
   "property": "C66",
   "status": "proved",
   "theorems": [
    "Lfa.C66_first_failure",
    "Lfa.C66_all_stepped",
    "Lfa.C66_firstFailure_spec"
   ],
   "note": ""
  },
  {
   "property": "C67",
   "status": "proved",
   "theorems": [
    "Lfa.C67_scalar",
    "Lfa.C67_vector",
    "Lfa.C67_built",
    "Lfa.C67_optimisers",
    "Lfa.C67_out_of_range_panics"
   ],
   "note": "Fixed::sparse leaves are required to hold in-range indices; C67_out_of_range_panics shows training panics otherwise."
  },
  {
   "property": "C68",
   "status": "proved",
   "theorems": [
    "Lfa.C68_sgd_prediction",
    "Lfa.C68_self"
   ],
   "note": ""
  },
  {
   "property": "C69",
   "status": "proved",
   "theorems": [
    "Lfa.C69_session_exists",
    "Lfa.C69_sgd_robust"
   ],
   "note": ""
  },
  {
   "property": "C70",
   "status": "proved",
   "theorems": [
    "Lfa.C70_session_exists",
    "Lfa.C70_isgd_robust"
   ],
   "note": ""
  },
  {
   "property": "C71",
   "status": "proved",
   "theorems": [
    "Lfa.C71_sgd_distance",
    "Lfa.C71_sgd_monotone",
    "Lfa.C71_sgd_converges",
    "Lfa.C71_isgd_distance",
    "Lfa.C71_isgd_converges"
   ],
   "note": ""
  },
  {
   "property": "C72",
   "status": "proved",
   "theorems": [
    "Lfa.C72_kernel_expansion"
   ],
   "note": ""
  },
  {
   "property": "C73",
   "status": "proved",
   "theorems": [
    "Lfa.C73_l1_bounded",
    "Lfa.C73_l1_convex",
    "Lfa.C73_l2_bounded"
   ],
   "note": ""
  },
  {
   "property": "C74",
   "status": "proved",
   "theorems": [
    "Lfa.C74_same_cell",
    "Lfa.C74_other_cell",
    "Lfa.C74_table"
   ],
   "note": ""
  },
  {
   "property": "C75",
   "status": "proved",
   "theorems": [
    "Lfa.C75_dot_reads_active",
    "Lfa.C75_optimisers",
    "Lfa.C75_local"
   ],
   "note": ""
  },
  {
   "property": "C76",
   "status": "proved",
   "theorems": [
    "Lfa.C76_construct",
    "Lfa.C76_evaluate",
    "Lfa.C76_update",
    "Lfa.C76_history"
   ],
   "note": ""
  },
  {
   "property": "C77",
   "status": "proved",
   "theorems": [
    "Lfa.C77_sequential"
   ],
   "note": ""
  },
  {
   "property": "C78",
   "status": "proved",
   "theorems": [
    "Lfa.C78_zero_momentum"
   ],
   "note": ""
  },
  {
   "property": "C79",
   "status": "proved",
   "theorems": [
    "Lfa.C79_nag_history"
   ],
   "note": ""
  },
  {
   "property": "C80",
   "status": "proved",
   "theorems": [
    "Lfa.C80_map_keeps_sparse",
    "Lfa.C80_map_densifies"
   ],
   "note": ""
  },
  {
   "property": "C81",
   "status": "proved",
   "theorems": [
    "Lfa.C81_dense_dense",
    "Lfa.C81_dense_sparse",
    "Lfa.C81_sparse_dense",
    "Lfa.C81_sparse_sparse"
   ],
   "note": ""
  },
  {
   "property": "C82",
   "status": "proved",
   "theorems": [
    "Lfa.C82_case_analysis"
   ],
   "note": ""
  },
  {
   "property": "C83",
   "status": "proved",
   "theorems": [
    "Lfa.C83_fourier",
    "Lfa.C83_chebyshev"
   ],
   "note": ""
  },
  {
   "property": "C84",
   "status": "proved",
   "theorems": [
    "Lfa.C84_default_ith",
    "Lfa.C84_default_ith_sparse"
   ],
   "note": ""
  },
  {
   "property": "C85",
   "status": "proved",
   "theorems": [
    "Lfa.C85_index_error",
    "Lfa.C85_compare_floats",
    "Lfa.C85_nan"
   ],
   "note": ""
  },
  {
   "property": "C86",
   "status": "partial",
   "theorems": [
    "Lfa.C86_stationary_partial",
    "Lfa.C86_rational",
    "Lfa.C86_cosine_line",
    "Lfa.C86_cosine_plane",
    "Lfa.C86_matern52_not_positive",
    "Lfa.C86_matern52_textbook",
    "Lfa.C86_scalar",
    "Lfa.C86_stationary_iff",
    "Lfa.C86_rational_iff"
   ],
   "note": "Proved in any dimension for Exponential, Matern32, ExpQuad (C86_stationary_partial) and RationalQuadratic (C86_rational), for Cosine when one coordinate matters (C86_cosine_line) and for all scalar kernels but Matern52 (C86_scalar). False for Matern52 as coded (C86_matern52_not_positive; with sqrt 5 it holds, C86_matern52_textbook) and for Cosine in two dimensions (C86_cosine_plane). C86_stationary_iff and C86_rational_iff say exactly which kernels are positive semidefinite."
  },
  {
   "property": "C87",
   "status": "partial",
   "theorems": [
    "Lfa.C87_l1",
    "Lfa.C87_linf",
    "Lfa.C87_l2_partial",
    "Lfa.C87_l2_binary64",
    "Lfa.C87_l2_underflow",
    "Lfa.C87_l2_binary64_fails",
    "Lfa.C87_l2_tight"
   ],
   "note": "L1 and Linf in full. L2 for activations that are zero or at least 2^-511 in f64 (C87_l2_binary64), in general when squaring loses no magnitude (C87_l2_partial). False below: an activation of 2^-600 normalises to infinity (C87_l2_binary64_fails), and one within 1 % of 2^-511 normalises to 1 + 2^-52 (C87_l2_tight)."
  },
  {
   "property": "C88",
   "status": "proved",
   "theorems": [
    "Lfa.C88_rescale",
    "Lfa.C88_polynomial",
    "Lfa.C88_fourier",
    "Lfa.C88_binary64"
   ],
   "note": ""
  },
  {
   "property": "C89",
   "status": "proved",
   "theorems": [
    "Lfa.C89_symmetric",
    "Lfa.C89_peak",
    "Lfa.C89_exponential_bound",
    "Lfa.C89_expQuad_bound",
    "Lfa.C89_rational_bound",
    "Lfa.C89_exponential_decay"
   ],
   "note": ""
  },
  {
   "property": "C90",
   "status": "proved",
   "theorems": [
    "Lfa.C90_step",
    "Lfa.C90_adagrad"
   ],
   "note": ""
  },
  {
   "property": "C91",
   "status": "proved",
   "theorems": [
    "Lfa.C91_sgd",
    "Lfa.C91_isgd_rate",
    "Lfa.C91_isgd",
    "Lfa.C91_momentum",
    "Lfa.C91_nag",
    "Lfa.C91_adam",
    "Lfa.C91_adamax"
   ],
   "note": ""
  },
  {
   "property": "C92",
   "status": "proved",
   "theorems": [
    "Lfa.C92_sgd",
    "Lfa.C92_isgd",
    "Lfa.C92_target",
    "Lfa.C92_isgd_target"
   ],
   "note": ""
  },
  {
   "property": "C93",
   "status": "proved",
   "theorems": [
    "Lfa.C93_evaluate",
    "Lfa.C93_evaluate_vector",
    "Lfa.C93_column_order",
    "Lfa.C93_hash_order"
   ],
   "note": ""
  },
  {
   "property": "C94",
   "status": "proved",
   "theorems": [
    "Lfa.C94_sgd"
   ],
   "note": ""
  },
  {
   "property": "C95",
   "status": "proved",
   "theorems": [
    "Lfa.C95_l1"
   ],
   "note": ""
  },
  {
   "property": "C96",
   "status": "proved",
   "theorems": [
    "Lfa.C96_polynomial"
   ],
   "note": ""
  },
  {
   "property": "C97",
   "status": "proved",
   "theorems": [
    "Lfa.C97_sgd_identity",
    "Lfa.C97_sgd_regret",
    "Lfa.C97_sgd_best"
   ],
   "note": ""
  },
  {
   "property": "C98",
   "status": "proved",
   "theorems": [
    "Lfa.C98_adagrad_coordinate",
    "Lfa.C98_adagrad_regret"
   ],
   "note": ""
  },
  {
   "property": "C99",
   "status": "proved",
   "theorems": [
    "Lfa.C99_polynomial",
    "Lfa.C99_polynomial_zeroth",
    "Lfa.C99_chebyshev",
    "Lfa.C99_too_few"
   ],
   "note": ""
  },
  {
   "property": "C100",
   "status": "proved",
   "theorems": [
    "Lfa.C100_fourier",
    "Lfa.C100_uniform_grid"
   ],
   "note": ""
  },
  {
   "property": "C101",
   "status": "proved",
   "theorems": [
    "Lfa.C101_stationary",
    "Lfa.C101_rational",
    "Lfa.C101_missing_lengthscale"
   ],
   "note": ""
  },
  {
   "property": "C102",
   "status": "proved",
   "theorems": [
    "Lfa.C102_interpolation",
    "Lfa.C102_kernel_grids"
   ],
   "note": ""
  },
  {
   "property": "C103",
   "status": "proved",
   "theorems": [
    "Lfa.C103_stream_exists",
    "Lfa.C103_sgd_cycle"
   ],
   "note": ""
  },
  {
   "property": "C104",
   "status": "proved",
   "theorems": [
    "Lfa.C104_isgd_cycle"
   ],
   "note": ""
  },
  {
   "property": "C105",
   "status": "proved",
   "theorems": [
    "Lfa.C105_cell",
    "Lfa.C105_grid",
    "Lfa.C105_overshoot"
   ],
   "note": ""
  },
  {
   "property": "C106",
   "status": "proved",
   "theorems": [
    "Lfa.C106_non_ard",
    "Lfa.C106_default",
    "Lfa.C106_slice_scalar",
    "Lfa.C106_negative_lengthscale",
    "Lfa.C106_no_lengthscale",
    "Lfa.C106_invariant",
    "Lfa.C106_features"
   ],
   "note": ""
  },
  {
   "property": "C107",
   "status": "proved",
   "theorems": [
    "Lfa.C107_permanent"
   ],
   "note": ""
  },
  {
   "property": "C108",
   "status": "proved",
   "theorems": [
    "Lfa.C108_prediction",
    "Lfa.C108_contagion",
    "Lfa.C108_dense"
   ],
   "note": ""
  },
  {
   "property": "C109",
   "status": "proved",
   "theorems": [
    "Lfa.C109_exact"
   ],
   "note": ""
  },
  {
   "property": "C110",
   "status": "proved",
   "theorems": [
    "Lfa.C110_exact",
    "Lfa.C110_order",
    "Lfa.C110_saturates"
   ],
   "note": ""
  },
  {
   "property": "C111",
   "status": "proved",
   "theorems": [
    "Lfa.C111_features",
    "Lfa.C111_discovered",
    "Lfa.C111_exact",
    "Lfa.C111_candidate_from_vec"
   ],
   "note": ""
  },
  {
   "property": "C112",
   "status": "partial",
   "theorems": [
    "Lfa.C112_once_partial",
    "Lfa.C112_duplicates",
    "Lfa.C112_count",
    "Lfa.C112_iff"
   ],
   "note": "Proved while the errors credited to the pair sum to less than twice the threshold (C112_once_partial). False in general: m calls can add m copies (C112_duplicates). C112_iff: it holds exactly when the errors of the pair cannot be cut into two parts that reach the threshold; C112_count gives the number of copies."
  },
  {
   "property": "C113",
   "status": "partial",
   "theorems": [
    "Lfa.C113_credit_partial",
    "Lfa.C113_dense",
    "Lfa.C113_inactive_counterexample",
    "Lfa.C113_iff"
   ],
   "note": "Proved for sparse projections (C113_credit_partial). False for dense ones: active features are never combined (C113_dense), inactive ones are (C113_inactive_counterexample). C113_iff: a call is credited as claimed exactly when its projection is sparse or only one of the two features is active."
  },
  {
   "property": "C114",
   "status": "partial",
   "theorems": [
    "Lfa.C114_project_partial",
    "Lfa.C114_inactive",
    "Lfa.C114_both_active_counterexample",
    "Lfa.C114_inactive_counterexample",
    "Lfa.C114_iff"
   ],
   "note": "C114_project_partial gives the projection wherever every discovered feature has an active parent. That is right when it also has an inactive parent, and wrong when all are active (C114_both_active_counterexample). With inactive parents the projection can panic (C114_inactive). C114_iff: the projection is as claimed exactly where every discovered feature has an active and an inactive parent."
  },
  {
   "property": "C115",
   "status": "proved",
   "theorems": [
    "Lfa.C115_momentum_iff",
    "Lfa.C115_momentum_weights",
    "Lfa.C115_momentum_exact",
    "Lfa.C115_exists"
   ],
   "note": ""
  },
  {
   "property": "C116",
   "status": "proved",
   "theorems": [
    "Lfa.C116_nag_limit",
    "Lfa.C116_nag_never",
    "Lfa.C116_exists"
   ],
   "note": "A defect of the code: the look-ahead term of NAG is not scaled by the error, so training never settles at the target (C116_nag_never)."
  },
  {
   "property": "C117",
   "status": "proved",
   "theorems": [
    "Lfa.C117_adagrad_converges",
    "Lfa.C117_exists"
   ],
   "note": ""
  },
  {
   "property": "C118",
   "status": "proved",
   "theorems": [
    "Lfa.C118_expQuad_universal",
    "Lfa.C118_non_ard",
    "Lfa.C118_cosine_periodic"
   ],
   "note": ""
  },
  {
   "property": "C119",
   "status": "proved",
   "theorems": [
    "Lfa.C119_grid_oscillation",
    "Lfa.C119_grid_universal"
   ],
   "note": ""
  },
  {
   "property": "C120",
   "status": "proved",
   "theorems": [
    "Lfa.C120_sgd",
    "Lfa.C120_isgd",
    "Lfa.C120_kernel_sgd",
    "Lfa.C120_kernel_isgd",
    "Lfa.C120_exists"
   ],
   "note": ""
  },
  {
   "property": "C121",
   "status": "partial",
   "theorems": [
    "Lfa.C121_returned_partial",
    "Lfa.C121_place_iff",
    "Lfa.C121_never_sound",
    "Lfa.C121_map_dense_lost_iff",
    "Lfa.C121_map_sparse_lost_iff",
    "Lfa.C121_merge_lost_iff"
   ],
   "note": "A returning call leaves what map_into or merge_into returns (C121_returned_partial), and the place is valid exactly when the call returned (C121_place_iff). The rest is false: every returning call destroys an all-zero Features and every unwinding one leaves it in the caller's place (C121_never_sound). C121_map_dense_lost_iff, C121_map_sparse_lost_iff and C121_merge_lost_iff: exactly when the caller's features are lost."
  },
  {
   "property": "C122",
   "status": "proved",
   "theorems": [
    "Lfa.C122_merge_defined",
    "Lfa.C122_merge_value",
    "Lfa.C122_detected"
   ],
   "note": ""
  },
  {
   "property": "C123",
   "status": "partial",
   "theorems": [
    "Lfa.C123_undefined_iff",
    "Lfa.C123_ith_value",
    "Lfa.C123_built_partial",
    "Lfa.C123_closure_undefined"
   ],
   "note": "Proved for every nesting of the crate's own bases (C123_built_partial). C123_undefined_iff: exactly when the read is out of bounds. A Closure that returns fewer features than it declares reaches it from safe code (C123_closure_undefined), which refutes the full claim."
  },
  {
   "property": "C124",
   "status": "proved",
   "theorems": [
    "Lfa.C124_prediction",
    "Lfa.C124_sgd",
    "Lfa.C124_momentum",
    "Lfa.C124_nag",
    "Lfa.C124_adagrad",
    "Lfa.C124_isgd"
   ],
   "note": ""
  },
  {
   "property": "C125",
   "status": "proved",
   "theorems": [
    "Lfa.C125_with_zeroth",
    "Lfa.C125_plain_iff"
   ],
   "note": ""
  },
  {
   "property": "C126",
   "status": "proved",
   "theorems": [
    "Lfa.C126_with_bias",
    "Lfa.C126_plain_iff"
   ],
   "note": ""
  },
  {
   "property": "C127",
   "status": "proved",
   "theorems": [
    "Lfa.C127_polynomial",
    "Lfa.C127_polynomial_zeroth",
    "Lfa.C127_chebyshev",
    "Lfa.C127_fourier",
    "Lfa.C127_chebyshev_not_universal",
    "Lfa.C127_sharp",
    "Lfa.C127_sharp_chebyshev",
    "Lfa.C127_sharp_fourier"
   ],
   "note": ""
  },
  {
   "property": "C128",
   "status": "proved",
   "theorems": [
    "Lfa.C128_sgd",
    "Lfa.C128_isgd",
    "Lfa.C128_momentum",
    "Lfa.C128_nag"
   ],
   "note": ""
  },
  {
   "property": "C129",
   "status": "proved",
   "theorems": [
    "Lfa.C129_sgd",
    "Lfa.C129_isgd"
   ],
   "note": ""
  },
  {
   "property": "C130",
   "status": "proved",
   "theorems": [
    "Lfa.C130_sgd",
    "Lfa.C130_isgd"
   ],
   "note": ""
  },
  {
   "property": "C131",
   "status": "proved",
   "theorems": [
    "Lfa.C131_step",
    "Lfa.C131_example"
   ],
   "note": "A defect of the documented example (src/lib.rs, marked no_run): its final assertion fails with probability at least 0.92."
  },
  {
   "property": "C132",
   "status": "proved",
   "theorems": [
    "Lfa.C132_sgd",
    "Lfa.C132_isgd",
    "Lfa.C132_sampling_exists"
   ],
   "note": ""
  },
  {
   "property": "C133",
   "status": "proved",
   "theorems": [
    "Lfa.C133_sgd",
    "Lfa.C133_isgd"
   ],
   "note": ""
  },
  {
   "property": "C134",
   "status": "partial",
   "theorems": [
    "Lfa.C134_features",
    "Lfa.C134_error",
    "Lfa.C134_optimiser",
    "Lfa.C134_basis",
    "Lfa.C134_scalar",
    "Lfa.C134_vector",
    "Lfa.C134_zeroth_lost",
    "Lfa.C134_layout"
   ],
   "note": "Proved for every type of the crate and every reformatting of the saved data, with Chebyshev bases as new and from_space build them. With with_zeroth the constant feature is lost and evaluation panics (C134_zeroth_lost), which refutes the full claim."
  },
  {
   "property": "C135",
   "status": "partial",
   "theorems": [
    "Lfa.C135_total_partial",
    "Lfa.C135_read_from",
    "Lfa.C135_chebyshev_panics_iff",
    "Lfa.C135_incomplete",
    "Lfa.C135_unvalidated"
   ],
   "note": "Proved that restoring never panics without Chebyshev bases (C135_total_partial); with them it panics exactly on orders above 11 (C135_chebyshev_panics_iff). Restored values are not validated (C135_unvalidated), which refutes the rest. Numbers, integers, arrays and dense features are read only from their own form (C135_read_from)."
  },
  {
   "property": "C136",
   "status": "proved",
   "theorems": [
    "Lfa.C136_text",
    "Lfa.C136_display",
    "Lfa.C136_ith"
   ],
   "note": ""
  },
  {
   "property": "C137",
   "status": "partial",
   "theorems": [
    "Lfa.C137_coarse",
    "Lfa.C137_predictions",
    "Lfa.C137_polynomial_partial",
    "Lfa.C137_fourier_partial",
    "Lfa.C137_chebyshev_partial",
    "Lfa.C137_kernel_partial"
   ],
   "note": "card is Infinite for every basis. That is right for polynomial, Fourier, Chebyshev and kernel bases (C137_polynomial_partial, C137_fourier_partial, C137_chebyshev_partial, C137_kernel_partial) and wrong for constants, tile codings, uniform grids and everything built from them, which have finitely many projections (C137_coarse)."
  },
  {
   "property": "C138",
   "status": "proved",
   "theorems": [
    "Lfa.C138_shared",
    "Lfa.C138_training",
    "Lfa.C138_neighbours",
    "Lfa.C138_next_cell",
    "Lfa.C138_collision_free_exists"
   ],
   "note": "A defect of the code: the hasher is not reset between tilings."
  },
  {
   "property": "C139",
   "status": "partial",
   "theorems": [
    "Lfa.C139_in_order_iff",
    "Lfa.C139_inverted",
    "Lfa.C139_sliced",
    "Lfa.C139_to_vec_iff",
    "Lfa.C139_stack_iff",
    "Lfa.C139_stack_panics",
    "Lfa.C139_stack_partial",
    "Lfa.C139_plain_std",
    "Lfa.C139_update_with_buffer",
    "Lfa.C139_update_with_inverted",
    "Lfa.C139_update_with_sliced",
    "Lfa.C139_update_with_partial",
    "Lfa.C139_update_with_list",
    "Lfa.C139_to_vec_counterexample",
    "Lfa.C139_stack_counterexample",
    "Lfa.C139_stack_sliced_counterexample",
    "Lfa.C139_update_with_counterexample"
   ],
   "note": "holds when the buffer holds the elements in order (C139_stack_partial, C139_update_with_partial; the exact conditions are C139_to_vec_iff, C139_stack_iff and C139_in_order_iff) and fails otherwise: a reversed array gives a reversed Vec, stacking puts the whole buffer in front and panics on a second array that is not contiguous, and update_with ignores invert_axis and slice_move (C139_update_with_inverted, C139_update_with_sliced, C139_update_with_counterexample)."
  },
  {
   "property": "C140",
   "status": "partial",
   "theorems": [
    "Lfa.C140_order_free",
    "Lfa.C140_built_maps",
    "Lfa.C140_update_can",
    "Lfa.C140_update",
    "Lfa.C140_run",
    "Lfa.C140_update_with_partial",
    "Lfa.C140_real",
    "Lfa.C140_two_active",
    "Lfa.C140_three_active_counterexample",
    "Lfa.C140_isgd_counterexample",
    "Lfa.C140_update_with_counterexample"
   ],
   "note": "proved in any arithmetic for update with every optimiser but ISGD (C140_order_free, C140_run), in exact arithmetic for all (C140_real), and for update_with wherever the prediction has one value (C140_update_with_partial), such as with at most two active features (C140_two_active). False in f64 beyond: three active features can predict 0 or 1 (C140_three_active_counterexample), and one call of update_with or of ISGD can leave different weights (C140_update_with_counterexample, C140_isgd_counterexample). C188 bounds by how much such runs can differ."
  },
  {
   "property": "C141",
   "status": "proved",
   "theorems": [
    "Lfa.C141_sgd",
    "Lfa.C141_isgd",
    "Lfa.C141_diverges",
    "Lfa.C141_run_exists"
   ],
   "note": ""
  },
  {
   "property": "C142",
   "status": "proved",
   "theorems": [
    "Lfa.C142_sgd",
    "Lfa.C142_isgd"
   ],
   "note": ""
  },
  {
   "property": "C143",
   "status": "proved",
   "theorems": [
    "Lfa.C143_sgd",
    "Lfa.C143_sampling_exists"
   ],
   "note": ""
  },
  {
   "property": "C144",
   "status": "proved",
   "theorems": [
    "Lfa.C144_quality",
    "Lfa.C144_values"
   ],
   "note": ""
  },
  {
   "property": "C145",
   "status": "proved",
   "theorems": [
    "Lfa.C145_sgd"
   ],
   "note": ""
  },
  {
   "property": "C146",
   "status": "partial",
   "theorems": [
    "Lfa.C146_same_step",
    "Lfa.C146_same_call",
    "Lfa.C146_dense_partial",
    "Lfa.C146_weights_kept",
    "Lfa.C146_sparse_prefix",
    "Lfa.C146_velocity",
    "Lfa.C146_products",
    "Lfa.C146_vector_dense_partial",
    "Lfa.C146_sparse_counterexample",
    "Lfa.C146_adam_counterexample",
    "Lfa.C146_velocity_prefix",
    "Lfa.C146_adagrad_left",
    "Lfa.C146_moments_left",
    "Lfa.C146_columns_left"
   ],
   "note": "Proved with dense features for SGD, ISGD and Adagrad (C146_dense_partial, C146_vector_dense_partial for vectors of equal columns) and for the weights under Momentum and NAG with any features (C146_weights_kept). False otherwise: sparse features leave the indices visited before the bad one updated, so the hash order decides what is left (C146_sparse_prefix, C146_sparse_counterexample), velocities and Adam's products have already advanced (C146_velocity, C146_products, C146_adam_counterexample)."
  },
  {
   "property": "C147",
   "status": "proved",
   "theorems": [
    "Lfa.C147_superposition",
    "Lfa.C147_nag_mean",
    "Lfa.C147_units",
    "Lfa.C147_forgetting",
    "Lfa.C147_exists",
    "Lfa.C147_counterexamples"
   ],
   "note": ""
  },
  {
   "property": "C148",
   "status": "proved",
   "theorems": [
    "Lfa.C148_inner_products",
    "Lfa.C148_counterexamples"
   ],
   "note": ""
  },
  {
   "property": "C149",
   "status": "proved",
   "theorems": [
    "Lfa.C149_renumbering",
    "Lfa.C149_stack_order"
   ],
   "note": ""
  },
  {
   "property": "C150",
   "status": "proved",
   "theorems": [
    "Lfa.C150_outputs",
    "Lfa.C150_assemble",
    "Lfa.C150_converges",
    "Lfa.C150_exists",
    "Lfa.C150_seven_features",
    "Lfa.C150_order_matters"
   ],
   "note": ""
  },
  {
   "property": "C151",
   "status": "proved",
   "theorems": [
    "Lfa.C151_hovers",
    "Lfa.C151_exists",
    "Lfa.C151_bias"
   ],
   "note": ""
  },
  {
   "property": "C152",
   "status": "proved",
   "theorems": [
    "Lfa.C152_exists",
    "Lfa.C152_converges",
    "Lfa.C152_two_iff",
    "Lfa.C152_tight",
    "Lfa.C152_example"
   ],
   "note": ""
  },
  {
   "property": "C153",
   "status": "proved",
   "theorems": [
    "Lfa.C153_converges",
    "Lfa.C153_exists",
    "Lfa.C153_first_call"
   ],
   "note": ""
  },
  {
   "property": "C154",
   "status": "proved",
   "theorems": [
    "Lfa.C154_converges",
    "Lfa.C154_exists",
    "Lfa.C154_idle_iff",
    "Lfa.C154_example",
    "Lfa.C154_example_converges"
   ],
   "note": ""
  },
  {
   "property": "C155",
   "status": "proved",
   "theorems": [
    "Lfa.C155_tile_debug",
    "Lfa.C155_tile_release",
    "Lfa.C155_tile_agree",
    "Lfa.C155_stack",
    "Lfa.C155_stack_overflow",
    "Lfa.C155_stack_overwrites",
    "Lfa.C155_from",
    "Lfa.C155_from_max",
    "Lfa.C155_stack_basis",
    "Lfa.C155_stack_ith",
    "Lfa.C155_grid",
    "Lfa.C155_grid_overflow",
    "Lfa.C155_infinite_input"
   ],
   "note": ""
  },
  {
   "property": "C156",
   "status": "proved",
   "theorems": [
    "Lfa.C156_momentum",
    "Lfa.C156_compare",
    "Lfa.C156_example"
   ],
   "note": ""
  },
  {
   "property": "C157",
   "status": "proved",
   "theorems": [
    "Lfa.C157_sgd",
    "Lfa.C157_prediction",
    "Lfa.C157_repeated",
    "Lfa.C157_uniform",
    "Lfa.C157_example"
   ],
   "note": ""
  },
  {
   "property": "C158",
   "status": "proved",
   "theorems": [
    "Lfa.C158_error",
    "Lfa.C158_error_isgd",
    "Lfa.C158_sgd_iff",
    "Lfa.C158_isgd_iff",
    "Lfa.C158_sgd_exists",
    "Lfa.C158_isgd_exists"
   ],
   "note": ""
  },
  {
   "property": "C159",
   "status": "proved",
   "theorems": [
    "Lfa.C159_mean",
    "Lfa.C159_mean_isgd",
    "Lfa.C159_almost_surely",
    "Lfa.C159_almost_surely_isgd",
    "Lfa.C159_table"
   ],
   "note": ""
  },
  {
   "property": "C160",
   "status": "proved",
   "theorems": [
    "Lfa.C160_step",
    "Lfa.C160_iff",
    "Lfa.C160_isgd_iff"
   ],
   "note": ""
  },
  {
   "property": "C161",
   "status": "proved",
   "theorems": [
    "Lfa.C161_rate",
    "Lfa.C161_isgd",
    "Lfa.C161_uniform",
    "Lfa.C161_repeated",
    "Lfa.C161_example"
   ],
   "note": ""
  },
  {
   "property": "C162",
   "status": "proved",
   "theorems": [
    "Lfa.C162_l2"
   ],
   "note": ""
  },
  {
   "property": "C163",
   "status": "proved",
   "theorems": [
    "Lfa.C163_sgd",
    "Lfa.C163_sgd_small",
    "Lfa.C163_isgd"
   ],
   "note": ""
  },
  {
   "property": "C164",
   "status": "proved",
   "theorems": [
    "Lfa.C164_sgd",
    "Lfa.C164_isgd",
    "Lfa.C164_least"
   ],
   "note": ""
  },
  {
   "property": "C165",
   "status": "proved",
   "theorems": [
    "Lfa.C165_dot",
    "Lfa.C165_matmul",
    "Lfa.C165_scaled_addto",
    "Lfa.C165_to_dense",
    "Lfa.C165_n_active",
    "Lfa.C165_sum",
    "Lfa.C165_bias",
    "Lfa.C165_fixed",
    "Lfa.C165_polynomial",
    "Lfa.C165_fourier",
    "Lfa.C165_chebyshev",
    "Lfa.C165_chebyshev_new",
    "Lfa.C165_tile_coding",
    "Lfa.C165_uniform_grid",
    "Lfa.C165_kernel",
    "Lfa.C165_rational_quadratic",
    "Lfa.C165_number_kernel",
    "Lfa.C165_stack",
    "Lfa.C165_normalised",
    "Lfa.C165_optimisers",
    "Lfa.C165_evaluate",
    "Lfa.C165_update",
    "Lfa.C165_update_with",
    "Lfa.C165_updates",
    "Lfa.C165_evaluate_vector",
    "Lfa.C165_update_vector",
    "Lfa.C165_updates_vector",
    "Lfa.C165_unsigned_evaluate",
    "Lfa.C165_crossed_limits",
    "Lfa.C165_scalar_kernel",
    "Lfa.C165_signs"
   ],
   "note": ""
  },
  {
   "property": "C166",
   "status": "proved",
   "theorems": [
    "Lfa.C166_optimisers",
    "Lfa.C166_bases",
    "Lfa.C166_composites",
    "Lfa.C166_equal_iff",
    "Lfa.C166_training",
    "Lfa.C166_projections",
    "Lfa.C166_fourier",
    "Lfa.C166_kernels",
    "Lfa.C166_tile_coding",
    "Lfa.C166_composite_projections",
    "Lfa.C166_chebyshev",
    "Lfa.C166_chebyshev_differs",
    "Lfa.C166_tile_coding_laws",
    "Lfa.C166_chebyshev_laws"
   ],
   "note": ""
  },
  {
   "property": "C167",
   "status": "proved",
   "theorems": [
    "Lfa.C167_polynomials",
    "Lfa.C167_rescale",
    "Lfa.C167_chebyshev",
    "Lfa.C167_fourier"
   ],
   "note": ""
  },
  {
   "property": "C168",
   "status": "proved",
   "theorems": [
    "Lfa.C168_sgd",
    "Lfa.C168_prediction",
    "Lfa.C168_polynomial",
    "Lfa.C168_fourier",
    "Lfa.C168_chebyshev",
    "Lfa.C168_example"
   ],
   "note": ""
  },
  {
   "property": "C169",
   "status": "proved",
   "theorems": [
    "Lfa.C169_distance",
    "Lfa.C169_exponential",
    "Lfa.C169_expQuad",
    "Lfa.C169_rational",
    "Lfa.C169_cosine",
    "Lfa.C169_matern32",
    "Lfa.C169_matern52",
    "Lfa.C169_scalar_distance",
    "Lfa.C169_scalar",
    "Lfa.C169_matern_far"
   ],
   "note": ""
  },
  {
   "property": "C170",
   "status": "proved",
   "theorems": [
    "Lfa.C170_stationary",
    "Lfa.C170_cosine",
    "Lfa.C170_rational"
   ],
   "note": ""
  },
  {
   "property": "C171",
   "status": "proved",
   "theorems": [
    "Lfa.C171_adagrad",
    "Lfa.C171_exact_run",
    "Lfa.C171_finite"
   ],
   "note": ""
  },
  {
   "property": "C172",
   "status": "proved",
   "theorems": [
    "Lfa.C172_momentum",
    "Lfa.C172_nag",
    "Lfa.C172_momentum_exact_run",
    "Lfa.C172_nag_exact_run",
    "Lfa.C172_momentum_finite",
    "Lfa.C172_nag_finite"
   ],
   "note": ""
  },
  {
   "property": "C173",
   "status": "proved",
   "theorems": [
    "Lfa.C173_adam",
    "Lfa.C173_adamax",
    "Lfa.C173_adam_exact_run",
    "Lfa.C173_adamax_exact_run",
    "Lfa.C173_adam_finite",
    "Lfa.C173_adamax_finite"
   ],
   "note": ""
  },
  {
   "property": "C174",
   "status": "proved",
   "theorems": [
    "Lfa.C174_l0",
    "Lfa.C174_l1",
    "Lfa.C174_linf"
   ],
   "note": ""
  },
  {
   "property": "C175",
   "status": "proved",
   "theorems": [
    "Lfa.C175_sgd",
    "Lfa.C175_prediction",
    "Lfa.C175_isgd",
    "Lfa.C175_example"
   ],
   "note": ""
  },
  {
   "property": "C176",
   "status": "proved",
   "theorems": [
    "Lfa.C176_momentum",
    "Lfa.C176_nag",
    "Lfa.C176_example",
    "Lfa.C176_example_nag"
   ],
   "note": ""
  },
  {
   "property": "C177",
   "status": "proved",
   "theorems": [
    "Lfa.C177_sgd",
    "Lfa.C177_isgd",
    "Lfa.C177_example"
   ],
   "note": ""
  },
  {
   "property": "C178",
   "status": "proved",
   "theorems": [
    "Lfa.C178_sgd",
    "Lfa.C178_isgd",
    "Lfa.C178_random",
    "Lfa.C178_example"
   ],
   "note": ""
  },
  {
   "property": "C179",
   "status": "proved",
   "theorems": [
    "Lfa.C179_fourier",
    "Lfa.C179_polynomial",
    "Lfa.C179_chebyshev",
    "Lfa.C179_tiles",
    "Lfa.C179_training",
    "Lfa.C179_fourier_ruined",
    "Lfa.C179_example"
   ],
   "note": ""
  },
  {
   "property": "C180",
   "status": "proved",
   "theorems": [
    "Lfa.C180_factor",
    "Lfa.C180_sgd",
    "Lfa.C180_isgd",
    "Lfa.C180_example"
   ],
   "note": ""
  },
  {
   "property": "C181",
   "status": "proved",
   "theorems": [
    "Lfa.C181_excited",
    "Lfa.C181_excited_example",
    "Lfa.C181_examples",
    "Lfa.C181_sgd",
    "Lfa.C181_isgd",
    "Lfa.C181_example"
   ],
   "note": ""
  },
  {
   "property": "C182",
   "status": "proved",
   "theorems": [
    "Lfa.C182_nan",
    "Lfa.C182_infinite",
    "Lfa.C182_ruined",
    "Lfa.C182_unheard",
    "Lfa.C182_grids",
    "Lfa.C182_example",
    "Lfa.C182_exact"
   ],
   "note": ""
  },
  {
   "property": "C183",
   "status": "proved",
   "theorems": [
    "Lfa.C183_nan",
    "Lfa.C183_linf",
    "Lfa.C183_infinite",
    "Lfa.C183_example"
   ],
   "note": ""
  },
  {
   "property": "C184",
   "status": "proved",
   "theorems": [
    "Lfa.C184_sgd",
    "Lfa.C184_isgd",
    "Lfa.C184_sgd_shadow",
    "Lfa.C184_isgd_shadow",
    "Lfa.C184_sgd_fit",
    "Lfa.C184_isgd_fit",
    "Lfa.C184_example"
   ],
   "note": ""
  },
  {
   "property": "C185",
   "status": "proved",
   "theorems": [
    "Lfa.C185_sgd",
    "Lfa.C185_isgd",
    "Lfa.C185_sgd_outputs",
    "Lfa.C185_isgd_outputs",
    "Lfa.C185_polynomial",
    "Lfa.C185_fourier",
    "Lfa.C185_chebyshev",
    "Lfa.C185_stationary",
    "Lfa.C185_example",
    "Lfa.C185_polynomial_example"
   ],
   "note": ""
  },
  {
   "property": "C186",
   "status": "proved",
   "theorems": [
    "Lfa.C186_sgd",
    "Lfa.C186_isgd",
    "Lfa.C186_greedy",
    "Lfa.C186_total",
    "Lfa.C186_grid",
    "Lfa.C186_example"
   ],
   "note": ""
  },
  {
   "property": "C187",
   "status": "proved",
   "theorems": [
    "Lfa.C187_sgd",
    "Lfa.C187_isgd",
    "Lfa.C187_sgd_total",
    "Lfa.C187_isgd_total",
    "Lfa.C187_example"
   ],
   "note": ""
  },
  {
   "property": "C188",
   "status": "proved",
   "theorems": [
    "Lfa.C188_sgd",
    "Lfa.C188_isgd",
    "Lfa.C188_sgd_runs",
    "Lfa.C188_isgd_runs",
    "Lfa.C188_stream",
    "Lfa.C188_example"
   ],
   "note": ""
  },
  {
   "property": "C189",
   "status": "proved",
   "theorems": [
    "Lfa.C189_order_matters",
    "Lfa.C189_eq_iff",
    "Lfa.C189_equivalence",
    "Lfa.C189_projects",
    "Lfa.C189_update",
    "Lfa.C189_example"
   ],
   "note": ""
  },
  {
   "property": "C190",
   "status": "proved",
   "theorems": [
    "Lfa.C190_momentum",
    "Lfa.C190_nag",
    "Lfa.C190_excited",
    "Lfa.C190_example"
   ],
   "note": ""
  },
  {
   "property": "C191",
   "status": "proved",
   "theorems": [
    "Lfa.C191_momentum",
    "Lfa.C191_nag",
    "Lfa.C191_momentum_runs",
    "Lfa.C191_nag_runs",
    "Lfa.C191_example"
   ],
   "note": ""
  },
  {
   "property": "C192",
   "status": "proved",
   "theorems": [
    "Lfa.C192_sgd",
    "Lfa.C192_isgd",
    "Lfa.C192_momentum",
    "Lfa.C192_nag",
    "Lfa.C192_sgd_forgets",
    "Lfa.C192_isgd_forgets",
    "Lfa.C192_momentum_forgets",
    "Lfa.C192_nag_forgets",
    "Lfa.C192_example"
   ],
   "note": ""
  },
  {
   "property": "C193",
   "status": "proved",
   "theorems": [
    "Lfa.C193_sgd",
    "Lfa.C193_isgd",
    "Lfa.C193_tile_coding",
    "Lfa.C193_uniform_grid",
    "Lfa.C193_polynomial",
    "Lfa.C193_fourier",
    "Lfa.C193_kernels",
    "Lfa.C193_exponential",
    "Lfa.C193_expQuad",
    "Lfa.C193_rational",
    "Lfa.C193_constants",
    "Lfa.C193_bias",
    "Lfa.C193_l1",
    "Lfa.C193_linf",
    "Lfa.C193_l2",
    "Lfa.C193_stack",
    "Lfa.C193_runs",
    "Lfa.C193_example",
    "Lfa.C193_chebyshev",
    "Lfa.C193_cosine",
    "Lfa.C193_matern",
    "Lfa.C193_matern_example"
   ],
   "note": ""
  },
  {
   "property": "C194",
   "status": "proved",
   "theorems": [
    "Lfa.C194_growth",
    "Lfa.C194_lost",
    "Lfa.C194_scratch",
    "Lfa.C194_tile_coding",
    "Lfa.C194_example"
   ],
   "note": ""
  },
  {
   "property": "C195",
   "status": "proved",
   "theorems": [
    "Lfa.C195_adam",
    "Lfa.C195_adamax",
    "Lfa.C195_sgd",
    "Lfa.C195_runs",
    "Lfa.C195_example"
   ],
   "note": ""
  },
  {
   "property": "C196",
   "status": "proved",
   "theorems": [
    "Lfa.C196_isgd",
    "Lfa.C196_momentum",
    "Lfa.C196_nag",
    "Lfa.C196_adagrad",
    "Lfa.C196_example",
    "Lfa.C196_nag_example"
   ],
   "note": ""
  },
  {
   "property": "C197",
   "status": "proved",
   "theorems": [
    "Lfa.C197_scalar",
    "Lfa.C197_vector",
    "Lfa.C197_limit",
    "Lfa.C197_runs",
    "Lfa.C197_optimisers",
    "Lfa.C197_example"
   ],
   "note": ""
  },
  {
   "property": "C198",
   "status": "proved",
   "theorems": [
    "Lfa.C198_bounded",
    "Lfa.C198_realisable",
    "Lfa.C198_table_bounded",
    "Lfa.C198_table",
    "Lfa.C198_runs",
    "Lfa.C198_grid",
    "Lfa.C198_example"
   ],
   "note": ""
  },
  {
   "property": "C199",
   "status": "proved",
   "theorems": [
    "Lfa.C199_fourier",
    "Lfa.C199_chebyshev",
    "Lfa.C199_polynomial",
    "Lfa.C199_kernels",
    "Lfa.C199_rational",
    "Lfa.C199_fourier_sharp",
    "Lfa.C199_chebyshev_sharp",
    "Lfa.C199_kernel_sharp",
    "Lfa.C199_example"
   ],
   "note": ""
  },
  {
   "property": "C200",
   "status": "proved",
   "theorems": [
    "Lfa.C200_adam",
    "Lfa.C200_adamax",
    "Lfa.C200_example"
   ],
   "note": ""
  },
  {
   "property": "C201",
   "status": "proved",
   "theorems": [
    "Lfa.C201_sgd",
    "Lfa.C201_isgd",
    "Lfa.C201_separable",
    "Lfa.C201_f64",
    "Lfa.C201_table",
    "Lfa.C201_runs",
    "Lfa.C201_example"
   ],
   "note": ""
  },
  {
   "property": "C202",
   "status": "proved",
   "theorems": [
    "Lfa.C202_adagrad",
    "Lfa.C202_adamax",
    "Lfa.C202_adam",
    "Lfa.C202_targets",
    "Lfa.C202_usual",
    "Lfa.C202_runs",
    "Lfa.C202_example"
   ],
   "note": ""
  },
  {
   "property": "C203",
   "status": "proved",
   "theorems": [
    "Lfa.C203_sgd",
    "Lfa.C203_isgd",
    "Lfa.C203_separable",
    "Lfa.C203_table",
    "Lfa.C203_table_isgd",
    "Lfa.C203_runs",
    "Lfa.C203_example",
    "Lfa.C203_f64",
    "Lfa.C203_f64_example"
   ],
   "note": ""
  },
  {
   "property": "C204",
   "status": "proved",
   "theorems": [
    "Lfa.C204_adagrad",
    "Lfa.C204_adamax",
    "Lfa.C204_adam",
    "Lfa.C204_q_learning",
    "Lfa.C204_runs",
    "Lfa.C204_example"
   ],
   "note": ""
  },
  {
   "property": "C205",
   "status": "proved",
   "theorems": [
    "Lfa.C205_adam",
    "Lfa.C205_adam_mixed",
    "Lfa.C205_adamax",
    "Lfa.C205_adamax_mixed",
    "Lfa.C205_with_bias",
    "Lfa.C205_example"
   ],
   "note": ""
  },
  {
   "property": "C206",
   "status": "proved",
   "theorems": [
    "Lfa.C206_sgd",
    "Lfa.C206_momentum",
    "Lfa.C206_nag",
    "Lfa.C206_adagrad",
    "Lfa.C206_adam",
    "Lfa.C206_adamax",
    "Lfa.C206_with_bias",
    "Lfa.C206_example"
   ],
   "note": ""
  },
  {
   "property": "C207",
   "status": "proved",
   "theorems": [
    "Lfa.C207_growth",
    "Lfa.C207_lost",
    "Lfa.C207_isgd",
    "Lfa.C207_scratch",
    "Lfa.C207_isgd_scratch",
    "Lfa.C207_runs",
    "Lfa.C207_isgd_runs",
    "Lfa.C207_every_rate",
    "Lfa.C207_example",
    "Lfa.C207_isgd_every_rate"
   ],
   "note": ""
  },
  {
   "property": "C208",
   "status": "proved",
   "theorems": [
    "Lfa.C208_runs",
    "Lfa.C208_sgd",
    "Lfa.C208_isgd",
    "Lfa.C208_example"
   ],
   "note": ""
  },
  {
   "property": "C209",
   "status": "proved",
   "theorems": [
    "Lfa.C209_update",
    "Lfa.C209_evaluate",
    "Lfa.C209_sgd",
    "Lfa.C209_isgd",
    "Lfa.C209_sgd_runs",
    "Lfa.C209_isgd_runs",
    "Lfa.C209_sgd_family",
    "Lfa.C209_isgd_family",
    "Lfa.C209_example"
   ],
   "note": ""
  },
  {
   "property": "C210",
   "status": "proved",
   "theorems": [
    "Lfa.C210_sgd",
    "Lfa.C210_isgd",
    "Lfa.C210_runs",
    "Lfa.C210_example"
   ],
   "note": ""
  },
  {
   "property": "C211",
   "status": "proved",
   "theorems": [
    "Lfa.C211_sgd",
    "Lfa.C211_isgd",
    "Lfa.C211_sgd_forgets",
    "Lfa.C211_isgd_forgets",
    "Lfa.C211_example"
   ],
   "note": ""
  }
 ]
}