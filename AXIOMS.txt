C01_constrain_array_strictly_inside: Classical.choice, Quot.sound, propext
C01_constrain_strictly_inside: Classical.choice, Quot.sound, propext
C02_unconstrain_constrain: Classical.choice, Quot.sound, propext
C02_unconstrain_constrain_array: Classical.choice, Quot.sound, propext
C03_constrain_unconstrain_partial: Classical.choice, Quot.sound, propext
C03_upper_bound_counterexample: Classical.choice, Quot.sound, propext
C04_array_rejects_exactly_out_of_bounds: Classical.choice, Quot.sound, propext
C04_scalar_rejects_exactly_out_of_bounds: Classical.choice, Quot.sound, propext
C05_constructed_value_partial: Classical.choice, Quot.sound, propext
C05_default_value_counterexample: Classical.choice, Quot.sound, propext
C05_default_value_partial: Classical.choice, Quot.sound, propext
C06_constructor_bounds: Classical.choice, Quot.sound, propext
C06_constructors: Classical.choice, Quot.sound, propext
C07_strictly_increasing_and_onto: Classical.choice, Quot.sound, propext
C08_hessians: Classical.choice, Quot.sound, propext
C08_jacobian: Classical.choice, Quot.sound, propext
C09_no_matrices_counterexample: Classical.choice, Quot.sound, propext
C09_set_free_get_free: Classical.choice, Quot.sound, propext
C100_arrays_unchanged: Classical.choice, Quot.sound, propext
C100_results_exist: Classical.choice, Quot.sound, propext
C101_set_free_copies: Classical.choice, Quot.sound, propext
C102_dictionary_get_vector_is_new: Classical.choice, Quot.sound, propext
C102_get_free_is_new: Classical.choice, Quot.sound, propext
C103_matrix_set_vector_copies_partial: Classical.choice, Quot.sound, propext
C103_set_counterexample: Classical.choice, Quot.sound, propext
C103_set_vector_counterexample: Classical.choice, Quot.sound, propext
C104_get_counterexample: Classical.choice, Quot.sound, propext
C104_get_vector_counterexample: Classical.choice, Quot.sound, propext
C104_get_vector_is_new_partial: Classical.choice, Quot.sound, propext
C105_free_to_vector: Classical.choice, Quot.sound, propext
C105_hess: Classical.choice, Quot.sound, propext
C105_jac: Classical.choice, Quot.sound, propext
C105_no_interference: Classical.choice, Quot.sound, propext
C105_read: Classical.choice, Quot.sound, propext
C105_set_free: Classical.choice, Quot.sound, propext
C105_set_vector: Classical.choice, Quot.sound, propext
C106_distinct_objects_partial: Classical.choice, Quot.sound, propext
C106_self_counterexample: Classical.choice, Quot.sound, propext
C106_shared_counterexample: Classical.choice, Quot.sound, propext
C107_same_object: Classical.choice, Quot.sound, propext
C108_one_sided_partial: Classical.choice, Quot.sound, propext
C108_overflow_counterexample: Classical.choice, Quot.sound, propext
C108_product_counterexample: Classical.choice, Quot.sound, propext
C108_rounding_counterexample: Classical.choice, Quot.sound, propext
C108_two_sided_partial: Classical.choice, Quot.sound, propext
C108_unit_interval_partial: Classical.choice, Quot.sound, propext
C109_counterexample: Classical.choice, Quot.sound, propext
C109_lower_partial: Classical.choice, Quot.sound, propext
C109_negative_partial: Classical.choice, Quot.sound, propext
C109_positive_partial: Classical.choice, Quot.sound, propext
C109_two_sided_partial: Classical.choice, Quot.sound, propext
C109_unbounded_partial: Classical.choice, Quot.sound, propext
C109_unit_interval_partial: Classical.choice, Quot.sound, propext
C109_upper_partial: Classical.choice, Quot.sound, propext
C10_set_vector_get_vector: Classical.choice, Quot.sound, propext
C10_vector_after_set_free: Classical.choice, Quot.sound, propext
C110_simplex_range: Classical.choice, Quot.sound, propext
C111_moderate_partial: Classical.choice, Quot.sound, propext
C111_underflow_counterexample: Classical.choice, Quot.sound, propext
C112_large_counterexample: Classical.choice, Quot.sound, propext
C112_lower_partial: Classical.choice, Quot.sound, propext
C112_unbounded_partial: Classical.choice, Quot.sound, propext
C112_upper_partial: Classical.choice, Quot.sound, propext
C112_width_counterexample: Classical.choice, Quot.sound, propext
C113_binary64_partial: Classical.choice, Quot.sound, propext
C113_counterexample: Classical.choice, Quot.sound, propext
C113_matrix_vector_partial: Classical.choice, Quot.sound, propext
C114_size: Classical.choice, Quot.sound, propext
C115_arrays_unchanged: Classical.choice, Quot.sound, propext
C115_call: Classical.choice, Quot.sound, propext
C115_calls: Classical.choice, Quot.sound, propext
C116_counterexample: Classical.choice, Quot.sound, propext
C116_preconditioned_partial: Classical.choice, Quot.sound, propext
C116_reuse_counterexample: Classical.choice, Quot.sound, propext
C116_untouched_partial: Classical.choice, Quot.sound, propext
C117_arrays_unchanged: Classical.choice, Quot.sound, propext
C117_call_partial: Classical.choice, Quot.sound, propext
C117_calls_partial: Classical.choice, Quot.sound, propext
C117_counterexample: Classical.choice, Quot.sound, propext
C117_state_partial: Classical.choice, Quot.sound, propext
C118_arrays_unchanged: Classical.choice, Quot.sound, propext
C118_call_partial: Classical.choice, Quot.sound, propext
C118_counterexample: Classical.choice, Quot.sound, propext
C118_state_partial: Classical.choice, Quot.sound, propext
C119_arrays_unchanged: Classical.choice, Quot.sound, propext
C119_base_partial: Classical.choice, Quot.sound, propext
C119_counterexample: Classical.choice, Quot.sound, propext
C119_later_new_partial: Classical.choice, Quot.sound, propext
C119_later_partial: Classical.choice, Quot.sound, propext
C119_new_partial: Classical.choice, Quot.sound, propext
C119_predict: Classical.choice, Quot.sound, propext
C119_set_base_partial: Classical.choice, Quot.sound, propext
C11_scalar_counterexample: Classical.choice, Quot.sound, propext
C11_wrong_length_partial: Classical.choice, Quot.sound, propext
C120_arrays_unchanged: Classical.choice, Quot.sound, propext
C120_counterexample: Classical.choice, Quot.sound, propext
C120_later_new_partial: Classical.choice, Quot.sound, propext
C120_later_partial: Classical.choice, Quot.sound, propext
C120_new_partial: Classical.choice, Quot.sound, propext
C120_predict_input: Classical.choice, Quot.sound, propext
C120_predict_output_partial: Classical.choice, Quot.sound, propext
C120_set_optimal_partial: Classical.choice, Quot.sound, propext
C121_arrays_unchanged: Classical.choice, Quot.sound, propext
C121_base_partial: Classical.choice, Quot.sound, propext
C121_counterexample: Classical.choice, Quot.sound, propext
C121_evaluate_partial: Classical.choice, Quot.sound, propext
C121_later_partial: Classical.choice, Quot.sound, propext
C121_new_partial: Classical.choice, Quot.sound, propext
C121_set_base_partial: Classical.choice, Quot.sound, propext
C121_set_order_partial: Classical.choice, Quot.sound, propext
C122_other_shape: Classical.choice, Quot.sound, propext
C122_set_from_constant: Classical.choice, Quot.sound, propext
C123_counterexample: Classical.choice, Quot.sound, propext
C123_messages_partial: Classical.choice, Quot.sound, propext
C124_arrays_unchanged: Classical.choice, Quot.sound, propext
C124_calls: Classical.choice, Quot.sound, propext
C124_counterexample: Classical.choice, Quot.sound, propext
C124_initialize: Classical.choice, Quot.sound, propext
C124_later_partial: Classical.choice, Quot.sound, propext
C124_new: Classical.choice, Quot.sound, propext
C125_parameter_at_result: Classical.choice, Quot.sound, propext
C126_no_increase: Classical.choice, Quot.sound, propext
C127_history: Classical.choice, Quot.sound, propext
C127_history_preconditioned: Classical.choice, Quot.sound, propext
C128_conversion: Classical.choice, Quot.sound, propext
C128_evaluations_partial: Classical.choice, Quot.sound, propext
C128_minimize_counterexample: Classical.choice, Quot.sound, propext
C128_safe_matmul: Classical.choice, Quot.sound, propext
C129_accuracy: Classical.choice, Quot.sound, propext
C129_log_logitnormal: Classical.choice, Quot.sound, propext
C12_posdef_array_counterexample: Classical.choice, Quot.sound, propext
C12_posdef_vector_counterexample: Classical.choice, Quot.sound, propext
C12_set_accepts_partial: Classical.choice, Quot.sound, propext
C12_vector_counterexample: Classical.choice, Quot.sound, propext
C130_accuracy_partial: Classical.choice, Quot.sound, propext
C130_infinite_counterexample: Classical.choice, Quot.sound, propext
C130_overflow_counterexample: Classical.choice, Quot.sound, propext
C130_quadrature_accuracy_partial: Classical.choice, Quot.sound, propext
C130_quadrature_counterexample: Classical.choice, Quot.sound, propext
C131_diagonal_partial: Classical.choice, Quot.sound, propext
C131_large_counterexample: Classical.choice, Quot.sound, propext
C131_large_single_counterexample: Classical.choice, Quot.sound, propext
C131_lower_bound_counterexample: Classical.choice, Quot.sound, propext
C131_off_diagonal_counterexample: Classical.choice, Quot.sound, propext
C131_overflow_counterexample: Classical.choice, Quot.sound, propext
C131_set_free_accuracy: Classical.choice, Quot.sound, propext
C131_small_counterexample: Classical.choice, Quot.sound, propext
C131_symmetric: Classical.choice, Quot.sound, propext
C132_arrays_unchanged: Classical.choice, Quot.sound, propext
C132_minimize: Classical.choice, Quot.sound, propext
C132_new_array: Classical.choice, Quot.sound, propext
C133_in_place_counterexample: Classical.choice, Quot.sound, propext
C133_minimizers: Classical.choice, Quot.sound, propext
C133_moved_counterexample: Classical.choice, Quot.sound, propext
C133_new_arrays_partial: Classical.choice, Quot.sound, propext
C134_mean: Classical.choice, Quot.sound, propext
C134_overflow_counterexample: Classical.choice, Quot.sound, propext
C134_small_counterexample: Classical.choice, Quot.sound, propext
C134_variance_partial: Classical.choice, Quot.sound, propext
C135_constant: Classical.choice, Quot.sound, propext
C135_counterexample: Classical.choice, Quot.sound, propext
C135_not_negative: Classical.choice, Quot.sound, propext
C135_uvn_entropy: Classical.choice, Quot.sound, propext
C135_variance_partial: Classical.choice, Quot.sound, propext
C136_free_values: Classical.choice, Quot.sound, propext
C136_multinoulli_entropy: Classical.choice, Quot.sound, propext
C137_interrupted_assignment: Classical.choice, Quot.sound, propext
C137_interrupted_failure: Classical.choice, Quot.sound, propext
C138_log: Classical.choice, Quot.sound, propext
C138_restart: Classical.choice, Quot.sound, propext
C139_counterexample: Classical.choice, Quot.sound, propext
C139_partial: Classical.choice, Quot.sound, propext
C13_enumeration_lexicographic: Classical.choice, Quot.sound, propext
C13_enumeration_row_major: Classical.choice, Quot.sound, propext
C13_ravel_is_rank: Classical.choice, Quot.sound, propext
C140_alone: Classical.choice, Quot.sound, propext
C140_can_finish: Classical.choice, Quot.sound, propext
C140_counterexample: Classical.choice, Quot.sound, propext
C140_mixture_partial: Classical.choice, Quot.sound, propext
C140_same_point_partial: Classical.choice, Quot.sound, propext
C141_counterexample: Classical.choice, Quot.sound, propext
C141_partial: Classical.choice, Quot.sound, propext
C141_same_point_partial: Classical.choice, Quot.sound, propext
C142_failures: Classical.choice, Quot.sound, propext
C142_names: Classical.choice, Quot.sound, propext
C142_nonneg: Classical.choice, Quot.sound, propext
C142_recorded: Classical.choice, Quot.sound, propext
C143_chain: Classical.choice, Quot.sound, propext
C143_compress: Classical.choice, Quot.sound, propext
C143_safe_matmul: Classical.choice, Quot.sound, propext
C144_complete: Classical.choice, Quot.sound, propext
C144_counterexample: Classical.choice, Quot.sound, propext
C144_text_determines_partial: Classical.choice, Quot.sound, propext
C145_covariance: Classical.choice, Quot.sound, propext
C146_normal_posterior: Classical.choice, Quot.sound, propext
C147_full_rank: Classical.choice, Quot.sound, propext
C147_posdef_hessian: Classical.choice, Quot.sound, propext
C147_stationary: Classical.choice, Quot.sound, propext
C148_after_set_free: Classical.choice, Quot.sound, propext
C148_moments: Classical.choice, Quot.sound, propext
C148_three_axes: Classical.choice, Quot.sound, propext
C149_homeomorphism: Classical.choice, Quot.sound, propext
C149_local_minima: Classical.choice, Quot.sound, propext
C149_open: Classical.choice, Quot.sound, propext
C14_symIndex_bijection: Classical.choice, Quot.sound, propext
C150_image: Classical.choice, Quot.sound, propext
C150_local_minima: Classical.choice, Quot.sound, propext
C150_set_vector_get_free: Classical.choice, Quot.sound, propext
C151_inconsistent_counterexample: Classical.choice, Quot.sound, propext
C151_repeat_counterexample: Classical.choice, Quot.sound, propext
C151_repeat_partial: Classical.choice, Quot.sound, propext
C152_counterexample: Classical.choice, Quot.sound, propext
C152_returned_partial: Classical.choice, Quot.sound, propext
C153_linear_error: Classical.choice, Quot.sound, propext
C153_output_error: Classical.choice, Quot.sound, propext
C153_parametric_sensitivity_error: Classical.choice, Quot.sound, propext
C153_taylor_error: Classical.choice, Quot.sound, propext
C154_classes_agree: Classical.choice, Quot.sound, propext
C155_linear_exact: Classical.choice, Quot.sound, propext
C155_taylor_exact: Classical.choice, Quot.sound, propext
C156_local_hessians_add: Classical.choice, Quot.sound, propext
C157_calls: Classical.choice, Quot.sound, propext
C157_derivatives: Classical.choice, Quot.sound, propext
C158_linear_approximation: Classical.choice, Quot.sound, propext
C158_parametric_sensitivity: Classical.choice, Quot.sound, propext
C159_converted_hessian: Classical.choice, Quot.sound, propext
C159_parameterization: Classical.choice, Quot.sound, propext
C15_unvectorize_vectorize: Classical.choice, Quot.sound, propext
C15_vectorize_unvectorize: Classical.choice, Quot.sound, propext
C160_derivative_kept_partial: Classical.choice, Quot.sound, propext
C160_linear_counterexample: Classical.choice, Quot.sound, propext
C160_taylor_counterexample: Classical.choice, Quot.sound, propext
C161_draws: Classical.choice, Quot.sound, propext
C161_logistic_term: Classical.choice, Quot.sound, propext
C162_dirichlet: Classical.choice, Quot.sound, propext
C162_exponential: Classical.choice, Quot.sound, propext
C162_gamma: Classical.choice, Quot.sound, propext
C162_mvn: Classical.choice, Quot.sound, propext
C162_uvn: Classical.choice, Quot.sound, propext
C163_mvn: Classical.choice, Quot.sound, propext
C163_regression: Classical.choice, Quot.sound, propext
C164_counterexample: Classical.choice, Quot.sound, propext
C164_numbers_partial: Classical.choice, Quot.sound, propext
C164_placeholder_fails: Classical.choice, Quot.sound, propext
C165_alone: Classical.choice, Quot.sound, propext
C165_numbers: Classical.choice, Quot.sound, propext
C165_placeholder_seen: Classical.choice, Quot.sound, propext
C166_sequential: Classical.choice, Quot.sound, propext
C166_stacked: Classical.choice, Quot.sound, propext
C167_polynomial: Classical.choice, Quot.sound, propext
C167_scaling: Classical.choice, Quot.sound, propext
C168_inexact_subsets: Classical.choice, Quot.sound, propext
C169_apply_matrix_function: Classical.choice, Quot.sound, propext
C169_array_slices: Classical.choice, Quot.sound, propext
C169_negative_positions: Classical.choice, Quot.sound, propext
C169_simplex_rows: Classical.choice, Quot.sound, propext
C169_sizes: Classical.choice, Quot.sound, propext
C169_vector_slices: Classical.choice, Quot.sound, propext
C16_unvectorize_accepts_triangular: Classical.choice, Quot.sound, propext
C16_vectorize_rejects_nonsquare: Classical.choice, Quot.sound, propext
C170_integer_constants: Classical.choice, Quot.sound, propext
C170_print_terms: Classical.choice, Quot.sound, propext
C170_text_determines: Classical.choice, Quot.sound, propext
C171_linear_approximation: Classical.choice, Quot.sound, propext
C171_parametric_sensitivity: Classical.choice, Quot.sound, propext
C171_part: Classical.choice, Quot.sound, propext
C171_taylor: Classical.choice, Quot.sound, propext
C172_coordinates: Classical.choice, Quot.sound, propext
C172_observations: Classical.choice, Quot.sound, propext
C172_order: Classical.choice, Quot.sound, propext
C172_regressors: Classical.choice, Quot.sound, propext
C172_replicates: Classical.choice, Quot.sound, propext
C173_dirichlet: Classical.choice, Quot.sound, propext
C173_gamma: Classical.choice, Quot.sound, propext
C173_uvn: Classical.choice, Quot.sound, propext
C174_missing_vector_counterexample: Classical.choice, Quot.sound, propext
C174_name_counterexample: Classical.choice, Quot.sound, propext
C174_no_arguments: Classical.choice, Quot.sound, propext
C174_objective_partial: Classical.choice, Quot.sound, propext
C174_plain: Classical.choice, Quot.sound, propext
C174_two_parameters_partial: Classical.choice, Quot.sound, propext
C174_two_parameters_plain: Classical.choice, Quot.sound, propext
C175_blocks: Classical.choice, Quot.sound, propext
C175_dirichlet: Classical.choice, Quot.sound, propext
C175_exponential: Classical.choice, Quot.sound, propext
C175_gamma: Classical.choice, Quot.sound, propext
C175_model: Classical.choice, Quot.sound, propext
C175_mvn: Classical.choice, Quot.sound, propext
C175_uvn: Classical.choice, Quot.sound, propext
C176_conditioned_hessian: Classical.choice, Quot.sound, propext
C176_newton_step: Classical.choice, Quot.sound, propext
C176_quadratic: Classical.choice, Quot.sound, propext
C177_linear_approximation: Classical.choice, Quot.sound, propext
C177_linear_visible: Classical.choice, Quot.sound, propext
C177_parametric_sensitivity: Classical.choice, Quot.sound, propext
C177_taylor: Classical.choice, Quot.sound, propext
C178_infinite: Classical.choice, Quot.sound, propext
C178_nan: Classical.choice, Quot.sound, propext
C178_nan_array: Classical.choice, Quot.sound, propext
C178_simplex_minus_infinity: Classical.choice, Quot.sound, propext
C178_simplex_nan: Classical.choice, Quot.sound, propext
C178_simplex_plus_infinity: Classical.choice, Quot.sound, propext
C178_simplex_read: Classical.choice, Quot.sound, propext
C179_existence: Classical.choice, Quot.sound, propext
C179_fit: Classical.choice, Quot.sound, propext
C179_global: Classical.choice, Quot.sound, propext
C179_value: Classical.choice, Quot.sound, propext
C17_symmetric_roundtrip: Classical.choice, Quot.sound, propext
C17_unvectorize_symmetric: Classical.choice, Quot.sound, propext
C180_derivative: Classical.choice, Quot.sound, propext
C180_dropped: Classical.choice, Quot.sound, propext
C180_influence: Classical.choice, Quot.sound, propext
C180_nearby: Classical.choice, Quot.sound, propext
C180_refit: Classical.choice, Quot.sound, propext
C180_summary: Classical.choice, Quot.sound, propext
C181_converter_input: Classical.choice, Quot.sound, propext
C181_converter_output: Classical.choice, Quot.sound, propext
C181_converter_set_vector: Classical.choice, Quot.sound, propext
C181_coordinates: Classical.choice, Quot.sound, propext
C181_gradient: Classical.choice, Quot.sound, propext
C181_gradient_legal: Classical.choice, Quot.sound, propext
C181_jacobian: Classical.choice, Quot.sound, propext
C181_two_parameters: Classical.choice, Quot.sound, propext
C182_distance: Classical.choice, Quot.sound, propext
C182_no_effect: Classical.choice, Quot.sound, propext
C182_raised: Classical.choice, Quot.sound, propext
C182_returned: Classical.choice, Quot.sound, propext
C183_calls: Classical.choice, Quot.sound, propext
C183_linear_approximation: Classical.choice, Quot.sound, propext
C183_nested_calls: Classical.choice, Quot.sound, propext
C183_nested_linear_approximation: Classical.choice, Quot.sound, propext
C183_nested_objective: Classical.choice, Quot.sound, propext
C183_nested_rearrangement: Classical.choice, Quot.sound, propext
C183_nested_sensitivity: Classical.choice, Quot.sound, propext
C183_nested_taylor: Classical.choice, Quot.sound, propext
C183_objective: Classical.choice, Quot.sound, propext
C183_rearrangement: Classical.choice, Quot.sound, propext
C183_sensitivity: Classical.choice, Quot.sound, propext
C183_taylor: Classical.choice, Quot.sound, propext
C184_linear_approximation: Classical.choice, Quot.sound, propext
C184_parametric_sensitivity: Classical.choice, Quot.sound, propext
C184_rescaled: Classical.choice, Quot.sound, propext
C184_taylor: Classical.choice, Quot.sound, propext
C185_posterior_is_optimal: Classical.choice, Quot.sound, propext
C185_unique_free_optimum: Classical.choice, Quot.sound, propext
C186_conversion: Classical.choice, Quot.sound, propext
C186_jacobian: Classical.choice, Quot.sound, propext
C186_objective: Classical.choice, Quot.sound, propext
C186_two_parameters: Classical.choice, Quot.sound, propext
C187_alone: Classical.choice, Quot.sound, propext
C187_alone_convert: Classical.choice, Quot.sound, propext
C187_alone_jacobian: Classical.choice, Quot.sound, propext
C187_alone_value: Classical.choice, Quot.sound, propext
C187_input_partial: Classical.choice, Quot.sound, propext
C187_output_counterexample: Classical.choice, Quot.sound, propext
C187_two_parameters: Classical.choice, Quot.sound, propext
C188_conversions_partial: Classical.choice, Quot.sound, propext
C188_counterexample: Classical.choice, Quot.sound, propext
C188_predictions_counterexample: Classical.choice, Quot.sound, propext
C188_predictions_partial: Classical.choice, Quot.sound, propext
C188_two_parameters_counterexample: Classical.choice, Quot.sound, propext
C188_two_parameters_partial: Classical.choice, Quot.sound, propext
C189_affine_exact: Classical.choice, Quot.sound, propext
C189_polynomial_exact: Classical.choice, Quot.sound, propext
C18_forward_rule: Classical.choice, Quot.sound, propext
C18_reverse_rule_adjoint: Classical.choice, Quot.sound, propext
C190_order_does_not_matter: Classical.choice, Quot.sound, propext
C191_conditioned: Classical.choice, Quot.sound, propext
C191_conditioned_positive: Classical.choice, Quot.sound, propext
C191_linear_symmetric: Classical.choice, Quot.sound, propext
C192_chained_converters: Classical.choice, Quot.sound, propext
C192_objective_after_converter: Classical.choice, Quot.sound, propext
C193_entropy_free: Classical.choice, Quot.sound, propext
C193_pack_log_det: Classical.choice, Quot.sound, propext
C193_set_free_det: Classical.choice, Quot.sound, propext
C193_unpack_det: Classical.choice, Quot.sound, propext
C194_get_free_log_odds: Classical.choice, Quot.sound, propext
C194_rows_independent: Classical.choice, Quot.sound, propext
C194_set_free_log_odds: Classical.choice, Quot.sound, propext
C195_distances: Classical.choice, Quot.sound, propext
C195_get_free_contracts: Classical.choice, Quot.sound, propext
C195_inner_products: Classical.choice, Quot.sound, propext
C196_averages: Classical.choice, Quot.sound, propext
C196_local_is_global: Classical.choice, Quot.sound, propext
C196_stationary_is_global: Classical.choice, Quot.sound, propext
C196_unique_minimum: Classical.choice, Quot.sound, propext
C196_zero_conditioned_gradient: Classical.choice, Quot.sound, propext
C196_zero_gradient: Classical.choice, Quot.sound, propext
C197_congruent: Classical.choice, Quot.sound, propext
C197_covariance: Classical.choice, Quot.sound, propext
C19_parameter_set_free: Classical.choice, Quot.sound, propext
C19_unpack_posdef: Classical.choice, Quot.sound, propext
C20_pack_rejects_non_posdef: Classical.choice, Quot.sound, propext
C20_pack_unpack: Classical.choice, Quot.sound, propext
C20_unpack_pack: Classical.choice, Quot.sound, propext
C21_always_symmetric: Classical.choice, Quot.sound, propext
C22_array_of_matrices: Classical.choice, Quot.sound, propext
C22_vector_of_matrices: Classical.choice, Quot.sound, propext
C23_hessians: Classical.choice, Quot.sound, propext
C23_jacobian: Classical.choice, Quot.sound, propext
C24_default_array_counterexample: Classical.choice, Quot.sound, propext
C24_defaults_partial: Classical.choice, Quot.sound, propext
C25_parameter_rows_on_simplex: Classical.choice, Quot.sound, propext
C25_rows_on_simplex: Classical.choice, Quot.sound, propext
C26_constrain_unconstrain: Classical.choice, Quot.sound, propext
C26_unconstrain_constrain: Classical.choice, Quot.sound, propext
C27_simplex_gradient: Classical.choice, Quot.sound, propext
C28_simplex_hessian: Classical.choice, Quot.sound, propext
C29_hessians: Classical.choice, Quot.sound, propext
C29_jacobian: Classical.choice, Quot.sound, propext
C30_constraint_satisfied: Classical.choice, Quot.sound, propext
C30_default_sums_to_zero: Classical.choice, Quot.sound, propext
C31_round_trip_and_projection: Classical.choice, Quot.sound, propext
C32_default_construction: Classical.choice, Quot.sound, propext
C32_full_rank_construction: Classical.choice, Quot.sound, propext
C33_dictionary_sizes: Classical.choice, Quot.sound, propext
C33_empty_dictionary: Classical.choice, Quot.sound, propext
C33_lengths: Classical.choice, Quot.sound, propext
C34_free_round_trip: Classical.choice, Quot.sound, propext
C34_vector_round_trip: Classical.choice, Quot.sound, propext
C34_wrong_length: Classical.choice, Quot.sound, propext
C35_free_slices: Classical.choice, Quot.sound, propext
C35_ranges_tile: Classical.choice, Quot.sound, propext
C35_vector_slices: Classical.choice, Quot.sound, propext
C36_free_noninterference: Classical.choice, Quot.sound, propext
C36_vector_noninterference: Classical.choice, Quot.sound, propext
C37_duplicate_name_counterexample: Classical.choice, Quot.sound, propext
C37_new_name_partial: Classical.choice, Quot.sound, propext
C38_nested_extension_counterexample: Classical.choice, Quot.sound, propext
C38_reading_partial: Classical.choice, Quot.sound, propext
C39_blocks: Classical.choice, Quot.sound, propext
C39_jacobian: Classical.choice, Quot.sound, propext
C40_hessians: Classical.choice, Quot.sound, propext
C41_empty_vector: Classical.choice, Quot.sound, propext
C41_free_hessian: Classical.choice, Quot.sound, propext
C42_dictionary_counterexample: Classical.choice, Quot.sound, propext
C42_scalar_counterexample: Classical.choice, Quot.sound, propext
C42_set_free_repairs: Classical.choice, Quot.sound, propext
C42_untraced_partial: Classical.choice, Quot.sound, propext
C43_history: Classical.choice, Quot.sound, propext
C43_read: Classical.choice, Quot.sound, propext
C43_write: Classical.choice, Quot.sound, propext
C44_parameter_holds_point: Classical.choice, Quot.sound, propext
C45_counterexample: Classical.choice, Quot.sound, propext
C45_partial: Classical.choice, Quot.sound, propext
C46_no_preconditioner: Classical.choice, Quot.sound, propext
C46_preconditioned: Classical.choice, Quot.sound, propext
C47_dimension_change: Classical.choice, Quot.sound, propext
C47_initialize: Classical.choice, Quot.sound, propext
C47_logger: Classical.choice, Quot.sound, propext
C47_objective_logs: Classical.choice, Quot.sound, propext
C47_rate_zero: Classical.choice, Quot.sound, propext
C48_free: Classical.choice, Quot.sound, propext
C48_mixed: Classical.choice, Quot.sound, propext
C48_off_diagonal: Classical.choice, Quot.sound, propext
C48_vector: Classical.choice, Quot.sound, propext
C49_jacobian: Classical.choice, Quot.sound, propext
C50_base_prediction_partial: Classical.choice, Quot.sound, propext
C50_linear_counterexample: Classical.choice, Quot.sound, propext
C51_history: Classical.choice, Quot.sound, propext
C51_linear_approximation: Classical.choice, Quot.sound, propext
C51_optimum_exists: Classical.choice, Quot.sound, propext
C51_parametric_sensitivity: Classical.choice, Quot.sound, propext
C52_module_functions: Classical.choice, Quot.sound, propext
C52_set_order: Classical.choice, Quot.sound, propext
C53_consolidation_keeps_sum: Classical.choice, Quot.sound, propext
C54_consolidation_partial: Classical.choice, Quot.sound, propext
C54_three_like_terms_counterexample: Classical.choice, Quot.sound, propext
C55_derivatives_exist: Classical.choice, Quot.sound, propext
C55_history: Classical.choice, Quot.sound, propext
C55_kth_derivative: Classical.choice, Quot.sound, propext
C56_history: Classical.choice, Quot.sound, propext
C56_taylor_series: Classical.choice, Quot.sound, propext
C57_all_orders_partial: Classical.choice, Quot.sound, propext
C57_constructor_counterexample: Classical.choice, Quot.sound, propext
C57_linear_approximation_partial: Classical.choice, Quot.sound, propext
C57_set_base_values_partial: Classical.choice, Quot.sound, propext
C58_free_hyper_counterexample: Classical.choice, Quot.sound, propext
C58_supplied_hessian_partial: Classical.choice, Quot.sound, propext
C58_vector_input_counterexample: Classical.choice, Quot.sound, propext
C59_derivative_array: Classical.choice, Quot.sound, propext
C60_split_vector: Classical.choice, Quot.sound, propext
C61_recursive_split: Classical.choice, Quot.sound, propext
C62_termination_partial: Classical.choice, Quot.sound, propext
C62_zero_counterexample: Classical.choice, Quot.sound, propext
C63_get_masks: Classical.choice, Quot.sound, propext
C64_records_aligned: Classical.choice, Quot.sound, propext
C64_subset_solves_sum: Classical.choice, Quot.sound, propext
C65_between_thresholds: Classical.choice, Quot.sound, propext
C65_inverse_square_root: Classical.choice, Quot.sound, propext
C65_positive_threshold: Classical.choice, Quot.sound, propext
C65_set_preconditioner: Classical.choice, Quot.sound, propext
C65_set_preconditioner_none: Classical.choice, Quot.sound, propext
C66_report: Classical.choice, Quot.sound, propext
C66_start: Classical.choice, Quot.sound, propext
C66_stationary: Classical.choice, Quot.sound, propext
C66_stay: Classical.choice, Quot.sound, propext
C67_repeated: Classical.choice, Quot.sound, propext
C68_returns_partial: Classical.choice, Quot.sound, propext
C68_zero_iterations_counterexample: Classical.choice, Quot.sound, propext
C69_accepts: Classical.choice, Quot.sound, propext
C69_entries_add: Classical.choice, Quot.sound, propext
C69_hessian: Classical.choice, Quot.sound, propext
C69_scatter: Classical.choice, Quot.sound, propext
C70_constructed_valid: Classical.choice, Quot.sound, propext
C70_json_rejects: Classical.choice, Quot.sound, propext
C70_json_round_trip: Classical.choice, Quot.sound, propext
C70_pack_unpack: Classical.choice, Quot.sound, propext
C71_index_param: Classical.choice, Quot.sound, propext
C72_after_set_free: Classical.choice, Quot.sound, propext
C72_lognormal_moments: Classical.choice, Quot.sound, propext
C72_uvn_moments: Classical.choice, Quot.sound, propext
C73_entropy: Classical.choice, Quot.sound, propext
C73_uvn_entropy: Classical.choice, Quot.sound, propext
C74_natural_parameters: Classical.choice, Quot.sound, propext
C75_log_prob_partial: Classical.choice, Quot.sound, propext
C75_not_normalized_counterexample: Classical.choice, Quot.sound, propext
C76_set_from_uvn_partial: Classical.choice, Quot.sound, propext
C76_var_exp_counterexample: Classical.choice, Quot.sound, propext
C77_after_set_free: Classical.choice, Quot.sound, propext
C77_mean_on_simplex: Classical.choice, Quot.sound, propext
C77_two_component_entropy: Classical.choice, Quot.sound, propext
C78_size_counterexample: Classical.choice, Quot.sound, propext
C78_wishart_partial: Classical.choice, Quot.sound, propext
C79_minimizer: Classical.choice, Quot.sound, propext
C80_likelihood_natural_parameters: Classical.choice, Quot.sound, propext
C80_posterior: Classical.choice, Quot.sound, propext
C80_prior_round_trip: Classical.choice, Quot.sound, propext
C81_dirichlet_prior: Classical.choice, Quot.sound, propext
C81_exponential_prior: Classical.choice, Quot.sound, propext
C81_gamma_prior: Classical.choice, Quot.sound, propext
C81_mvn_prior: Classical.choice, Quot.sound, propext
C81_uvn_prior: Classical.choice, Quot.sound, propext
C82_standard_draws: Classical.choice, Quot.sound, propext
C83_log_expit: Classical.choice, Quot.sound, propext
C83_log_logitnormal: Classical.choice, Quot.sound, propext
C84_after_set_free: Classical.choice, Quot.sound, propext
C84_moments_consistent: Classical.choice, Quot.sound, propext
C84_true_moments: Classical.choice, Quot.sound, propext
C85_after_set_free: Classical.choice, Quot.sound, propext
C85_gamma_moments: Classical.choice, Quot.sound, propext
C86_at_point: Classical.choice, Quot.sound, propext
C86_derivatives: Classical.choice, Quot.sound, propext
C86_jacobian: Classical.choice, Quot.sound, propext
C87_hessian_paths_agree: Classical.choice, Quot.sound, propext
C87_legal_values: Classical.choice, Quot.sound, propext
C88_all_orders_partial: Classical.choice, Quot.sound, propext
C88_first_order_partial: Classical.choice, Quot.sound, propext
C88_quadratic_partial: Classical.choice, Quot.sound, propext
C88_second_order_counterexample: Classical.choice, Quot.sound, propext
C89_counterexample: Classical.choice, Quot.sound, propext
C89_last_call_partial: Classical.choice, Quot.sound, propext
C90_exact_on_polynomials: Classical.choice, Quot.sound, propext
C91_average_over_draws: Classical.choice, Quot.sound, propext
C91_gauss_hermite: Classical.choice, Quot.sound, propext
C91_standard_draws: Classical.choice, Quot.sound, propext
C92_density: Classical.choice, Quot.sound, propext
C92_entropy: Classical.choice, Quot.sound, propext
C93_dictval_partial: Classical.choice, Quot.sound, propext
C93_placeholder_counterexample: Classical.choice, Quot.sound, propext
C93_renamed_counterexample: Classical.choice, Quot.sound, propext
C94_array_counterexample: Classical.choice, Quot.sound, propext
C94_collision_counterexample: Classical.choice, Quot.sound, propext
C94_empty_dictionary: Classical.choice, Quot.sound, propext
C94_names_partial: Classical.choice, Quot.sound, propext
C94_vector_names: Classical.choice, Quot.sound, propext
C95_beta_entropy: Classical.choice, Quot.sound, propext
C95_dirichlet_methods: Classical.choice, Quot.sound, propext
C95_dirichlet_moments: Classical.choice, Quot.sound, propext
C96_certain_value: Classical.choice, Quot.sound, propext
C96_multinoulli_entropy: Classical.choice, Quot.sound, propext
C96_zero_min_prob: Classical.choice, Quot.sound, propext
C97_dp_prior: Classical.choice, Quot.sound, propext
C97_logitnormal_mean: Classical.choice, Quot.sound, propext
C98_density: Classical.choice, Quot.sound, propext
C98_entropy: Classical.choice, Quot.sound, propext
C98_lkj: Classical.choice, Quot.sound, propext
C98_log_det: Classical.choice, Quot.sound, propext
C98_log_inv_diag: Classical.choice, Quot.sound, propext
C98_methods: Classical.choice, Quot.sound, propext
C98_reachable: Classical.choice, Quot.sound, propext
C99_case: Classical.choice, Quot.sound, propext
C99_e_inv_counterexample: Classical.choice, Quot.sound, propext
C99_e_inv_partial: Classical.choice, Quot.sound, propext
