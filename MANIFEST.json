{
 "claims": [
  {
   "property": "C01",
   "status": "proved",
   "theorems": [
    "LRVB.C01_constrain_strictly_inside",
    "LRVB.C01_constrain_array_strictly_inside"
   ],
   "note": ""
  },
  {
   "property": "C02",
   "status": "proved",
   "theorems": [
    "LRVB.C02_unconstrain_constrain",
    "LRVB.C02_unconstrain_constrain_array"
   ],
   "note": ""
  },
  {
   "property": "C03",
   "status": "partial",
   "theorems": [
    "LRVB.C03_constrain_unconstrain_partial",
    "LRVB.C03_upper_bound_counterexample"
   ],
   "note": "False at the upper bound when both bounds are finite (C03_upper_bound_counterexample); proved for every other accepted value."
  },
  {
   "property": "C04",
   "status": "proved",
   "theorems": [
    "LRVB.C04_scalar_rejects_exactly_out_of_bounds",
    "LRVB.C04_array_rejects_exactly_out_of_bounds"
   ],
   "note": ""
  },
  {
   "property": "C05",
   "status": "partial",
   "theorems": [
    "LRVB.C05_default_value_counterexample",
    "LRVB.C05_default_value_partial",
    "LRVB.C05_constructed_value_partial"
   ],
   "note": "False in general (C05_default_value_counterexample); the partial theorem characterises exactly when it holds."
  },
  {
   "property": "C06",
   "status": "proved",
   "theorems": [
    "LRVB.C06_constructor_bounds",
    "LRVB.C06_constructors"
   ],
   "note": ""
  },
  {
   "property": "C07",
   "status": "proved",
   "theorems": [
    "LRVB.C07_strictly_increasing_and_onto"
   ],
   "note": ""
  },
  {
   "property": "C08",
   "status": "proved",
   "theorems": [
    "LRVB.C08_jacobian",
    "LRVB.C08_hessians"
   ],
   "note": ""
  },
  {
   "property": "C09",
   "status": "proved",
   "theorems": [
    "LRVB.C09_set_free_get_free",
    "LRVB.C09_no_matrices_counterexample"
   ],
   "note": ""
  },
  {
   "property": "C10",
   "status": "proved",
   "theorems": [
    "LRVB.C10_set_vector_get_vector",
    "LRVB.C10_vector_after_set_free"
   ],
   "note": ""
  },
  {
   "property": "C11",
   "status": "partial",
   "theorems": [
    "LRVB.C11_scalar_counterexample",
    "LRVB.C11_wrong_length_partial"
   ],
   "note": "False for scalars: set_free and set_vector accept two entries and afterwards the getters raise (C11_scalar_counterexample). Proved for every other type."
  },
  {
   "property": "C12",
   "status": "partial",
   "theorems": [
    "LRVB.C12_posdef_vector_counterexample",
    "LRVB.C12_posdef_array_counterexample",
    "LRVB.C12_vector_counterexample",
    "LRVB.C12_set_accepts_partial"
   ],
   "note": "False for vectors and for vectors and arrays of matrices (three counterexamples). The partial theorem gives the exact acceptance condition of set() for every type."
  },
  {
   "property": "C13",
   "status": "proved",
   "theorems": [
    "LRVB.C13_enumeration_row_major",
    "LRVB.C13_enumeration_lexicographic",
    "LRVB.C13_ravel_is_rank"
   ],
   "note": ""
  },
  {
   "property": "C14",
   "status": "proved",
   "theorems": [
    "LRVB.C14_symIndex_bijection"
   ],
   "note": ""
  },
  {
   "property": "C15",
   "status": "proved",
   "theorems": [
    "LRVB.C15_vectorize_unvectorize",
    "LRVB.C15_unvectorize_vectorize"
   ],
   "note": ""
  },
  {
   "property": "C16",
   "status": "proved",
   "theorems": [
    "LRVB.C16_unvectorize_accepts_triangular",
    "LRVB.C16_vectorize_rejects_nonsquare"
   ],
   "note": ""
  },
  {
   "property": "C17",
   "status": "proved",
   "theorems": [
    "LRVB.C17_unvectorize_symmetric",
    "LRVB.C17_symmetric_roundtrip"
   ],
   "note": ""
  },
  {
   "property": "C18",
   "status": "proved",
   "theorems": [
    "LRVB.C18_forward_rule",
    "LRVB.C18_reverse_rule_adjoint"
   ],
   "note": ""
  },
  {
   "property": "C19",
   "status": "proved",
   "theorems": [
    "LRVB.C19_unpack_posdef",
    "LRVB.C19_parameter_set_free"
   ],
   "note": ""
  },
  {
   "property": "C20",
   "status": "proved",
   "theorems": [
    "LRVB.C20_pack_unpack",
    "LRVB.C20_unpack_pack",
    "LRVB.C20_pack_rejects_non_posdef"
   ],
   "note": ""
  },
  {
   "property": "C21",
   "status": "proved",
   "theorems": [
    "LRVB.C21_always_symmetric"
   ],
   "note": ""
  },
  {
   "property": "C22",
   "status": "proved",
   "theorems": [
    "LRVB.C22_vector_of_matrices",
    "LRVB.C22_array_of_matrices"
   ],
   "note": ""
  },
  {
   "property": "C23",
   "status": "proved",
   "theorems": [
    "LRVB.C23_jacobian",
    "LRVB.C23_hessians"
   ],
   "note": ""
  },
  {
   "property": "C24",
   "status": "partial",
   "theorems": [
    "LRVB.C24_default_array_counterexample",
    "LRVB.C24_defaults_partial"
   ],
   "note": "False for PosDefMatrixParamArray (C24_default_array_counterexample); proved for all other types."
  },
  {
   "property": "C25",
   "status": "proved",
   "theorems": [
    "LRVB.C25_rows_on_simplex",
    "LRVB.C25_parameter_rows_on_simplex"
   ],
   "note": ""
  },
  {
   "property": "C26",
   "status": "proved",
   "theorems": [
    "LRVB.C26_unconstrain_constrain",
    "LRVB.C26_constrain_unconstrain"
   ],
   "note": ""
  },
  {
   "property": "C27",
   "status": "proved",
   "theorems": [
    "LRVB.C27_simplex_gradient"
   ],
   "note": ""
  },
  {
   "property": "C28",
   "status": "proved",
   "theorems": [
    "LRVB.C28_simplex_hessian"
   ],
   "note": ""
  },
  {
   "property": "C29",
   "status": "proved",
   "theorems": [
    "LRVB.C29_jacobian",
    "LRVB.C29_hessians"
   ],
   "note": ""
  },
  {
   "property": "C30",
   "status": "proved",
   "theorems": [
    "LRVB.C30_constraint_satisfied",
    "LRVB.C30_default_sums_to_zero"
   ],
   "note": ""
  },
  {
   "property": "C31",
   "status": "proved",
   "theorems": [
    "LRVB.C31_round_trip_and_projection"
   ],
   "note": ""
  },
  {
   "property": "C32",
   "status": "proved",
   "theorems": [
    "LRVB.C32_full_rank_construction",
    "LRVB.C32_default_construction"
   ],
   "note": ""
  },
  {
   "property": "C33",
   "status": "proved",
   "theorems": [
    "LRVB.C33_dictionary_sizes",
    "LRVB.C33_lengths",
    "LRVB.C33_empty_dictionary"
   ],
   "note": ""
  },
  {
   "property": "C34",
   "status": "proved",
   "theorems": [
    "LRVB.C34_free_round_trip",
    "LRVB.C34_vector_round_trip",
    "LRVB.C34_wrong_length"
   ],
   "note": ""
  },
  {
   "property": "C35",
   "status": "proved",
   "theorems": [
    "LRVB.C35_ranges_tile",
    "LRVB.C35_free_slices",
    "LRVB.C35_vector_slices"
   ],
   "note": ""
  },
  {
   "property": "C36",
   "status": "proved",
   "theorems": [
    "LRVB.C36_free_noninterference",
    "LRVB.C36_vector_noninterference"
   ],
   "note": ""
  },
  {
   "property": "C37",
   "status": "partial",
   "theorems": [
    "LRVB.C37_duplicate_name_counterexample",
    "LRVB.C37_new_name_partial"
   ],
   "note": "False for repeated names: C37_duplicate_name_counterexample. The partial theorem covers names not in use."
  },
  {
   "property": "C38",
   "status": "partial",
   "theorems": [
    "LRVB.C38_nested_extension_counterexample",
    "LRVB.C38_reading_partial"
   ],
   "note": "False: C38_nested_extension_counterexample. The partial theorem says what still works (reading)."
  },
  {
   "property": "C39",
   "status": "proved",
   "theorems": [
    "LRVB.C39_jacobian",
    "LRVB.C39_blocks"
   ],
   "note": ""
  },
  {
   "property": "C40",
   "status": "proved",
   "theorems": [
    "LRVB.C40_hessians"
   ],
   "note": ""
  },
  {
   "property": "C41",
   "status": "proved",
   "theorems": [
    "LRVB.C41_free_hessian",
    "LRVB.C41_empty_vector"
   ],
   "note": ""
  },
  {
   "property": "C42",
   "status": "partial",
   "theorems": [
    "LRVB.C42_scalar_counterexample",
    "LRVB.C42_dictionary_counterexample",
    "LRVB.C42_untraced_partial",
    "LRVB.C42_set_free_repairs"
   ],
   "note": "False for scalars and single positive definite matrices (C42_scalar_counterexample, C42_dictionary_counterexample); proved for all others, and set_free repairs the object in all cases."
  },
  {
   "property": "C43",
   "status": "proved",
   "theorems": [
    "LRVB.C43_read",
    "LRVB.C43_write",
    "LRVB.C43_history"
   ],
   "note": ""
  },
  {
   "property": "C44",
   "status": "proved",
   "theorems": [
    "LRVB.C44_parameter_holds_point"
   ],
   "note": ""
  },
  {
   "property": "C45",
   "status": "partial",
   "theorems": [
    "LRVB.C45_counterexample",
    "LRVB.C45_partial"
   ],
   "note": "False when the evaluation raises: C45_counterexample leaves tracing placeholders in the parameter (no try/finally). The partial theorem covers every call that returns."
  },
  {
   "property": "C46",
   "status": "proved",
   "theorems": [
    "LRVB.C46_preconditioned",
    "LRVB.C46_no_preconditioner"
   ],
   "note": ""
  },
  {
   "property": "C47",
   "status": "proved",
   "theorems": [
    "LRVB.C47_logger",
    "LRVB.C47_initialize",
    "LRVB.C47_rate_zero",
    "LRVB.C47_dimension_change",
    "LRVB.C47_objective_logs"
   ],
   "note": ""
  },
  {
   "property": "C48",
   "status": "proved",
   "theorems": [
    "LRVB.C48_off_diagonal",
    "LRVB.C48_free",
    "LRVB.C48_vector",
    "LRVB.C48_mixed"
   ],
   "note": ""
  },
  {
   "property": "C49",
   "status": "proved",
   "theorems": [
    "LRVB.C49_jacobian"
   ],
   "note": ""
  },
  {
   "property": "C50",
   "status": "partial",
   "theorems": [
    "LRVB.C50_base_prediction_partial",
    "LRVB.C50_linear_counterexample"
   ],
   "note": "False with linear=True: the prediction uses the value the output parameter held before the object was built (C50_linear_counterexample). Proved for linear=False; the partial theorem also says what linear=True returns."
  },
  {
   "property": "C51",
   "status": "proved",
   "theorems": [
    "LRVB.C51_linear_approximation",
    "LRVB.C51_optimum_exists",
    "LRVB.C51_history",
    "LRVB.C51_parametric_sensitivity"
   ],
   "note": ""
  },
  {
   "property": "C52",
   "status": "proved",
   "theorems": [
    "LRVB.C52_set_order",
    "LRVB.C52_module_functions"
   ],
   "note": ""
  },
  {
   "property": "C53",
   "status": "proved",
   "theorems": [
    "LRVB.C53_consolidation_keeps_sum"
   ],
   "note": ""
  },
  {
   "property": "C54",
   "status": "partial",
   "theorems": [
    "LRVB.C54_three_like_terms_counterexample",
    "LRVB.C54_consolidation_partial"
   ],
   "note": "False when a pattern occurs three times or more (C54_three_like_terms_counterexample); proved when no pattern occurs more than twice."
  },
  {
   "property": "C55",
   "status": "proved",
   "theorems": [
    "LRVB.C55_kth_derivative",
    "LRVB.C55_derivatives_exist",
    "LRVB.C55_history"
   ],
   "note": ""
  },
  {
   "property": "C56",
   "status": "proved",
   "theorems": [
    "LRVB.C56_taylor_series",
    "LRVB.C56_history"
   ],
   "note": ""
  },
  {
   "property": "C57",
   "status": "partial",
   "theorems": [
    "LRVB.C57_all_orders_partial",
    "LRVB.C57_constructor_counterexample",
    "LRVB.C57_set_base_values_partial",
    "LRVB.C57_linear_approximation_partial"
   ],
   "note": "False for the constructors, which ignore hess0 (C57_constructor_counterexample). The partial theorems cover set_base_values, which does use it, for every history: at order 1 and (C57_all_orders_partial) at every order, where the derivatives are those of the objective changed by a quadratic polynomial in the input so as to have the supplied Hessian."
  },
  {
   "property": "C58",
   "status": "partial",
   "theorems": [
    "LRVB.C58_vector_input_counterexample",
    "LRVB.C58_free_hyper_counterexample",
    "LRVB.C58_supplied_hessian_partial"
   ],
   "note": "False for input_is_free=False and, in the linear approximation, for hyper_is_free=True (two counterexamples). The partial theorem covers every flag once the Hessian is supplied to set_base_values; hyper_is_free of the Taylor expansion is covered by C55."
  },
  {
   "property": "C59",
   "status": "proved",
   "theorems": [
    "LRVB.C59_derivative_array"
   ],
   "note": ""
  },
  {
   "property": "C60",
   "status": "proved",
   "theorems": [
    "LRVB.C60_split_vector"
   ],
   "note": ""
  },
  {
   "property": "C61",
   "status": "proved",
   "theorems": [
    "LRVB.C61_recursive_split"
   ],
   "note": ""
  },
  {
   "property": "C62",
   "status": "partial",
   "theorems": [
    "LRVB.C62_zero_counterexample",
    "LRVB.C62_termination_partial"
   ],
   "note": "False for terminate_len <= 0 (C62_zero_counterexample: RecursionError at every recursion limit). The partial theorem gives the exact condition for termination."
  },
  {
   "property": "C63",
   "status": "proved",
   "theorems": [
    "LRVB.C63_get_masks"
   ],
   "note": ""
  },
  {
   "property": "C64",
   "status": "proved",
   "theorems": [
    "LRVB.C64_records_aligned",
    "LRVB.C64_subset_solves_sum"
   ],
   "note": ""
  },
  {
   "property": "C65",
   "status": "proved",
   "theorems": [
    "LRVB.C65_inverse_square_root",
    "LRVB.C65_between_thresholds",
    "LRVB.C65_positive_threshold",
    "LRVB.C65_set_preconditioner",
    "LRVB.C65_set_preconditioner_none"
   ],
   "note": ""
  },
  {
   "property": "C66",
   "status": "proved",
   "theorems": [
    "LRVB.C66_start",
    "LRVB.C66_report",
    "LRVB.C66_stationary",
    "LRVB.C66_stay"
   ],
   "note": ""
  },
  {
   "property": "C67",
   "status": "proved",
   "theorems": [
    "LRVB.C67_repeated"
   ],
   "note": ""
  },
  {
   "property": "C68",
   "status": "partial",
   "theorems": [
    "LRVB.C68_zero_iterations_counterexample",
    "LRVB.C68_returns_partial"
   ],
   "note": "False: max_iter <= 0 raises UnboundLocalError for every objective (C68_zero_iterations_counterexample). The partial theorem shows that it returns for max_iter >= 1."
  },
  {
   "property": "C69",
   "status": "proved",
   "theorems": [
    "LRVB.C69_accepts",
    "LRVB.C69_entries_add",
    "LRVB.C69_scatter",
    "LRVB.C69_hessian"
   ],
   "note": ""
  },
  {
   "property": "C70",
   "status": "proved",
   "theorems": [
    "LRVB.C70_pack_unpack",
    "LRVB.C70_json_round_trip",
    "LRVB.C70_json_rejects",
    "LRVB.C70_constructed_valid"
   ],
   "note": ""
  },
  {
   "property": "C71",
   "status": "proved",
   "theorems": [
    "LRVB.C71_index_param"
   ],
   "note": ""
  },
  {
   "property": "C72",
   "status": "proved",
   "theorems": [
    "LRVB.C72_lognormal_moments",
    "LRVB.C72_uvn_moments",
    "LRVB.C72_after_set_free"
   ],
   "note": ""
  },
  {
   "property": "C73",
   "status": "proved",
   "theorems": [
    "LRVB.C73_entropy",
    "LRVB.C73_uvn_entropy"
   ],
   "note": ""
  },
  {
   "property": "C74",
   "status": "proved",
   "theorems": [
    "LRVB.C74_natural_parameters"
   ],
   "note": ""
  },
  {
   "property": "C75",
   "status": "partial",
   "theorems": [
    "LRVB.C75_log_prob_partial",
    "LRVB.C75_not_normalized_counterexample"
   ],
   "note": "False: the code adds 0.5 * info where the log density has 0.5 * log(info) (C75_not_normalized_counterexample). The partial theorem gives the exact difference from the log density."
  },
  {
   "property": "C76",
   "status": "partial",
   "theorems": [
    "LRVB.C76_set_from_uvn_partial",
    "LRVB.C76_var_exp_counterexample"
   ],
   "note": "False for var_exp, and with it e2_exp (C76_var_exp_counterexample); proved for the other quantities, and for these two what they return instead."
  },
  {
   "property": "C77",
   "status": "proved",
   "theorems": [
    "LRVB.C77_mean_on_simplex",
    "LRVB.C77_after_set_free",
    "LRVB.C77_two_component_entropy"
   ],
   "note": ""
  },
  {
   "property": "C78",
   "status": "partial",
   "theorems": [
    "LRVB.C78_wishart_partial",
    "LRVB.C78_size_counterexample"
   ],
   "note": "False for every size other than 2 (C78_size_counterexample); the partial theorem covers the lower bounds for all sizes and the matrix for size 2."
  },
  {
   "property": "C79",
   "status": "proved",
   "theorems": [
    "LRVB.C79_minimizer"
   ],
   "note": ""
  },
  {
   "property": "C80",
   "status": "proved",
   "theorems": [
    "LRVB.C80_likelihood_natural_parameters",
    "LRVB.C80_prior_round_trip",
    "LRVB.C80_posterior"
   ],
   "note": ""
  },
  {
   "property": "C81",
   "status": "proved",
   "theorems": [
    "LRVB.C81_mvn_prior",
    "LRVB.C81_uvn_prior",
    "LRVB.C81_gamma_prior",
    "LRVB.C81_exponential_prior",
    "LRVB.C81_dirichlet_prior"
   ],
   "note": ""
  },
  {
   "property": "C82",
   "status": "proved",
   "theorems": [
    "LRVB.C82_standard_draws"
   ],
   "note": ""
  },
  {
   "property": "C83",
   "status": "proved",
   "theorems": [
    "LRVB.C83_log_expit",
    "LRVB.C83_log_logitnormal"
   ],
   "note": ""
  },
  {
   "property": "C84",
   "status": "proved",
   "theorems": [
    "LRVB.C84_moments_consistent",
    "LRVB.C84_true_moments",
    "LRVB.C84_after_set_free"
   ],
   "note": ""
  },
  {
   "property": "C85",
   "status": "proved",
   "theorems": [
    "LRVB.C85_gamma_moments",
    "LRVB.C85_after_set_free"
   ],
   "note": ""
  },
  {
   "property": "C86",
   "status": "proved",
   "theorems": [
    "LRVB.C86_at_point",
    "LRVB.C86_derivatives",
    "LRVB.C86_jacobian"
   ],
   "note": ""
  },
  {
   "property": "C87",
   "status": "proved",
   "theorems": [
    "LRVB.C87_legal_values",
    "LRVB.C87_hessian_paths_agree"
   ],
   "note": ""
  },
  {
   "property": "C88",
   "status": "partial",
   "theorems": [
    "LRVB.C88_all_orders_partial",
    "LRVB.C88_quadratic_partial",
    "LRVB.C88_second_order_counterexample",
    "LRVB.C88_first_order_partial"
   ],
   "note": "False at order 2 (C88_second_order_counterexample). Proved at order 1, and at every order when the functor leaves out a quadratic polynomial (C88_quadratic_partial). C88_all_orders_partial says what is returned otherwise: the part the functor leaves out enters by its second derivatives only."
  },
  {
   "property": "C89",
   "status": "partial",
   "theorems": [
    "LRVB.C89_last_call_partial",
    "LRVB.C89_counterexample"
   ],
   "note": "False for optimizers whose last call is not at the point they return (C89_counterexample); proved, with and without preconditioning, for those whose last call is."
  },
  {
   "property": "C90",
   "status": "proved",
   "theorems": [
    "LRVB.C90_exact_on_polynomials"
   ],
   "note": ""
  },
  {
   "property": "C91",
   "status": "proved",
   "theorems": [
    "LRVB.C91_average_over_draws",
    "LRVB.C91_standard_draws",
    "LRVB.C91_gauss_hermite"
   ],
   "note": ""
  },
  {
   "property": "C92",
   "status": "proved",
   "theorems": [
    "LRVB.C92_density",
    "LRVB.C92_entropy"
   ],
   "note": ""
  },
  {
   "property": "C93",
   "status": "partial",
   "theorems": [
    "LRVB.C93_dictval_partial",
    "LRVB.C93_renamed_counterexample",
    "LRVB.C93_placeholder_counterexample"
   ],
   "note": "False when an entry was renamed to a name in use (C93_renamed_counterexample) and after differentiation of a scalar (C93_placeholder_counterexample); proved otherwise."
  },
  {
   "property": "C94",
   "status": "partial",
   "theorems": [
    "LRVB.C94_names_partial",
    "LRVB.C94_vector_names",
    "LRVB.C94_array_counterexample",
    "LRVB.C94_collision_counterexample",
    "LRVB.C94_empty_dictionary"
   ],
   "note": "False for arrays, matrices and simplexes, which have a single name (C94_array_counterexample), and for colliding names (C94_collision_counterexample). Proved in number and order for scalars, vectors and subspace vectors."
  },
  {
   "property": "C95",
   "status": "proved",
   "theorems": [
    "LRVB.C95_dirichlet_moments",
    "LRVB.C95_dirichlet_methods",
    "LRVB.C95_beta_entropy"
   ],
   "note": ""
  },
  {
   "property": "C96",
   "status": "proved",
   "theorems": [
    "LRVB.C96_multinoulli_entropy",
    "LRVB.C96_zero_min_prob",
    "LRVB.C96_certain_value"
   ],
   "note": ""
  },
  {
   "property": "C97",
   "status": "proved",
   "theorems": [
    "LRVB.C97_logitnormal_mean",
    "LRVB.C97_dp_prior"
   ],
   "note": ""
  },
  {
   "property": "C98",
   "status": "proved",
   "theorems": [
    "LRVB.C98_density",
    "LRVB.C98_log_det",
    "LRVB.C98_log_inv_diag",
    "LRVB.C98_lkj",
    "LRVB.C98_entropy",
    "LRVB.C98_methods",
    "LRVB.C98_reachable"
   ],
   "note": ""
  },
  {
   "property": "C99",
   "status": "partial",
   "theorems": [
    "LRVB.C99_e_inv_partial",
    "LRVB.C99_e_inv_counterexample",
    "LRVB.C99_case"
   ],
   "note": "False: e_inv() returns df * inv(v), but the mean of the inverse is inv(v) / (df - n - 1) (C99_e_inv_counterexample). The partial theorem says what is returned."
  },
  {
   "property": "C100",
   "status": "proved",
   "theorems": [
    "LRVB.C100_arrays_unchanged",
    "LRVB.C100_results_exist"
   ],
   "note": ""
  },
  {
   "property": "C101",
   "status": "proved",
   "theorems": [
    "LRVB.C101_set_free_copies"
   ],
   "note": ""
  },
  {
   "property": "C102",
   "status": "proved",
   "theorems": [
    "LRVB.C102_get_free_is_new",
    "LRVB.C102_dictionary_get_vector_is_new"
   ],
   "note": ""
  },
  {
   "property": "C103",
   "status": "partial",
   "theorems": [
    "LRVB.C103_set_counterexample",
    "LRVB.C103_set_vector_counterexample",
    "LRVB.C103_matrix_set_vector_copies_partial"
   ],
   "note": "False: set() of every class, and set_vector() of scalars, vectors, arrays, simplexes and subspace vectors keep (a view of) the argument (C103_set_counterexample, C103_set_vector_counterexample). True of set_vector() of matrices."
  },
  {
   "property": "C104",
   "status": "partial",
   "theorems": [
    "LRVB.C104_get_counterexample",
    "LRVB.C104_get_vector_counterexample",
    "LRVB.C104_get_vector_is_new_partial"
   ],
   "note": "False: get() returns the held array itself, and get_vector() of scalars, vectors and subspace vectors shares its memory (C104_get_counterexample, C104_get_vector_counterexample). True of get_vector() of the other classes."
  },
  {
   "property": "C105",
   "status": "proved",
   "theorems": [
    "LRVB.C105_set_free",
    "LRVB.C105_set_vector",
    "LRVB.C105_jac",
    "LRVB.C105_hess",
    "LRVB.C105_read",
    "LRVB.C105_free_to_vector",
    "LRVB.C105_no_interference"
   ],
   "note": ""
  },
  {
   "property": "C106",
   "status": "partial",
   "theorems": [
    "LRVB.C106_distinct_objects_partial",
    "LRVB.C106_shared_counterexample",
    "LRVB.C106_self_counterexample"
   ],
   "note": "False when one object occurs twice (C106_shared_counterexample) or a dictionary contains itself (C106_self_counterexample: RecursionError). True when no object occurs twice."
  },
  {
   "property": "C107",
   "status": "proved",
   "theorems": [
    "LRVB.C107_same_object"
   ],
   "note": ""
  },
  {
   "property": "C108",
   "status": "partial",
   "theorems": [
    "LRVB.C108_one_sided_partial",
    "LRVB.C108_overflow_counterexample",
    "LRVB.C108_product_counterexample",
    "LRVB.C108_two_sided_partial",
    "LRVB.C108_unit_interval_partial",
    "LRVB.C108_rounding_counterexample"
   ],
   "note": "False for two finite bounds: NaN when exp overflows (C108_overflow_counterexample), infinite or NaN when the product with the width does (C108_product_counterexample), and above the upper bound by rounding alone (C108_rounding_counterexample). True when at most one bound is finite and on the unit interval without overflow; with two bounds the value is never below the lower one unless something overflows."
  },
  {
   "property": "C109",
   "status": "partial",
   "theorems": [
    "LRVB.C109_unbounded_partial",
    "LRVB.C109_counterexample",
    "LRVB.C109_positive_partial",
    "LRVB.C109_negative_partial",
    "LRVB.C109_lower_partial",
    "LRVB.C109_upper_partial",
    "LRVB.C109_two_sided_partial",
    "LRVB.C109_unit_interval_partial"
   ],
   "note": "False: small increments to a lower bound are lost and get_free() returns -inf (C109_counterexample). Proved with error bounds for unbounded parameters, and for all bounds and free values for which the value can be told from the bounds (the condition number of the transform is at most 2^45 and nothing overflows)."
  },
  {
   "property": "C110",
   "status": "proved",
   "theorems": [
    "LRVB.C110_simplex_range"
   ],
   "note": ""
  },
  {
   "property": "C111",
   "status": "partial",
   "theorems": [
    "LRVB.C111_underflow_counterexample",
    "LRVB.C111_moderate_partial"
   ],
   "note": "False: entries underflow to 0 and get_free() is not finite (C111_underflow_counterexample). Proved to 2**-40 for free values up to 300 in absolute value."
  },
  {
   "property": "C112",
   "status": "partial",
   "theorems": [
    "LRVB.C112_lower_partial",
    "LRVB.C112_upper_partial",
    "LRVB.C112_unbounded_partial",
    "LRVB.C112_large_counterexample",
    "LRVB.C112_width_counterexample"
   ],
   "note": "False for large bounds (C112_large_counterexample) and wide intervals (C112_width_counterexample). Proved for one-sided bounds up to 2**52 in absolute value and unbounded parameters; two finite bounds already fail without rounding (C05)."
  },
  {
   "property": "C113",
   "status": "partial",
   "theorems": [
    "LRVB.C113_matrix_vector_partial",
    "LRVB.C113_binary64_partial",
    "LRVB.C113_counterexample"
   ],
   "note": "False for diagonal entries that overflow when doubled (C113_counterexample), from 2**1023 on in double precision. True of all others."
  },
  {
   "property": "C114",
   "status": "proved",
   "theorems": [
    "LRVB.C114_size"
   ],
   "note": ""
  },
  {
   "property": "C115",
   "status": "proved",
   "theorems": [
    "LRVB.C115_arrays_unchanged",
    "LRVB.C115_call",
    "LRVB.C115_calls"
   ],
   "note": ""
  },
  {
   "property": "C116",
   "status": "partial",
   "theorems": [
    "LRVB.C116_counterexample",
    "LRVB.C116_reuse_counterexample",
    "LRVB.C116_untouched_partial",
    "LRVB.C116_preconditioned_partial"
   ],
   "note": "False: the logger keeps the caller's array (C116_counterexample, C116_reuse_counterexample). True as long as the recorded arrays are not changed in place, and for every program that logs only through fun_free_cond."
  },
  {
   "property": "C117",
   "status": "partial",
   "theorems": [
    "LRVB.C117_arrays_unchanged",
    "LRVB.C117_call_partial",
    "LRVB.C117_state_partial",
    "LRVB.C117_calls_partial",
    "LRVB.C117_counterexample"
   ],
   "note": "False if the two parameters share an object (C117_counterexample): the second assignment overwrites the first. Proved for parameters that share no object; that no array changes is proved without this restriction."
  },
  {
   "property": "C118",
   "status": "partial",
   "theorems": [
    "LRVB.C118_arrays_unchanged",
    "LRVB.C118_call_partial",
    "LRVB.C118_state_partial",
    "LRVB.C118_counterexample"
   ],
   "note": "False if the two parameters share an object (C118_counterexample): restoring the output parameter overwrites the input. Proved for parameters that share no object; that no array changes is proved without this restriction."
  },
  {
   "property": "C119",
   "status": "partial",
   "theorems": [
    "LRVB.C119_arrays_unchanged",
    "LRVB.C119_set_base_partial",
    "LRVB.C119_new_partial",
    "LRVB.C119_predict",
    "LRVB.C119_later_partial",
    "LRVB.C119_later_new_partial",
    "LRVB.C119_base_partial",
    "LRVB.C119_counterexample"
   ],
   "note": "False: a VectorParam hyperparameter holds the base value itself, so that changing hyper_par.get() in place changes predictions, and get_dinput_dhyper returns the array in use (C119_counterexample). Proved for every program that changes no array made during set_base_values in place; agreement with the model on values is proved for parameters that share no object."
  },
  {
   "property": "C120",
   "status": "partial",
   "theorems": [
    "LRVB.C120_arrays_unchanged",
    "LRVB.C120_set_optimal_partial",
    "LRVB.C120_new_partial",
    "LRVB.C120_predict_input",
    "LRVB.C120_predict_output_partial",
    "LRVB.C120_later_partial",
    "LRVB.C120_later_new_partial",
    "LRVB.C120_counterexample"
   ],
   "note": "False: the base values of the hyperparameter and of the output are not copied, so that changing the array that the hyperparameter or the output parameter holds in place changes predictions (C120_counterexample). Proved for parameters that share no object and every program that changes in place neither these arrays nor arrays made during set_optimal_input_par; that no array is changed is proved without restriction."
  },
  {
   "property": "C121",
   "status": "partial",
   "theorems": [
    "LRVB.C121_arrays_unchanged",
    "LRVB.C121_set_base_partial",
    "LRVB.C121_set_order_partial",
    "LRVB.C121_evaluate_partial",
    "LRVB.C121_new_partial",
    "LRVB.C121_later_partial",
    "LRVB.C121_base_partial",
    "LRVB.C121_counterexample"
   ],
   "note": "False: the Hessian passed to set_base_values is not copied, so that changing it in place changes the derivatives (C121_counterexample). Proved for parameters that share no object and keep their structure, and every program that changes neither that Hessian nor an array made during set_base_values in place."
  },
  {
   "property": "C122",
   "status": "proved",
   "theorems": [
    "LRVB.C122_set_from_constant",
    "LRVB.C122_other_shape"
   ],
   "note": ""
  },
  {
   "property": "C123",
   "status": "partial",
   "theorems": [
    "LRVB.C123_messages_partial",
    "LRVB.C123_counterexample"
   ],
   "note": "False: the test is print_every % ind == 0, so there is a message for every divisor of print_every and none later (C123_counterexample). The partial theorem says what is printed."
  },
  {
   "property": "C124",
   "status": "partial",
   "theorems": [
    "LRVB.C124_arrays_unchanged",
    "LRVB.C124_calls",
    "LRVB.C124_later_partial",
    "LRVB.C124_new",
    "LRVB.C124_initialize",
    "LRVB.C124_counterexample"
   ],
   "note": "False: the point and the masks are kept by reference, so that changing them in place changes the operator and the record (C124_counterexample). Proved for programs that change no array that the solver keeps; that the solver changes no array, and that each call agrees with the model on values, is proved without this restriction."
  },
  {
   "property": "C125",
   "status": "proved",
   "theorems": [
    "LRVB.C125_parameter_at_result"
   ],
   "note": ""
  },
  {
   "property": "C126",
   "status": "proved",
   "theorems": [
    "LRVB.C126_no_increase"
   ],
   "note": ""
  },
  {
   "property": "C127",
   "status": "proved",
   "theorems": [
    "LRVB.C127_history",
    "LRVB.C127_history_preconditioned"
   ],
   "note": ""
  },
  {
   "property": "C128",
   "status": "partial",
   "theorems": [
    "LRVB.C128_safe_matmul",
    "LRVB.C128_evaluations_partial",
    "LRVB.C128_conversion",
    "LRVB.C128_minimize_counterexample"
   ],
   "note": "False for the minimizers: np.linalg.solve raises LinAlgError for every sparse preconditioner (C128_minimize_counterexample). The partial theorem covers all evaluations."
  },
  {
   "property": "C129",
   "status": "proved",
   "theorems": [
    "LRVB.C129_log_logitnormal",
    "LRVB.C129_accuracy"
   ],
   "note": ""
  },
  {
   "property": "C130",
   "status": "partial",
   "theorems": [
    "LRVB.C130_accuracy_partial",
    "LRVB.C130_overflow_counterexample",
    "LRVB.C130_quadrature_accuracy_partial",
    "LRVB.C130_quadrature_counterexample",
    "LRVB.C130_infinite_counterexample"
   ],
   "note": "False: np.log1p(np.exp(z)) overflows when a draw or node of z reaches 710, and then the sum over all observations is not finite (C130_overflow_counterexample, C130_infinite_counterexample: -inf where the exact value is within 2^-1000 of zero; C130_quadrature_counterexample). The partial theorems prove the accuracy of both functions when no point exceeds 700."
  },
  {
   "property": "C131",
   "status": "partial",
   "theorems": [
    "LRVB.C131_symmetric",
    "LRVB.C131_overflow_counterexample",
    "LRVB.C131_set_free_accuracy",
    "LRVB.C131_small_counterexample",
    "LRVB.C131_lower_bound_counterexample",
    "LRVB.C131_large_counterexample",
    "LRVB.C131_large_single_counterexample",
    "LRVB.C131_off_diagonal_counterexample",
    "LRVB.C131_diagonal_partial"
   ],
   "note": "Symmetry (C131_symmetric) and the accuracy of set_free (C131_set_free_accuracy) hold for every size. The round trip is false: exp(d) + d - d is zero for d <= -35 and get_free raises (C131_small_counterexample); log(l) + l - l is zero, so get_free returns 0 for a free value between 47 and 100 (C131_large_counterexample); a free value [0, b, 0] with b >= 2^28 raises LinAlgError (C131_off_diagonal_counterexample); with diag_lb >= 1 a first entry <= -20 raises (C131_lower_bound_counterexample); when exp overflows in a later row set_free says that the matrix is not symmetric (C131_overflow_counterexample). The partial theorem proves the round trip for diagonal matrices of every size with an error proportional to the condition (1 + |d|)(e^d + e^-d)."
  },
  {
   "property": "C132",
   "status": "proved",
   "theorems": [
    "LRVB.C132_arrays_unchanged",
    "LRVB.C132_minimize",
    "LRVB.C132_new_array"
   ],
   "note": ""
  },
  {
   "property": "C133",
   "status": "partial",
   "theorems": [
    "LRVB.C133_new_arrays_partial",
    "LRVB.C133_minimizers",
    "LRVB.C133_in_place_counterexample",
    "LRVB.C133_moved_counterexample"
   ],
   "note": "False for optimization functions that return the array they were given: x is new_x then, x_conv is true after one call (C133_in_place_counterexample), e.g. when the point moves from (1, 2, 3) to (100, 2, 3) (C133_moved_counterexample). C133_new_arrays_partial: if the functions work on arrays of their own, the run is that of the model without references, so that C67, C125 and C126 apply; C133_minimizers: the minimizers of the library are such functions."
  },
  {
   "property": "C134",
   "status": "partial",
   "theorems": [
    "LRVB.C134_mean",
    "LRVB.C134_variance_partial",
    "LRVB.C134_small_counterexample",
    "LRVB.C134_overflow_counterexample"
   ],
   "note": "The mean is accurate (C134_mean). The variance is not: (exp(sigma_sq) - 1) e^2 is zero or at least twice the variance for sigma_sq <= 2^-54 (C134_small_counterexample), and it is not finite for mu = 500 although the variance is at most 2^500 (C134_overflow_counterexample). C134_variance_partial: relative error 2^-39 (1 + 1/sigma_sq) for |mu| + sigma_sq <= 300."
  },
  {
   "property": "C135",
   "status": "partial",
   "theorems": [
    "LRVB.C135_not_negative",
    "LRVB.C135_constant",
    "LRVB.C135_variance_partial",
    "LRVB.C135_counterexample",
    "LRVB.C135_uvn_entropy"
   ],
   "note": "Not negative (C135_not_negative), zero for constants (C135_constant), entropy of normal parameters accurate (C135_uvn_entropy). The variance is lost when mean^2 >= 2^58 variance: it is zero and the entropy is -inf (C135_counterexample). C135_variance_partial: relative error 2^-49 (1 + mean^2 info)."
  },
  {
   "property": "C136",
   "status": "proved",
   "theorems": [
    "LRVB.C136_multinoulli_entropy",
    "LRVB.C136_free_values"
   ],
   "note": ""
  },
  {
   "property": "C137",
   "status": "proved",
   "theorems": [
    "LRVB.C137_interrupted_assignment",
    "LRVB.C137_interrupted_failure"
   ],
   "note": ""
  },
  {
   "property": "C138",
   "status": "proved",
   "theorems": [
    "LRVB.C138_log",
    "LRVB.C138_restart"
   ],
   "note": ""
  },
  {
   "property": "C139",
   "status": "partial",
   "theorems": [
    "LRVB.C139_counterexample",
    "LRVB.C139_partial"
   ],
   "note": "False: whatever objective is minimized, an interruption during a gradient call can leave the parameter with autograd placeholders, there is no try/finally (C139_counterexample). C139_partial: interruptions outside of derivative calls (no preconditioner) leave numbers."
  },
  {
   "property": "C140",
   "status": "partial",
   "theorems": [
    "LRVB.C140_alone",
    "LRVB.C140_can_finish",
    "LRVB.C140_same_point_partial",
    "LRVB.C140_mixture_partial",
    "LRVB.C140_counterexample"
   ],
   "note": "False: a call can return a number that is the value at none of the points (C140_counterexample). C140_same_point_partial: right for any number of threads at the same point and every schedule. C140_mixture_partial: every value is that of a mixture of the points. C140_can_finish: no schedule blocks. C140_alone: a single thread does what fun_free does."
  },
  {
   "property": "C141",
   "status": "partial",
   "theorems": [
    "LRVB.C141_partial",
    "LRVB.C141_same_point_partial",
    "LRVB.C141_counterexample"
   ],
   "note": "False: points and values can be in different orders, and counts can be lost (C141_counterexample). C141_partial: every point and every value is logged exactly once. C141_same_point_partial: at the same point the log is right."
  },
  {
   "property": "C142",
   "status": "proved",
   "theorems": [
    "LRVB.C142_recorded",
    "LRVB.C142_failures",
    "LRVB.C142_names",
    "LRVB.C142_nonneg"
   ],
   "note": ""
  },
  {
   "property": "C143",
   "status": "proved",
   "theorems": [
    "LRVB.C143_safe_matmul",
    "LRVB.C143_chain",
    "LRVB.C143_compress"
   ],
   "note": ""
  },
  {
   "property": "C144",
   "status": "partial",
   "theorems": [
    "LRVB.C144_complete",
    "LRVB.C144_text_determines_partial",
    "LRVB.C144_counterexample"
   ],
   "note": "Complete and in order for all dictionaries (C144_complete). Not unique for nested dictionaries: only the first line of an entry is indented (C144_counterexample). C144_text_determines_partial: unique for dictionaries of scalars and simplexes that print on one line, with names without colons and line breaks."
  },
  {
   "property": "C145",
   "status": "proved",
   "theorems": [
    "LRVB.C145_covariance"
   ],
   "note": ""
  },
  {
   "property": "C146",
   "status": "proved",
   "theorems": [
    "LRVB.C146_normal_posterior"
   ],
   "note": ""
  },
  {
   "property": "C147",
   "status": "proved",
   "theorems": [
    "LRVB.C147_full_rank",
    "LRVB.C147_stationary",
    "LRVB.C147_posdef_hessian"
   ],
   "note": ""
  },
  {
   "property": "C148",
   "status": "proved",
   "theorems": [
    "LRVB.C148_after_set_free",
    "LRVB.C148_moments",
    "LRVB.C148_three_axes"
   ],
   "note": ""
  },
  {
   "property": "C149",
   "status": "proved",
   "theorems": [
    "LRVB.C149_homeomorphism",
    "LRVB.C149_local_minima",
    "LRVB.C149_open"
   ],
   "note": ""
  },
  {
   "property": "C150",
   "status": "proved",
   "theorems": [
    "LRVB.C150_image",
    "LRVB.C150_set_vector_get_free",
    "LRVB.C150_local_minima"
   ],
   "note": ""
  },
  {
   "property": "C151",
   "status": "partial",
   "theorems": [
    "LRVB.C151_inconsistent_counterexample",
    "LRVB.C151_repeat_counterexample",
    "LRVB.C151_repeat_partial"
   ],
   "note": "False: for every dictionary and every new parameter with a free value, push_param goes through a state in which set_free(get_free()) raises ValueError (C151_inconsistent_counterexample), and one after which pushing again counts the parameter twice (C151_repeat_counterexample). C151_repeat_partial: if the sizes are unchanged, pushing again completes the dictionary; if the vector size has changed, it is complete."
  },
  {
   "property": "C152",
   "status": "partial",
   "theorems": [
    "LRVB.C152_counterexample",
    "LRVB.C152_returned_partial"
   ],
   "note": "False: after a call that raised in the converter the output parameter holds autograd placeholders, and it still does after any further Jacobian calls, also successful ones (C152_counterexample). C152_returned_partial: the vector and plain numbers are kept by any sequence of calls that all return, and in any state set_vector with numbers removes the placeholders."
  },
  {
   "property": "C153",
   "status": "proved",
   "theorems": [
    "LRVB.C153_output_error",
    "LRVB.C153_taylor_error",
    "LRVB.C153_linear_error",
    "LRVB.C153_parametric_sensitivity_error"
   ],
   "note": ""
  },
  {
   "property": "C154",
   "status": "proved",
   "theorems": [
    "LRVB.C154_classes_agree"
   ],
   "note": ""
  },
  {
   "property": "C155",
   "status": "proved",
   "theorems": [
    "LRVB.C155_linear_exact",
    "LRVB.C155_taylor_exact"
   ],
   "note": ""
  },
  {
   "property": "C156",
   "status": "proved",
   "theorems": [
    "LRVB.C156_local_hessians_add"
   ],
   "note": ""
  },
  {
   "property": "C157",
   "status": "proved",
   "theorems": [
    "LRVB.C157_calls",
    "LRVB.C157_derivatives"
   ],
   "note": ""
  },
  {
   "property": "C158",
   "status": "proved",
   "theorems": [
    "LRVB.C158_linear_approximation",
    "LRVB.C158_parametric_sensitivity"
   ],
   "note": ""
  },
  {
   "property": "C159",
   "status": "proved",
   "theorems": [
    "LRVB.C159_parameterization",
    "LRVB.C159_converted_hessian"
   ],
   "note": ""
  },
  {
   "property": "C160",
   "status": "partial",
   "theorems": [
    "LRVB.C160_derivative_kept_partial",
    "LRVB.C160_linear_counterexample",
    "LRVB.C160_taylor_counterexample"
   ],
   "note": "False for predictions (C160_linear_counterexample, C160_taylor_counterexample); the partial theorem says that the derivative is kept for every failure, and what is predicted afterwards."
  },
  {
   "property": "C161",
   "status": "proved",
   "theorems": [
    "LRVB.C161_draws",
    "LRVB.C161_logistic_term"
   ],
   "note": ""
  },
  {
   "property": "C162",
   "status": "proved",
   "theorems": [
    "LRVB.C162_uvn",
    "LRVB.C162_gamma",
    "LRVB.C162_exponential",
    "LRVB.C162_dirichlet",
    "LRVB.C162_mvn"
   ],
   "note": ""
  },
  {
   "property": "C163",
   "status": "proved",
   "theorems": [
    "LRVB.C163_mvn",
    "LRVB.C163_regression"
   ],
   "note": ""
  },
  {
   "property": "C164",
   "status": "partial",
   "theorems": [
    "LRVB.C164_numbers_partial",
    "LRVB.C164_placeholder_fails",
    "LRVB.C164_counterexample"
   ],
   "note": "False (C164_counterexample, C164_placeholder_fails): a derivative method called with verbose=True logs a placeholder. The partial theorem covers all histories without such calls."
  },
  {
   "property": "C165",
   "status": "proved",
   "theorems": [
    "LRVB.C165_alone",
    "LRVB.C165_numbers",
    "LRVB.C165_placeholder_seen"
   ],
   "note": ""
  },
  {
   "property": "C166",
   "status": "proved",
   "theorems": [
    "LRVB.C166_sequential",
    "LRVB.C166_stacked"
   ],
   "note": ""
  },
  {
   "property": "C167",
   "status": "proved",
   "theorems": [
    "LRVB.C167_polynomial",
    "LRVB.C167_scaling"
   ],
   "note": ""
  },
  {
   "property": "C168",
   "status": "proved",
   "theorems": [
    "LRVB.C168_inexact_subsets"
   ],
   "note": ""
  },
  {
   "property": "C169",
   "status": "proved",
   "theorems": [
    "LRVB.C169_vector_slices",
    "LRVB.C169_negative_positions",
    "LRVB.C169_array_slices",
    "LRVB.C169_apply_matrix_function",
    "LRVB.C169_simplex_rows",
    "LRVB.C169_sizes"
   ],
   "note": ""
  },
  {
   "property": "C170",
   "status": "proved",
   "theorems": [
    "LRVB.C170_text_determines",
    "LRVB.C170_print_terms",
    "LRVB.C170_integer_constants"
   ],
   "note": ""
  },
  {
   "property": "C171",
   "status": "proved",
   "theorems": [
    "LRVB.C171_linear_approximation",
    "LRVB.C171_parametric_sensitivity",
    "LRVB.C171_taylor",
    "LRVB.C171_part"
   ],
   "note": ""
  },
  {
   "property": "C172",
   "status": "proved",
   "theorems": [
    "LRVB.C172_coordinates",
    "LRVB.C172_regressors",
    "LRVB.C172_observations",
    "LRVB.C172_order",
    "LRVB.C172_replicates"
   ],
   "note": ""
  },
  {
   "property": "C173",
   "status": "proved",
   "theorems": [
    "LRVB.C173_gamma",
    "LRVB.C173_uvn",
    "LRVB.C173_dirichlet"
   ],
   "note": ""
  },
  {
   "property": "C174",
   "status": "partial",
   "theorems": [
    "LRVB.C174_objective_partial",
    "LRVB.C174_plain",
    "LRVB.C174_name_counterexample",
    "LRVB.C174_missing_vector_counterexample",
    "LRVB.C174_no_arguments",
    "LRVB.C174_two_parameters_partial",
    "LRVB.C174_two_parameters_plain"
   ],
   "note": "False for names that the methods use themselves (C174_name_counterexample: verbose, autograd_fun); a missing vector is not noticed by fun_free_hvp_cond (C174_missing_vector_counterexample). Proved for all other arguments, for both classes."
  },
  {
   "property": "C175",
   "status": "proved",
   "theorems": [
    "LRVB.C175_uvn",
    "LRVB.C175_gamma",
    "LRVB.C175_exponential",
    "LRVB.C175_dirichlet",
    "LRVB.C175_mvn",
    "LRVB.C175_blocks",
    "LRVB.C175_model"
   ],
   "note": ""
  },
  {
   "property": "C176",
   "status": "proved",
   "theorems": [
    "LRVB.C176_conditioned_hessian",
    "LRVB.C176_newton_step",
    "LRVB.C176_quadratic"
   ],
   "note": ""
  },
  {
   "property": "C177",
   "status": "proved",
   "theorems": [
    "LRVB.C177_linear_approximation",
    "LRVB.C177_linear_visible",
    "LRVB.C177_parametric_sensitivity",
    "LRVB.C177_taylor"
   ],
   "note": ""
  },
  {
   "property": "C178",
   "status": "proved",
   "theorems": [
    "LRVB.C178_nan",
    "LRVB.C178_nan_array",
    "LRVB.C178_infinite",
    "LRVB.C178_simplex_nan",
    "LRVB.C178_simplex_plus_infinity",
    "LRVB.C178_simplex_minus_infinity",
    "LRVB.C178_simplex_read"
   ],
   "note": ""
  },
  {
   "property": "C179",
   "status": "proved",
   "theorems": [
    "LRVB.C179_value",
    "LRVB.C179_fit",
    "LRVB.C179_global",
    "LRVB.C179_existence"
   ],
   "note": ""
  },
  {
   "property": "C180",
   "status": "proved",
   "theorems": [
    "LRVB.C180_summary",
    "LRVB.C180_influence",
    "LRVB.C180_refit",
    "LRVB.C180_dropped",
    "LRVB.C180_derivative",
    "LRVB.C180_nearby"
   ],
   "note": ""
  },
  {
   "property": "C181",
   "status": "proved",
   "theorems": [
    "LRVB.C181_gradient_legal",
    "LRVB.C181_coordinates",
    "LRVB.C181_gradient",
    "LRVB.C181_jacobian",
    "LRVB.C181_two_parameters",
    "LRVB.C181_converter_input",
    "LRVB.C181_converter_output",
    "LRVB.C181_converter_set_vector"
   ],
   "note": ""
  },
  {
   "property": "C182",
   "status": "proved",
   "theorems": [
    "LRVB.C182_no_effect",
    "LRVB.C182_returned",
    "LRVB.C182_raised",
    "LRVB.C182_distance"
   ],
   "note": ""
  },
  {
   "property": "C183",
   "status": "proved",
   "theorems": [
    "LRVB.C183_rearrangement",
    "LRVB.C183_calls",
    "LRVB.C183_sensitivity",
    "LRVB.C183_nested_rearrangement",
    "LRVB.C183_nested_calls",
    "LRVB.C183_nested_objective",
    "LRVB.C183_nested_sensitivity",
    "LRVB.C183_nested_taylor",
    "LRVB.C183_nested_linear_approximation",
    "LRVB.C183_objective",
    "LRVB.C183_taylor",
    "LRVB.C183_linear_approximation"
   ],
   "note": ""
  },
  {
   "property": "C184",
   "status": "proved",
   "theorems": [
    "LRVB.C184_linear_approximation",
    "LRVB.C184_parametric_sensitivity",
    "LRVB.C184_taylor",
    "LRVB.C184_rescaled"
   ],
   "note": ""
  },
  {
   "property": "C185",
   "status": "proved",
   "theorems": [
    "LRVB.C185_posterior_is_optimal",
    "LRVB.C185_unique_free_optimum"
   ],
   "note": ""
  },
  {
   "property": "C186",
   "status": "proved",
   "theorems": [
    "LRVB.C186_two_parameters",
    "LRVB.C186_conversion",
    "LRVB.C186_jacobian",
    "LRVB.C186_objective"
   ],
   "note": ""
  },
  {
   "property": "C187",
   "status": "partial",
   "theorems": [
    "LRVB.C187_two_parameters",
    "LRVB.C187_alone_value",
    "LRVB.C187_alone",
    "LRVB.C187_input_partial",
    "LRVB.C187_alone_convert",
    "LRVB.C187_alone_jacobian",
    "LRVB.C187_output_counterexample"
   ],
   "note": "False for the output parameter of a converter (C187_output_counterexample). Proved for two-parameter objectives and for the input parameter of converters. The C187_alone theorems tie the threads to the sequential model."
  },
  {
   "property": "C188",
   "status": "partial",
   "theorems": [
    "LRVB.C188_two_parameters_partial",
    "LRVB.C188_conversions_partial",
    "LRVB.C188_predictions_partial",
    "LRVB.C188_counterexample",
    "LRVB.C188_predictions_counterexample",
    "LRVB.C188_two_parameters_counterexample"
   ],
   "note": "False for calls at different points (C188_counterexample, C188_predictions_counterexample, C188_two_parameters_counterexample). Proved for any number of calls at the same point under every schedule; for converters and non-linear predictions the user's converter must read only the input and set each output parameter at most once."
  },
  {
   "property": "C189",
   "status": "proved",
   "theorems": [
    "LRVB.C189_polynomial_exact",
    "LRVB.C189_affine_exact"
   ],
   "note": ""
  },
  {
   "property": "C190",
   "status": "proved",
   "theorems": [
    "LRVB.C190_order_does_not_matter"
   ],
   "note": ""
  },
  {
   "property": "C191",
   "status": "proved",
   "theorems": [
    "LRVB.C191_linear_symmetric",
    "LRVB.C191_conditioned",
    "LRVB.C191_conditioned_positive"
   ],
   "note": ""
  },
  {
   "property": "C192",
   "status": "proved",
   "theorems": [
    "LRVB.C192_chained_converters",
    "LRVB.C192_objective_after_converter"
   ],
   "note": ""
  },
  {
   "property": "C193",
   "status": "proved",
   "theorems": [
    "LRVB.C193_unpack_det",
    "LRVB.C193_pack_log_det",
    "LRVB.C193_set_free_det",
    "LRVB.C193_entropy_free"
   ],
   "note": ""
  },
  {
   "property": "C194",
   "status": "proved",
   "theorems": [
    "LRVB.C194_set_free_log_odds",
    "LRVB.C194_rows_independent",
    "LRVB.C194_get_free_log_odds"
   ],
   "note": ""
  },
  {
   "property": "C195",
   "status": "proved",
   "theorems": [
    "LRVB.C195_inner_products",
    "LRVB.C195_distances",
    "LRVB.C195_get_free_contracts"
   ],
   "note": ""
  },
  {
   "property": "C196",
   "status": "proved",
   "theorems": [
    "LRVB.C196_averages",
    "LRVB.C196_local_is_global",
    "LRVB.C196_unique_minimum",
    "LRVB.C196_stationary_is_global",
    "LRVB.C196_zero_gradient",
    "LRVB.C196_zero_conditioned_gradient"
   ],
   "note": ""
  },
  {
   "property": "C197",
   "status": "proved",
   "theorems": [
    "LRVB.C197_congruent",
    "LRVB.C197_covariance"
   ],
   "note": ""
  }
 ]
}
