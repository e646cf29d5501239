{
 "C03": {
  "status": "partial",
  "note": "False at the upper bound when both bounds are finite (C03_upper_bound_counterexample); proved for every other accepted value."
 },
 "C05": {
  "status": "partial",
  "note": "False in general (C05_default_value_counterexample); the partial theorem characterises exactly when it holds."
 },
 "C37": {
  "status": "partial",
  "note": "False for repeated names: C37_duplicate_name_counterexample. The partial theorem covers names not in use."
 },
 "C38": {
  "status": "partial",
  "note": "False: C38_nested_extension_counterexample. The partial theorem says what still works (reading)."
 },
 "C42": {
  "status": "partial",
  "note": "False for scalars and single positive definite matrices (C42_scalar_counterexample, C42_dictionary_counterexample); proved for all others, and set_free repairs the object in all cases."
 },
 "C45": {
  "status": "partial",
  "note": "False when the evaluation raises: C45_counterexample leaves tracing placeholders in the parameter (no try/finally). The partial theorem covers every call that returns."
 },
 "C50": {
  "status": "partial",
  "note": "False with linear=True: the prediction uses the value the output parameter held before the object was built (C50_linear_counterexample). Proved for linear=False; the partial theorem also says what linear=True returns."
 },
 "C54": {
  "status": "partial",
  "note": "False when a pattern occurs three times or more (C54_three_like_terms_counterexample); proved when no pattern occurs more than twice."
 },
 "C57": {
  "status": "partial",
  "note": "False for the constructors, which ignore hess0 (C57_constructor_counterexample). The partial theorems cover set_base_values, which does use it, for every history: at order 1 and (C57_all_orders_partial) at every order, where the derivatives are those of the objective changed by a quadratic polynomial in the input so as to have the supplied Hessian."
 },
 "C58": {
  "status": "partial",
  "note": "False for input_is_free=False and, in the linear approximation, for hyper_is_free=True (two counterexamples). The partial theorem covers every flag once the Hessian is supplied to set_base_values; hyper_is_free of the Taylor expansion is covered by C55."
 },
 "C88": {
  "status": "partial",
  "note": "False at order 2 (C88_second_order_counterexample). Proved at order 1, and at every order when the functor leaves out a quadratic polynomial (C88_quadratic_partial). C88_all_orders_partial says what is returned otherwise: the part the functor leaves out enters by its second derivatives only."
 },
 "C62": {
  "status": "partial",
  "note": "False for terminate_len <= 0 (C62_zero_counterexample: RecursionError at every recursion limit). The partial theorem gives the exact condition for termination."
 },
 "C68": {
  "status": "partial",
  "note": "False: max_iter <= 0 raises UnboundLocalError for every objective (C68_zero_iterations_counterexample). The partial theorem shows that it returns for max_iter >= 1."
 },
 "C89": {
  "status": "partial",
  "note": "False for optimizers whose last call is not at the point they return (C89_counterexample); proved, with and without preconditioning, for those whose last call is."
 },
 "C11": {
  "status": "partial",
  "note": "False for scalars: set_free and set_vector accept two entries and afterwards the getters raise (C11_scalar_counterexample). Proved for every other type."
 },
 "C12": {
  "status": "partial",
  "note": "False for vectors and for vectors and arrays of matrices (three counterexamples). The partial theorem gives the exact acceptance condition of set() for every type."
 },
 "C24": {
  "status": "partial",
  "note": "False for PosDefMatrixParamArray (C24_default_array_counterexample); proved for all other types."
 },
 "C75": {
  "status": "partial",
  "note": "False: the code adds 0.5 * info where the log density has 0.5 * log(info) (C75_not_normalized_counterexample). The partial theorem gives the exact difference from the log density."
 },
 "C76": {
  "status": "partial",
  "note": "False for var_exp, and with it e2_exp (C76_var_exp_counterexample); proved for the other quantities, and for these two what they return instead."
 },
 "C78": {
  "status": "partial",
  "note": "False for every size other than 2 (C78_size_counterexample); the partial theorem covers the lower bounds for all sizes and the matrix for size 2."
 },
 "C93": {
  "status": "partial",
  "note": "False when an entry was renamed to a name in use (C93_renamed_counterexample) and after differentiation of a scalar (C93_placeholder_counterexample); proved otherwise."
 },
 "C94": {
  "status": "partial",
  "note": "False for arrays, matrices and simplexes, which have a single name (C94_array_counterexample), and for colliding names (C94_collision_counterexample). Proved in number and order for scalars, vectors and subspace vectors."
 },
 "C99": {
  "status": "partial",
  "note": "False: e_inv() returns df * inv(v), but the mean of the inverse is inv(v) / (df - n - 1) (C99_e_inv_counterexample). The partial theorem says what is returned."
 },
 "C103": {
  "status": "partial",
  "note": "False: set() of every class, and set_vector() of scalars, vectors, arrays, simplexes and subspace vectors keep (a view of) the argument (C103_set_counterexample, C103_set_vector_counterexample). True of set_vector() of matrices."
 },
 "C104": {
  "status": "partial",
  "note": "False: get() returns the held array itself, and get_vector() of scalars, vectors and subspace vectors shares its memory (C104_get_counterexample, C104_get_vector_counterexample). True of get_vector() of the other classes."
 },
 "C106": {
  "status": "partial",
  "note": "False when one object occurs twice (C106_shared_counterexample) or a dictionary contains itself (C106_self_counterexample: RecursionError). True when no object occurs twice."
 },
 "C108": {
  "status": "partial",
  "note": "False for two finite bounds: NaN when exp overflows (C108_overflow_counterexample), infinite or NaN when the product with the width does (C108_product_counterexample), and above the upper bound by rounding alone (C108_rounding_counterexample). True when at most one bound is finite and on the unit interval without overflow; with two bounds the value is never below the lower one unless something overflows."
 },
 "C109": {
  "status": "partial",
  "note": "False: small increments to a lower bound are lost and get_free() returns -inf (C109_counterexample). Proved with error bounds for unbounded parameters, and for all bounds and free values for which the value can be told from the bounds (the condition number of the transform is at most 2^45 and nothing overflows)."
 },
 "C111": {
  "status": "partial",
  "note": "False: entries underflow to 0 and get_free() is not finite (C111_underflow_counterexample). Proved to 2**-40 for free values up to 300 in absolute value."
 },
 "C112": {
  "status": "partial",
  "note": "False for large bounds (C112_large_counterexample) and wide intervals (C112_width_counterexample). Proved for one-sided bounds up to 2**52 in absolute value and unbounded parameters; two finite bounds already fail without rounding (C05)."
 },
 "C113": {
  "status": "partial",
  "note": "False for diagonal entries that overflow when doubled (C113_counterexample), from 2**1023 on in double precision. True of all others."
 },
 "C116": {
  "status": "partial",
  "note": "False: the logger keeps the caller's array (C116_counterexample, C116_reuse_counterexample). True as long as the recorded arrays are not changed in place, and for every program that logs only through fun_free_cond."
 },
 "C117": {
  "status": "partial",
  "note": "False if the two parameters share an object (C117_counterexample): the second assignment overwrites the first. Proved for parameters that share no object; that no array changes is proved without this restriction."
 },
 "C118": {
  "status": "partial",
  "note": "False if the two parameters share an object (C118_counterexample): restoring the output parameter overwrites the input. Proved for parameters that share no object; that no array changes is proved without this restriction."
 },
 "C119": {
  "status": "partial",
  "note": "False: a VectorParam hyperparameter holds the base value itself, so that changing hyper_par.get() in place changes predictions, and get_dinput_dhyper returns the array in use (C119_counterexample). Proved for every program that changes no array made during set_base_values in place; agreement with the model on values is proved for parameters that share no object."
 },
 "C120": {
  "status": "partial",
  "note": "False: the base values of the hyperparameter and of the output are not copied, so that changing the array that the hyperparameter or the output parameter holds in place changes predictions (C120_counterexample). Proved for parameters that share no object and every program that changes in place neither these arrays nor arrays made during set_optimal_input_par; that no array is changed is proved without restriction."
 },
 "C121": {
  "status": "partial",
  "note": "False: the Hessian passed to set_base_values is not copied, so that changing it in place changes the derivatives (C121_counterexample). Proved for parameters that share no object and keep their structure, and every program that changes neither that Hessian nor an array made during set_base_values in place."
 },
 "C123": {
  "status": "partial",
  "note": "False: the test is print_every % ind == 0, so there is a message for every divisor of print_every and none later (C123_counterexample). The partial theorem says what is printed."
 },
 "C124": {
  "status": "partial",
  "note": "False: the point and the masks are kept by reference, so that changing them in place changes the operator and the record (C124_counterexample). Proved for programs that change no array that the solver keeps; that the solver changes no array, and that each call agrees with the model on values, is proved without this restriction."
 },
 "C128": {
  "status": "partial",
  "note": "False for the minimizers: np.linalg.solve raises LinAlgError for every sparse preconditioner (C128_minimize_counterexample). The partial theorem covers all evaluations."
 },
 "C130": {
  "status": "partial",
  "note": "False: np.log1p(np.exp(z)) overflows when a draw or node of z reaches 710, and then the sum over all observations is not finite (C130_overflow_counterexample, C130_infinite_counterexample: -inf where the exact value is within 2^-1000 of zero; C130_quadrature_counterexample). The partial theorems prove the accuracy of both functions when no point exceeds 700."
 },
 "C131": {
  "status": "partial",
  "note": "Symmetry (C131_symmetric) and the accuracy of set_free (C131_set_free_accuracy) hold for every size. The round trip is false: exp(d) + d - d is zero for d <= -35 and get_free raises (C131_small_counterexample); log(l) + l - l is zero, so get_free returns 0 for a free value between 47 and 100 (C131_large_counterexample); a free value [0, b, 0] with b >= 2^28 raises LinAlgError (C131_off_diagonal_counterexample); with diag_lb >= 1 a first entry <= -20 raises (C131_lower_bound_counterexample); when exp overflows in a later row set_free says that the matrix is not symmetric (C131_overflow_counterexample). The partial theorem proves the round trip for diagonal matrices of every size with an error proportional to the condition (1 + |d|)(e^d + e^-d)."
 },
 "C133": {
  "status": "partial",
  "note": "False for optimization functions that return the array they were given: x is new_x then, x_conv is true after one call (C133_in_place_counterexample), e.g. when the point moves from (1, 2, 3) to (100, 2, 3) (C133_moved_counterexample). C133_new_arrays_partial: if the functions work on arrays of their own, the run is that of the model without references, so that C67, C125 and C126 apply; C133_minimizers: the minimizers of the library are such functions."
 },
 "C134": {
  "status": "partial",
  "note": "The mean is accurate (C134_mean). The variance is not: (exp(sigma_sq) - 1) e^2 is zero or at least twice the variance for sigma_sq <= 2^-54 (C134_small_counterexample), and it is not finite for mu = 500 although the variance is at most 2^500 (C134_overflow_counterexample). C134_variance_partial: relative error 2^-39 (1 + 1/sigma_sq) for |mu| + sigma_sq <= 300."
 },
 "C135": {
  "status": "partial",
  "note": "Not negative (C135_not_negative), zero for constants (C135_constant), entropy of normal parameters accurate (C135_uvn_entropy). The variance is lost when mean^2 >= 2^58 variance: it is zero and the entropy is -inf (C135_counterexample). C135_variance_partial: relative error 2^-49 (1 + mean^2 info)."
 },
 "C139": {
  "status": "partial",
  "note": "False: whatever objective is minimized, an interruption during a gradient call can leave the parameter with autograd placeholders, there is no try/finally (C139_counterexample). C139_partial: interruptions outside of derivative calls (no preconditioner) leave numbers."
 },
 "C140": {
  "status": "partial",
  "note": "False: a call can return a number that is the value at none of the points (C140_counterexample). C140_same_point_partial: right for any number of threads at the same point and every schedule. C140_mixture_partial: every value is that of a mixture of the points. C140_can_finish: no schedule blocks. C140_alone: a single thread does what fun_free does."
 },
 "C141": {
  "status": "partial",
  "note": "False: points and values can be in different orders, and counts can be lost (C141_counterexample). C141_partial: every point and every value is logged exactly once. C141_same_point_partial: at the same point the log is right."
 },
 "C144": {
  "status": "partial",
  "note": "Complete and in order for all dictionaries (C144_complete). Not unique for nested dictionaries: only the first line of an entry is indented (C144_counterexample). C144_text_determines_partial: unique for dictionaries of scalars and simplexes that print on one line, with names without colons and line breaks."
 },
 "C151": {
  "status": "partial",
  "note": "False: for every dictionary and every new parameter with a free value, push_param goes through a state in which set_free(get_free()) raises ValueError (C151_inconsistent_counterexample), and one after which pushing again counts the parameter twice (C151_repeat_counterexample). C151_repeat_partial: if the sizes are unchanged, pushing again completes the dictionary; if the vector size has changed, it is complete."
 },
 "C152": {
  "status": "partial",
  "note": "False: after a call that raised in the converter the output parameter holds autograd placeholders, and it still does after any further Jacobian calls, also successful ones (C152_counterexample). C152_returned_partial: the vector and plain numbers are kept by any sequence of calls that all return, and in any state set_vector with numbers removes the placeholders."
 },
 "C160": {
  "status": "partial",
  "note": "False for predictions (C160_linear_counterexample, C160_taylor_counterexample); the partial theorem says that the derivative is kept for every failure, and what is predicted afterwards."
 },
 "C164": {
  "status": "partial",
  "note": "False (C164_counterexample, C164_placeholder_fails): a derivative method called with verbose=True logs a placeholder. The partial theorem covers all histories without such calls."
 },
 "C174": {
  "status": "partial",
  "note": "False for names that the methods use themselves (C174_name_counterexample: verbose, autograd_fun); a missing vector is not noticed by fun_free_hvp_cond (C174_missing_vector_counterexample). Proved for all other arguments, for both classes."
 },
 "C187": {
  "status": "partial",
  "note": "False for the output parameter of a converter (C187_output_counterexample). Proved for two-parameter objectives and for the input parameter of converters. The C187_alone theorems tie the threads to the sequential model."
 },
 "C188": {
  "status": "partial",
  "note": "False for calls at different points (C188_counterexample, C188_predictions_counterexample, C188_two_parameters_counterexample). Proved for any number of calls at the same point under every schedule; for converters and non-linear predictions the user's converter must read only the input and set each output parameter at most once."
 }
}