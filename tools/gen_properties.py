#!/usr/bin/env python3
"""Writes ../properties.jsonl.  One P(...) call per property."""
import json, os
out = []
def P(id, title, statement, quantifier, why, anchors):
    out.append(dict(id=id, title=title, statement=statement, quantifier=quantifier,
                    why_tests_cant=why, anchors=anchors))
L = 'LinearResponseVariationalBayes/'
PAR, MAT, SIM = L+'Parameters.py', L+'MatrixParameters.py', L+'SimplexParams.py'
PRJ, DIC, OBJ = L+'ProjectionParams.py', L+'ParameterDictionary.py', L+'SparseObjectives.py'
SEN, CGR, OPT = L+'ModelSensitivity.py', L+'ConjugateGradient.py', L+'OptimizationUtils.py'
EXP, NRM, DIR = L+'ExponentialFamilies.py', L+'NormalParams.py', L+'DirichletParams.py'
WIS, GAM, REG, MOD = L+'WishartParams.py', L+'GammaParams.py', L+'regression_utils.py', L+'Modeling.py'

# ---------------------------------------------------------------- A: bounds
P('C01', 'Constraining lands strictly inside the bounds',
  'For every pair of legal bounds (either of which may be infinite) and every finite unconstrained value, the constrained value is finite and lies strictly between the lower and the upper bound.',
  'all bounds lb < ub in the extended reals, all finite free values',
  'There are uncountably many bounds and values in four bound configurations; tests sample a handful of bounds.',
  [PAR+':constrain', PAR+':ScalarParam.set_free', PAR+':VectorParam.set_free', PAR+':ArrayParam.set_free'])
P('C02', 'Unconstraining undoes constraining',
  'Converting any finite free value to its constrained value and back returns exactly the free value (exact arithmetic), for all four combinations of finite and infinite bounds, and never raises.',
  'all legal bounds, all finite free values',
  'A round trip over a continuum of inputs and bounds.',
  [PAR+':constrain', PAR+':unconstrain', PAR+':unconstrain_scalar', PAR+':unconstrain_array'])
P('C03', 'Constraining undoes unconstraining, on every value the API accepts',
  'For every value the unconstraining functions accept (lb <= value <= ub), converting to the free value and back gives the same value, including at a bound.',
  'all legal bounds, all finite values between them inclusive',
  'The interesting points are the boundary points and infinite intermediate values, of which tests exercise none.',
  [PAR+':constrain', PAR+':unconstrain', PAR+':unconstrain_scalar'])
P('C04', 'Out-of-bounds values, and only those, are rejected when a free value is requested',
  'Requesting the free value raises ValueError exactly when some element lies outside the closed interval of the bounds (or is NaN, or the bounds are not strictly ordered); otherwise it returns a value.',
  'all bounds, all values and arrays of any length, including infinite and NaN values',
  'The claim is an if-and-only-if over all inputs.',
  [PAR+':unconstrain_array', PAR+':unconstrain_scalar', PAR+':unconstrain'])
P('C05', 'A parameter constructed without a value starts inside its bounds',
  'For every legal pair of bounds, a scalar, vector or array parameter constructed without an explicit value holds a value within its bounds, so that its free value can be read immediately.',
  'all legal bounds, all sizes and shapes',
  'Whether it holds depends on the relative position of the two bounds; the unit tests use bounds for which it happens to hold.',
  [PAR+':get_inbounds_value', PAR+':ScalarParam.__init__', PAR+':VectorParam.__init__', PAR+':ArrayParam.__init__'])
P('C06', 'Constructors accept exactly the strictly ordered bounds',
  'Constructing a bounded parameter raises when lb >= ub and when either bound is NaN, and succeeds for all other bounds.',
  'all pairs of floats including infinities and NaN',
  'NaN comparisons make the naive reading of the checks wrong; tests use no NaN.',
  [PAR+':ScalarParam.__init__', PAR+':VectorParam.__init__', PAR+':ArrayParam.__init__'])
P('C07', 'The bounded transform is strictly increasing and onto',
  'For fixed legal bounds the map from free value to constrained value is strictly increasing, and every value strictly inside the bounds is reached by exactly one free value.',
  'all legal bounds, all pairs of free values, all interior values',
  'Monotonicity and surjectivity quantify over all pairs of reals.',
  [PAR+':constrain', PAR+':unconstrain'])
P('C08', 'The sparse Jacobian and Hessians of bounded parameters are the true derivatives',
  'For scalar, vector and array parameters, free_to_vector_jac(x) has as (i, j) entry the partial derivative of vector entry i with respect to free entry j at x, and the i-th matrix of free_to_vector_hess(x) holds its second partial derivatives; in particular all off-diagonal entries are zero.',
  'all legal bounds, sizes, shapes and free vectors',
  'Requires differentiation at every point for every size, not at one random point.',
  [PAR+':VectorParam.free_to_vector_jac', PAR+':VectorParam.free_to_vector_hess', PAR+':ArrayParam.free_to_vector_jac', PAR+':ScalarParam.free_to_vector_jac'])

# ---------------------------------------------------------------- B: leaf params
P('C09', 'set_free followed by get_free returns the vector that was set',
  'For every parameter type (a vector or array of matrices holding at least one matrix), after set_free(x) with a finite x of length free_size(), get_free() returns x.',
  'all parameter types, sizes, bounds, prior states and free vectors',
  'A history-independent round trip over all values, sizes and previous states.',
  [PAR+':VectorParam.get_free', PAR+':ArrayParam.get_free', PAR+':ScalarParam.get_free', MAT+':PosDefMatrixParam.get_free', MAT+':PosDefMatrixParamVector.get_free', MAT+':PosDefMatrixParamArray.get_free', SIM+':SimplexParam.get_free', PRJ+':SubspaceVectorParam.get_free'])
P('C10', 'set_vector followed by get_vector returns the vector that was set',
  'For every parameter type (a vector or array of matrices holding at least one matrix), after set_vector(v) succeeds, get_vector() returns v; and get_vector() always has vector_size() entries in that case.',
  'all parameter types, sizes, prior states and vectors',
  'Round trip over all sizes and values, including index ordering for matrices and arrays.',
  [PAR+':ArrayParam.set_vector', MAT+':PosDefMatrixParam.set_vector', MAT+':PosDefMatrixParamVector.set_vector', MAT+':PosDefMatrixParamArray.set_vector', SIM+':SimplexParam.set_vector'])
P('C11', 'Wrong-length vectors are rejected and leave the parameter unchanged',
  'For every parameter type, set_free or set_vector with a vector whose length differs from free_size() or vector_size() raises, and the value held by the parameter is the one it held before the call.',
  'all parameter types, all lengths, all prior states',
  'Atomicity on the error path must hold for every wrong length.',
  [PAR+':ScalarParam.set_free', PAR+':VectorParam.set_free', PAR+':ArrayParam.set_free', PAR+':ArrayParam.set_vector', MAT+':PosDefMatrixParam.set_free', SIM+':SimplexParam.set_free', PRJ+':SubspaceVectorParam.set_free', DIC+':ModelParamsDict.set_free'])
P('C12', 'set rejects values of the wrong shape',
  'For array-valued parameters set(val) raises unless val has exactly the declared shape; in particular a value of the wrong shape is never stored.',
  'all declared shapes and all shapes of the argument',
  'The check must be right for every combination of agreeing and disagreeing axes.',
  [PAR+':ArrayParam.set', PAR+':VectorParam.set', MAT+':PosDefMatrixParam.set', MAT+':PosDefMatrixParamVector.set', MAT+':PosDefMatrixParamArray.set', SIM+':SimplexParam.set'])
P('C13', 'Array parameters are packed in row-major order',
  'For every shape, the vector position of array entry (i1,...,id) is the row-major rank of that multi-index; enumerating all multi-indices in lexicographic order enumerates vector positions 0,1,2,... without gaps or repeats.',
  'all shapes of any dimension and all multi-indices',
  'An order-isomorphism over unbounded shapes.',
  [PAR+':ArrayParam.get_vector', PAR+':ArrayParam.set_vector', MAT+':PosDefMatrixParamArray.stacked_obs_slice', SIM+':SimplexParam.get_vector_indices'])

# ---------------------------------------------------------------- C: matrices
P('C14', 'Lower-triangle indexing is a symmetric bijection',
  'The packed index of matrix entry (i, j) equals that of (j, i), and over the lower triangle of an n-by-n matrix the index takes every value 0..n(n+1)/2-1 exactly once, in row-by-row order.',
  'all matrix sizes and all index pairs',
  'Bijectivity for every size.',
  [MAT+':SymIndex', MAT+':vectorize_ld_matrix'])
P('C15', 'Vectorizing and unvectorizing lower-triangular matrices are mutually inverse',
  'Unvectorizing any vector of triangular length and vectorizing gives the vector back; vectorizing any square matrix and unvectorizing gives its lower triangle with zeros above.',
  'all sizes, all vectors and matrices',
  'Round trips for every size.',
  [MAT+':vectorize_ld_matrix', MAT+':unvectorize_ld_matrix'])
P('C16', 'Only triangular lengths are accepted',
  'Unvectorizing a vector succeeds exactly when its length is n(n+1)/2 for some n, the result is then n-by-n, and for every other length ValueError is raised. Non-square matrices are rejected by vectorizing.',
  'all lengths and all matrix shapes',
  'The size is recovered through a square root and truncation; correctness at every length is a number-theoretic claim.',
  [MAT+':unvectorize_ld_matrix', MAT+':vectorize_ld_matrix'])
P('C17', 'Symmetric unvectorizing is symmetric and inverse to vectorizing',
  'Unvectorizing any vector of triangular length into a symmetric matrix gives a matrix equal to its transpose whose lower triangle is that vector; applied to the vectorization of a symmetric matrix it returns that matrix.',
  'all sizes, all vectors, all symmetric matrices',
  'Round trips for every size.',
  [MAT+':unvectorize_symmetric_matrix'])
P('C18', 'The hand-written derivative rules for unvectorizing are right',
  'The forward rule is the derivative of the (linear) unvectorizing map, and the reverse rule is its adjoint: the inner product of any cotangent matrix with the forward image of any tangent vector equals the inner product of the reverse image of the matrix with the vector.',
  'all sizes, cotangents and tangents',
  'An identity over all tangent/cotangent pairs of every size.',
  [MAT+':unvectorize_ld_matrix_vjp', MAT+':unvectorize_ld_matrix_jvp'])
P('C19', 'Every free vector gives a positive definite matrix above the diagonal bound',
  'For every free vector of triangular length and every diag_lb >= 0, the unpacked matrix minus diag_lb times the identity is symmetric positive definite; hence every diagonal entry strictly exceeds diag_lb and set_free on a positive definite matrix parameter never raises.',
  'all sizes, all free vectors, all diag_lb >= 0',
  'Positive definiteness is a statement about all nonzero vectors for all inputs.',
  [MAT+':unpack_posdef_matrix', MAT+':PosDefMatrixParam.set_free'])
P('C20', 'Packing a positive definite matrix and unpacking it returns it, and conversely',
  'For every symmetric matrix A with A - diag_lb I positive definite, unpacking the packed vector returns A; for every free vector, packing the unpacked matrix returns the vector.',
  'all sizes, all such matrices, all free vectors, all diag_lb >= 0',
  'Relies on existence and uniqueness of a Cholesky factor with positive diagonal for every positive definite matrix.',
  [MAT+':pack_posdef_matrix', MAT+':unpack_posdef_matrix', MAT+':exp_matrix_diagonal', MAT+':log_matrix_diagonal'])
P('C21', 'A positive-definite matrix parameter always holds a symmetric matrix of its declared size',
  'After construction and any sequence of set, set_free and set_vector calls, successful or failing, the held value of a matrix parameter is a size-by-size symmetric matrix.',
  'all sizes and all finite histories of calls with arbitrary arguments',
  'An invariant over unbounded histories.',
  [MAT+':PosDefMatrixParam.set', MAT+':PosDefMatrixParam.set_free', MAT+':PosDefMatrixParam.set_vector', MAT+':PosDefMatrixParam.__init__'])
P('C22', 'Vectors and arrays of matrices are packed block by block',
  'In a vector or array of positive definite matrices, block b of the free vector (and of the vector form) determines matrix b and no other matrix; the blocks tile the vector exactly, and each matrix equals what a single matrix parameter would give for that block.',
  'all lengths, array shapes, matrix sizes and vectors',
  'Index arithmetic over unbounded shapes.',
  [MAT+':PosDefMatrixParamVector.free_obs_slice', MAT+':PosDefMatrixParamVector.set_free', MAT+':PosDefMatrixParamArray.stacked_obs_slice', MAT+':PosDefMatrixParamArray.set_free'])
P('C23', 'Jacobians and Hessians of vectors and arrays of matrices are the true derivatives for every diagonal bound',
  'free_to_vector_jac and free_to_vector_hess of a vector or array of positive definite matrices equal the partial derivatives of free_to_vector at every point, whatever diag_lb is, although the code evaluates the single-matrix derivative without passing diag_lb.',
  'all lengths, array shapes, sizes, diag_lb and free vectors',
  'Tests use diag_lb = 0 only and one point.',
  [MAT+':PosDefMatrixParamVector.free_to_vector_jac', MAT+':PosDefMatrixParamVector.free_to_vector_hess', MAT+':PosDefMatrixParamArray.free_to_vector_jac', MAT+':PosDefMatrixParamArray.free_to_vector_hess'])
P('C24', 'Positive definite matrix parameters can be built with default arguments',
  'Every public parameter type can be constructed with its default arguments, and its size-reporting methods return.',
  'all public parameter constructors with default arguments',
  'Needs knowing what is reached on every constructor path.',
  [MAT+':PosDefMatrixParamArray.__init__', MAT+':PosDefMatrixParamArray.length'])

# ---------------------------------------------------------------- D: simplex
P('C25', 'Constrained simplex rows are strictly positive and sum to one',
  'For every free matrix, each row of the constrained matrix has one more column, has strictly positive entries and sums to exactly one (exact arithmetic).',
  'all numbers of rows and columns, all free matrices',
  'A continuum of inputs and unbounded dimensions.',
  [SIM+':constrain_simplex_matrix', SIM+':SimplexParam.set_free'])
P('C26', 'Simplex constrain and unconstrain are mutually inverse',
  'Unconstraining the constrained form of any free matrix returns it; constraining the unconstrained form of any matrix with positive rows summing to one returns it.',
  'all dimensions, all free matrices, all matrices of positive rows with unit sums',
  'Round trips on a continuum.',
  [SIM+':constrain_simplex_matrix', SIM+':unconstrain_simplex_matrix', SIM+':SimplexParam.get_free'])
P('C27', 'The closed-form simplex Jacobian is the derivative of the simplex transform',
  'The Jacobian computed from the moments z at any free vector has as (i, j) entry the partial derivative of the i-th simplex coordinate with respect to the j-th free coordinate.',
  'all dimensions and free vectors',
  'A calculus identity at every point and for every dimension; tests check one three-dimensional point.',
  [SIM+':constrain_grad_from_moment', SIM+':constrain_simplex_vector'])
P('C28', 'The closed-form simplex Hessian is the second derivative of the simplex transform',
  'The Hessian computed from the moments z at any free vector has as (k, i, j) entry the mixed second partial derivative of the k-th simplex coordinate with respect to free coordinates i and j.',
  'all dimensions and free vectors',
  'As for the Jacobian; the code mutates the array in place in several passes.',
  [SIM+':constrain_hess_from_moment'])
P('C29', 'Sparse assembly for simplex parameters places every derivative where it belongs',
  'For a parameter of any number of simplexes, free_to_vector_jac and free_to_vector_hess equal the Jacobian and Hessians of free_to_vector, with zero entries between different simplexes.',
  'all numbers of rows and columns, all free vectors',
  'Index arithmetic over unbounded shapes composed with calculus.',
  [SIM+':SimplexParam.free_to_vector_jac', SIM+':SimplexParam.free_to_vector_hess', SIM+':SimplexParam.get_vector_indices'])

# ---------------------------------------------------------------- E: subspace
P('C30', 'A subspace vector set from a free value satisfies its constraint',
  'For every constraint matrix of full row rank, after set_free(x) the held vector is orthogonal to every row of the constraint matrix.',
  'all dimensions, all full-row-rank constraint matrices, all free vectors, all admissible eigenvector choices',
  'The basis is produced by an eigen-solver whose choice of basis is not unique; the claim must hold for all.',
  [PRJ+':get_perpendicular_subspace', PRJ+':SubspaceVectorParam.set_free'])
P('C31', 'Subspace free values round-trip and reading then setting projects',
  'get_free after set_free(x) returns x; and for an arbitrary held vector v, set_free(get_free()) replaces v by its orthogonal projection on the constraint space, so it changes nothing exactly when v satisfies the constraint.',
  'all full-row-rank constraint matrices, all vectors',
  'Quantifies over all held values, legal or not, and all bases.',
  [PRJ+':SubspaceVectorParam.get_free', PRJ+':SubspaceVectorParam.set_free'])
P('C32', 'The dimension assertion never fires for full-rank constraints',
  'For every constraint matrix with linearly independent rows, exactly dim minus rows eigenvalues exceed the threshold, so construction succeeds and free_size() is the dimension of the constraint space.',
  'all dimensions and full-row-rank matrices',
  'A spectral fact about all projections.',
  [PRJ+':get_perpendicular_subspace', PRJ+':SubspaceVectorParam.__init__'])

# ---------------------------------------------------------------- F: dictionary
P('C33', 'Dictionary sizes are the sums of the sizes of its parameters',
  'For every dictionary built by pushing parameters with distinct names, free_size() and vector_size() equal the sums over the held parameters, and, when at least one parameter was pushed and values have their declared shapes, get_free()/get_vector() return vectors of exactly those lengths.',
  'all finite sequences of pushes, including nested dictionaries, and all values',
  'Induction over unbounded construction histories.',
  [DIC+':ModelParamsDict.push_param', DIC+':ModelParamsDict.free_size', DIC+':ModelParamsDict.get_free'])
P('C34', 'Dictionary free and vector values round-trip',
  'For a dictionary of parameters with distinct names, set_vector(v) then get_vector() returns v for every v of the right length, and set_free(x) then get_free() returns x for every finite x of the right length, including nested dictionaries (at least one parameter). Vectors of any other length raise ValueError without effect.',
  'all dictionary structures, nestings, values and vectors',
  'Composition of all parameter transforms over arbitrary heterogeneous structures.',
  [DIC+':ModelParamsDict.set_free', DIC+':ModelParamsDict.get_free', DIC+':ModelParamsDict.set_vector', DIC+':ModelParamsDict.get_vector'])
P('C35', 'Index ranges tile the vector and locate each parameter',
  'The index ranges recorded for the parameters are disjoint, consecutive and cover 0..size-1, and the slice of get_free()/get_vector() at a parameter\'s range is exactly that parameter\'s own get_free()/get_vector().',
  'all dictionaries with distinct names, all values',
  'Partition property for unbounded numbers of parameters.',
  [DIC+':ModelParamsDict.push_param', PAR+':set_free_offset', PAR+':get_free_offset', PAR+':set_vector_offset', PAR+':get_vector_offset'])
P('C36', 'Changing one parameter\'s slice changes that parameter only',
  'If two vectors agree outside the index range of one parameter then after set_free (or set_vector) with either of them all other parameters hold the same values.',
  'all dictionaries, all pairs of vectors',
  'Non-interference over all vectors; the unit test perturbs one fixed structure.',
  [DIC+':ModelParamsDict.set_free', DIC+':ModelParamsDict.set_vector'])
P('C37', 'Reusing a parameter name keeps the dictionary usable',
  'Pushing a parameter whose name is already present replaces it and the dictionary\'s sizes, index ranges and round trips stay consistent.',
  'all sequences of pushes with possibly repeated names',
  'A history property: tests never push the same name twice.',
  [DIC+':ModelParamsDict.push_param'])
P('C38', 'Extending a nested dictionary after it was pushed keeps the parent usable',
  'After a dictionary was pushed into a parent, pushing further parameters into the child keeps the parent\'s sizes and round trips consistent.',
  'all orders of pushes to parent and child',
  'A history property about shared mutable objects.',
  [DIC+':ModelParamsDict.push_param', DIC+':ModelParamsDict.set_free'])
P('C39', 'The dictionary Jacobian is block diagonal and right',
  'free_to_vector_jac of a dictionary is the Jacobian of its free_to_vector at every free vector: diagonal blocks are the parameters\' own Jacobians and everything else is zero.',
  'all dictionaries, nestings and free vectors',
  'Composition of all parameter derivatives over arbitrary structures.',
  [DIC+':ModelParamsDict.free_to_vector_jac', PAR+':free_to_vector_jac_offset'])
P('C40', 'The dictionary Hessians are in vector order and right',
  'free_to_vector_hess of a dictionary has vector_size() entries; the i-th holds the second partial derivatives of vector entry i with respect to the free vector.',
  'all dictionaries, nestings and free vectors',
  'Offsets accumulate over an unbounded number of parameters.',
  [DIC+':ModelParamsDict.free_to_vector_hess', PAR+':free_to_vector_hess_offset', PAR+':offset_sparse_matrix'])
P('C41', 'Converting a vector Hessian to a free Hessian is the second-order chain rule',
  'For every twice differentiable objective and every parameter with a nonempty vector, the converted matrix built from the objective\'s gradient and Hessian in the vector parameterization is the Hessian of the objective in the free parameterization.',
  'all parameters and dictionaries, all twice differentiable objectives, all free vectors',
  'A calculus identity over all objectives.',
  [PAR+':convert_vector_to_free_hessian'])
P('C42', 'Reading derivatives leaves a usable numeric parameter',
  'After free_to_vector_jac, free_to_vector_hess or convert_vector_to_free_hessian at x, the parameter holds plain numbers (the value corresponding to x or its earlier value) rather than differentiation-tracing placeholders.',
  'all parameter types and dictionaries',
  'Depends on which code path each parameter type takes; the tests reset the parameter by hand.',
  [PAR+':ScalarParam.free_to_vector_jac', MAT+':PosDefMatrixParam.free_to_vector_jac', PAR+':convert_vector_to_free_hessian'])
P('C43', 'The attribute-style view reads and writes the held parameters',
  'Reading a key through the values view returns what the parameter\'s get() returns, writing a key sets that parameter and no other, and unknown keys raise KeyError without effect.',
  'all dictionaries, keys and values, all interleavings of reads and writes',
  'An invariant over histories of reads and writes.',
  [DIC+':ModelParamsDictValues.__getitem__', DIC+':ModelParamsDictValues.__setitem__', DIC+':ModelParamsDict.__getitem__'])

# ---------------------------------------------------------------- G: objectives
P('C44', 'After a derivative call the parameter holds the evaluation point',
  'After any sequence of successful value, gradient, Hessian, Jacobian or Hessian-vector-product calls on an objective, its parameter holds plain numbers equal to what set_free (or set_vector) of the last evaluation point gives.',
  'all call sequences, all evaluation points',
  'An invariant over unbounded call histories.',
  [OBJ+':Objective.cache_free_and_eval', OBJ+':Objective.cache_vector_and_eval', OBJ+':Objective.fun_free_hvp', OBJ+':Objective.fun_vector_hvp'])
P('C45', 'A failing derivative call does not corrupt the parameter',
  'If the objective function raises during a derivative call, the parameter still holds plain numbers afterwards.',
  'all crash points inside the objective function',
  'Crash points cannot be enumerated by tests.',
  [OBJ+':Objective.cache_free_and_eval', OBJ+':TwoParameterObjective.cache_and_eval', OBJ+':ParameterConverter.cache_free_and_eval'])
P('C46', 'Preconditioned derivatives are the derivatives of the preconditioned function',
  'For every preconditioner matrix P, the conditioned value at x is the value at Px, the conditioned gradient and Hessian are the gradient and Hessian of x -> f(Px), and the conditioned Hessian-vector product is the conditioned Hessian times the vector.',
  'all objectives, dimensions, preconditioners, points and vectors',
  'Chain rule over all matrices and functions.',
  [OBJ+':Objective.fun_free_cond', OBJ+':Objective.fun_free_grad_cond', OBJ+':Objective.fun_free_hessian_cond', OBJ+':Objective.fun_free_hvp_cond', OBJ+':Objective.uncondition_x'])
P('C47', 'The logger records the full evaluation history and reports at the requested rate',
  'After n log calls since initialization the logger holds exactly the n points and values in order, the last point and value are the latest ones, and the callback has been called ceil(n / print_every) times, at calls 1, 1+print_every, ...; initialize resets the history but keeps the callback and rate.',
  'all histories of log and initialize calls, all positive rates',
  'Invariant over unbounded histories.',
  [OBJ+':Logger.log', OBJ+':Logger.initialize'])
P('C48', 'The two off-diagonal Hessians are transposes of each other',
  'For every twice continuously differentiable function of two parameters, the (1,2) Hessian is the transpose of the (2,1) Hessian in each parameterization, its entries are the mixed partial derivatives with parameter 1 in the rows, and afterwards both parameters hold the evaluation point.',
  'all functions, dimensions and points',
  'Symmetry of second derivatives for all functions.',
  [OBJ+':TwoParameterObjective.fun_free_hessian12', OBJ+':TwoParameterObjective.fun_free_hessian21', OBJ+':TwoParameterObjective.fun_vector_hessian12', OBJ+':TwoParameterObjective.fun_hessian_free1_vector2', OBJ+':TwoParameterObjective.cache_and_eval'])
P('C49', 'Conversion Jacobians leave the output parameter untouched',
  'Each Jacobian method of a parameter converter leaves the vector value of the output parameter (get_vector) what it was before the call and the input parameter at the evaluation point, and returns the derivative of the corresponding conversion.',
  'all converters, parameters and points',
  'Must hold for every converter and held value.',
  [OBJ+':ParameterConverter.cache_free_and_eval', OBJ+':ParameterConverter.cache_vector_and_eval'])
P('C50', 'At the base hyperparameter both output predictions agree with the converter at the optimum',
  'predict_output_par_from_hyperparameters at the base hyperparameter returns the output computed from the optimal input, both for linear=True and linear=False.',
  'all models, optima, and prior values of the output parameter',
  'Depends on what the output parameter held before construction, i.e. on history.',
  [OBJ+':ParametricSensitivity.set_optimal_input_par', OBJ+':ParametricSensitivity.predict_output_par_from_hyperparameters'])
P('C51', 'The linear sensitivity is the derivative of the optimum',
  'For every twice differentiable objective with invertible Hessian at the optimum, the returned sensitivity matrix is the derivative of the map from hyperparameter to optimum, and the linear prediction is its first-order Taylor polynomial.',
  'all objectives, dimensions and differentiable optimum maps',
  'Implicit differentiation for all objectives.',
  [OBJ+':ParametricSensitivity.get_dinput_dhyper', SEN+':ParametricSensitivityLinearApproximation.get_dinput_dhyper', SEN+':ParametricSensitivityLinearApproximation.predict_input_par_from_hyperparameters'])

# ---------------------------------------------------------------- H: Taylor
P('C52', 'Building a Taylor expansion of any order never trips an internal assertion',
  'For every order >= 1, constructing the derivative arrays and terms up to that order raises no assertion or index error, and every generated term of order k has total derivative order exactly k.',
  'all orders',
  'The internal sanity assertions must be shown to hold for every order; tests use order 3.',
  [SEN+':ParametricSensitivityTaylorExpansion.set_order', SEN+':DerivativeTerm.__init__', SEN+':DerivativeTerm.differentiate', SEN+':generate_two_term_derivative_array'])
P('C53', 'Consolidating terms never changes their sum',
  'For every list of well-formed derivative terms, evaluating the consolidated list gives the same value as evaluating the original list, with or without the highest-order terms, and consolidation never trips its similarity assertion.',
  'all lists of terms, all evaluation points',
  'The code removes list elements while iterating over the list; correctness for every list is not obvious.',
  [SEN+':consolidate_terms', SEN+':DerivativeTerm.combine_with', SEN+':evaluate_terms'])
P('C54', 'Consolidation combines all like terms',
  'After consolidation no two terms have the same derivative pattern.',
  'all lists of terms',
  'Fails only with three or more like terms, which the test does not contain.',
  [SEN+':consolidate_terms'])
P('C55', 'The k-th sensitivity is the k-th derivative of the optimum',
  'For every smooth objective gradient with invertible Hessian and every smooth solution path, and every order k between 1 and the declared order, evaluate_dkinput_dhyperk(d, k) is the k-th derivative of the optimum along the direction d.',
  'all smooth objectives, directions and orders',
  'A Faa-di-Bruno style identity at every order.',
  [SEN+':ParametricSensitivityTaylorExpansion.evaluate_dkinput_dhyperk', SEN+':evaluate_dketa_depsk', SEN+':DerivativeTerm.evaluate', SEN+':append_jvp'])
P('C56', 'The Taylor series is the Taylor polynomial of the optimum',
  'evaluate_taylor_series(d, max_order=m) equals the degree-m Taylor polynomial of the optimum in direction d (with or without the constant term), for every 1 <= m <= order; other m raise ValueError, as do out-of-range k in evaluate_dkinput_dhyperk.',
  'all orders, directions and objectives',
  'An identity at every order, plus exact error conditions.',
  [SEN+':ParametricSensitivityTaylorExpansion.evaluate_taylor_series'])
P('C57', 'A Hessian supplied to the constructor is used',
  'When a Hessian is passed to the sensitivity constructors as hess0, the sensitivities are computed from it and the objective Hessian is not recomputed.',
  'all supplied Hessians',
  'The test passes a Hessian equal to the recomputed one, so it cannot tell.',
  [SEN+':ParametricSensitivityTaylorExpansion.__init__', SEN+':ParametricSensitivityLinearApproximation.__init__'])
P('C58', 'Constrained-vector base values are supported',
  'With input_is_free=False (or hyper_is_free=True) the base Hessian and cross Hessian are computed in the declared parameterization and afterwards the parameters hold the base values.',
  'all flags and base values',
  'The tests use only the default flags.',
  [SEN+':ParametricSensitivityTaylorExpansion.set_base_values', SEN+':ParametricSensitivityLinearApproximation.set_base_values'])
P('C59', 'The derivative array evaluates mixed directional derivatives in the documented argument order',
  'Entry [i][j] of the generated array, called with v1..vi and w1..wj, is the mixed derivative i times in the first and j times in the second argument applied to those vectors; the array has order rows of order+1 entries.',
  'all smooth functions, orders and vectors',
  'Recursion depth is unbounded.',
  [SEN+':generate_two_term_derivative_array', SEN+':append_jvp'])

# ---------------------------------------------------------------- I: cg / opt
P('C60', 'Splitting a mask partitions it evenly',
  'Splitting any boolean mask gives two masks of the same length that are disjoint, whose union is the mask, and whose counts differ by at most one.',
  'all masks of all lengths',
  'Partition for every mask.',
  [CGR+':split_vector'])
P('C61', 'Recursive splitting terminates with a partition into small masks',
  'For terminate_len >= 1 recursive splitting terminates and appends to the given results masks that are pairwise disjoint, have at most terminate_len true entries each, and whose union is the input mask; earlier results are kept.',
  'all masks, all terminate_len >= 1, all prior result lists',
  'Termination and partition over unbounded recursion.',
  [CGR+':recursive_split'])
P('C62', 'Recursive splitting terminates for every terminate_len',
  'Recursive splitting terminates for every mask and every terminate_len.',
  'all masks and all terminate_len including 0',
  'Non-termination cannot be tested.',
  [CGR+':recursive_split'])
P('C63', 'Contiguous masks partition the index range',
  'For 0 < min_mask_len < full_len the generated masks are contiguous, disjoint, cover all indices, all but the last have exactly min_mask_len true entries, the last has at least one, and there are ceil(full_len / min_mask_len) of them; other arguments raise.',
  'all lengths',
  'Boundary behaviour for every pair of lengths.',
  [CGR+':get_masks'])
P('C64', 'Subset solves add up to the full solve',
  'If masks partition the indices and the inner solver is exact, the recorded masked vectors sum to the input vector and the recorded solutions sum to the full solution; the recorded lists stay aligned over repeated calls.',
  'all linear operators, vectors, mask lists and call histories',
  'Linearity and bookkeeping over unbounded histories.',
  [CGR+':ConjugateGradientSolver.get_hinv_vec_subsets', CGR+':ConjugateGradientSolver.initialize'])
P('C65', 'The inverse square root is one',
  'For every matrix whose thresholded eigenvalues are positive, the first result S is symmetric and satisfies S C S = I where C is the second result; with no thresholds C is the symmetric part of the input; with ev_min <= ev_max all eigenvalues of C lie between the thresholds, and eigenvalues already between them are unchanged.',
  'all square matrices, thresholds and eigendecompositions',
  'A spectral identity for every matrix.',
  [OPT+':get_sym_matrix_inv_sqrt', OPT+':set_objective_preconditioner'])
P('C66', 'Preconditioned minimization optimizes the original objective from the original start',
  'With an invertible preconditioner, the optimizer starts at a point whose unconditioned image is init_x, and the returned opt_x has objective value equal to that reported by the optimizer; if the optimizer reports a stationary point then opt_x is stationary for the original objective.',
  'all objectives, preconditioners, starts and optimizer behaviours',
  'Holds whatever the external optimizer does.',
  [OPT+':minimize_objective_bfgs', OPT+':minimize_objective_trust_ncg'])
P('C67', 'Repeated optimization stops, and its convergence flags describe the returned point',
  'For max_iter >= 1 the loop calls the optimizer between 1 and max_iter times, stops at the first iteration meeting a tolerance, the returned point is the last optimizer output, converged is the disjunction of the three flags, and each flag compares the last two iterates (or the gradient at the last) with its tolerance.',
  'all objectives, optimizers, tolerances, max_iter >= 1',
  'Loop behaviour for every optimizer.',
  [OPT+':repeatedly_optimize'])
P('C68', 'Repeated optimization handles max_iter = 0',
  'Calling repeated optimization with max_iter = 0 returns the starting point.',
  'all objectives and starts',
  'An edge case that tests omit.',
  [OPT+':repeatedly_optimize'])

# ---------------------------------------------------------------- J: sparse utils
P('C69', 'Sub-matrices are scattered to the requested positions',
  'When the row and column indices are each distinct and in range, entry (row_indices[i], col_indices[j]) of the result is sub_matrix[i, j] and every entry outside the indexed rows and columns is zero; with repeated indices entries add.',
  'all matrices, index vectors and dimensions',
  'Placement for all index vectors.',
  [OBJ+':get_sparse_sub_matrix', OBJ+':get_sparse_sub_hessian'])
P('C70', 'Packing and unpacking sparse matrices is lossless',
  'Unpacking a packed sparse matrix gives the same shape and entries, for both the plain and the JSON form; the JSON form rejects anything not tagged as a csr matrix.',
  'all sparse matrices',
  'Round trip on all matrices.',
  [OBJ+':pack_csr_matrix', OBJ+':unpack_csr_matrix', OBJ+':json_pack_csr_matrix', OBJ+':json_unpack_csr_matrix'])
P('C71', 'An index parameter tells where each element is stored',
  'For every parameter p holding values of the declared shapes and, in matrix parameters, symmetric matrices, the index parameter has the structure of p, its vector form is 0,1,2,..., and for every element of the structured value, looking up its index value in p\'s vector form gives that element of p.',
  'all parameter types, sizes and nested dictionaries',
  'Must hold for every structure.',
  [OBJ+':make_index_param'])

# ---------------------------------------------------------------- K: exponential families, regression, modelling
P('C72', 'Log-normal moments are the true moments',
  'get_e_lognormal(mu, s2) and get_var_lognormal(mu, s2) are the mean and variance of exp(X) for X normal with mean mu and variance s2, and e2_exp of a univariate normal parameter is the second moment.',
  'all means and nonnegative variances',
  'Equality with an integral for every parameter value.',
  [EXP+':get_e_lognormal', EXP+':get_var_lognormal', NRM+':UVNParam.e2_exp'])
P('C73', 'The normal entropy is the true differential entropy',
  'univariate_normal_entropy(info) is the sum of minus the integral of p log p for normal densities with the given precisions.',
  'all positive precisions, arrays of any length',
  'Equality with an integral for every parameter value.',
  [EXP+':univariate_normal_entropy', NRM+':UVNParam.entropy', NRM+':UVNParamArray.entropy'])
P('C74', 'Natural parameters of a normal are inverted correctly',
  'For e2_term < 0, the returned mean and precision are those of the density proportional to exp(e_term x + e2_term x^2).',
  'all real e_term and negative e2_term',
  'An identity of functions for all parameters.',
  [EXP+':get_uvn_from_natural_parameters'])
P('C75', 'univariate_normal_log_prob is a normalized log density',
  'exp(univariate_normal_log_prob(u, m, info)) integrates to one over u and is the normal density with mean m and precision info.',
  'all means and positive precisions',
  'Normalization is an integral.',
  [MOD+':univariate_normal_log_prob'])
P('C76', 'The moment parameterization agrees with the natural one',
  'After set_from_uvn_param_array, mean, second moment, variance, mean and variance of the exponential, second moment of the exponential and entropy agree with those of the source parameter.',
  'all shapes, means and positive precisions',
  'Agreement on a continuum; the test compares only two of the methods.',
  [NRM+':UVNMomentParamArray.set_from_uvn_param_array', NRM+':UVNMomentParamArray.var_exp', NRM+':UVNParamArray.var_exp'])
P('C77', 'Dirichlet means form a simplex',
  'get_e_dirichlet(alpha) sums to one along the first axis and is strictly positive for every array of positive alpha; entropy of a two-component Dirichlet equals the beta entropy with the same parameters.',
  'all positive alpha of any shape',
  'Identity on a continuum.',
  [EXP+':get_e_dirichlet', EXP+':dirichlet_entropy', EXP+':beta_entropy'])
P('C78', 'A Wishart parameter has the requested size',
  'WishartParam(size=n) holds an n-by-n scale matrix, and its lower bound for the degrees of freedom is at least n - 1.',
  'all sizes n',
  'The test uses only the default size.',
  [WIS+':WishartParam.__init__'])
P('C79', 'Regression coefficients solve the weighted normal equations',
  'get_regression_coefficients returns, for every design matrix with invertible weighted Gram matrix and symmetric info, the minimizer of the weighted least squares criterion, pooling over replicated responses.',
  'all dimensions, designs, responses, symmetric positive definite weights',
  'Optimality over all coefficient vectors.',
  [REG+':get_regression_coefficients', REG+':get_nat_params_from_likelihood', REG+':get_mvn_from_nat_params'])
P('C80', 'Prior natural parameters round-trip and combine with the likelihood',
  'Converting a prior mean and information matrix to natural parameters and back returns them; the posterior mean and information are those of the normal density proportional to prior times likelihood.',
  'all dimensions, priors, designs and responses',
  'Identity for all inputs.',
  [REG+':get_nat_params_from_prior', REG+':get_mvn_from_nat_params', REG+':get_posterior_regression_coefficients'])
P('C81', 'Expected log priors are expectations of log priors',
  'uvn_prior and mvn_prior equal, up to a constant that does not depend on the first two moments, the expectation of the normal log density over any distribution with the given mean and covariance; gamma and exponential priors are likewise linear in the given expectations.',
  'all distributions with the given finite moments',
  'Quantifies over all distributions.',
  [EXP+':uvn_prior', EXP+':mvn_prior', EXP+':gamma_prior', EXP+':exponential_prior'])
P('C82', 'Standard draws are the symmetric quantile grid',
  'get_standard_draws(n) evaluates the quantile function at 1/(n+1), ..., n/(n+1); hence the draws are increasing and symmetric around zero.',
  'all n >= 1',
  'All n.',
  [MOD+':get_standard_draws'])
P('C83', 'The stable log-expit is accurate everywhere',
  'The piecewise function used for the logit-normal log expectation differs from log(expit(x)) by at most exp(-100) at every real x, and equals it for x > -100; the returned E[log(1-v)] is consistent with E[log v] for every quadrature rule exact on linear functions.',
  'all real x, all quadrature rules exact on linear functions',
  'All reals.',
  [EXP+':get_e_log_logitnormal', EXP+':get_e_fun_normal'])
P('C84', 'MVN moments are consistent',
  'For a multivariate normal parameter with symmetric invertible information matrix, e_outer() is symmetric and equals mean mean^T plus cov(), and cov() is the inverse of the information matrix.',
  'all dimensions and values',
  'Identity for all matrices.',
  [NRM+':MVNParam.e_outer', NRM+':MVNParam.cov'])
P('C85', 'The gamma expectations and entropy are the true ones',
  'For a gamma distribution with the given shape and rate, e() is its mean, e_log() the mean of the logarithm, and entropy() the differential entropy.',
  'all positive shapes and rates',
  'Equality with integrals for every parameter value.',
  [GAM+':GammaParam.e', EXP+':get_e_log_gamma', EXP+':gamma_entropy'])

P('C86', 'The derivative methods return the derivatives of the value methods',
  'For every twice continuously differentiable objective, in the free and in the vector parameterization, the gradient, Hessian and Jacobian methods return the partial derivatives of the value method at the point (Hessians are symmetric, Jacobians have the argument in the last axis) and the Hessian-vector product is the Hessian times the vector. For the derivatives at one point it is enough that the objective is twice continuously differentiable there, so that objectives with logarithms are covered.',
  'all objectives, parameters, points, vectors and output shapes',
  'Equality with derivatives for every objective and every point.',
  [OBJ+':Objective.fun_free_grad', OBJ+':Objective.fun_free_hessian', OBJ+':Objective.fun_free_jacobian', OBJ+':Objective.fun_free_hvp', OBJ+':Objective.fun_vector_grad', OBJ+':Objective.fun_vector_hessian', OBJ+':Objective.fun_vector_jacobian', OBJ+':Objective.fun_vector_hvp'])
P('C87', 'Both ways of computing a free Hessian agree',
  'For every twice continuously differentiable objective of the vector value of a parameter, converting the vector gradient and vector Hessian at free_to_vector(x) with convert_vector_to_free_hessian gives the matrix that fun_free_hessian(x) returns. The objective has to be smooth at the legal values only.',
  'all parameters (nested dictionaries included), objectives and points',
  'Relates two code paths at every point, for every parameter structure.',
  [PAR+':convert_vector_to_free_hessian', OBJ+':Objective.fun_free_hessian', OBJ+':Objective.fun_vector_grad', OBJ+':Objective.fun_vector_hessian'])

P('C88', 'A separate functor for the hyperparameter gives the same expansion',
  'When hyper_par_objective_functor is given and differs from objective_functor by a function of the input parameter only, the derivatives returned by the Taylor expansion are those of the optimum of objective_functor, as they are without it.',
  'all smooth objectives and functors that differ by a function of the input, all orders',
  'Tests use a functor only at first order, for one model.',
  [SEN+':ParametricSensitivityTaylorExpansion.__init__', SEN+':ParametricSensitivityTaylorExpansion.evaluate_dkinput_dhyperk'])
P('C89', 'After minimization the parameter holds the returned point',
  'When a minimization returns opt_x, the parameter of the objective holds opt_x.',
  'all objectives and optimizer behaviours',
  'Depends on the last call the external optimizer makes.',
  [OPT+':minimize_objective_bfgs', OPT+':minimize_objective_trust_ncg'])

P('C90', 'Quadrature expectations are exact for polynomials',
  'When the nodes and weights integrate polynomials up to degree D exactly against exp(-t^2), as a Gauss-Hermite rule does, get_e_fun_normal returns, for every entry of the arrays of means and precisions, the expectation of every polynomial of degree at most D under the normal distribution with that mean and precision.',
  'all shapes, means, positive precisions, exact rules and polynomials',
  'A family of integrals for every parameter value and every polynomial.',
  [EXP+':get_e_fun_normal'])
P('C91', 'The logistic terms average the log likelihood',
  'get_e_logistic_term returns the sum over observations of the average over the draws of the logistic log likelihood, for draws that add up to zero, as those of get_standard_draws do, and this is at most the log likelihood at the mean; the Gauss-Hermite version returns for every observation the quadrature estimate of the expected log(1 + exp(z)), which is at least its value at the mean, and their sum when aggregating.',
  'all shapes, responses, means, standard deviations, numbers of draws and rules',
  'Inequality on a continuum and for every number of draws.',
  [MOD+':get_e_logistic_term', MOD+':get_e_logistic_term_guass_hermite', MOD+':get_standard_draws'])
P('C92', 'The multivariate normal entropy is the differential entropy of the density',
  'The distribution a multivariate normal parameter stands for has the density sqrt(det info) (2 pi)^(-n/2) exp(-(x - mean)^T info (x - mean) / 2), and entropy() returns minus the expected log of that density.',
  'all dimensions, means and positive definite information matrices',
  'An integral over R^n for every n.',
  [NRM+':MVNParam', EXP+':multivariate_normal_entropy'])

P('C93', 'dictval() exports every value under its key',
  'dictval() of a dictionary parameter, however nested, returns a dictionary with the same keys in the same order, holding for every sub-dictionary its own dictval() and for every other parameter the nested lists of the value get() returns.',
  'all dictionaries, nesting depths, parameter types and call histories',
  'Structural claim over every tree and every history of calls.',
  [DIC+':ModelParamsDict.dictval', PAR+':ScalarParam.dictval', PAR+':VectorParam.dictval', PAR+':ArrayParam.dictval', MAT+':PosDefMatrixParam.dictval'])
P('C94', 'names() labels the entries of get_vector()',
  'names() returns one name for every entry of get_vector(), in the same order, and no two entries have the same name.',
  'all dictionaries, nesting depths and parameter types',
  'Structural claim over every tree.',
  [DIC+':ModelParamsDict.names', PAR+':ScalarParam.names', PAR+':VectorParam.names', PAR+':ArrayParam.names', MAT+':PosDefMatrixParam.names'])

P('C95', 'Dirichlet and beta moments and entropies are those of the densities',
  'For every array of positive parameters, with the components along the first axis, get_e_dirichlet returns the means of the coordinates of the Dirichlet distribution, get_e_log_dirichlet the expectations of their logarithms and dirichlet_entropy the differential entropy of its density on the simplex; beta_entropy returns the sum of the differential entropies of the beta densities in the rows.',
  'all numbers of components, array shapes and positive parameters',
  'Integrals over simplexes of every dimension, for every parameter value.',
  [EXP+':get_e_dirichlet', EXP+':get_e_log_dirichlet', EXP+':dirichlet_entropy', EXP+':beta_entropy', DIR+':DirichletParamArray'])

P('C96', 'The entropy of discrete distributions is the Shannon entropy up to min_prob',
  'For a 2-d array whose rows are probabilities and a positive min_prob, multinoulli_entropy returns one number for every row, at most the Shannon entropy of the row, smaller than it by at most min_prob for every column, and so at most the logarithm of the number of columns; with min_prob=0 it is exact when no probability is zero and not a number otherwise.',
  'all numbers of rows and columns, probabilities (zeros included) and min_prob',
  'Inequalities over a continuum, for every number of columns.',
  [EXP+':multinoulli_entropy'])
P('C97', 'Logit-normal estimates are probabilities',
  'For every quadrature rule with nonnegative weights that is exact on constants, get_e_logitnormal returns the quadrature estimate of the mean of a logit-normal variable; it lies strictly between zero and one and increases with the mean of the normal variable.  get_e_dp_prior_logitnorm_approx returns (alpha - 1) times the estimate of E log(1 - V), up to |alpha - 1| exp(-100), and zero for alpha = 1.',
  'all shapes, means, positive precisions, rules and alpha',
  'Inequalities over a continuum of inputs and of quadrature rules.',
  [EXP+':get_e_logitnormal', EXP+':get_e_dp_prior_logitnorm_approx'])
P('C98', 'Wishart expectations and entropy are those of the Wishart density',
  'For every positive definite scale matrix v of size n and df > n - 1, with X distributed with the Wishart density: e() returns the mean of X, e_log_det_wishart the mean of log det X, e_log_inv_wishart_diag the means of the logarithms of the diagonal of the inverse of X, expected_ljk_prior the mean of (lkj_param - 1) log det R for the correlation matrix R of the covariance matrix inverse to X, and wishart_entropy the differential entropy of the density.',
  'all sizes, positive definite scale matrices, degrees of freedom above n - 1 and lkj_param',
  'Integrals over the cone of positive definite matrices of every dimension.',
  [EXP+':wishart_entropy', EXP+':e_log_det_wishart', EXP+':e_log_inv_wishart_diag', EXP+':expected_ljk_prior', EXP+':multivariate_gammaln', EXP+':multivariate_digamma', WIS+':WishartParam'])
P('C99', 'e_inv() of a Wishart parameter is the mean of the inverse',
  'e_inv() of a Wishart parameter returns the expectation of the inverse of the Wishart distributed matrix.',
  'all sizes, positive definite scale matrices and degrees of freedom above n + 1',
  'Integrals over the cone of positive definite matrices of every dimension.',
  [WIS+':WishartParam.e_inv'])

P('C100', 'Library calls never modify arrays in place',
  'No call of a parameter or dictionary (constructor, push_param, set, set_name, set_free, set_vector, free_to_vector, free_to_vector_jac, free_to_vector_hess, get, get_free, get_vector, item access) modifies an array that existed before the call: not its arguments, not arrays returned by earlier calls, not the arrays held by parameters. This also holds when the call raises.',
  'all programs that create and modify arrays and objects in any order, all calls and all arrays that exist at the time',
  'Needs every history of sharing between arrays, parameters and dictionaries.',
  [PAR+':ScalarParam', PAR+':VectorParam', PAR+':ArrayParam', PAR+':set_free_offset', MAT+':PosDefMatrixParam', DIC+':ModelParamsDict'])
P('C101', 'set_free() copies its argument',
  'After a set_free() that returned, changing the argument, or any other array that existed before, in place does not change the parameter or anything in the dictionary.',
  'all parameters and dictionaries at any nesting, all arrays, all in-place changes',
  'All combinations of classes, nestings and later in-place changes.',
  [PAR+':ScalarParam.set_free', PAR+':VectorParam.set_free', PAR+':constrain', MAT+':PosDefMatrixParam.set_free', SIM+':SimplexParam.set_free', DIC+':ModelParamsDict.set_free'])
P('C102', 'get_free(), and get_vector() of a dictionary, return new arrays',
  'The array returned by get_free() of a parameter or dictionary, and by get_vector() of a dictionary, shares no memory with an array that existed before; changing it in place changes no parameter or dictionary.',
  'all programs, parameters and dictionaries, all in-place changes of the result',
  'All histories of sharing and all later in-place changes.',
  [PAR+':ScalarParam.get_free', PAR+':VectorParam.get_free', DIC+':ModelParamsDict.get_free', DIC+':ModelParamsDict.get_vector', PAR+':get_free_offset', PAR+':get_vector_offset'])
P('C103', 'Parameters keep a copy of the value they are given',
  'After set() or set_vector(), changing the argument in place does not change the parameter.',
  'all parameters, arguments and in-place changes',
  'All classes, arguments and later in-place changes.',
  [PAR+':VectorParam.set', PAR+':VectorParam.set_vector', PAR+':ArrayParam.set_vector', MAT+':PosDefMatrixParam.set_vector'])
P('C104', 'Parameters return copies of their value',
  'Changing the array returned by get() or get_vector() in place does not change the parameter.',
  'all parameters and in-place changes of the result',
  'All classes, values and later in-place changes.',
  [PAR+':VectorParam.get', PAR+':VectorParam.get_vector', PAR+':ScalarParam.get_vector', PRJ+':SubspaceVectorParam.get_vector'])
P('C105', 'With distinct objects, calls act on values only',
  'In a dictionary no object of which occurs twice, set_free, set_vector, free_to_vector, free_to_vector_jac, free_to_vector_hess, get_free and get_vector have, whatever arrays the parameters share with each other or with the caller, the effects and results they would have if every parameter held its own copy of its value; parameters and dictionaries that share no object with it keep their values.',
  'all programs, all objects at any nesting, all arguments',
  'All histories of sharing between arrays and objects.',
  [DIC+':ModelParamsDict.set_free', DIC+':ModelParamsDict.set_vector', DIC+':ModelParamsDict.free_to_vector', DIC+':ModelParamsDict.free_to_vector_jac', DIC+':ModelParamsDict.free_to_vector_hess', DIC+':ModelParamsDict.get_free', DIC+':ModelParamsDict.get_vector'])
P('C106', 'Free round trip of every dictionary',
  'After set_free(x) with x of the right length, get_free() returns x, for every dictionary that can be built with push_param from parameters and dictionaries.',
  'all programs that build a dictionary, all x of length free_size()',
  'All ways of putting objects together, including one object in two places.',
  [DIC+':ModelParamsDict.push_param', DIC+':ModelParamsDict.set_free', DIC+':ModelParamsDict.get_free'])
P('C107', 'A dictionary holds the object that was pushed',
  'After push_param(p), item access with the name of p returns p itself, so that changes made through p are seen through the dictionary and the other way around.',
  'all programs, dictionaries and pushed objects',
  'All histories of pushes and changes.',
  [DIC+':ModelParamsDict.push_param', DIC+':ModelParamsDict.__getitem__'])

P('C108', 'Free values give values within the bounds, in floating point',
  'With every operation rounded, set_free() with any finite free value stores a value within the bounds, and get_free() does not raise afterwards.',
  'all bounds and finite free values that can be represented, all arithmetics that round monotonically with faithful exp and log, double precision among them',
  'All pairs of bounds and free values; the failures are at particular bit patterns.',
  [PAR+':constrain', PAR+':unconstrain_scalar', PAR+':ScalarParam.set_free', PAR+':ScalarParam.get_free'])
P('C109', 'Free round trip in floating point',
  'In double precision get_free() after set_free(x) returns a finite number close to x.',
  'all bounds and free values, all faithful exp and log',
  'All doubles and all library implementations.',
  [PAR+':constrain', PAR+':unconstrain', PAR+':ScalarParam.set_free', PAR+':ScalarParam.get_free'])
P('C110', 'Simplexes stay in range in floating point',
  'With every operation rounded, set_free() of a simplex with finite free values, however large, stores numbers in [0, 1], never NaN.',
  'all lengths and finite free values that can be represented, all arithmetics that round monotonically with faithful exp and log',
  'All lengths and values, including those for which exp overflows.',
  [SIM+':constrain_simplex_matrix', SIM+':SimplexParam.set_free'])
P('C111', 'Free round trip of simplexes in floating point',
  'In double precision get_free() of a simplex after set_free(x) returns finite numbers close to x.',
  'all lengths and free values, all faithful exp and log',
  'All lengths and doubles.',
  [SIM+':constrain_simplex_matrix', SIM+':unconstrain_simplex_matrix', SIM+':SimplexParam.get_free'])
P('C112', 'Default values have finite free values in floating point',
  'In double precision a parameter created without a value holds a number inside its bounds, and get_free() returns finite numbers.',
  'all bounds that can be represented',
  'All pairs of bounds; the failures are at the extremes of the range.',
  [PAR+':get_inbounds_value', PAR+':ScalarParam.__init__', PAR+':VectorParam.__init__'])
P('C113', 'The vector round trip of matrices is exact in floating point',
  'With every operation rounded, get_vector() of a matrix parameter after set_vector(v) returns exactly v.',
  'all sizes and all vectors of numbers that can be represented',
  'All sizes and values.',
  [MAT+':unvectorize_symmetric_matrix', MAT+':vectorize_ld_matrix', MAT+':PosDefMatrixParam.set_vector'])
P('C114', 'The matrix size computed with floats is right',
  'In double precision, for a vector of length up to 2**48, the matrix built from it has size n exactly when the length is n (n + 1) / 2, and ValueError is raised when there is no such n.',
  'all lengths up to 2**48',
  'All lengths; a rounding error in the square root would show only at some of them.',
  [MAT+':unvectorize_ld_matrix'])

P('C115', 'Calls of an objective change no array of the caller',
  'Evaluating an objective, its derivatives, and their preconditioned versions changes no array that exists, also when it raises, and as long as no object occurs twice in the parameter every call returns, and leaves in the parameter and the logger, what follows from the numbers in the arguments, in the parameter, in the preconditioner and in the recorded points at that moment, in any sequence of calls.',
  'all programs that make arrays, parameters and an objective, all sequences of calls and all arguments, arrays may share memory with each other and with the parameter',
  'All ways in which arguments, the parameter, the preconditioner and the logger can share memory, and all histories.',
  [OBJ+':Objective.fun_free', OBJ+':Objective.fun_vector', OBJ+':Objective.fun_free_grad', OBJ+':Objective.fun_free_hessian', OBJ+':Objective.fun_free_hvp', OBJ+':Objective.fun_free_cond', OBJ+':Objective.fun_free_grad_cond', OBJ+':Objective.fun_free_hessian_cond', OBJ+':Objective.fun_free_hvp_cond', OBJ+':Logger.log'])
P('C116', 'The logger remembers the points of past evaluations',
  'Until the logger is initialized again, the points in x_array are the points at which the objective was evaluated with verbose=True, in order, whatever the caller does with its arrays.',
  'all programs that evaluate an objective',
  'All later in-place changes of any array.',
  [OBJ+':Logger.log', OBJ+':Logger.initialize', OBJ+':Objective.fun_free', OBJ+':Objective.fun_free_cond'])
P('C117', 'A two-parameter objective is evaluated at both of its arguments',
  'Evaluating a two-parameter objective, a gradient or a cross Hessian of it at x1 and x2 changes no array that exists, also when it raises; when it returns, the first parameter contains x1 and the second x2, and an evaluation returned the function of these contents.',
  'all programs, all pairs of parameters, which may have parts in common, all sequences of calls and all arguments',
  'All ways in which the two parameters and the arguments can share memory, and all histories.',
  [OBJ+':TwoParameterObjective.eval_fun', OBJ+':TwoParameterObjective.fun_grad1', OBJ+':TwoParameterObjective.fun_grad2', OBJ+':TwoParameterObjective.fun_free_hessian12', OBJ+':TwoParameterObjective.fun_free_hessian21', OBJ+':TwoParameterObjective.cache_and_eval'])
P('C118', 'A Jacobian of a conversion leaves the output parameter as it was',
  'Conversions and their Jacobians change no array that exists, also when they raise, if the converter does not; after a Jacobian that returned, the input parameter contains the argument and the output parameter the vector it had before.',
  'all programs, all pairs of parameters, which may have parts in common, all converters that only assign to the output parameter, all arguments',
  'All ways in which the two parameters, the arguments and the saved vector can share memory, and all histories.',
  [OBJ+':ParameterConverter.converter_free_to_vec', OBJ+':ParameterConverter.free_to_vec_jacobian', OBJ+':ParameterConverter.cache_free_and_eval', OBJ+':ParameterConverter.cache_vector_and_eval'])
P('C119', 'Predictions of a linear approximation stay at the base values',
  'Making a linear approximation, setting its base values and predicting change no array that exists, also when they raise. From a set_base_values that returned until the next one, the predictions are those of the linear approximation at the base values passed, whatever the program does to its arrays and parameters in between.',
  'all programs that make arrays, parameters and a linear approximation, all arguments, all histories after set_base_values',
  'All ways in which the base values, the parameters and the arrays of the caller can share memory, and all later changes.',
  [SEN+':ParametricSensitivityLinearApproximation.set_base_values', SEN+':ParametricSensitivityLinearApproximation.predict_input_par_from_hyperparameters', SEN+':ParametricSensitivityLinearApproximation.get_dinput_dhyper', SEN+':ParametricSensitivityLinearApproximation.set_par_to_base_values'])
P('C120', 'Predictions of a ParametricSensitivity stay at the optimum it was given',
  'Making a ParametricSensitivity, setting its optimal input and predicting change no array that exists, also when they raise. From a set_optimal_input_par that returned until the next one, the predictions of the input and the linear predictions of the output do not change, whatever the program does to its arrays and parameters in between.',
  'all programs that make arrays, parameters and a ParametricSensitivity whose converter only assigns to the output parameter, all arguments, all histories after set_optimal_input_par',
  'All ways in which the optimum, the Hessian, the three parameters and the arrays of the caller can share memory, and all later changes.',
  [OBJ+':ParametricSensitivity.set_optimal_input_par', OBJ+':ParametricSensitivity.predict_input_par_from_hyperparameters', OBJ+':ParametricSensitivity.predict_output_par_from_hyperparameters', OBJ+':ParametricSensitivity.get_dinput_dhyper'])

P('C121', 'Derivatives and Taylor series stay at the base values',
  'Making a ParametricSensitivityTaylorExpansion, setting its base values or its order and evaluating derivatives or the Taylor series change no array that exists, also when they raise, and results are new arrays. From a set_base_values that returned until the next set_base_values or set_order, the derivatives of every order and the series do not change, whatever the program does to its arrays and to the values of its parameters in between.',
  'all programs that make arrays, parameters and a Taylor expansion, all arguments, orders and directions, all histories after set_base_values',
  'All ways in which the base values, the Hessian, the parameters and the arrays of the caller can share memory, and all later changes.',
  [SEN+':ParametricSensitivityTaylorExpansion.set_base_values', SEN+':ParametricSensitivityTaylorExpansion.set_order', SEN+':ParametricSensitivityTaylorExpansion.evaluate_dkinput_dhyperk', SEN+':ParametricSensitivityTaylorExpansion.evaluate_taylor_series', SEN+':ParametricSensitivityTaylorExpansion.cache_and_eval'])

P('C122', 'Moments of a constant',
  'set_from_constant(par) of a UVNMomentParamArray with an array parameter of the same shape succeeds; then e() is the value of par, e_outer() its square, var() zero and e_exp() the exponential of the value. With another shape it raises AssertionError and changes nothing.',
  'all shapes, values and histories of calls on the moment parameter',
  'A continuum of values and unboundedly many histories.',
  [NRM+':UVNMomentParamArray.set_from_constant', NRM+':UVNMomentParamArray.var', NRM+':UVNMomentParamArray.e_exp'])

P('C123', 'Progress messages of subset solves',
  'get_hinv_vec_subsets(vec, masks, verbose=True, print_every=k) prints a message for every k-th subset, and nothing with verbose=False.',
  'all numbers of subsets and all k',
  'Tests do not look at the output, and use few subsets.',
  [CGR+':ConjugateGradientSolver.get_hinv_vec_subsets'])
P('C124', 'A conjugate gradient solver is not changed from outside',
  'A ConjugateGradientSolver changes no array of the caller, goes on solving with the Hessian at the point that it was made with, and keeps its recorded masks, vectors and solutions until initialize() is called, whatever the program does with its arrays.',
  'all programs that make solvers and arrays, call the solver and change arrays in place',
  'Histories and sharing of memory are unbounded.',
  [CGR+':ConjugateGradientSolver.__init__', CGR+':ConjugateGradientSolver.get_hinv_vec', CGR+':ConjugateGradientSolver.get_hinv_vec_subsets'])

P('C125', 'After repeated optimization the parameter holds the returned point',
  'When repeatedly_optimize returns a point, the parameter of the objective holds the numbers that set_free of this point gives, wherever the optimization functions left it.',
  'all objectives, all optimization functions that do not exchange the objective, with and without an initial optimization, all starting points, tolerances and max_iter',
  'Tests use optimizers whose last evaluation is at their result, and few iterations.',
  [OPT+':repeatedly_optimize', OBJ+':Objective.fun_free', OBJ+':Objective.fun_free_grad'])

P('C126', 'Repeated optimization never makes the objective worse',
  'If the optimization functions never return a point with a larger objective value than their starting point, the value at the point returned by repeatedly_optimize is at most the value at init_x.',
  'all objectives, all such optimization functions (with any state of their own), all starting points, tolerances and max_iter',
  'It needs an induction over the number of iterations, which is not known in advance.',
  [OPT+':repeatedly_optimize'])

P('C127', 'The logger has the history of a minimization',
  'When minimize_objective_bfgs or minimize_objective_trust_ncg returns, with disp=True the logger has exactly the points, in the original space also with preconditioning, and the objective values that the optimizer asked for, in order; they come after the earlier history if init_logger=False and are all of it otherwise; with disp=False nothing is recorded.',
  'all objectives, all preconditioners, all optimizers (any sequence of requests depending on the answers), all starting points and flags',
  'The sequence of evaluations of an optimizer depends on the objective and has no bound.',
  [OPT+':minimize_objective_bfgs', OPT+':minimize_objective_trust_ncg', OBJ+':Logger.log', OBJ+':Objective.fun_free_cond'])

P('C128', 'Sparse preconditioners work like dense ones',
  'With a scipy.sparse.csr_matrix as preconditioner, the preconditioned value, gradient, Hessian and Hessian-vector product, uncondition_x and the minimizers do what they do with the dense matrix that has the same entries.',
  'all objectives, all csr matrices and their transposes, of all shapes, all points and vectors',
  'A test uses one matrix; the loops over the compressed arrays depend on the pattern of nonzeros, duplicates and empty rows.',
  [OBJ+':safe_matmul', OBJ+':Objective.fun_free_cond', OBJ+':Objective.fun_free_grad_cond', OBJ+':Objective.fun_free_hessian_cond', OBJ+':Objective.fun_free_hvp_cond', OBJ+':Objective.uncondition_x', OPT+':minimize_objective_bfgs', OPT+':minimize_objective_trust_ncg'])

P('C129', 'Logit-normal expectations in floating point',
  'For every mean and positive information of reasonable size, get_e_log_logitnormal in double precision returns finite numbers that differ from the exact quadrature sums only by rounding errors; the integrand is finite and not positive at every finite sample point, however negative or large, although exp overflows there.',
  'all means, informations, quadrature nodes and weights (up to 2^40 nodes), all library functions exp and log that are faithfully rounded, all summation orders',
  'The integrand has two cases and products with 0/1 indicators; infinities and NaN appear only at particular magnitudes, and the rounding errors depend on all inputs.',
  [EXP+':get_e_fun_normal', EXP+':get_e_log_logitnormal'])

P('C130', 'Logistic expectations in floating point',
  'For every y, z_mean, z_sd and every draws or quadrature nodes of reasonable size, get_e_logistic_term and get_e_logistic_term_guass_hermite in double precision return a finite number that differs from the exact value only by rounding errors.',
  'all observations, draws, nodes and weights (up to 2^40 terms), all faithfully rounded exp, log and log1p, all summation orders',
  'Overflow and loss of accuracy occur only at particular magnitudes of the draws, and the rounding errors depend on all inputs.',
  [MOD+':get_e_logistic_term', MOD+':get_e_logistic_term_guass_hermite'])

P('C131', 'Free values of positive definite matrices in floating point',
  'In double precision, set_free of a positive definite matrix parameter stores a matrix that is symmetric to the last bit and whose entries differ from the exact ones only by rounding errors, and get_free then returns the free value that was set up to rounding errors, without raising.',
  'all sizes, lower bounds on the diagonal and free values, all faithfully rounded exp and log, all summation orders',
  'A test compares a few moderate matrices with a tolerance; the exponential on the diagonal is lost by cancellation only at particular magnitudes, and the error of an entry depends on a whole row of the free value.',
  [MAT+':exp_matrix_diagonal', MAT+':log_matrix_diagonal', MAT+':pack_posdef_matrix', MAT+':unpack_posdef_matrix', MAT+':PosDefMatrixParam.set_free', MAT+':PosDefMatrixParam.get_free'])

P('C132', 'Minimization changes no array of the caller',
  'minimize_objective_trust_ncg and minimize_objective_bfgs change neither the starting point nor the preconditioner nor any other array that the caller has, whether they return or raise; the point they return is a new array; and what they return, and the parameter value and logger they leave behind, depend on the arrays only through their contents.',
  'all programs that make an objective, all optimizers (arbitrary sequences of calls), all starting points, preconditioners and options',
  'Sharing shows only when some array is changed later; an optimizer may make any number of calls in any order.',
  [OPT+':minimize_objective_trust_ncg', OPT+':minimize_objective_bfgs', OBJ+':Objective.fun_free', OBJ+':Logger.log'])

P('C133', 'Repeated optimization compares two different points',
  'After each iteration repeatedly_optimize compares the point returned by the optimization function with the point before it, so that x_conv says whether the point moved by less than xtol.',
  'all objectives, all optimization functions, including those that update their argument in place and return it, all tolerances',
  'The flag is right for optimization functions that return new arrays and wrong for others; a test uses one optimizer.',
  [OPT+':repeatedly_optimize'])

P('C134', 'Log-normal moments in floating point',
  'In double precision e_exp and var_exp of a univariate normal parameter return the mean and the variance of exp(x) under the normal distribution with a small relative error, wherever these are representable.',
  'all means and variances in range, all faithful implementations of exp',
  'The variance is a difference of nearly equal numbers for concentrated distributions; whether a test sees the loss depends on the variance it uses.',
  [EXP+':get_e_lognormal', EXP+':get_var_lognormal', NRM+':UVNParam.e_exp', NRM+':UVNParam.var_exp'])

P('C135', 'Moment parameters in floating point',
  'In double precision the moment parameter set from normal parameters has their variances with a small relative error, never a negative variance, and a finite entropy; set from constants it has variance zero; the entropy of the normal parameters is accurate.',
  'all shapes, all means and informations in range, all orders of summation',
  'e2 - e^2 loses the variance when the mean is large; a test with means of order one does not see it.',
  [NRM+':UVNMomentParamArray.set_from_uvn_param_array', NRM+':UVNMomentParamArray.set_from_constant', NRM+':UVNMomentParamArray.entropy', EXP+':univariate_normal_entropy'])

P('C136', 'Multinoulli entropy in floating point',
  'In double precision multinoulli_entropy is finite and not negative for every row of probabilities, zeros included, in particular for those of every free value, and it is the Shannon entropy up to rounding errors.',
  'all rows of doubles in [0, 1] with at most 2^40 entries, all finite free values, all faithful implementations of log, all orders of summation',
  'The probabilities may underflow, and the sum of rounded terms may come out with the wrong sign; no sample of rows rules this out.',
  [EXP+':multinoulli_entropy', SIM+':constrain_simplex_matrix'])

P('C137', 'Interrupted assignment',
  'When set_free or set_vector of a dictionary is interrupted at any point, the parameters in front of some position have their new values, all others have their old values, and the next set_free or set_vector does exactly what it would have done without the interruption.',
  'all parameters and nested dictionaries, all vectors, all interruption points',
  'The state depends on the moment at which the interruption arrives, which a test cannot choose.',
  [DIC+':ModelParamsDict.set_free', DIC+':ModelParamsDict.set_vector'])

P('C138', 'Interrupted minimization',
  'When a minimization is interrupted at any point, the log of the objective contains only points that were evaluated with the values the function has there, in the order of the calls, with at most one point whose value is missing; and a new minimization that resets the log gives the same result, the same log and the same parameter as if the interrupted one had never happened.',
  'all objectives, all optimizers that look at the objective through its methods, with and without preconditioner, all interruption points',
  'Tests run the minimization to its end; there are as many interruption points as steps.',
  [OPT+':minimize_objective_trust_ncg', OPT+':minimize_objective_bfgs', OBJ+':Logger.log', OBJ+':Logger.initialize', OBJ+':Objective.fun_free', OBJ+':Objective.cache_free_and_eval'])

P('C139', 'Numbers after an interruption',
  'When a minimization is interrupted, the parameter holds numbers, so that it can be read and saved.',
  'all objectives, all optimizers, all interruption points',
  'Only an interruption within a derivative call shows the placeholders of the differentiation.',
  [OPT+':minimize_objective_trust_ncg', OPT+':minimize_objective_bfgs', OBJ+':Objective.cache_free_and_eval', OBJ+':Objective.fun_free_grad'])

P('C140', 'Concurrent evaluations',
  'When several threads evaluate the same objective, each call returns the value of the function at its own point, whatever the schedule.',
  'all objectives, all numbers of threads, all points, all interleavings of the steps of the calls',
  'A test sees a few schedules; the wrong ones need a switch between the assignment of the parameter and the evaluation.',
  [OBJ+':Objective.fun_free', OBJ+':Objective.fun_vector', DIC+':ModelParamsDict.set_free', DIC+':ModelParamsDict.set_vector'])

P('C141', 'Concurrent logging',
  'When several threads evaluate the same objective with logging and all calls have returned, the log contains every call once, each point together with its value, and the counter counts all calls.',
  'all objectives, all numbers of threads, all points, all interleavings of the steps of the calls',
  'Lost updates and mixed up entries need switches between single statements of the logger.',
  [OBJ+':Logger.log', OBJ+':Objective.fun_free'])

P('C142', 'Timer histories',
  'After any sequence of tic and toc calls, the recorded time of a name is the reading of the clock at the last toc of that name minus the reading at the last tic before it; a toc raises exactly if no tic came before it, and then records nothing; other names keep their times; the times are not negative if the clock is not set back.',
  'all sequences of calls, all names, all sequences of clock readings',
  'A test has a few calls and a clock that goes forward.',
  [OBJ+':Timer.tic', OBJ+':Timer.toc'])

P('C143', 'Matrix products and compress do not depend on the storage format',
  'safe_matmul of two matrices, each of them dense or sparse by rows or by columns, is the product of the dense matrices, with the same errors; products can be chained; a product of two sparse matrices is sparse. compress gives the same for every format: the entries, without the axes of length one.',
  'all matrices of all sizes, all formats, all sparse representations (repeated entries, explicit zeros, unsorted columns), both versions of the zero handling of scipy',
  'The test multiplies a few fixed matrices; the representations that break a loop are not among them.',
  [OBJ+':safe_matmul', OBJ+':compress'])

P('C144', 'The printed form shows everything',
  'The text of a dictionary of parameters contains the texts of all parameters in it, in order, and two dictionaries that print the same have the same entries with values that print the same.',
  'all dictionaries, nested to any depth, all names, all ways of printing values',
  'A test prints a few dictionaries; that two different ones print the same is found by looking for them.',
  [DIC+':ModelParamsDict.__str__', PAR+':ScalarParam.__str__', SIM+':SimplexParam.__str__'])

P('C145', 'Linear response covariances are covariance matrices',
  'When the hyperparameter t enters the objective as minus t times the outputs, and the objective has positive curvature at the optimum, get_doutput_dhyper of a ParametricSensitivity returns a symmetric positive semidefinite matrix: every linear combination of the outputs has a nonnegative linear response variance, positive unless the combination is constant to first order.',
  'all objectives tilted by the outputs, all parameters and converters, all dimensions and all points with positive curvature',
  'A test evaluates one model; that no combination of outputs ever gets a negative variance is a statement about all of them.',
  [SEN+':ParametricSensitivity.get_doutput_dhyper', SEN+':ParametricSensitivity.set_sensitivity'])

P('C146', 'Linear response is exact for normal posteriors',
  'For a normal posterior approximated by a UVNParamVector, with the means as outputs of a ParametricSensitivity and the tilted variational objective: the optimum exists, get_doutput_dhyper at it is exactly the covariance matrix of the posterior, predictions for every new hyperparameter are exactly the new optimum, and the variances of the approximation itself are never larger than those of the posterior.',
  'all dimensions, means, positive definite information matrices and hyperparameters; all histories of calls on the input; all objective functions that compute the variational objective',
  'A test compares the two covariances for one matrix up to rounding; the identity holds for every one.',
  [SEN+':ParametricSensitivity', NRM+':UVNParamVector', OBJ+':ParameterConverter', OBJ+':TwoParameterObjective'])

P('C147', 'The free parameterization adds no stationary points and loses no directions',
  'At every free vector of every parameter and dictionary the columns of free_to_vector_jac are linearly independent. Consequently, with as many free values as vector entries, the gradient of an objective in the free parameterization vanishes exactly where its own gradient vanishes, and at a stationary point with positive definite vector Hessian convert_vector_to_free_hessian returns a positive definite matrix.',
  'all parameters, dictionaries, nestings, bounds, sizes and free vectors; all twice differentiable objectives',
  'A test computes the rank at a few points; an optimizer visits arbitrary ones, and one rank deficient point would let it stop at a point that is not stationary.',
  [DIC+':ModelParamsDict.free_to_vector_jac', PAR+':ScalarParam.free_to_vector_jac', MAT+':PosDefMatrixParam.free_to_vector_jac', SIM+':SimplexParam.free_to_vector_jac', PRJ+':SubspaceVectorParam', PAR+':convert_vector_to_free_hessian'])

P('C148', 'Moments of arrays of multivariate normals',
  'e() and e2() of an MVNArray with two axes are, for every component, the mean and the second moment of the normal distribution with the held mean and the precision of its row, after any history of calls. With three axes e2() is right only for a single row: otherwise it raises ValueError, or uses the precision that belongs to the index on the second axis, with a result of the wrong shape when that axis has length one.',
  'all sizes, means, positive precisions, lower bounds and histories of calls',
  'A test compares one array of one size; broadcasting depends on all the sizes.',
  [NRM+':MVNArray.e', NRM+':MVNArray.e2', NRM+':MVNArray.__init__'])

P('C149', 'Local minima over free vectors are local minima over legal values',
  'At every free vector of every parameter and dictionary, small changes of the free vector are small changes of the vector and conversely. Hence, for every objective (differentiable or not), a free vector is a local minimizer in the free parameterization exactly when its vector is a local minimizer among the vectors of legal values; with as many free values as vector entries, among all vectors.',
  'all parameters, dictionaries, nestings, bounds, sizes and free vectors; all objectives',
  'Being a local minimizer is a statement about all the points of a neighbourhood.',
  [DIC+':ModelParamsDict.free_to_vector', PAR+':ScalarParam.free_to_vector', MAT+':PosDefMatrixParam.free_to_vector', SIM+':SimplexParam.free_to_vector', PRJ+':SubspaceVectorParam'])

P('C150', 'The values reachable through free vectors are exactly the legal values',
  'A vector of length vector_size() is free_to_vector(x) for some free vector x exactly when it lists legal values: numbers strictly between the bounds, matrices that stay positive definite when diag_lb is taken off the diagonal, rows of positive numbers that sum to one, vectors of the subspace. The free vector is unique; set_vector with such a vector followed by get_free returns it, and set_free with it leads to the same state. So minimizing over free vectors is minimizing over all legal values.',
  'all parameters, dictionaries, nestings, bounds, sizes and vectors; for the last part all objectives',
  'That no legal value is out of reach is a statement about every legal value.',
  [DIC+':ModelParamsDict.free_to_vector', DIC+':ModelParamsDict.set_vector', DIC+':ModelParamsDict.get_free', PAR+':ScalarParam.get_free', MAT+':PosDefMatrixParam.get_free', SIM+':SimplexParam.get_free', PRJ+':SubspaceVectorParam'])

P('C151', 'Interrupted push_param',
  'If push_param is interrupted (an exception from a signal handler such as KeyboardInterrupt), the dictionary can still be used, or at least be completed by pushing the parameter again.',
  'all dictionaries, parameters and points of interruption',
  'A test would have to interrupt the call between every two assignments.',
  [DIC+':ModelParamsDict.push_param'])

P('C152', 'Conversion Jacobians after a call that raised',
  'After a Jacobian call of a ParameterConverter in which the user\'s converter raised, further Jacobian calls leave the output parameter as it was before, with plain numbers.',
  'all converters, parameters, points, parameterizations and sequences of calls',
  'A test would have to look at the values after a failing call that is followed by any number of others.',
  [OBJ+':ParameterConverter.cache_free_and_eval', OBJ+':ParameterConverter.cache_vector_and_eval'])

P('C153', 'Predictions approach the optimum at the rate of their order',
  'For a smooth objective with positive definite Hessian at the base optimum, there is an optimum at every hyperparameter near the base, and the prediction differs from it by at most a constant times the (k+1)st power of the distance, in every direction with one constant: k = degree for the Taylor series, k = 1 for ParametricSensitivity and the linear approximation, and k = 1 for the outputs that ParametricSensitivity predicts with linear=False (and with linear=True if the output parameter held the output at the optimum when the object was built).',
  'all smooth objectives, base points, directions, orders and degrees',
  'An asymptotic rate over all directions cannot be observed at finitely many points.',
  [SEN+':ParametricSensitivityTaylorExpansion.evaluate_taylor_series', SEN+':ParametricSensitivityLinearApproximation.predict_input_par_from_hyperparameters', OBJ+':ParametricSensitivity.predict_input_par_from_hyperparameters'])

P('C154', 'The sensitivity classes agree to first order',
  'ParametricSensitivity, ParametricSensitivityLinearApproximation and the first order of ParametricSensitivityTaylorExpansion, built on the same objective and base point, have the same derivative matrix and make the same predictions.',
  'all smooth objectives, parameters, base points with positive definite Hessian, new hyperparameters and orders of the expansion',
  'Tests compare the classes on one model; the agreement is claimed for all.',
  [SEN+':ParametricSensitivityTaylorExpansion', SEN+':ParametricSensitivityLinearApproximation', OBJ+':ParametricSensitivity'])

P('C155', 'Predictions are exact for quadratic objectives',
  'If the objective is quadratic in the input with positive definite quadratic part, coupled to the hyperparameter by a bilinear term, and the base input is a minimizer, then the predicted input is the unique minimizer at every new hyperparameter, for the linear approximation and for the Taylor series of every degree.',
  'all dimensions, positive definite quadratic parts, couplings, base points, new hyperparameters and degrees',
  'A test checks a few matrices and steps.',
  [SEN+':ParametricSensitivityLinearApproximation.predict_input_par_from_hyperparameters', SEN+':ParametricSensitivityTaylorExpansion.evaluate_taylor_series'])

P('C156', 'Local Hessians add up to the full Hessian',
  'If an objective is a sum of terms, each depending on some entries of the vector or free vector, then computing the Hessian of each term on its own entries, embedding it with get_sparse_sub_hessian and adding up the sparse matrices gives the Hessian of the full objective. The entries of different terms may overlap and an index may repeat.',
  'all sums of twice continuously differentiable terms, index lists, sizes and points, free or not',
  'A test assembles one model; the claim is for every way the terms share entries.',
  [OBJ+':get_sparse_sub_hessian', OBJ+':make_index_param', OBJ+':Objective.fun_vector_hessian', OBJ+':Objective.fun_free_hessian'])

P('C157', 'Grouping parameters into dictionaries changes no vector form',
  'Two dictionaries that hold the same parameters in the same order, at whatever depth and under whatever keys, return the same for every sequence of get_free, set_free, get_vector, set_vector and free_to_vector, errors included, and have the same Jacobians and Hessians.',
  'all pairs of dictionaries of every nesting with the same parameters in order, and all sequences of calls',
  'Nestings and call sequences are unbounded.',
  [DIC+':ModelParamsDict', PAR+':set_free_offset', PAR+':get_free_offset', PAR+':free_to_vector_jac_offset'])

P('C158', 'Sensitivity to data weights is the influence of each observation',
  'If the objective is a function of the input plus a weighted sum of the losses of observations, with the weights as hyperparameter, then the derivative of the input with respect to the weight of an observation is minus the inverse Hessian of the weighted objective times the gradient of the loss of that observation, and the prediction at other weights is the sum of these influences.',
  'all twice continuously differentiable losses, numbers of observations, weights and base points with positive curvature',
  'A test looks at one data set; the identity is for all losses and weights.',
  [SEN+':ParametricSensitivityLinearApproximation', OBJ+':ParametricSensitivity'])

P('C159', 'Sensitivity does not depend on the parameterization',
  'Two input parameters that parameterize the same vector in different ways (other bounds, other grouping), each with as many free values as vector entries, the same objective and outputs as functions of the vector and the same stationary vector, give the same derivative of the outputs with respect to the hyperparameters. Likewise linear response covariances computed from the Hessian returned by convert_vector_to_free_hessian at a stationary point equal those computed from the vector Hessian.',
  'all pairs of such parameters, all smooth objectives and outputs, all stationary points with positive curvature',
  'A test compares two parameterizations at one point; the claim is for all transforms, objectives and points.',
  [OBJ+':ParametricSensitivity', PAR+':convert_vector_to_free_hessian', PAR+':free_to_vector_jac'])

P('C160', 'A failing change of the base values leaves the object as it was',
  'If set_base_values or set_optimal_input_par raises, the object afterwards predicts what it predicted before the call.',
  'all objects of the sensitivity classes, arguments and reasons of failure',
  'A test fails the call for one reason in one state; the claim ranges over every point at which the call can stop.',
  [SEN+':ParametricSensitivityLinearApproximation.set_base_values', SEN+':ParametricSensitivityTaylorExpansion.set_base_values', OBJ+':ParametricSensitivity.set_optimal_input_par'])

P('C161', 'More draws approach the exact expectation',
  'As the number of draws n grows, the average of a monotone integrable function over get_standard_draws(n) tends to its expectation under the standard normal, and get_e_logistic_term with n standard draws tends to the sum over the observations of the expected logistic log likelihood under the normals with the given means and standard deviations.',
  'all monotone integrable functions, all observations, means and standard deviations, the limit over all numbers of draws',
  'A test evaluates finitely many numbers of draws and compares within a tolerance; the claim is about the limit.',
  [MOD+':get_standard_draws', MOD+':get_e_logistic_term'])

P('C162', 'Without data the best approximation is the prior',
  'The expected log prior (uvn_prior, gamma_prior, exponential_prior, dirichlet_prior, mvn_prior) evaluated at the moments of a parameter of the same family plus the entropy of that parameter is bounded by a number that depends on the prior alone, and the bound is attained exactly when the parameter equals the prior.',
  'all priors, all values the parameters can hold, all shapes',
  'A test compares finitely many values with the optimum; that the maximum is global, attained and unique is a claim about all of them.',
  [EXP+':uvn_prior', EXP+':gamma_prior', EXP+':exponential_prior', EXP+':dirichlet_prior', EXP+':mvn_prior', EXP+':univariate_normal_entropy', EXP+':gamma_entropy', EXP+':dirichlet_entropy', EXP+':multivariate_normal_entropy', NRM+':UVNParam', NRM+':MVNParam', GAM+':GammaParam', DIR+':DirichletParamArray'])

P('C163', 'The variational objective bounds the log evidence',
  'The expectation of any log likelihood under a multivariate normal parameter q, plus the expected log prior computed by mvn_prior at the moments of q (completed by the constant of the prior density), plus q.entropy(), is at most the log of the integral of the likelihood under the prior, and equals it exactly when q is the posterior. For linear regression the maximum is attained exactly at the mean and information matrix returned by get_posterior_regression_coefficients.',
  'all priors, all log likelihoods for which both sides exist, all values the parameter can hold; all data, weights and designs for regression',
  'A test compares the objective at finitely many parameter values; that the bound is global and attained only at the posterior is a claim about all of them and about integrals.',
  [EXP+':mvn_prior', EXP+':multivariate_normal_entropy', NRM+':MVNParam', REG+':get_posterior_regression_coefficients'])

P('C164', 'The log of an objective holds numbers',
  'After every history of calls of an objective, the entries of logger.x_array are numbers, not differentiation placeholders.',
  'all histories of evaluations and derivative calls, with and without a preconditioner, verbose or not, failing or not',
  'A test runs one history; the claim is an invariant of all of them.',
  [OBJ+':Objective.fun_free', OBJ+':Objective.fun_free_grad', OBJ+':Objective.fun_free_grad_cond', OBJ+':Logger.log'])

P('C165', 'Concurrent derivative calls leave numbers behind',
  'Any number of threads call the value and derivative methods of one objective, at any points and with any user functions. Whatever the schedule, when all calls have returned without raising, every parameter holds a number, not a differentiation placeholder.',
  'all parameters, all lists of value and derivative calls, all user functions, all interleavings of their atomic steps, arbitrary results of the differentiation',
  'A test sees the few interleavings that the scheduler happens to produce.',
  [OBJ+':Objective.fun_free_grad', OBJ+':Objective.fun_free_hessian', OBJ+':Objective.fun_free_hvp', OBJ+':Objective.cache_free_and_eval', OBJ+':Objective.fun_free'])

P('C166', 'Regression data can be processed in batches',
  'When the observations of a regression are split into two parts without common weights, the posterior of the coefficients for the second part, computed with the posterior for the first part as the prior, is the posterior for all observations, and the order of the parts does not matter.',
  'all batch shapes, all numbers of observations, responses and regressors, all designs, responses and positive semidefinite weights, all prior means and positive definite prior informations',
  'A test compares a few data sets.',
  [REG+':get_posterior_regression_coefficients', REG+':get_nat_params_from_likelihood', REG+':get_nat_params_from_prior'])

P('C167', 'Sensitivities are polynomial in the direction',
  'At an optimum with positive curvature, the k-th derivative of the optimum in a direction, as returned by the Taylor expansion object, is one multilinear map of k directions applied to k copies of the direction. So a multiple of the direction by c gives the derivative multiplied by c to the power k, and first derivatives add.',
  'all smooth objectives, all base values with positive curvature, all orders, all directions and multiples',
  'A test evaluates a few directions of one objective.',
  [SEN+':ParametricSensitivityTaylorExpansion.evaluate_dkinput_dhyperk'])

P('C168', 'Errors of subset solves do not accumulate beyond the square root of their number',
  'If every conjugate gradient solve has a residual of at most tol times the norm of its right hand side, the sum of the solutions recorded for k masks that partition the indices solves the full system with a residual of at most tol times the square root of k times the norm of the vector, and differs from the exact solution by at most that divided by the smallest eigenvalue.',
  'all linear operators, tolerances, preconditioners, vectors and partitions, all solvers with that residual',
  'A test solves a few systems, with solvers that are far more accurate than the tolerance.',
  [CGR+':ConjugateGradientSolver.get_hinv_vec_subsets', CGR+':ConjugateGradientSolver.get_hinv_vec'])

P('C169', 'The accessors of matrix and simplex parameters locate the parts of the value',
  'For every position of a vector or an array of matrices the slice returned for that position selects from get_free() the free form and from get_vector() the vector form of the matrix at that position, apply_matrix_function(f) holds f of the matrix at every position, get_vector_indices(row) are the positions of row row in get_vector(), and positions out of range raise. Negative positions of a vector of matrices count from the end, except -1, which selects nothing.',
  'all shapes, matrix sizes, held values, positions, functions with results of one shape',
  'A test uses a few small shapes, and square ones do not tell row-major from column-major order.',
  [MAT+':PosDefMatrixParamVector.free_obs_slice', MAT+':PosDefMatrixParamArray.stacked_obs_slice', MAT+':PosDefMatrixParamArray.apply_matrix_function', SIM+':SimplexParam.get_vector_indices'])

P('C170', 'print_terms shows the terms of the expansion',
  'After set_order(order), print_terms(k) prints a heading and one line for every term that the derivative of order k evaluates, all of order k and with positive integer constants; without argument it does so for all orders in turn, for k above the order it raises and for k below one it prints nothing. The text of a term determines its derivatives and its constant.',
  'all objectives, orders, arguments, ways of printing floats that tell different constants apart',
  'A test prints one expansion and looks at it, or does not look.',
  [SEN+':ParametricSensitivityTaylorExpansion.print_terms', SEN+':DerivativeTerm.__str__', SEN+':ParametricSensitivityTaylorExpansion.set_order'])

P('C171', 'Sensitivities follow a change of the hyperparameters',
  'When an objective is multiplied by a positive constant, written in other hyperparameters, or has a term of the hyperparameters alone added, the sensitivities at an optimum are those of the original objective times the Jacobian of the change of hyperparameters (so that rescaling the objective changes nothing). For affine changes the linear predictions and the Taylor predictions of every order agree, and the sensitivity to some of the hyperparameters consists of the corresponding columns of the sensitivity to all.',
  'all twice (for expansions: sufficiently often) differentiable objectives, all smooth changes of the hyperparameters, all positive factors, all orders',
  'A test compares two parameterizations of one objective.',
  [SEN+':ParametricSensitivityLinearApproximation', OBJ+':ParametricSensitivity', SEN+':ParametricSensitivityTaylorExpansion.evaluate_taylor_series'])

P('C172', 'Regression results do not depend on the coordinates of regressors and observations',
  'Replacing the design X by X A with an invertible A and the responses y by y - X b, and the prior accordingly, gives the same posterior and the same coefficients in the new coordinates. The order of the observations does not matter, more generally a linear map of the observations with the corresponding weights (as in whitening) changes nothing. The mean of replicated responses with the weights multiplied by their number gives the same results as the replicates.',
  'all batch shapes, all numbers of observations, responses and regressors, all designs, responses and positive semidefinite weights, all invertible changes of coordinates, permutations and prior distributions with positive definite information',
  'A test compares two encodings of one data set, if it does.',
  [REG+':get_regression_coefficients', REG+':get_posterior_regression_coefficients', REG+':get_nat_params_from_likelihood'])

P('C173', 'In conjugate models the best approximation is the exact posterior',
  'With gamma priors and Poisson or exponential data, normal priors and normal observations, or Dirichlet priors and multinomial counts, the expected log likelihood at the moments of the approximation plus the prior function plus the entropy method has a maximum. An approximation attains it exactly when it holds the parameters of the exact posterior distribution.',
  'all shapes and sizes, all prior parameters, all nonnegative counts, exposures, weights and class counts, all observations and all approximations the parameter objects can hold',
  'A test optimizes one data set and compares the result up to a tolerance.',
  [EXP+':gamma_prior', EXP+':uvn_prior', EXP+':dirichlet_prior', GAM+':GammaParam.entropy', NRM+':UVNParamArray.entropy', DIR+':DirichletParamArray.entropy'])

P('C174', 'Extra arguments reach the objective function',
  'Positional and keyword arguments given to any method of Objective or TwoParameterObjective beyond its own are those the objective function is called with: result and state afterwards are those of the same call, without them, for an objective made from functools.partial(fun, *extra, **kw). Hessian-vector products take the last positional argument as the vector. A call without any argument raises and changes nothing.',
  'all objective functions, points, vectors, lists of positional and keyword arguments, all methods, with and without verbose',
  'A test passes one argument to some methods; names that a method uses itself are hit only by functions with such an argument.',
  [OBJ+':Objective', OBJ+':Objective.fun_free_hvp', OBJ+':Objective.fun_free_hvp_cond', OBJ+':TwoParameterObjective'])

P('C175', 'The mean-field objective bounds the log evidence',
  'For multivariate normal, normal, gamma (with gamma or exponential prior) and Dirichlet parameters, the log prior computed at the moments of the parameter, completed by the constant of the prior density, plus the entropy is minus the relative entropy of the distribution the parameter holds with respect to the prior. For any number of such parameters taken as independent, the expected log likelihood plus all log priors plus all entropies is at most the log evidence, and equals it exactly when the product of the distributions is the posterior.',
  'all priors, all shapes, all values the parameters can hold, all log likelihoods of all variables for which both sides exist',
  'A test compares the objective at finitely many parameter values; the bound is a claim about all of them and about integrals over product spaces.',
  [EXP+':mvn_prior', EXP+':uvn_prior', EXP+':gamma_prior', EXP+':exponential_prior', EXP+':dirichlet_prior', NRM+':MVNParam', NRM+':UVNParamArray', GAM+':GammaParam', DIR+':DirichletParamArray'])

P('C176', 'A preconditioner computed at a point makes the Hessian there the identity',
  'After set_objective_preconditioner at free_par=x0 returns, the point np.linalg.solve(preconditioner, x0) at which the preconditioned minimizations start is the only point that uncondition_x takes to x0, and the eigenvalues of fun_free_hessian_cond there are exactly the Hessian eigenvalues divided by their thresholded values, with the same eigenvectors: the identity when no eigenvalue is moved. One step against the conditioned gradient is the step by the inverse of the third result times the gradient, so for a quadratic objective without thresholds a single unit step ends at the only minimizer from any start.',
  'all objectives with a twice continuously differentiable function of any number of free parameters, all points, all thresholds for which the call returns, all step lengths',
  'A test computes the conditioned Hessian of one function at one point up to rounding; the claim is about all functions, points and thresholds.',
  [OPT+':set_objective_preconditioner', OPT+':get_sym_matrix_inv_sqrt', OPT+':minimize_objective_trust_ncg', OPT+':minimize_objective_bfgs', OBJ+':Objective.fun_free_hessian_cond', OBJ+':Objective.fun_free_grad_cond', OBJ+':Objective.uncondition_x'])

P('C177', 'A change of the base values or of the order that was interrupted can be repeated',
  'After any history of calls on a ParametricSensitivity, ParametricSensitivityLinearApproximation or ParametricSensitivityTaylorExpansion, each of which returned, raised or was stopped by KeyboardInterrupt at any moment, one call of set_base_values (set_optimal_input_par) that returns puts the object right: derivatives and predictions are those at the new base values. While a stopped set_base_values has not finished, get_dinput_dhyper is the old one. After a stopped set_order an evaluation is right or raises IndexError, never a wrong number, and one set_order that returns makes all orders available.',
  'all histories of completed, raising and interrupted calls, every moment of interruption, all base values of positive curvature, all orders and directions',
  'A test would have to raise an exception at every instruction of every call in every history.',
  [SEN+':ParametricSensitivityLinearApproximation.set_base_values', SEN+':ParametricSensitivityTaylorExpansion.set_base_values', SEN+':ParametricSensitivityTaylorExpansion.set_order', SEN+':ParametricSensitivityTaylorExpansion.evaluate_dkinput_dhyperk', SEN+':ParametricSensitivityTaylorExpansion.evaluate_taylor_series', OBJ+':ParametricSensitivity.set_optimal_input_par'])

P('C178', 'NaN and infinite free values are never turned into other numbers',
  'Setting a free value that is NaN stores NaN in that element, whatever the bounds, leaves the other elements as they would be, and makes get_free() raise ValueError; in a simplex it makes the whole row NaN and get_free() returns NaN. An infinite free value stores the bound on its side, finite or infinite, or NaN (plus infinity between two finite bounds; a width that overflows); in a simplex minus infinity stores probability 0 and plus infinity stores NaN in its entry and 0 in the others.',
  'all legal bounds, arrays and simplexes of any length with NaN or infinite entries anywhere; every floating point arithmetic for NaN, every monotone one with faithful exp and log for infinities',
  'A test tries one bound pair and one position of the NaN.',
  [PAR+':constrain', PAR+':unconstrain_array', PAR+':unconstrain_scalar', SIM+':constrain_simplex_matrix', SIM+':unconstrain_simplex_matrix'])

P('C179', 'The fit of the example notebook is the maximum likelihood estimate',
  "In the example notebook eval_objective returns, for every free vector of the right length, a number: minus the weighted log likelihood of the regression with the values it leaves in the dictionary, up to a constant; the assertion on the sign of the determinant never fails. With weights that are not negative, a free vector is a local minimizer exactly when beta solves the weighted normal equations and lambda is the inverse of the weighted covariance of the residuals; then it is a global minimizer, and the only one if the weighted Gram matrix is positive definite. A fit exists exactly when these equations have a solution with positive beta and positive definite lambda.",
  'all numbers of observations and dimensions, all data and nonnegative weights, all free vectors, after any history of calls',
  'A test fits one simulated data set from one starting point and looks at the result.',
  ['Example.ipynb:Model.eval_objective', 'Example.ipynb:Model.loglik', PAR+':ArrayParam', MAT+':PosDefMatrixParam', DIC+':ModelParamsDict'])

P('C180', 'The weight sensitivities of the example notebook are the influence function',
  "At a fit of the example notebook (weights that are not negative, positive definite weighted Gram matrix) the computation of weight_sens never fails, and its row for an observation holds the influence of that observation on the coefficients: the inverse Gram matrix times the regressors times the residuals, whatever the precision and the parameterization. It is the derivative of the fitted coefficients in the weight of the observation. For weights close enough to those of the fit, and not negative, there is a fit as close to it as wanted. When the weight is changed by t and the model is fitted again, the change of every coefficient is exactly t/(1 + t h) times the prediction, h being the leverage of the observation; in the last cell, where an observation is dropped, the predicted difference is (1 - h) times the actual one. eval_summary returns the coefficients that eval_objective uses at the same free vector.",
  'all numbers of observations and dimensions, all data and nonnegative weights with a positive definite Gram matrix, all fits and refits, all observations and changes of weight, after any history of calls',
  'The notebook compares the prediction with one refit for one observation of one simulated data set.',
  ['Example.ipynb:Summary.eval_summary', 'Example.ipynb:objective_weights', 'Example.ipynb:summary_sens_operator', 'Example.ipynb:weight_sens', 'Example.ipynb:Model.eval_objective'])

P('C181', 'Derivatives in free and in vector coordinates are related by the Jacobians of the parameters',
  "When the user's function depends only on the vector value of the parameter, the gradient and the Jacobian in the free values at x are those in the vector entries at free_to_vector(x), multiplied by the Jacobian that free_to_vector_jac returns at x. For two parameters the same holds for the gradients and the off-diagonal Hessian in all four combinations of free values and vector entries. For a conversion, the Jacobians that start from free values are those that start from vectors times the Jacobian of the input parameter, and the Jacobians of the vector output are the Jacobian of the output parameter times those of the free output.",
  'all parameters and dictionaries that the constructors and push_param build, all smooth functions, all points of the right length, all combinations of the free flags',
  'A test compares the two sides at one point for one parameter; the relation couples two traces of the same user code with the derivatives of every constraint in the tree.',
  [OBJ+':Objective.fun_free_grad', OBJ+':Objective.fun_free_jacobian', OBJ+':TwoParameterObjective', OBJ+':ParameterConverter', DIC+':ModelParamsDict.free_to_vector_jac'])

P('C182', 'The messages of repeated optimization tell why it stopped',
  "disp changes nothing about what repeatedly_optimize does or returns, and with disp=False it prints nothing. With disp=True it prints a heading for the initial optimization, if there is one, and for every iteration its number and, when it is complete, the distance moved, the change of the value and the size of the gradient at the new point. When the call returns, the numbers of the last line are those from which the returned flags are computed, and in all lines before it no number is below its tolerance; the sums of the printed differences bound the distance of the returned point from the start and the change of the value. When the call raises during an iteration, the last line names that iteration.",
  'all objectives, optimization functions that do not exchange the objective, starting points, tolerances and numbers of iterations; all ways in which the call can end',
  'A test reads the output of one run; the statement is about every run and every point at which an exception can end it.',
  [OPT+':repeatedly_optimize'])

P('C183', 'The order in which parameters are pushed only permutes the vectors',
  "Two dictionaries that hold the same parameters under the same keys, pushed in different orders, have the same sizes, and one fixed permutation of the indices turns every free vector (or vector) of the one into the one of the other that holds the same numbers under every key. set_free and set_vector with such vectors leave the same parameters under every key, and free_to_vector, get_vector and get_free return vectors that hold the same numbers under every key. Objectives whose functions look up parameters by key have the same values at such vectors, or raise the same exception; their gradients and Hessian-vector products hold the same numbers under every key, and the Hessians are related by the permutation. A ParametricSensitivity whose functions look up parameters by key gives the same get_doutput_dhyper for both, and get_dinput_dhyper and the predicted inputs hold the same numbers under every key. The same holds for ParametricSensitivityLinearApproximation, and for all derivatives and Taylor series of ParametricSensitivityTaylorExpansion. All of this also holds when dictionaries are nested and the orders differ at several levels, for functions that look up nested entries by their keys.",
  'all dictionaries built by pushing parameters and dictionaries under distinct names, with any calls in between; all orders; all vectors; all smooth objectives and converters that read by key, at optima of positive curvature',
  'There are as many orders as permutations; a test compares two orders of one dictionary at one vector.',
  [DIC+':ModelParamsDict.push_param', DIC+':ModelParamsDict.free_indices_dict', OBJ+':ParametricSensitivity'])

P('C184', 'Sensitivities depend on the objective only through its optima',
  "Let two objectives have the same stationary points near an optimum, with positive curvature there. ParametricSensitivity, the linear approximation and the Taylor expansion built from the one and from the other return the same derivatives, predictions and Taylor series. In particular an objective may be put on another strictly increasing scale, which may differ for each value of the hyperparameter: a positive multiple, normalizing terms that depend only on the hyperparameter, the exponential.",
  'all pairs of smooth objectives with the same stationary points near the base values, all parameters, hyperparameter functors, directions, orders and new hyperparameters; all strictly increasing rescalings',
  'Two objectives can be compared at finitely many hyperparameters; the claim is about every pair of objectives with the same optima.',
  [OBJ+':ParametricSensitivity', SEN+':ParametricSensitivityLinearApproximation', SEN+':ParametricSensitivityTaylorExpansion'])

P('C185', 'The variational fit of a linear regression has one solution, the posterior',
  "For linear regression with known weights and a normal prior, the expected log likelihood can be computed from the natural parameters of get_nat_params_from_likelihood and the moments e() and e_outer() of an MVNParam q: up to a number that is the same for every q, it is the expectation of -0.5 * (y - x beta)' info (y - x beta) under q. The sum of it, of mvn_prior at the moments of q and of q.entropy(), as a function of the free vector passed to set_free, has exactly one maximizer, and set_free at it leaves the mean and the information matrix that get_posterior_regression_coefficients returns, whenever min_info allows them.",
  'all sizes, responses, regressors, positive semidefinite weights and positive definite priors without batch dimensions; all histories of calls on the parameter; all free vectors',
  'The claim compares the objective at one free vector with its value at every other one.',
  [REG+':get_nat_params_from_likelihood', REG+':get_posterior_regression_coefficients', NRM+':MVNParam', EXP+':mvn_prior'])

P('C186', 'Calls that raised or were stopped do not change the results of later calls',
  "After any history of calls on an Objective, a TwoParameterObjective or a ParameterConverter, each of which returned, raised or was stopped by KeyboardInterrupt at any moment, every value, derivative and conversion is what it would be on the object as it was at first: the same numbers or the same exception. When the call returns, the parameters are also in the same state; only the Jacobian of a conversion puts back whatever vector the output parameter had before it. For conversions the user's converter overwrites the output parameter, and a Jacobian needs an output parameter that can be read.",
  'all parameters, user functions, points, parameterizations, histories of calls and moments of interruption; while the converter of the user runs the output parameter may hold anything',
  'The claim ranges over all histories and all moments at which a call can be stopped.',
  [OBJ+':Objective', OBJ+':TwoParameterObjective', OBJ+':ParameterConverter'])

P('C187', 'Threads that share a two-parameter objective or a converter leave numbers behind',
  'When several threads call the value and derivative methods of one TwoParameterObjective, or the conversions and Jacobians of one ParameterConverter, then, once all calls have returned without raising, all parameters involved hold numbers, not differentiation placeholders, however the calls were interleaved. A thread that runs alone does what the method does.',
  'all parameters, points, parameterizations, objective functions and converters, any number of threads and all interleavings of their steps',
  'The number of interleavings is unbounded, and a test cannot choose them; the harmful one for converters needs one thread to read the output between two steps of another.',
  [OBJ+':TwoParameterObjective.cache_and_eval', OBJ+':TwoParameterObjective.eval_fun', OBJ+':ParameterConverter.cache_free_and_eval', OBJ+':ParameterConverter.cache_vector_and_eval'])

P('C188', 'Concurrent conversions, predictions and two-parameter evaluations return their own results',
  'When several threads call the conversions of one ParameterConverter, predict_output_par_from_hyperparameters of one ParametricSensitivity, or the value methods of one TwoParameterObjective, each call that returns has returned the result for its own arguments, however the calls were interleaved.',
  'all parameters, converters, objective functions and points, any number of threads and all interleavings of their steps',
  'The number of interleavings is unbounded, and a test cannot choose them; the harmful ones need one call to run between two particular steps of another.',
  [OBJ+':ParameterConverter.converter_free_to_vec', OBJ+':ParameterConverter.converter_vec_to_vec', OBJ+':ParametricSensitivity.predict_output_par_from_hyperparameters', OBJ+':TwoParameterObjective.eval_fun'])

P('C189', 'Predictions are exact when the optimum is a polynomial in the hyperparameter',
  'If near the base hyperparameter the optimum is a polynomial in the hyperparameter, then evaluate_taylor_series(d, max_order=k) is the value of that polynomial at the base hyperparameter plus d, for every d, near or far, and every k from the degree of the polynomial to the declared order. If it is an affine function, predict_input_par_from_hyperparameters of the linear approximation is the value of that function at every new hyperparameter.',
  'all smooth objectives with positive curvature, all polynomial optima, directions of every length, orders and degrees',
  'The claim is about all objectives, all directions and all orders; a test sees a few points of one objective, up to rounding.',
  [SEN+':ParametricSensitivityTaylorExpansion.evaluate_taylor_series', SEN+':ParametricSensitivityLinearApproximation.predict_input_par_from_hyperparameters'])

P('C190', 'The declared order does not change the terms of lower order',
  'Two Taylor expansions with the same base values and different declared orders, also after set_order and any other calls that keep the base values, return the same derivatives evaluate_dkinput_dhyperk(d, k) and the same series evaluate_taylor_series(d, add_offset, max_order=k) for every k up to the smaller order.',
  'all smooth objectives with an optimum of positive curvature at the base values, all pairs of orders, directions, degrees and histories of calls that keep the base values',
  'The histories and orders are unbounded, and the generated terms are different objects for every order.',
  [SEN+':ParametricSensitivityTaylorExpansion.set_order', SEN+':ParametricSensitivityTaylorExpansion.evaluate_dkinput_dhyperk', SEN+':ParametricSensitivityTaylorExpansion.evaluate_taylor_series'])

P('C191', 'Hessian-vector products are linear and symmetric operators',
  'For a twice continuously differentiable objective, fun_free_hvp, fun_vector_hvp and fun_free_hvp_cond at a point are linear in the vector (the product of s u + t v is s times the product of u plus t times the product of v), and the inner product of v with the product of u equals the inner product of u with the product of v. The conditioned product has these properties for every preconditioner, symmetric or not, square or not; if the columns of the preconditioner are independent and the products at the unconditioned point have positive inner products with their vectors, so have the conditioned products.',
  'all objectives that compute a twice continuously differentiable function, all points, pairs of vectors, coefficients and preconditioners',
  'The conjugate gradient and trust-region solvers rely on this for all vectors at all points; a test sees a few vectors of one objective, up to rounding.',
  [OBJ+':Objective.fun_free_hvp', OBJ+':Objective.fun_vector_hvp', OBJ+':Objective.fun_free_hvp_cond'])

P('C192', 'Jacobians of chained converters multiply',
  'For two parameter converters used one after the other, in any parameterizations, the product of the Jacobian the second returns at the converted point and the Jacobian the first returns is the Jacobian of the chain. The transposed Jacobian a converter returns, times the gradient an objective returns at the converted point, is the gradient of the objective as a function of the input of the converter.',
  'all converters that assign the output parameter a differentiable function of the input, all objectives, parameterizations, sizes and points',
  'The claim is about all pairs of converters and all points; finite differences on a few are approximate.',
  [OBJ+':ParameterConverter.free_to_free_jacobian', OBJ+':ParameterConverter.vec_to_vec_jacobian', OBJ+':Objective.fun_free_grad'])

P('C193', 'The free diagonal of a positive definite matrix is half its log determinant',
  'After set_free(x) of a positive definite matrix parameter, whatever was done with it before, the determinant of the matrix minus diag_lb times the identity is the exponential of twice the sum of the entries of x at the places i (i + 3) / 2, and no other entry of x changes it. Conversely, when a symmetric matrix is packed, these entries add up to half the logarithm of that determinant. Without a lower bound, the entropy of the multivariate normal whose information matrix is set from x is n / 2 (1 + log 2 pi) minus the sum of these entries.',
  'all sizes, lower bounds, initial values, histories of operations and free vectors; all symmetric matrices that can be packed',
  'The identity must hold at every point of the free space for every size, a test compares a few determinants up to rounding.',
  ['LinearResponseVariationalBayes/MatrixParameters.py:unpack_posdef_matrix', 'LinearResponseVariationalBayes/MatrixParameters.py:pack_posdef_matrix', 'LinearResponseVariationalBayes/MatrixParameters.py:PosDefMatrixParam.set_free', 'LinearResponseVariationalBayes/ExponentialFamilies.py:multivariate_normal_entropy'])

P('C194', 'Free values of a simplex are log ratios to the first entry of the row',
  'After set_free(x) of a simplex parameter with r rows and c columns, whatever was done with it before, the first entry of row i is 1 / (1 + the sum of the exponentials of the free values of row i), and entry j + 1 is the exponential of the free value at place i (c - 1) + j times the first entry. Rows are independent: row i depends on the free values of row i only. Conversely get_free(), whenever it returns, has at place i (c - 1) + j the logarithm of the ratio of entry j + 1 of row i to its first entry.',
  'all numbers of rows and columns, initial values, histories of operations, free vectors and held values',
  'Which free value belongs to which entry must be right for every shape, and the values for every point; tests use one shape.',
  ['LinearResponseVariationalBayes/SimplexParams.py:constrain_simplex_matrix', 'LinearResponseVariationalBayes/SimplexParams.py:unconstrain_simplex_matrix', 'LinearResponseVariationalBayes/SimplexParams.py:SimplexParam.set_free', 'LinearResponseVariationalBayes/SimplexParams.py:SimplexParam.get_free'])

P('C195', 'Free values of a subspace vector are orthonormal coordinates',
  'For a subspace vector, whatever was done with it before, the inner product of the vectors held after set_free(x) and after set_free(y) is the inner product of x and y, so that distances in the free space are distances between the held vectors. For every vector that is set, the sum of squares of get_free() is at most that of the vector, and equal exactly when the vector satisfies the constraints.',
  'all dimensions, constraint matrices that the constructor accepts, initial values, histories of operations and vectors; every eigendecomposition that satisfies the contract of numpy.linalg.eigh',
  'Isometry is a statement about all pairs of vectors for all constraint matrices, up to rounding in any test.',
  [PRJ+':SubspaceVectorParam.set_free', PRJ+':SubspaceVectorParam.get_free', PRJ+':get_perpendicular_subspace'])

P('C196', 'Averages of legal values are legal, and convex objectives have no spurious minima',
  'For any parameter or dictionary, the weighted average of the vectors of two free vectors is the vector of exactly one free vector: set_vector of the average succeeds, and get_free() then returns it. Hence, for an objective that is convex as a function of the constrained vector, every local minimizer in the free parameterization is a global minimizer, every point where the free gradient vanishes is one (simplexes and subspaces included), and a strictly convex objective has at most one local minimizer, although the objective need not be convex in the free vector. In particular, when fun_free_grad(x) of such an objective returns zeros, or fun_free_grad_cond(x) does and the columns of the preconditioner span the free vectors, no free vector has a smaller fun_free.',
  'all parameters and nested dictionaries of all types, all pairs of free vectors, weights between 0 and 1, all convex objectives, differentiable or not for local minimizers',
  'The statements range over all pairs of points and all convex objectives; a run of an optimizer from a few starts cannot show that there is no other minimum.',
  [PAR+':ScalarParam.set_free', MAT+':PosDefMatrixParam.set_free', SIM+':SimplexParam.set_free', DIC+':ModelParamsDict.free_to_vector', DIC+':ModelParamsDict.set_vector', OBJ+':Objective.fun_free_grad', OBJ+':Objective.fun_free_grad_cond'])

P('C197', 'At a stationary point the covariances of the two parameterizations agree',
  'At a point where fun_vector_grad returns zeros, fun_free_hessian is the vector Hessian between the Jacobian of free_to_vector_jac and its transpose. If the vector Hessian is positive definite there, so is the free Hessian, and when there are as many free values as vector entries its inverse between the Jacobian and its transpose (the delta method) is the inverse of the vector Hessian.',
  'all parameters and nested dictionaries, all objectives of the vector value that are smooth at the legal values, all stationary points',
  'Relates three methods at every stationary point of every objective; tests compare them for one objective and one parameter.',
  [OBJ+':Objective.fun_free_hessian', OBJ+':Objective.fun_vector_hessian', OBJ+':Objective.fun_vector_grad', DIC+':ModelParamsDict.free_to_vector_jac', PAR+':convert_vector_to_free_hessian'])

with open(os.path.join(os.path.dirname(os.path.abspath(__file__)), '..', 'properties.jsonl'), 'w') as f:
    for o in out:
        f.write(json.dumps(o, ensure_ascii=False) + '\n')
assert len({o['id'] for o in out}) == len(out)
print(len(out))
