{"id": "C01", "title": "Constraining lands strictly inside the bounds", "statement": "For every pair of legal bounds (either of which may be infinite) and every finite unconstrained value, the constrained value is finite and lies strictly between the lower and the upper bound.", "quantifier": "all bounds lb < ub in the extended reals, all finite free values", "why_tests_cant": "There are uncountably many bounds and values in four bound configurations; tests sample a handful of bounds.", "anchors": ["LinearResponseVariationalBayes/Parameters.py:constrain", "LinearResponseVariationalBayes/Parameters.py:ScalarParam.set_free", "LinearResponseVariationalBayes/Parameters.py:VectorParam.set_free", "LinearResponseVariationalBayes/Parameters.py:ArrayParam.set_free"]}
{"id": "C02", "title": "Unconstraining undoes constraining", "statement": "Converting any finite free value to its constrained value and back returns exactly the free value (exact arithmetic), for all four combinations of finite and infinite bounds, and never raises.", "quantifier": "all legal bounds, all finite free values", "why_tests_cant": "A round trip over a continuum of inputs and bounds.", "anchors": ["LinearResponseVariationalBayes/Parameters.py:constrain", "LinearResponseVariationalBayes/Parameters.py:unconstrain", "LinearResponseVariationalBayes/Parameters.py:unconstrain_scalar", "LinearResponseVariationalBayes/Parameters.py:unconstrain_array"]}
{"id": "C03", "title": "Constraining undoes unconstraining, on every value the API accepts", "statement": "For every value the unconstraining functions accept (lb <= value <= ub), converting to the free value and back gives the same value, including at a bound.", "quantifier": "all legal bounds, all finite values between them inclusive", "why_tests_cant": "The interesting points are the boundary points and infinite intermediate values, of which tests exercise none.", "anchors": ["LinearResponseVariationalBayes/Parameters.py:constrain", "LinearResponseVariationalBayes/Parameters.py:unconstrain", "LinearResponseVariationalBayes/Parameters.py:unconstrain_scalar"]}
{"id": "C04", "title": "Out-of-bounds values, and only those, are rejected when a free value is requested", "statement": "Requesting the free value raises ValueError exactly when some element lies outside the closed interval of the bounds (or is NaN, or the bounds are not strictly ordered); otherwise it returns a value.", "quantifier": "all bounds, all values and arrays of any length, including infinite and NaN values", "why_tests_cant": "The claim is an if-and-only-if over all inputs.", "anchors": ["LinearResponseVariationalBayes/Parameters.py:unconstrain_array", "LinearResponseVariationalBayes/Parameters.py:unconstrain_scalar", "LinearResponseVariationalBayes/Parameters.py:unconstrain"]}
{"id": "C05", "title": "A parameter constructed without a value starts inside its bounds", "statement": "For every legal pair of bounds, a scalar, vector or array parameter constructed without an explicit value holds a value within its bounds, so that its free value can be read immediately.", "quantifier": "all legal bounds, all sizes and shapes", "why_tests_cant": "Whether it holds depends on the relative position of the two bounds; the unit tests use bounds for which it happens to hold.", "anchors": ["LinearResponseVariationalBayes/Parameters.py:get_inbounds_value", "LinearResponseVariationalBayes/Parameters.py:ScalarParam.__init__", "LinearResponseVariationalBayes/Parameters.py:VectorParam.__init__", "LinearResponseVariationalBayes/Parameters.py:ArrayParam.__init__"]}
{"id": "C06", "title": "Constructors accept exactly the strictly ordered bounds", "statement": "Constructing a bounded parameter raises when lb >= ub and when either bound is NaN, and succeeds for all other bounds.", "quantifier": "all pairs of floats including infinities and NaN", "why_tests_cant": "NaN comparisons make the naive reading of the checks wrong; tests use no NaN.", "anchors": ["LinearResponseVariationalBayes/Parameters.py:ScalarParam.__init__", "LinearResponseVariationalBayes/Parameters.py:VectorParam.__init__", "LinearResponseVariationalBayes/Parameters.py:ArrayParam.__init__"]}
{"id": "C07", "title": "The bounded transform is strictly increasing and onto", "statement": "For fixed legal bounds the map from free value to constrained value is strictly increasing, and every value strictly inside the bounds is reached by exactly one free value.", "quantifier": "all legal bounds, all pairs of free values, all interior values", "why_tests_cant": "Monotonicity and surjectivity quantify over all pairs of reals.", "anchors": ["LinearResponseVariationalBayes/Parameters.py:constrain", "LinearResponseVariationalBayes/Parameters.py:unconstrain"]}
{"id": "C08", "title": "The sparse Jacobian and Hessians of bounded parameters are the true derivatives", "statement": "For scalar, vector and array parameters, free_to_vector_jac(x) has as (i, j) entry the partial derivative of vector entry i with respect to free entry j at x, and the i-th matrix of free_to_vector_hess(x) holds its second partial derivatives; in particular all off-diagonal entries are zero.", "quantifier": "all legal bounds, sizes, shapes and free vectors", "why_tests_cant": "Requires differentiation at every point for every size, not at one random point.", "anchors": ["LinearResponseVariationalBayes/Parameters.py:VectorParam.free_to_vector_jac", "LinearResponseVariationalBayes/Parameters.py:VectorParam.free_to_vector_hess", "LinearResponseVariationalBayes/Parameters.py:ArrayParam.free_to_vector_jac", "LinearResponseVariationalBayes/Parameters.py:ScalarParam.free_to_vector_jac"]}
{"id": "C09", "title": "set_free followed by get_free returns the vector that was set", "statement": "For every parameter type (a vector or array of matrices holding at least one matrix), after set_free(x) with a finite x of length free_size(), get_free() returns x.", "quantifier": "all parameter types, sizes, bounds, prior states and free vectors", "why_tests_cant": "A history-independent round trip over all values, sizes and previous states.", "anchors": ["LinearResponseVariationalBayes/Parameters.py:VectorParam.get_free", "LinearResponseVariationalBayes/Parameters.py:ArrayParam.get_free", "LinearResponseVariationalBayes/Parameters.py:ScalarParam.get_free", "LinearResponseVariationalBayes/MatrixParameters.py:PosDefMatrixParam.get_free", "LinearResponseVariationalBayes/MatrixParameters.py:PosDefMatrixParamVector.get_free", "LinearResponseVariationalBayes/MatrixParameters.py:PosDefMatrixParamArray.get_free", "LinearResponseVariationalBayes/SimplexParams.py:SimplexParam.get_free", "LinearResponseVariationalBayes/ProjectionParams.py:SubspaceVectorParam.get_free"]}
{"id": "C10", "title": "set_vector followed by get_vector returns the vector that was set", "statement": "For every parameter type (a vector or array of matrices holding at least one matrix), after set_vector(v) succeeds, get_vector() returns v; and get_vector() always has vector_size() entries in that case.", "quantifier": "all parameter types, sizes, prior states and vectors", "why_tests_cant": "Round trip over all sizes and values, including index ordering for matrices and arrays.", "anchors": ["LinearResponseVariationalBayes/Parameters.py:ArrayParam.set_vector", "LinearResponseVariationalBayes/MatrixParameters.py:PosDefMatrixParam.set_vector", "LinearResponseVariationalBayes/MatrixParameters.py:PosDefMatrixParamVector.set_vector", "LinearResponseVariationalBayes/MatrixParameters.py:PosDefMatrixParamArray.set_vector", "LinearResponseVariationalBayes/SimplexParams.py:SimplexParam.set_vector"]}
{"id": "C11", "title": "Wrong-length vectors are rejected and leave the parameter unchanged", "statement": "For every parameter type, set_free or set_vector with a vector whose length differs from free_size() or vector_size() raises, and the value held by the parameter is the one it held before the call.", "quantifier": "all parameter types, all lengths, all prior states", "why_tests_cant": "Atomicity on the error path must hold for every wrong length.", "anchors": ["LinearResponseVariationalBayes/Parameters.py:ScalarParam.set_free", "LinearResponseVariationalBayes/Parameters.py:VectorParam.set_free", "LinearResponseVariationalBayes/Parameters.py:ArrayParam.set_free", "LinearResponseVariationalBayes/Parameters.py:ArrayParam.set_vector", "LinearResponseVariationalBayes/MatrixParameters.py:PosDefMatrixParam.set_free", "LinearResponseVariationalBayes/SimplexParams.py:SimplexParam.set_free", "LinearResponseVariationalBayes/ProjectionParams.py:SubspaceVectorParam.set_free", "LinearResponseVariationalBayes/ParameterDictionary.py:ModelParamsDict.set_free"]}
{"id": "C12", "title": "set rejects values of the wrong shape", "statement": "For array-valued parameters set(val) raises unless val has exactly the declared shape; in particular a value of the wrong shape is never stored.", "quantifier": "all declared shapes and all shapes of the argument", "why_tests_cant": "The check must be right for every combination of agreeing and disagreeing axes.", "anchors": ["LinearResponseVariationalBayes/Parameters.py:ArrayParam.set", "LinearResponseVariationalBayes/Parameters.py:VectorParam.set", "LinearResponseVariationalBayes/MatrixParameters.py:PosDefMatrixParam.set", "LinearResponseVariationalBayes/MatrixParameters.py:PosDefMatrixParamVector.set", "LinearResponseVariationalBayes/MatrixParameters.py:PosDefMatrixParamArray.set", "LinearResponseVariationalBayes/SimplexParams.py:SimplexParam.set"]}
{"id": "C13", "title": "Array parameters are packed in row-major order", "statement": "For every shape, the vector position of array entry (i1,...,id) is the row-major rank of that multi-index; enumerating all multi-indices in lexicographic order enumerates vector positions 0,1,2,... without gaps or repeats.", "quantifier": "all shapes of any dimension and all multi-indices", "why_tests_cant": "An order-isomorphism over unbounded shapes.", "anchors": ["LinearResponseVariationalBayes/Parameters.py:ArrayParam.get_vector", "LinearResponseVariationalBayes/Parameters.py:ArrayParam.set_vector", "LinearResponseVariationalBayes/MatrixParameters.py:PosDefMatrixParamArray.stacked_obs_slice", "LinearResponseVariationalBayes/SimplexParams.py:SimplexParam.get_vector_indices"]}
{"id": "C14", "title": "Lower-triangle indexing is a symmetric bijection", "statement": "The packed index of matrix entry (i, j) equals that of (j, i), and over the lower triangle of an n-by-n matrix the index takes every value 0..n(n+1)/2-1 exactly once, in row-by-row order.", "quantifier": "all matrix sizes and all index pairs", "why_tests_cant": "Bijectivity for every size.", "anchors": ["LinearResponseVariationalBayes/MatrixParameters.py:SymIndex", "LinearResponseVariationalBayes/MatrixParameters.py:vectorize_ld_matrix"]}
{"id": "C15", "title": "Vectorizing and unvectorizing lower-triangular matrices are mutually inverse", "statement": "Unvectorizing any vector of triangular length and vectorizing gives the vector back; vectorizing any square matrix and unvectorizing gives its lower triangle with zeros above.", "quantifier": "all sizes, all vectors and matrices", "why_tests_cant": "Round trips for every size.", "anchors": ["LinearResponseVariationalBayes/MatrixParameters.py:vectorize_ld_matrix", "LinearResponseVariationalBayes/MatrixParameters.py:unvectorize_ld_matrix"]}
{"id": "C16", "title": "Only triangular lengths are accepted", "statement": "Unvectorizing a vector succeeds exactly when its length is n(n+1)/2 for some n, the result is then n-by-n, and for every other length ValueError is raised. Non-square matrices are rejected by vectorizing.", "quantifier": "all lengths and all matrix shapes", "why_tests_cant": "The size is recovered through a square root and truncation; correctness at every length is a number-theoretic claim.", "anchors": ["LinearResponseVariationalBayes/MatrixParameters.py:unvectorize_ld_matrix", "LinearResponseVariationalBayes/MatrixParameters.py:vectorize_ld_matrix"]}
{"id": "C17", "title": "Symmetric unvectorizing is symmetric and inverse to vectorizing", "statement": "Unvectorizing any vector of triangular length into a symmetric matrix gives a matrix equal to its transpose whose lower triangle is that vector; applied to the vectorization of a symmetric matrix it returns that matrix.", "quantifier": "all sizes, all vectors, all symmetric matrices", "why_tests_cant": "Round trips for every size.", "anchors": ["LinearResponseVariationalBayes/MatrixParameters.py:unvectorize_symmetric_matrix"]}
{"id": "C18", "title": "The hand-written derivative rules for unvectorizing are right", "statement": "The forward rule is the derivative of the (linear) unvectorizing map, and the reverse rule is its adjoint: the inner product of any cotangent matrix with the forward image of any tangent vector equals the inner product of the reverse image of the matrix with the vector.", "quantifier": "all sizes, cotangents and tangents", "why_tests_cant": "An identity over all tangent/cotangent pairs of every size.", "anchors": ["LinearResponseVariationalBayes/MatrixParameters.py:unvectorize_ld_matrix_vjp", "LinearResponseVariationalBayes/MatrixParameters.py:unvectorize_ld_matrix_jvp"]}
{"id": "C19", "title": "Every free vector gives a positive definite matrix above the diagonal bound", "statement": "For every free vector of triangular length and every diag_lb >= 0, the unpacked matrix minus diag_lb times the identity is symmetric positive definite; hence every diagonal entry strictly exceeds diag_lb and set_free on a positive definite matrix parameter never raises.", "quantifier": "all sizes, all free vectors, all diag_lb >= 0", "why_tests_cant": "Positive definiteness is a statement about all nonzero vectors for all inputs.", "anchors": ["LinearResponseVariationalBayes/MatrixParameters.py:unpack_posdef_matrix", "LinearResponseVariationalBayes/MatrixParameters.py:PosDefMatrixParam.set_free"]}
{"id": "C20", "title": "Packing a positive definite matrix and unpacking it returns it, and conversely", "statement": "For every symmetric matrix A with A - diag_lb I positive definite, unpacking the packed vector returns A; for every free vector, packing the unpacked matrix returns the vector.", "quantifier": "all sizes, all such matrices, all free vectors, all diag_lb >= 0", "why_tests_cant": "Relies on existence and uniqueness of a Cholesky factor with positive diagonal for every positive definite matrix.", "anchors": ["LinearResponseVariationalBayes/MatrixParameters.py:pack_posdef_matrix", "LinearResponseVariationalBayes/MatrixParameters.py:unpack_posdef_matrix", "LinearResponseVariationalBayes/MatrixParameters.py:exp_matrix_diagonal", "LinearResponseVariationalBayes/MatrixParameters.py:log_matrix_diagonal"]}
{"id": "C21", "title": "A positive-definite matrix parameter always holds a symmetric matrix of its declared size", "statement": "After construction and any sequence of set, set_free and set_vector calls, successful or failing, the held value of a matrix parameter is a size-by-size symmetric matrix.", "quantifier": "all sizes and all finite histories of calls with arbitrary arguments", "why_tests_cant": "An invariant over unbounded histories.", "anchors": ["LinearResponseVariationalBayes/MatrixParameters.py:PosDefMatrixParam.set", "LinearResponseVariationalBayes/MatrixParameters.py:PosDefMatrixParam.set_free", "LinearResponseVariationalBayes/MatrixParameters.py:PosDefMatrixParam.set_vector", "LinearResponseVariationalBayes/MatrixParameters.py:PosDefMatrixParam.__init__"]}
{"id": "C22", "title": "Vectors and arrays of matrices are packed block by block", "statement": "In a vector or array of positive definite matrices, block b of the free vector (and of the vector form) determines matrix b and no other matrix; the blocks tile the vector exactly, and each matrix equals what a single matrix parameter would give for that block.", "quantifier": "all lengths, array shapes, matrix sizes and vectors", "why_tests_cant": "Index arithmetic over unbounded shapes.", "anchors": ["LinearResponseVariationalBayes/MatrixParameters.py:PosDefMatrixParamVector.free_obs_slice", "LinearResponseVariationalBayes/MatrixParameters.py:PosDefMatrixParamVector.set_free", "LinearResponseVariationalBayes/MatrixParameters.py:PosDefMatrixParamArray.stacked_obs_slice", "LinearResponseVariationalBayes/MatrixParameters.py:PosDefMatrixParamArray.set_free"]}
{"id": "C23", "title": "Jacobians and Hessians of vectors and arrays of matrices are the true derivatives for every diagonal bound", "statement": "free_to_vector_jac and free_to_vector_hess of a vector or array of positive definite matrices equal the partial derivatives of free_to_vector at every point, whatever diag_lb is, although the code evaluates the single-matrix derivative without passing diag_lb.", "quantifier": "all lengths, array shapes, sizes, diag_lb and free vectors", "why_tests_cant": "Tests use diag_lb = 0 only and one point.", "anchors": ["LinearResponseVariationalBayes/MatrixParameters.py:PosDefMatrixParamVector.free_to_vector_jac", "LinearResponseVariationalBayes/MatrixParameters.py:PosDefMatrixParamVector.free_to_vector_hess", "LinearResponseVariationalBayes/MatrixParameters.py:PosDefMatrixParamArray.free_to_vector_jac", "LinearResponseVariationalBayes/MatrixParameters.py:PosDefMatrixParamArray.free_to_vector_hess"]}
{"id": "C24", "title": "Positive definite matrix parameters can be built with default arguments", "statement": "Every public parameter type can be constructed with its default arguments, and its size-reporting methods return.", "quantifier": "all public parameter constructors with default arguments", "why_tests_cant": "Needs knowing what is reached on every constructor path.", "anchors": ["LinearResponseVariationalBayes/MatrixParameters.py:PosDefMatrixParamArray.__init__", "LinearResponseVariationalBayes/MatrixParameters.py:PosDefMatrixParamArray.length"]}
{"id": "C25", "title": "Constrained simplex rows are strictly positive and sum to one", "statement": "For every free matrix, each row of the constrained matrix has one more column, has strictly positive entries and sums to exactly one (exact arithmetic).", "quantifier": "all numbers of rows and columns, all free matrices", "why_tests_cant": "A continuum of inputs and unbounded dimensions.", "anchors": ["LinearResponseVariationalBayes/SimplexParams.py:constrain_simplex_matrix", "LinearResponseVariationalBayes/SimplexParams.py:SimplexParam.set_free"]}
{"id": "C26", "title": "Simplex constrain and unconstrain are mutually inverse", "statement": "Unconstraining the constrained form of any free matrix returns it; constraining the unconstrained form of any matrix with positive rows summing to one returns it.", "quantifier": "all dimensions, all free matrices, all matrices of positive rows with unit sums", "why_tests_cant": "Round trips on a continuum.", "anchors": ["LinearResponseVariationalBayes/SimplexParams.py:constrain_simplex_matrix", "LinearResponseVariationalBayes/SimplexParams.py:unconstrain_simplex_matrix", "LinearResponseVariationalBayes/SimplexParams.py:SimplexParam.get_free"]}
{"id": "C27", "title": "The closed-form simplex Jacobian is the derivative of the simplex transform", "statement": "The Jacobian computed from the moments z at any free vector has as (i, j) entry the partial derivative of the i-th simplex coordinate with respect to the j-th free coordinate.", "quantifier": "all dimensions and free vectors", "why_tests_cant": "A calculus identity at every point and for every dimension; tests check one three-dimensional point.", "anchors": ["LinearResponseVariationalBayes/SimplexParams.py:constrain_grad_from_moment", "LinearResponseVariationalBayes/SimplexParams.py:constrain_simplex_vector"]}
{"id": "C28", "title": "The closed-form simplex Hessian is the second derivative of the simplex transform", "statement": "The Hessian computed from the moments z at any free vector has as (k, i, j) entry the mixed second partial derivative of the k-th simplex coordinate with respect to free coordinates i and j.", "quantifier": "all dimensions and free vectors", "why_tests_cant": "As for the Jacobian; the code mutates the array in place in several passes.", "anchors": ["LinearResponseVariationalBayes/SimplexParams.py:constrain_hess_from_moment"]}
{"id": "C29", "title": "Sparse assembly for simplex parameters places every derivative where it belongs", "statement": "For a parameter of any number of simplexes, free_to_vector_jac and free_to_vector_hess equal the Jacobian and Hessians of free_to_vector, with zero entries between different simplexes.", "quantifier": "all numbers of rows and columns, all free vectors", "why_tests_cant": "Index arithmetic over unbounded shapes composed with calculus.", "anchors": ["LinearResponseVariationalBayes/SimplexParams.py:SimplexParam.free_to_vector_jac", "LinearResponseVariationalBayes/SimplexParams.py:SimplexParam.free_to_vector_hess", "LinearResponseVariationalBayes/SimplexParams.py:SimplexParam.get_vector_indices"]}
{"id": "C30", "title": "A subspace vector set from a free value satisfies its constraint", "statement": "For every constraint matrix of full row rank, after set_free(x) the held vector is orthogonal to every row of the constraint matrix.", "quantifier": "all dimensions, all full-row-rank constraint matrices, all free vectors, all admissible eigenvector choices", "why_tests_cant": "The basis is produced by an eigen-solver whose choice of basis is not unique; the claim must hold for all.", "anchors": ["LinearResponseVariationalBayes/ProjectionParams.py:get_perpendicular_subspace", "LinearResponseVariationalBayes/ProjectionParams.py:SubspaceVectorParam.set_free"]}
{"id": "C31", "title": "Subspace free values round-trip and reading then setting projects", "statement": "get_free after set_free(x) returns x; and for an arbitrary held vector v, set_free(get_free()) replaces v by its orthogonal projection on the constraint space, so it changes nothing exactly when v satisfies the constraint.", "quantifier": "all full-row-rank constraint matrices, all vectors", "why_tests_cant": "Quantifies over all held values, legal or not, and all bases.", "anchors": ["LinearResponseVariationalBayes/ProjectionParams.py:SubspaceVectorParam.get_free", "LinearResponseVariationalBayes/ProjectionParams.py:SubspaceVectorParam.set_free"]}
{"id": "C32", "title": "The dimension assertion never fires for full-rank constraints", "statement": "For every constraint matrix with linearly independent rows, exactly dim minus rows eigenvalues exceed the threshold, so construction succeeds and free_size() is the dimension of the constraint space.", "quantifier": "all dimensions and full-row-rank matrices", "why_tests_cant": "A spectral fact about all projections.", "anchors": ["LinearResponseVariationalBayes/ProjectionParams.py:get_perpendicular_subspace", "LinearResponseVariationalBayes/ProjectionParams.py:SubspaceVectorParam.__init__"]}
{"id": "C33", "title": "Dictionary sizes are the sums of the sizes of its parameters", "statement": "For every dictionary built by pushing parameters with distinct names, free_size() and vector_size() equal the sums over the held parameters, and, when at least one parameter was pushed and values have their declared shapes, get_free()/get_vector() return vectors of exactly those lengths.", "quantifier": "all finite sequences of pushes, including nested dictionaries, and all values", "why_tests_cant": "Induction over unbounded construction histories.", "anchors": ["LinearResponseVariationalBayes/ParameterDictionary.py:ModelParamsDict.push_param", "LinearResponseVariationalBayes/ParameterDictionary.py:ModelParamsDict.free_size", "LinearResponseVariationalBayes/ParameterDictionary.py:ModelParamsDict.get_free"]}
{"id": "C34", "title": "Dictionary free and vector values round-trip", "statement": "For a dictionary of parameters with distinct names, set_vector(v) then get_vector() returns v for every v of the right length, and set_free(x) then get_free() returns x for every finite x of the right length, including nested dictionaries (at least one parameter). Vectors of any other length raise ValueError without effect.", "quantifier": "all dictionary structures, nestings, values and vectors", "why_tests_cant": "Composition of all parameter transforms over arbitrary heterogeneous structures.", "anchors": ["LinearResponseVariationalBayes/ParameterDictionary.py:ModelParamsDict.set_free", "LinearResponseVariationalBayes/ParameterDictionary.py:ModelParamsDict.get_free", "LinearResponseVariationalBayes/ParameterDictionary.py:ModelParamsDict.set_vector", "LinearResponseVariationalBayes/ParameterDictionary.py:ModelParamsDict.get_vector"]}
{"id": "C35", "title": "Index ranges tile the vector and locate each parameter", "statement": "The index ranges recorded for the parameters are disjoint, consecutive and cover 0..size-1, and the slice of get_free()/get_vector() at a parameter's range is exactly that parameter's own get_free()/get_vector().", "quantifier": "all dictionaries with distinct names, all values", "why_tests_cant": "Partition property for unbounded numbers of parameters.", "anchors": ["LinearResponseVariationalBayes/ParameterDictionary.py:ModelParamsDict.push_param", "LinearResponseVariationalBayes/Parameters.py:set_free_offset", "LinearResponseVariationalBayes/Parameters.py:get_free_offset", "LinearResponseVariationalBayes/Parameters.py:set_vector_offset", "LinearResponseVariationalBayes/Parameters.py:get_vector_offset"]}
{"id": "C36", "title": "Changing one parameter's slice changes that parameter only", "statement": "If two vectors agree outside the index range of one parameter then after set_free (or set_vector) with either of them all other parameters hold the same values.", "quantifier": "all dictionaries, all pairs of vectors", "why_tests_cant": "Non-interference over all vectors; the unit test perturbs one fixed structure.", "anchors": ["LinearResponseVariationalBayes/ParameterDictionary.py:ModelParamsDict.set_free", "LinearResponseVariationalBayes/ParameterDictionary.py:ModelParamsDict.set_vector"]}
{"id": "C37", "title": "Reusing a parameter name keeps the dictionary usable", "statement": "Pushing a parameter whose name is already present replaces it and the dictionary's sizes, index ranges and round trips stay consistent.", "quantifier": "all sequences of pushes with possibly repeated names", "why_tests_cant": "A history property: tests never push the same name twice.", "anchors": ["LinearResponseVariationalBayes/ParameterDictionary.py:ModelParamsDict.push_param"]}
{"id": "C38", "title": "Extending a nested dictionary after it was pushed keeps the parent usable", "statement": "After a dictionary was pushed into a parent, pushing further parameters into the child keeps the parent's sizes and round trips consistent.", "quantifier": "all orders of pushes to parent and child", "why_tests_cant": "A history property about shared mutable objects.", "anchors": ["LinearResponseVariationalBayes/ParameterDictionary.py:ModelParamsDict.push_param", "LinearResponseVariationalBayes/ParameterDictionary.py:ModelParamsDict.set_free"]}
{"id": "C39", "title": "The dictionary Jacobian is block diagonal and right", "statement": "free_to_vector_jac of a dictionary is the Jacobian of its free_to_vector at every free vector: diagonal blocks are the parameters' own Jacobians and everything else is zero.", "quantifier": "all dictionaries, nestings and free vectors", "why_tests_cant": "Composition of all parameter derivatives over arbitrary structures.", "anchors": ["LinearResponseVariationalBayes/ParameterDictionary.py:ModelParamsDict.free_to_vector_jac", "LinearResponseVariationalBayes/Parameters.py:free_to_vector_jac_offset"]}
{"id": "C40", "title": "The dictionary Hessians are in vector order and right", "statement": "free_to_vector_hess of a dictionary has vector_size() entries; the i-th holds the second partial derivatives of vector entry i with respect to the free vector.", "quantifier": "all dictionaries, nestings and free vectors", "why_tests_cant": "Offsets accumulate over an unbounded number of parameters.", "anchors": ["LinearResponseVariationalBayes/ParameterDictionary.py:ModelParamsDict.free_to_vector_hess", "LinearResponseVariationalBayes/Parameters.py:free_to_vector_hess_offset", "LinearResponseVariationalBayes/Parameters.py:offset_sparse_matrix"]}
{"id": "C41", "title": "Converting a vector Hessian to a free Hessian is the second-order chain rule", "statement": "For every twice differentiable objective and every parameter with a nonempty vector, the converted matrix built from the objective's gradient and Hessian in the vector parameterization is the Hessian of the objective in the free parameterization.", "quantifier": "all parameters and dictionaries, all twice differentiable objectives, all free vectors", "why_tests_cant": "A calculus identity over all objectives.", "anchors": ["LinearResponseVariationalBayes/Parameters.py:convert_vector_to_free_hessian"]}
{"id": "C42", "title": "Reading derivatives leaves a usable numeric parameter", "statement": "After free_to_vector_jac, free_to_vector_hess or convert_vector_to_free_hessian at x, the parameter holds plain numbers (the value corresponding to x or its earlier value) rather than differentiation-tracing placeholders.", "quantifier": "all parameter types and dictionaries", "why_tests_cant": "Depends on which code path each parameter type takes; the tests reset the parameter by hand.", "anchors": ["LinearResponseVariationalBayes/Parameters.py:ScalarParam.free_to_vector_jac", "LinearResponseVariationalBayes/MatrixParameters.py:PosDefMatrixParam.free_to_vector_jac", "LinearResponseVariationalBayes/Parameters.py:convert_vector_to_free_hessian"]}
{"id": "C43", "title": "The attribute-style view reads and writes the held parameters", "statement": "Reading a key through the values view returns what the parameter's get() returns, writing a key sets that parameter and no other, and unknown keys raise KeyError without effect.", "quantifier": "all dictionaries, keys and values, all interleavings of reads and writes", "why_tests_cant": "An invariant over histories of reads and writes.", "anchors": ["LinearResponseVariationalBayes/ParameterDictionary.py:ModelParamsDictValues.__getitem__", "LinearResponseVariationalBayes/ParameterDictionary.py:ModelParamsDictValues.__setitem__", "LinearResponseVariationalBayes/ParameterDictionary.py:ModelParamsDict.__getitem__"]}
{"id": "C44", "title": "After a derivative call the parameter holds the evaluation point", "statement": "After any sequence of successful value, gradient, Hessian, Jacobian or Hessian-vector-product calls on an objective, its parameter holds plain numbers equal to what set_free (or set_vector) of the last evaluation point gives.", "quantifier": "all call sequences, all evaluation points", "why_tests_cant": "An invariant over unbounded call histories.", "anchors": ["LinearResponseVariationalBayes/SparseObjectives.py:Objective.cache_free_and_eval", "LinearResponseVariationalBayes/SparseObjectives.py:Objective.cache_vector_and_eval", "LinearResponseVariationalBayes/SparseObjectives.py:Objective.fun_free_hvp", "LinearResponseVariationalBayes/SparseObjectives.py:Objective.fun_vector_hvp"]}
{"id": "C45", "title": "A failing derivative call does not corrupt the parameter", "statement": "If the objective function raises during a derivative call, the parameter still holds plain numbers afterwards.", "quantifier": "all crash points inside the objective function", "why_tests_cant": "Crash points cannot be enumerated by tests.", "anchors": ["LinearResponseVariationalBayes/SparseObjectives.py:Objective.cache_free_and_eval", "LinearResponseVariationalBayes/SparseObjectives.py:TwoParameterObjective.cache_and_eval", "LinearResponseVariationalBayes/SparseObjectives.py:ParameterConverter.cache_free_and_eval"]}
{"id": "C46", "title": "Preconditioned derivatives are the derivatives of the preconditioned function", "statement": "For every preconditioner matrix P, the conditioned value at x is the value at Px, the conditioned gradient and Hessian are the gradient and Hessian of x -> f(Px), and the conditioned Hessian-vector product is the conditioned Hessian times the vector.", "quantifier": "all objectives, dimensions, preconditioners, points and vectors", "why_tests_cant": "Chain rule over all matrices and functions.", "anchors": ["LinearResponseVariationalBayes/SparseObjectives.py:Objective.fun_free_cond", "LinearResponseVariationalBayes/SparseObjectives.py:Objective.fun_free_grad_cond", "LinearResponseVariationalBayes/SparseObjectives.py:Objective.fun_free_hessian_cond", "LinearResponseVariationalBayes/SparseObjectives.py:Objective.fun_free_hvp_cond", "LinearResponseVariationalBayes/SparseObjectives.py:Objective.uncondition_x"]}
{"id": "C47", "title": "The logger records the full evaluation history and reports at the requested rate", "statement": "After n log calls since initialization the logger holds exactly the n points and values in order, the last point and value are the latest ones, and the callback has been called ceil(n / print_every) times, at calls 1, 1+print_every, ...; initialize resets the history but keeps the callback and rate.", "quantifier": "all histories of log and initialize calls, all positive rates", "why_tests_cant": "Invariant over unbounded histories.", "anchors": ["LinearResponseVariationalBayes/SparseObjectives.py:Logger.log", "LinearResponseVariationalBayes/SparseObjectives.py:Logger.initialize"]}
{"id": "C48", "title": "The two off-diagonal Hessians are transposes of each other", "statement": "For every twice continuously differentiable function of two parameters, the (1,2) Hessian is the transpose of the (2,1) Hessian in each parameterization, its entries are the mixed partial derivatives with parameter 1 in the rows, and afterwards both parameters hold the evaluation point.", "quantifier": "all functions, dimensions and points", "why_tests_cant": "Symmetry of second derivatives for all functions.", "anchors": ["LinearResponseVariationalBayes/SparseObjectives.py:TwoParameterObjective.fun_free_hessian12", "LinearResponseVariationalBayes/SparseObjectives.py:TwoParameterObjective.fun_free_hessian21", "LinearResponseVariationalBayes/SparseObjectives.py:TwoParameterObjective.fun_vector_hessian12", "LinearResponseVariationalBayes/SparseObjectives.py:TwoParameterObjective.fun_hessian_free1_vector2", "LinearResponseVariationalBayes/SparseObjectives.py:TwoParameterObjective.cache_and_eval"]}
{"id": "C49", "title": "Conversion Jacobians leave the output parameter untouched", "statement": "Each Jacobian method of a parameter converter leaves the vector value of the output parameter (get_vector) what it was before the call and the input parameter at the evaluation point, and returns the derivative of the corresponding conversion.", "quantifier": "all converters, parameters and points", "why_tests_cant": "Must hold for every converter and held value.", "anchors": ["LinearResponseVariationalBayes/SparseObjectives.py:ParameterConverter.cache_free_and_eval", "LinearResponseVariationalBayes/SparseObjectives.py:ParameterConverter.cache_vector_and_eval"]}
{"id": "C50", "title": "At the base hyperparameter both output predictions agree with the converter at the optimum", "statement": "predict_output_par_from_hyperparameters at the base hyperparameter returns the output computed from the optimal input, both for linear=True and linear=False.", "quantifier": "all models, optima, and prior values of the output parameter", "why_tests_cant": "Depends on what the output parameter held before construction, i.e. on history.", "anchors": ["LinearResponseVariationalBayes/SparseObjectives.py:ParametricSensitivity.set_optimal_input_par", "LinearResponseVariationalBayes/SparseObjectives.py:ParametricSensitivity.predict_output_par_from_hyperparameters"]}
{"id": "C51", "title": "The linear sensitivity is the derivative of the optimum", "statement": "For every twice differentiable objective with invertible Hessian at the optimum, the returned sensitivity matrix is the derivative of the map from hyperparameter to optimum, and the linear prediction is its first-order Taylor polynomial.", "quantifier": "all objectives, dimensions and differentiable optimum maps", "why_tests_cant": "Implicit differentiation for all objectives.", "anchors": ["LinearResponseVariationalBayes/SparseObjectives.py:ParametricSensitivity.get_dinput_dhyper", "LinearResponseVariationalBayes/ModelSensitivity.py:ParametricSensitivityLinearApproximation.get_dinput_dhyper", "LinearResponseVariationalBayes/ModelSensitivity.py:ParametricSensitivityLinearApproximation.predict_input_par_from_hyperparameters"]}
{"id": "C52", "title": "Building a Taylor expansion of any order never trips an internal assertion", "statement": "For every order >= 1, constructing the derivative arrays and terms up to that order raises no assertion or index error, and every generated term of order k has total derivative order exactly k.", "quantifier": "all orders", "why_tests_cant": "The internal sanity assertions must be shown to hold for every order; tests use order 3.", "anchors": ["LinearResponseVariationalBayes/ModelSensitivity.py:ParametricSensitivityTaylorExpansion.set_order", "LinearResponseVariationalBayes/ModelSensitivity.py:DerivativeTerm.__init__", "LinearResponseVariationalBayes/ModelSensitivity.py:DerivativeTerm.differentiate", "LinearResponseVariationalBayes/ModelSensitivity.py:generate_two_term_derivative_array"]}
{"id": "C53", "title": "Consolidating terms never changes their sum", "statement": "For every list of well-formed derivative terms, evaluating the consolidated list gives the same value as evaluating the original list, with or without the highest-order terms, and consolidation never trips its similarity assertion.", "quantifier": "all lists of terms, all evaluation points", "why_tests_cant": "The code removes list elements while iterating over the list; correctness for every list is not obvious.", "anchors": ["LinearResponseVariationalBayes/ModelSensitivity.py:consolidate_terms", "LinearResponseVariationalBayes/ModelSensitivity.py:DerivativeTerm.combine_with", "LinearResponseVariationalBayes/ModelSensitivity.py:evaluate_terms"]}
{"id": "C54", "title": "Consolidation combines all like terms", "statement": "After consolidation no two terms have the same derivative pattern.", "quantifier": "all lists of terms", "why_tests_cant": "Fails only with three or more like terms, which the test does not contain.", "anchors": ["LinearResponseVariationalBayes/ModelSensitivity.py:consolidate_terms"]}
{"id": "C55", "title": "The k-th sensitivity is the k-th derivative of the optimum", "statement": "For every smooth objective gradient with invertible Hessian and every smooth solution path, and every order k between 1 and the declared order, evaluate_dkinput_dhyperk(d, k) is the k-th derivative of the optimum along the direction d.", "quantifier": "all smooth objectives, directions and orders", "why_tests_cant": "A Faa-di-Bruno style identity at every order.", "anchors": ["LinearResponseVariationalBayes/ModelSensitivity.py:ParametricSensitivityTaylorExpansion.evaluate_dkinput_dhyperk", "LinearResponseVariationalBayes/ModelSensitivity.py:evaluate_dketa_depsk", "LinearResponseVariationalBayes/ModelSensitivity.py:DerivativeTerm.evaluate", "LinearResponseVariationalBayes/ModelSensitivity.py:append_jvp"]}
{"id": "C56", "title": "The Taylor series is the Taylor polynomial of the optimum", "statement": "evaluate_taylor_series(d, max_order=m) equals the degree-m Taylor polynomial of the optimum in direction d (with or without the constant term), for every 1 <= m <= order; other m raise ValueError, as do out-of-range k in evaluate_dkinput_dhyperk.", "quantifier": "all orders, directions and objectives", "why_tests_cant": "An identity at every order, plus exact error conditions.", "anchors": ["LinearResponseVariationalBayes/ModelSensitivity.py:ParametricSensitivityTaylorExpansion.evaluate_taylor_series"]}
{"id": "C57", "title": "A Hessian supplied to the constructor is used", "statement": "When a Hessian is passed to the sensitivity constructors as hess0, the sensitivities are computed from it and the objective Hessian is not recomputed.", "quantifier": "all supplied Hessians", "why_tests_cant": "The test passes a Hessian equal to the recomputed one, so it cannot tell.", "anchors": ["LinearResponseVariationalBayes/ModelSensitivity.py:ParametricSensitivityTaylorExpansion.__init__", "LinearResponseVariationalBayes/ModelSensitivity.py:ParametricSensitivityLinearApproximation.__init__"]}
{"id": "C58", "title": "Constrained-vector base values are supported", "statement": "With input_is_free=False (or hyper_is_free=True) the base Hessian and cross Hessian are computed in the declared parameterization and afterwards the parameters hold the base values.", "quantifier": "all flags and base values", "why_tests_cant": "The tests use only the default flags.", "anchors": ["LinearResponseVariationalBayes/ModelSensitivity.py:ParametricSensitivityTaylorExpansion.set_base_values", "LinearResponseVariationalBayes/ModelSensitivity.py:ParametricSensitivityLinearApproximation.set_base_values"]}
{"id": "C59", "title": "The derivative array evaluates mixed directional derivatives in the documented argument order", "statement": "Entry [i][j] of the generated array, called with v1..vi and w1..wj, is the mixed derivative i times in the first and j times in the second argument applied to those vectors; the array has order rows of order+1 entries.", "quantifier": "all smooth functions, orders and vectors", "why_tests_cant": "Recursion depth is unbounded.", "anchors": ["LinearResponseVariationalBayes/ModelSensitivity.py:generate_two_term_derivative_array", "LinearResponseVariationalBayes/ModelSensitivity.py:append_jvp"]}
{"id": "C60", "title": "Splitting a mask partitions it evenly", "statement": "Splitting any boolean mask gives two masks of the same length that are disjoint, whose union is the mask, and whose counts differ by at most one.", "quantifier": "all masks of all lengths", "why_tests_cant": "Partition for every mask.", "anchors": ["LinearResponseVariationalBayes/ConjugateGradient.py:split_vector"]}
{"id": "C61", "title": "Recursive splitting terminates with a partition into small masks", "statement": "For terminate_len >= 1 recursive splitting terminates and appends to the given results masks that are pairwise disjoint, have at most terminate_len true entries each, and whose union is the input mask; earlier results are kept.", "quantifier": "all masks, all terminate_len >= 1, all prior result lists", "why_tests_cant": "Termination and partition over unbounded recursion.", "anchors": ["LinearResponseVariationalBayes/ConjugateGradient.py:recursive_split"]}
{"id": "C62", "title": "Recursive splitting terminates for every terminate_len", "statement": "Recursive splitting terminates for every mask and every terminate_len.", "quantifier": "all masks and all terminate_len including 0", "why_tests_cant": "Non-termination cannot be tested.", "anchors": ["LinearResponseVariationalBayes/ConjugateGradient.py:recursive_split"]}
{"id": "C63", "title": "Contiguous masks partition the index range", "statement": "For 0 < min_mask_len < full_len the generated masks are contiguous, disjoint, cover all indices, all but the last have exactly min_mask_len true entries, the last has at least one, and there are ceil(full_len / min_mask_len) of them; other arguments raise.", "quantifier": "all lengths", "why_tests_cant": "Boundary behaviour for every pair of lengths.", "anchors": ["LinearResponseVariationalBayes/ConjugateGradient.py:get_masks"]}
{"id": "C64", "title": "Subset solves add up to the full solve", "statement": "If masks partition the indices and the inner solver is exact, the recorded masked vectors sum to the input vector and the recorded solutions sum to the full solution; the recorded lists stay aligned over repeated calls.", "quantifier": "all linear operators, vectors, mask lists and call histories", "why_tests_cant": "Linearity and bookkeeping over unbounded histories.", "anchors": ["LinearResponseVariationalBayes/ConjugateGradient.py:ConjugateGradientSolver.get_hinv_vec_subsets", "LinearResponseVariationalBayes/ConjugateGradient.py:ConjugateGradientSolver.initialize"]}
{"id": "C65", "title": "The inverse square root is one", "statement": "For every matrix whose thresholded eigenvalues are positive, the first result S is symmetric and satisfies S C S = I where C is the second result; with no thresholds C is the symmetric part of the input; with ev_min <= ev_max all eigenvalues of C lie between the thresholds, and eigenvalues already between them are unchanged.", "quantifier": "all square matrices, thresholds and eigendecompositions", "why_tests_cant": "A spectral identity for every matrix.", "anchors": ["LinearResponseVariationalBayes/OptimizationUtils.py:get_sym_matrix_inv_sqrt", "LinearResponseVariationalBayes/OptimizationUtils.py:set_objective_preconditioner"]}
{"id": "C66", "title": "Preconditioned minimization optimizes the original objective from the original start", "statement": "With an invertible preconditioner, the optimizer starts at a point whose unconditioned image is init_x, and the returned opt_x has objective value equal to that reported by the optimizer; if the optimizer reports a stationary point then opt_x is stationary for the original objective.", "quantifier": "all objectives, preconditioners, starts and optimizer behaviours", "why_tests_cant": "Holds whatever the external optimizer does.", "anchors": ["LinearResponseVariationalBayes/OptimizationUtils.py:minimize_objective_bfgs", "LinearResponseVariationalBayes/OptimizationUtils.py:minimize_objective_trust_ncg"]}
{"id": "C67", "title": "Repeated optimization stops, and its convergence flags describe the returned point", "statement": "For max_iter >= 1 the loop calls the optimizer between 1 and max_iter times, stops at the first iteration meeting a tolerance, the returned point is the last optimizer output, converged is the disjunction of the three flags, and each flag compares the last two iterates (or the gradient at the last) with its tolerance.", "quantifier": "all objectives, optimizers, tolerances, max_iter >= 1", "why_tests_cant": "Loop behaviour for every optimizer.", "anchors": ["LinearResponseVariationalBayes/OptimizationUtils.py:repeatedly_optimize"]}
{"id": "C68", "title": "Repeated optimization handles max_iter = 0", "statement": "Calling repeated optimization with max_iter = 0 returns the starting point.", "quantifier": "all objectives and starts", "why_tests_cant": "An edge case that tests omit.", "anchors": ["LinearResponseVariationalBayes/OptimizationUtils.py:repeatedly_optimize"]}
{"id": "C69", "title": "Sub-matrices are scattered to the requested positions", "statement": "When the row and column indices are each distinct and in range, entry (row_indices[i], col_indices[j]) of the result is sub_matrix[i, j] and every entry outside the indexed rows and columns is zero; with repeated indices entries add.", "quantifier": "all matrices, index vectors and dimensions", "why_tests_cant": "Placement for all index vectors.", "anchors": ["LinearResponseVariationalBayes/SparseObjectives.py:get_sparse_sub_matrix", "LinearResponseVariationalBayes/SparseObjectives.py:get_sparse_sub_hessian"]}
{"id": "C70", "title": "Packing and unpacking sparse matrices is lossless", "statement": "Unpacking a packed sparse matrix gives the same shape and entries, for both the plain and the JSON form; the JSON form rejects anything not tagged as a csr matrix.", "quantifier": "all sparse matrices", "why_tests_cant": "Round trip on all matrices.", "anchors": ["LinearResponseVariationalBayes/SparseObjectives.py:pack_csr_matrix", "LinearResponseVariationalBayes/SparseObjectives.py:unpack_csr_matrix", "LinearResponseVariationalBayes/SparseObjectives.py:json_pack_csr_matrix", "LinearResponseVariationalBayes/SparseObjectives.py:json_unpack_csr_matrix"]}
{"id": "C71", "title": "An index parameter tells where each element is stored", "statement": "For every parameter p holding values of the declared shapes and, in matrix parameters, symmetric matrices, the index parameter has the structure of p, its vector form is 0,1,2,..., and for every element of the structured value, looking up its index value in p's vector form gives that element of p.", "quantifier": "all parameter types, sizes and nested dictionaries", "why_tests_cant": "Must hold for every structure.", "anchors": ["LinearResponseVariationalBayes/SparseObjectives.py:make_index_param"]}
{"id": "C72", "title": "Log-normal moments are the true moments", "statement": "get_e_lognormal(mu, s2) and get_var_lognormal(mu, s2) are the mean and variance of exp(X) for X normal with mean mu and variance s2, and e2_exp of a univariate normal parameter is the second moment.", "quantifier": "all means and nonnegative variances", "why_tests_cant": "Equality with an integral for every parameter value.", "anchors": ["LinearResponseVariationalBayes/ExponentialFamilies.py:get_e_lognormal", "LinearResponseVariationalBayes/ExponentialFamilies.py:get_var_lognormal", "LinearResponseVariationalBayes/NormalParams.py:UVNParam.e2_exp"]}
{"id": "C73", "title": "The normal entropy is the true differential entropy", "statement": "univariate_normal_entropy(info) is the sum of minus the integral of p log p for normal densities with the given precisions.", "quantifier": "all positive precisions, arrays of any length", "why_tests_cant": "Equality with an integral for every parameter value.", "anchors": ["LinearResponseVariationalBayes/ExponentialFamilies.py:univariate_normal_entropy", "LinearResponseVariationalBayes/NormalParams.py:UVNParam.entropy", "LinearResponseVariationalBayes/NormalParams.py:UVNParamArray.entropy"]}
{"id": "C74", "title": "Natural parameters of a normal are inverted correctly", "statement": "For e2_term < 0, the returned mean and precision are those of the density proportional to exp(e_term x + e2_term x^2).", "quantifier": "all real e_term and negative e2_term", "why_tests_cant": "An identity of functions for all parameters.", "anchors": ["LinearResponseVariationalBayes/ExponentialFamilies.py:get_uvn_from_natural_parameters"]}
{"id": "C75", "title": "univariate_normal_log_prob is a normalized log density", "statement": "exp(univariate_normal_log_prob(u, m, info)) integrates to one over u and is the normal density with mean m and precision info.", "quantifier": "all means and positive precisions", "why_tests_cant": "Normalization is an integral.", "anchors": ["LinearResponseVariationalBayes/Modeling.py:univariate_normal_log_prob"]}
{"id": "C76", "title": "The moment parameterization agrees with the natural one", "statement": "After set_from_uvn_param_array, mean, second moment, variance, mean and variance of the exponential, second moment of the exponential and entropy agree with those of the source parameter.", "quantifier": "all shapes, means and positive precisions", "why_tests_cant": "Agreement on a continuum; the test compares only two of the methods.", "anchors": ["LinearResponseVariationalBayes/NormalParams.py:UVNMomentParamArray.set_from_uvn_param_array", "LinearResponseVariationalBayes/NormalParams.py:UVNMomentParamArray.var_exp", "LinearResponseVariationalBayes/NormalParams.py:UVNParamArray.var_exp"]}
{"id": "C77", "title": "Dirichlet means form a simplex", "statement": "get_e_dirichlet(alpha) sums to one along the first axis and is strictly positive for every array of positive alpha; entropy of a two-component Dirichlet equals the beta entropy with the same parameters.", "quantifier": "all positive alpha of any shape", "why_tests_cant": "Identity on a continuum.", "anchors": ["LinearResponseVariationalBayes/ExponentialFamilies.py:get_e_dirichlet", "LinearResponseVariationalBayes/ExponentialFamilies.py:dirichlet_entropy", "LinearResponseVariationalBayes/ExponentialFamilies.py:beta_entropy"]}
{"id": "C78", "title": "A Wishart parameter has the requested size", "statement": "WishartParam(size=n) holds an n-by-n scale matrix, and its lower bound for the degrees of freedom is at least n - 1.", "quantifier": "all sizes n", "why_tests_cant": "The test uses only the default size.", "anchors": ["LinearResponseVariationalBayes/WishartParams.py:WishartParam.__init__"]}
{"id": "C79", "title": "Regression coefficients solve the weighted normal equations", "statement": "get_regression_coefficients returns, for every design matrix with invertible weighted Gram matrix and symmetric info, the minimizer of the weighted least squares criterion, pooling over replicated responses.", "quantifier": "all dimensions, designs, responses, symmetric positive definite weights", "why_tests_cant": "Optimality over all coefficient vectors.", "anchors": ["LinearResponseVariationalBayes/regression_utils.py:get_regression_coefficients", "LinearResponseVariationalBayes/regression_utils.py:get_nat_params_from_likelihood", "LinearResponseVariationalBayes/regression_utils.py:get_mvn_from_nat_params"]}
{"id": "C80", "title": "Prior natural parameters round-trip and combine with the likelihood", "statement": "Converting a prior mean and information matrix to natural parameters and back returns them; the posterior mean and information are those of the normal density proportional to prior times likelihood.", "quantifier": "all dimensions, priors, designs and responses", "why_tests_cant": "Identity for all inputs.", "anchors": ["LinearResponseVariationalBayes/regression_utils.py:get_nat_params_from_prior", "LinearResponseVariationalBayes/regression_utils.py:get_mvn_from_nat_params", "LinearResponseVariationalBayes/regression_utils.py:get_posterior_regression_coefficients"]}
{"id": "C81", "title": "Expected log priors are expectations of log priors", "statement": "uvn_prior and mvn_prior equal, up to a constant that does not depend on the first two moments, the expectation of the normal log density over any distribution with the given mean and covariance; gamma and exponential priors are likewise linear in the given expectations.", "quantifier": "all distributions with the given finite moments", "why_tests_cant": "Quantifies over all distributions.", "anchors": ["LinearResponseVariationalBayes/ExponentialFamilies.py:uvn_prior", "LinearResponseVariationalBayes/ExponentialFamilies.py:mvn_prior", "LinearResponseVariationalBayes/ExponentialFamilies.py:gamma_prior", "LinearResponseVariationalBayes/ExponentialFamilies.py:exponential_prior"]}
{"id": "C82", "title": "Standard draws are the symmetric quantile grid", "statement": "get_standard_draws(n) evaluates the quantile function at 1/(n+1), ..., n/(n+1); hence the draws are increasing and symmetric around zero.", "quantifier": "all n >= 1", "why_tests_cant": "All n.", "anchors": ["LinearResponseVariationalBayes/Modeling.py:get_standard_draws"]}
{"id": "C83", "title": "The stable log-expit is accurate everywhere", "statement": "The piecewise function used for the logit-normal log expectation differs from log(expit(x)) by at most exp(-100) at every real x, and equals it for x > -100; the returned E[log(1-v)] is consistent with E[log v] for every quadrature rule exact on linear functions.", "quantifier": "all real x, all quadrature rules exact on linear functions", "why_tests_cant": "All reals.", "anchors": ["LinearResponseVariationalBayes/ExponentialFamilies.py:get_e_log_logitnormal", "LinearResponseVariationalBayes/ExponentialFamilies.py:get_e_fun_normal"]}
{"id": "C84", "title": "MVN moments are consistent", "statement": "For a multivariate normal parameter with symmetric invertible information matrix, e_outer() is symmetric and equals mean mean^T plus cov(), and cov() is the inverse of the information matrix.", "quantifier": "all dimensions and values", "why_tests_cant": "Identity for all matrices.", "anchors": ["LinearResponseVariationalBayes/NormalParams.py:MVNParam.e_outer", "LinearResponseVariationalBayes/NormalParams.py:MVNParam.cov"]}
{"id": "C85", "title": "The gamma expectations and entropy are the true ones", "statement": "For a gamma distribution with the given shape and rate, e() is its mean, e_log() the mean of the logarithm, and entropy() the differential entropy.", "quantifier": "all positive shapes and rates", "why_tests_cant": "Equality with integrals for every parameter value.", "anchors": ["LinearResponseVariationalBayes/GammaParams.py:GammaParam.e", "LinearResponseVariationalBayes/ExponentialFamilies.py:get_e_log_gamma", "LinearResponseVariationalBayes/ExponentialFamilies.py:gamma_entropy"]}
{"id": "C86", "title": "The derivative methods return the derivatives of the value methods", "statement": "For every twice continuously differentiable objective, in the free and in the vector parameterization, the gradient, Hessian and Jacobian methods return the partial derivatives of the value method at the point (Hessians are symmetric, Jacobians have the argument in the last axis) and the Hessian-vector product is the Hessian times the vector. For the derivatives at one point it is enough that the objective is twice continuously differentiable there, so that objectives with logarithms are covered.", "quantifier": "all objectives, parameters, points, vectors and output shapes", "why_tests_cant": "Equality with derivatives for every objective and every point.", "anchors": ["LinearResponseVariationalBayes/SparseObjectives.py:Objective.fun_free_grad", "LinearResponseVariationalBayes/SparseObjectives.py:Objective.fun_free_hessian", "LinearResponseVariationalBayes/SparseObjectives.py:Objective.fun_free_jacobian", "LinearResponseVariationalBayes/SparseObjectives.py:Objective.fun_free_hvp", "LinearResponseVariationalBayes/SparseObjectives.py:Objective.fun_vector_grad", "LinearResponseVariationalBayes/SparseObjectives.py:Objective.fun_vector_hessian", "LinearResponseVariationalBayes/SparseObjectives.py:Objective.fun_vector_jacobian", "LinearResponseVariationalBayes/SparseObjectives.py:Objective.fun_vector_hvp"]}
{"id": "C87", "title": "Both ways of computing a free Hessian agree", "statement": "For every twice continuously differentiable objective of the vector value of a parameter, converting the vector gradient and vector Hessian at free_to_vector(x) with convert_vector_to_free_hessian gives the matrix that fun_free_hessian(x) returns. The objective has to be smooth at the legal values only.", "quantifier": "all parameters (nested dictionaries included), objectives and points", "why_tests_cant": "Relates two code paths at every point, for every parameter structure.", "anchors": ["LinearResponseVariationalBayes/Parameters.py:convert_vector_to_free_hessian", "LinearResponseVariationalBayes/SparseObjectives.py:Objective.fun_free_hessian", "LinearResponseVariationalBayes/SparseObjectives.py:Objective.fun_vector_grad", "LinearResponseVariationalBayes/SparseObjectives.py:Objective.fun_vector_hessian"]}
{"id": "C88", "title": "A separate functor for the hyperparameter gives the same expansion", "statement": "When hyper_par_objective_functor is given and differs from objective_functor by a function of the input parameter only, the derivatives returned by the Taylor expansion are those of the optimum of objective_functor, as they are without it.", "quantifier": "all smooth objectives and functors that differ by a function of the input, all orders", "why_tests_cant": "Tests use a functor only at first order, for one model.", "anchors": ["LinearResponseVariationalBayes/ModelSensitivity.py:ParametricSensitivityTaylorExpansion.__init__", "LinearResponseVariationalBayes/ModelSensitivity.py:ParametricSensitivityTaylorExpansion.evaluate_dkinput_dhyperk"]}
{"id": "C89", "title": "After minimization the parameter holds the returned point", "statement": "When a minimization returns opt_x, the parameter of the objective holds opt_x.", "quantifier": "all objectives and optimizer behaviours", "why_tests_cant": "Depends on the last call the external optimizer makes.", "anchors": ["LinearResponseVariationalBayes/OptimizationUtils.py:minimize_objective_bfgs", "LinearResponseVariationalBayes/OptimizationUtils.py:minimize_objective_trust_ncg"]}
{"id": "C90", "title": "Quadrature expectations are exact for polynomials", "statement": "When the nodes and weights integrate polynomials up to degree D exactly against exp(-t^2), as a Gauss-Hermite rule does, get_e_fun_normal returns, for every entry of the arrays of means and precisions, the expectation of every polynomial of degree at most D under the normal distribution with that mean and precision.", "quantifier": "all shapes, means, positive precisions, exact rules and polynomials", "why_tests_cant": "A family of integrals for every parameter value and every polynomial.", "anchors": ["LinearResponseVariationalBayes/ExponentialFamilies.py:get_e_fun_normal"]}
{"id": "C91", "title": "The logistic terms average the log likelihood", "statement": "get_e_logistic_term returns the sum over observations of the average over the draws of the logistic log likelihood, for draws that add up to zero, as those of get_standard_draws do, and this is at most the log likelihood at the mean; the Gauss-Hermite version returns for every observation the quadrature estimate of the expected log(1 + exp(z)), which is at least its value at the mean, and their sum when aggregating.", "quantifier": "all shapes, responses, means, standard deviations, numbers of draws and rules", "why_tests_cant": "Inequality on a continuum and for every number of draws.", "anchors": ["LinearResponseVariationalBayes/Modeling.py:get_e_logistic_term", "LinearResponseVariationalBayes/Modeling.py:get_e_logistic_term_guass_hermite", "LinearResponseVariationalBayes/Modeling.py:get_standard_draws"]}
{"id": "C92", "title": "The multivariate normal entropy is the differential entropy of the density", "statement": "The distribution a multivariate normal parameter stands for has the density sqrt(det info) (2 pi)^(-n/2) exp(-(x - mean)^T info (x - mean) / 2), and entropy() returns minus the expected log of that density.", "quantifier": "all dimensions, means and positive definite information matrices", "why_tests_cant": "An integral over R^n for every n.", "anchors": ["LinearResponseVariationalBayes/NormalParams.py:MVNParam", "LinearResponseVariationalBayes/ExponentialFamilies.py:multivariate_normal_entropy"]}
{"id": "C93", "title": "dictval() exports every value under its key", "statement": "dictval() of a dictionary parameter, however nested, returns a dictionary with the same keys in the same order, holding for every sub-dictionary its own dictval() and for every other parameter the nested lists of the value get() returns.", "quantifier": "all dictionaries, nesting depths, parameter types and call histories", "why_tests_cant": "Structural claim over every tree and every history of calls.", "anchors": ["LinearResponseVariationalBayes/ParameterDictionary.py:ModelParamsDict.dictval", "LinearResponseVariationalBayes/Parameters.py:ScalarParam.dictval", "LinearResponseVariationalBayes/Parameters.py:VectorParam.dictval", "LinearResponseVariationalBayes/Parameters.py:ArrayParam.dictval", "LinearResponseVariationalBayes/MatrixParameters.py:PosDefMatrixParam.dictval"]}
{"id": "C94", "title": "names() labels the entries of get_vector()", "statement": "names() returns one name for every entry of get_vector(), in the same order, and no two entries have the same name.", "quantifier": "all dictionaries, nesting depths and parameter types", "why_tests_cant": "Structural claim over every tree.", "anchors": ["LinearResponseVariationalBayes/ParameterDictionary.py:ModelParamsDict.names", "LinearResponseVariationalBayes/Parameters.py:ScalarParam.names", "LinearResponseVariationalBayes/Parameters.py:VectorParam.names", "LinearResponseVariationalBayes/Parameters.py:ArrayParam.names", "LinearResponseVariationalBayes/MatrixParameters.py:PosDefMatrixParam.names"]}
{"id": "C95", "title": "Dirichlet and beta moments and entropies are those of the densities", "statement": "For every array of positive parameters, with the components along the first axis, get_e_dirichlet returns the means of the coordinates of the Dirichlet distribution, get_e_log_dirichlet the expectations of their logarithms and dirichlet_entropy the differential entropy of its density on the simplex; beta_entropy returns the sum of the differential entropies of the beta densities in the rows.", "quantifier": "all numbers of components, array shapes and positive parameters", "why_tests_cant": "Integrals over simplexes of every dimension, for every parameter value.", "anchors": ["LinearResponseVariationalBayes/ExponentialFamilies.py:get_e_dirichlet", "LinearResponseVariationalBayes/ExponentialFamilies.py:get_e_log_dirichlet", "LinearResponseVariationalBayes/ExponentialFamilies.py:dirichlet_entropy", "LinearResponseVariationalBayes/ExponentialFamilies.py:beta_entropy", "LinearResponseVariationalBayes/DirichletParams.py:DirichletParamArray"]}
{"id": "C96", "title": "The entropy of discrete distributions is the Shannon entropy up to min_prob", "statement": "For a 2-d array whose rows are probabilities and a positive min_prob, multinoulli_entropy returns one number for every row, at most the Shannon entropy of the row, smaller than it by at most min_prob for every column, and so at most the logarithm of the number of columns; with min_prob=0 it is exact when no probability is zero and not a number otherwise.", "quantifier": "all numbers of rows and columns, probabilities (zeros included) and min_prob", "why_tests_cant": "Inequalities over a continuum, for every number of columns.", "anchors": ["LinearResponseVariationalBayes/ExponentialFamilies.py:multinoulli_entropy"]}
{"id": "C97", "title": "Logit-normal estimates are probabilities", "statement": "For every quadrature rule with nonnegative weights that is exact on constants, get_e_logitnormal returns the quadrature estimate of the mean of a logit-normal variable; it lies strictly between zero and one and increases with the mean of the normal variable.  get_e_dp_prior_logitnorm_approx returns (alpha - 1) times the estimate of E log(1 - V), up to |alpha - 1| exp(-100), and zero for alpha = 1.", "quantifier": "all shapes, means, positive precisions, rules and alpha", "why_tests_cant": "Inequalities over a continuum of inputs and of quadrature rules.", "anchors": ["LinearResponseVariationalBayes/ExponentialFamilies.py:get_e_logitnormal", "LinearResponseVariationalBayes/ExponentialFamilies.py:get_e_dp_prior_logitnorm_approx"]}
{"id": "C98", "title": "Wishart expectations and entropy are those of the Wishart density", "statement": "For every positive definite scale matrix v of size n and df > n - 1, with X distributed with the Wishart density: e() returns the mean of X, e_log_det_wishart the mean of log det X, e_log_inv_wishart_diag the means of the logarithms of the diagonal of the inverse of X, expected_ljk_prior the mean of (lkj_param - 1) log det R for the correlation matrix R of the covariance matrix inverse to X, and wishart_entropy the differential entropy of the density.", "quantifier": "all sizes, positive definite scale matrices, degrees of freedom above n - 1 and lkj_param", "why_tests_cant": "Integrals over the cone of positive definite matrices of every dimension.", "anchors": ["LinearResponseVariationalBayes/ExponentialFamilies.py:wishart_entropy", "LinearResponseVariationalBayes/ExponentialFamilies.py:e_log_det_wishart", "LinearResponseVariationalBayes/ExponentialFamilies.py:e_log_inv_wishart_diag", "LinearResponseVariationalBayes/ExponentialFamilies.py:expected_ljk_prior", "LinearResponseVariationalBayes/ExponentialFamilies.py:multivariate_gammaln", "LinearResponseVariationalBayes/ExponentialFamilies.py:multivariate_digamma", "LinearResponseVariationalBayes/WishartParams.py:WishartParam"]}
{"id": "C99", "title": "e_inv() of a Wishart parameter is the mean of the inverse", "statement": "e_inv() of a Wishart parameter returns the expectation of the inverse of the Wishart distributed matrix.", "quantifier": "all sizes, positive definite scale matrices and degrees of freedom above n + 1", "why_tests_cant": "Integrals over the cone of positive definite matrices of every dimension.", "anchors": ["LinearResponseVariationalBayes/WishartParams.py:WishartParam.e_inv"]}
{"id": "C100", "title": "Library calls never modify arrays in place", "statement": "No call of a parameter or dictionary (constructor, push_param, set, set_name, set_free, set_vector, free_to_vector, free_to_vector_jac, free_to_vector_hess, get, get_free, get_vector, item access) modifies an array that existed before the call: not its arguments, not arrays returned by earlier calls, not the arrays held by parameters. This also holds when the call raises.", "quantifier": "all programs that create and modify arrays and objects in any order, all calls and all arrays that exist at the time", "why_tests_cant": "Needs every history of sharing between arrays, parameters and dictionaries.", "anchors": ["LinearResponseVariationalBayes/Parameters.py:ScalarParam", "LinearResponseVariationalBayes/Parameters.py:VectorParam", "LinearResponseVariationalBayes/Parameters.py:ArrayParam", "LinearResponseVariationalBayes/Parameters.py:set_free_offset", "LinearResponseVariationalBayes/MatrixParameters.py:PosDefMatrixParam", "LinearResponseVariationalBayes/ParameterDictionary.py:ModelParamsDict"]}
{"id": "C101", "title": "set_free() copies its argument", "statement": "After a set_free() that returned, changing the argument, or any other array that existed before, in place does not change the parameter or anything in the dictionary.", "quantifier": "all parameters and dictionaries at any nesting, all arrays, all in-place changes", "why_tests_cant": "All combinations of classes, nestings and later in-place changes.", "anchors": ["LinearResponseVariationalBayes/Parameters.py:ScalarParam.set_free", "LinearResponseVariationalBayes/Parameters.py:VectorParam.set_free", "LinearResponseVariationalBayes/Parameters.py:constrain", "LinearResponseVariationalBayes/MatrixParameters.py:PosDefMatrixParam.set_free", "LinearResponseVariationalBayes/SimplexParams.py:SimplexParam.set_free", "LinearResponseVariationalBayes/ParameterDictionary.py:ModelParamsDict.set_free"]}
{"id": "C102", "title": "get_free(), and get_vector() of a dictionary, return new arrays", "statement": "The array returned by get_free() of a parameter or dictionary, and by get_vector() of a dictionary, shares no memory with an array that existed before; changing it in place changes no parameter or dictionary.", "quantifier": "all programs, parameters and dictionaries, all in-place changes of the result", "why_tests_cant": "All histories of sharing and all later in-place changes.", "anchors": ["LinearResponseVariationalBayes/Parameters.py:ScalarParam.get_free", "LinearResponseVariationalBayes/Parameters.py:VectorParam.get_free", "LinearResponseVariationalBayes/ParameterDictionary.py:ModelParamsDict.get_free", "LinearResponseVariationalBayes/ParameterDictionary.py:ModelParamsDict.get_vector", "LinearResponseVariationalBayes/Parameters.py:get_free_offset", "LinearResponseVariationalBayes/Parameters.py:get_vector_offset"]}
{"id": "C103", "title": "Parameters keep a copy of the value they are given", "statement": "After set() or set_vector(), changing the argument in place does not change the parameter.", "quantifier": "all parameters, arguments and in-place changes", "why_tests_cant": "All classes, arguments and later in-place changes.", "anchors": ["LinearResponseVariationalBayes/Parameters.py:VectorParam.set", "LinearResponseVariationalBayes/Parameters.py:VectorParam.set_vector", "LinearResponseVariationalBayes/Parameters.py:ArrayParam.set_vector", "LinearResponseVariationalBayes/MatrixParameters.py:PosDefMatrixParam.set_vector"]}
{"id": "C104", "title": "Parameters return copies of their value", "statement": "Changing the array returned by get() or get_vector() in place does not change the parameter.", "quantifier": "all parameters and in-place changes of the result", "why_tests_cant": "All classes, values and later in-place changes.", "anchors": ["LinearResponseVariationalBayes/Parameters.py:VectorParam.get", "LinearResponseVariationalBayes/Parameters.py:VectorParam.get_vector", "LinearResponseVariationalBayes/Parameters.py:ScalarParam.get_vector", "LinearResponseVariationalBayes/ProjectionParams.py:SubspaceVectorParam.get_vector"]}
{"id": "C105", "title": "With distinct objects, calls act on values only", "statement": "In a dictionary no object of which occurs twice, set_free, set_vector, free_to_vector, free_to_vector_jac, free_to_vector_hess, get_free and get_vector have, whatever arrays the parameters share with each other or with the caller, the effects and results they would have if every parameter held its own copy of its value; parameters and dictionaries that share no object with it keep their values.", "quantifier": "all programs, all objects at any nesting, all arguments", "why_tests_cant": "All histories of sharing between arrays and objects.", "anchors": ["LinearResponseVariationalBayes/ParameterDictionary.py:ModelParamsDict.set_free", "LinearResponseVariationalBayes/ParameterDictionary.py:ModelParamsDict.set_vector", "LinearResponseVariationalBayes/ParameterDictionary.py:ModelParamsDict.free_to_vector", "LinearResponseVariationalBayes/ParameterDictionary.py:ModelParamsDict.free_to_vector_jac", "LinearResponseVariationalBayes/ParameterDictionary.py:ModelParamsDict.free_to_vector_hess", "LinearResponseVariationalBayes/ParameterDictionary.py:ModelParamsDict.get_free", "LinearResponseVariationalBayes/ParameterDictionary.py:ModelParamsDict.get_vector"]}
{"id": "C106", "title": "Free round trip of every dictionary", "statement": "After set_free(x) with x of the right length, get_free() returns x, for every dictionary that can be built with push_param from parameters and dictionaries.", "quantifier": "all programs that build a dictionary, all x of length free_size()", "why_tests_cant": "All ways of putting objects together, including one object in two places.", "anchors": ["LinearResponseVariationalBayes/ParameterDictionary.py:ModelParamsDict.push_param", "LinearResponseVariationalBayes/ParameterDictionary.py:ModelParamsDict.set_free", "LinearResponseVariationalBayes/ParameterDictionary.py:ModelParamsDict.get_free"]}
{"id": "C107", "title": "A dictionary holds the object that was pushed", "statement": "After push_param(p), item access with the name of p returns p itself, so that changes made through p are seen through the dictionary and the other way around.", "quantifier": "all programs, dictionaries and pushed objects", "why_tests_cant": "All histories of pushes and changes.", "anchors": ["LinearResponseVariationalBayes/ParameterDictionary.py:ModelParamsDict.push_param", "LinearResponseVariationalBayes/ParameterDictionary.py:ModelParamsDict.__getitem__"]}
{"id": "C108", "title": "Free values give values within the bounds, in floating point", "statement": "With every operation rounded, set_free() with any finite free value stores a value within the bounds, and get_free() does not raise afterwards.", "quantifier": "all bounds and finite free values that can be represented, all arithmetics that round monotonically with faithful exp and log, double precision among them", "why_tests_cant": "All pairs of bounds and free values; the failures are at particular bit patterns.", "anchors": ["LinearResponseVariationalBayes/Parameters.py:constrain", "LinearResponseVariationalBayes/Parameters.py:unconstrain_scalar", "LinearResponseVariationalBayes/Parameters.py:ScalarParam.set_free", "LinearResponseVariationalBayes/Parameters.py:ScalarParam.get_free"]}
{"id": "C109", "title": "Free round trip in floating point", "statement": "In double precision get_free() after set_free(x) returns a finite number close to x.", "quantifier": "all bounds and free values, all faithful exp and log", "why_tests_cant": "All doubles and all library implementations.", "anchors": ["LinearResponseVariationalBayes/Parameters.py:constrain", "LinearResponseVariationalBayes/Parameters.py:unconstrain", "LinearResponseVariationalBayes/Parameters.py:ScalarParam.set_free", "LinearResponseVariationalBayes/Parameters.py:ScalarParam.get_free"]}
{"id": "C110", "title": "Simplexes stay in range in floating point", "statement": "With every operation rounded, set_free() of a simplex with finite free values, however large, stores numbers in [0, 1], never NaN.", "quantifier": "all lengths and finite free values that can be represented, all arithmetics that round monotonically with faithful exp and log", "why_tests_cant": "All lengths and values, including those for which exp overflows.", "anchors": ["LinearResponseVariationalBayes/SimplexParams.py:constrain_simplex_matrix", "LinearResponseVariationalBayes/SimplexParams.py:SimplexParam.set_free"]}
{"id": "C111", "title": "Free round trip of simplexes in floating point", "statement": "In double precision get_free() of a simplex after set_free(x) returns finite numbers close to x.", "quantifier": "all lengths and free values, all faithful exp and log", "why_tests_cant": "All lengths and doubles.", "anchors": ["LinearResponseVariationalBayes/SimplexParams.py:constrain_simplex_matrix", "LinearResponseVariationalBayes/SimplexParams.py:unconstrain_simplex_matrix", "LinearResponseVariationalBayes/SimplexParams.py:SimplexParam.get_free"]}
{"id": "C112", "title": "Default values have finite free values in floating point", "statement": "In double precision a parameter created without a value holds a number inside its bounds, and get_free() returns finite numbers.", "quantifier": "all bounds that can be represented", "why_tests_cant": "All pairs of bounds; the failures are at the extremes of the range.", "anchors": ["LinearResponseVariationalBayes/Parameters.py:get_inbounds_value", "LinearResponseVariationalBayes/Parameters.py:ScalarParam.__init__", "LinearResponseVariationalBayes/Parameters.py:VectorParam.__init__"]}
{"id": "C113", "title": "The vector round trip of matrices is exact in floating point", "statement": "With every operation rounded, get_vector() of a matrix parameter after set_vector(v) returns exactly v.", "quantifier": "all sizes and all vectors of numbers that can be represented", "why_tests_cant": "All sizes and values.", "anchors": ["LinearResponseVariationalBayes/MatrixParameters.py:unvectorize_symmetric_matrix", "LinearResponseVariationalBayes/MatrixParameters.py:vectorize_ld_matrix", "LinearResponseVariationalBayes/MatrixParameters.py:PosDefMatrixParam.set_vector"]}
{"id": "C114", "title": "The matrix size computed with floats is right", "statement": "In double precision, for a vector of length up to 2**48, the matrix built from it has size n exactly when the length is n (n + 1) / 2, and ValueError is raised when there is no such n.", "quantifier": "all lengths up to 2**48", "why_tests_cant": "All lengths; a rounding error in the square root would show only at some of them.", "anchors": ["LinearResponseVariationalBayes/MatrixParameters.py:unvectorize_ld_matrix"]}
{"id": "C115", "title": "Calls of an objective change no array of the caller", "statement": "Evaluating an objective, its derivatives, and their preconditioned versions changes no array that exists, also when it raises, and as long as no object occurs twice in the parameter every call returns, and leaves in the parameter and the logger, what follows from the numbers in the arguments, in the parameter, in the preconditioner and in the recorded points at that moment, in any sequence of calls.", "quantifier": "all programs that make arrays, parameters and an objective, all sequences of calls and all arguments, arrays may share memory with each other and with the parameter", "why_tests_cant": "All ways in which arguments, the parameter, the preconditioner and the logger can share memory, and all histories.", "anchors": ["LinearResponseVariationalBayes/SparseObjectives.py:Objective.fun_free", "LinearResponseVariationalBayes/SparseObjectives.py:Objective.fun_vector", "LinearResponseVariationalBayes/SparseObjectives.py:Objective.fun_free_grad", "LinearResponseVariationalBayes/SparseObjectives.py:Objective.fun_free_hessian", "LinearResponseVariationalBayes/SparseObjectives.py:Objective.fun_free_hvp", "LinearResponseVariationalBayes/SparseObjectives.py:Objective.fun_free_cond", "LinearResponseVariationalBayes/SparseObjectives.py:Objective.fun_free_grad_cond", "LinearResponseVariationalBayes/SparseObjectives.py:Objective.fun_free_hessian_cond", "LinearResponseVariationalBayes/SparseObjectives.py:Objective.fun_free_hvp_cond", "LinearResponseVariationalBayes/SparseObjectives.py:Logger.log"]}
{"id": "C116", "title": "The logger remembers the points of past evaluations", "statement": "Until the logger is initialized again, the points in x_array are the points at which the objective was evaluated with verbose=True, in order, whatever the caller does with its arrays.", "quantifier": "all programs that evaluate an objective", "why_tests_cant": "All later in-place changes of any array.", "anchors": ["LinearResponseVariationalBayes/SparseObjectives.py:Logger.log", "LinearResponseVariationalBayes/SparseObjectives.py:Logger.initialize", "LinearResponseVariationalBayes/SparseObjectives.py:Objective.fun_free", "LinearResponseVariationalBayes/SparseObjectives.py:Objective.fun_free_cond"]}
{"id": "C117", "title": "A two-parameter objective is evaluated at both of its arguments", "statement": "Evaluating a two-parameter objective, a gradient or a cross Hessian of it at x1 and x2 changes no array that exists, also when it raises; when it returns, the first parameter contains x1 and the second x2, and an evaluation returned the function of these contents.", "quantifier": "all programs, all pairs of parameters, which may have parts in common, all sequences of calls and all arguments", "why_tests_cant": "All ways in which the two parameters and the arguments can share memory, and all histories.", "anchors": ["LinearResponseVariationalBayes/SparseObjectives.py:TwoParameterObjective.eval_fun", "LinearResponseVariationalBayes/SparseObjectives.py:TwoParameterObjective.fun_grad1", "LinearResponseVariationalBayes/SparseObjectives.py:TwoParameterObjective.fun_grad2", "LinearResponseVariationalBayes/SparseObjectives.py:TwoParameterObjective.fun_free_hessian12", "LinearResponseVariationalBayes/SparseObjectives.py:TwoParameterObjective.fun_free_hessian21", "LinearResponseVariationalBayes/SparseObjectives.py:TwoParameterObjective.cache_and_eval"]}
{"id": "C118", "title": "A Jacobian of a conversion leaves the output parameter as it was", "statement": "Conversions and their Jacobians change no array that exists, also when they raise, if the converter does not; after a Jacobian that returned, the input parameter contains the argument and the output parameter the vector it had before.", "quantifier": "all programs, all pairs of parameters, which may have parts in common, all converters that only assign to the output parameter, all arguments", "why_tests_cant": "All ways in which the two parameters, the arguments and the saved vector can share memory, and all histories.", "anchors": ["LinearResponseVariationalBayes/SparseObjectives.py:ParameterConverter.converter_free_to_vec", "LinearResponseVariationalBayes/SparseObjectives.py:ParameterConverter.free_to_vec_jacobian", "LinearResponseVariationalBayes/SparseObjectives.py:ParameterConverter.cache_free_and_eval", "LinearResponseVariationalBayes/SparseObjectives.py:ParameterConverter.cache_vector_and_eval"]}
{"id": "C119", "title": "Predictions of a linear approximation stay at the base values", "statement": "Making a linear approximation, setting its base values and predicting change no array that exists, also when they raise. From a set_base_values that returned until the next one, the predictions are those of the linear approximation at the base values passed, whatever the program does to its arrays and parameters in between.", "quantifier": "all programs that make arrays, parameters and a linear approximation, all arguments, all histories after set_base_values", "why_tests_cant": "All ways in which the base values, the parameters and the arrays of the caller can share memory, and all later changes.", "anchors": ["LinearResponseVariationalBayes/ModelSensitivity.py:ParametricSensitivityLinearApproximation.set_base_values", "LinearResponseVariationalBayes/ModelSensitivity.py:ParametricSensitivityLinearApproximation.predict_input_par_from_hyperparameters", "LinearResponseVariationalBayes/ModelSensitivity.py:ParametricSensitivityLinearApproximation.get_dinput_dhyper", "LinearResponseVariationalBayes/ModelSensitivity.py:ParametricSensitivityLinearApproximation.set_par_to_base_values"]}
{"id": "C120", "title": "Predictions of a ParametricSensitivity stay at the optimum it was given", "statement": "Making a ParametricSensitivity, setting its optimal input and predicting change no array that exists, also when they raise. From a set_optimal_input_par that returned until the next one, the predictions of the input and the linear predictions of the output do not change, whatever the program does to its arrays and parameters in between.", "quantifier": "all programs that make arrays, parameters and a ParametricSensitivity whose converter only assigns to the output parameter, all arguments, all histories after set_optimal_input_par", "why_tests_cant": "All ways in which the optimum, the Hessian, the three parameters and the arrays of the caller can share memory, and all later changes.", "anchors": ["LinearResponseVariationalBayes/SparseObjectives.py:ParametricSensitivity.set_optimal_input_par", "LinearResponseVariationalBayes/SparseObjectives.py:ParametricSensitivity.predict_input_par_from_hyperparameters", "LinearResponseVariationalBayes/SparseObjectives.py:ParametricSensitivity.predict_output_par_from_hyperparameters", "LinearResponseVariationalBayes/SparseObjectives.py:ParametricSensitivity.get_dinput_dhyper"]}
{"id": "C121", "title": "Derivatives and Taylor series stay at the base values", "statement": "Making a ParametricSensitivityTaylorExpansion, setting its base values or its order and evaluating derivatives or the Taylor series change no array that exists, also when they raise, and results are new arrays. From a set_base_values that returned until the next set_base_values or set_order, the derivatives of every order and the series do not change, whatever the program does to its arrays and to the values of its parameters in between.", "quantifier": "all programs that make arrays, parameters and a Taylor expansion, all arguments, orders and directions, all histories after set_base_values", "why_tests_cant": "All ways in which the base values, the Hessian, the parameters and the arrays of the caller can share memory, and all later changes.", "anchors": ["LinearResponseVariationalBayes/ModelSensitivity.py:ParametricSensitivityTaylorExpansion.set_base_values", "LinearResponseVariationalBayes/ModelSensitivity.py:ParametricSensitivityTaylorExpansion.set_order", "LinearResponseVariationalBayes/ModelSensitivity.py:ParametricSensitivityTaylorExpansion.evaluate_dkinput_dhyperk", "LinearResponseVariationalBayes/ModelSensitivity.py:ParametricSensitivityTaylorExpansion.evaluate_taylor_series", "LinearResponseVariationalBayes/ModelSensitivity.py:ParametricSensitivityTaylorExpansion.cache_and_eval"]}
{"id": "C122", "title": "Moments of a constant", "statement": "set_from_constant(par) of a UVNMomentParamArray with an array parameter of the same shape succeeds; then e() is the value of par, e_outer() its square, var() zero and e_exp() the exponential of the value. With another shape it raises AssertionError and changes nothing.", "quantifier": "all shapes, values and histories of calls on the moment parameter", "why_tests_cant": "A continuum of values and unboundedly many histories.", "anchors": ["LinearResponseVariationalBayes/NormalParams.py:UVNMomentParamArray.set_from_constant", "LinearResponseVariationalBayes/NormalParams.py:UVNMomentParamArray.var", "LinearResponseVariationalBayes/NormalParams.py:UVNMomentParamArray.e_exp"]}
{"id": "C123", "title": "Progress messages of subset solves", "statement": "get_hinv_vec_subsets(vec, masks, verbose=True, print_every=k) prints a message for every k-th subset, and nothing with verbose=False.", "quantifier": "all numbers of subsets and all k", "why_tests_cant": "Tests do not look at the output, and use few subsets.", "anchors": ["LinearResponseVariationalBayes/ConjugateGradient.py:ConjugateGradientSolver.get_hinv_vec_subsets"]}
{"id": "C124", "title": "A conjugate gradient solver is not changed from outside", "statement": "A ConjugateGradientSolver changes no array of the caller, goes on solving with the Hessian at the point that it was made with, and keeps its recorded masks, vectors and solutions until initialize() is called, whatever the program does with its arrays.", "quantifier": "all programs that make solvers and arrays, call the solver and change arrays in place", "why_tests_cant": "Histories and sharing of memory are unbounded.", "anchors": ["LinearResponseVariationalBayes/ConjugateGradient.py:ConjugateGradientSolver.__init__", "LinearResponseVariationalBayes/ConjugateGradient.py:ConjugateGradientSolver.get_hinv_vec", "LinearResponseVariationalBayes/ConjugateGradient.py:ConjugateGradientSolver.get_hinv_vec_subsets"]}
{"id": "C125", "title": "After repeated optimization the parameter holds the returned point", "statement": "When repeatedly_optimize returns a point, the parameter of the objective holds the numbers that set_free of this point gives, wherever the optimization functions left it.", "quantifier": "all objectives, all optimization functions that do not exchange the objective, with and without an initial optimization, all starting points, tolerances and max_iter", "why_tests_cant": "Tests use optimizers whose last evaluation is at their result, and few iterations.", "anchors": ["LinearResponseVariationalBayes/OptimizationUtils.py:repeatedly_optimize", "LinearResponseVariationalBayes/SparseObjectives.py:Objective.fun_free", "LinearResponseVariationalBayes/SparseObjectives.py:Objective.fun_free_grad"]}
{"id": "C126", "title": "Repeated optimization never makes the objective worse", "statement": "If the optimization functions never return a point with a larger objective value than their starting point, the value at the point returned by repeatedly_optimize is at most the value at init_x.", "quantifier": "all objectives, all such optimization functions (with any state of their own), all starting points, tolerances and max_iter", "why_tests_cant": "It needs an induction over the number of iterations, which is not known in advance.", "anchors": ["LinearResponseVariationalBayes/OptimizationUtils.py:repeatedly_optimize"]}
{"id": "C127", "title": "The logger has the history of a minimization", "statement": "When minimize_objective_bfgs or minimize_objective_trust_ncg returns, with disp=True the logger has exactly the points, in the original space also with preconditioning, and the objective values that the optimizer asked for, in order; they come after the earlier history if init_logger=False and are all of it otherwise; with disp=False nothing is recorded.", "quantifier": "all objectives, all preconditioners, all optimizers (any sequence of requests depending on the answers), all starting points and flags", "why_tests_cant": "The sequence of evaluations of an optimizer depends on the objective and has no bound.", "anchors": ["LinearResponseVariationalBayes/OptimizationUtils.py:minimize_objective_bfgs", "LinearResponseVariationalBayes/OptimizationUtils.py:minimize_objective_trust_ncg", "LinearResponseVariationalBayes/SparseObjectives.py:Logger.log", "LinearResponseVariationalBayes/SparseObjectives.py:Objective.fun_free_cond"]}
{"id": "C128", "title": "Sparse preconditioners work like dense ones", "statement": "With a scipy.sparse.csr_matrix as preconditioner, the preconditioned value, gradient, Hessian and Hessian-vector product, uncondition_x and the minimizers do what they do with the dense matrix that has the same entries.", "quantifier": "all objectives, all csr matrices and their transposes, of all shapes, all points and vectors", "why_tests_cant": "A test uses one matrix; the loops over the compressed arrays depend on the pattern of nonzeros, duplicates and empty rows.", "anchors": ["LinearResponseVariationalBayes/SparseObjectives.py:safe_matmul", "LinearResponseVariationalBayes/SparseObjectives.py:Objective.fun_free_cond", "LinearResponseVariationalBayes/SparseObjectives.py:Objective.fun_free_grad_cond", "LinearResponseVariationalBayes/SparseObjectives.py:Objective.fun_free_hessian_cond", "LinearResponseVariationalBayes/SparseObjectives.py:Objective.fun_free_hvp_cond", "LinearResponseVariationalBayes/SparseObjectives.py:Objective.uncondition_x", "LinearResponseVariationalBayes/OptimizationUtils.py:minimize_objective_bfgs", "LinearResponseVariationalBayes/OptimizationUtils.py:minimize_objective_trust_ncg"]}
{"id": "C129", "title": "Logit-normal expectations in floating point", "statement": "For every mean and positive information of reasonable size, get_e_log_logitnormal in double precision returns finite numbers that differ from the exact quadrature sums only by rounding errors; the integrand is finite and not positive at every finite sample point, however negative or large, although exp overflows there.", "quantifier": "all means, informations, quadrature nodes and weights (up to 2^40 nodes), all library functions exp and log that are faithfully rounded, all summation orders", "why_tests_cant": "The integrand has two cases and products with 0/1 indicators; infinities and NaN appear only at particular magnitudes, and the rounding errors depend on all inputs.", "anchors": ["LinearResponseVariationalBayes/ExponentialFamilies.py:get_e_fun_normal", "LinearResponseVariationalBayes/ExponentialFamilies.py:get_e_log_logitnormal"]}
{"id": "C130", "title": "Logistic expectations in floating point", "statement": "For every y, z_mean, z_sd and every draws or quadrature nodes of reasonable size, get_e_logistic_term and get_e_logistic_term_guass_hermite in double precision return a finite number that differs from the exact value only by rounding errors.", "quantifier": "all observations, draws, nodes and weights (up to 2^40 terms), all faithfully rounded exp, log and log1p, all summation orders", "why_tests_cant": "Overflow and loss of accuracy occur only at particular magnitudes of the draws, and the rounding errors depend on all inputs.", "anchors": ["LinearResponseVariationalBayes/Modeling.py:get_e_logistic_term", "LinearResponseVariationalBayes/Modeling.py:get_e_logistic_term_guass_hermite"]}
{"id": "C131", "title": "Free values of positive definite matrices in floating point", "statement": "In double precision, set_free of a positive definite matrix parameter stores a matrix that is symmetric to the last bit and whose entries differ from the exact ones only by rounding errors, and get_free then returns the free value that was set up to rounding errors, without raising.", "quantifier": "all sizes, lower bounds on the diagonal and free values, all faithfully rounded exp and log, all summation orders", "why_tests_cant": "A test compares a few moderate matrices with a tolerance; the exponential on the diagonal is lost by cancellation only at particular magnitudes, and the error of an entry depends on a whole row of the free value.", "anchors": ["LinearResponseVariationalBayes/MatrixParameters.py:exp_matrix_diagonal", "LinearResponseVariationalBayes/MatrixParameters.py:log_matrix_diagonal", "LinearResponseVariationalBayes/MatrixParameters.py:pack_posdef_matrix", "LinearResponseVariationalBayes/MatrixParameters.py:unpack_posdef_matrix", "LinearResponseVariationalBayes/MatrixParameters.py:PosDefMatrixParam.set_free", "LinearResponseVariationalBayes/MatrixParameters.py:PosDefMatrixParam.get_free"]}
{"id": "C132", "title": "Minimization changes no array of the caller", "statement": "minimize_objective_trust_ncg and minimize_objective_bfgs change neither the starting point nor the preconditioner nor any other array that the caller has, whether they return or raise; the point they return is a new array; and what they return, and the parameter value and logger they leave behind, depend on the arrays only through their contents.", "quantifier": "all programs that make an objective, all optimizers (arbitrary sequences of calls), all starting points, preconditioners and options", "why_tests_cant": "Sharing shows only when some array is changed later; an optimizer may make any number of calls in any order.", "anchors": ["LinearResponseVariationalBayes/OptimizationUtils.py:minimize_objective_trust_ncg", "LinearResponseVariationalBayes/OptimizationUtils.py:minimize_objective_bfgs", "LinearResponseVariationalBayes/SparseObjectives.py:Objective.fun_free", "LinearResponseVariationalBayes/SparseObjectives.py:Logger.log"]}
{"id": "C133", "title": "Repeated optimization compares two different points", "statement": "After each iteration repeatedly_optimize compares the point returned by the optimization function with the point before it, so that x_conv says whether the point moved by less than xtol.", "quantifier": "all objectives, all optimization functions, including those that update their argument in place and return it, all tolerances", "why_tests_cant": "The flag is right for optimization functions that return new arrays and wrong for others; a test uses one optimizer.", "anchors": ["LinearResponseVariationalBayes/OptimizationUtils.py:repeatedly_optimize"]}
{"id": "C134", "title": "Log-normal moments in floating point", "statement": "In double precision e_exp and var_exp of a univariate normal parameter return the mean and the variance of exp(x) under the normal distribution with a small relative error, wherever these are representable.", "quantifier": "all means and variances in range, all faithful implementations of exp", "why_tests_cant": "The variance is a difference of nearly equal numbers for concentrated distributions; whether a test sees the loss depends on the variance it uses.", "anchors": ["LinearResponseVariationalBayes/ExponentialFamilies.py:get_e_lognormal", "LinearResponseVariationalBayes/ExponentialFamilies.py:get_var_lognormal", "LinearResponseVariationalBayes/NormalParams.py:UVNParam.e_exp", "LinearResponseVariationalBayes/NormalParams.py:UVNParam.var_exp"]}
{"id": "C135", "title": "Moment parameters in floating point", "statement": "In double precision the moment parameter set from normal parameters has their variances with a small relative error, never a negative variance, and a finite entropy; set from constants it has variance zero; the entropy of the normal parameters is accurate.", "quantifier": "all shapes, all means and informations in range, all orders of summation", "why_tests_cant": "e2 - e^2 loses the variance when the mean is large; a test with means of order one does not see it.", "anchors": ["LinearResponseVariationalBayes/NormalParams.py:UVNMomentParamArray.set_from_uvn_param_array", "LinearResponseVariationalBayes/NormalParams.py:UVNMomentParamArray.set_from_constant", "LinearResponseVariationalBayes/NormalParams.py:UVNMomentParamArray.entropy", "LinearResponseVariationalBayes/ExponentialFamilies.py:univariate_normal_entropy"]}
{"id": "C136", "title": "Multinoulli entropy in floating point", "statement": "In double precision multinoulli_entropy is finite and not negative for every row of probabilities, zeros included, in particular for those of every free value, and it is the Shannon entropy up to rounding errors.", "quantifier": "all rows of doubles in [0, 1] with at most 2^40 entries, all finite free values, all faithful implementations of log, all orders of summation", "why_tests_cant": "The probabilities may underflow, and the sum of rounded terms may come out with the wrong sign; no sample of rows rules this out.", "anchors": ["LinearResponseVariationalBayes/ExponentialFamilies.py:multinoulli_entropy", "LinearResponseVariationalBayes/SimplexParams.py:constrain_simplex_matrix"]}
{"id": "C137", "title": "Interrupted assignment", "statement": "When set_free or set_vector of a dictionary is interrupted at any point, the parameters in front of some position have their new values, all others have their old values, and the next set_free or set_vector does exactly what it would have done without the interruption.", "quantifier": "all parameters and nested dictionaries, all vectors, all interruption points", "why_tests_cant": "The state depends on the moment at which the interruption arrives, which a test cannot choose.", "anchors": ["LinearResponseVariationalBayes/ParameterDictionary.py:ModelParamsDict.set_free", "LinearResponseVariationalBayes/ParameterDictionary.py:ModelParamsDict.set_vector"]}
{"id": "C138", "title": "Interrupted minimization", "statement": "When a minimization is interrupted at any point, the log of the objective contains only points that were evaluated with the values the function has there, in the order of the calls, with at most one point whose value is missing; and a new minimization that resets the log gives the same result, the same log and the same parameter as if the interrupted one had never happened.", "quantifier": "all objectives, all optimizers that look at the objective through its methods, with and without preconditioner, all interruption points", "why_tests_cant": "Tests run the minimization to its end; there are as many interruption points as steps.", "anchors": ["LinearResponseVariationalBayes/OptimizationUtils.py:minimize_objective_trust_ncg", "LinearResponseVariationalBayes/OptimizationUtils.py:minimize_objective_bfgs", "LinearResponseVariationalBayes/SparseObjectives.py:Logger.log", "LinearResponseVariationalBayes/SparseObjectives.py:Logger.initialize", "LinearResponseVariationalBayes/SparseObjectives.py:Objective.fun_free", "LinearResponseVariationalBayes/SparseObjectives.py:Objective.cache_free_and_eval"]}
{"id": "C139", "title": "Numbers after an interruption", "statement": "When a minimization is interrupted, the parameter holds numbers, so that it can be read and saved.", "quantifier": "all objectives, all optimizers, all interruption points", "why_tests_cant": "Only an interruption within a derivative call shows the placeholders of the differentiation.", "anchors": ["LinearResponseVariationalBayes/OptimizationUtils.py:minimize_objective_trust_ncg", "LinearResponseVariationalBayes/OptimizationUtils.py:minimize_objective_bfgs", "LinearResponseVariationalBayes/SparseObjectives.py:Objective.cache_free_and_eval", "LinearResponseVariationalBayes/SparseObjectives.py:Objective.fun_free_grad"]}
{"id": "C140", "title": "Concurrent evaluations", "statement": "When several threads evaluate the same objective, each call returns the value of the function at its own point, whatever the schedule.", "quantifier": "all objectives, all numbers of threads, all points, all interleavings of the steps of the calls", "why_tests_cant": "A test sees a few schedules; the wrong ones need a switch between the assignment of the parameter and the evaluation.", "anchors": ["LinearResponseVariationalBayes/SparseObjectives.py:Objective.fun_free", "LinearResponseVariationalBayes/SparseObjectives.py:Objective.fun_vector", "LinearResponseVariationalBayes/ParameterDictionary.py:ModelParamsDict.set_free", "LinearResponseVariationalBayes/ParameterDictionary.py:ModelParamsDict.set_vector"]}
{"id": "C141", "title": "Concurrent logging", "statement": "When several threads evaluate the same objective with logging and all calls have returned, the log contains every call once, each point together with its value, and the counter counts all calls.", "quantifier": "all objectives, all numbers of threads, all points, all interleavings of the steps of the calls", "why_tests_cant": "Lost updates and mixed up entries need switches between single statements of the logger.", "anchors": ["LinearResponseVariationalBayes/SparseObjectives.py:Logger.log", "LinearResponseVariationalBayes/SparseObjectives.py:Objective.fun_free"]}
{"id": "C142", "title": "Timer histories", "statement": "After any sequence of tic and toc calls, the recorded time of a name is the reading of the clock at the last toc of that name minus the reading at the last tic before it; a toc raises exactly if no tic came before it, and then records nothing; other names keep their times; the times are not negative if the clock is not set back.", "quantifier": "all sequences of calls, all names, all sequences of clock readings", "why_tests_cant": "A test has a few calls and a clock that goes forward.", "anchors": ["LinearResponseVariationalBayes/SparseObjectives.py:Timer.tic", "LinearResponseVariationalBayes/SparseObjectives.py:Timer.toc"]}
{"id": "C143", "title": "Matrix products and compress do not depend on the storage format", "statement": "safe_matmul of two matrices, each of them dense or sparse by rows or by columns, is the product of the dense matrices, with the same errors; products can be chained; a product of two sparse matrices is sparse. compress gives the same for every format: the entries, without the axes of length one.", "quantifier": "all matrices of all sizes, all formats, all sparse representations (repeated entries, explicit zeros, unsorted columns), both versions of the zero handling of scipy", "why_tests_cant": "The test multiplies a few fixed matrices; the representations that break a loop are not among them.", "anchors": ["LinearResponseVariationalBayes/SparseObjectives.py:safe_matmul", "LinearResponseVariationalBayes/SparseObjectives.py:compress"]}
{"id": "C144", "title": "The printed form shows everything", "statement": "The text of a dictionary of parameters contains the texts of all parameters in it, in order, and two dictionaries that print the same have the same entries with values that print the same.", "quantifier": "all dictionaries, nested to any depth, all names, all ways of printing values", "why_tests_cant": "A test prints a few dictionaries; that two different ones print the same is found by looking for them.", "anchors": ["LinearResponseVariationalBayes/ParameterDictionary.py:ModelParamsDict.__str__", "LinearResponseVariationalBayes/Parameters.py:ScalarParam.__str__", "LinearResponseVariationalBayes/SimplexParams.py:SimplexParam.__str__"]}
{"id": "C145", "title": "Linear response covariances are covariance matrices", "statement": "When the hyperparameter t enters the objective as minus t times the outputs, and the objective has positive curvature at the optimum, get_doutput_dhyper of a ParametricSensitivity returns a symmetric positive semidefinite matrix: every linear combination of the outputs has a nonnegative linear response variance, positive unless the combination is constant to first order.", "quantifier": "all objectives tilted by the outputs, all parameters and converters, all dimensions and all points with positive curvature", "why_tests_cant": "A test evaluates one model; that no combination of outputs ever gets a negative variance is a statement about all of them.", "anchors": ["LinearResponseVariationalBayes/ModelSensitivity.py:ParametricSensitivity.get_doutput_dhyper", "LinearResponseVariationalBayes/ModelSensitivity.py:ParametricSensitivity.set_sensitivity"]}
{"id": "C146", "title": "Linear response is exact for normal posteriors", "statement": "For a normal posterior approximated by a UVNParamVector, with the means as outputs of a ParametricSensitivity and the tilted variational objective: the optimum exists, get_doutput_dhyper at it is exactly the covariance matrix of the posterior, predictions for every new hyperparameter are exactly the new optimum, and the variances of the approximation itself are never larger than those of the posterior.", "quantifier": "all dimensions, means, positive definite information matrices and hyperparameters; all histories of calls on the input; all objective functions that compute the variational objective", "why_tests_cant": "A test compares the two covariances for one matrix up to rounding; the identity holds for every one.", "anchors": ["LinearResponseVariationalBayes/ModelSensitivity.py:ParametricSensitivity", "LinearResponseVariationalBayes/NormalParams.py:UVNParamVector", "LinearResponseVariationalBayes/SparseObjectives.py:ParameterConverter", "LinearResponseVariationalBayes/SparseObjectives.py:TwoParameterObjective"]}
{"id": "C147", "title": "The free parameterization adds no stationary points and loses no directions", "statement": "At every free vector of every parameter and dictionary the columns of free_to_vector_jac are linearly independent. Consequently, with as many free values as vector entries, the gradient of an objective in the free parameterization vanishes exactly where its own gradient vanishes, and at a stationary point with positive definite vector Hessian convert_vector_to_free_hessian returns a positive definite matrix.", "quantifier": "all parameters, dictionaries, nestings, bounds, sizes and free vectors; all twice differentiable objectives", "why_tests_cant": "A test computes the rank at a few points; an optimizer visits arbitrary ones, and one rank deficient point would let it stop at a point that is not stationary.", "anchors": ["LinearResponseVariationalBayes/ParameterDictionary.py:ModelParamsDict.free_to_vector_jac", "LinearResponseVariationalBayes/Parameters.py:ScalarParam.free_to_vector_jac", "LinearResponseVariationalBayes/MatrixParameters.py:PosDefMatrixParam.free_to_vector_jac", "LinearResponseVariationalBayes/SimplexParams.py:SimplexParam.free_to_vector_jac", "LinearResponseVariationalBayes/ProjectionParams.py:SubspaceVectorParam", "LinearResponseVariationalBayes/Parameters.py:convert_vector_to_free_hessian"]}
{"id": "C148", "title": "Moments of arrays of multivariate normals", "statement": "e() and e2() of an MVNArray with two axes are, for every component, the mean and the second moment of the normal distribution with the held mean and the precision of its row, after any history of calls. With three axes e2() is right only for a single row: otherwise it raises ValueError, or uses the precision that belongs to the index on the second axis, with a result of the wrong shape when that axis has length one.", "quantifier": "all sizes, means, positive precisions, lower bounds and histories of calls", "why_tests_cant": "A test compares one array of one size; broadcasting depends on all the sizes.", "anchors": ["LinearResponseVariationalBayes/NormalParams.py:MVNArray.e", "LinearResponseVariationalBayes/NormalParams.py:MVNArray.e2", "LinearResponseVariationalBayes/NormalParams.py:MVNArray.__init__"]}
{"id": "C149", "title": "Local minima over free vectors are local minima over legal values", "statement": "At every free vector of every parameter and dictionary, small changes of the free vector are small changes of the vector and conversely. Hence, for every objective (differentiable or not), a free vector is a local minimizer in the free parameterization exactly when its vector is a local minimizer among the vectors of legal values; with as many free values as vector entries, among all vectors.", "quantifier": "all parameters, dictionaries, nestings, bounds, sizes and free vectors; all objectives", "why_tests_cant": "Being a local minimizer is a statement about all the points of a neighbourhood.", "anchors": ["LinearResponseVariationalBayes/ParameterDictionary.py:ModelParamsDict.free_to_vector", "LinearResponseVariationalBayes/Parameters.py:ScalarParam.free_to_vector", "LinearResponseVariationalBayes/MatrixParameters.py:PosDefMatrixParam.free_to_vector", "LinearResponseVariationalBayes/SimplexParams.py:SimplexParam.free_to_vector", "LinearResponseVariationalBayes/ProjectionParams.py:SubspaceVectorParam"]}
{"id": "C150", "title": "The values reachable through free vectors are exactly the legal values", "statement": "A vector of length vector_size() is free_to_vector(x) for some free vector x exactly when it lists legal values: numbers strictly between the bounds, matrices that stay positive definite when diag_lb is taken off the diagonal, rows of positive numbers that sum to one, vectors of the subspace. The free vector is unique; set_vector with such a vector followed by get_free returns it, and set_free with it leads to the same state. So minimizing over free vectors is minimizing over all legal values.", "quantifier": "all parameters, dictionaries, nestings, bounds, sizes and vectors; for the last part all objectives", "why_tests_cant": "That no legal value is out of reach is a statement about every legal value.", "anchors": ["LinearResponseVariationalBayes/ParameterDictionary.py:ModelParamsDict.free_to_vector", "LinearResponseVariationalBayes/ParameterDictionary.py:ModelParamsDict.set_vector", "LinearResponseVariationalBayes/ParameterDictionary.py:ModelParamsDict.get_free", "LinearResponseVariationalBayes/Parameters.py:ScalarParam.get_free", "LinearResponseVariationalBayes/MatrixParameters.py:PosDefMatrixParam.get_free", "LinearResponseVariationalBayes/SimplexParams.py:SimplexParam.get_free", "LinearResponseVariationalBayes/ProjectionParams.py:SubspaceVectorParam"]}
{"id": "C151", "title": "Interrupted push_param", "statement": "If push_param is interrupted (an exception from a signal handler such as KeyboardInterrupt), the dictionary can still be used, or at least be completed by pushing the parameter again.", "quantifier": "all dictionaries, parameters and points of interruption", "why_tests_cant": "A test would have to interrupt the call between every two assignments.", "anchors": ["LinearResponseVariationalBayes/ParameterDictionary.py:ModelParamsDict.push_param"]}
{"id": "C152", "title": "Conversion Jacobians after a call that raised", "statement": "After a Jacobian call of a ParameterConverter in which the user's converter raised, further Jacobian calls leave the output parameter as it was before, with plain numbers.", "quantifier": "all converters, parameters, points, parameterizations and sequences of calls", "why_tests_cant": "A test would have to look at the values after a failing call that is followed by any number of others.", "anchors": ["LinearResponseVariationalBayes/SparseObjectives.py:ParameterConverter.cache_free_and_eval", "LinearResponseVariationalBayes/SparseObjectives.py:ParameterConverter.cache_vector_and_eval"]}
{"id": "C153", "title": "Predictions approach the optimum at the rate of their order", "statement": "For a smooth objective with positive definite Hessian at the base optimum, there is an optimum at every hyperparameter near the base, and the prediction differs from it by at most a constant times the (k+1)st power of the distance, in every direction with one constant: k = degree for the Taylor series, k = 1 for ParametricSensitivity and the linear approximation, and k = 1 for the outputs that ParametricSensitivity predicts with linear=False (and with linear=True if the output parameter held the output at the optimum when the object was built).", "quantifier": "all smooth objectives, base points, directions, orders and degrees", "why_tests_cant": "An asymptotic rate over all directions cannot be observed at finitely many points.", "anchors": ["LinearResponseVariationalBayes/ModelSensitivity.py:ParametricSensitivityTaylorExpansion.evaluate_taylor_series", "LinearResponseVariationalBayes/ModelSensitivity.py:ParametricSensitivityLinearApproximation.predict_input_par_from_hyperparameters", "LinearResponseVariationalBayes/SparseObjectives.py:ParametricSensitivity.predict_input_par_from_hyperparameters"]}
{"id": "C154", "title": "The sensitivity classes agree to first order", "statement": "ParametricSensitivity, ParametricSensitivityLinearApproximation and the first order of ParametricSensitivityTaylorExpansion, built on the same objective and base point, have the same derivative matrix and make the same predictions.", "quantifier": "all smooth objectives, parameters, base points with positive definite Hessian, new hyperparameters and orders of the expansion", "why_tests_cant": "Tests compare the classes on one model; the agreement is claimed for all.", "anchors": ["LinearResponseVariationalBayes/ModelSensitivity.py:ParametricSensitivityTaylorExpansion", "LinearResponseVariationalBayes/ModelSensitivity.py:ParametricSensitivityLinearApproximation", "LinearResponseVariationalBayes/SparseObjectives.py:ParametricSensitivity"]}
{"id": "C155", "title": "Predictions are exact for quadratic objectives", "statement": "If the objective is quadratic in the input with positive definite quadratic part, coupled to the hyperparameter by a bilinear term, and the base input is a minimizer, then the predicted input is the unique minimizer at every new hyperparameter, for the linear approximation and for the Taylor series of every degree.", "quantifier": "all dimensions, positive definite quadratic parts, couplings, base points, new hyperparameters and degrees", "why_tests_cant": "A test checks a few matrices and steps.", "anchors": ["LinearResponseVariationalBayes/ModelSensitivity.py:ParametricSensitivityLinearApproximation.predict_input_par_from_hyperparameters", "LinearResponseVariationalBayes/ModelSensitivity.py:ParametricSensitivityTaylorExpansion.evaluate_taylor_series"]}
{"id": "C156", "title": "Local Hessians add up to the full Hessian", "statement": "If an objective is a sum of terms, each depending on some entries of the vector or free vector, then computing the Hessian of each term on its own entries, embedding it with get_sparse_sub_hessian and adding up the sparse matrices gives the Hessian of the full objective. The entries of different terms may overlap and an index may repeat.", "quantifier": "all sums of twice continuously differentiable terms, index lists, sizes and points, free or not", "why_tests_cant": "A test assembles one model; the claim is for every way the terms share entries.", "anchors": ["LinearResponseVariationalBayes/SparseObjectives.py:get_sparse_sub_hessian", "LinearResponseVariationalBayes/SparseObjectives.py:make_index_param", "LinearResponseVariationalBayes/SparseObjectives.py:Objective.fun_vector_hessian", "LinearResponseVariationalBayes/SparseObjectives.py:Objective.fun_free_hessian"]}
{"id": "C157", "title": "Grouping parameters into dictionaries changes no vector form", "statement": "Two dictionaries that hold the same parameters in the same order, at whatever depth and under whatever keys, return the same for every sequence of get_free, set_free, get_vector, set_vector and free_to_vector, errors included, and have the same Jacobians and Hessians.", "quantifier": "all pairs of dictionaries of every nesting with the same parameters in order, and all sequences of calls", "why_tests_cant": "Nestings and call sequences are unbounded.", "anchors": ["LinearResponseVariationalBayes/ParameterDictionary.py:ModelParamsDict", "LinearResponseVariationalBayes/Parameters.py:set_free_offset", "LinearResponseVariationalBayes/Parameters.py:get_free_offset", "LinearResponseVariationalBayes/Parameters.py:free_to_vector_jac_offset"]}
{"id": "C158", "title": "Sensitivity to data weights is the influence of each observation", "statement": "If the objective is a function of the input plus a weighted sum of the losses of observations, with the weights as hyperparameter, then the derivative of the input with respect to the weight of an observation is minus the inverse Hessian of the weighted objective times the gradient of the loss of that observation, and the prediction at other weights is the sum of these influences.", "quantifier": "all twice continuously differentiable losses, numbers of observations, weights and base points with positive curvature", "why_tests_cant": "A test looks at one data set; the identity is for all losses and weights.", "anchors": ["LinearResponseVariationalBayes/ModelSensitivity.py:ParametricSensitivityLinearApproximation", "LinearResponseVariationalBayes/SparseObjectives.py:ParametricSensitivity"]}
{"id": "C159", "title": "Sensitivity does not depend on the parameterization", "statement": "Two input parameters that parameterize the same vector in different ways (other bounds, other grouping), each with as many free values as vector entries, the same objective and outputs as functions of the vector and the same stationary vector, give the same derivative of the outputs with respect to the hyperparameters. Likewise linear response covariances computed from the Hessian returned by convert_vector_to_free_hessian at a stationary point equal those computed from the vector Hessian.", "quantifier": "all pairs of such parameters, all smooth objectives and outputs, all stationary points with positive curvature", "why_tests_cant": "A test compares two parameterizations at one point; the claim is for all transforms, objectives and points.", "anchors": ["LinearResponseVariationalBayes/SparseObjectives.py:ParametricSensitivity", "LinearResponseVariationalBayes/Parameters.py:convert_vector_to_free_hessian", "LinearResponseVariationalBayes/Parameters.py:free_to_vector_jac"]}
{"id": "C160", "title": "A failing change of the base values leaves the object as it was", "statement": "If set_base_values or set_optimal_input_par raises, the object afterwards predicts what it predicted before the call.", "quantifier": "all objects of the sensitivity classes, arguments and reasons of failure", "why_tests_cant": "A test fails the call for one reason in one state; the claim ranges over every point at which the call can stop.", "anchors": ["LinearResponseVariationalBayes/ModelSensitivity.py:ParametricSensitivityLinearApproximation.set_base_values", "LinearResponseVariationalBayes/ModelSensitivity.py:ParametricSensitivityTaylorExpansion.set_base_values", "LinearResponseVariationalBayes/SparseObjectives.py:ParametricSensitivity.set_optimal_input_par"]}
{"id": "C161", "title": "More draws approach the exact expectation", "statement": "As the number of draws n grows, the average of a monotone integrable function over get_standard_draws(n) tends to its expectation under the standard normal, and get_e_logistic_term with n standard draws tends to the sum over the observations of the expected logistic log likelihood under the normals with the given means and standard deviations.", "quantifier": "all monotone integrable functions, all observations, means and standard deviations, the limit over all numbers of draws", "why_tests_cant": "A test evaluates finitely many numbers of draws and compares within a tolerance; the claim is about the limit.", "anchors": ["LinearResponseVariationalBayes/Modeling.py:get_standard_draws", "LinearResponseVariationalBayes/Modeling.py:get_e_logistic_term"]}
{"id": "C162", "title": "Without data the best approximation is the prior", "statement": "The expected log prior (uvn_prior, gamma_prior, exponential_prior, dirichlet_prior, mvn_prior) evaluated at the moments of a parameter of the same family plus the entropy of that parameter is bounded by a number that depends on the prior alone, and the bound is attained exactly when the parameter equals the prior.", "quantifier": "all priors, all values the parameters can hold, all shapes", "why_tests_cant": "A test compares finitely many values with the optimum; that the maximum is global, attained and unique is a claim about all of them.", "anchors": ["LinearResponseVariationalBayes/ExponentialFamilies.py:uvn_prior", "LinearResponseVariationalBayes/ExponentialFamilies.py:gamma_prior", "LinearResponseVariationalBayes/ExponentialFamilies.py:exponential_prior", "LinearResponseVariationalBayes/ExponentialFamilies.py:dirichlet_prior", "LinearResponseVariationalBayes/ExponentialFamilies.py:mvn_prior", "LinearResponseVariationalBayes/ExponentialFamilies.py:univariate_normal_entropy", "LinearResponseVariationalBayes/ExponentialFamilies.py:gamma_entropy", "LinearResponseVariationalBayes/ExponentialFamilies.py:dirichlet_entropy", "LinearResponseVariationalBayes/ExponentialFamilies.py:multivariate_normal_entropy", "LinearResponseVariationalBayes/NormalParams.py:UVNParam", "LinearResponseVariationalBayes/NormalParams.py:MVNParam", "LinearResponseVariationalBayes/GammaParams.py:GammaParam", "LinearResponseVariationalBayes/DirichletParams.py:DirichletParamArray"]}
{"id": "C163", "title": "The variational objective bounds the log evidence", "statement": "The expectation of any log likelihood under a multivariate normal parameter q, plus the expected log prior computed by mvn_prior at the moments of q (completed by the constant of the prior density), plus q.entropy(), is at most the log of the integral of the likelihood under the prior, and equals it exactly when q is the posterior. For linear regression the maximum is attained exactly at the mean and information matrix returned by get_posterior_regression_coefficients.", "quantifier": "all priors, all log likelihoods for which both sides exist, all values the parameter can hold; all data, weights and designs for regression", "why_tests_cant": "A test compares the objective at finitely many parameter values; that the bound is global and attained only at the posterior is a claim about all of them and about integrals.", "anchors": ["LinearResponseVariationalBayes/ExponentialFamilies.py:mvn_prior", "LinearResponseVariationalBayes/ExponentialFamilies.py:multivariate_normal_entropy", "LinearResponseVariationalBayes/NormalParams.py:MVNParam", "LinearResponseVariationalBayes/regression_utils.py:get_posterior_regression_coefficients"]}
{"id": "C164", "title": "The log of an objective holds numbers", "statement": "After every history of calls of an objective, the entries of logger.x_array are numbers, not differentiation placeholders.", "quantifier": "all histories of evaluations and derivative calls, with and without a preconditioner, verbose or not, failing or not", "why_tests_cant": "A test runs one history; the claim is an invariant of all of them.", "anchors": ["LinearResponseVariationalBayes/SparseObjectives.py:Objective.fun_free", "LinearResponseVariationalBayes/SparseObjectives.py:Objective.fun_free_grad", "LinearResponseVariationalBayes/SparseObjectives.py:Objective.fun_free_grad_cond", "LinearResponseVariationalBayes/SparseObjectives.py:Logger.log"]}
{"id": "C165", "title": "Concurrent derivative calls leave numbers behind", "statement": "Any number of threads call the value and derivative methods of one objective, at any points and with any user functions. Whatever the schedule, when all calls have returned without raising, every parameter holds a number, not a differentiation placeholder.", "quantifier": "all parameters, all lists of value and derivative calls, all user functions, all interleavings of their atomic steps, arbitrary results of the differentiation", "why_tests_cant": "A test sees the few interleavings that the scheduler happens to produce.", "anchors": ["LinearResponseVariationalBayes/SparseObjectives.py:Objective.fun_free_grad", "LinearResponseVariationalBayes/SparseObjectives.py:Objective.fun_free_hessian", "LinearResponseVariationalBayes/SparseObjectives.py:Objective.fun_free_hvp", "LinearResponseVariationalBayes/SparseObjectives.py:Objective.cache_free_and_eval", "LinearResponseVariationalBayes/SparseObjectives.py:Objective.fun_free"]}
{"id": "C166", "title": "Regression data can be processed in batches", "statement": "When the observations of a regression are split into two parts without common weights, the posterior of the coefficients for the second part, computed with the posterior for the first part as the prior, is the posterior for all observations, and the order of the parts does not matter.", "quantifier": "all batch shapes, all numbers of observations, responses and regressors, all designs, responses and positive semidefinite weights, all prior means and positive definite prior informations", "why_tests_cant": "A test compares a few data sets.", "anchors": ["LinearResponseVariationalBayes/regression_utils.py:get_posterior_regression_coefficients", "LinearResponseVariationalBayes/regression_utils.py:get_nat_params_from_likelihood", "LinearResponseVariationalBayes/regression_utils.py:get_nat_params_from_prior"]}
{"id": "C167", "title": "Sensitivities are polynomial in the direction", "statement": "At an optimum with positive curvature, the k-th derivative of the optimum in a direction, as returned by the Taylor expansion object, is one multilinear map of k directions applied to k copies of the direction. So a multiple of the direction by c gives the derivative multiplied by c to the power k, and first derivatives add.", "quantifier": "all smooth objectives, all base values with positive curvature, all orders, all directions and multiples", "why_tests_cant": "A test evaluates a few directions of one objective.", "anchors": ["LinearResponseVariationalBayes/ModelSensitivity.py:ParametricSensitivityTaylorExpansion.evaluate_dkinput_dhyperk"]}
{"id": "C168", "title": "Errors of subset solves do not accumulate beyond the square root of their number", "statement": "If every conjugate gradient solve has a residual of at most tol times the norm of its right hand side, the sum of the solutions recorded for k masks that partition the indices solves the full system with a residual of at most tol times the square root of k times the norm of the vector, and differs from the exact solution by at most that divided by the smallest eigenvalue.", "quantifier": "all linear operators, tolerances, preconditioners, vectors and partitions, all solvers with that residual", "why_tests_cant": "A test solves a few systems, with solvers that are far more accurate than the tolerance.", "anchors": ["LinearResponseVariationalBayes/ConjugateGradient.py:ConjugateGradientSolver.get_hinv_vec_subsets", "LinearResponseVariationalBayes/ConjugateGradient.py:ConjugateGradientSolver.get_hinv_vec"]}
{"id": "C169", "title": "The accessors of matrix and simplex parameters locate the parts of the value", "statement": "For every position of a vector or an array of matrices the slice returned for that position selects from get_free() the free form and from get_vector() the vector form of the matrix at that position, apply_matrix_function(f) holds f of the matrix at every position, get_vector_indices(row) are the positions of row row in get_vector(), and positions out of range raise. Negative positions of a vector of matrices count from the end, except -1, which selects nothing.", "quantifier": "all shapes, matrix sizes, held values, positions, functions with results of one shape", "why_tests_cant": "A test uses a few small shapes, and square ones do not tell row-major from column-major order.", "anchors": ["LinearResponseVariationalBayes/MatrixParameters.py:PosDefMatrixParamVector.free_obs_slice", "LinearResponseVariationalBayes/MatrixParameters.py:PosDefMatrixParamArray.stacked_obs_slice", "LinearResponseVariationalBayes/MatrixParameters.py:PosDefMatrixParamArray.apply_matrix_function", "LinearResponseVariationalBayes/SimplexParams.py:SimplexParam.get_vector_indices"]}
{"id": "C170", "title": "print_terms shows the terms of the expansion", "statement": "After set_order(order), print_terms(k) prints a heading and one line for every term that the derivative of order k evaluates, all of order k and with positive integer constants; without argument it does so for all orders in turn, for k above the order it raises and for k below one it prints nothing. The text of a term determines its derivatives and its constant.", "quantifier": "all objectives, orders, arguments, ways of printing floats that tell different constants apart", "why_tests_cant": "A test prints one expansion and looks at it, or does not look.", "anchors": ["LinearResponseVariationalBayes/ModelSensitivity.py:ParametricSensitivityTaylorExpansion.print_terms", "LinearResponseVariationalBayes/ModelSensitivity.py:DerivativeTerm.__str__", "LinearResponseVariationalBayes/ModelSensitivity.py:ParametricSensitivityTaylorExpansion.set_order"]}
{"id": "C171", "title": "Sensitivities follow a change of the hyperparameters", "statement": "When an objective is multiplied by a positive constant, written in other hyperparameters, or has a term of the hyperparameters alone added, the sensitivities at an optimum are those of the original objective times the Jacobian of the change of hyperparameters (so that rescaling the objective changes nothing). For affine changes the linear predictions and the Taylor predictions of every order agree, and the sensitivity to some of the hyperparameters consists of the corresponding columns of the sensitivity to all.", "quantifier": "all twice (for expansions: sufficiently often) differentiable objectives, all smooth changes of the hyperparameters, all positive factors, all orders", "why_tests_cant": "A test compares two parameterizations of one objective.", "anchors": ["LinearResponseVariationalBayes/ModelSensitivity.py:ParametricSensitivityLinearApproximation", "LinearResponseVariationalBayes/SparseObjectives.py:ParametricSensitivity", "LinearResponseVariationalBayes/ModelSensitivity.py:ParametricSensitivityTaylorExpansion.evaluate_taylor_series"]}
{"id": "C172", "title": "Regression results do not depend on the coordinates of regressors and observations", "statement": "Replacing the design X by X A with an invertible A and the responses y by y - X b, and the prior accordingly, gives the same posterior and the same coefficients in the new coordinates. The order of the observations does not matter, more generally a linear map of the observations with the corresponding weights (as in whitening) changes nothing. The mean of replicated responses with the weights multiplied by their number gives the same results as the replicates.", "quantifier": "all batch shapes, all numbers of observations, responses and regressors, all designs, responses and positive semidefinite weights, all invertible changes of coordinates, permutations and prior distributions with positive definite information", "why_tests_cant": "A test compares two encodings of one data set, if it does.", "anchors": ["LinearResponseVariationalBayes/regression_utils.py:get_regression_coefficients", "LinearResponseVariationalBayes/regression_utils.py:get_posterior_regression_coefficients", "LinearResponseVariationalBayes/regression_utils.py:get_nat_params_from_likelihood"]}
{"id": "C173", "title": "In conjugate models the best approximation is the exact posterior", "statement": "With gamma priors and Poisson or exponential data, normal priors and normal observations, or Dirichlet priors and multinomial counts, the expected log likelihood at the moments of the approximation plus the prior function plus the entropy method has a maximum. An approximation attains it exactly when it holds the parameters of the exact posterior distribution.", "quantifier": "all shapes and sizes, all prior parameters, all nonnegative counts, exposures, weights and class counts, all observations and all approximations the parameter objects can hold", "why_tests_cant": "A test optimizes one data set and compares the result up to a tolerance.", "anchors": ["LinearResponseVariationalBayes/ExponentialFamilies.py:gamma_prior", "LinearResponseVariationalBayes/ExponentialFamilies.py:uvn_prior", "LinearResponseVariationalBayes/ExponentialFamilies.py:dirichlet_prior", "LinearResponseVariationalBayes/GammaParams.py:GammaParam.entropy", "LinearResponseVariationalBayes/NormalParams.py:UVNParamArray.entropy", "LinearResponseVariationalBayes/DirichletParams.py:DirichletParamArray.entropy"]}
{"id": "C174", "title": "Extra arguments reach the objective function", "statement": "Positional and keyword arguments given to any method of Objective or TwoParameterObjective beyond its own are those the objective function is called with: result and state afterwards are those of the same call, without them, for an objective made from functools.partial(fun, *extra, **kw). Hessian-vector products take the last positional argument as the vector. A call without any argument raises and changes nothing.", "quantifier": "all objective functions, points, vectors, lists of positional and keyword arguments, all methods, with and without verbose", "why_tests_cant": "A test passes one argument to some methods; names that a method uses itself are hit only by functions with such an argument.", "anchors": ["LinearResponseVariationalBayes/SparseObjectives.py:Objective", "LinearResponseVariationalBayes/SparseObjectives.py:Objective.fun_free_hvp", "LinearResponseVariationalBayes/SparseObjectives.py:Objective.fun_free_hvp_cond", "LinearResponseVariationalBayes/SparseObjectives.py:TwoParameterObjective"]}
{"id": "C175", "title": "The mean-field objective bounds the log evidence", "statement": "For multivariate normal, normal, gamma (with gamma or exponential prior) and Dirichlet parameters, the log prior computed at the moments of the parameter, completed by the constant of the prior density, plus the entropy is minus the relative entropy of the distribution the parameter holds with respect to the prior. For any number of such parameters taken as independent, the expected log likelihood plus all log priors plus all entropies is at most the log evidence, and equals it exactly when the product of the distributions is the posterior.", "quantifier": "all priors, all shapes, all values the parameters can hold, all log likelihoods of all variables for which both sides exist", "why_tests_cant": "A test compares the objective at finitely many parameter values; the bound is a claim about all of them and about integrals over product spaces.", "anchors": ["LinearResponseVariationalBayes/ExponentialFamilies.py:mvn_prior", "LinearResponseVariationalBayes/ExponentialFamilies.py:uvn_prior", "LinearResponseVariationalBayes/ExponentialFamilies.py:gamma_prior", "LinearResponseVariationalBayes/ExponentialFamilies.py:exponential_prior", "LinearResponseVariationalBayes/ExponentialFamilies.py:dirichlet_prior", "LinearResponseVariationalBayes/NormalParams.py:MVNParam", "LinearResponseVariationalBayes/NormalParams.py:UVNParamArray", "LinearResponseVariationalBayes/GammaParams.py:GammaParam", "LinearResponseVariationalBayes/DirichletParams.py:DirichletParamArray"]}
{"id": "C176", "title": "A preconditioner computed at a point makes the Hessian there the identity", "statement": "After set_objective_preconditioner at free_par=x0 returns, the point np.linalg.solve(preconditioner, x0) at which the preconditioned minimizations start is the only point that uncondition_x takes to x0, and the eigenvalues of fun_free_hessian_cond there are exactly the Hessian eigenvalues divided by their thresholded values, with the same eigenvectors: the identity when no eigenvalue is moved. One step against the conditioned gradient is the step by the inverse of the third result times the gradient, so for a quadratic objective without thresholds a single unit step ends at the only minimizer from any start.", "quantifier": "all objectives with a twice continuously differentiable function of any number of free parameters, all points, all thresholds for which the call returns, all step lengths", "why_tests_cant": "A test computes the conditioned Hessian of one function at one point up to rounding; the claim is about all functions, points and thresholds.", "anchors": ["LinearResponseVariationalBayes/OptimizationUtils.py:set_objective_preconditioner", "LinearResponseVariationalBayes/OptimizationUtils.py:get_sym_matrix_inv_sqrt", "LinearResponseVariationalBayes/OptimizationUtils.py:minimize_objective_trust_ncg", "LinearResponseVariationalBayes/OptimizationUtils.py:minimize_objective_bfgs", "LinearResponseVariationalBayes/SparseObjectives.py:Objective.fun_free_hessian_cond", "LinearResponseVariationalBayes/SparseObjectives.py:Objective.fun_free_grad_cond", "LinearResponseVariationalBayes/SparseObjectives.py:Objective.uncondition_x"]}
{"id": "C177", "title": "A change of the base values or of the order that was interrupted can be repeated", "statement": "After any history of calls on a ParametricSensitivity, ParametricSensitivityLinearApproximation or ParametricSensitivityTaylorExpansion, each of which returned, raised or was stopped by KeyboardInterrupt at any moment, one call of set_base_values (set_optimal_input_par) that returns puts the object right: derivatives and predictions are those at the new base values. While a stopped set_base_values has not finished, get_dinput_dhyper is the old one. After a stopped set_order an evaluation is right or raises IndexError, never a wrong number, and one set_order that returns makes all orders available.", "quantifier": "all histories of completed, raising and interrupted calls, every moment of interruption, all base values of positive curvature, all orders and directions", "why_tests_cant": "A test would have to raise an exception at every instruction of every call in every history.", "anchors": ["LinearResponseVariationalBayes/ModelSensitivity.py:ParametricSensitivityLinearApproximation.set_base_values", "LinearResponseVariationalBayes/ModelSensitivity.py:ParametricSensitivityTaylorExpansion.set_base_values", "LinearResponseVariationalBayes/ModelSensitivity.py:ParametricSensitivityTaylorExpansion.set_order", "LinearResponseVariationalBayes/ModelSensitivity.py:ParametricSensitivityTaylorExpansion.evaluate_dkinput_dhyperk", "LinearResponseVariationalBayes/ModelSensitivity.py:ParametricSensitivityTaylorExpansion.evaluate_taylor_series", "LinearResponseVariationalBayes/SparseObjectives.py:ParametricSensitivity.set_optimal_input_par"]}
{"id": "C178", "title": "NaN and infinite free values are never turned into other numbers", "statement": "Setting a free value that is NaN stores NaN in that element, whatever the bounds, leaves the other elements as they would be, and makes get_free() raise ValueError; in a simplex it makes the whole row NaN and get_free() returns NaN. An infinite free value stores the bound on its side, finite or infinite, or NaN (plus infinity between two finite bounds; a width that overflows); in a simplex minus infinity stores probability 0 and plus infinity stores NaN in its entry and 0 in the others.", "quantifier": "all legal bounds, arrays and simplexes of any length with NaN or infinite entries anywhere; every floating point arithmetic for NaN, every monotone one with faithful exp and log for infinities", "why_tests_cant": "A test tries one bound pair and one position of the NaN.", "anchors": ["LinearResponseVariationalBayes/Parameters.py:constrain", "LinearResponseVariationalBayes/Parameters.py:unconstrain_array", "LinearResponseVariationalBayes/Parameters.py:unconstrain_scalar", "LinearResponseVariationalBayes/SimplexParams.py:constrain_simplex_matrix", "LinearResponseVariationalBayes/SimplexParams.py:unconstrain_simplex_matrix"]}
{"id": "C179", "title": "The fit of the example notebook is the maximum likelihood estimate", "statement": "In the example notebook eval_objective returns, for every free vector of the right length, a number: minus the weighted log likelihood of the regression with the values it leaves in the dictionary, up to a constant; the assertion on the sign of the determinant never fails. With weights that are not negative, a free vector is a local minimizer exactly when beta solves the weighted normal equations and lambda is the inverse of the weighted covariance of the residuals; then it is a global minimizer, and the only one if the weighted Gram matrix is positive definite. A fit exists exactly when these equations have a solution with positive beta and positive definite lambda.", "quantifier": "all numbers of observations and dimensions, all data and nonnegative weights, all free vectors, after any history of calls", "why_tests_cant": "A test fits one simulated data set from one starting point and looks at the result.", "anchors": ["Example.ipynb:Model.eval_objective", "Example.ipynb:Model.loglik", "LinearResponseVariationalBayes/Parameters.py:ArrayParam", "LinearResponseVariationalBayes/MatrixParameters.py:PosDefMatrixParam", "LinearResponseVariationalBayes/ParameterDictionary.py:ModelParamsDict"]}
{"id": "C180", "title": "The weight sensitivities of the example notebook are the influence function", "statement": "At a fit of the example notebook (weights that are not negative, positive definite weighted Gram matrix) the computation of weight_sens never fails, and its row for an observation holds the influence of that observation on the coefficients: the inverse Gram matrix times the regressors times the residuals, whatever the precision and the parameterization. It is the derivative of the fitted coefficients in the weight of the observation. For weights close enough to those of the fit, and not negative, there is a fit as close to it as wanted. When the weight is changed by t and the model is fitted again, the change of every coefficient is exactly t/(1 + t h) times the prediction, h being the leverage of the observation; in the last cell, where an observation is dropped, the predicted difference is (1 - h) times the actual one. eval_summary returns the coefficients that eval_objective uses at the same free vector.", "quantifier": "all numbers of observations and dimensions, all data and nonnegative weights with a positive definite Gram matrix, all fits and refits, all observations and changes of weight, after any history of calls", "why_tests_cant": "The notebook compares the prediction with one refit for one observation of one simulated data set.", "anchors": ["Example.ipynb:Summary.eval_summary", "Example.ipynb:objective_weights", "Example.ipynb:summary_sens_operator", "Example.ipynb:weight_sens", "Example.ipynb:Model.eval_objective"]}
{"id": "C181", "title": "Derivatives in free and in vector coordinates are related by the Jacobians of the parameters", "statement": "When the user's function depends only on the vector value of the parameter, the gradient and the Jacobian in the free values at x are those in the vector entries at free_to_vector(x), multiplied by the Jacobian that free_to_vector_jac returns at x. For two parameters the same holds for the gradients and the off-diagonal Hessian in all four combinations of free values and vector entries. For a conversion, the Jacobians that start from free values are those that start from vectors times the Jacobian of the input parameter, and the Jacobians of the vector output are the Jacobian of the output parameter times those of the free output.", "quantifier": "all parameters and dictionaries that the constructors and push_param build, all smooth functions, all points of the right length, all combinations of the free flags", "why_tests_cant": "A test compares the two sides at one point for one parameter; the relation couples two traces of the same user code with the derivatives of every constraint in the tree.", "anchors": ["LinearResponseVariationalBayes/SparseObjectives.py:Objective.fun_free_grad", "LinearResponseVariationalBayes/SparseObjectives.py:Objective.fun_free_jacobian", "LinearResponseVariationalBayes/SparseObjectives.py:TwoParameterObjective", "LinearResponseVariationalBayes/SparseObjectives.py:ParameterConverter", "LinearResponseVariationalBayes/ParameterDictionary.py:ModelParamsDict.free_to_vector_jac"]}
{"id": "C182", "title": "The messages of repeated optimization tell why it stopped", "statement": "disp changes nothing about what repeatedly_optimize does or returns, and with disp=False it prints nothing. With disp=True it prints a heading for the initial optimization, if there is one, and for every iteration its number and, when it is complete, the distance moved, the change of the value and the size of the gradient at the new point. When the call returns, the numbers of the last line are those from which the returned flags are computed, and in all lines before it no number is below its tolerance; the sums of the printed differences bound the distance of the returned point from the start and the change of the value. When the call raises during an iteration, the last line names that iteration.", "quantifier": "all objectives, optimization functions that do not exchange the objective, starting points, tolerances and numbers of iterations; all ways in which the call can end", "why_tests_cant": "A test reads the output of one run; the statement is about every run and every point at which an exception can end it.", "anchors": ["LinearResponseVariationalBayes/OptimizationUtils.py:repeatedly_optimize"]}
{"id": "C183", "title": "The order in which parameters are pushed only permutes the vectors", "statement": "Two dictionaries that hold the same parameters under the same keys, pushed in different orders, have the same sizes, and one fixed permutation of the indices turns every free vector (or vector) of the one into the one of the other that holds the same numbers under every key. set_free and set_vector with such vectors leave the same parameters under every key, and free_to_vector, get_vector and get_free return vectors that hold the same numbers under every key. Objectives whose functions look up parameters by key have the same values at such vectors, or raise the same exception; their gradients and Hessian-vector products hold the same numbers under every key, and the Hessians are related by the permutation. A ParametricSensitivity whose functions look up parameters by key gives the same get_doutput_dhyper for both, and get_dinput_dhyper and the predicted inputs hold the same numbers under every key. The same holds for ParametricSensitivityLinearApproximation, and for all derivatives and Taylor series of ParametricSensitivityTaylorExpansion. All of this also holds when dictionaries are nested and the orders differ at several levels, for functions that look up nested entries by their keys.", "quantifier": "all dictionaries built by pushing parameters and dictionaries under distinct names, with any calls in between; all orders; all vectors; all smooth objectives and converters that read by key, at optima of positive curvature", "why_tests_cant": "There are as many orders as permutations; a test compares two orders of one dictionary at one vector.", "anchors": ["LinearResponseVariationalBayes/ParameterDictionary.py:ModelParamsDict.push_param", "LinearResponseVariationalBayes/ParameterDictionary.py:ModelParamsDict.free_indices_dict", "LinearResponseVariationalBayes/SparseObjectives.py:ParametricSensitivity"]}
{"id": "C184", "title": "Sensitivities depend on the objective only through its optima", "statement": "Let two objectives have the same stationary points near an optimum, with positive curvature there. ParametricSensitivity, the linear approximation and the Taylor expansion built from the one and from the other return the same derivatives, predictions and Taylor series. In particular an objective may be put on another strictly increasing scale, which may differ for each value of the hyperparameter: a positive multiple, normalizing terms that depend only on the hyperparameter, the exponential.", "quantifier": "all pairs of smooth objectives with the same stationary points near the base values, all parameters, hyperparameter functors, directions, orders and new hyperparameters; all strictly increasing rescalings", "why_tests_cant": "Two objectives can be compared at finitely many hyperparameters; the claim is about every pair of objectives with the same optima.", "anchors": ["LinearResponseVariationalBayes/SparseObjectives.py:ParametricSensitivity", "LinearResponseVariationalBayes/ModelSensitivity.py:ParametricSensitivityLinearApproximation", "LinearResponseVariationalBayes/ModelSensitivity.py:ParametricSensitivityTaylorExpansion"]}
{"id": "C185", "title": "The variational fit of a linear regression has one solution, the posterior", "statement": "For linear regression with known weights and a normal prior, the expected log likelihood can be computed from the natural parameters of get_nat_params_from_likelihood and the moments e() and e_outer() of an MVNParam q: up to a number that is the same for every q, it is the expectation of -0.5 * (y - x beta)' info (y - x beta) under q. The sum of it, of mvn_prior at the moments of q and of q.entropy(), as a function of the free vector passed to set_free, has exactly one maximizer, and set_free at it leaves the mean and the information matrix that get_posterior_regression_coefficients returns, whenever min_info allows them.", "quantifier": "all sizes, responses, regressors, positive semidefinite weights and positive definite priors without batch dimensions; all histories of calls on the parameter; all free vectors", "why_tests_cant": "The claim compares the objective at one free vector with its value at every other one.", "anchors": ["LinearResponseVariationalBayes/regression_utils.py:get_nat_params_from_likelihood", "LinearResponseVariationalBayes/regression_utils.py:get_posterior_regression_coefficients", "LinearResponseVariationalBayes/NormalParams.py:MVNParam", "LinearResponseVariationalBayes/ExponentialFamilies.py:mvn_prior"]}
{"id": "C186", "title": "Calls that raised or were stopped do not change the results of later calls", "statement": "After any history of calls on an Objective, a TwoParameterObjective or a ParameterConverter, each of which returned, raised or was stopped by KeyboardInterrupt at any moment, every value, derivative and conversion is what it would be on the object as it was at first: the same numbers or the same exception. When the call returns, the parameters are also in the same state; only the Jacobian of a conversion puts back whatever vector the output parameter had before it. For conversions the user's converter overwrites the output parameter, and a Jacobian needs an output parameter that can be read.", "quantifier": "all parameters, user functions, points, parameterizations, histories of calls and moments of interruption; while the converter of the user runs the output parameter may hold anything", "why_tests_cant": "The claim ranges over all histories and all moments at which a call can be stopped.", "anchors": ["LinearResponseVariationalBayes/SparseObjectives.py:Objective", "LinearResponseVariationalBayes/SparseObjectives.py:TwoParameterObjective", "LinearResponseVariationalBayes/SparseObjectives.py:ParameterConverter"]}
{"id": "C187", "title": "Threads that share a two-parameter objective or a converter leave numbers behind", "statement": "When several threads call the value and derivative methods of one TwoParameterObjective, or the conversions and Jacobians of one ParameterConverter, then, once all calls have returned without raising, all parameters involved hold numbers, not differentiation placeholders, however the calls were interleaved. A thread that runs alone does what the method does.", "quantifier": "all parameters, points, parameterizations, objective functions and converters, any number of threads and all interleavings of their steps", "why_tests_cant": "The number of interleavings is unbounded, and a test cannot choose them; the harmful one for converters needs one thread to read the output between two steps of another.", "anchors": ["LinearResponseVariationalBayes/SparseObjectives.py:TwoParameterObjective.cache_and_eval", "LinearResponseVariationalBayes/SparseObjectives.py:TwoParameterObjective.eval_fun", "LinearResponseVariationalBayes/SparseObjectives.py:ParameterConverter.cache_free_and_eval", "LinearResponseVariationalBayes/SparseObjectives.py:ParameterConverter.cache_vector_and_eval"]}
{"id": "C188", "title": "Concurrent conversions, predictions and two-parameter evaluations return their own results", "statement": "When several threads call the conversions of one ParameterConverter, predict_output_par_from_hyperparameters of one ParametricSensitivity, or the value methods of one TwoParameterObjective, each call that returns has returned the result for its own arguments, however the calls were interleaved.", "quantifier": "all parameters, converters, objective functions and points, any number of threads and all interleavings of their steps", "why_tests_cant": "The number of interleavings is unbounded, and a test cannot choose them; the harmful ones need one call to run between two particular steps of another.", "anchors": ["LinearResponseVariationalBayes/SparseObjectives.py:ParameterConverter.converter_free_to_vec", "LinearResponseVariationalBayes/SparseObjectives.py:ParameterConverter.converter_vec_to_vec", "LinearResponseVariationalBayes/SparseObjectives.py:ParametricSensitivity.predict_output_par_from_hyperparameters", "LinearResponseVariationalBayes/SparseObjectives.py:TwoParameterObjective.eval_fun"]}
{"id": "C189", "title": "Predictions are exact when the optimum is a polynomial in the hyperparameter", "statement": "If near the base hyperparameter the optimum is a polynomial in the hyperparameter, then evaluate_taylor_series(d, max_order=k) is the value of that polynomial at the base hyperparameter plus d, for every d, near or far, and every k from the degree of the polynomial to the declared order. If it is an affine function, predict_input_par_from_hyperparameters of the linear approximation is the value of that function at every new hyperparameter.", "quantifier": "all smooth objectives with positive curvature, all polynomial optima, directions of every length, orders and degrees", "why_tests_cant": "The claim is about all objectives, all directions and all orders; a test sees a few points of one objective, up to rounding.", "anchors": ["LinearResponseVariationalBayes/ModelSensitivity.py:ParametricSensitivityTaylorExpansion.evaluate_taylor_series", "LinearResponseVariationalBayes/ModelSensitivity.py:ParametricSensitivityLinearApproximation.predict_input_par_from_hyperparameters"]}
{"id": "C190", "title": "The declared order does not change the terms of lower order", "statement": "Two Taylor expansions with the same base values and different declared orders, also after set_order and any other calls that keep the base values, return the same derivatives evaluate_dkinput_dhyperk(d, k) and the same series evaluate_taylor_series(d, add_offset, max_order=k) for every k up to the smaller order.", "quantifier": "all smooth objectives with an optimum of positive curvature at the base values, all pairs of orders, directions, degrees and histories of calls that keep the base values", "why_tests_cant": "The histories and orders are unbounded, and the generated terms are different objects for every order.", "anchors": ["LinearResponseVariationalBayes/ModelSensitivity.py:ParametricSensitivityTaylorExpansion.set_order", "LinearResponseVariationalBayes/ModelSensitivity.py:ParametricSensitivityTaylorExpansion.evaluate_dkinput_dhyperk", "LinearResponseVariationalBayes/ModelSensitivity.py:ParametricSensitivityTaylorExpansion.evaluate_taylor_series"]}
{"id": "C191", "title": "Hessian-vector products are linear and symmetric operators", "statement": "For a twice continuously differentiable objective, fun_free_hvp, fun_vector_hvp and fun_free_hvp_cond at a point are linear in the vector (the product of s u + t v is s times the product of u plus t times the product of v), and the inner product of v with the product of u equals the inner product of u with the product of v. The conditioned product has these properties for every preconditioner, symmetric or not, square or not; if the columns of the preconditioner are independent and the products at the unconditioned point have positive inner products with their vectors, so have the conditioned products.", "quantifier": "all objectives that compute a twice continuously differentiable function, all points, pairs of vectors, coefficients and preconditioners", "why_tests_cant": "The conjugate gradient and trust-region solvers rely on this for all vectors at all points; a test sees a few vectors of one objective, up to rounding.", "anchors": ["LinearResponseVariationalBayes/SparseObjectives.py:Objective.fun_free_hvp", "LinearResponseVariationalBayes/SparseObjectives.py:Objective.fun_vector_hvp", "LinearResponseVariationalBayes/SparseObjectives.py:Objective.fun_free_hvp_cond"]}
{"id": "C192", "title": "Jacobians of chained converters multiply", "statement": "For two parameter converters used one after the other, in any parameterizations, the product of the Jacobian the second returns at the converted point and the Jacobian the first returns is the Jacobian of the chain. The transposed Jacobian a converter returns, times the gradient an objective returns at the converted point, is the gradient of the objective as a function of the input of the converter.", "quantifier": "all converters that assign the output parameter a differentiable function of the input, all objectives, parameterizations, sizes and points", "why_tests_cant": "The claim is about all pairs of converters and all points; finite differences on a few are approximate.", "anchors": ["LinearResponseVariationalBayes/SparseObjectives.py:ParameterConverter.free_to_free_jacobian", "LinearResponseVariationalBayes/SparseObjectives.py:ParameterConverter.vec_to_vec_jacobian", "LinearResponseVariationalBayes/SparseObjectives.py:Objective.fun_free_grad"]}
{"id": "C193", "title": "The free diagonal of a positive definite matrix is half its log determinant", "statement": "After set_free(x) of a positive definite matrix parameter, whatever was done with it before, the determinant of the matrix minus diag_lb times the identity is the exponential of twice the sum of the entries of x at the places i (i + 3) / 2, and no other entry of x changes it. Conversely, when a symmetric matrix is packed, these entries add up to half the logarithm of that determinant. Without a lower bound, the entropy of the multivariate normal whose information matrix is set from x is n / 2 (1 + log 2 pi) minus the sum of these entries.", "quantifier": "all sizes, lower bounds, initial values, histories of operations and free vectors; all symmetric matrices that can be packed", "why_tests_cant": "The identity must hold at every point of the free space for every size, a test compares a few determinants up to rounding.", "anchors": ["LinearResponseVariationalBayes/MatrixParameters.py:unpack_posdef_matrix", "LinearResponseVariationalBayes/MatrixParameters.py:pack_posdef_matrix", "LinearResponseVariationalBayes/MatrixParameters.py:PosDefMatrixParam.set_free", "LinearResponseVariationalBayes/ExponentialFamilies.py:multivariate_normal_entropy"]}
{"id": "C194", "title": "Free values of a simplex are log ratios to the first entry of the row", "statement": "After set_free(x) of a simplex parameter with r rows and c columns, whatever was done with it before, the first entry of row i is 1 / (1 + the sum of the exponentials of the free values of row i), and entry j + 1 is the exponential of the free value at place i (c - 1) + j times the first entry. Rows are independent: row i depends on the free values of row i only. Conversely get_free(), whenever it returns, has at place i (c - 1) + j the logarithm of the ratio of entry j + 1 of row i to its first entry.", "quantifier": "all numbers of rows and columns, initial values, histories of operations, free vectors and held values", "why_tests_cant": "Which free value belongs to which entry must be right for every shape, and the values for every point; tests use one shape.", "anchors": ["LinearResponseVariationalBayes/SimplexParams.py:constrain_simplex_matrix", "LinearResponseVariationalBayes/SimplexParams.py:unconstrain_simplex_matrix", "LinearResponseVariationalBayes/SimplexParams.py:SimplexParam.set_free", "LinearResponseVariationalBayes/SimplexParams.py:SimplexParam.get_free"]}
{"id": "C195", "title": "Free values of a subspace vector are orthonormal coordinates", "statement": "For a subspace vector, whatever was done with it before, the inner product of the vectors held after set_free(x) and after set_free(y) is the inner product of x and y, so that distances in the free space are distances between the held vectors. For every vector that is set, the sum of squares of get_free() is at most that of the vector, and equal exactly when the vector satisfies the constraints.", "quantifier": "all dimensions, constraint matrices that the constructor accepts, initial values, histories of operations and vectors; every eigendecomposition that satisfies the contract of numpy.linalg.eigh", "why_tests_cant": "Isometry is a statement about all pairs of vectors for all constraint matrices, up to rounding in any test.", "anchors": ["LinearResponseVariationalBayes/ProjectionParams.py:SubspaceVectorParam.set_free", "LinearResponseVariationalBayes/ProjectionParams.py:SubspaceVectorParam.get_free", "LinearResponseVariationalBayes/ProjectionParams.py:get_perpendicular_subspace"]}
{"id": "C196", "title": "Averages of legal values are legal, and convex objectives have no spurious minima", "statement": "For any parameter or dictionary, the weighted average of the vectors of two free vectors is the vector of exactly one free vector: set_vector of the average succeeds, and get_free() then returns it. Hence, for an objective that is convex as a function of the constrained vector, every local minimizer in the free parameterization is a global minimizer, every point where the free gradient vanishes is one (simplexes and subspaces included), and a strictly convex objective has at most one local minimizer, although the objective need not be convex in the free vector. In particular, when fun_free_grad(x) of such an objective returns zeros, or fun_free_grad_cond(x) does and the columns of the preconditioner span the free vectors, no free vector has a smaller fun_free.", "quantifier": "all parameters and nested dictionaries of all types, all pairs of free vectors, weights between 0 and 1, all convex objectives, differentiable or not for local minimizers", "why_tests_cant": "The statements range over all pairs of points and all convex objectives; a run of an optimizer from a few starts cannot show that there is no other minimum.", "anchors": ["LinearResponseVariationalBayes/Parameters.py:ScalarParam.set_free", "LinearResponseVariationalBayes/MatrixParameters.py:PosDefMatrixParam.set_free", "LinearResponseVariationalBayes/SimplexParams.py:SimplexParam.set_free", "LinearResponseVariationalBayes/ParameterDictionary.py:ModelParamsDict.free_to_vector", "LinearResponseVariationalBayes/ParameterDictionary.py:ModelParamsDict.set_vector", "LinearResponseVariationalBayes/SparseObjectives.py:Objective.fun_free_grad", "LinearResponseVariationalBayes/SparseObjectives.py:Objective.fun_free_grad_cond"]}
{"id": "C197", "title": "At a stationary point the covariances of the two parameterizations agree", "statement": "At a point where fun_vector_grad returns zeros, fun_free_hessian is the vector Hessian between the Jacobian of free_to_vector_jac and its transpose. If the vector Hessian is positive definite there, so is the free Hessian, and when there are as many free values as vector entries its inverse between the Jacobian and its transpose (the delta method) is the inverse of the vector Hessian.", "quantifier": "all parameters and nested dictionaries, all objectives of the vector value that are smooth at the legal values, all stationary points", "why_tests_cant": "Relates three methods at every stationary point of every objective; tests compare them for one objective and one parameter.", "anchors": ["LinearResponseVariationalBayes/SparseObjectives.py:Objective.fun_free_hessian", "LinearResponseVariationalBayes/SparseObjectives.py:Objective.fun_vector_hessian", "LinearResponseVariationalBayes/SparseObjectives.py:Objective.fun_vector_grad", "LinearResponseVariationalBayes/ParameterDictionary.py:ModelParamsDict.free_to_vector_jac", "LinearResponseVariationalBayes/Parameters.py:convert_vector_to_free_hessian"]}
