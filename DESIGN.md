# A Lean 4 model of LinearResponseVariationalBayes.py

This file says what is modelled, how each property of `properties.jsonl` is
proved, and what has to be trusted.  It was written before the proofs and is
kept current.

## 1. Layout

| directory | content |
|---|---|
| `lean/Verif/Model/*.lean` | the model: one Lean definition per Python function, each citing file and lines |
| `lean/Verif/Spec/*.lean`  | small specifications written without reference to the model (what a Jacobian is, a partition, a Cholesky factor, ...) |
| `lean/Verif/Lemmas/*.lean` | helper lemmas |
| `lean/Verif/Props/*.lean` | the property theorems `Cxx_...`, each next to an `example` meeting its hypotheses |

Counterexamples to properties that the code does not have are stated as
theorems named `Cxx_..._counterexample` (or `_fails`), together with a `Cxx_..._partial`
theorem saying what does hold.

## 2. Modelling decisions

* **Numbers.**  Floats are modelled by exact real numbers: rounding and
  overflow are *not* modelled, except in `Model/Round`, `RoundLogistic`, `RoundPosDef` and `RoundNormal` (C108-C114, C129-C131, C134-C136): there the bound and simplex transforms,
  the packing of matrices, the logistic expectations, the log-normal moments, the moment parameters and the entropies of normal and multinoulli distributions are modelled again with the result of every operation rounded.  The theorems
  about it hold for every arithmetic that meets `FloatContract` or for IEEE double precision (`Binary64`,
  rounding to nearest, subnormals, overflow), with arbitrary faithful `exp` and `log`.  The sign of zero is
  not modelled.  Elsewhere the scalar bound transforms are modelled over
  `Flt` = finite real | +inf | -inf | NaN with IEEE rules for infinities and
  NaN, because there the non-finite cases are reached by legal calls.
  Elsewhere values are finite reals, and a numpy operation which would produce
  an infinity or NaN gives the model outcome `PyErr.nonFinite`, which is no
  Python exception but a marker "the model stops here"; every theorem says
  whether it can occur.
* **Arrays** are `Arr` = shape + row-major list of entries.
* **Exceptions** are values: `Except PyErr`.  A method that mutates the object
  returns the new object together with the error, if any, so that the state
  after a failing call is part of the model.
* **Interruptions** (`KeyboardInterrupt` and other asynchronous exceptions) are modelled in `Model/Interrupt` for
  `set_free`, `set_vector`, the logger, the methods of `Objective` and the minimizers (C137-C139), and in
  `Model/InterruptSens` for the sensitivity objects (C177), `Model/InterruptTwo` for two-parameter objectives and converters (C186): each call is the list of the states it goes through.  Assigning an attribute and appending to a list are single steps.
* **Threads** are modelled in `Model/Threads` for `fun_free` and `fun_vector` (C140, C141): assigning or reading an attribute,
  appending to a list and `set_free` of a single parameter are atomic steps, the user function reads one parameter at a
  time, and schedules are arbitrary.  Derivative calls in threads are modelled in
  `Model/ThreadsDeriv` (C165), where what autograd computes from the mixed placeholders is arbitrary, and in
  `Model/ThreadsTwo` for two-parameter objectives and converters (C187).
* **autograd** is modelled by its contract: `grad`, `jacobian`, `hessian`,
  `make_jvp` return exact derivatives (Mathlib `deriv`/`fderiv`).  The one
  side effect modelled is that, while tracing, parameters are overwritten by
  tracing placeholders (`ArrayBox`), recorded by the flag `boxed`.
* **scipy/numpy linear algebra** (`cholesky`, `eigh`, `solve`, `inv`, `cg`,
  `cho_solve`) is modelled by its mathematical contract.  Where the result is
  not unique (`eigh`) theorems quantify over every result that satisfies the contract.
* **Sharing.**  Two models of the parameter classes: in `Model/Leaf` and `Model/Dict` every parameter holds
  its own value; in `Model/Heap` arrays are references to memory cells, parameters and dictionaries are
  objects with identity, and programs may share both.  C105 proves that the second does what the first says
  whenever no object occurs twice; C100-C107 say what is shared.  Nesting depth is bounded by Python's
  recursion limit, an arbitrary number in the theorems.  `Model/HeapObj` does the same for `Objective` and
  `Logger` (C115, C116), `Model/HeapTwo` for `TwoParameterObjective` and `ParameterConverter` (C117, C118;
  the user's converter is there any program that only assigns to the output parameter), `Model/HeapSens` for
  `ParametricSensitivityLinearApproximation` (C119), `Model/HeapPSens` for `ParametricSensitivity` (C120),
  `Model/HeapTaylor` for `ParametricSensitivityTaylorExpansion` (C121), `Model/HeapCg` for `ConjugateGradientSolver`
  (C124), `Model/HeapOpt` for `OptimizationUtils.py` (C132, C133; scipy passes a new array to every call).
  Taylor expansions and expectations are only modelled on values.
* **Optimizers** (`scipy.optimize.minimize`, user supplied callables) are arbitrary functions.

## 3. Trusted base

* Lean's kernel.
* The axioms `propext`, `Classical.choice` and `Quot.sound`, and no others.
  `AXIOMS.txt` lists them for every property theorem; it is the output of
  `lake env lean --stdin < ../tools/axioms.txt` in `lean/`.
* The definitions of Mathlib used in statements (`deriv`, `fderiv`, Lebesgue measure,
  Gaussian, gamma and beta densities, `Matrix.PosDef`, ...).
* The reading of the Python source recorded in the comments of `lean/Verif/Model`.
* The contracts assumed of the libraries, stated in `Model` and `Spec`:
  `eigh` (`EighContract`), `cholesky`, `solve`, `inv`, `slogdet` (the mathematical functions,
  raising `LinAlgError` when there is no result), autograd (exact derivatives).
* For C108-C113 `FloatContract` (`Spec/Round.lean`): representable results are exact, rounding is monotone and
  odd, `np.exp` and `np.log` are faithful, `np.exp` returns 0 up to half of the smallest number, `np.sum` of
  nonnegative numbers is not below any of them, and not above their number when none exceeds 1.
  `Binary64.contract` proves that double precision with correctly rounded `exp` and `log` and summation from
  left to right meets it.
* `np.matmul` and the sums inside of `np.linalg.cholesky` (`Model/RoundPosDef`) add in an arbitrary order, like
  `np.sum`; the Cholesky factor is computed column by column.  C131 uses `AccurateSum`, and one counterexample
  `SmallSums` (sums of at most two numbers have one rounding).
* For C129 and C130 also `Log1pContract` (`np.log1p` is faithful) and `AccurateSum` (`np.sum` of `n` doubles has the
  usual error bound of `n` rounded additions, `Spec/RoundLogistic.lean`); `Binary64.ideal_accurateSum` proves it of
  summation from left to right.

## 4. What is modelled and what is not

| source file | modelled | not modelled |
|---|---|---|
| `Parameters.py` | all functions and classes (`Model/Bounds`, `Leaf`, `Dict`, `Export`, `Heap`; bounds also with rounding in `Round`) | |
| `MatrixParameters.py` | all (`Model/Ld`, `Leaf`, `Access`; packing also in `Round`, the positive definite transforms also in `RoundPosDef`) | |
| `SimplexParams.py` | all (`Model/Simplex`, `Leaf`, `Access`; the transforms also in `Round`) | |
| `ProjectionParams.py` | all (`Model/Subspace`) | |
| `ParameterDictionary.py` | all (`Model/Dict`, `Export`, `Heap`) | |
| `SparseObjectives.py` | `Objective`, `Logger` (also with references in `Model/HeapObj`), `TwoParameterObjective`, `ParameterConverter` (also with references in `Model/HeapTwo`), `ParametricSensitivity` (`Model/Sensitivity`, `HeapPSens`), `verbose=True` in derivative methods (`Model/Verbose`), positional and keyword arguments (`Model/CallArgs`), sparse packing, `make_index_param`, the inverse square root, sparse preconditioners, `safe_matmul` and `compress` (`Model/SparsePrecond`, `SparseProduct`), `Timer` (`Model/Timer`) | the deprecated `get_sym_matrix_inv_sqrt`, whose body raises |
| `ModelSensitivity.py` | all (`Model/Sensitivity`, `Taylor`; `ParametricSensitivityLinearApproximation` and `ParametricSensitivityTaylorExpansion` also with references in `Model/HeapSens`, `HeapTaylor`; interrupted calls in `Model/InterruptSens`) | |
| `ConjugateGradient.py` | all (`Model/ConjugateGradient`, with references and messages `Model/HeapCg`); `scipy.sparse.linalg.cg` is any function, an exact solve where that is a hypothesis | |
| `OptimizationUtils.py` | all, over an arbitrary optimizer (`Model/OptUtils`, with references `HeapOpt`, with messages `OptPrint`) | how numbers are printed |
| `ExponentialFamilies.py` | all (`Model/ExpFam`; the logit-normal expectations also in `RoundLogistic`, the log-normal moments and two entropies in `RoundNormal`) | |
| `NormalParams.py`, `GammaParams.py`, `WishartParams.py`, `DirichletParams.py` | all (`Model/Families`) | |
| `Modeling.py` | all that is not commented out (`Model/Modeling`; the logistic terms also in `RoundLogistic`) | |
| `regression_utils.py` | all (`Model/Regression`) | |
| `Example.ipynb` | the parameters, the class `Model` (`Model/Example`), the class `Summary` and the weight sensitivities (`Model/ExampleSens`) | data simulation, the optimizer, the plots and the printed text |

`__str__` of the parameter classes is in `Model/Print`; what is printed for a number or an array is an arbitrary function there.  `__str__` of `DerivativeTerm` and `print_terms` are in `Model/PrintTerms`.

Not modelled anywhere: floating point rounding and overflow outside of the functions in `Model/Round`, `RoundLogistic`, `RoundPosDef` and `RoundNormal`; autograd's tracing, apart from the placeholders it leaves in parameters;
general numpy
broadcasting (only the patterns each function uses); wall-clock time; the other notebooks and the tests.

## 5. Plan per property

| id | model and proof |
|---|---|
| C01-C04, C06, C07 | `constrain`, `unconstrain`, `unconstrain_scalar/array` over `Flt`; case split on the four bound configurations; `Real.exp`/`log` lemmas |
| C05 | `get_inbounds_value`; false for e.g. lb=1.2, ub=2.1: counterexample, plus exact characterisation as partial |
| C08 | `HasDerivAt` of the four closed forms; COO matrices as triple lists |
| C09-C12 | `Leaf` parameter objects with `setFree/getFree/setVector/getVector/set`; C11 fails for `ScalarParam`, C12 fails for `PosDefMatrixParamVector/Array` and `VectorParam`: counterexamples |
| C13 | `ravel_multi_index`, `itertools.product`; induction on the shape |
| C14-C18 | triangular index arithmetic over `Nat` |
| C19-C20 | existence and uniqueness of Cholesky factors proved by induction on the size; `cholesky` is the (unique) factor |
| C21 | invariant by induction over operation lists |
| C22-C23 | block arithmetic, derivative of each block |
| C24 | constructor outcome; default constructor of `PosDefMatrixParamArray` raises: counterexample |
| C25-C29 | softmax calculus over `Finset.sum`; list index arithmetic |
| C30-C32 | linear algebra over `Matrix`, for every eigendecomposition |
| C33-C40, C43 | mutual inductive `Param` (leaf or dictionary, nested), structural induction |
| C37, C38 | false: counterexamples; partial under distinct names / no later extension |
| C41 | second-order chain rule along coordinates |
| C42 | effect of each derivative method on the `boxed` flag; false for scalar and single-matrix parameters |
| C44, C45, C47-C50 | state machines over call histories; C45 and C50 are false in general |
| C46, C51 | Fréchet derivatives of compositions with linear maps, implicit differentiation |
| C52-C59 | `DerivativeTerm` and the term algebra as data; induction on the order; directional derivatives |
| C54, C57, C58 | false: counterexamples; C57 for `set_base_values` at every order, by comparing with the objective changed by a quadratic polynomial |
| C60-C64 | lists of booleans; well-founded recursion for `recursive_split` |
| C62 | false for terminate_len = 0: the step relation loops |
| C65 | matrices with an orthogonal eigenbasis |
| C66-C68 | loop model with an arbitrary optimizer; C68 false |
| C69-C71 | COO/CSR lists, `make_index_param` |
| C72-C77, C81, C83, C85 | Mathlib measure theory (Gaussian and Gamma integrals); expected priors for every distribution with the given moments |
| C75, C76, C78 | false: counterexamples |
| C79, C80, C84 | matrix algebra |
| C82 | linspace arithmetic, quantile function as parameter |
| C86, C87 | the derivative methods of an objective against Mathlib's derivatives of the value method; both free-Hessian paths by the chain rule; at a point with local smoothness only, by agreement near the point |
| C88 | false at second order: counterexample with explicit polynomials; first order proved, and every order with the omitted part replaced by its quadratic polynomial |
| C89 | the optimizer is a list of calls followed by a returned point; false in general |
| C90 | change of variables in the Gaussian integral, for every rule that is exact for polynomials |
| C91 | Jensen's inequality for finite averages; draws as in C82 |
| C92 | density of Mathlib's multivariate Gaussian by an affine change of variables |
| C93, C94 | `dictval()` and `names()` by structural induction on the tree; both false in some cases |
| C95 | independent gamma variables, their sum and their ratios, by Tonelli and a scaling; beta as the case of two components |
| C96 | Jensen's inequality; the result for a certain value is negative |
| C97 | the quadrature rule of C90 applied to the logistic function; the prior is a sum |
| C98 | the multivariate gamma integral by induction on the size (bordered matrices, Schur complement, Gaussian integral); log determinant and mean from the moment generating function; diagonal of the inverse has reciprocal gamma distributions |
| C99 | mean of the reciprocal of a gamma variable; linear images of a Wishart matrix for the entries off the diagonal; false |
| C100 | memory grows and old cells keep their values, by induction on the nesting |
| C101, C102 | the cells of the result are new |
| C103, C104 | false for most classes; for the others as C101, C102 |
| C105 | simulation of the value model, by induction on the nesting; footprints are disjoint |
| C106 | C105 and C34; false for shared objects |
| C107 | invariant over all later events |
| C108 | monotonicity of rounding; false for two finite bounds |
| C109 | relative errors of every operation in `constrain` and `unconstrain`, for one and two bounds, in terms of the condition number; false when a small increment is lost |
| C110 | the normalizer is not below the largest entry, by monotonicity |
| C111 | the rounded normalizer cancels; errors of the remaining operations add up; false when entries underflow |
| C112 | integers between the bound and the default value; false for large bounds |
| C113 | additions of 0 and doublings are exact; false when doubling overflows |
| C114 | squares of odd numbers have exact roots |
| C115 | simulation of the model of objectives without references, on top of C105 |
| C116 | false; an invariant over programs says which arrays only the logger has |
| C117 | false if the parameters share an object; otherwise simulation of the model without references |
| C118 | false if the parameters share an object; otherwise simulation, for every converter that only assigns |
| C119 | false: `hyper_par.get()` and `get_dinput_dhyper()` are arrays in use; otherwise the arrays of the object are new and no event changes them, by induction on programs; simulation for parameters that share no object |
| C120 | false: the vectors of the hyperparameter and the output are not copied; otherwise the arrays of the object are new or those that these two parameters held, and no event changes them, by induction on programs; simulation for parameters that share no object |
| C121 | false: a Hessian passed to `set_base_values` is not copied; otherwise the arrays of the object are new and no event changes them, by induction on programs; the closures read the parameters only through their structure; simulation for parameters that share no object |
| C122 | the stored pair after any history, moments of a point mass |
| C123 | false; the messages of every call that returns, by induction on the masks |
| C124 | false; simulation of each call by the model on values; no array is changed; what is kept stays the same, by induction on programs |
| C125 | invariant of the loop: the last two calls of an iteration evaluate at its point |
| C126 | induction on the calls listed by C67 |
| C127 | induction on the optimizer (a tree of requests), with the logger lemmas of C47 |
| C129 | the integrand by cases (`x > -100` or not), with the rounding error of each operation; a calculus of rounding errors (`App`) for the sums |
| C130 | false; accuracy below 700 by the same calculus, counterexamples from 710 on |
| C131 | symmetry from the commutativity of rounded multiplication; entries by the rounding calculus of C130; round trip false, proved for diagonal matrices by induction over the columns of the Cholesky factor; counterexamples by absorption of small summands |
| C128 | false; the compiled loops of scipy as folds over the compressed arrays, proved equal to the dense products |
| C132 | simulation of the run with references by the run without, by induction on the optimizer, with the refinement of C115 for each call |
| C133 | false; the same simulation for the loop, for optimization functions that work on arrays of their own; counterexample for all that return their argument |
| C134 | false for the variance; rounding calculus for the relative error, counterexamples by absorption in `exp(s) - 1` and by overflow of the square |
| C135 | false for the variance; sign by monotonicity of rounding, accuracy by the rounding calculus, counterexample by absorption |
| C136 | every term `p log(p + 1e-16)` has the right sign and a small error; the sign of the sum by `AccurateSum`; free values by C110 |
| C137 | the calls as lists of intermediate states (`Model/Interrupt`); induction on the nesting |
| C138 | an invariant of all intermediate states for the log; a simulation between the run on the interrupted and the run on the original objective |
| C139 | false in derivative calls; invariant for the other calls |
| C140 | calls as sequences of atomic steps, schedules as lists of thread numbers (`Model/Threads`); rely/guarantee invariants; counterexample by a schedule |
| C141 | ghost list of which thread has appended what; counterexample by a schedule |
| C142 | `Model/Timer`: the clock is an arbitrary sequence of readings; induction over the history from the end |
| C143 | `Model/SparseProduct`: the loops of scipy's `csr_matmat` and `csr_tocsc`; the sums of a row as an invariant of the accumulation loop |
| C144 | `Model/Print`: strings as lists of characters, numpy's printing as an arbitrary function; induction over the dictionary |
| C145 | from C51: the returned matrix is D H⁻¹ Dᵀ, with D the Jacobian of the outputs and H the Hessian |
| C146 | the free value is (means, log precisions); the objective as an integral against the product of normal distributions, its minimizer in closed form and unique, then C51 |
| C147 | leaf by leaf: positive derivatives for bounded values, column by column for Cholesky factors, softmax Jacobian, orthonormal bases; blocks and dictionaries by induction; the consequences from the chain rule of C41 |
| C148 | the dictionary after `set_free` as for C72; broadcasting `var[:, None]` against the means, for two and for three axes |
| C149 | the inverse of `free_to_vector` is continuous on its image: explicit inverses for simplexes and subspaces, the inverse function theorem with C147 and injectivity for the others; blocks and dictionaries by induction |
| C150 | legality is defined on vectors without the transforms (`Spec/LegalVec.lean`); onto by C07, C20, C26 and an orthogonality argument, blocks and dictionaries by induction; `set_vector(free_to_vector(x))` and `set_free(x)` lead to the same state |
| C151 | the list of states during `push_param` (`Model/Interrupt`); cases over the states |
| C152 | induction over the sequence of calls; invariants: some value is a placeholder / all are numbers |
| C153 | implicit function theorem gives a smooth optimum map; the series is its Taylor polynomial along lines (C56, C51); Taylor's bound made uniform over directions by compactness |
| C154 | the three constructors solve the same linear system; compare the solutions |
| C155 | the minimizer of the quadratic is an affine map; its derivative and Taylor polynomials are exact; C51 and C56 |
| C156 | second derivative of a sum of functions of restrictions; the entries of each embedded Hessian from C73; induction over the terms |
| C157 | every vector method of a nested dictionary equals the same method over the list of its leaves, by induction over the tree; then induction over the calls |
| C158 | the cross derivative of a weighted sum is the gradient of the loss; the linear system solved by the constructors; linearity of the prediction |
| C159 | the transforms are local diffeomorphisms (rank of the Jacobian and inverse function theorem), so the implicit optimum maps correspond; C51 for both objects; sandwich identity for the converted Hessian |
| C160 | invariant over the steps of the two methods: the sensitivity is the last attribute assigned; counterexamples for the predictions |
| C161 | the draws are quantiles at equally spaced levels; Riemann sums of a monotone function composed with the quantile function, truncated tails; the log likelihood as the sum of an affine and a monotone function |
| C162 | the sum is the negative relative entropy to the prior's density plus a constant; Gibbs' inequality with equality only for equal densities, and equal densities have equal parameters |
| C163 | Gibbs' inequality for the posterior density; for regression the posterior of C80 is the only distribution that attains the bound |
| C164 | invariant over histories in `Model/Verbose`, where the entries of the log are tagged; counterexample for derivative calls with `verbose=True` |
| C165 | `Model/ThreadsDeriv`; invariant: for every placeholder some thread will put a number back unless it raises; `C165_alone` links a thread to the sequential derivative methods |
| C166 | the criterion is a quadratic polynomial with unique coefficients, and the posterior is a function of them (`Props/Batches`); stacked rows with block diagonal weights have additive criteria |
| C167 | from C55 and the implicit function theorem: the derivative along a line is the iterated Fréchet derivative of the optimum map |
| C168 | as C64 with a residual contract for `cg` instead of an exact solve; the parts of the vector are orthogonal, Cauchy-Schwarz over the masks |
| C169 | `Model/Access.lean`: Python slices with negative bounds, the slices and index arrays of the accessors; blocks of a concatenation of lists of one length, row-major ranks (C13). `free_obs_slice(-1)` passes its assertion and is `slice(-k, 0)`, which is empty |
| C170 | `Model/PrintTerms.lean`: the strings given to `print`; C52 for the lists of terms, uniqueness of the text by splitting at separators, an invariant of `differentiate` and `combine_with` for the constants |
| C171 | no new model: `Recast` relates two objectives; chain rule for the gradients and Hessians, then the theorems on each class; for expansions the implicit functions of both objectives are related by the change of hyperparameters |
| C172 | no new model: the least squares criterion is a quadratic polynomial whose coefficients the code computes; related criteria give related coefficients |
| C173 | no new model: the expected log likelihood and the prior function add up to the prior function of the updated parameters (C162); Bayes' rule for the densities |
| C174 | `Model/CallArgs.lean`: Python's binding of positional and keyword arguments, the signatures of all methods and of the functions they go through; each method goes through the same states for `fun` and `functools.partial(fun, ...)` |
| C175 | relative entropies (Mathlib's `klDiv`) by densities, of finite products, and of tilted measures; each family's log prior plus entropy is minus its relative entropy |
| C176 | the conditioned Hessian `Sᵀ H S` in the eigenbasis of `H`; the preconditioned minimization run with an optimizer that makes one gradient step |
| C177 | the states after each statement, with any values in the parameters (`Model/InterruptSens`); an invariant of histories that allows derivative functions to be missing but not wrong |
| C178 | the transforms on all floats, NaN and infinities included (`Model/NonFinite`, which agrees with `Model/Round` on finite rows); NaN absorbs every operation, infinities are followed through the formulas |
| C179 | the notebook's parameters and the class `Model` (`Model/Example`); the value is compared with the normal density; the equations come from the derivatives of the quadratic and of the log determinant, through the homeomorphism of C149 and the image of C150; the global minimum from `tr P - log det P ≥ n` with equality for the identity only |
| C180 | the notebook's class `Summary`, `summary_sens_operator`, `objective_weights` and `weight_sens` (`Model/ExampleSens`), with the contracts for autograd and an exact `np.linalg.solve`; the objective is a smooth function of free vector and weights through the chart of C159; its Hessian at a fit is computed along curves (factors that vanish at the fit), is positive definite, and the linear system is solved in closed form; the refit by the algebra of the normal equations; nearby fits by continuity of the closed form and the openness of C149 |
| C181 | `Spec/Coordinates`: a vector of coordinates (free or vector), the vector value it stands for and the Jacobian returned by `free_to_vector_jac` (the identity for vector coordinates); the derivatives the objects return are those of the composed function by C13 and C33, and the chain rule gives the relation |
| C182 | `Model/OptPrint`: `repeatedly_optimize` with the messages it prints (numbers are kept as numbers); forgetting the messages gives the function of C67; the transcript is described by an inductive predicate, by induction over the iterations left |
| C183 | `Spec/Order`: the recorded index ranges say which numbers belong to a key; two lists of ranges that tile the same indices with equal sizes per key define a permutation; the sensitivity is transported along it and compared by the characterization of C51; the Taylor expansion by those of C55 and C56; `Spec/OrderNested`: for nested dictionaries, whose orders may differ at every level, the permutation is composed by induction over the nesting |
| C184 | `Spec/Stationary`: objectives with the same stationary points near the base values; by C51 and C55 both objects return the derivatives of an optimum, and an optimum of the one is one of the other; a strictly increasing rescaling keeps stationary points and positive curvature at them |
| C185 | `regressionObjective` composes the modelled functions as a user would; by Bayes' rule for the quadratic forms the objective is that of C162 with the posterior in place of the prior, up to a constant; C20 makes the free vector of the optimum exist and unique |
| C186 | `Model/InterruptTwo` lists the states during each call, as `Model/Interrupt` does for objectives; induction over the history shows that it changes held values only, and every call first overwrites these |
| C187 | `Model/ThreadsTwo.lean`: the leaves of both parameters are the shared state, each `set` of a leaf and each read is one step, schedules are lists of thread numbers; invariant: for every placeholder some thread still has to put a number back. The invariant holds for two-parameter objectives and the input of converters; a schedule of two Jacobians refutes it for the output |
| C188 | threads of `Model/ThreadsTwo.lean`, rely/guarantee: every step assigns what the common target has, so what a thread has set stays set. Calls at the same point return the result of the method, if the user's converter reads only the input and sets each output parameter at most once; linear predictions touch no parameter. Schedules of two calls at different points refute the rest |
| C189 | the polynomial along a line is a polynomial in one variable, and its Taylor polynomial of degree at least its own is itself; with C56. For the linear approximation: uniqueness of the derivative, with C51 |
| C190 | both expansions return the derivatives and Taylor polynomials of the same path of optima (C55, C56), by the invariants of C55 for histories |
| C191 | the product of a matrix with a vector is linear, and the Hessian is symmetric (C86); the preconditioner and its transpose are adjoint |
| C192 | the chain rule for functions between lists, with C49 and C86 |
| C193 | the determinant of a lower triangular factor times its transpose; C20 for the converse |
| C194 | the softmax form of the constrained row, and the row-major place of the free values |
| C195 | the basis is orthonormal (as for C31); Pythagoras for the projection of C31 |
| C196 | the legal vectors of every type are convex (by type, then by recursion over dictionaries); C149, C150; for stationary points the full rank of C147 bounds the free step by the step of the vector; for objectives the gradient of C181, and with a preconditioner the rows of its transpose, give the stationary point |
| C197 | C87 for objectives that are smooth at the legal values; without the gradient term the conversion is a congruence, which keeps positive definiteness by the full rank of C147; one-sided inverses of square matrices are two-sided |

## 6. Findings: properties the code does not have

Each is a theorem named `_counterexample`, about the model of the code as it is.

| property | what happens |
|---|---|
| C03 | a value equal to a finite upper bound is accepted, but does not survive the free parameterization |
| C05 | the default value can be outside the bounds, and then the constructor raises |
| C09, C20 | the Cholesky transform of the zero matrix is not defined although it is the default value |
| C11 | scalar parameters accept vectors of any length and are unusable afterwards |
| C12 | vectors of matrices reject a shape only if *all* its axes are wrong; vector parameters accept matrices |
| C24 | `PosDefMatrixParamArray()` raises `TypeError` with default arguments; its `length()` raises `AttributeError` |
| C37 | pushing a second parameter under a name in use leaves sizes and indices inconsistent |
| C38 | extending a dictionary that was pushed into another one breaks the sizes of the outer one |
| C42 | after `free_to_vector_jac` a scalar or a single matrix parameter holds a tracing placeholder |
| C45 | an exception during differentiation leaves placeholders in the parameter (there is no `finally`) |
| C50 | with `linear=True` the prediction is based on the value the output parameter had before |
| C54 | consolidation misses like terms that occur three times |
| C57, C58 | the constructors ignore `hess0`, and some flag combinations are computed in the wrong parameterization |
| C62 | `recursive_split` does not terminate for `terminate_len <= 0` |
| C68 | `max_iter <= 0` raises `UnboundLocalError` |
| C75 | `univariate_normal_log_prob` adds `0.5 * info` where the density has `0.5 * log(info)` |
| C76 | `UVNMomentParamArray.var_exp` returns the mean of the exponential |
| C78 | `WishartParam` ignores its `size`: the scale matrix is always 2 by 2 |
| C88 | a separate functor for the hyperparameter is not used consistently: second-order terms are wrong |
| C89 | after a minimization the parameter holds the point of the last call, not the returned one |
| C93 | an entry renamed to a name in use is lost by `dictval()`; `dictval()` raises after differentiation |
| C94 | arrays, matrices and simplexes have a single name; names can collide; `names()` of an empty dictionary raises |
| C99 | `WishartParam.e_inv` returns `df * inv(v)`; the mean of the inverse is `inv(v) / (df - n - 1)` |
| C103 | parameters keep a reference to the array passed to `set` and mostly `set_vector`; later in-place changes bypass every check |
| C104 | `get()`, and mostly `get_vector()`, return the held array: changing it changes the parameter |
| C106 | one object pushed twice cannot hold two values: `get_free()` does not return what was set; a dictionary pushed into itself raises `RecursionError` |
| C108 | with two finite bounds free values from 710 on are stored as NaN, and rounding alone can give a value above the upper bound, so that `get_free()` raises |
| C109 | with lower bound 1 the free value -40 comes back as minus infinity |
| C111 | a simplex with a free value from 746 on has an entry 0, and no finite free value |
| C112 | with lower bound `2 ** 55` the default value is the bound; with bounds `-2 ** 1023`, `2 ** 1023` it is infinite and the constructor's value cannot be read as a free value |
| C113 | a diagonal entry of `2 ** 1023` comes back as infinity |
| C116 | the logger keeps the array passed to `fun_free`, not a copy: evaluating twice with an array changed in place records the last point twice |
| C117 | nothing stops the two parameters of a `TwoParameterObjective` from being (or containing) one object; the function is then evaluated at the second argument in both places |
| C118 | likewise for `ParameterConverter`: restoring the output parameter undoes the assignment of the input parameter |
| C119 | `ParametricSensitivityLinearApproximation` copies the base values but then assigns the copy to `hyper_par`: changing `hyper_par.get()` in place changes later predictions; so does changing the array returned by `get_dinput_dhyper()` |
| C120 | `ParametricSensitivity` copies the optimal input but neither the hyperparameter nor the output: after `hyper_par.set_vector(h)` and the constructor, changing `h` in place changes the predictions, and the prediction for the changed `h` itself is still the old optimum |
| C121 | `ParametricSensitivityTaylorExpansion.set_base_values` keeps a Hessian passed to it by reference: changing that array in place changes later derivatives |
| C123 | `get_hinv_vec_subsets(verbose=True, print_every=10)` prints at the subsets 1, 2, 5 and 10 and never again: the operands of `%` are swapped |
| C124 | `ConjugateGradientSolver` does not copy `x0`: changing that array in place changes the Hessian of later solves |
| C130 | `get_e_logistic_term` and `get_e_logistic_term_guass_hermite` return infinities (or NaN) when one draw or node of `z` reaches 710: `np.log1p(np.exp(z))` overflows, where `np.logaddexp(0, z)` would not |
| C131 | `exp_matrix_diagonal` computes `exp(d) + d - d` and `log_matrix_diagonal` computes `log(l) + l - l`: the free value of a positive definite matrix is lost when `d <= -35` (`get_free` raises `LinAlgError`) or `d >= 47` (`get_free` returns 0), although `exp` and `log` alone would be accurate up to 700; `[0, b, 0]` with `b >= 2^28` cannot be read back either; overflow is reported as "Matrix is not symmetric" |
| C133 | `repeatedly_optimize` does not copy the point before it calls the optimization function: when that updates its argument in place and returns it, the difference is computed between an array and itself, and the loop stops with `x_conv` after one call |
| C134 | `get_var_lognormal` computes `np.exp(sigma_sq) - 1`: for `sigma_sq <= 2^-54` the result is zero or at least twice the variance (`np.expm1` would be accurate), and the square of the mean overflows before the small factor is applied |
| C135 | `UVNMomentParamArray` stores second moments: the variance `e2 - e^2` is zero when the mean is `2^29` standard deviations away from zero, and the entropy is then `-inf` |
| C139 | `cache_free_and_eval` has no `try`/`finally`: a `KeyboardInterrupt` during a gradient leaves `ArrayBox` placeholders in the parameter until it is set again |
| C140 | there is no lock: `set_free` and the evaluation of the function can be separated by another thread's `set_free` |
| C141 | `Logger.log` appends the point and the value in two steps, and `self.iter += 1` is a read and a write |
| C144 | `'\t' + str(param)` indents only the first line of a nested dictionary |
| C148 | `MVNArray` accepts shapes with more than two axes, for which `var[:, None]` lines up with the wrong axis |
| C151 | `push_param` enters the parameter before it updates the sizes, so an interrupted call leaves a dictionary whose `set_free(get_free())` raises |
| C152 | `cache_free_and_eval` restores the output parameter only if the call returns; after one that raised, the later calls read placeholders and put them back |
| C160 | `set_base_values` assigns the base values (and the Hessian) before it factorizes; when the factorization raises, `ParametricSensitivityLinearApproximation` predicts with new base values and old derivative, `ParametricSensitivityTaylorExpansion` with the Hessian it refused |
| C164 | the derivative methods pass `verbose=True` on to the traced `fun_free`, which then logs a differentiation placeholder |
| C174 | keyword arguments with names that the methods use do not reach the function: `verbose` is taken by `fun_free`, `autograd_fun` raises `TypeError` in derivatives only; `fun_free_hvp_cond` without its vector takes the point for it |
| C187 | two threads in Jacobians of one `ParameterConverter`: one can read the other's placeholder as the output value to put back, and leaves it in the output parameter after both have returned |
| C188 | two threads in one `ParameterConverter`, or two non-linear predictions of one `ParametricSensitivity`, at different points: the first can return the result of the second |
| C128 | the minimizers raise `LinAlgError` for every sparse preconditioner, which the preconditioned methods of the objective support: they call `np.linalg.solve` on it |

Further remarks from reading the code, not stated as properties: `recursive_split` returns nothing and has a mutable default argument
`results`, so that the masks of calls without `results` pile up in a list no caller can reach;
`get_hinv_vec_subsets` reports when `print_every % ind == 0`, with the operands the wrong way around;
`Objective.preconditioning` is never read; the Taylor expansion of order 0 raises `IndexError`;
`multinoulli_entropy` can be (slightly) negative because of `min_prob` (`C96_certain_value`); the comment above
`get_e_logistic_term` has the wrong sign.

## 7. Wrong programs

`tools/mutate.py` applies one edit at a time to a scratch copy of the model and elaborates every
module downstream, recording the property theorems that fail or rest on a failed proof.
`seeded/LOG.jsonl` has one line per edit.
