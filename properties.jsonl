{"id": "C01", "title": "Storage blocks tile the storage vector", "statement": "For every list of distinct variables, StorageLayout.make gives each variable a block of storage of its own size such that every storage index below layout.dim lies in the block of exactly one variable, and no block reaches past layout.dim; layout.dim is the sum of the variables' sizes.", "quantifier": "all lists of distinct variables, all variable types and dimensions (including 0), local and global layouts", "why_tests_cant": "Aliased or missing storage only appears for particular type interleavings and dimensions; the input space is unbounded.", "anchors": ["jaxfg/core/_storage_layout.py:StorageLayout.make"]}
{"id": "C02", "title": "Layout order guarantees", "statement": "StorageLayout.get_variables() is a reordering of the input variables in which storage indices ascend; get_variable_types() also ascends; the variables of one type occupy one contiguous region that starts at index_from_variable_type, in input order, and count_from_variable_type counts them.", "quantifier": "all lists of distinct variables, local and global", "why_tests_cant": "The docstring promises ascending order for every input; a test can only sample interleavings of types.", "anchors": ["jaxfg/core/_storage_layout.py:StorageLayout.get_variables", "jaxfg/core/_storage_layout.py:StorageLayout.get_variable_types", "jaxfg/core/_storage_layout.py:StorageLayout.make"]}
{"id": "C03", "title": "Local and global layouts agree on order", "statement": "For the same variables, the local and the global layout list the same variables and types in the same order with the same per-type counts, so the k-th block of one corresponds to the k-th block of the other.", "quantifier": "all lists of variables", "why_tests_cant": "manifold_retract silently relies on it for all graphs.", "anchors": ["jaxfg/core/_storage_layout.py:StorageLayout.make", "jaxfg/core/_variable_assignments.py:VariableAssignments.manifold_retract"]}
{"id": "C04", "title": "Listing a variable more than once", "statement": "StorageLayout.make keeps its promises (ascending order of get_variables(), dim equal to the space the variables need) for every iterable of variables, including ones in which a variable is listed more than once. [Not true of the code: a repeated variable gets a second block, the earlier block is dead storage, and ascending order is lost.]", "quantifier": "all iterables of variables, with repetitions", "why_tests_cant": "Needs an iterable with a repeated variable in a particular position; the effect is silent in make_from_defaults.", "anchors": ["jaxfg/core/_storage_layout.py:StorageLayout.make", "jaxfg/core/_variable_assignments.py:VariableAssignments.make_from_defaults", "jaxfg/core/_variable_assignments.py:VariableAssignments.make_from_partial_dict"]}
{"id": "C05", "title": "flatten and unflatten are inverse", "statement": "For every variable type, unflatten(flatten(x)) == x for every value x with the structure and leaf shapes of the type's default value; flatten(unflatten(v)) == v for every vector of length get_parameter_dim(); unflatten rejects every other length.", "quantifier": "all variable types, all pytree structures and leaf shapes, all values, all flat vectors", "why_tests_cant": "Unbounded family of pytree structures and shapes (including empty leaves).", "anchors": ["jaxfg/core/_variables.py:VariableBase.flatten", "jaxfg/core/_variables.py:VariableBase.unflatten", "jaxfg/core/_variables.py:VariableBase.__init_subclass__"]}
{"id": "C06", "title": "make_from_dict round-trips", "statement": "VariableAssignments.make_from_dict(d).get_value(v) == d[v] for every variable v of d, get_variables() are exactly the keys of d, and as_dict() returns the same mapping as d.", "quantifier": "all dictionaries from variables to values of the variable's structure, any mix and order of types", "why_tests_cant": "The storage order differs from the dictionary order; only particular mixes of types expose indexing errors.", "anchors": ["jaxfg/core/_variable_assignments.py:VariableAssignments.make_from_dict", "jaxfg/core/_variable_assignments.py:VariableAssignments.get_value", "jaxfg/core/_variable_assignments.py:VariableAssignments.as_dict"]}
{"id": "C07", "title": "Partial dictionaries and defaults", "statement": "make_from_partial_dict(vars, d).get_value(v) is d[v] when v is in d and the type's default value otherwise; make_from_defaults(vars) gives every variable its default, and equals make_from_partial_dict(vars, {}).", "quantifier": "all lists of distinct variables, all dictionaries", "why_tests_cant": "Two different code paths (tiling per type, concatenation per variable) must agree for every interleaving.", "anchors": ["jaxfg/core/_variable_assignments.py:VariableAssignments.make_from_partial_dict", "jaxfg/core/_variable_assignments.py:VariableAssignments.make_from_defaults"]}
{"id": "C08", "title": "Assignments behave like an abstract map", "statement": "After any sequence of set_value calls, get_value(v) returns the last value written to v, or the initial value if v was never written; set_value returns a new object and leaves every other variable's value, the variable list and the layout untouched.", "quantifier": "all assignments, all finite sequences of set_value calls with values of the variable's structure", "why_tests_cant": "Quantifies over histories; one overlapping block would corrupt a neighbour only for particular layouts.", "anchors": ["jaxfg/core/_variable_assignments.py:VariableAssignments.set_value", "jaxfg/core/_variable_assignments.py:VariableAssignments.get_value"]}
{"id": "C09", "title": "Changing the storage layout preserves the mapping", "statement": "assignments.update_storage_layout(layout) returns an object with the given layout in which every variable has the same value as before, whenever the layout holds the same variables; converting back restores the original storage; otherwise it raises.", "quantifier": "all assignments, all layouts (any order of variables), local and global parameterization", "why_tests_cant": "Requires all permutations of all variable mixes.", "anchors": ["jaxfg/core/_variable_assignments.py:VariableAssignments.update_storage_layout"]}
{"id": "C10", "title": "get_stacked_value lists the per-variable values", "statement": "get_stacked_value(T) is the stack, in get_variables() order, of get_value(v) over the variables v of type T, and count_from_variable_type[T] many.", "quantifier": "all assignments and variable types stored in them", "why_tests_cant": "Indexing arithmetic across an unbounded number of types.", "anchors": ["jaxfg/core/_variable_assignments.py:VariableAssignments.get_stacked_value"]}
{"id": "C11", "title": "Retraction is per variable", "statement": "If the delta's layout is the local layout of the same ordered variables, manifold_retract succeeds, keeps the layout, and each variable's new value is its own type's retraction of its old value by its own slice of the delta.", "quantifier": "all assignments, all local deltas, all variable types with arbitrary retraction functions", "why_tests_cant": "Batched per-type indexing must line up for every mix of parameter/local dimensions.", "anchors": ["jaxfg/core/_variable_assignments.py:VariableAssignments.manifold_retract"]}
{"id": "C12", "title": "Retraction respects variables, not positions", "statement": "manifold_retract applies to each variable the delta stored for that variable, whatever the two layouts' variable orders. [Not true of the code: only per-type offsets are used, so a delta whose layout lists same-type variables in another order is applied to the wrong variables, silently.]", "quantifier": "all assignments and deltas over the same variables, in any order", "why_tests_cant": "Silent and order dependent; no assertion fires.", "anchors": ["jaxfg/core/_variable_assignments.py:VariableAssignments.manifold_retract"]}
{"id": "C13", "title": "Euclidean retraction laws", "statement": "For variables that use the default retraction, retracting by a zero delta changes nothing, and retracting by d1 then d2 equals retracting by d1+d2.", "quantifier": "all assignments of default-retraction variables, all deltas", "why_tests_cant": "Algebraic law over all storage contents.", "anchors": ["jaxfg/core/_variables.py:VariableBase.manifold_retract", "jaxfg/core/_variable_assignments.py:VariableAssignments.manifold_retract"]}
{"id": "C14", "title": "Values of the wrong size are rejected", "statement": "set_value and make_from_partial_dict raise when given a value whose flattened size is not the variable's parameter dimension. [Not true of the code: set_value broadcasts a one-element value over the whole block; make_from_partial_dict only checks the total, so sizes that cancel silently shift later variables.]", "quantifier": "all assignments, all values of any structure", "why_tests_cant": "Silent corruption only for cancelling or one-element sizes.", "anchors": ["jaxfg/core/_variable_assignments.py:VariableAssignments.set_value", "jaxfg/core/_variable_assignments.py:VariableAssignments.make_from_partial_dict"]}
{"id": "C15", "title": "Reading a local delta by variable", "statement": "On an assignments object with local parameterization, get_value(v) reads the block that belongs to v. [Not true of the code when local and global dimensions differ: the slice length is the global dimension.]", "quantifier": "all local assignments", "why_tests_cant": "Depends on the dimension mismatch between the parameterizations of each type.", "anchors": ["jaxfg/core/_variable_assignments.py:VariableAssignments.get_value"]}
{"id": "C16", "title": "Graph cost is the sum over the factors", "statement": "StackedFactorGraph.make(factors).compute_cost(a) returns the sum over all given factors of the squared norm of that factor's whitened residual at the values a assigns to its variables: grouping, stacking and vectorization neither drop, duplicate nor mix factors.", "quantifier": "all non-empty finite sequences of well-formed factors of any mix of types, shapes, noise models; all assignments over the graph's variables", "why_tests_cant": "Grouping depends on every combination of types, static fields and leaf shapes.", "anchors": ["jaxfg/core/_stacked_factor_graph.py:StackedFactorGraph.make", "jaxfg/core/_stacked_factor_graph.py:StackedFactorGraph.compute_cost", "jaxfg/core/_factor_stack.py:FactorStack.make", "jaxfg/core/_factor_stack.py:FactorStack.compute_residual_vector"]}
{"id": "C17", "title": "Order of the residual vector", "statement": "The whitened residual vector has length residual_dim and is the concatenation of every factor's whitened residual exactly once: groups in order of first appearance, input order inside each group.", "quantifier": "all non-empty sequences of well-formed factors, all assignments", "why_tests_cant": "Row offsets of the Jacobian depend on it for every grouping.", "anchors": ["jaxfg/core/_stacked_factor_graph.py:StackedFactorGraph.compute_whitened_residual_vector"]}
{"id": "C18", "title": "Cost is independent of presentation order", "statement": "compute_cost gives the same value for any permutation of the factors and for any storage order of the variables in the assignments.", "quantifier": "all factor sequences, all permutations, all layouts of the same mapping", "why_tests_cant": "Factorially many orders.", "anchors": ["jaxfg/core/_stacked_factor_graph.py:StackedFactorGraph.compute_cost", "jaxfg/core/_variable_assignments.py:VariableAssignments.update_storage_layout"]}
{"id": "C19", "title": "Jacobian sparsity pattern is in range", "statement": "Every coordinate of the graph's Jacobian is inside residual_dim x local dim; the number of coordinates equals the number of Jacobian values; two equal coordinates can only come from one factor that lists one variable twice.", "quantifier": "all factor sequences", "why_tests_cant": "JAX drops out-of-range scatters silently, so a bad coordinate never raises.", "anchors": ["jaxfg/core/_factor_stack.py:FactorStack.compute_jacobian_coords", "jaxfg/core/_stacked_factor_graph.py:StackedFactorGraph.make"]}
{"id": "C20", "title": "Jacobian times delta is the per-factor linearization", "statement": "For every local delta d, (A @ d) is the concatenation, in residual order, of each factor's whitened Jacobian blocks applied to the slices of d that belong to the factor's variables.", "quantifier": "all factor sequences, assignments and deltas", "why_tests_cant": "Row/column bookkeeping over arbitrary groupings, including factors that repeat a variable.", "anchors": ["jaxfg/core/_stacked_factor_graph.py:StackedFactorGraph.compute_whitened_residual_jacobian", "jaxfg/core/_factor_stack.py:FactorStack.compute_jacobian_coords"]}
{"id": "C21", "title": "The Jacobian is the derivative of the residual", "statement": "With Gaussian noise models and per-factor Jacobians that are correct, A is the derivative at zero of d -> whitened residual vector of a.manifold_retract(d): every directional derivative equals A @ d, and A is the total (Fréchet) derivative if the Jacobians of the factors are.", "quantifier": "all factor sequences with Gaussian noise, all assignments, all directions", "why_tests_cant": "A statement about limits for all graphs.", "anchors": ["jaxfg/core/_stacked_factor_graph.py:StackedFactorGraph.compute_whitened_residual_jacobian", "jaxfg/core/_variable_assignments.py:VariableAssignments.manifold_retract"]}
{"id": "C22", "title": "The right-hand side is minus half the cost gradient", "statement": "Under the same hypotheses, the vector ATb = -(A.T @ r) the solvers use is minus one half of the derivative of compute_cost along the retraction: of every directional derivative, and of the total derivative if the Jacobians of the factors are total derivatives.", "quantifier": "all factor sequences with Gaussian noise, all assignments, all directions", "why_tests_cant": "A statement about limits for all graphs.", "anchors": ["jaxfg/solvers/_gauss_newton_solver.py:GaussNewtonSolver._step", "jaxfg/core/_stacked_factor_graph.py:StackedFactorGraph.compute_cost"]}
{"id": "C23", "title": "The graph's variables are the factors' variables", "statement": "graph.get_variables() lists each variable that some factor connects to exactly once and nothing else; StackedFactorGraph.make raises for an empty factor sequence.", "quantifier": "all factor sequences", "why_tests_cant": "Deduplication across arbitrary connection patterns.", "anchors": ["jaxfg/core/_stacked_factor_graph.py:StackedFactorGraph.make", "jaxfg/core/_stacked_factor_graph.py:StackedFactorGraph.get_variables"]}
{"id": "C24", "title": "Evaluation rejects wrong variable sets", "statement": "compute_cost raises if the assignments do not hold exactly the graph's variables; it never evaluates with a value of another variable.", "quantifier": "all graphs and assignments", "why_tests_cant": "All mismatched sets.", "anchors": ["jaxfg/core/_stacked_factor_graph.py:StackedFactorGraph.compute_whitened_residual_vector", "jaxfg/core/_variable_assignments.py:VariableAssignments.update_storage_layout"]}
{"id": "C25", "title": "Joint NLL", "statement": "With Gaussian noise models compute_joint_nll equals the sum over factors of squared Mahalanobis distance plus log-determinant of the covariance; it raises for Huber noise.", "quantifier": "all factor sequences with Gaussian or diagonal noise, all assignments", "why_tests_cant": "Identity over all covariances.", "anchors": ["jaxfg/core/_stacked_factor_graph.py:StackedFactorGraph.compute_joint_nll"]}
{"id": "C26", "title": "Whitening gives the Mahalanobis distance", "statement": "Gaussian.make_from_covariance(S): the squared norm of the whitened residual is r^T S^-1 r for every positive definite S and residual r; the same for DiagonalGaussian with positive variances.", "quantifier": "all positive definite covariances of any size, all residuals", "why_tests_cant": "Identity over all matrices.", "anchors": ["jaxfg/noises/_gaussians.py:Gaussian.make_from_covariance", "jaxfg/noises/_gaussians.py:DiagonalGaussian.make_from_covariance"]}
{"id": "C27", "title": "Diagonal and full Gaussians agree", "statement": "DiagonalGaussian.make_from_covariance(d) and Gaussian.make_from_covariance(diag(d)) whiten every residual and every Jacobian identically.", "quantifier": "all vectors of positive variances, all residuals and Jacobians", "why_tests_cant": "Identity over all sizes.", "anchors": ["jaxfg/noises/_gaussians.py:DiagonalGaussian", "jaxfg/noises/_gaussians.py:Gaussian"]}
{"id": "C28", "title": "Jacobian whitening is consistent with residual whitening", "statement": "For Gaussian noise models, whitening commutes with linearization: whiten_jacobian(J) applied to d equals whiten_residual_vector(J d).", "quantifier": "all Gaussian and diagonal models, Jacobians, directions", "why_tests_cant": "Algebraic law.", "anchors": ["jaxfg/noises/_gaussians.py:Gaussian.whiten_jacobian", "jaxfg/noises/_gaussians.py:DiagonalGaussian.whiten_jacobian"]}
{"id": "C29", "title": "Huber whitening", "statement": "HuberWrapper leaves residuals whose whitened norm is below delta unchanged; for others the squared norm becomes delta times the whitened norm; the result never has a larger norm than the wrapped model's, points in the same direction, and is continuous at the threshold.", "quantifier": "all wrapped models, delta > 0, all residuals", "why_tests_cant": "Real-valued threshold behaviour.", "anchors": ["jaxfg/noises/_huber.py:HuberWrapper.whiten_residual_vector"]}
{"id": "C30", "title": "Huber Jacobian uses the residual's weight", "statement": "In compute_whitened_residual_jacobian, a Huber-wrapped factor's Jacobian is scaled by the same weight as its residual. [Not true of the code: the graph passes the already down-weighted residual, so outliers get the square root of the weight.]", "quantifier": "all graphs with Huber factors, all assignments", "why_tests_cant": "Needs an outlier factor and a comparison of weights; the optimizer hides it.", "anchors": ["jaxfg/noises/_huber.py:HuberWrapper.whiten_jacobian", "jaxfg/core/_stacked_factor_graph.py:StackedFactorGraph.compute_whitened_residual_jacobian"]}
{"id": "C31", "title": "Sparse product is the matrix product", "statement": "SparseCooMatrix A @ x equals the dense matrix-vector product of the matrix whose entries are the sums of the values at each coordinate.", "quantifier": "all matrices, all coordinate lists including repeated coordinates, all vectors", "why_tests_cant": "All sparsity patterns.", "anchors": ["jaxfg/sparse/_sparse_matrix.py:SparseCooMatrix.__matmul__"]}
{"id": "C32", "title": "Transpose laws", "statement": "A.T.T == A; (A.T @ y) . x == y . (A @ x) for all vectors.", "quantifier": "all sparse matrices and vectors", "why_tests_cant": "Algebraic law.", "anchors": ["jaxfg/sparse/_sparse_matrix.py:SparseCooMatrix.T"]}
{"id": "C33", "title": "Dense conversion agrees with the product", "statement": "A.as_dense() @ x equals A @ x. [Not true of the code when a coordinate is repeated, which happens for a factor that lists one variable twice: as_dense overwrites instead of accumulating.]", "quantifier": "all sparse matrices", "why_tests_cant": "Only repeated coordinates expose it; marked untested in the source.", "anchors": ["jaxfg/sparse/_sparse_matrix.py:SparseCooMatrix.as_dense"]}
{"id": "C34", "title": "scipy conversion round-trips", "statement": "from_scipy_coo_matrix(A.as_scipy_coo_matrix()) == A and both denote the same matrix.", "quantifier": "all sparse matrices", "why_tests_cant": "All patterns.", "anchors": ["jaxfg/sparse/_sparse_matrix.py:SparseCooMatrix.from_scipy_coo_matrix", "jaxfg/sparse/_sparse_matrix.py:SparseCooMatrix.as_scipy_coo_matrix"]}
{"id": "C35", "title": "Direct linear subproblem", "statement": "For lambda >= 0 the system CholmodSolver is asked to factorize is positive definite whatever A is, so the answer exists, is unique, solves (A^T A + (lambda + 1e-5) I) x = ATb, and is a descent direction: ATb . x > 0 unless ATb = 0.", "quantifier": "all sparse matrices (rank deficient or not), right-hand sides, lambda >= 0", "why_tests_cant": "All matrices.", "anchors": ["jaxfg/sparse/_linear_solve.py:CholmodSolver.solve_subproblem", "jaxfg/sparse/_linear_solve.py:CholmodSolver._solve"]}
{"id": "C36", "title": "Conjugate-gradient subproblem", "statement": "The operator and preconditioner handed to conjugate gradient are symmetric; with no repeated coordinate the preconditioner diagonal is exactly diag(A^T A); with full column rank both are positive definite, and in exact arithmetic the solver returns x with residual norm at most tol * |ATb| for (A^T A + lambda diag(A^T A)) x = ATb within its n-iteration cap. If coordinates repeat, the same holds with the sums of squares of the listed values in place of diag(A^T A).", "quantifier": "all sparse matrices with full column rank, right-hand sides, lambda >= 0, tolerances", "why_tests_cant": "Finite-termination is a theorem about all matrices.", "anchors": ["jaxfg/sparse/_linear_solve.py:_ConjugateGradientSolver.solve_subproblem"]}
{"id": "C37", "title": "CHOLMOD analysis cache", "statement": "A CholmodSolver's answer depends only on its arguments, whatever solves ran before in the process. [Holds only while every object address is used with a single sparsity pattern; the cache is keyed by address and never invalidated.]", "quantifier": "all histories of solver creation, destruction and solves", "why_tests_cant": "Depends on the history of the process and on address reuse.", "anchors": ["jaxfg/sparse/_linear_solve.py:CholmodSolver._solve", "jaxfg/sparse/_linear_solve.py:_cholmod_analyze_cache"]}
{"id": "C38", "title": "Every solve terminates within its iteration budget", "statement": "GaussNewton, LevenbergMarquardt and Dogleg solvers execute at least one and at most max(1, max_iterations) steps for every graph, initial assignment and linear solver, also when steps are rejected or comparisons involve NaN.", "quantifier": "all graphs, initial assignments, linear solvers, solver settings", "why_tests_cant": "Termination for all inputs.", "anchors": ["jaxfg/solvers/_nonlinear_solver_base.py:NonlinearSolverBase.solve", "jaxfg/solvers/_mixins.py:_TerminationCriteriaMixin.check_exceeded_max_iterations"]}
{"id": "C39", "title": "solve preserves the caller's layout", "statement": "solve returns assignments with exactly the storage layout (and so the variables and order) of the initial assignments, for every solver.", "quantifier": "all graphs, initial assignments, solvers", "why_tests_cant": "All layouts.", "anchors": ["jaxfg/solvers/_nonlinear_solver_base.py:NonlinearSolverBase.solve", "jaxfg/solvers/_fixed_iteration_gauss_newton_solver.py:FixedIterationGaussNewtonSolver.solve"]}
{"id": "C40", "title": "solve is independent of the storage order", "statement": "Two initial assignments with the same variable-to-value mapping give solutions with the same mapping. [Not true of FixedIterationGaussNewtonSolver, which never converts to the graph's layout, so steps are applied to the wrong variables.]", "quantifier": "all graphs whose variables have at least one parameter, all orders of the initial assignments, all solvers", "why_tests_cant": "All permutations; existing ordering test only uses GaussNewtonSolver on three scalars.", "anchors": ["jaxfg/solvers/_nonlinear_solver_base.py:NonlinearSolverBase.solve", "jaxfg/solvers/_fixed_iteration_gauss_newton_solver.py:FixedIterationGaussNewtonSolver.solve"]}
{"id": "C41", "title": "Tracked cost is the cost of the tracked assignments", "statement": "In every iteration of every solver, the recorded cost equals compute_cost of the recorded assignments, also after rejected steps.", "quantifier": "all graphs, all executions, all iterations", "why_tests_cant": "Invariant over executions.", "anchors": ["jaxfg/solvers/_levenberg_marquardt_solver.py:LevenbergMarquardtSolver._step", "jaxfg/solvers/_dogleg_solver.py:DoglegSolver._step", "jaxfg/solvers/_gauss_newton_solver.py:GaussNewtonSolver._step"]}
{"id": "C42", "title": "Steps linearize at the current assignments", "statement": "In every iteration the right-hand side is computed from the residual of the current assignments. [Not true of LM and Dogleg: after a rejected step the recorded residual is the rejected proposal's.]", "quantifier": "all executions with rejected steps", "why_tests_cant": "Needs a rejected step; effect is numerical.", "anchors": ["jaxfg/solvers/_levenberg_marquardt_solver.py:LevenbergMarquardtSolver._step", "jaxfg/solvers/_dogleg_solver.py:DoglegSolver._step"]}
{"id": "C43", "title": "Damped solvers never increase the cost", "statement": "LevenbergMarquardt and Dogleg return assignments whose cost does not exceed the initial cost. [Not true of either: after a rejected step the stale residual of the rejected point can make the predicted change positive, so a cost increase is accepted. True of every step taken from a state whose recorded residual is current.]", "quantifier": "all graphs, initial assignments, settings", "why_tests_cant": "Only adversarial sequences of rejections expose it.", "anchors": ["jaxfg/solvers/_levenberg_marquardt_solver.py:LevenbergMarquardtSolver._step", "jaxfg/solvers/_mixins.py:_TrustRegionMixin.compute_step_quality"]}
{"id": "C44", "title": "Rejected steps change nothing but damping", "statement": "A rejected LM/Dogleg step keeps the assignments and the cost; an accepted one moves to the retraction of the step; nothing in between.", "quantifier": "all states", "why_tests_cant": "All states.", "anchors": ["jaxfg/solvers/_levenberg_marquardt_solver.py:LevenbergMarquardtSolver._step", "jaxfg/solvers/_dogleg_solver.py:DoglegSolver._step"]}
{"id": "C45", "title": "LM damping stays positive and bounded", "statement": "With positive settings, lambda_factor >= 1 and lambda_min <= lambda_max, lambda is positive in every iteration and never exceeds max(lambda_initial, lambda_max); a rejected step multiplies it by lambda_factor up to the bounds, an accepted one divides it.", "quantifier": "all executions", "why_tests_cant": "Invariant over executions.", "anchors": ["jaxfg/solvers/_levenberg_marquardt_solver.py:LevenbergMarquardtSolver._step"]}
{"id": "C46", "title": "Dogleg steps stay inside the trust region", "statement": "Every dogleg step has norm at most the current radius: the Gauss-Newton step if it fits, otherwise (the gradient being nonzero) a step of norm exactly the radius on the dogleg path; both forms of the blending parameter agree and lie in [0,1]; the radius stays positive.", "quantifier": "all Jacobians, residuals, Gauss-Newton steps, radii > 0", "why_tests_cant": "Real arithmetic over all geometries.", "anchors": ["jaxfg/solvers/_dogleg_solver.py:DoglegSolver._step"]}
{"id": "C47", "title": "Convergence criteria", "statement": "A solve stops early only if the relative cost change, the gradient or the parameter change is below its tolerance in absolute value. [Not true of the gradient test: it takes the maximum of signed differences, so a large gradient of one sign passes.]", "quantifier": "all states", "why_tests_cant": "Depends on the sign pattern of the update.", "anchors": ["jaxfg/solvers/_mixins.py:_TerminationCriteriaMixin.check_convergence"]}
{"id": "C48", "title": "Behaviour at a stationary point", "statement": "Started where the gradient is zero, GaussNewton stops after one step and returns the initial values; LM and Dogleg return the initial values unchanged, but only after all max_iterations iterations (0/0 step quality is NaN and counts as a rejection).", "quantifier": "all graphs with Euclidean-like retraction, all stationary assignments, variables with at least one parameter", "why_tests_cant": "Relies on NaN comparison semantics for all inputs.", "anchors": ["jaxfg/solvers/_mixins.py:_TrustRegionMixin.compute_step_quality", "jaxfg/solvers/_levenberg_marquardt_solver.py:LevenbergMarquardtSolver._step", "jaxfg/solvers/_dogleg_solver.py:DoglegSolver._step"]}
{"id": "C49", "title": "Fixed-iteration solver runs the requested steps", "statement": "FixedIterationGaussNewtonSolver runs exactly `iterations` steps when unrolled, and max(1, iterations) with the while loop; both modes return the same result for iterations >= 1.", "quantifier": "all graphs, assignments, iteration counts", "why_tests_cant": "All iteration counts.", "anchors": ["jaxfg/solvers/_fixed_iteration_gauss_newton_solver.py:FixedIterationGaussNewtonSolver.solve"]}
{"id": "C50", "title": "Gauss-Newton solves linear problems in one step", "statement": "If the residual is affine along retractions and the linear solver returns a solution of the normal equations, one Gauss-Newton step reaches a global minimum of the cost.", "quantifier": "all linear least-squares graphs whose variables have at least one parameter, any initial assignments", "why_tests_cant": "All problems.", "anchors": ["jaxfg/solvers/_gauss_newton_solver.py:GaussNewtonSolver._step"]}
{"id": "C51", "title": "Sparse covariance entries", "statement": "SparseCovariance[i, j] terminates and returns entry (i, j) of (L L^T)^-1, symmetric in i and j, after any history of earlier queries.", "quantifier": "all lower-triangular L with non-zero diagonal of any size, all sparsity patterns, all query histories", "why_tests_cant": "Recursive memoized algorithm; all patterns and histories.", "anchors": ["jaxfg/experimental/_sparse_covariance.py:SparseCovariance.__getitem__", "jaxfg/experimental/_sparse_covariance.py:SparseCovariance._sum_over_col"]}
{"id": "C52", "title": "Marginal covariances", "statement": "compute_marginal(v1..vk) is the square block matrix of covariance entries of the variables' local indices, in the order given; as_dense gives the same matrix in both modes.", "quantifier": "all covariances, all variable tuples", "why_tests_cant": "All layouts and orders.", "anchors": ["jaxfg/experimental/_sparse_covariance.py:SparseCovariance.compute_marginal", "jaxfg/experimental/_sparse_covariance.py:SparseCovariance.as_dense"]}
{"id": "C53", "title": "Covariance is the inverse information matrix", "statement": "SparseCovariance.make(graph, a) holds the inverse of A^T A. [Only when the factorization uses the natural order: the code ignores the fill-reducing permutation of the CHOLMOD factor, so rows and columns are permuted.]", "quantifier": "all graphs, all permutations CHOLMOD may pick", "why_tests_cant": "CHOLMOD only permutes for particular sparsity patterns.", "anchors": ["jaxfg/experimental/_sparse_covariance.py:SparseCovariance.make"]}
{"id": "C54", "title": "Pose residuals vanish exactly at the measurement", "statement": "PriorFactor's residual is zero iff the pose equals mu (within the domain where log is injective); BetweenFactor's residual is zero iff the relative pose equals the measurement.", "quantifier": "all Lie groups with injective log, all poses", "why_tests_cant": "All group elements.", "anchors": ["jaxfg/geometry/_factors.py:PriorFactor.compute_residual_vector", "jaxfg/geometry/_factors.py:BetweenFactor.compute_residual_vector"]}
{"id": "C55", "title": "Relative-pose cost is gauge invariant", "statement": "Left-multiplying every pose by one fixed transform leaves every BetweenFactor residual, and the cost of any graph made of them, unchanged.", "quantifier": "all groups, poses, transforms, graphs", "why_tests_cant": "All group elements.", "anchors": ["jaxfg/geometry/_factors.py:BetweenFactor.compute_residual_vector"]}
{"id": "C56", "title": "Analytic pose Jacobians are derivatives of the residual", "statement": "compute_residual_jacobians of PriorFactor and BetweenFactor are the derivatives of the residual along the retraction. [Only at zero residual or for commutative groups; false for SE(2) in general.]", "quantifier": "all groups, all poses", "why_tests_cant": "Limits over all poses.", "anchors": ["jaxfg/geometry/_factors.py:PriorFactor.compute_residual_jacobians", "jaxfg/geometry/_factors.py:BetweenFactor.compute_residual_jacobians"]}
{"id": "C57", "title": "Default Jacobians follow the chain rule", "statement": "The default compute_residual_jacobians returns, for every variable, the derivative of the residual along the variable's retraction, given exact derivatives of the residual and of the retraction.", "quantifier": "all residual functions, retractions, pytree structures", "why_tests_cant": "Composition and leaf concatenation for all structures.", "anchors": ["jaxfg/core/_factor_base.py:FactorBase.compute_residual_jacobians", "jaxfg/core/_variables.py:VariableBase.manifold_retract_jacobian"]}
{"id": "C58", "title": "Value tuples are validated", "statement": "build_variable_value_tuple returns exactly the given values in order (wrapped in the hinted named tuple if any) when the hinted types and arity fit, and raises otherwise; a Tuple[T, ...] hint accepts any number of T values.", "quantifier": "all hints, all value tuples", "why_tests_cant": "All hint shapes and arities.", "anchors": ["jaxfg/core/_factor_base.py:FactorBase.build_variable_value_tuple"]}
{"id": "C59", "title": "Grouping never mixes unstackable factors", "statement": "Factors are stacked together iff their classes, static fields, variable types, noise structure and leaf shapes agree; stacking then always succeeds, and every factor is in exactly one stack.", "quantifier": "all factor sequences", "why_tests_cant": "All combinations.", "anchors": ["jaxfg/core/_stacked_factor_graph.py:StackedFactorGraph.make", "jaxfg/core/_factor_stack.py:FactorStack.make"]}
{"id": "C60", "title": "Canonical types and instances", "statement": "In every history of calls, RealVectorVariable[n] is RealVectorVariable[m] iff n == m, and canonical_instance() of a class is always the same object, distinct for distinct classes.", "quantifier": "all call histories", "why_tests_cant": "Histories.", "anchors": ["jaxfg/core/_variables.py:_RealVectorVariableTemplate.__getitem__", "jaxfg/core/_variables.py:VariableBase.canonical_instance"]}
{"id": "C61", "title": "g2o precision matrices", "statement": "parse_g2o builds for every edge a symmetric precision matrix P whose upper triangle is the listed numbers, and a noise model with squared whitened norm r^T P r.", "quantifier": "all edge lines with positive definite information", "why_tests_cant": "All matrices.", "anchors": ["scripts/_g2o_utils.py:parse_g2o"]}
{"id": "C62", "title": "g2o vertex and edge bookkeeping", "statement": "In parse_g2o, pose i of the result is the i-th vertex; every kept edge connects the poses with the listed indices; the pose count limit keeps the first limit+1 SE(2) poses and exactly the edges between kept poses, and ends with one prior on pose 0.", "quantifier": "all files", "why_tests_cant": "All files and limits.", "anchors": ["scripts/_g2o_utils.py:parse_g2o"]}
{"id": "C63", "title": "Verbosity does not change results", "statement": "solve returns the same assignments for verbose=True and verbose=False; when verbose, one line per step and a final one are printed, with iteration numbers 0,1,2,...", "quantifier": "all graphs, solvers, executions", "why_tests_cant": "All executions.", "anchors": ["jaxfg/solvers/_nonlinear_solver_base.py:NonlinearSolverBase._hcb_print"]}
{"id": "C64", "title": "Inexact steps tighten", "statement": "InexactStepConjugateGradientSolver uses tolerance eta/(k+1) in iteration k: positive, strictly decreasing, tending to zero.", "quantifier": "all iterations, eta > 0", "why_tests_cant": "All iterations.", "anchors": ["jaxfg/sparse/_linear_solve.py:InexactStepConjugateGradientSolver._get_cg_tolerance"]}
{"id": "C65", "title": "Recursion depth of covariance queries", "statement": "A first query of entry (0, 0) of a factor whose columns are stored in order and have an entry just below the diagonal nests 2 n - 1 calls of __getitem__ (two stack frames each); if fewer are allowed it raises RecursionError. With Python's default limit of 1000 frames this happens for every such n > 250.", "quantifier": "all n, all such factors, all recursion limits", "why_tests_cant": "Depends on the size for all sizes; tests use small problems.", "anchors": ["jaxfg/experimental/_sparse_covariance.py:SparseCovariance.__getitem__", "jaxfg/experimental/_sparse_covariance.py:SparseCovariance._sum_over_col"]}
{"id": "C66", "title": "Covariance queries out of range", "statement": "SparseCovariance[i, j] with i < n <= j returns 0 instead of raising IndexError, with both indices too large it raises IndexError, and negative indices do not give entries of the covariance: [-1, j] is the negative of the entry for the last row.", "quantifier": "all factors, all indices, all query histories", "why_tests_cant": "Needs all out-of-range indices and all factors.", "anchors": ["jaxfg/experimental/_sparse_covariance.py:SparseCovariance.__getitem__"]}
{"id": "C67", "title": "Retraction and difference of poses are inverse", "statement": "For every Lie variable class: retracting a pose by any step gives a pose again (unit rotation part), also after any number of updates of a whole assignments object; the zero step changes nothing; stepping from x by rminus(x, y) reaches the motion y; a step of less than half a turn is recovered as rminus(x, retract(x, step)).", "quantifier": "all four groups, all poses, all steps, all assignments and update sequences", "why_tests_cant": "Holds for all real poses and steps, including near half turns; tests sample a few.", "anchors": ["jaxfg/geometry/_lie_variables.py:LieVariableBase.manifold_retract", "jaxfg/core/_variable_assignments.py:VariableAssignments.manifold_retract"]}
{"id": "C68", "title": "Retraction Jacobians of poses", "statement": "manifold_retract_jacobian of a Lie variable is the derivative, at step zero, of the parameters of the retracted pose with respect to the step; hence a factor over pose variables that relies on the default Jacobians gets correct ones.", "quantifier": "all four groups, all poses, all factors with differentiable residuals", "why_tests_cant": "Derivatives at all poses, including the removable singularity at step zero.", "anchors": ["jaxfg/geometry/_lie_variables.py:LieVariableBase.manifold_retract_jacobian", "jaxfg/core/_factor_base.py:FactorBase.compute_residual_jacobians"]}
{"id": "C69", "title": "Huber normal equations descend the Huber loss", "statement": "In a graph with Huber-wrapped noise models, A.T @ r (the negated right-hand side of the normal equations) is half the gradient of the sum of Huber losses of the factors. [Not true of the code when a factor is above its threshold: it is half the gradient of a loss that grows with exponent 5/4 there, so a solver can stop where neither the Huber loss nor compute_cost is stationary.]", "quantifier": "all graphs of Gaussian and Huber-wrapped Gaussian factors with correct Jacobians, all assignments, all directions", "why_tests_cant": "A derivative of a sum over all factors at every assignment; tests only see that the optimizer converges somewhere.", "anchors": ["jaxfg/noises/_huber.py:HuberWrapper.whiten_jacobian", "jaxfg/noises/_huber.py:HuberWrapper.whiten_residual_vector", "jaxfg/core/_stacked_factor_graph.py:StackedFactorGraph.compute_whitened_residual_jacobian"]}
{"id": "C70", "title": "Rate of convergence on linear problems", "statement": "On problems whose residual is affine in variables with the default retraction and whose Jacobians have full column rank, all three adaptive solvers approach the global minimum at a known rate: Gauss-Newton multiplies the excess cost by (m/(s+m))^2 per step, where s bounds the eigenvalues of A^T A from below and m is the damping that the linear solver adds on its own (1e-5 for CHOLMOD, 0 for conjugate gradients); Levenberg-Marquardt accepts every step and divides the damping by lambda_factor until the minimum is reached; dogleg accepts every step and triples its radius while steps end on the boundary, at most log_9(cost/(s radius_initial^2)) times rounded up, and then behaves like Gauss-Newton.", "quantifier": "all affine graphs of full column rank, all initial assignments, all settings with step_quality_min <= 1, all numbers of steps", "why_tests_cant": "A rate over all linear problems and all step counts; a test sees a few iterations of one problem.", "anchors": ["jaxfg/solvers/_gauss_newton_solver.py:GaussNewtonSolver._step", "jaxfg/solvers/_levenberg_marquardt_solver.py:LevenbergMarquardtSolver._step", "jaxfg/solvers/_dogleg_solver.py:DoglegSolver._step", "jaxfg/solvers/_mixins.py:_TrustRegionMixin.compute_step_quality", "jaxfg/sparse/_linear_solve.py:CholmodSolver._solve"]}
{"id": "C71", "title": "Solving does not depend on the coordinates of the world", "statement": "Multiply the means of all priors on poses and all initial poses by one motion on the left and leave measurements between poses alone. Then Gauss-Newton, Levenberg-Marquardt, dogleg and the solver with a fixed number of steps return the poses of the original problem multiplied by that motion, after the same number of steps and with the same printed lines; more generally for every change of factors and values that leaves residuals and Jacobians alone and commutes with retractions. This needs parameter_tolerance = 0 and no gradient test (gradient_tolerance_start_step >= max_iterations); with other settings the two runs follow the same path, step by step, but may stop at different steps.", "quantifier": "all pose graphs over SO(2), SE(2), SO(3), SE(3), all motions, all initial poses, all storage orders, all linear solvers whose solutions have the right size", "why_tests_cant": "A relation between two runs of an iterative program for every graph, motion and number of steps.", "anchors": ["jaxfg/solvers/_nonlinear_solver_base.py:NonlinearSolverBase.solve", "jaxfg/solvers/_mixins.py:_TerminationCriteriaMixin.check_convergence", "jaxfg/geometry/_factors.py:PriorFactor.compute_residual_vector", "jaxfg/geometry/_factors.py:BetweenFactor.compute_residual_vector", "jaxfg/geometry/_lie_variables.py:LieVariableBase.manifold_retract"]}
{"id": "C72", "title": "Solving a well-formed problem never raises", "statement": "For a graph of well-formed factors, initial assignments for exactly its variables, and a linear solver that solves every system with a Jacobian of the graph (CHOLMOD always does), solve returns finite numbers in the layout of the initial assignments within max(1, max_iterations) steps: no exception, no endless loop, no infinity or NaN. With initial assignments for other variables, the solvers that convert the storage order raise AssertionError.", "quantifier": "all well-formed graphs whose variables have at least one parameter, all initial values in any storage order, all solver settings with positive damping factor, non-negative damping and positive trust region", "why_tests_cant": "Absence of exceptions and of NaNs in all runs of a nonlinear iteration; tests show it for the runs that were made.", "anchors": ["jaxfg/solvers/_nonlinear_solver_base.py:NonlinearSolverBase.solve", "jaxfg/solvers/_gauss_newton_solver.py:GaussNewtonSolver._step", "jaxfg/solvers/_levenberg_marquardt_solver.py:LevenbergMarquardtSolver._step", "jaxfg/solvers/_dogleg_solver.py:DoglegSolver._step", "jaxfg/solvers/_fixed_iteration_gauss_newton_solver.py:FixedIterationGaussNewtonSolver.solve", "jaxfg/core/_variable_assignments.py:VariableAssignments.update_storage_layout"]}
{"id": "C73", "title": "Solving does not depend on the order of factors and variables", "statement": "If the factors are listed in another order and the initial assignments store the same values in another order, then every solver that returns for one problem returns for the other, after the same number of steps and with the same printed lines, and both results hold the same value of every variable, each in the order of its own input. The direct linear solver and both conjugate gradient solvers give the same solution when equations and unknowns are listed in another order.", "quantifier": "all well-formed graphs whose variables have at least one parameter, all permutations of the factor list, all storage orders, all settings including all termination tests, exact arithmetic", "why_tests_cant": "The order decides grouping, storage positions, sparsity pattern and column order; tests try a few orders of a few graphs.", "anchors": ["jaxfg/core/_stacked_factor_graph.py:StackedFactorGraph.make", "jaxfg/core/_storage_layout.py:StorageLayout.make", "jaxfg/core/_variable_assignments.py:VariableAssignments.update_storage_layout", "jaxfg/solvers/_nonlinear_solver_base.py:NonlinearSolverBase.solve", "jaxfg/solvers/_mixins.py:_TerminationCriteriaMixin.check_convergence", "jaxfg/sparse/_linear_solve.py:CholmodSolver._solve", "jaxfg/sparse/_linear_solve.py:_ConjugateGradientSolver.solve_subproblem"]}
{"id": "C74", "title": "Solving preserves what retractions preserve", "statement": "Every value that a solver returns comes from the initial value of its variable by a sequence of retractions, so every property of values that retractions preserve holds of all returned values if it holds of all initial values; the result has the layout of the initial assignments. In particular, solving a graph of SO(2), SE(2), SO(3) or SE(3) variables from poses returns poses: the complex numbers and quaternions of the result have length one.", "quantifier": "all well-formed graphs whose variables have at least one parameter, all initial assignments in any storage order, all four solvers, all settings with lambda_factor other than zero and positive trust region, all linear solvers whose solutions have the right size, all value properties that retractions preserve, exact arithmetic", "why_tests_cant": "An invariant of every run of the iteration, for every graph and every property; tests check the norm of a few results.", "anchors": ["jaxfg/solvers/_nonlinear_solver_base.py:NonlinearSolverBase.solve", "jaxfg/core/_variable_assignments.py:VariableAssignments.manifold_retract", "jaxfg/geometry/_lie_variables.py:LieVariableBase.manifold_retract", "jaxfg/solvers/_levenberg_marquardt_solver.py:LevenbergMarquardtSolver._step", "jaxfg/solvers/_dogleg_solver.py:DoglegSolver._step", "jaxfg/solvers/_fixed_iteration_gauss_newton_solver.py:FixedIterationGaussNewtonSolver._step"]}
{"id": "C75", "title": "The pose graph script solves the problem that the file describes", "statement": "From the text of a g2o file, scripts/pose_graph_g2o.py builds a graph and initial poses such that the initial assignments hold the poses of the file and, for every choice of poses, the cost of the graph is the objective that the file describes: the sum over the edges of r^T P r with r = log((a^-1 b)^-1 T), plus 100^2 |log(x0^-1 mu0)|^2 for pose 0; with a Huber threshold d each term s becomes min(s, d sqrt(s)). If every pose other than pose 0 is an end of an edge, Gauss-Newton, Levenberg-Marquardt and dogleg return poses for all poses of the file, without exception and within the given number of iterations, and the result consists of rigid motions if the initial poses are. If some pose other than pose 0 is in no edge, these solvers raise AssertionError.", "quantifier": "all texts that the reader accepts, all positive Huber thresholds or none, all poses, all numbers of iterations, exact arithmetic, direct linear solver", "why_tests_cant": "All files, all poses and all iteration counts; the script has no tests at all.", "anchors": ["scripts/pose_graph_g2o.py:main", "scripts/_g2o_utils.py:parse_g2o", "jaxfg/core/_stacked_factor_graph.py:StackedFactorGraph.make", "jaxfg/core/_stacked_factor_graph.py:StackedFactorGraph.compute_cost", "jaxfg/core/_variable_assignments.py:VariableAssignments.make_from_dict", "jaxfg/noises/_huber.py:HuberWrapper.whiten_residual_vector"]}
{"id": "C76", "title": "Gauss-Newton converges locally on nonlinear problems, quadratically if undamped", "statement": "For variables with the default retraction, let e be a stationary point with residual re near which the Jacobian is Lipschitz with constant M and no eigenvalue of A^T A is below s > 0, and let the linear solver add at most mu to A^T A. From a start at distance d0 with k = (M |re| + mu)/s + M d0/(2 sqrt(s)) <= 1, the distance to e after n Gauss-Newton steps is at most k^n d0; if the residual of e is zero and mu = 0, M/(2 sqrt(s)) times the distance is squared in every step. FixedIterationGaussNewtonSolver with n >= 1 iterations returns a point within k^n d0, whether unrolled or not. Graphs of factors with Gaussian noise and correct Jacobians meet the differentiability hypothesis.", "quantifier": "all nonlinear problems of this kind, all starts within the radius, all numbers of steps, all linear solvers with bounded damping (CHOLMOD: mu = 1e-5; exact conjugate gradients: mu = 0), exact arithmetic", "why_tests_cant": "A rate of convergence for all problems and all numbers of steps; tests only see that some runs end near the solution.", "anchors": ["jaxfg/solvers/_gauss_newton_solver.py:GaussNewtonSolver._step", "jaxfg/solvers/_fixed_iteration_gauss_newton_solver.py:FixedIterationGaussNewtonSolver._step", "jaxfg/core/_stacked_factor_graph.py:StackedFactorGraph.compute_whitened_residual_jacobian", "jaxfg/sparse/_linear_solve.py:CholmodSolver.solve_subproblem", "jaxfg/core/_variables.py:VariableBase.manifold_retract"]}
{"id": "C77", "title": "max_iterations only cuts a run short", "statement": "For Gauss-Newton, Levenberg-Marquardt and dogleg: with max_iterations = N the solver goes through the same states, and prints the same lines apart from the maximum shown, as with any larger maximum, until the N-th iteration, after which it stops. A solve call that performed k iterations returns the same assignments for every max_iterations that is at least k, if k was below the original maximum or the new one does not exceed it.", "quantifier": "all scalar types (hence also rounded arithmetic), all graphs, linear solvers, settings and starting points; all pairs of maxima, also negative ones", "why_tests_cant": "It compares unboundedly many pairs of runs; an off-by-one in the comparison with max_iterations, or a step that used the maximum for anything else, shows only for particular pairs.", "anchors": ["jaxfg/solvers/_mixins.py:_TerminationCriteriaMixin.check_exceeded_max_iterations", "jaxfg/solvers/_nonlinear_solver_base.py:NonlinearSolverBase.solve", "jaxfg/solvers/_gauss_newton_solver.py:GaussNewtonSolver._step", "jaxfg/solvers/_levenberg_marquardt_solver.py:LevenbergMarquardtSolver._step", "jaxfg/solvers/_dogleg_solver.py:DoglegSolver._step"]}
{"id": "C78", "title": "Fixed numbers of iterations add up, and Gauss-Newton is a fixed number of iterations", "statement": "FixedIterationGaussNewtonSolver with n iterations, continued from its result with m iterations, has the outcome (result or exception) of n + m iterations, for linear solvers that ignore the iteration counter (CHOLMOD, ConjugateGradientSolver), unrolled or not; with InexactStepConjugateGradientSolver this is false. A Gauss-Newton solve that returned after k iterations gives the result of the fixed-iteration solver with k iterations, whatever its convergence criteria and for every linear solver.", "quantifier": "all scalar types, all graphs, starting points and numbers of iterations n, m >= 1; all Gauss-Newton settings", "why_tests_cant": "Restarting equals continuing only if no state besides the assignments survives an iteration; tests compare a few numbers of iterations.", "anchors": ["jaxfg/solvers/_fixed_iteration_gauss_newton_solver.py:FixedIterationGaussNewtonSolver.solve", "jaxfg/solvers/_fixed_iteration_gauss_newton_solver.py:FixedIterationGaussNewtonSolver._step", "jaxfg/solvers/_gauss_newton_solver.py:GaussNewtonSolver._step", "jaxfg/sparse/_linear_solve.py:InexactStepConjugateGradientSolver._get_cg_tolerance"]}
{"id": "C79", "title": "compute_joint_nll is minus twice the log-likelihood, and least squares is maximum likelihood", "statement": "For Gaussian (full or diagonal) noise models of nonsingular precision P, the factor's error has the density proportional to exp(-r^T P r / 2) with integral one. compute_joint_nll is -2 log of the product of these densities at the factors' residuals, less log(2 pi) for every residual entry; it is not -log of that product plus a constant, which the docstring promises. compute_cost is related to the same product L by L = Z exp(-cost/2) with a positive Z that does not depend on the values, so of two assignments the one with smaller cost has the larger density.", "quantifier": "all graphs with Gaussian noise models of nonsingular precision, all assignments; integrals over all of R^n", "why_tests_cant": "Normalisation of a density is an integral over all residuals; a test compares numbers at a few points with a formula that may be wrong by a factor or by a constant per factor.", "anchors": ["jaxfg/core/_stacked_factor_graph.py:StackedFactorGraph.compute_joint_nll", "jaxfg/core/_stacked_factor_graph.py:StackedFactorGraph.compute_cost", "jaxfg/noises/_gaussians.py:Gaussian", "jaxfg/noises/_gaussians.py:DiagonalGaussian"]}
{"id": "C80", "title": "The example script finds the minimum of its pose graph", "statement": "scripts/pose_graph_simple.py: the cost of its graph is at least 1/3 for all pairs of poses, and 1/3 only for the poses (1/3, 0, angle 0) and (5/3, 0, angle 0). graph.solve(initial_assignments), with the default solver (Gauss-Newton, CHOLMOD), from the default poses, stops after exactly two iterations, prints three lines and returns poses on the x-axis with angle 0 at distance less than 1.1e-10 from the minimum; get_value and get_stacked_value read the two poses. The second call of solve, with the analysis kept by CHOLMOD, returns the same.", "quantifier": "all pairs of poses for the objective; all identities of the variables, all caches that hold nothing or the pattern of this graph's Jacobian", "why_tests_cant": "That there is no better pair of poses is a statement about a six-dimensional nonlinear space; a run of the script shows numbers rounded to a few digits.", "anchors": ["scripts/pose_graph_simple.py:pose_variables", "scripts/pose_graph_simple.py:solution_assignments", "jaxfg/core/_stacked_factor_graph.py:StackedFactorGraph.solve", "jaxfg/solvers/_gauss_newton_solver.py:GaussNewtonSolver", "jaxfg/geometry/_factors.py:PriorFactor", "jaxfg/geometry/_factors.py:BetweenFactor"]}
{"id": "C81", "title": "Independent parts of a problem do not influence each other", "statement": "If some factors of a graph share no variable with the other factors, then n iterations of the fixed-iteration solver on the whole graph give every variable of these factors the value that n iterations on the graph of these factors alone give it, for every exact linear solver with the same positive damping, in particular CHOLMOD. A Gauss-Newton solve of the whole graph that performed k iterations gives these variables the values of k iterations on the part. The cost of a graph is the sum of the costs of the graphs of the factors in and outside of any part.", "quantifier": "all graphs of well-formed factors, all separations into parts, all values, all numbers of iterations, all verbosity and unrolling options, variables with at least one parameter", "why_tests_cant": "Quantifies over all graphs and all ways to split them; grouping by type interleaves the variables and rows of the parts in storage and in the Jacobian.", "anchors": ["jaxfg/solvers/_fixed_iteration_gauss_newton_solver.py:FixedIterationGaussNewtonSolver", "jaxfg/sparse/_linear_solve.py:CholmodSolver._solve", "jaxfg/core/_stacked_factor_graph.py:StackedFactorGraph.make", "jaxfg/core/_stacked_factor_graph.py:StackedFactorGraph.compute_whitened_residual_jacobian"]}
{"id": "C82", "title": "Marginal covariance of one variable under several measurements", "statement": "For every non-empty graph of well-formed factors with Gaussian noise on one variable, SparseCovariance.make followed by compute_marginal of that variable returns the inverse of the sum over the factors of (W J)^T (W J), with rows and columns in the elimination order chosen by CHOLMOD (exactly, for the natural order); make raises when that sum is not positive definite. For prior factors on a pose of any of the four Lie groups made with Gaussian.make_from_covariance(S_i), the result is the inverse of the sum of the S_i^-1, whatever the measurements and the stored pose; for m priors of the same covariance S it is S / m.", "quantifier": "all Lie groups, all numbers of priors, all positive definite covariances, all measurements and stored poses, all cached intermediate results, all orderings chosen by CHOLMOD", "why_tests_cant": "tests/test_marginalization.py checks one and two equal random priors on an SE(2) pose at the identity; the claim is for all covariances, groups, poses and numbers of priors.", "anchors": ["jaxfg/experimental/_sparse_covariance.py:SparseCovariance.make", "jaxfg/experimental/_sparse_covariance.py:SparseCovariance.compute_marginal", "jaxfg/noises/_gaussians.py:Gaussian.make_from_covariance", "jaxfg/geometry/_factors.py:PriorFactor"]}
{"id": "C83", "title": "The pose graph script from text to picture", "statement": "For every g2o text that describes poses and edges, with every pose other than pose 0 an end of an edge, main of scripts/pose_graph_g2o.py returns for each of its four solver types, with or without a Huber threshold: no exception, no endless loop, no infinity or NaN. Its three solves do not influence each other, the result is that of the last one. It has one pose for each pose of the text; they are rigid motions if those of the text are. The drawing is planar exactly if pose 0 is, and shows the initial and the optimized positions of the poses of the kind of pose 0, in the order of the text. If some pose other than pose 0 is in no edge, main raises AssertionError with the three solver types that have a termination test. If the edges mention the poses in their order, graph and assignments have the same storage order. [With FIXED_ITERATION and edges in another order the result can be far from any solution: on a file with three poses and two edges the objective grows from 2 to more than two million while its minimum is 0.] The two timed solves would raise TypeError with FIXED_ITERATION, which has no max_iterations; the isinstance test of the script keeps main from reaching them.", "quantifier": "all texts, all readers of numbers, all line limits, all Huber thresholds, all four solver types, all behaviours of CHOLMOD with a stale analysis", "why_tests_cant": "The scripts have no tests; running one on sample files says nothing about files of mixed dimension, edges in another order, or poses without edges.", "anchors": ["scripts/pose_graph_g2o.py:main", "scripts/pose_graph_g2o.py:SolverType.get_solver", "jaxfg/core/_stacked_factor_graph.py:StackedFactorGraph.solve"]}
{"id": "C84", "title": "The influence of an outlier, as in tests/test_huber.py", "statement": "One planar pose has n measurements at the origin and one at distance t. Gauss-Newton with CHOLMOD, with every setting and whatever it has cached for this graph, returns a solution. Without a Huber wrapper around the outlier its error is t / (n + 1), up to CHOLMOD's relative 1e-5; with a wrapper of threshold delta > t it is the same. With threshold delta <= t, the error e satisfies n e <= delta^(3/4) t^(1/4) <= (n + sqrt(delta / t) + 1e-5) e. Hence test_huber holds for every outlier at distance 800 or more. [The error nevertheless has no bound: it exceeds every bound when t is large enough, whereas the only minimum of the cost that the graph computes is at distance delta / (2 n) from the origin when t >= 3 delta; the cost of the returned solution exceeds that of another pose by any amount.]", "quantifier": "all numbers of measurements, all positions of the outlier, all thresholds, all settings of Gauss-Newton, all contents of CHOLMOD's cache for this graph", "why_tests_cant": "The test in the repository runs one outlier, one threshold and one solver setting.", "anchors": ["tests/test_huber.py:_compute_pose_error_with_outlier", "tests/test_huber.py:test_huber", "jaxfg/noises/_huber.py:HuberWrapper"]}
{"id": "C85", "title": "Damped steps are trust-region steps, and how accurate CHOLMOD is", "statement": "With damping mu = lambd + 1e-5, the step that CHOLMOD returns for min |A x + r|^2 is the only minimum among all steps that are not longer. More damping gives a shorter step and a higher cost of the linearized problem, strictly unless the gradient is zero. If no eigenvalue of A^T A is below sigma, the answer is within mu / (sigma + mu) |y| of the exact solution y, and this is attained for eigenvectors. If no eigenvalue is above kappa, mu x differs from A^T b by at most kappa / (kappa + mu) |A^T b|. The comparison in tests/test_sparse.py holds if |y| <= sigma + 1e-5. [It fails for some well-conditioned matrices of the shape in the test.]", "quantifier": "all sparse matrices of any shape, all right-hand sides, all dampings, all factorizations kept for the same sparsity pattern", "why_tests_cant": "The tests compare CHOLMOD on one random matrix per run at damping zero with a tolerance that its built-in damping can exceed.", "anchors": ["jaxfg/sparse/_linear_solve.py:CholmodSolver", "tests/test_sparse.py:test_solver_no_jit"]}
{"id": "C86", "title": "Every accepted step of the damped solvers pays for its gradient", "statement": "Let the Jacobians satisfy A^T A <= kappa, and let the linear solver add a damping of at most mu(lambd). An accepted Levenberg-Marquardt step from a state whose recorded residual is current lowers the cost by at least step_quality_min |b|^2 / (kappa + mu(lambd)), where b = -A^T r; an accepted dogleg step by at least step_quality_min min(|b|^2 / (kappa + mu(0)), radius |b|). Hence if the first k steps of Levenberg-Marquardt are all accepted and all start with |b| >= eps, then k step_quality_min eps^2 <= (kappa + mu) times the initial cost; with default settings and CHOLMOD, k eps^2 <= 1000 (kappa + 0.00051) times the initial cost. Likewise for dogleg, with radius bounded below.", "quantifier": "all graphs, initial assignments, solver settings with positive step_quality_min, linear solvers of the stated kind, numbers of steps", "why_tests_cant": "Tests observe single runs on fixed problems and no test measures the gradient or the decrease.", "anchors": ["jaxfg/solvers/_levenberg_marquardt_solver.py:LevenbergMarquardtSolver", "jaxfg/solvers/_dogleg_solver.py:DoglegSolver", "jaxfg/solvers/_mixins.py:_TrustRegionMixin"]}
{"id": "C87", "title": "What an early stop says about the gradient", "statement": "If a step from a current state stops Levenberg-Marquardt or dogleg before max_iterations and not through the gradient test, then the gradient b before the step was small: |b|^2 <= (kappa + mu) cost_tolerance cost / step_quality_min, or |b| <= (kappa + mu) (|storage| + parameter_tolerance) parameter_tolerance (dogleg: or |b| <= cost_tolerance cost / (step_quality_min radius), or the radius is below the bound on steps). For Gauss-Newton the second bound holds if the cost test did not stop it. [If the cost test stopped it there is no bound: on some graphs Gauss-Newton with default settings and CHOLMOD stops after one step that leaves the cost unchanged, where the gradient is as large as one likes and other assignments have less than 3/5 of the cost.]", "quantifier": "all graphs, initial assignments, settings, steps of executions; for the bracketed remark all bounds", "why_tests_cant": "The tests only check that solvers return; stopping for the wrong reason looks like convergence.", "anchors": ["jaxfg/solvers/_mixins.py:_TerminationCriteriaMixin", "jaxfg/solvers/_gauss_newton_solver.py:GaussNewtonSolver", "jaxfg/solvers/_levenberg_marquardt_solver.py:LevenbergMarquardtSolver", "jaxfg/solvers/_dogleg_solver.py:DoglegSolver"]}
{"id": "C88", "title": "Solves of one process do not influence each other through compiled functions", "statement": "Two calls of solve share a compiled function exactly if the solvers have the same class and static fields, the graphs have the same kinds of factors in the same order and number, and all layouts give every variable the same place; which variables the factors connect is not compared. In every process, CHOLMOD factorizes the matrices of a call with the analysis of the first call sharing its compiled function, and every solve returns what it would return in a new process. [The last part holds if these calls have the same sparsity pattern. In general it is false: a chain and a star of three scalar variables, each solved with a newly made solver, share the analysis of the chain.]", "quantifier": "all factor classes, graphs, histories of calls, solvers, settings, subproblems and behaviours of CHOLMOD on foreign analyses", "why_tests_cant": "The tests that solve several graphs in one process never compare with a new process, and whether a foreign analysis does harm depends on the graph and on the version of the library.", "anchors": ["jaxfg/sparse/_linear_solve.py:CholmodSolver", "jaxfg/solvers/_nonlinear_solver_base.py:NonlinearSolverBase.solve", "jaxfg/core/_stacked_factor_graph.py:StackedFactorGraph", "jaxfg/core/_factor_stack.py:FactorStack", "jaxfg/core/_storage_layout.py:StorageLayout"]}
{"id": "C89", "title": "Orders of factors and variables do not matter, even for solves in one process", "statement": "The pattern of the normal matrix of a graph consists of the pairs of coordinates of variables that some factor connects. Two calls that share a compiled function have the same pattern of normal matrices exactly if the factors connect the same pairs of variables. If CHOLMOD can use an analysis for every matrix with the same normal pattern, then a process that only solved reorderings of one list of factors solves every further reordering as a new process would, and gives the same values for every order of factors and variables; in particular the loop of tests/test_variable_and_factor_ordering.py gives the same values in all rounds, for all measurements. Some rounds of this test do use the analysis of a Jacobian with another pattern.", "quantifier": "all graphs, orders, histories of calls, measurements, initial values and libraries with this property, variables with at least one parameter", "why_tests_cant": "A test compares some orders of one graph, and cannot tell whether they agree because the analyses were compatible or by luck.", "anchors": ["tests/test_variable_and_factor_ordering.py:test_variable_and_factor_ordering", "jaxfg/sparse/_linear_solve.py:CholmodSolver", "jaxfg/core/_stacked_factor_graph.py:StackedFactorGraph.make", "jaxfg/core/_variable_assignments.py:VariableAssignments.make_from_defaults"]}
{"id": "C90", "title": "With enough damping, or in a small enough trust region, steps are accepted", "statement": "Suppose that after a step d of length at most delta the residual is at most M/2 |d|^2 longer than its linearization (true if the Jacobian is the derivative of the residual and Lipschitz continuous with constant M). Then a Levenberg-Marquardt step from a state with a current residual and a non-zero gradient is accepted, strictly decreases the cost and divides lambd by lambda_factor, if the linear solver damps by at least nu with cost <= 4 nu delta^2 and M sqrt(cost) <= nu (1 - step_quality_min). A dogleg step is accepted if the radius is small in comparison with the gradient. As long as this damping is exceeded, all steps of Levenberg-Marquardt are accepted, and the gradient becomes less than every eps within (kappa + mu)(initial cost) / (step_quality_min eps^2) steps.", "quantifier": "all graphs, states, settings and linear solvers with this damping (CHOLMOD: lambd + 0.00001)", "why_tests_cant": "Tests see some accepted steps; that rejections end is a statement about all problems with bounded curvature.", "anchors": ["jaxfg/solvers/_levenberg_marquardt_solver.py:LevenbergMarquardtSolver", "jaxfg/solvers/_dogleg_solver.py:DoglegSolver", "jaxfg/solvers/_mixins.py:_TrustRegionMixin"]}
{"id": "C91", "title": "Residuals that do not fit the noise model are rejected", "statement": "Evaluating a graph returns exactly if the residual vector of every factor has the size that its noise model says; otherwise it raises. [True for DiagonalGaussian and Huber wrappers around it. With Gaussian, residuals with a single entry are silently repeated: it returns exactly if every residual has the right size, or is multiplied by a matrix and one of the two sizes is one.]", "quantifier": "all graphs, residual functions (returning vectors of any size), noise models and assignments", "why_tests_cant": "All factors of the tests have matching sizes.", "anchors": ["jaxfg/noises/_gaussians.py:Gaussian", "jaxfg/noises/_gaussians.py:DiagonalGaussian", "jaxfg/noises/_huber.py:HuberWrapper", "jaxfg/core/_stacked_factor_graph.py:StackedFactorGraph.compute_whitened_residual_vector"]}
{"id": "C92", "title": "Rows of rejected steps end", "statement": "After a rejected step, Levenberg-Marquardt and dogleg keep the assignments but record the residual of the rejected point, so the next step works with a residual that is not that of its assignments (C42). At assignments with a gradient that is not zero, in a graph whose Jacobian does not depend on the residual (no Huber loss) and whose linearization is accurate to second order, such rows of rejected steps are nevertheless finite. For Levenberg-Marquardt there is a Lambda such that for all settings with lambda_max >= Lambda (lambda_factor = f > 1, step_quality_min (2 + 12 (f + 1)^2) <= 7/8, CHOLMOD) every row of rejected steps from a given state is bounded, whatever residual is recorded; once the damping exceeds Lambda, at most N + 2 steps are rejected, where (3/4)^N |recorded residual|^2 <= 4 cost. For dogleg, a step in a row of rejected steps that starts with a current residual has a radius that is large in comparison with the gradient; the radius halves with each rejection, so the row has at most log2(radius ...) steps if none of its candidates has exactly the current cost.", "quantifier": "all graphs without Huber loss, assignments with a gradient that is not zero, recorded residuals, settings as stated, and rows of rejected steps of any length", "why_tests_cant": "Tests see a few rejected steps on some problems; that the solver recovers from every recorded residual is a statement about all rows of rejected steps.", "anchors": ["jaxfg/solvers/_levenberg_marquardt_solver.py:LevenbergMarquardtSolver", "jaxfg/solvers/_dogleg_solver.py:DoglegSolver", "jaxfg/solvers/_mixins.py:_TrustRegionMixin"]}
{"id": "C93", "title": "Levenberg-Marquardt and dogleg converge near a solution", "statement": "Let e be a point near which (distance at most rho) the Jacobian has smallest squared singular value at least sigma, linearizations predict residuals with an error of at most M/2 times the squared distance, and the gradient part from the residual at e is at most tau times the distance; variables use the default retraction. Start within rho of e at distance delta, with M sqrt(initial cost) <= 3/4 (1 - q) sigma, where q is step_quality_min (for dogleg max(q, 1/4)), with 0 <= q <= 1, and let rate(mu) = (tau + mu) / (sigma + mu) + M / (2 sqrt sigma) delta be below 1 for the initial damping. Then for Levenberg-Marquardt with a lambda_factor of at least 1 and nonnegative lambda_initial and lambda_min the cost never exceeds the initial cost, lambda is divided by lambda_factor in every iteration (which means that the step was accepted) until the solution is reached exactly, and after k iterations the distance to e is at most delta times the product of rate(mu(lambda_initial / factor^j)) for j < k, where mu(lambda) is the damping that the linear solver applies (lambda + 1e-5 for CHOLMOD). For dogleg, with an initial radius of at least 2 delta, the cost never exceeds the initial cost, the radius never falls below its initial value, and after k iterations the distance is at most rate(mu(0))^k delta.", "quantifier": "all graphs, solution points with the stated constants, starting points near them, settings as stated, and numbers of iterations", "why_tests_cant": "A test sees one run from one starting point; the rate is a bound for all graphs and starting points near a solution, and for every number of iterations.", "anchors": ["jaxfg/solvers/_levenberg_marquardt_solver.py:LevenbergMarquardtSolver", "jaxfg/solvers/_dogleg_solver.py:DoglegSolver", "jaxfg/solvers/_mixins.py:_TrustRegionMixin"]}
{"id": "C94", "title": "Helpers keep every entry and every variable", "statement": "pytree_stack(*trees, axis) returns exactly if there is a tree, all trees have one structure and equal leaf shapes, and the axis (negative ones count from the end) exists for every leaf with one axis more. The result has the structure of the trees; in each leaf the new axis is at that position and has the number of trees as its size, and the entry at a multi-index with i at the new axis is the entry of the i-th tree's leaf at the multi-index without it. pytree_concatenate returns exactly if there is a tree, one structure, and the leaf shapes agree except in the axis; the entries of the i-th tree's leaf are found in the result behind those of the leaves before it. stopwatch passes on the result or the exception of its body and prints the time exactly if the body returns. repr of an assignment returns and, if names and values have no line breaks, its lines are a header, one line with position, class name and value for every variable in storage order, and a closing parenthesis. The assertion in FactorStack.__post_init__ holds for all stacks that FactorStack.make builds.", "quantifier": "all lists of pytrees with arrays of any shape, all axes, all bodies and labels, all assignments, and all factors", "why_tests_cant": "Shapes, axes and numbers of trees are unbounded, and the repository has no tests of these helpers.", "anchors": ["jaxfg/utils.py:pytree_stack", "jaxfg/utils.py:pytree_concatenate", "jaxfg/utils.py:stopwatch", "jaxfg/core/_variable_assignments.py:VariableAssignments.__repr__", "jaxfg/core/_factor_stack.py:FactorStack.__post_init__"]}
{"id": "C95", "title": "Levenberg-Marquardt approaches stationary points", "statement": "On a problem with smooth residuals and bounded Jacobians, the gradient of the cost at the iterates of Levenberg-Marquardt comes below any positive number if the solver runs long enough. (False of the code: after a rejected step the next step is computed from the residual of the rejected point, so that the solver can alternate between rejected steps and such steps forever and converge to a point with nonzero gradient, with default damping; with default tolerances it reports convergence there. What holds: if the cost never rises and there are, again and again, accepted steps that start from the residual of their assignments and have bounded damping, the gradient at those comes below any positive number, and the number of such steps with gradient at least eps is bounded.)", "quantifier": "all graphs, executions of any length, all settings with a positive factor and quality threshold and nonnegative damping, all linear solvers that solve damped normal equations; the counterexample for all numbers of iterations", "why_tests_cant": "The claim is about executions of unbounded length on all problems, and the counterexample needs a particular relation between two steps.", "anchors": ["jaxfg/solvers/_levenberg_marquardt_solver.py:LevenbergMarquardtSolver._step", "jaxfg/solvers/_nonlinear_solver_base.py:NonlinearSolverBase.solve", "jaxfg/solvers/_mixins.py:_TerminationCriteriaMixin.check_convergence"]}
{"id": "C96", "title": "Dogleg converges only to stationary points", "statement": "Let the dogleg solver iterate without end on a problem without Huber loss where, at costs up to a bound that the costs of the iterates do not exceed, the Jacobian stretches vectors at most by kappa and its linearization predicts the residual after steps of length at most delta up to M/2 times the squared length; step_quality_min is positive and at most 7/80, the initial radius positive. If the radius does not grow from some iteration on, the gradient at the iterates comes below any positive number, again and again. For variables with the default retraction the same holds if the iterates converge; and if the Jacobian is the derivative of the residual and Lipschitz continuous near the limit, the gradient of the cost at the limit is zero. This is so although steps after a rejection are computed from the residual of the rejected point (which makes it false of Levenberg-Marquardt, C95).", "quantifier": "all graphs, linear solvers that solve damped normal equations, solver settings, starts, and endless executions", "why_tests_cant": "It is about limits of infinitely many iterations, over all smooth problems and all interleavings of rejected and accepted steps.", "anchors": ["jaxfg/solvers/_dogleg_solver.py:DoglegSolver._step", "jaxfg/solvers/_mixins.py:_TrustRegionMixin.compute_step_quality"]}
{"id": "C97", "title": "Gauss-Newton converges only to stationary points, but need not converge", "statement": "Let the steps of GaussNewtonSolver, or of FixedIterationGaussNewtonSolver started in the storage order of the graph, go on without end on a problem with default retractions whose Jacobian is the derivative of the residual and Lipschitz continuous near a point. If the iterates converge to that point, the gradient of the cost is zero there. They need not converge, even near the only minimum of a strictly convex cost: there is a problem with one scalar variable and two infinitely differentiable residuals on which the iterates of Gauss-Newton with CHOLMOD converge to no point from any rational start other than the minimum itself, and every step from within 1/20 of the minimum increases the distance to it by half or more.", "quantifier": "all graphs, linear solvers that solve damped normal equations, solver settings, starts, and endless executions; the counterexample for all rational starts and all stopping tests", "why_tests_cant": "It is about limits of infinitely many iterations over all smooth problems, and about not converging from any of infinitely many starts.", "anchors": ["jaxfg/solvers/_gauss_newton_solver.py:GaussNewtonSolver._step", "jaxfg/solvers/_fixed_iteration_gauss_newton_solver.py:FixedIterationGaussNewtonSolver._step"]}
{"id": "C98", "title": "Rounding errors of sparse products and costs", "statement": "In floating point arithmetic with relative error u per operation, an additional error eta where results underflow, and overflow only above a threshold: an entry of A @ x that is finite comes from finite numbers only and differs from the exact entry by at most ((1+u)^(k+1) - 1) times the same entry of |A| @ |x|, plus 2k (1+u)^k eta, where k is the number of stored entries of that row; a finite cost sum(r**2) of n residuals, added up in any order, has relative error at most (1+u)^(n+pad) - 1 plus (2n+pad)(1+u)^(n+pad) eta, where pad is the number of zeros added along; both are finite if their size plus error does not exceed the threshold. If one computed cost is at most another one, the exact sums of squares satisfy the same up to the factor w/(2-w), w = (1+u)^(n+pad), and the errors where results underflow.", "quantifier": "all floating point arithmetics of the described kind (IEEE in every precision and rounding mode), all well-formed sparse matrices, vectors, orders of entries and of summation", "why_tests_cant": "Error bounds are about all inputs, all magnitudes and all summation orders; tests compare a few results within a tolerance.", "anchors": ["jaxfg/sparse/_sparse_matrix.py:SparseCooMatrix.__matmul__", "jaxfg/core/_stacked_factor_graph.py:StackedFactorGraph.compute_cost"]}
{"id": "C99", "title": "Accepted steps under rounding", "statement": "In floating point, with a positive step_quality_min, every step of Levenberg-Marquardt and dogleg from a finite cost leaves cost and assignments alone, or makes the computed cost strictly smaller, or has a computed predicted change of cost that is not negative. The last case occurs: in double precision Levenberg-Marquardt accepts a first step that raises the cost from 1 to 2.25, because the predicted decrease is rounded to zero and a positive number divided by zero passes the test.", "quantifier": "all floating point arithmetics of the described kind, all graphs, linear solvers, settings and states", "why_tests_cant": "It needs costs whose predicted decrease is lost by rounding, and holds for every state of every execution.", "anchors": ["jaxfg/solvers/_mixins.py:_TrustRegionMixin.compute_step_quality", "jaxfg/solvers/_levenberg_marquardt_solver.py:LevenbergMarquardtSolver._step", "jaxfg/solvers/_dogleg_solver.py:DoglegSolver._step"]}
{"id": "C100", "title": "Meaning of the estimated covariance", "statement": "For linear problems (variables with the default retraction, affine residuals, a fixed Jacobian of full rank) with random measurements whose whitened residual at the true values has mean zero and identity covariance: the global minimum of the cost estimates the true values with errors of mean zero, and the entries that SparseCovariance returns, computed for any outcome of the measurements and at any assignments, are the covariances of these errors (for the variables permuted by the fill-reducing ordering, if CHOLMOD chooses one). No estimate of the form a - B r(a) that is exact for exact measurements has a smaller error variance in any direction. Errors with the mean zero and the covariance of a Gaussian noise model are whitened to mean zero and identity covariance.", "quantifier": "all linear graphs, probability spaces, measurement errors, assignments, histories of queries and orderings", "why_tests_cant": "It is a statement about the distribution of the estimate under every distribution of the errors; a test compares with one known covariance.", "anchors": ["jaxfg/experimental/_sparse_covariance.py:SparseCovariance.make", "jaxfg/experimental/_sparse_covariance.py:SparseCovariance.__getitem__", "jaxfg/core/_stacked_factor_graph.py:StackedFactorGraph.compute_whitened_residual_vector", "jaxfg/noises/_gaussians.py:Gaussian.whiten_residual_vector"]}
{"id": "C101", "title": "More measurements never increase marginal covariances", "statement": "If factors are added to a graph, in any order and with any noise models (Huber included), perhaps with further variables, and both graphs are linearized at the same values, then with the natural CHOLMOD ordering (see C53) every combination of coordinates of variables of the smaller graph has in compute_marginal of the larger graph a variance that is not greater, after any histories of queries. If no variables are added and SparseCovariance.make succeeds for the smaller graph, it succeeds for the larger one, with any ordering.", "quantifier": "all graphs, all added factors, all orders of the factors, all values, all tuples of variables, all combinations, all histories of queries", "why_tests_cant": "The two matrices come from different layouts of different sizes; only one-variable cases are tested.", "anchors": ["jaxfg/experimental/_sparse_covariance.py:SparseCovariance.make", "jaxfg/experimental/_sparse_covariance.py:SparseCovariance.compute_marginal", "jaxfg/core/_stacked_factor_graph.py:StackedFactorGraph.make"]}
{"id": "C102", "title": "With conjugate gradients, the common weight of all measurements does not matter", "statement": "Multiply the square root precisions of all factors, and the thresholds of Huber wrappers, by a positive number w. With conjugate gradients (fixed or inexact tolerances) Gauss-Newton, Levenberg-Marquardt, dogleg and the solver with a fixed number of steps return exactly what they returned for the original graph and print w squared times its costs, if the gradient test is off or its tolerance is scaled by w squared (for variables with the default retraction). The step itself is unchanged for every matrix, right hand side and damping, also where the code divides by zero and where entries are infinite or NaN; with tolerance zero and full column rank it also follows every change of units of single coordinates. With CHOLMOD this is false: the steps depend on the weight.", "quantifier": "all graphs, all noise models, all positive weights, all tolerances, all settings, all initial values, all units", "why_tests_cant": "Tests use one weight per graph and compare solutions of linear problems up to a tolerance.", "anchors": ["jaxfg/sparse/_linear_solve.py:_ConjugateGradientSolver", "jaxfg/sparse/_linear_solve.py:CholmodSolver", "jaxfg/noises/_gaussians.py:Gaussian", "jaxfg/noises/_huber.py:HuberWrapper"]}
{"id": "C103", "title": "How accurate the results of solve are on linear problems", "statement": "Take factors with Gaussian noise whose residuals are affine, variables with the default retraction, and let the whitened residuals change by at least sigma times as much as the values (squared). Then there is exactly one optimum. With CHOLMOD, solve returns from all initial values in all storage orders; the excess of the returned cost over the optimum is at most (mu/(sigma+mu))^2 times the initial excess, where mu is 1e-5 for Gauss-Newton, lambda_initial + 1e-5 for Levenberg-Marquardt, and 1e-5 for dogleg if the initial radius is at least the square root of cost/sigma; sigma times the squared distance from the optimum is at most the excess. The fixed-iteration solver with n >= 1 iterations, from storage in the order of the graph, multiplies the excess by at most the n-th power of the Gauss-Newton bound. In particular the test of variable and factor orders finds, for all measurements, the least-squares solution x = p1 - d/4, y = p2 + d/4, z = q1 - p1 + d/2 (d = p1 - p2 - q1 + q2) up to a relative error of 8e-10 in the squares, in every round.", "quantifier": "all linear graphs, all initial values, all storage orders, all tolerances and iteration limits, all measurements of the test", "why_tests_cant": "The tests compare a solution with itself under reorderings, or with one known solution; none bounds the error for all problems.", "anchors": ["jaxfg/solvers/_gauss_newton_solver.py:GaussNewtonSolver", "jaxfg/solvers/_levenberg_marquardt_solver.py:LevenbergMarquardtSolver", "jaxfg/solvers/_dogleg_solver.py:DoglegSolver", "jaxfg/solvers/_fixed_iteration_gauss_newton_solver.py:FixedIterationGaussNewtonSolver", "jaxfg/sparse/_linear_solve.py:CholmodSolver", "tests/test_variable_and_factor_ordering.py:test_variable_and_factor_ordering"]}
{"id": "C104", "title": "Covariances exist exactly for anchored pose graphs", "statement": "In a graph of prior and between factors over SO2, SE2, SO3 and SE3 variables whose noise models are blind in no direction (Huber wrappers allowed), linearized at any poses, good or bad: SparseCovariance.make succeeds if every pose is tied to the world, that is has a prior or is connected to a pose with a prior by a chain of between factors in either direction; if one pose is not, make raises.", "quantifier": "all pose graphs over the four groups, all measurements, all noise models without blind directions, all poses, all CHOLMOD orderings", "why_tests_cant": "The tests take covariances of one-pose and two-pose graphs in which every pose has a prior; chains of between factors, unanchored components and other groups are infinitely many.", "anchors": ["jaxfg/experimental/_sparse_covariance.py:SparseCovariance.make", "jaxfg/geometry/_factors.py:PriorFactor", "jaxfg/geometry/_factors.py:BetweenFactor", "jaxfg/core/_stacked_factor_graph.py:StackedFactorGraph.compute_whitened_residual_jacobian"]}
{"id": "C105", "title": "The tests of covariances pass for all draws", "statement": "If CHOLMOD keeps the natural order of the coordinates, test_marginalization and test_marginalization_double pass for every draw of a matrix that is not singular (and for any number of equal priors), and test_marginalization_as_dense passes for all measured poses and whatever poses graph.solve returns: the recursive mode of as_dense, its inverting mode and the inverse of the dense information matrix agree. If CHOLMOD changed the order of three coordinates, the first two tests would fail for the draw diag(1, 2, 3).", "quantifier": "all non-singular draws, all numbers of priors, all measured poses, all returned poses, all numbers of existing variables, all CHOLMOD choices of stored zeros", "why_tests_cant": "Each run of the tests sees one random draw and one solution; that no draw fails, and that the result depends on the ordering, needs a proof.", "anchors": ["tests/test_marginalization.py:test_marginalization", "tests/test_marginalization.py:test_marginalization_double", "tests/test_marginalization.py:test_marginalization_as_dense", "jaxfg/experimental/_sparse_covariance.py:SparseCovariance", "jaxfg/noises/_gaussians.py:Gaussian.make_from_covariance"]}
{"id": "C106", "title": "The integration test passes", "statement": "In tests/test_integration.py the Jacobians of both factors are the derivatives of their residuals unless v2.b is 7. The cost of the graph is at least 117/8 for all values, and 117/8 only at (2, 3), 19/4 and (3, 2), 21/4. graph.solve from the default values returns after exactly four iterations, printing the cost 25 first, with a cost of 117/8 up to 7e-7 and values within 1e-3 of the minimum; the costs decrease, v2.b stays below 7, where the square root is differentiable, and the assertion of the test holds.", "quantifier": "all values of the variables (Jacobians, objective); all numbers of existing variables, all states of the CHOLMOD cache that earlier solves of the same graph leave, all behaviours of CHOLMOD on stale analyses, all numbers of loop steps from four (solution)", "why_tests_cant": "The test only compares two numbers of one run; it does not show that the result is the minimum over all values, nor that the square root, which is not differentiable at 7, is never differentiated there.", "anchors": ["tests/test_integration.py:UniFactor.compute_residual_vector", "tests/test_integration.py:BiFactor.compute_residual_vector", "tests/test_integration.py:test_integration", "jaxfg/core/_stacked_factor_graph.py:StackedFactorGraph.compute_joint_nll", "jaxfg/solvers/_gauss_newton_solver.py:GaussNewtonSolver._step"]}
{"id": "C107", "title": "For which draws the tests of the linear solvers pass", "statement": "The tests in tests/test_sparse.py draw a matrix A and a vector ATb at random. If the columns of A are linearly dependent (a zero column is enough), they fail with every solver. Otherwise the test with an unused CholmodSolver passes if and only if |w_i| <= 1 + |x_i| for all i, where x solves AᵀA x = ATb and w solves (AᵀA + 0.00001) w = x; it fails, for instance, for a matrix with 0.1 on the diagonal and ATb = (1, 0, 0, 0, 0), because the solver adds 0.00001 although lambd is zero. If |Av|² >= sigma |v|² and |ATb| <= 1000 sigma, the tests of both conjugate gradient solvers pass in exact arithmetic, and the one of CHOLMOD too if |x| <= sigma + 0.00001.", "quantifier": "all drawn matrices of any shape, all drawn vectors, all analyses that other solver objects left in the cache", "why_tests_cant": "A run of the tests sees one draw; whether they can fail, and for which draws, is a statement about all of them.", "anchors": ["tests/test_sparse.py:test_solver_no_jit", "tests/test_sparse.py:test_solver_jit", "jaxfg/sparse/_linear_solve.py:CholmodSolver.solve_subproblem", "jaxfg/sparse/_linear_solve.py:_ConjugateGradientSolver.solve_subproblem", "jaxfg/sparse/_sparse_matrix.py:SparseCooMatrix.from_scipy_coo_matrix"]}
{"id": "C108", "title": "The tests of the three solvers on a pose graph pass, and how", "statement": "The three tests in tests/test_pose_graphs.py pass in exact arithmetic. Gauss-Newton with CHOLMOD stops after two iterations with a cost of at most 1/3 + 3e-20 (the minimum is 1/3). Levenberg-Marquardt with the conjugate gradient solver, which solves its systems only up to a relative error of 1e-5, accepts its two steps, halves its damping from 1/2000 to 1/4000, and stops after these two iterations with a cost of at most 1/3 + 1e-12. Dogleg cuts its first step off at the radius 1, which leaves the cost 38/5 - 2√10, then takes two Gauss-Newton steps inside the radius 3, and stops after these three iterations with a cost of at most 1/3 + 1e-19. The cost is less than at the start, and both ways of reading the poses from the solution agree.", "quantifier": "all numbers of variables created before, all analyses that other solver objects left in the cache, all fuels of at least the number of iterations", "why_tests_cant": "The tests only compare the cost at the start with that at the end; that the iterations are these, that the cost is within 1e-12 of the minimum, and that the result does not depend on what ran before in the process is not observed.", "anchors": ["tests/test_pose_graphs.py:test_pose_graph_gauss_newton", "tests/test_pose_graphs.py:test_pose_graph_levenberg_marquardt", "tests/test_pose_graphs.py:test_pose_graph_dogleg", "jaxfg/solvers/_levenberg_marquardt_solver.py:LevenbergMarquardtSolver._step", "jaxfg/solvers/_dogleg_solver.py:DoglegSolver._step", "jaxfg/sparse/_linear_solve.py:ConjugateGradientSolver"]}
{"id": "C109", "title": "Conjugate gradients and columns of zeros", "statement": "The conjugate gradient solvers divide by the diagonal of AᵀA. If no column of A is zero, they compute with finite numbers only and solve the damped normal equations up to their tolerance, for every A, even if its columns are linearly dependent. If a column is zero and the gradient is not zero, every entry of the step is NaN, for every damping. CHOLMOD is not affected: its step is zero for such a column and has no component along directions in which A vanishes. Consequently, where one coordinate of one variable does not change the residuals to first order, the nonlinear solvers with conjugate gradients (and without Huber losses) do not report anything but fail: Levenberg-Marquardt never moves and returns its start after the maximum number of iterations; dogleg too if its radius exceeds the length of the steepest descent step; Gauss-Newton returns NaN for all variables.", "quantifier": "all matrices, residuals, dampings, tolerances with |tolerance| < 1, graphs, assignments and settings of the solvers", "why_tests_cant": "The tests of the conjugate gradient solvers use matrices of full column rank, so the division by zero and what the nonlinear solvers do with a step of NaN is not exercised.", "anchors": ["jaxfg/sparse/_linear_solve.py:_ConjugateGradientSolver.solve_subproblem", "jaxfg/sparse/_linear_solve.py:CholmodSolver.solve_subproblem", "jaxfg/solvers/_levenberg_marquardt_solver.py:LevenbergMarquardtSolver._step", "jaxfg/solvers/_dogleg_solver.py:DoglegSolver._step", "jaxfg/solvers/_gauss_newton_solver.py:GaussNewtonSolver._step", "jaxfg/solvers/_mixins.py:_TerminationCriteriaMixin.check_convergence"]}
{"id": "C110", "title": "Where no column of the Jacobian vanishes, solvers with conjugate gradients compute with finite numbers only", "statement": "Let P be a set of assignments that retractions do not leave and in which no Jacobian has a column of zeros (for example because all have full column rank), and let the initial values, in the order of the graph, be in P. With conjugate gradients (any fixed or inexact tolerances) Gauss-Newton, Levenberg-Marquardt, dogleg and the solver with a fixed number of steps then do the same, step by step, in arithmetic with infinities and NaN and in real numbers: no division by zero puts an infinity or NaN into a step. Therefore what is proved for conjugate gradients in real numbers, like that the common weight of all measurements does not matter (C102), holds for the code on these problems.", "quantifier": "all graphs, all sets P, all tolerances, all settings with positive lambda_factor, nonnegative lambdas and a positive radius, all initial values in P, all fuels", "why_tests_cant": "The tests with conjugate gradients solve a handful of problems, in which no column vanishes.", "anchors": ["jaxfg/sparse/_linear_solve.py:_ConjugateGradientSolver", "jaxfg/solvers/_gauss_newton_solver.py:GaussNewtonSolver._step", "jaxfg/solvers/_levenberg_marquardt_solver.py:LevenbergMarquardtSolver._step", "jaxfg/solvers/_dogleg_solver.py:DoglegSolver._step", "jaxfg/solvers/_fixed_iteration_gauss_newton_solver.py:FixedIterationGaussNewtonSolver.solve"]}
{"id": "C111", "title": "What the damped solvers do with costs that are NaN or infinite", "statement": "In arithmetic with infinities and NaN, for every graph, linear solver and setting: Levenberg-Marquardt and dogleg reject every proposal whose cost is NaN, so that the returned assignments have a cost that is not NaN if the initial ones do. From initial assignments whose cost is NaN or infinite they reject every proposal: they use up max_iterations and return the initial assignments. After a rejected proposal they keep its residual: if the residual is NaN and NaN passes through the linear solver, Levenberg-Marquardt accepts no later step, whatever the damping; for the residual sqrt(x) with CHOLMOD and default settings this happens after the first step from x = 1. With conjugate gradients a NaN right-hand side gives a step of zeros, after which Levenberg-Marquardt goes on from the right residual with more damping. Dogleg does not shrink its trust region after a proposal with cost NaN. The arithmetic meant is that of IEEE without rounding and with one zero: the operations and comparisons of extended real numbers where defined, NaN otherwise, all comparisons with NaN false.", "quantifier": "all graphs, linear solvers, settings, initial assignments and fuels on extended reals; for sqrt(x) all starts v > 0 with v (lambda + 1e-5) < 1/4", "why_tests_cant": "No test has a factor whose residual is undefined somewhere.", "anchors": ["jaxfg/solvers/_levenberg_marquardt_solver.py:LevenbergMarquardtSolver._step", "jaxfg/solvers/_dogleg_solver.py:DoglegSolver._step", "jaxfg/solvers/_mixins.py:_TrustRegionMixin.compute_step_quality", "jaxfg/sparse/_linear_solve.py:_ConjugateGradientSolver"]}
{"id": "C112", "title": "Solvers with conjugate gradients return poses on every pose graph", "statement": "For every graph of prior and between factors over SO(2), SE(2), SO(3) and SE(3), with noise models that are blind in no direction (also under Huber wrappers), from all initial poses, and with conjugate gradients of any tolerances: no Jacobian lists only zeros for a column, whether the poses are tied to the world by priors or not, and also if a between factor relates a pose to itself. In arithmetic with infinities and NaN, Gauss-Newton, Levenberg-Marquardt, dogleg and the solver with a fixed number of steps (the latter from the storage order of the graph) then return after at most max(1, max_iterations) steps, without raising, and what they return are poses: complex numbers and quaternions of length one, without NaN. More generally solvers with conjugate gradients return finite numbers on every graph where no Jacobian lists only zeros for a column.", "quantifier": "all pose graphs, noise models, initial poses, tolerances, numbers of iterations and settings with positive damping factor, non-negative damping, positive trust region", "why_tests_cant": "The tests solve pose graphs with two poses, both with a prior; singular systems of unanchored graphs, where conjugate gradients divide by inner products that could vanish, are not tested.", "anchors": ["jaxfg/sparse/_linear_solve.py:_ConjugateGradientSolver", "jaxfg/geometry/_factors.py:PriorFactor", "jaxfg/geometry/_factors.py:BetweenFactor", "jaxfg/solvers/_nonlinear_solver_base.py:NonlinearSolverBase.solve", "jaxfg/core/_variable_assignments.py:VariableAssignments.manifold_retract"]}
{"id": "C113", "title": "Solvers with CHOLMOD do not move along directions that no measurement sees", "statement": "Let all variables use the default (additive) retraction, let the Jacobians be the derivatives of the residuals, and let u be a direction of motion (one vector per variable) along which moving all variables together changes no residual. Then whatever Gauss-Newton, Levenberg-Marquardt, dogleg and the solver with a fixed number of steps (the latter from the storage order of the graph) return with CHOLMOD, and with every linear solver whose solutions are orthogonal to the kernel of the Jacobian, has the same inner product with u as the initial values: the mean of numbers that are only tied by measurements of differences stays at the mean of the initial guess. This holds for all noise models, also under Huber wrappers and also if the problem is not linear. CHOLMOD's solutions are orthogonal to the kernel for every damping. Conjugate gradients with the Jacobi preconditioner are orthogonal to the kernel in other weights, the squared norms of the columns: on two measurements of differences in a chain of three numbers they move the sum, even if they converge exactly.", "quantifier": "all graphs over variables with default retraction, directions, initial values, settings with non-zero damping factor and positive trust region, numbers of iterations", "why_tests_cant": "The tests only solve problems with a unique solution, where no such direction exists.", "anchors": ["jaxfg/sparse/_linear_solve.py:CholmodSolver._solve", "jaxfg/sparse/_linear_solve.py:_ConjugateGradientSolver", "jaxfg/solvers/_nonlinear_solver_base.py:NonlinearSolverBase.solve", "jaxfg/core/_variable_assignments.py:VariableAssignments.manifold_retract"]}
{"id": "C114", "title": "Storage made from integers rounds every solver step towards zero", "statement": "The storage of assignments is an integer array exactly if an integer value is given for every variable; one floating-point value or one default makes it floating point. On floating-point storage set_value and manifold_retract store values exactly as they are; on integer storage they store them rounded towards zero, without raising, and the dtype never changes. update_storage_layout moves the numbers and keeps the dtype. Hence every solver that starts from integer storage returns integers. For a scalar with one measurement that says n + 1, of any non-zero weight, and the integer initial value n, Gauss-Newton with CHOLMOD returns n with every setting, although n + 1 has cost zero; an integer rotation of the plane moved by an angle that is no multiple of a right angle is stored as (0, 0), which is no rotation.", "quantifier": "all variable classes with sane retractions, dictionaries of values, values written, deltas, graphs, initial values, settings; all n and weights", "why_tests_cant": "All tests and scripts start from floating-point values.", "anchors": ["jaxfg/core/_variable_assignments.py:VariableAssignments.make_from_partial_dict", "jaxfg/core/_variable_assignments.py:VariableAssignments.set_value", "jaxfg/core/_variable_assignments.py:VariableAssignments.update_storage_layout", "jaxfg/core/_variable_assignments.py:VariableAssignments.manifold_retract"]}
{"id": "C115", "title": "Solvers with CHOLMOD go to the optimum closest to the initial values on linear problems without a unique solution", "statement": "Let all factors be affine with Gaussian noise and all variables use the default retraction; the measurements need not determine the variables. Then there is a sigma > 0 such that the measurements determine whatever they see of the variables up to sigma: any two choices of values differ, after moving the second one where no residual changes, by at most the change of the whitened residuals over sigma (both squared). The problem has optima, and exactly one of them is closest to given initial values. For every such sigma, Gauss-Newton, Levenberg-Marquardt and dogleg with a large enough initial region (sigma radius^2 at least the initial cost), with CHOLMOD, return values whose cost exceeds the least cost by at most (mu / (sigma + mu))^2 times the initial excess, where mu is the damping of the first step (1e-5, plus lambda_initial for Levenberg-Marquardt), and whose squared distance from the optimum closest to the initial values is at most the remaining excess over sigma. The fixed-iteration solver with n >= 1 iterations does the same with the n-th power of the Gauss-Newton bound. For the pair factors of the ordering test without the priors (x + z and y + z are measured), Gauss-Newton returns the orthogonal projection of the initial values up to a relative error of 1e-10.", "quantifier": "all linear graphs with Gaussian noise, all initial values and storage orders, all settings in the stated ranges", "why_tests_cant": "The tests only solve problems with a unique solution; where there are many, a test cannot tell a drift along the optima from a legitimate answer.", "anchors": ["jaxfg/sparse/_linear_solve.py:CholmodSolver._solve", "jaxfg/solvers/_nonlinear_solver_base.py:NonlinearSolverBase.solve", "jaxfg/solvers/_gauss_newton_solver.py:GaussNewtonSolver._step", "jaxfg/solvers/_levenberg_marquardt_solver.py:LevenbergMarquardtSolver._step", "jaxfg/solvers/_dogleg_solver.py:DoglegSolver._step", "jaxfg/solvers/_fixed_iteration_gauss_newton_solver.py:FixedIterationGaussNewtonSolver.solve"]}
{"id": "C116", "title": "With Huber wrappers, Gauss-Newton converges on linear problems, from everywhere, to the least 5/4-power loss", "statement": "Let all factors be affine with Gaussian or diagonal noise, some of them wrapped by Huber, let all variables use the default retraction, and let the residuals whitened without Huber weights determine the variables up to sigma > 0 (both squared). Then the total of the losses that are quadratic below the thresholds and grow with exponent 5/4 above them is least for exactly one choice of values; and it is least wherever the right-hand side of the normal equations is zero. From all initial values, k steps of Gauss-Newton or of the fixed-iteration solver, with a linear solver that damps by at most mu, never increase this loss and multiply its excess over the least loss by at most (1 - m sigma / (sigma + mu))^k; m sigma / 2 times the squared distance from the optimum is at most the remaining excess. Here m > 0 depends on the thresholds and the initial loss only. So the results of the fixed-iteration solver with CHOLMOD tend to that optimum as the number of iterations grows. For a measurement 0 with weight 4 and an outlier at 129/8 with threshold 1 the limit is 1/8 from every initial value, where the Huber loss has derivative 2 and the reported cost has derivative 3.", "quantifier": "all linear graphs with Huber wrappers whose measurements determine the variables, all initial values, all storage orders (Gauss-Newton) and all numbers of iterations", "why_tests_cant": "The one Huber test compares one result with a loose bound; it cannot show that the iteration converges from all initial values, nor to what.", "anchors": ["jaxfg/noises/_huber.py:HuberWrapper.whiten_residual_vector", "jaxfg/noises/_huber.py:HuberWrapper.whiten_jacobian", "jaxfg/solvers/_gauss_newton_solver.py:GaussNewtonSolver._step", "jaxfg/solvers/_fixed_iteration_gauss_newton_solver.py:FixedIterationGaussNewtonSolver.solve", "jaxfg/core/_stacked_factor_graph.py:StackedFactorGraph.compute_whitened_residual_jacobian"]}
{"id": "C117", "title": "On graphs of planar rotations the solvers do linear least squares in angles, up to whole turns", "statement": "Let all variables be SO2 variables and all factors prior or between factors with scalar Gaussian or diagonal weights w_f. Describe rotations and measurements by angles; the cost is at most the sum of the squared weighted differences of measured and actual angles, and equal to it if every difference is less than half a turn. Any rotations whose cost is below w_f^2 pi^2 for every factor can be described by angles such that no angles with at most that sum miss a measurement by half a turn or more. From such rotations, if the measurements determine the angles up to sigma > 0 (which they do when all weights are non-zero and every variable is connected to a prior), Gauss-Newton and the fixed-iteration solver with a linear solver that damps by at most mu behave as on a linear problem: after k steps the cost is still the sum of squared differences of angles, its excess over that of any other angles is at most (mu / (sigma + mu))^(2k) times the initial one, and sigma times the squared distance from the unique best angles is at most the excess over the least. Levenberg-Marquardt and dogleg with a minimum step quality of at most 1 do so too: for Levenberg-Marquardt the i-th step has the damping mu(lambda_initial / lambda_factor^i) in place of mu, and for dogleg the first K steps do not count, where K triplings of the radius make sigma radius^2 at least the initial cost. The best angles are best among those with the same whole turns only: for three rotations in a ring, each measured to equal the next and the first measured to be the identity, Gauss-Newton, and also Levenberg-Marquardt and dogleg with CHOLMOD and default settings, from thirds of a turn returns the initial rotations with cost 4 pi^2 / 3, although the identities have cost 0.", "quantifier": "all graphs of planar rotations with prior and between factors, all weights, measurements and initial rotations in the stated region, all storage orders (but for the fixed-iteration solver) and numbers of iterations", "why_tests_cant": "The rotation tests start close to the answer; they cannot show how large the region of convergence is, at what rate the solver converges in it, or that a ring of rotations has stable wrong answers.", "anchors": ["jaxfg/geometry/_factors.py:PriorFactor", "jaxfg/geometry/_factors.py:BetweenFactor", "jaxfg/geometry/_lie_variables.py:SO2Variable", "jaxfg/solvers/_gauss_newton_solver.py:GaussNewtonSolver._step", "jaxfg/solvers/_fixed_iteration_gauss_newton_solver.py:FixedIterationGaussNewtonSolver.solve"]}
{"id": "C118", "title": "Which of the two quaternions of a rotation is stored does not matter, except at half turns", "statement": "A unit quaternion and its negative describe the same rotation of space. In a graph of prior and between factors over SO2, SE2, SO3 and SE3 variables, replace any of the quaternions of measurements and initial poses by their negatives. As long as no measurement is off by exactly half a turn, cost and residuals stay what they are. If a solver meets no such half turn, it returns, from the replaced problem, the same poses with the replaced quaternions and prints the same lines: for Gauss-Newton, Levenberg-Marquardt and dogleg with the gradient test switched off, and for the fixed-iteration solver. Both exceptions are real: at a half turn the cost can depend on the sign, and the gradient test, which takes a maximum of stored numbers without absolute values, can pass for a quaternion and fail for its negative.", "quantifier": "all pose graphs, noise models, linear solvers, settings, initial poses, storage orders and choices of signs", "why_tests_cant": "Tests store one quaternion per rotation; the signs multiply to two to the number of poses and measurements, and files from different tools choose differently.", "anchors": ["jaxfg/geometry/_factors.py:PriorFactor", "jaxfg/geometry/_factors.py:BetweenFactor", "jaxfg/geometry/_lie_variables.py:SO3Variable", "jaxfg/solvers/_mixins.py:_TerminationCriteriaMixin.check_convergence", "jaxfg/core/_stacked_factor_graph.py:StackedFactorGraph.solve"]}
{"id": "C119", "title": "Only the information in the measurements counts", "statement": "Take two lists of factors over the same variables that measure the same quantities (same residual function, variables and measured value) with the same total precision: for every quantity, the precision matrices (transposed square root times square root) of the factors without Huber wrapper that measure it have the same sum; factors with a Huber wrapper are the same. Then both problems have the same cost at equal values, and Gauss-Newton, Levenberg-Marquardt, dogleg and the fixed-iteration solver, started from equal values in any storage order, return equal values after the same number of iterations with the same printed lines. So it does not matter how often a quantity is measured, how the precision is split, which square root is stored, as a full or as a diagonal matrix, and in which order factors and variables come. This holds for CHOLMOD and for the conjugate gradient solvers, even if they stop early. It fails for measurements with a Huber wrapper: several of them cannot be merged into one.", "quantifier": "all lists of factors with the same information, variable classes, residual functions that do not read the noise model, noise models, solver settings, linear solvers that depend on the normal equations only, initial values and orders", "why_tests_cant": "Square roots of a precision matrix form a continuum (any orthogonal factor), and precisions can be split in infinitely many ways.", "anchors": ["jaxfg/noises/_gaussians.py:Gaussian", "jaxfg/noises/_gaussians.py:DiagonalGaussian", "jaxfg/core/_stacked_factor_graph.py:StackedFactorGraph.solve", "jaxfg/sparse/_linear_solve.py:CholmodSolver.solve_subproblem", "jaxfg/sparse/_linear_solve.py:_ConjugateGradientSolver.solve_subproblem"]}
{"id": "C120", "title": "Thresholds that no residual reaches do not matter", "statement": "Take two lists of factors that differ only in Huber wrappers: their thresholds, how many there are, or whether there are any. If a run of a solver on the first problem returns and at every assignment at which it has evaluated the cost the norms of all weighted residuals were below all thresholds, then the solver returns for the second problem the same result after the same number of iterations with the same printed lines. This holds for Gauss-Newton, Levenberg-Marquardt, dogleg and the fixed-iteration solver, although wrappers change the groups of the factors and so the order of all rows. In particular wrappers around measurements of planar rotations with weight s and thresholds above pi s never have an effect.", "quantifier": "all lists of factors that differ in wrappers, variable classes, residual functions that do not read the noise model, solver settings, linear solvers that do not depend on the order of the equations, initial values", "why_tests_cant": "It compares whole runs on all problems with all thresholds; a wrong weight could act only near the threshold or only in the Jacobian.", "anchors": ["jaxfg/noises/_huber.py:HuberWrapper", "jaxfg/core/_stacked_factor_graph.py:StackedFactorGraph.make", "jaxfg/core/_stacked_factor_graph.py:StackedFactorGraph.solve"]}
{"id": "C121", "title": "Estimated covariances do not depend on how the problem is presented", "statement": "Problems with the same information (C119: other orders of factors, merged or split measurements, other square roots of the precisions), pose graphs in other coordinates of the world, with other signs of stored quaternions away from half turns, or with Huber wrappers that no residual reaches: SparseCovariance.make succeeds for both or for none, and compute_marginal returns exactly the same matrix for any list of variables, after any histories of queries. (Natural order of CHOLMOD, exact arithmetic.)", "quantifier": "all pairs of such problems, all assignments in any storage orders, all lists of variables, all query histories", "why_tests_cant": "Pairs of problems and histories.", "anchors": ["jaxfg/experimental/_sparse_covariance.py:SparseCovariance.make", "jaxfg/experimental/_sparse_covariance.py:SparseCovariance.compute_marginal", "jaxfg/core/_stacked_factor_graph.py:StackedFactorGraph.compute_whitened_residual_jacobian"]}
{"id": "C122", "title": "Which objects the variables are, and how they are divided into classes, does not matter", "statement": "Take a problem and replace its variables by other variable objects (created in another order, with other identities), possibly of other variable classes with the same default values and retractions (classes split or merged), its factors possibly by factors of other classes with the same residuals and Jacobians, in any order. From the same values the cost is the same, and Gauss-Newton, Levenberg-Marquardt, dogleg and the fixed-iteration solver return for both or for none, after the same number of steps, with the same printed lines and the same value for every variable. The covariance objects exist for both or for none and answer corresponding questions with the same matrices (natural order of CHOLMOD).", "quantifier": "all graphs of well-formed factors, all such renamings, all storage orders, all solver settings, every linear solver that does not depend on the order of equations and unknowns (C73)", "why_tests_cant": "Pairs of problems with arbitrarily many variables and classes.", "anchors": ["jaxfg/core/_variables.py:VariableBase", "jaxfg/core/_stacked_factor_graph.py:StackedFactorGraph.make", "jaxfg/core/_storage_layout.py:StorageLayout.make", "jaxfg/core/_factor_base.py:FactorBase.anonymize_variables", "jaxfg/solvers/_nonlinear_solver_base.py:NonlinearSolverBase.solve", "jaxfg/experimental/_sparse_covariance.py:SparseCovariance.compute_marginal"]}
{"id": "C123", "title": "Sparse matrices with batch axes", "statement": "For a SparseCooMatrix whose arrays have the documented shape (*, N), A @ x is the batch of the products of the matrices with x, A.T is the batch of the transposes and as_dense() the batch of the dense matrices. (False of the code for @ and as_dense: with batch axes A @ x is a single vector, the sum of the products of all matrices of the batch; as_dense writes all matrices into one; a batch of values with shared coordinates raises ValueError, and so does the conversion to scipy.)", "quantifier": "all batch shapes, all matrices with coordinates in range, repeated coordinates allowed, all vectors", "why_tests_cant": "All shapes and values.", "anchors": ["jaxfg/sparse/_sparse_matrix.py:SparseCooMatrix.__matmul__", "jaxfg/sparse/_sparse_matrix.py:SparseCooMatrix.as_dense", "jaxfg/sparse/_sparse_matrix.py:SparseCooMatrix.T", "jaxfg/sparse/_sparse_matrix.py:SparseCooMatrix.as_scipy_coo_matrix", "jaxfg/sparse/_sparse_matrix.py:SparseCooCoordinates"]}
{"id": "C124", "title": "Noise models that are not square are rejected", "statement": "Evaluating a graph with a Gaussian noise model whose square root precision matrix is not square raises. [False in general: only the totals of rows and of columns over the graph are compared. It is true if no matrix has more rows than columns, or none fewer; and compute_joint_nll always raises. If the residual vector is computed, its length is the total of the rows, which then equals the total of the columns.]", "quantifier": "all graphs, noise arrays of any shapes, residual functions and assignments", "why_tests_cant": "All noise models of the tests are square; wrong Jacobians need a combination of matrices whose totals agree.", "anchors": ["jaxfg/noises/_gaussians.py:Gaussian", "jaxfg/core/_stacked_factor_graph.py:StackedFactorGraph.compute_whitened_residual_vector", "jaxfg/core/_stacked_factor_graph.py:StackedFactorGraph.compute_whitened_residual_jacobian", "jaxfg/core/_stacked_factor_graph.py:StackedFactorGraph.compute_joint_nll"]}
{"id": "C125", "title": "Solvers stay at local minima, and exact fits are isolated", "statement": "Let all noise models be Gaussian and the Jacobians of the factors be the derivatives of their residuals. At values that are a local minimum of the cost (none reached by small retractions has a smaller cost) the vector A.T @ r is zero; started there, in any storage order and with CHOLMOD, Gauss-Newton returns the initial assignments after one step, Levenberg-Marquardt and dogleg return them after max_iterations steps. Where the cost is zero and the columns of the Jacobian are linearly independent, the cost after a retraction by a small delta is at least a positive multiple of the squares of its entries, so that no other assignments nearby fit exactly; and where the cost is zero, A.T @ A is half the Hessian: the cost after a retraction by d is |A @ d|^2 up to an error that is small compared with |d|^2.", "quantifier": "all factor sequences with Gaussian noise, all assignments and storage orders, all settings with positive tolerances and damping", "why_tests_cant": "Local minimality and independence of columns are statements about infinitely many points; tests look at one run.", "anchors": ["jaxfg/solvers/_gauss_newton_solver.py:GaussNewtonSolver._step", "jaxfg/solvers/_levenberg_marquardt_solver.py:LevenbergMarquardtSolver._step", "jaxfg/solvers/_dogleg_solver.py:DoglegSolver._step", "jaxfg/core/_stacked_factor_graph.py:StackedFactorGraph.compute_whitened_residual_jacobian"]}
{"id": "C126", "title": "A pose graph that fits exactly has an isolated solution if and only if it is tied to the world", "statement": "Take a pose graph of prior and between factors over SO2, SE2, SO3, SE3 with noise models that are blind in no direction, at poses that satisfy all measurements. If the noise models are Gaussian and every pose is connected to a prior by a chain of measurements, then compute_cost after a retraction by a small delta is at least a positive multiple of the square of every entry of the delta: no other assignments nearby have the cost zero. If one pose is not connected to a prior, then arbitrarily close there are other assignments with the cost zero. In both cases the Jacobian A computed at these poses describes the cost to second order: the cost after a retraction by d is |A @ d|^2 up to an error that is small compared with |d|^2.", "quantifier": "all pose graphs over the four groups, all poses that satisfy the measurements, all small deltas", "why_tests_cant": "A neighbourhood contains infinitely many assignments; tests compare costs at a few of them.", "anchors": ["jaxfg/geometry/_factors.py:PriorFactor.compute_residual_jacobians", "jaxfg/geometry/_factors.py:BetweenFactor.compute_residual_jacobians", "jaxfg/core/_stacked_factor_graph.py:StackedFactorGraph.compute_whitened_residual_jacobian", "jaxfg/core/_stacked_factor_graph.py:StackedFactorGraph.compute_cost"]}
{"id": "C127", "title": "Gauss-Newton converges to the exact fit of a pose graph that is tied to the world", "statement": "Take a pose graph of prior and between factors over SO2, SE2, SO3, SE3 with Gaussian noise models that are blind in no direction, and poses e that satisfy all measurements, every pose being connected to a prior by a chain of measurements. Let the linear solver, called without damping, solve the normal equations with mu >= 0 added to the diagonal (mu = 1e-5 for CHOLMOD). Then there is a rate below one, which is zero if mu is, such that for every larger k <= 1 Gauss-Newton started sufficiently near e, at e retracted by a delta d, is after n steps at e retracted by a delta of length at most k^n |d|. The same holds for what FixedIterationGaussNewtonSolver with n >= 1 iterations returns.", "quantifier": "all pose graphs over the four groups, all poses that satisfy the measurements, all starts near them, all numbers of steps", "why_tests_cant": "Tests run the solver from a few starts on a few graphs; convergence from a whole neighbourhood on every such graph, at a linear or faster rate, is a statement about infinitely many runs.", "anchors": ["jaxfg/solvers/_gauss_newton_solver.py:GaussNewtonSolver._step", "jaxfg/solvers/_fixed_iteration_gauss_newton_solver.py:FixedIterationGaussNewtonSolver._step", "jaxfg/geometry/_factors.py:PriorFactor.compute_residual_jacobians", "jaxfg/geometry/_factors.py:BetweenFactor.compute_residual_jacobians", "jaxfg/geometry/_lie_variables.py:LieVariableBase.manifold_retract"]}
{"id": "C128", "title": "Levenberg-Marquardt and dogleg converge to the exact fit of a pose graph that is tied to the world", "statement": "Take a pose graph of prior and between factors over SO2, SE2, SO3, SE3 with Gaussian noise models that are blind in no direction, and poses e that satisfy all measurements, every pose being connected to a prior by a chain of measurements. Let step_quality_min be below one. Levenberg-Marquardt: let the linear solver, called with damping l, add mu(l) >= 0 to the diagonal, mu increasing (l + 1e-5 for CHOLMOD), lambda_factor >= 1, lambda_min >= 0 and lambda_initial >= 0. Then there is a rate below one such that for every larger k < 1 a run started sufficiently near e, at e retracted by a delta d, is after n steps at e retracted by a delta of length at most k^n |d|, and unless e is reached all steps were accepted, so that lambda is lambda_initial / lambda_factor^n. Dogleg: the same for every positive initial radius and a linear solver that adds a fixed mu >= 0 when called without damping; the radius never falls below the initial one.", "quantifier": "all pose graphs over the four groups, all poses that satisfy the measurements, all starts near them, all numbers of steps, all settings of the solvers", "why_tests_cant": "Tests run the solvers from a few starts on a few graphs; that no step near a fit is ever rejected and that the distance shrinks at a linear rate is a statement about infinitely many runs.", "anchors": ["jaxfg/solvers/_levenberg_marquardt_solver.py:LevenbergMarquardtSolver._step", "jaxfg/solvers/_dogleg_solver.py:DoglegSolver._step", "jaxfg/solvers/_mixins.py:_TrustRegionMixin", "jaxfg/geometry/_factors.py:BetweenFactor.compute_residual_jacobians", "jaxfg/geometry/_lie_variables.py:LieVariableBase.manifold_retract"]}
{"id": "C129", "title": "What the solvers return near an exact fit of a pose graph, and why they stop", "statement": "Take a pose graph of prior and between factors over SO2, SE2, SO3, SE3 with Gaussian noise models that are blind in no direction, and poses e that satisfy all measurements, every pose being connected to a prior by a chain of measurements. Let the linear solver, called with damping l, add mu(l) >= 0 to the diagonal, mu increasing. Then there is a rate below one, and for every larger kappa < 1 there are tau > 0 and a neighbourhood, such that the solve methods of Gauss-Newton, Levenberg-Marquardt (lambda_factor >= 1, lambda_min >= 0) and dogleg, called in that neighbourhood with e retracted by d, return only e retracted by some d' with |d'| <= kappa^k |d|, k >= 1 being the number of steps. If cost_tolerance is at most tau, the cost test never stops them: they stop because max_iterations is used up, or because the gradient is tested (k > gradient_tolerance_start_step), or with |d'| at most kappa / (1 - kappa) times (norm(x) + parameter_tolerance) * parameter_tolerance for the last iterate x, or at e itself. With CHOLMOD they do return there, for all tolerances and every budget: no exception, no infinity or NaN, within max(1, max_iterations) steps.", "quantifier": "all pose graphs over the four groups, all poses that satisfy the measurements, all starts near them, all settings of the solvers", "why_tests_cant": "Whether a stopping test fires too early depends on the graph, the start and the tolerances together; a test sees one of each.", "anchors": ["jaxfg/solvers/_mixins.py:_TerminationCriteriaMixin.check_convergence", "jaxfg/solvers/_nonlinear_solver_base.py:NonlinearSolverBase.solve", "jaxfg/solvers/_gauss_newton_solver.py:GaussNewtonSolver._step", "jaxfg/solvers/_levenberg_marquardt_solver.py:LevenbergMarquardtSolver._step", "jaxfg/solvers/_dogleg_solver.py:DoglegSolver._step"]}
{"id": "C130", "title": "The solvers on a g2o file whose edges can be satisfied exactly", "statement": "Let a g2o text describe poses and edges, every pose being connected with pose 0 by a chain of edges in either direction, and let poses x (rigid motions, like the measured motions) satisfy all edges exactly, with pose 0 where the text puts it. Then the graph that scripts/pose_graph_g2o.py builds without Huber losses has assignments e in its storage order that hold the poses x and have cost zero. There is a rate below one, and for every larger kappa < 1 a neighbourhood of e, such that Gauss-Newton, Levenberg-Marquardt and dogleg with CHOLMOD, the default settings of the script and any max_iterations, started in that neighbourhood at e retracted by d, return, without exception, infinity or NaN, e retracted by some d' with |d'| <= kappa^k |d|, k >= 1 being the number of steps. The noise models that the parser makes for edges and for the prior have no Huber wrapper and are blind in no direction. FixedIterationGaussNewtonSolver with n >= 1 iterations returns, from such a start, e retracted by some d' with |d'| <= kappa^n |d|. Two texts that differ at most in the poses on vertex lines, and not in pose 0, give the same factors and the same graph, with or without Huber losses, and initial assignments in the same storage order; so the neighbourhood is the same for all of them, and the solvers lead to e from the initial poses of each text whose initial assignment lies in it. If the poses of the text itself satisfy all edges and the edges mention the poses in their order, the solvers return exactly the initial assignment of the script. On such a file, main of the script without Huber losses ends with exactly the initial assignment, with each of the four solver types.", "quantifier": "all g2o texts (both groups, any numbers) whose edges can be satisfied and connect all poses, all starts near the fit", "why_tests_cant": "The files of the repository are noisy; whether the parser, the factors and the solvers together find the poses that satisfy all edges has to hold for every file and every start nearby.", "anchors": ["scripts/pose_graph_g2o.py:main", "scripts/_g2o_utils.py:parse_g2o", "jaxfg/solvers/_gauss_newton_solver.py:GaussNewtonSolver._step", "jaxfg/solvers/_levenberg_marquardt_solver.py:LevenbergMarquardtSolver._step", "jaxfg/solvers/_dogleg_solver.py:DoglegSolver._step", "jaxfg/solvers/_fixed_iteration_gauss_newton_solver.py:FixedIterationGaussNewtonSolver._step"]}
