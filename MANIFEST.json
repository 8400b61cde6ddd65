{"claims": [
{"property": "C01", "status": "proved", "theorems": ["Jaxfg.Props.C01_blocks_tile"], "note": ""},
{"property": "C02", "status": "proved", "theorems": ["Jaxfg.Props.C02_order"], "note": ""},
{"property": "C03", "status": "proved", "theorems": ["Jaxfg.Props.C03_local_global_same_order", "Jaxfg.Props.C03_any_list"], "note": ""},
{"property": "C04", "status": "partial", "theorems": ["Jaxfg.Props.C04_repeated_variable_breaks_guarantees", "Jaxfg.Props.C04_dim_counts_repetitions_partial", "Jaxfg.Props.C04_any_list_partial", "Jaxfg.Props.C04_no_overlap_partial", "Jaxfg.Props.C04_defaults_partial", "Jaxfg.Props.C04_partial_dict_partial"], "note": "Full statement is false of the code; negation proved with a witness. The layout of every list is computed exactly."},
{"property": "C05", "status": "proved", "theorems": ["Jaxfg.Props.C05_flatten_unflatten"], "note": ""},
{"property": "C06", "status": "proved", "theorems": ["Jaxfg.Props.C06_make_from_dict", "Jaxfg.Props.C06_empty_raises"], "note": ""},
{"property": "C07", "status": "proved", "theorems": ["Jaxfg.Props.C07_partial_and_defaults", "Jaxfg.Props.C07_empty_raises"], "note": ""},
{"property": "C08", "status": "proved", "theorems": ["Jaxfg.Props.C08_abstract_map", "Jaxfg.Props.C08_unknown_variable_raises"], "note": ""},
{"property": "C09", "status": "proved", "theorems": ["Jaxfg.Props.C09_update_storage_layout"], "note": "\"Given layout\" is up to Python ==, which ignores the order of zero-dimensional variables."},
{"property": "C10", "status": "proved", "theorems": ["Jaxfg.Props.C10_stacked_value"], "note": ""},
{"property": "C100", "status": "proved", "theorems": ["Jaxfg.Props.C100_error_covariance", "Jaxfg.Props.C100_best", "Jaxfg.Props.C100_noise"], "note": "Linear problems with the default retraction and a Jacobian that does not depend on the measurements; the estimate is any global minimum (C50 and C70 say when the solvers return it)."},
{"property": "C101", "status": "proved", "theorems": ["Jaxfg.Props.C101_marginals", "Jaxfg.Props.C101_exists"], "note": "Loewner order stated as a quadratic form (Spec/MoreData.lean); natural CHOLMOD ordering as in C53_natural_order_partial for the comparison, any ordering for existence."},
{"property": "C102", "status": "proved", "theorems": ["Jaxfg.Props.C102_weight", "Jaxfg.Props.C102_weight_free", "Jaxfg.Props.C102_cg", "Jaxfg.Props.C102_cg_infinite", "Jaxfg.Props.C102_units", "Jaxfg.Props.C102_cholmod_witness"], "note": "Factors' residual and Jacobian functions must not read the noise model of the factor. The solver theorems are in real arithmetic; C110_weight has them with infinities and NaN, where no column of the Jacobian vanishes. The CHOLMOD part is the negation, with a witness for one step."},
{"property": "C103", "status": "proved", "theorems": ["Jaxfg.Props.C103_optimum", "Jaxfg.Props.C103_solve", "Jaxfg.Props.C103_ordering_test"], "note": "Concrete case: the ordering test (sigma = 1/2). Tightens C89 (which only says that all rounds agree): the values themselves."},
{"property": "C104", "status": "proved", "theorems": ["Jaxfg.Props.C104_anchored"], "note": "Both directions: succeeds if all poses are anchored, raises if one is not. For exact arithmetic; in floating point a singular matrix may pass as positive definite or the other way round."},
{"property": "C105", "status": "proved", "theorems": ["Jaxfg.Props.C105_marginalization", "Jaxfg.Props.C105_marginalization_order", "Jaxfg.Props.C105_as_dense"], "note": "In exact arithmetic. The natural order is a hypothesis on CHOLMOD, for 3 and 6 coordinates; C105_marginalization_order shows that it is needed."},
{"property": "C106", "status": "proved", "theorems": ["Jaxfg.Props.C106_jacobians", "Jaxfg.Props.C106_objective", "Jaxfg.Props.C106_solution"], "note": "Exact real arithmetic. Where v2.b is 7 the derivative in the code is NaN and 0 in the model; C106_solution shows that the solver never gets there from the default values."},
{"property": "C107", "status": "proved", "theorems": ["Jaxfg.Props.C107_cholmod", "Jaxfg.Props.C107_passes", "Jaxfg.Props.C107_singular", "Jaxfg.Props.C107_regularized"], "note": "The drawn matrix and vector are arguments; the 20 × 5 shape of the tests is one case."},
{"property": "C108", "status": "proved", "theorems": ["Jaxfg.Props.C108_gauss_newton", "Jaxfg.Props.C108_levenberg_marquardt", "Jaxfg.Props.C108_dogleg"], "note": ""},
{"property": "C109", "status": "proved", "theorems": ["Jaxfg.Props.C109_no_zero_column", "Jaxfg.Props.C109_zero_column", "Jaxfg.Props.C109_cholmod", "Jaxfg.Props.C109_levenberg_marquardt", "Jaxfg.Props.C109_dogleg", "Jaxfg.Props.C109_gauss_newton"], "note": "Numbers are extended reals with NaN and infinities (Model/CgScalar.lean). NaN propagation of the factors (cost and residual NaN after a retraction by NaN, Jacobian independent of the residual) is a hypothesis of the solver theorems, met by the example graph."},
{"property": "C11", "status": "proved", "theorems": ["Jaxfg.Props.C11_retract_per_variable", "Jaxfg.Props.C11_wrong_parameterization_raises"], "note": ""},
{"property": "C110", "status": "proved", "theorems": ["Jaxfg.Props.C110_gauss_newton", "Jaxfg.Props.C110_levenberg_marquardt", "Jaxfg.Props.C110_dogleg", "Jaxfg.Props.C110_fixed_iteration", "Jaxfg.Props.C110_full_rank", "Jaxfg.Props.C110_weight"], "note": "Concrete case: the measurement x - 1 (poly_noZero). C108_levenberg_marquardt uses the same bridge for the pose graph of the tests."},
{"property": "C111", "status": "proved", "theorems": ["Jaxfg.Props.C111_stuck_levenberg_marquardt", "Jaxfg.Props.C111_stuck_dogleg", "Jaxfg.Props.C111_never_nan_levenberg_marquardt", "Jaxfg.Props.C111_never_nan_dogleg", "Jaxfg.Props.C111_frozen_levenberg_marquardt", "Jaxfg.Props.C111_frozen_root", "Jaxfg.Props.C111_recovers", "Jaxfg.Props.C111_radius", "Jaxfg.Props.C111_scalars", "Jaxfg.Props.C111_comparisons", "Jaxfg.Props.C111_arithmetic", "Jaxfg.Props.C111_sqrt"], "note": "The last four theorems compare the arithmetic of the model with Mathlib's extended reals. All zeros are positive: signed zeros are not modelled."},
{"property": "C112", "status": "proved", "theorems": ["Jaxfg.Props.C112_solve_returns", "Jaxfg.Props.C112_columns", "Jaxfg.Props.C112_pose_graphs"], "note": ""},
{"property": "C113", "status": "proved", "theorems": ["Jaxfg.Props.C113_component", "Jaxfg.Props.C113_cholmod", "Jaxfg.Props.C113_cholmod_orthogonal", "Jaxfg.Props.C113_cg_weighted", "Jaxfg.Props.C113_cg_moves"], "note": ""},
{"property": "C114", "status": "proved", "theorems": ["Jaxfg.Props.C114_make", "Jaxfg.Props.C114_set_value", "Jaxfg.Props.C114_update_layout", "Jaxfg.Props.C114_retract_numbers", "Jaxfg.Props.C114_retract", "Jaxfg.Props.C114_solvers", "Jaxfg.Props.C114_stuck", "Jaxfg.Props.C114_rotation_lost"], "note": "Integers are unbounded and floats exact. The run of a solver on integer storage is the run with classes that truncate their retractions (C114_retract_numbers, C114_update_layout)."},
{"property": "C115", "status": "proved", "theorems": ["Jaxfg.Props.C115_determined", "Jaxfg.Props.C115_closest", "Jaxfg.Props.C115_solve", "Jaxfg.Props.C115_pairs"], "note": "Concrete case: C115_pairs (sigma = 1, and pairFactors_undetermined shows that C103 does not apply to it). Exact real arithmetic inside a program that knows infinities and NaNs."},
{"property": "C116", "status": "proved", "theorems": ["Jaxfg.Props.C116_optimum", "Jaxfg.Props.C116_stationary", "Jaxfg.Props.C116_solve", "Jaxfg.Props.C116_converges", "Jaxfg.Props.C116_not_the_huber_optimum"], "note": "Affine factors with Gaussian or diagonal noise, with or without Huber wrappers; exact real arithmetic. The linear solver of C116_solve is any with bounded damping; C116_converges has CHOLMOD with an empty cache."},
{"property": "C117", "status": "proved", "theorems": ["Jaxfg.Props.C117_cost", "Jaxfg.Props.C117_start", "Jaxfg.Props.C117_anchored", "Jaxfg.Props.C117_optimum", "Jaxfg.Props.C117_solve", "Jaxfg.Props.C117_levenberg_marquardt", "Jaxfg.Props.C117_dogleg", "Jaxfg.Props.C117_not_global", "Jaxfg.Props.C117_not_global_defaults"], "note": "The cost in angles, the region of initial rotations, when the angles are determined, the unique best angles, the rates of the four solvers, and the ring that stays at a wrong answer."},
{"property": "C118", "status": "proved", "theorems": ["Jaxfg.Props.C118_symmetry", "Jaxfg.Props.C118_observation", "Jaxfg.Props.C118_half_turn", "Jaxfg.Props.C118_signs", "Jaxfg.Props.C118_half_turns_matter", "Jaxfg.Props.C118_gradient_test"], "note": "The general statement about symmetries with exceptions, that watching for exceptions changes nothing, what a half turn is, pose graphs, and the two exceptions."},
{"property": "C119", "status": "proved", "theorems": ["Jaxfg.Props.C119_cholmod", "Jaxfg.Props.C119_conjugate_gradient", "Jaxfg.Props.C119_information", "Jaxfg.Props.C119_library", "Jaxfg.Props.C119_order", "Jaxfg.Props.C119_trans", "Jaxfg.Props.C119_merge", "Jaxfg.Props.C119_robust_not_merged"], "note": ""},
{"property": "C12", "status": "partial", "theorems": ["Jaxfg.Props.C12_wrong_variable_moved", "Jaxfg.Props.C12_missing_variable_moved", "Jaxfg.Props.C12_retract_by_variable_partial", "Jaxfg.Props.C12_retract_by_position_partial", "Jaxfg.Props.C12_exactly_same_order_partial", "Jaxfg.Props.C12_any_delta_partial"], "note": "Full statement is false of the code; negations proved with witnesses (another order; a variable missing from the delta). What the code does for every delta, when it raises, and exactly when the claim holds are proved."},
{"property": "C120", "status": "proved", "theorems": ["Jaxfg.Props.C120_inliers", "Jaxfg.Props.C120_never", "Jaxfg.Props.C120_noise", "Jaxfg.Props.C120_rotations"], "note": "For all four solvers with all termination tests. Outliers are looked for wherever the cost is evaluated, also at proposals that are rejected: the code goes on with the residual of the rejected proposal (C42)."},
{"property": "C121", "status": "proved", "theorems": ["Jaxfg.Props.C121_information", "Jaxfg.Props.C121_symmetry", "Jaxfg.Props.C121_pose_graphs", "Jaxfg.Props.C121_signs", "Jaxfg.Props.C121_inliers"], "note": "Exact real arithmetic; the permutation of CHOLMOD must be the identity, because with other permutations the entries belong to other coordinates (C53). Recursion deep enough for the graphs (C65)."},
{"property": "C122", "status": "proved", "theorems": ["Jaxfg.Props.C122_renaming", "Jaxfg.Props.C122_other_variables", "Jaxfg.Props.C122_fresh_variables", "Jaxfg.Props.C122_covariances"], "note": "Exact arithmetic; covariances for the natural order of CHOLMOD (C53). For other variable classes the factors' methods must not look at the classes of their variables; for other objects of the same classes there is no such condition."},
{"property": "C123", "status": "partial", "theorems": ["Jaxfg.Props.C123_not_batched", "Jaxfg.Props.C123_product_partial", "Jaxfg.Props.C123_shared_coordinates", "Jaxfg.Props.C123_dense_partial", "Jaxfg.Props.C123_scipy", "Jaxfg.Props.C123_transpose", "Jaxfg.Props.C123_one_axis"], "note": "False of the code: with batch axes the product is never the batch of products (C123_not_batched); proved instead: it is the sum of the products. Transposes are as documented. Broadcasting only of shapes one of which is the end of the other."},
{"property": "C124", "status": "partial", "theorems": ["Jaxfg.Props.C124_sizes", "Jaxfg.Props.C124_raises_partial", "Jaxfg.Props.C124_joint_nll", "Jaxfg.Props.C124_accepted"], "note": "False in general: C124_accepted is a graph with a 1x2 and a 2x1 matrix that is evaluated, with a wrong Jacobian. C124_raises_partial covers graphs in which no matrix has more rows than columns (or none fewer); C124_joint_nll has no such restriction."},
{"property": "C125", "status": "proved", "theorems": ["Jaxfg.Props.C125_gradient", "Jaxfg.Props.C125_solvers", "Jaxfg.Props.C125_isolated", "Jaxfg.Props.C125_hessian"], "note": "Exact arithmetic. Retractions by zero are the identity. The first two need directional, the others total derivatives."},
{"property": "C126", "status": "proved", "theorems": ["Jaxfg.Props.C126_exact_fit", "Jaxfg.Props.C126_loose"], "note": "Exact arithmetic; jaxlie's formulas as in C54."},
{"property": "C127", "status": "proved", "theorems": ["Jaxfg.Props.C127_gauss_newton", "Jaxfg.Props.C127_fixed_iteration"], "note": "Exact real arithmetic. The linear solver is assumed to solve the damped normal equations exactly, which CHOLMOD does by C93_cholmod. About runs whose steps do not raise."},
{"property": "C128", "status": "proved", "theorems": ["Jaxfg.Props.C128_levenberg_marquardt", "Jaxfg.Props.C128_dogleg"], "note": "Real arithmetic inside the extended reals. The neighbourhood is not quantified. Examples: two planar poses, CHOLMOD, default settings of both solvers."},
{"property": "C129", "status": "proved", "theorems": ["Jaxfg.Props.C129_solvers", "Jaxfg.Props.C129_cholmod"], "note": "Real arithmetic inside the extended reals. Neither the neighbourhood nor tau is quantified. Nothing is said about accuracy when the gradient test stops the solver: that test is one-sided (no absolute value), see the findings. Examples: two planar poses, CHOLMOD, default settings with any cost tolerance, and with any budget."},
{"property": "C13", "status": "proved", "theorems": ["Jaxfg.Props.C13_euclidean_retraction"], "note": ""},
{"property": "C130", "status": "proved", "theorems": ["Jaxfg.Props.C130_file", "Jaxfg.Props.C130_fixed_iteration", "Jaxfg.Props.C130_same_graph", "Jaxfg.Props.C130_near", "Jaxfg.Props.C130_satisfied", "Jaxfg.Props.C130_main", "Jaxfg.Props.C130_main_fixed"], "note": "Real arithmetic inside the extended reals. The start is in the storage order of the graph, as that of the script is if the edges mention the poses in their order (C83). The neighbourhood is not quantified. Examples: the file of G2oEx, whose initial poses do not satisfy its edges, the same file with another pose, and with poses that satisfy the edges."},
{"property": "C14", "status": "partial", "theorems": ["Jaxfg.Props.C14_set_value_broadcasts", "Jaxfg.Props.C14_partial_dict_shifts", "Jaxfg.Props.C14_size_checks_partial"], "note": "Full statement is false of the code; negations proved with witnesses."},
{"property": "C15", "status": "partial", "theorems": ["Jaxfg.Props.C15_local_read_crosses_blocks", "Jaxfg.Props.C15_local_read_partial", "Jaxfg.Props.C15_local_read_exact_partial", "Jaxfg.Props.C15_exactly_equal_dims_partial"], "note": "Full statement is false of the code; negation proved with a witness. C15_local_read_exact_partial says what every read returns, and C15_exactly_equal_dims_partial that the claim holds exactly for classes with as many local parameters as parameters."},
{"property": "C16", "status": "proved", "theorems": ["Jaxfg.Props.C16_cost_is_sum"], "note": ""},
{"property": "C17", "status": "proved", "theorems": ["Jaxfg.Props.C17_residual_vector", "Jaxfg.Props.C17_every_factor_once"], "note": ""},
{"property": "C18", "status": "proved", "theorems": ["Jaxfg.Props.C18_order_independent"], "note": ""},
{"property": "C19", "status": "proved", "theorems": ["Jaxfg.Props.C19_coordinates"], "note": "Counts every coordinate exactly, which is more than the stated no-duplicates claim."},
{"property": "C20", "status": "proved", "theorems": ["Jaxfg.Props.C20_jacobian_product"], "note": "The residual argument is any vector with one block per factor (equal factors get equal blocks)."},
{"property": "C21", "status": "proved", "theorems": ["Jaxfg.Props.C21_jacobian_is_derivative", "Jaxfg.Props.C21_total_derivative"], "note": "Assignments have the graph's layout, as in the solvers after update_storage_layout. Directional derivatives from directional derivatives of the factors, total derivatives from total derivatives."},
{"property": "C22", "status": "proved", "theorems": ["Jaxfg.Props.C22_right_hand_side", "Jaxfg.Props.C22_gradient"], "note": "Also assumes that retracting by zero gives the value back. Directional and total derivatives."},
{"property": "C23", "status": "proved", "theorems": ["Jaxfg.Props.C23_graph_variables", "Jaxfg.Props.C23_empty_raises"], "note": ""},
{"property": "C24", "status": "proved", "theorems": ["Jaxfg.Props.C24_rejects_wrong_variables"], "note": ""},
{"property": "C25", "status": "proved", "theorems": ["Jaxfg.Props.C25_joint_nll", "Jaxfg.Props.C25_covariance", "Jaxfg.Props.C25_huber_raises", "Jaxfg.Props.C25_constants_not_implemented"], "note": ""},
{"property": "C26", "status": "proved", "theorems": ["Jaxfg.Props.C26_gaussian_mahalanobis", "Jaxfg.Props.C26_diagonal_mahalanobis", "Jaxfg.Props.C26_not_square_raises"], "note": ""},
{"property": "C27", "status": "proved", "theorems": ["Jaxfg.Props.C27_diagonal_agrees"], "note": ""},
{"property": "C28", "status": "proved", "theorems": ["Jaxfg.Props.C28_whitening_commutes"], "note": ""},
{"property": "C29", "status": "proved", "theorems": ["Jaxfg.Props.C29_huber_whitening", "Jaxfg.Props.C29_whitening_continuous"], "note": ""},
{"property": "C30", "status": "partial", "theorems": ["Jaxfg.Props.C30_wrong_weight", "Jaxfg.Props.C30_huber_jacobian_weight_partial"], "note": "False of the code: C30_wrong_weight is a counterexample. The partial theorem says what the code does: the Jacobian gets the square root of the residual's weight."},
{"property": "C31", "status": "proved", "theorems": ["Jaxfg.Props.C31_matmul", "Jaxfg.Props.C31_wrong_length_raises"], "note": ""},
{"property": "C32", "status": "proved", "theorems": ["Jaxfg.Props.C32_transpose"], "note": ""},
{"property": "C33", "status": "partial", "theorems": ["Jaxfg.Props.C33_as_dense_overwrites", "Jaxfg.Props.C33_as_dense_partial", "Jaxfg.Props.C33_as_dense_exact_partial"], "note": "Full statement is false of the code; negation proved with a witness. C33_as_dense_exact_partial says what every entry is and exactly for which matrices the claim holds."},
{"property": "C34", "status": "proved", "theorems": ["Jaxfg.Props.C34_scipy"], "note": ""},
{"property": "C35", "status": "proved", "theorems": ["Jaxfg.Props.C35_cholmod"], "note": ""},
{"property": "C36", "status": "proved", "theorems": ["Jaxfg.Props.C36_diagonal", "Jaxfg.Props.C36_operator", "Jaxfg.Props.C36_any_coordinates", "Jaxfg.Props.C36_conjugate_gradient", "Jaxfg.Props.C36_exact"], "note": ""},
{"property": "C37", "status": "partial", "theorems": ["Jaxfg.Props.C37_history_partial", "Jaxfg.Props.C37_stale_analysis"], "note": "False in general: the cache is keyed by object address and never invalidated. The partial theorem assumes that every address is used with one sparsity pattern; C37_stale_analysis is a history where the answer is left to an analysis of another matrix."},
{"property": "C38", "status": "proved", "theorems": ["Jaxfg.Props.C38_gauss_newton", "Jaxfg.Props.C38_levenberg_marquardt", "Jaxfg.Props.C38_dogleg"], "note": ""},
{"property": "C39", "status": "proved", "theorems": ["Jaxfg.Props.C39_gauss_newton", "Jaxfg.Props.C39_levenberg_marquardt", "Jaxfg.Props.C39_dogleg", "Jaxfg.Props.C39_fixed_iteration"], "note": ""},
{"property": "C40", "status": "partial", "theorems": ["Jaxfg.Props.C40_gauss_newton_partial", "Jaxfg.Props.C40_levenberg_marquardt_partial", "Jaxfg.Props.C40_dogleg_partial", "Jaxfg.Props.C40_fixed_iteration_order", "Jaxfg.Props.C40_fixed_iteration_diverges", "Jaxfg.Props.C40_fixed_iteration_partial", "Jaxfg.Props.C40_fixed_iteration_cholmod_partial"], "note": "Holds for the three solvers with termination criteria when variables have non-zero parameter dimension. C40_fixed_iteration_order is a counterexample for FixedIterationGaussNewtonSolver (with and without unrolling); C40_fixed_iteration_diverges shows a linear problem on which it ends at the minimum in one storage order and doubles the error with every step in the other. C40_fixed_iteration_partial shows that it holds for this solver when both assignments list the variables of each type in the order of the graph."},
{"property": "C41", "status": "proved", "theorems": ["Jaxfg.Props.C41_C42_gauss_newton", "Jaxfg.Props.C41_C42_fixed_iteration", "Jaxfg.Props.C41_levenberg_marquardt", "Jaxfg.Props.C41_dogleg"], "note": ""},
{"property": "C42", "status": "partial", "theorems": ["Jaxfg.Props.C41_C42_gauss_newton", "Jaxfg.Props.C41_C42_fixed_iteration", "Jaxfg.Props.C42_levenberg_marquardt_partial", "Jaxfg.Props.C42_dogleg_partial", "Jaxfg.Props.C42_stale_residual", "Jaxfg.Props.C42_stale_residual_dogleg"], "note": "False for LM and Dogleg after a rejected step (C42_stale_residual, C42_stale_residual_dogleg: default settings with CHOLMOD); proved for steps following an accepted one."},
{"property": "C43", "status": "partial", "theorems": ["Jaxfg.Props.C43_levenberg_marquardt_step_partial", "Jaxfg.Props.C43_levenberg_marquardt_partial", "Jaxfg.Props.C43_dogleg_step_partial", "Jaxfg.Props.C43_dogleg_partial", "Jaxfg.Props.C43_levenberg_marquardt_increases", "Jaxfg.Props.C43_dogleg_increases"], "note": "Proved for steps from states whose recorded residual is current (in particular every step not following a rejection), and for executions made of such steps, for graphs of well-formed factors and linear solvers that solve regular (damped) normal equations. False in general because of the stale residual: C43_levenberg_marquardt_increases and C43_dogleg_increases are counterexamples with default settings and CHOLMOD."},
{"property": "C44", "status": "proved", "theorems": ["Jaxfg.Props.C44_levenberg_marquardt", "Jaxfg.Props.C44_dogleg"], "note": ""},
{"property": "C45", "status": "proved", "theorems": ["Jaxfg.Props.C45_damping"], "note": "In exact arithmetic."},
{"property": "C46", "status": "proved", "theorems": ["Jaxfg.Props.C46_step", "Jaxfg.Props.C46_blending", "Jaxfg.Props.C46_radius"], "note": "In exact arithmetic; needs a nonzero gradient if the Gauss-Newton step does not fit (otherwise the code divides 0 by 0)."},
{"property": "C47", "status": "partial", "theorems": ["Jaxfg.Props.C47_gauss_newton_partial", "Jaxfg.Props.C47_levenberg_marquardt_partial", "Jaxfg.Props.C47_dogleg_partial", "Jaxfg.Props.C47_signed_gradient"], "note": "Exact characterisation of the stopping condition. The gradient test as coded compares signed differences, so the bound on the absolute value is false (C47_signed_gradient)."},
{"property": "C48", "status": "proved", "theorems": ["Jaxfg.Props.C48_gauss_newton", "Jaxfg.Props.C48_levenberg_marquardt", "Jaxfg.Props.C48_dogleg"], "note": "Exact arithmetic with NaN and infinities; linear solver maps a zero right-hand side to zero (CHOLMOD and CG do: cholmod_zeroAtZero); retraction by zero is the identity."},
{"property": "C49", "status": "proved", "theorems": ["Jaxfg.Props.C49_fixed_iteration"], "note": ""},
{"property": "C50", "status": "proved", "theorems": ["Jaxfg.Props.C50_gauss_newton_step", "Jaxfg.Props.C50_gauss_newton", "Jaxfg.Props.C50_gauss_newton_solve"], "note": "For linear solvers that solve the normal equations at the Jacobians met (CG with tolerance 0 and full rank: cg_regular). CHOLMOD as called by jaxfg factorizes A^T A + beta I with beta = 1e-5, so its steps are only approximately normal-equation steps."},
{"property": "C51", "status": "proved", "theorems": ["Jaxfg.Props.C51_entries", "Jaxfg.Props.C51_sound"], "note": "Exact arithmetic over any field; termination under a recursion limit of 2n-1-i-j nested calls, any cache reached by any history of queries (also failed ones)."},
{"property": "C52", "status": "proved", "theorems": ["Jaxfg.Props.C52_marginal", "Jaxfg.Props.C52_missing", "Jaxfg.Props.C52_as_dense"], "note": ""},
{"property": "C53", "status": "partial", "theorems": ["Jaxfg.Props.C53_partial", "Jaxfg.Props.C53_natural_order_partial", "Jaxfg.Props.C53_permuted"], "note": "False when CHOLMOD permutes (C53_permuted); proved: the entries are those of the inverse information matrix at permuted indices, hence the right ones for the natural order."},
{"property": "C54", "status": "proved", "theorems": ["Jaxfg.Props.C54_prior", "Jaxfg.Props.C54_between", "Jaxfg.Props.C54_between_make", "Jaxfg.Props.C54_same_motion", "Jaxfg.Props.C54_wellformed", "Jaxfg.Props.C54_cost_zero_iff"], "note": "For SO(2), SE(2), SO(3) and SE(3), with jaxlie's Taylor branches replaced by the exact functions they approximate."},
{"property": "C55", "status": "proved", "theorems": ["Jaxfg.Props.C55_factor_invariant", "Jaxfg.Props.C55_cost_invariant"], "note": "Exact real arithmetic."},
{"property": "C56", "status": "partial", "theorems": ["Jaxfg.Props.C56_jacobians_at_measurement_partial", "Jaxfg.Props.C56_total_at_measurement_partial", "Jaxfg.Props.C56_so2_partial", "Jaxfg.Props.C56_so2_total_partial", "Jaxfg.Props.C56_so3_gradient_partial", "Jaxfg.Props.C56_left_tangent_partial", "Jaxfg.Props.C56_false_for_se2"], "note": "The claim is false of the code for SE(2): C56_false_for_se2 gives a witness. The analytic Jacobians are exact where the residual vanishes, exact everywhere for SO(2) (in both cases also as total derivatives), give the right cost gradient for SO(3), and for all four groups and steps of any size describe exactly how the residual moves as a group element (C56_left_tangent_partial)."},
{"property": "C57", "status": "proved", "theorems": ["Jaxfg.Props.C57_default_jacobians", "Jaxfg.Props.C57_jacobiansCorrect", "Jaxfg.Props.C57_total"], "note": "jax.jacfwd is not modelled: its exact results are hypotheses. Values have at least one leaf, positive local dimension, retraction by zero is the identity. Directional and total derivatives."},
{"property": "C58", "status": "proved", "theorems": ["Jaxfg.Props.C58_value_tuple"], "note": ""},
{"property": "C59", "status": "proved", "theorems": ["Jaxfg.Props.C59_grouping"], "note": ""},
{"property": "C60", "status": "proved", "theorems": ["Jaxfg.Props.C60_same_class_iff", "Jaxfg.Props.C60_template_dim", "Jaxfg.Props.C60_truth_value", "Jaxfg.Props.C60_float", "Jaxfg.Props.C60_same_instance_iff", "Jaxfg.Props.C60_created_distinct"], "note": "For every history of class template and canonical instance requests. A float dimension raises AssertionError unless an equal number was used before, so the result depends on the history."},
{"property": "C61", "status": "proved", "theorems": ["Jaxfg.Props.C61_precision", "Jaxfg.Props.C61_weight", "Jaxfg.Props.C62_file_partial"], "note": "Matrices of any size; not positive definite iff the edge line raises. C62_file_partial connects it to whole files (IsEdgeFactor.weight)."},
{"property": "C62", "status": "partial", "theorems": ["Jaxfg.Props.C62_file_partial", "Jaxfg.Props.C62_any_file", "Jaxfg.Props.C62_negative_index", "Jaxfg.Props.C62_mixed_limit", "Jaxfg.Props.C62_blank", "Jaxfg.Props.C62_other_type"], "note": "C62_any_file characterises the result for every text (records of both groups, any indices, unread rests of skipped lines). C62_file_partial is the claim itself, as an equivalence, for files whose records are all SE(2) or all SE(3) and whose edge indices are natural numbers. Outside of these the claim is false: negative indices are accepted and count from the end (C62_negative_index), and in mixed files the limit does not keep the first limit+1 SE(2) poses (C62_mixed_limit). The limit has no effect on SE(3) files, blank lines and other record types raise."},
{"property": "C63", "status": "proved", "theorems": ["Jaxfg.Props.C63_gauss_newton", "Jaxfg.Props.C63_levenberg_marquardt", "Jaxfg.Props.C63_dogleg", "Jaxfg.Props.C63_fixed_iteration"], "note": ""},
{"property": "C64", "status": "proved", "theorems": ["Jaxfg.Props.C64_inexact_tolerance", "Jaxfg.Props.C64_inexact_solver"], "note": ""},
{"property": "C65", "status": "proved", "theorems": ["Jaxfg.Props.C65_recursion_depth"], "note": ""},
{"property": "C66", "status": "proved", "theorems": ["Jaxfg.Props.C66_too_large", "Jaxfg.Props.C66_both_too_large", "Jaxfg.Props.C66_negative", "Jaxfg.Props.C66_minus_one"], "note": "C66_both_too_large assumes that the pair is not in the cache; the statements on negative indices are for an object without earlier queries."},
{"property": "C67", "status": "proved", "theorems": ["Jaxfg.Props.C67_retraction", "Jaxfg.Props.C67_stays_valid", "Jaxfg.Props.C67_full_turn"], "note": "Exact real arithmetic; poses are compared as motions because opposite quaternions are the same rotation."},
{"property": "C68", "status": "proved", "theorems": ["Jaxfg.Props.C68_retract_jacobian", "Jaxfg.Props.C68_default_jacobians"], "note": "The formulas of rplus_jacobian_parameters_wrt_delta are those of the library jaxlie, which is modelled, not part of /repo."},
{"property": "C69", "status": "partial", "theorems": ["Jaxfg.Props.C69_coded_loss_partial", "Jaxfg.Props.C69_inliers_partial", "Jaxfg.Props.C69_not_the_huber_gradient"], "note": "The claim with the Huber loss is false of the code (witness C69_not_the_huber_gradient: zero right-hand side where the Huber loss and the reported cost are not stationary). Proved for all graphs: the right-hand side belongs to a loss with exponent 5/4 above the threshold; it is the Huber gradient where all wrapped factors are inliers."},
{"property": "C70", "status": "proved", "theorems": ["Jaxfg.Props.C70_gauss_newton", "Jaxfg.Props.C70_levenberg_marquardt", "Jaxfg.Props.C70_dogleg", "Jaxfg.Props.C70_cholmod", "Jaxfg.Props.C70_conjugate_gradient"], "note": "Affine residuals, default retraction, AᵀA ≥ σ > 0. The linear solvers of the library meet the hypothesis on damping (last two theorems)."},
{"property": "C71", "status": "proved", "theorems": ["Jaxfg.Props.C71_symmetry", "Jaxfg.Props.C71_symmetry_path", "Jaxfg.Props.C71_pose_graphs", "Jaxfg.Props.C71_false_with_parameter_test"], "note": "The restriction on the termination tests is necessary: C71_false_with_parameter_test gives a problem where, with the default settings, the shifted run stops earlier."},
{"property": "C72", "status": "proved", "theorems": ["Jaxfg.Props.C72_solve_returns", "Jaxfg.Props.C72_cholmod", "Jaxfg.Props.C72_wrong_variables", "Jaxfg.Props.C72_pose_graphs", "Jaxfg.Props.C72_fixed_any_order"], "note": "Real arithmetic. C72_fixed_any_order: the solver with a fixed number of steps returns from every storage order, though with steps applied to other variables when the order is not that of the graph (see C40)."},
{"property": "C73", "status": "proved", "theorems": ["Jaxfg.Props.C73_order_independent", "Jaxfg.Props.C73_cholmod", "Jaxfg.Props.C73_conjugate_gradient"], "note": "For FixedIterationGaussNewtonSolver both inputs are in the order of their graphs (it does not convert them, see C40). Conjugate gradient: no factor lists a variable twice."},
{"property": "C74", "status": "proved", "theorems": ["Jaxfg.Props.C74_invariants", "Jaxfg.Props.C74_reached", "Jaxfg.Props.C74_poses"], "note": "Both runs of the simulation argument of C71 are the same run; the relation carries the invariant. The fixed-iteration solver needs assignments in the order of the graph (see C40)."},
{"property": "C75", "status": "proved", "theorems": ["Jaxfg.Props.C75_objective", "Jaxfg.Props.C75_solve", "Jaxfg.Props.C75_uncovered"], "note": "End to end, from C62, C06, C29, C72 and C74. C75_solve also covers the fourth solver of the script, with a fixed number of steps: it returns rigid motions, but applies steps in the order of the graph to poses in the order of the file (see C40)."},
{"property": "C76", "status": "proved", "theorems": ["Jaxfg.Props.C76_gauss_newton", "Jaxfg.Props.C76_quadratic", "Jaxfg.Props.C76_fixed_iteration", "Jaxfg.Props.C76_smooth", "Jaxfg.Props.C76_derivative"], "note": "The hypotheses at the solution are local (RegularNear); C76_smooth derives them from a Lipschitz Jacobian. Levenberg-Marquardt and dogleg are left out: after a rejected step they use the residual of the rejected point (C43), so that one rejection near the solution spoils the estimate."},
{"property": "C77", "status": "proved", "theorems": ["Jaxfg.Props.C77_gauss_newton", "Jaxfg.Props.C77_levenberg_marquardt", "Jaxfg.Props.C77_dogleg", "Jaxfg.Props.C77_solve"], "note": "Every scalar type."},
{"property": "C78", "status": "proved", "theorems": ["Jaxfg.Props.C78_compose", "Jaxfg.Props.C78_solvers", "Jaxfg.Props.C78_gauss_newton", "Jaxfg.Props.C78_inexact"], "note": "Every scalar type. C78_inexact is the counterexample for the linear solver whose tolerance depends on the counter."},
{"property": "C79", "status": "proved", "theorems": ["Jaxfg.Props.C79_density", "Jaxfg.Props.C79_joint_nll", "Jaxfg.Props.C79_cost", "Jaxfg.Props.C79_maximum_likelihood", "Jaxfg.Props.C79_not_the_log_likelihood"], "note": "The docstring (minus log-likelihood up to constants) is refuted by C79_not_the_log_likelihood; the factor two is recorded in DESIGN.md."},
{"property": "C80", "status": "proved", "theorems": ["Jaxfg.Props.C80_objective", "Jaxfg.Props.C80_solution"], "note": "Exact real arithmetic."},
{"property": "C81", "status": "proved", "theorems": ["Jaxfg.Props.C81_independent_parts", "Jaxfg.Props.C81_gauss_newton", "Jaxfg.Props.C81_cost", "Jaxfg.Props.C81_cholmod"], "note": "Exact arithmetic; linear solvers that solve the normal equations with one positive damping, which CHOLMOD does (C81_cholmod)."},
{"property": "C82", "status": "proved", "theorems": ["Jaxfg.Props.C82_one_variable", "Jaxfg.Props.C82_priors", "Jaxfg.Props.C82_equal_priors"], "note": "The permutation is the one CHOLMOD chose (C53); it is the identity for the natural ordering and for one-dimensional variables."},
{"property": "C83", "status": "proved", "theorems": ["Jaxfg.Props.C83_main", "Jaxfg.Props.C83_uncovered", "Jaxfg.Props.C83_same_order", "Jaxfg.Props.C83_fixed_crossed", "Jaxfg.Props.C83_guard"], "note": "Real arithmetic, jaxlie and CHOLMOD as assumed in DESIGN.md. Timing, command line and the drawing itself are not modelled. With FIXED_ITERATION and edges out of order the result is a set of rigid motions but in general no solution: C83_fixed_crossed (see C40)."},
{"property": "C84", "status": "proved", "theorems": ["Jaxfg.Props.C84_gaussian", "Jaxfg.Props.C84_inlier", "Jaxfg.Props.C84_huber", "Jaxfg.Props.C84_test", "Jaxfg.Props.C84_unbounded", "Jaxfg.Props.C84_minimum", "Jaxfg.Props.C84_excess"], "note": "The bracketed part says that the code does not do what a Huber loss is for; it is proved as stated (C84_unbounded, C84_minimum, C84_excess)."},
{"property": "C85", "status": "proved", "theorems": ["Jaxfg.Props.C85_trust_region", "Jaxfg.Props.C85_more_damping", "Jaxfg.Props.C85_accuracy", "Jaxfg.Props.C85_sharp", "Jaxfg.Props.C85_large_damping", "Jaxfg.Props.C85_test", "Jaxfg.Props.C85_test_fails"], "note": "Real arithmetic. CacheFits: what the solver object has kept, if anything, is the analysis of the same sparsity pattern (see C37 for other caches). C85_test_fails is the bracketed remark."},
{"property": "C86", "status": "proved", "theorems": ["Jaxfg.Props.C86_levenberg_marquardt_step", "Jaxfg.Props.C86_dogleg_step", "Jaxfg.Props.C86_levenberg_marquardt", "Jaxfg.Props.C86_dogleg", "Jaxfg.Props.C86_defaults"], "note": "Real arithmetic. The step theorems assume that the recorded residual is that of the recorded assignments (after rejected steps it is not, see C42 and C43); in the counting theorems this follows from all steps being accepted. mu l bounds the damping of the linear solver (l + 1e-5 for CHOLMOD)."},
{"property": "C87", "status": "proved", "theorems": ["Jaxfg.Props.C87_gauss_newton", "Jaxfg.Props.C87_levenberg_marquardt", "Jaxfg.Props.C87_dogleg", "Jaxfg.Props.C87_gauss_newton_stops_early"], "note": "Real arithmetic, states with a current residual for the damped solvers. The gradient test is signed (C47) and implies no bound. C87_gauss_newton_stops_early is the bracketed remark."},
{"property": "C88", "status": "partial", "theorems": ["Jaxfg.Props.C88_when_shared", "Jaxfg.Props.C88_ignores_connections", "Jaxfg.Props.C88_within_a_call", "Jaxfg.Props.C88_jacobians", "Jaxfg.Props.C88_history", "Jaxfg.Props.C88_fresh_partial", "Jaxfg.Props.C88_shared"], "note": "Independence of earlier calls needs that the calls sharing the compiled function have the same sparsity pattern; without it the claim is false (C88_shared: chain and star of three scalars). Everything else is proved in full."},
{"property": "C89", "status": "proved", "theorems": ["Jaxfg.Props.C89_normal_pattern", "Jaxfg.Props.C89_same_connections", "Jaxfg.Props.C89_fresh", "Jaxfg.Props.C89_any_order", "Jaxfg.Props.C89_ordering_test", "Jaxfg.Props.C89_test_shares"], "note": "The property of CHOLMOD (an analysis serves every matrix with the same pattern of A Aᵀ) is a hypothesis, as the statement says."},
{"property": "C90", "status": "proved", "theorems": ["Jaxfg.Props.C90_levenberg_marquardt_step", "Jaxfg.Props.C90_dogleg_step", "Jaxfg.Props.C90_levenberg_marquardt", "Jaxfg.Props.C90_gradient", "Jaxfg.Props.C90_cholmod", "Jaxfg.Props.C90_smooth"], "note": "Real arithmetic. States with a current residual (before the first rejection, see C42 and C43). C90_smooth derives the assumption on the linearization for variables with the default retraction."},
{"property": "C91", "status": "partial", "theorems": ["Jaxfg.Props.C91_residual", "Jaxfg.Props.C91_jacobian", "Jaxfg.Props.C91_graph", "Jaxfg.Props.C91_graph_partial", "Jaxfg.Props.C91_repeats", "Jaxfg.Props.C91_gaussian_accepts"], "note": "C91_residual, C91_jacobian and C91_graph say exactly what passes. The claim itself is false for Gaussian (C91_repeats, C91_gaussian_accepts) and proved for all other noise models (C91_graph_partial)."},
{"property": "C92", "status": "proved", "theorems": ["Jaxfg.Props.C92_cholmod", "Jaxfg.Props.C92_levenberg_marquardt", "Jaxfg.Props.C92_dogleg", "Jaxfg.Props.C92_dogleg_length", "Jaxfg.Props.C92_no_huber", "Jaxfg.Props.C92_smooth"], "note": "C92_no_huber and C92_smooth derive the hypotheses JacobianIs and PredictsFrom. C92_dogleg_length assumes that no rejected step leads to exactly the same cost (then the quality can be 0/0 and the radius stays)."},
{"property": "C93", "status": "proved", "theorems": ["Jaxfg.Props.C93_levenberg_marquardt", "Jaxfg.Props.C93_dogleg", "Jaxfg.Props.C93_smooth", "Jaxfg.Props.C93_cholmod"], "note": "Over exact reals with the model's extended values; the hypotheses follow from a Lipschitz continuous Jacobian (C93_smooth, C76_smooth) and hold for CHOLMOD (C93_cholmod). Examples: x^2 - 2 with default settings."},
{"property": "C94", "status": "proved", "theorems": ["Jaxfg.Props.C94_stack_returns", "Jaxfg.Props.C94_stack", "Jaxfg.Props.C94_concatenate_returns", "Jaxfg.Props.C94_concatenate", "Jaxfg.Props.C94_stopwatch", "Jaxfg.Props.C94_repr", "Jaxfg.Props.C94_post_init"], "note": "jnp.stack, jnp.concatenate and tree_map are modelled on row-major data with opaque tree structures."},
{"property": "C95", "status": "partial", "theorems": ["Jaxfg.Props.C95_stalls", "Jaxfg.Props.C95_early_stop", "Jaxfg.Props.C95_count_partial", "Jaxfg.Props.C95_stationary_partial"], "note": "False of the code: C95_stalls has two infinitely differentiable residuals of one scalar on which default damping converges to a point with gradient 1, for any number of iterations; C95_early_stop shows it with default tolerances. What holds is in C95_count_partial and C95_stationary_partial: runs in which the cost never rises and accepted steps from a current residual occur again and again. Missing: runs in which all accepted steps start from the residual of a rejected point, and runs in which such a step raises the cost."},
{"property": "C96", "status": "proved", "theorems": ["Jaxfg.Props.C96_dogleg_radius", "Jaxfg.Props.C96_dogleg_gradient", "Jaxfg.Props.C96_dogleg_stationary"], "note": "Real arithmetic inside the extended reals; executions are infinite sequences of states linked by the model's step, whatever the stopping tests say. The example is an endless execution with CHOLMOD and default settings whose iterates converge."},
{"property": "C97", "status": "proved", "theorems": ["Jaxfg.Props.C97_gauss_newton_stationary", "Jaxfg.Props.C97_fixed_iteration_stationary", "Jaxfg.Props.C97_need_not_converge"], "note": "Real arithmetic inside the extended reals; executions are infinite sequences of states linked by the model's step, whatever the stopping tests say. The example is an endless execution with CHOLMOD whose iterates converge."},
{"property": "C98", "status": "proved", "theorems": ["Jaxfg.Props.C98_product", "Jaxfg.Props.C98_cost", "Jaxfg.Props.C98_comparison", "Jaxfg.Props.C98_example"], "note": "Over any scalars that satisfy IsFloat (Spec/Rounding.lean), of which FloatEx.Dbl is a concrete instance with 53 digits. Fused multiply-add is not covered."},
{"property": "C99", "status": "proved", "theorems": ["Jaxfg.Props.C99_levenberg_marquardt", "Jaxfg.Props.C99_dogleg", "Jaxfg.Props.C99_accepts_increase"], "note": "The witness is a problem with one unknown whose residual, Jacobian and linear solver are evaluated in 53-digit arithmetic."}
]}
