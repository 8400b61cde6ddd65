# Formal model of brentyi/jaxfg in Lean 4

## Layout of the project

* `lean/Verif/Model/*.lean`: the model, function by function. Every definition cites the file and lines it models.
* `lean/Verif/Spec/*.lean`: small specifications used in theorem statements. They do not use helper functions of the model.
* `lean/Verif/Lemmas/*.lean`: helper lemmas and example graphs.
* `lean/Verif/Props/*.lean`: the property theorems. Beside each theorem is an `example` or theorem with a concrete case that
  meets its hypotheses.
* `seeded/LOG.jsonl`: log of wrong programs tried against the theorems. `MANIFEST.json`: property -> theorems.

## Trusted base

* Lean 4.33.0's kernel, and the definitions of Mathlib that occur in statements.
* Axioms: `propext`, `Classical.choice`, `Quot.sound`, nothing else. `vcheck` prints them per theorem. Of the theorems named
  in the manifest, all depend on at most these three; the following need fewer.
  * no axioms: `C06_empty_raises`, `C07_empty_raises`;
  * `propext` only: `C12_wrong_variable_moved`, `C14_partial_dict_shifts`, `C14_set_value_broadcasts`,
    `C15_local_read_crosses_blocks`;
  * `propext` and `Quot.sound`: `C04_repeated_variable_breaks_guarantees`, `C05_flatten_unflatten`,
    `C11_wrong_parameterization_raises`, `C31_wrong_length_raises`, `C34_scipy`, `C39_fixed_iteration`,
    `C41_C42_fixed_iteration`, `C41_C42_gauss_newton`, `C41_levenberg_marquardt`, `C42_levenberg_marquardt_partial`,
    `C44_levenberg_marquardt`, `C58_value_tuple`, `C63_fixed_iteration`, `C63_gauss_newton`, `C63_levenberg_marquardt`,
    `C65_recursion_depth`, `C78_compose`, `C78_gauss_newton`, `C94_stopwatch`.
* The reading of the Python source recorded in the citations.
* The behaviour of the libraries listed under "Library behaviour that is assumed".

## What is modelled

| source | model |
|--------|-------|
| `jaxfg/core/_variables.py` | `Model/Value.lean`; the two memoized functions in `Model/Cache.lean` |
| `jaxfg/core/_storage_layout.py` | `Model/Layout.lean` |
| `jaxfg/core/_variable_assignments.py` | `Model/Assign.lean`; `__repr__` in `Model/Utils.lean` |
| `jaxfg/core/_factor_base.py` | `Model/Factor.lean`, `Model/DefaultJacobian.lean` |
| `jaxfg/core/_factor_stack.py` | `Model/Factor.lean` |
| `jaxfg/core/_stacked_factor_graph.py` | `Model/Graph.lean` |
| `jaxfg/noises/*.py` | `Model/Noise.lean`, `Model/Cholesky.lean` |
| `jaxfg/sparse/_sparse_matrix.py` | `Model/Sparse.lean` (arrays of one axis), `Model/SparseBatch.lean` (any number of axes) |
| `jaxfg/sparse/_linear_solve.py` | `Model/LinSolve.lean`; conjugate gradients also over any scalars, with NaN and infinities, in `Model/CgScalar.lean` |
| `jaxfg/core/_variable_assignments.py` with dtypes | `Model/Dtype.lean` (creation, `set_value`, `update_storage_layout`, `manifold_retract`; integers are unbounded, floats exact) |
| `jaxfg/solvers/*.py` | `Model/Solver.lean`, over the scalars of `Model/Scalar.lean`; default settings in `Model/Defaults.lean` |
| `jaxfg/geometry/*.py` | `Model/Lie.lean` |
| `jaxfg/experimental/_sparse_covariance.py` | `Model/Covariance.lean` |
| `jaxfg/utils.py` | `Model/Utils.lean` (deprecation warnings not modelled) |
| `scripts/_g2o_utils.py` | `Model/G2o.lean` |
| `scripts/pose_graph_g2o.py` | `Model/PoseGraphScript.lean` (the problem it builds), `Model/PoseGraphMain.lean` (solver types, the three solves, what is drawn; also `StackedFactorGraph.solve`) |
| `scripts/pose_graph_simple.py` | `Model/SimpleScript.lean` (the problem it builds; its calls of `solve` are in the statement of C80) |
| `tests/test_huber.py` | `Model/HuberTest.lean` (the problem for any number of measurements, outlier and threshold, and the error; its call of `solve` is in the statement of C84) |
| `tests/test_variable_and_factor_ordering.py` | `Model/OrderingTest.lean` (classes, factors with any measurements, and the loop over all orders in one process; the final comparison is in the statement of C89) |
| `tests/test_marginalization.py` | `Model/MarginalizationTest.lean` (all three tests; the poses that `graph.solve` returns are an argument of the third) |
| `tests/test_integration.py` | `Model/IntegrationTest.lean` (the derivative of `sqrt(abs(x))` at 0 is 0 in the model and NaN in the code) |
| `tests/test_sparse.py` | `Model/SparseTest.lean` (the drawn matrix and vector are arguments; `scipy.sparse.coo_matrix(dense)`, `onp.linalg.solve` and `assert_allclose` are library routines) |
| `tests/test_pose_graphs.py` | `Model/PoseGraphsTest.lean` (not the assertion on `repr`) |

Not modelled: `jaxfg/hints` (type aliases), plotting and command line of the scripts,
dtypes and casts (except integer or floating point in `Model/Dtype.lean`, C114), floating point rounding and overflow except in C98 and C99, XLA compilation and tracing, devices, linear solvers for batches of sparse
matrices, user-written noise models, exceptions raised inside user-written residuals and retractions.

## Modelling decisions

* Exceptions are values: `Py a = Except Err a` with assertion, key, index, value, type, notImplemented and recursion errors.
* A dict or frozendict is an insertion-ordered association list (`PyDict`); `==` ignores the order.
* Object identity: a variable is a pair (class, uid). Classes are numbers; a table `C : Ty → VarClass` gives their attributes
  (default value, local dimension, retraction). Python's identity equality is equality of the pair.
* Arrays are lists with explicit shapes. Slices, `.at[a:b].set`, `.at[idx].add`, gathers, reshape, stack and vmap are list
  functions with JAX's static shape errors, broadcasting of one-element updates, dropped out-of-range scatters and clamped
  gathers.
* A pytree is what `jax.tree_flatten` returns: an opaque treedef and the list of leaves (shape, row-major data).
* Factor classes are numbers with a table `F : Nat → FactorClass` of type hint, residual and Jacobian functions. Static fields
  belong to the class number, array fields are parameters.
* Numbers in graphs, noise models, Lie groups and linear solvers are exact reals.
* The nonlinear solvers are written over a class `Scal` of scalars *without laws*. Theorems about control flow (termination,
  layout, bookkeeping of accepted and rejected steps, printing) hold for every implementation, so also for floating point.
  Theorems about numbers instantiate `Scal` with `Ext`: real numbers, both infinities and NaN with IEEE comparisons and
  divisions, so 0/0 and x/0 in the step quality and in the relative cost change behave as in the program. `Model/Lift.lean`
  connects graphs over the reals with solvers over `Ext`. `C111_comparisons`, `C111_arithmetic` and `C111_sqrt` (`Props/ExtReal.lean`)
  compare `Ext` with Mathlib's `EReal`. There is one zero: `x / -0` is not modelled.
* Floating point (C98, C99): `Spec/Rounding.lean` states what is assumed of a `Scal` type with rounding, overflow and underflow
  (`IsFloat`); nothing is assumed of a division by zero, so signed zeros do not matter. `Lemmas/FloatExample.lean` constructs one such
  arithmetic with 53 binary digits (unbounded small exponents, hence no underflow). Fused multiply-add would be a different arithmetic.
* Solver loops run with fuel. A result `none` means that the fuel did not suffice; C38 shows which amount always does.
* The covariance model has the depth of the Python stack as a parameter and threads the cache through all calls.
* The memoized functions are operations on a heap with an object counter.

## Library behaviour that is assumed

* `jit`, `vmap`, host callbacks do not change results; `vmap f` maps `f` over the leading axis. One effect of `jit` is modelled
  (`Model/Compiled.lean`): calls of `solve` whose arguments have the same pytree structure and shapes run one compiled function, hence
  use one linear solver object. Element types of arrays, weak types and the eviction of compiled functions are not modelled.
* `ravel_pytree`: concatenation of raveled leaves; its inverse checks the length.
* `jnp.linalg.cholesky`, `onp.linalg.cholesky`: the lower triangular factor with positive diagonal (`Model/Cholesky.lean`, proved
  to exist and to be unique for positive definite matrices); the numpy version raises when there is none.
* CHOLMOD: symbolic analysis of a sparsity pattern; numeric factorization of `A Aᵀ + beta I`, which raises unless the matrix is
  positive definite; `solve_A` solves the system; `L()` satisfies `L Lᵀ = P A Aᵀ Pᵀ` where the permutation `P` and the stored
  zeros depend on the pattern (`CholmodChoice`). When a cached analysis belongs to another pattern nothing is assumed (`stale`
  is an arbitrary function).
* `jnp.einsum` of a matrix with a vector or matrix: the sum of products, with axes of size one repeated (numpy's and JAX's rule);
  other mismatches raise `ValueError`.
* `jax.scipy.sparse.linalg.cg`: the preconditioned conjugate gradient loop of JAX.
* jaxlie: the closed formulas of SO(2), SE(2), SO(3), SE(3). Where jaxlie switches to a Taylor polynomial near angle zero, the model
  uses the exact function and its limit.
* `jax.jacfwd` returns the true derivative. Only the code around it is modelled (C57).
* `int(...)` and `float(...)` on strings are parameters of the g2o reader. `str.strip` removes the characters for which `str.isspace` holds, given by their numbers.

## Findings: where the code does not do what one would expect

Each is proved with a concrete witness; the property is then `partial` and a `_partial` theorem states what does hold.

* C04: a variable listed twice gets its index overwritten, its count doubled, and the layout has a gap. Props/Repeated
  computes the layout of every list: blocks still never overlap, `make_from_defaults` works, `make_from_partial_dict` raises.
* C12: `manifold_retract` matches deltas to variables by position inside each type, not by variable (Props/RetractAny: for
  every pair of orders; for Euclidean variables the claim holds exactly if the orders inside each type agree). A variable that the delta
  lacks is moved by the numbers that follow, which may belong to variables of another type; only a delta that lacks the whole type, or ends
  too early, raises (Props/RetractShort).
* C114: nothing converts initial values to floating point. Assignments made from integers only (for instance
  `jnp.array([2])`, or a `jaxlie` group element made from an integer array) have integer storage, and every solver step is rounded
  towards zero without an error: a measurement of 3 with the integer initial value 2 is never met (`C114_stuck`), a plane rotation becomes
  `(0, 0)` (`C114_rotation_lost`). Factors that use the default Jacobians raise in `jax.jacfwd` instead; factors with their own
  Jacobians, such as all factors of jaxfg/geometry, do not.
* C14: `set_value` broadcasts one-element values; a dictionary with values of wrong sizes whose total is right shifts its neighbours.
* C15: reading a local delta by variable with `get_value` reads across block boundaries (Props/ReadExact: the claim holds exactly for
  classes with as many local parameters as parameters).
* C79: `compute_joint_nll` returns minus twice the log-likelihood (up to a constant), not minus the log-likelihood. (Its argument
  `include_constants` is traced by `jdc.jit` unless the default is used, so that passing it raises; the model has the Python meaning.)
* C30: the Huber Jacobian weight is computed from an already whitened and scaled residual.
* C69: consequently the normal equations of graphs with Huber wrappers belong to a loss that grows with exponent 5/4 above the
  threshold, not to the Huber loss; solvers stop at points where neither the Huber loss nor the reported cost is stationary.
  On linear problems Gauss-Newton converges to the least such loss from all initial values (C116).
  C84 quantifies this for the problem of `tests/test_huber.py`: the error grows with the fourth root of the distance of the outlier
  instead of staying below `δ / (2 n)`. The test passes all the same, for all distances from 800.
* C118: which of the two unit quaternions of a rotation is stored can matter in two ways. If a measurement is off by exactly half a
  turn, the logarithm jumps to the opposite rotation vector; on SE(3) with a square root of the precision that is not diagonal the cost
  changes (`C118_half_turns_matter`: by `2π`). And the gradient test compares stored numbers and takes the maximum of their differences
  without absolute values, so it can pass for `q` and fail for `-q` at the same pose with the same gradient (`C118_gradient_test`).
* C119: measurements with a Huber wrapper are not determined by their total precision: four of precision 1 cost twice as much as one of
  precision 4 at a residual of two thresholds (`C119_robust_not_merged`). Splitting or merging is only neutral without wrapper.
* C117: rings of rotations have stable wrong answers. For three `SO2` variables in a ring, each measured to equal the next, and a prior,
  the solvers (with default settings) started from thirds of a turn do not move, although the identities meet all measurements. Inside the region where the
  solver acts like linear least squares, the answer is best among the rotations with the same whole turns only.
* C33: `as_dense` overwrites repeated coordinates, the product sums them (Props/ReadExact: they agree exactly if the values before the
  last at each coordinate sum to zero).
* C37: the CHOLMOD analysis cache is keyed by object address and never invalidated.
* C40: `FixedIterationGaussNewtonSolver.solve` does not convert the assignments to the layout of the graph. Cost and Jacobian convert
  by themselves, but the step is applied by position; so it returns (C72_fixed_any_order), in general far from a solution
  (C40_fixed_iteration_diverges: the error doubles with every step). If the variables of each type are in the order of the graph, the
  outcome does not depend on the order of the types (C40_fixed_iteration_partial). The script with FIXED_ITERATION is affected when the edges of
  the file do not mention the poses in order (C83_same_order); C83_fixed_crossed is a file with three poses on which the objective
  goes from 2 to more than two million, while the poses 0, 1, 1 have objective 0.
* C42, C43: after a rejected step LM and Dogleg keep the residual of the rejected point. The next step is then not the step for the
  current assignments, and the true cost can increase under default settings.
* C95: for the same reason Levenberg-Marquardt can converge to a point that is not stationary (`C95_stalls`: rejected steps alternate with
  steps from the residual of the rejected point, which move by less and less), and report convergence there under default settings
  (`C95_early_stop`). Dogleg, which also keeps that residual, converges only to stationary points (C96).
* C111: also for the same reason, one proposal whose residual is NaN (a square root or a logarithm outside its domain) freezes
  Levenberg-Marquardt for good if the linear solver passes NaN on: the damping grows, but the step is computed from NaN
  (`C111_frozen_root`). Dogleg does not even shrink its trust region, since comparisons with a NaN quality are false.
* C97: Gauss-Newton has no safeguard: there is a strictly convex cost (residuals `x + 1` and `-2x² + x - 1`) on which it converges from no
  rational start except the minimum itself.
* C102: with CHOLMOD the result of a step depends on the common weight of all measurements, because `1e-5` (and `lambd`) times the
  identity is added to the information matrix; with a hundredth of the weight, one Gauss-Newton step for the measurement `x - 1` from
  0 goes to 10/11 in place of 1. Conjugate gradients do not have this defect. The gradient test compares a quantity that is
  proportional to the squared weight with a fixed tolerance.
* C99: near convergence the predicted decrease of the cost can be rounded to zero. The quality of a step that raises the cost is then
  a positive number divided by zero, infinity, and the step is accepted (`compute_step_quality`, no guard against a zero denominator).
* C47: the gradient test compares signed differences, without absolute value.
* C71: the parameter test compares the step with the size of the stored numbers, so when a solver stops depends on where the
  origin of the world is.
* C53: the covariance ignores CHOLMOD's fill-reducing permutation.
* C56: the analytic Jacobians of pose factors are those of a residual with the log Jacobian left out (they describe exactly how
  the residual moves as an element of the group).
* C62: the pose limit keeps limit + 1 poses, SE(3) records ignore it, negative edge indices count from the end. In files with
  records of both groups SE(3) poses count against the limit of SE(2) poses. `C62_any_file` says exactly what is read from any text.
* C60: `RealVectorVariable[2.0]` raises or succeeds depending on whether `RealVectorVariable[2]` was used before.
* C85: CHOLMOD adds 1e-5 to the diagonal even at damping zero, so `tests/test_sparse.py`, which compares with an undamped solve at
  tolerance 1e-5, fails for matrices with small singular values (for 1/4 on the diagonal and a right-hand side of ones). C107 states
  for which draws exactly, and that draws with dependent columns fail with every solver.
* C87: Gauss-Newton stops when a step happens to leave the cost unchanged, however large the gradient (`C87_gauss_newton_stops_early`,
  default settings).
* C88: calls of `solve` on graphs that differ only in which variables the factors connect share a compiled function, therefore a
  linear solver object and its CHOLMOD analysis, even if the caller makes a new solver for each. The caveat in the code (a solver must
  not be reused for another sparsity pattern) does not cover this. Witness: a chain and a star of three scalars.
* C89: several rounds of `tests/test_variable_and_factor_ordering.py` share an analysis though their Jacobians have different patterns
  (`C89_test_shares`). The test passes because their normal matrices have the same pattern; that CHOLMOD can use an analysis whenever
  the patterns of `A Aᵀ` agree is not assumed by the model but a hypothesis of C89 (`ReusesAnalyses`).
* C91: `Gaussian` multiplies by `jnp.einsum`, which repeats axes of size one as numpy does. A factor whose residual has one entry, but
  whose noise model is for `n`, is therefore evaluated as if its residual were repeated `n` times. `DiagonalGaussian` asserts.
* C123: the arrays of a `SparseCooMatrix` are documented to have shape `(*, N)`, but with batch axes `A @ x` is one vector, the sum of the
  products of all matrices of the batch (`C123_not_batched`, `C123_product_partial`); a batch of values with shared coordinates raises; `as_dense`
  writes all matrices over each other into one; only the transpose works. (Nothing in the repository uses batch axes.)
* C124: a square root precision matrix that is not square is not rejected by itself. The size of the residual is read from its columns, the
  whitened residual has as many entries as it has rows, and only the totals over the graph are compared. With a 1×2 and a 2×1 matrix the
  residual vector is computed, and the Jacobian has derivatives in the columns of the wrong variables (`C124_accepted`).
* C109: the Jacobi preconditioner of the conjugate gradient solvers divides by the diagonal of `AᵀA`. One coordinate that does not change
  the residuals to first order makes every entry of the step NaN (`0/0`). Gauss-Newton then returns NaN for all variables;
  Levenberg-Marquardt (and dogleg with a radius that exceeds the steepest descent step) rejects that step, gets a step of zeros from the
  NaN residual that it kept (C42), and so on until the iterations are used up. CHOLMOD is not affected.
* C65, C66: covariance queries recurse as deep as the matrix is large; out-of-range indices raise or, if negative, give values that
  are not covariances.

## Proof ideas per property

| id | model | proof |
|----|-------|-------|
| C01-C04 | `StorageLayout.make` as the two Python loops | closed form of the loops by induction |
| C05 | `ravel_pytree` on leaf lists | induction on leaves |
| C06-C08 | constructors, `get_value`, `set_value`, `as_dict` | tiling of C01; C08 refinement to a map by induction on the history |
| C09 | `update_storage_layout` with its scatter loop | per-index characterization of the shuffle vector |
| C10-C15 | `get_stacked_value`, `manifold_retract` | chunk lemmas |
| C16-C20, C23-C25, C59 | `FactorStack`, `StackedFactorGraph` | permutation of factors by groups; stack and unstack are inverse; scatter-add sums |
| C21, C22, C57 | same, over the reals | derivatives, coordinate by coordinate; for total derivatives the chain rule through the linear map from the graph's delta to the deltas of a factor |
| C26-C30 | noise models | matrix algebra |
| C31-C34 | sparse matrices | induction on coordinate lists |
| C35-C37, C64 | linear subproblem, CG loop, analysis cache | positive definiteness; conjugacy invariants; induction on histories |
| C38-C50, C63 | solver loops | invariants over iterations; witnesses by evaluation of the model |
| C51-C53, C65, C66 | memoized recursion of `SparseCovariance` | cache invariant, triangular recurrences |
| C54-C56, C67, C68 | pose factors over the four groups | group laws, calculus of exp and log |
| C58 | type hints | case analysis |
| C60 | memoized functions | invariant over call histories |
| C61, C62 | `parse_g2o` as a fold over lines | refinement relation between file records and loop state, in both directions for any text |
| C69 | Huber weights, residual and Jacobian | gradient of a sum of slopes of losses |
| C70 | solver loops on affine graphs | contraction of the error in the norm of the problem; potential argument for the dogleg radius |
| C71 | two runs of the solvers side by side | simulation relation between states, for any symmetry; group laws for pose graphs |
| C72 | every operation of a solver step | each piece is defined on states that occur; termination from C38 |
| C73 | two runs of the solvers side by side | simulation relation: blocks of vectors, equations and unknowns in another order; linear solvers commute with permutations |
| C74 | one run of the solvers | simulation of the run by itself, carrying the invariant |
| C75 | reading, building and solving | composition of C62, C06, C29, C72 and C74 |
| C76 | one Gauss-Newton step near a solution | energy estimate of the step error, Taylor's theorem along the segment to the solution, induction over executions |
| C77, C78 | the steps with two maxima differ in `done` only; the loops on the part of the state that the next step reads | simulation, induction over executions |
| C79 | `compute_joint_nll`, `compute_cost` | Gaussian integral over a product, change of variables by the whitening matrix |
| C80 | the graph of `scripts/pose_graph_simple.py`, written out | evaluation of the model at poses on the axis; the iteration contracts two error modes; global minimum by elementary inequalities |
| C81 | graphs of a list of factors and of a part of it | normal equations as orthogonality to all vectors; vectors of the part extended by zero |
| C82 | graphs on a single variable through `SparseCovariance.make` and `compute_marginal` | information matrix as a sum over the factors; Cholesky factors of the covariances cancel |
| C83 | `main` of `scripts/pose_graph_g2o.py` after the file is read | C75 for each solve; stacked reading of C10 for the lines drawn; first mentions of variables in a list of edges |
| C84 | the graph of `tests/test_huber.py`, any outlier and threshold | the step of a one-variable graph in closed form; the iterates stay on the ray to the outlier, increase, and stay below the root of the modified equation; elementary minimum of the cost |
| C85 | `CholmodSolver.solve_subproblem` as a function of the damping | the damped normal equations are the optimality condition of a strictly convex problem; comparison of two such problems; Cauchy-Schwarz |
| C86 | accepted steps of Levenberg-Marquardt and dogleg | the predicted decrease of a damped step, of part of the Cauchy step and of the dogleg path in terms of the gradient; the quality test passes on a share; telescoping over an execution |
| C87 | the stopping tests of the three solvers | C86 for the cost test, the damped normal equations for the parameter test; for the counterexample a quadratic residual whose Newton step keeps the cost |
| C88 | what `jit` compares of two calls of `solve`; compiled functions and analyses of a process | layouts are determined by places, stacks by kinds and counts; induction on the history; steps only use the linear solver on Jacobians of the graph |
| C89 | as C88, and the loop of the ordering test | an entry of the normal pattern is a pair of coordinates of connected variables; C88_history with equal normal patterns, then C73 between any two rounds and C72 for the first |
| C90 | one step, the beginning of an execution | the step is short if the damping is large or the radius small; the error of the linearization is then a small share of the predicted decrease; Taylor's theorem from C76 for the hypothesis |
| C91 | whitening and evaluation of a graph whose residual functions may return vectors of any size | case distinction on the noise model; whitened residuals always have the size of the model; evaluation of stacks without assumptions on the residuals |
| C92 | rows of rejected steps of Levenberg-Marquardt and dogleg, with the recorded (stale) residual | cost after a rejected step with large damping; contraction of the difference between recorded and true residual; the quality test then succeeds after three steps; growth of the damping and halving of the radius under rejections |
| C93 | Levenberg-Marquardt and dogleg near a solution of a nonlinear problem | distance after a damped step; share of the predicted decrease near the solution, so all steps are accepted, the damping falls by its factor and the radius stays above the steps |
| C94 | `pytree_stack`, `pytree_concatenate`, `stopwatch`, `__repr__`, `__post_init__` | position of a multi-index in row-major data; blocks of a `flatMap`; splitting a text into lines |
| C95 | endless executions of Levenberg-Marquardt; a graph with one scalar and the residuals `[u x, w x]` | the counterexample has `u`, `w` built from Mathlib's smooth transition function, and the two kinds of steps alternate by induction; what holds is the sum of the decreases of C86 over the sound steps |
| C96 | endless executions of dogleg | a rejected step has a radius that is not small (C92), and a step from a current residual with a small radius keeps the radius, so the radius stays away from zero if the gradient does; if it does not grow either, only finitely many steps are rejected, and each accepted one lowers the cost by a fixed amount (C86) |
| C97 | endless executions of Gauss-Newton and of the fixed-iteration solver | the right-hand side of a step is bounded by its length, the gradient is continuous; for the counterexample, the step in closed form pushes away from the minimum, and would need a square root of 2062495 to meet it |
| C98 | floating point numbers (`IsFloat`): sparse product, sum of squares | induction over the entries of a row and over the brackets of a sum; every addition multiplies the error bound by `1 + u` |
| C99 | one step of Levenberg-Marquardt and dogleg on floating point numbers | rounding keeps signs, so a quality above a positive number with a negative denominator has a negative numerator; the witness by exact evaluation with 53 digits |
| C100 | linear graphs with random measurements (`Spec/GaussMarkov.lean`), `SparseCovariance` | all Jacobians of an affine graph denote one matrix `M`, the error of the minimum is `-(MᵀM)⁻¹Mᵀw`; second moments are finite sums; `B - (MᵀM)⁻¹Mᵀ` is orthogonal to the rows |
| C101 | graphs with added factors, `SparseCovariance` | a vector of the larger graph restricted to the variables of the smaller one has smaller information `Σ_f \|R_f x\|²`; completing the square turns this into the order of the inverses |
| C102 | the four solvers on a graph whose square root precisions are all multiplied by `w`, with conjugate gradients | every quantity of a step is homogeneous in `w`: residual and Jacobian of degree 1, cost and gradient of degree 2, the step of degree 0 because CG's damping, preconditioner and tolerance scale along; simulation of the loops. Units: `SHS (S⁻¹x) = Sb` and uniqueness. CHOLMOD: evaluation of one step |
| C103 | what `solve` returns on linear problems with CHOLMOD, stated with values and factors only; the values of the ordering test | `|A d|²` is the change of the residuals, so `Determines σ` bounds the eigenvalues of `AᵀA` for all Jacobians; C70 for the steps, C72 for the return; the optimum exists (normal equations) and the cost grows by `|A d|²` from it. Test: `σ = 1/2`, optimum by hand, C89 for the other rounds |
| C104 | which pose graphs have covariances; `Spec.Anchored` is reachability from priors | `make` raises iff a non-zero direction changes no whitened residual to first order; whitening is an invertible matrix times the Jacobian; a prior forces the direction to vanish, a between factor says `d_b = Ad((T_a⁻¹T_b)⁻¹) d_a`, so zero spreads along chains; on an unanchored part `d_v = Ad(T_v⁻¹) ξ` (moving that part of the world) is such a direction. `Ad` of products from `exp` being injective near zero |
| C105 | the three programs of tests/test_marginalization.py, run to their last assertion | C82 for equal priors (`S Sᵀ` is positive definite); C104 for the existence, C19 and C33 for `as_dense` of the Jacobian (no repeated coordinates), C52 for both modes; with another order the diagonal of `diag(1, 4, 9)` is permuted |
| C106 | the problem of tests/test_integration.py: derivatives, global minimum, and the run of the default solver | in the errors `e` to the minimum the cost is `117/8` plus a quadratic form while `v2.b ≤ 7`; a step is a linear system with one coefficient `1 / (7 - 4 e)`; four steps are enclosed in intervals, which decide the tests of convergence |
| C107 | the tests of the linear solvers: for which draws they pass | CHOLMOD returns `x - 0.00001 w` with `(AᵀA + 0.00001) w = x`, so the assertion is `abs(w i) ≤ 1 + abs(x i)`; the error `e` of conjugate gradient has `abs(AᵀA e) ≤ 1e-8 abs(b)`, and `sigma abs(e) ≤ abs(AᵀA e)` |
| C108 | the tests of the three solvers on a pose graph pass | on the axis the residuals are linear, so every step has quality 1; conjugate gradient stays on the axis, its residual bound confines the two errors to intervals in which the cost test decides the same; the first dogleg step is `b/√10`, the next two are Gauss-Newton steps |
| C109 | conjugate gradients and columns of zeros | without such a column the preconditioner is positive definite and the system consistent, so no division is by zero before the residual vanishes (`proper_of_range`); with one, `p = M b` has a NaN, `pᵀAp` sums it, and the step size is NaN; afterwards `NaN > atol²` is false and the loop ends; a NaN right-hand side ends the loop before its first step, with the initial zeros |
| C110 | conjugate gradients on finite numbers | a solver calls its linear solver only with a Jacobian of `P`, the right-hand side `-Aᵀr` and a nonnegative damping, where C109 says that the code's conjugate gradients, with infinities and NaN, are those on real numbers (`AgreesOn`); so the steps agree, `P` is not left, the damping stays nonnegative and the radius positive (`whileLoop_congr`). For the weights: a Jacobian of the weighted graph is a multiple of one of the original graph (`noZero_weight`), then C102 |
| C111 | costs that are not finite | `(c' - c) / (m - c)` is NaN if `c` is not finite or `c'` is NaN, and comparisons with NaN are false; `stuck_runs` follows a loop whose steps are all rejected. After a NaN proposal the kept residual makes the right-hand side NaN; the zero step of conjugate gradients comes from `cgSolve_nan`. |
| C112 | conjugate gradients on pose graphs | Every whitened block of a pose factor is `W J` with `W` and `J` invertible (`J` is minus the identity or an adjoint), so it has no zero column; `noZero_of_blocks` finds the entries of the block in the list of entries of the whole Jacobian, so that repeated variables need no exception. With C110 the solvers do what they do in real numbers, where conjugate gradients never raise (`cg_total`) and C72 and C74 apply. |
| C113 | unseen directions | A noise model multiplies all Jacobians of a factor by one matrix (`whitenJacobian_linear`), so the Jacobian of the graph maps an unseen direction `u` to zero (`jacobian_stacked`). Gradients `Aᵀ r` are orthogonal to `u`; so are CHOLMOD's solutions, because `(λ + 1e-5)` times the identity commutes with everything, and so are all combinations that dogleg makes. `unseen_sim` adds this to the identity symmetry of C74. For conjugate gradients the invariant of the loop is `u·r = 0`, `u·D p = 0`, `u·D x = 0` with `D` the squared column norms. |
| C114 | dtypes | The functions that create and write the storage are modelled a second time with integer or floating-point arrays (`Model/Dtype.lean`). Each is, on the numbers, the function without dtypes: `jnp.concatenate` promotes, `.at[].set` converts what is written to the dtype of the storage, `zeros_like` keeps it. So retracting integer storage is `manifoldRetract` for the classes `truncating C`, and the theorems about all classes apply: C11 for one retraction, C74 with the invariant "all numbers are integers" for the solvers. `C114_stuck` follows the loop with the invariant "assignments and residual are the initial ones"; the step is `q²/(q² + 1e-5) < 1`. |
| C115 | closest optimum | On affine factors the graph is one matrix `M` and one vector `ρ` (`linear_graph`), values are vectors, and `DeterminesSeen` says that no non-zero eigenvalue of `MᵀM` is below `σ` (`LinearGraph.determines`). The rates of C70 only use that CHOLMOD's steps contract (`Contracts`), which holds on what is seen. C113 for every vector of the kernel (`orthogonal_kept`) says that the returned values differ from the initial ones by `MᵀM y`; the same holds for the closest optimum (`Best.closest`), and on such differences `M` is stiff (`range_stiff`). |
| C116 | Huber convergence | `Spec/Robust`: `totalLoss` sums the losses of C69 with exponent 5/4, `DeterminesInner` forgets the Huber weights. Along a step, the loss is at most its Gauss-Newton model (`loss_major`: the loss is concave in the squared norm) and at least the model with a fraction `m` of the quadratic term (`loss_minor`), as long as the total loss is at most the initial one; `m` comes from the thresholds (`SmallFor`). So the damped step, tested against the step towards any other values, contracts the excess (`robust_step`), and midpoints give uniqueness and the distance bound (`robust_midpoint`). A minimum exists by compactness (`minimizer_exists`). A zero step has to contract as well, hence stationary points are optimal (`C116_stationary`). Case: the outlier of C69, where the limit is 1/8 from every initial value. |
| C117 | rotations in angles | `Spec/Rotation` describes rotations and measurements by real angles: `misfit` is a difference of angles, `angleCost` the weighted sum of their squares, `WithinHalfTurn` the region. The residual of a factor is `arctan2` of the sine and cosine of the misfit, hence the misfit while it is less than half a turn (`measuresAngle_residual`, `arctan2_misfit`); the Jacobians are constant (the adjoint of SO(2) is 1) and the retraction adds angles, so the linearized cost of a step is exactly `angleCost` of the angles after it (`rotation_view`). `damped_contracts` of C70 gives the rate of one step, and since the sum does not grow the region is not left (`rotation_step`, `rotation_runs`). For Levenberg-Marquardt and dogleg, `Lemmas/ExactRate` repeats the proofs of C70 for any coordinates in which the linearized cost is exact below some bound (`Exact`); angles are such (`rotation_exact`), so steps have quality 1 until the cost is least. The optimum is a projection on a finite-dimensional subspace (`angleCost_least`); that connected graphs determine the angles is injectivity of a linear map (`C117_anchored`). The rounds of the loop are counted, not predicted: the convergence tests look at cosines and sines, so they may stop at another step than on the linear problem in angles. |
| C118 | signs of quaternions | `Spec/Signs`: `other` is the second parameter vector of a pose, `resigned` replaces measurements, `NoHalfTurn` says that no measurement is off by exactly half a turn. Changing signs commutes with product, inverse and retraction, keeps the logarithm away from half turns, and keeps adjoints and norms, so it is a symmetry in the sense of C71 with exceptions (`IsSymmetryAway`, `resigned_isSymmetry`). That the solver meets no exception is said by running it on a graph `watched` for half turns, whose cost raises at one; if that run returns, so do the run without observation (`C118_observation`) and the run with other signs (`C118_symmetry`). |
| C119 | only the information counts | `Spec/Information`: `quantity` is a factor without its noise model, `information` the sum of the precision matrices `Wᵀ W` of the factors that measure a quantity. Residual vectors of the two problems correspond (`InfQ`) if they are made from the same unwhitened vectors, one per quantity. Then inner products agree: grouped by quantity they are bilinear forms of the information (`Spec.SameInformation.sum`). So costs, predicted costs, `A.T @ A` and `A.T @ r` agree up to the order of the unknowns, and the general simulation (`Sim`) compares the runs. The linear solver must only read the normal equations: proved for CHOLMOD and for conjugate gradients (the latter if no factor lists a variable twice, since the code sums squares of listed values). `C119_merge` says how problems with the same information arise. |
| C120 | thresholds out of reach do not matter | `Spec/Inliers`: `plain` removes the wrappers, `Inliers` says that the weighted residuals of all factors are below their thresholds, `watchedFor` stops a run at an assignment without a property. Below the thresholds wrappers neither change residuals nor Jacobians (`C120_noise`), but they change the groups of the factors and so the order of the rows; residual vectors correspond if they have the same piece for every factor (`PlainQ`). The simulation (`Sim`) now only asks for corresponding Jacobians at residuals that the first problem has computed somewhere (`Made`), because products of the Jacobian with steps need not be small. `C120_rotations`: residuals of planar rotations are angles of at most half a turn. Outliers are looked for at rejected proposals as well, since the code weights the next Jacobian with the residual of the rejected proposal (C42). |
| C121 | `Spec.SameCovariances`: `make` succeeds for both problems or for none, and `compute_marginal` gives the same matrix for every question after every history; for problems with the same information, moved worlds, other signs of quaternions, Huber wrappers out of reach | the sum of squares of whitened Jacobian products with any direction is the same for both graphs, whatever the order of the columns; `vᵀH⁻¹v` is a supremum over directions, so the marginal variances of all combinations agree (the argument of C101 in both directions, now in Lemmas/Compare), and symmetric matrices with equal quadratic forms are equal. For the natural order of CHOLMOD only (C53) |
| C122 | `Spec.Renamed`: the same factors, in some order, over variables renamed by an injective map, possibly of other classes with the same values and retractions, and possibly of other factor classes with the same residuals and Jacobians; `Spec.RenamedValues`: corresponding variables hold equal values | the simulation of C73 with names: blocks of the two vectors are matched through the renaming, the product of a factor's Jacobians only reads the blocks of its variables (`facProd_renamed`). Methods of factors can see the classes of their variables (`anonymize_variables` keeps them), so for other variable classes the methods must not depend on them; fresh variables of the same classes need no such hypothesis |
| C123 | `Spec.Batched`: the documented shapes `(*, N)`; `Spec.member`: the matrices of the batch; `Spec.IsBatchOfProducts` | the scatter runs over all axes of the indices at once, so the entries of all members end in one vector: the matrix of the concatenated entries is the sum of the members' matrices. On one axis the model is that of C31-C34 (`C123_one_axis`) |
| C124 | `Spec.noiseRows`, `Spec.Shaped`, `Spec.NotSquare`: noise arrays of any shape | stacks rebuilt without assumptions on noise models; whitening that succeeds returns as many entries as the array has rows; sums over groups; witness with a row and a column |
| C125 | C22, C48, C21 with total derivatives | the derivative of the cost along `A.T @ r` vanishes at a local minimum; an injective linear map is bounded below, so the residual grows at least linearly |
| C126, C56 (total) | C125, C104, C54, Fréchet differentiability of the logarithm at zero | group operations are polynomials, a continuous factor times a function that vanishes is differentiable; loose parts of the graph are moved from the left by exp |
| C127 | C126, C104, total derivatives (C21), the damped step estimate of C93 | in the coordinates given by the retraction at the fit, residuals are differentiable and Jacobians continuous; two retractions compose to one by the sum of the deltas, to first order (derivative of log(exp d * exp x)); a Newton-step estimate then contracts |
| C128 | C127, the acceptance argument of C93 | near the fit the predicted decrease is at least a fixed multiple of the squared distance and the model's error is of smaller order, so the achieved share of the predicted decrease exceeds any bound below one; at the fit itself the step is zero whatever the damping |
| C129 | C128, C38, C72 | the step is at least (1 - kappa) times the distance, so a step that passes the parameter test bounds the distance; cost decreases by a fixed share, which exceeds a small cost tolerance; at cost zero the quotient is NaN and the cost test is false |
| C130 | C129, C127, C62, C75, C83 | the factors of a file are prior and between measurements in the sense of C54, their square root precisions are Cholesky factors with nonzero determinant, and chains of edges from pose 0 are chains of factors from its prior; for texts that differ in poses only, the states of the parser differ in the values of `initial_poses` only; a satisfied file is the case of a zero delta |
