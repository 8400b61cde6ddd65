/- Default settings of the solvers. A decimal such as `1e-5` is the real number it denotes, not the nearest floating point number. -/
import Verif.Model.Solver

namespace Jaxfg

/-- Default settings of `_TerminationCriteriaMixin`, jaxfg/solvers/_mixins.py:35-49. -/
noncomputable def Criteria.defaults : Criteria ℝ :=
  { maxIterations := 100, costTolerance := 1 / 100000, gradientTolerance := 1 / 1000000000, gradientToleranceStartStep := 10,
    parameterTolerance := 1 / 10000000 }

/-- `GaussNewtonSolver(linear_solver=L)` with default settings, jaxfg/solvers/_nonlinear_solver_base.py:45, jaxfg/solvers/_gauss_newton_solver.py:16-20. -/
noncomputable def GaussNewton.defaults (L : LinSolver ℝ) : GaussNewton ℝ :=
  { Criteria.defaults with verbose := true, linear := L }

/-- `LevenbergMarquardtSolver(linear_solver=L)` with default settings, jaxfg/solvers/_levenberg_marquardt_solver.py:31-34,
jaxfg/solvers/_mixins.py:14. -/
noncomputable def LevenbergMarquardt.defaults (L : LinSolver ℝ) : LevenbergMarquardt ℝ :=
  { Criteria.defaults with verbose := true, linear := L, stepQualityMin := 1 / 1000, lambdaInitial := 1 / 2000, lambdaFactor := 2,
                           lambdaMin := 1 / 100000, lambdaMax := 10000000000 }

/-- `DoglegSolver(linear_solver=L)` with default settings, jaxfg/solvers/_dogleg_solver.py:31, jaxfg/solvers/_mixins.py:14. -/
noncomputable def Dogleg.defaults (L : LinSolver ℝ) : Dogleg ℝ :=
  { Criteria.defaults with verbose := true, linear := L, stepQualityMin := 1 / 1000, radiusInitial := 1 }

/-- `FixedIterationGaussNewtonSolver(linear_solver=L)` with default settings,
jaxfg/solvers/_fixed_iteration_gauss_newton_solver.py:18-24. -/
noncomputable def FixedIteration.defaults (L : LinSolver ℝ) : FixedIteration ℝ :=
  { unroll := true, iterations := 10, verbose := true, linear := L }

end Jaxfg
