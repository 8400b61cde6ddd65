/-
Nonlinear solvers: jaxfg/solvers/. Scalars are an arbitrary `Scal` type. The graph and the linear solver are parameters:
the solvers only use the four members of `GraphOps`, and `LinSolver` is any function of the subproblem and the iteration
number (there is one subproblem per iteration, so a solver with hidden state is covered run by run).
`jax.jit`, tracing, dtypes and the overflow of the iteration counter are not modelled.
-/
import Verif.Model.Scalar
import Verif.Model.Assign
import Verif.Model.Sparse

namespace Jaxfg

variable {S : Type} [Scal S]

/-- What the solvers use of a `StackedFactorGraph`: `storage_layout`, `local_storage_layout`, `compute_cost(assignments)` and
`compute_whitened_residual_jacobian(assignments, residual_vector)`. -/
structure GraphOps (S : Type) where
  layout : Layout
  localLayout : Layout
  computeCost : Assign S → Py (S × List S)
  jacobian : Assign S → List S → Py (Coo S)

/-- `linear_solver.solve_subproblem(A, ATb, lambd, iteration)`. -/
abbrev LinSolver (S : Type) := Coo S → List S → S → Nat → Py (List S)

/-- `NonlinearSolverState`, jaxfg/solvers/_nonlinear_solver_base.py:21-29. -/
structure State (S : Type) where
  iterations : Nat
  assignments : Assign S
  cost : S
  residual : List S
  done : Bool

/-- `_LevenbergMarquardtState`, jaxfg/solvers/_levenberg_marquardt_solver.py:16-20. -/
structure LMState (S : Type) extends State S where
  lambd : S

/-- `_DoglegState`, jaxfg/solvers/_dogleg_solver.py:16-20. -/
structure DoglegState (S : Type) extends State S where
  radius : S

/-- A printed line: `Iteration #i/max_i: cost=… (lambda=…|radius=…)` or `Terminated @ iteration #i: cost=…`. -/
inductive Msg (S : Type) where
  | iteration (i : Nat) (max : Option Int) (cost : S) (damping : Option S)
  | terminated (i : Nat) (cost : S)

/-- `_hcb_print`, jaxfg/solvers/_nonlinear_solver_base.py:106-124: what is printed. -/
def hcbPrint (verbose : Bool) (m : Msg S) : List (Msg S) := if verbose then [m] else []

/-- `jnp.max` of a vector; raises for an empty one. -/
def jnpMax : List S → Py S
  | [] => .error .value
  | x :: xs => .ok (xs.foldl Scal.maximum x)

/-- `x + y` for vectors; sizes that disagree raise (length-1 broadcasting is not modelled). -/
def vecAdd (x y : List S) : Py (List S) := if x.length = y.length then .ok (List.zipWith (· + ·) x y) else .error .type

/-- `jnp.sum(x ** 2)` -/
def sumSq (x : List S) : S := Scal.sum (x.map fun a => a * a)

/-- `jnp.linalg.norm(x)` -/
def vecNorm (x : List S) : S := Scal.sqrt (sumSq x)

/-! ### Mixins -/

/-- `_TrustRegionMixin.compute_step_quality`, jaxfg/solvers/_mixins.py:16-28. -/
def stepQuality (A : Coo S) (proposedCost : S) (prev : State S) (step : List S) : Py S := do
  let As ← A.matmul step
  let predicted ← vecAdd As prev.residual
  return (proposedCost - prev.cost) / (sumSq predicted - prev.cost)

/-- Settings of `_TerminationCriteriaMixin`, jaxfg/solvers/_mixins.py:31-49. -/
structure Criteria (S : Type) where
  maxIterations : Int
  costTolerance : S
  gradientTolerance : S
  gradientToleranceStartStep : Int
  parameterTolerance : S

/-- `check_exceeded_max_iterations`, jaxfg/solvers/_mixins.py:51-57. -/
def Criteria.exceeded (t : Criteria S) (prev : State S) : Bool := decide ((prev.iterations : Int) ≥ t.maxIterations - 1)

/-- `converged_cost`, jaxfg/solvers/_mixins.py:69-73. -/
def Criteria.convergedCost (t : Criteria S) (prev : State S) (costUpdated : S) : Bool :=
  Scal.lt (Scal.abs (costUpdated - prev.cost) / prev.cost) t.costTolerance

/-- `converged_gradient`, jaxfg/solvers/_mixins.py:75-89. The maximum is computed in any case. -/
def Criteria.convergedGradient (C : Ty → VarClass S) (t : Criteria S) (prev : State S) (localLayout : Layout)
    (negGradient : List S) : Py Bool := do
  let moved ← prev.assignments.manifoldRetract C ⟨negGradient, localLayout⟩
  let m ← jnpMax (List.zipWith (· - ·) prev.assignments.storage moved.storage)
  return if (prev.iterations : Int) ≥ t.gradientToleranceStartStep then Scal.lt m t.gradientTolerance else false

/-- `converged_parameters`, jaxfg/solvers/_mixins.py:91-99. -/
def Criteria.convergedParameters (t : Criteria S) (prev : State S) (delta : List S) : Bool :=
  Scal.lt (vecNorm (delta.map Scal.abs)) ((vecNorm prev.assignments.storage + t.parameterTolerance) * t.parameterTolerance)

/-- `check_convergence`, jaxfg/solvers/_mixins.py:59-110. -/
def Criteria.converged (C : Ty → VarClass S) (t : Criteria S) (prev : State S) (costUpdated : S) (delta : Assign S)
    (negGradient : List S) : Py Bool := do
  let g ← t.convergedGradient C prev delta.layout negGradient
  return t.convergedCost prev costUpdated || g || t.convergedParameters prev delta.storage

/-! ### The four solvers -/

/-- The fields of `NonlinearSolverState` built by `_initialize_state`, the same in all solvers:
jaxfg/solvers/_gauss_newton_solver.py:27-35, _levenberg_marquardt_solver.py:42-51, _dogleg_solver.py:39-48,
_fixed_iteration_gauss_newton_solver.py:32-40. -/
def initState (g : GraphOps S) (a : Assign S) : Py (State S) := do
  let (cost, r) ← g.computeCost a
  return { iterations := 0, assignments := a, cost := cost, residual := r, done := false }

/-- `GaussNewtonSolver`, jaxfg/solvers/_gauss_newton_solver.py:16-20. -/
structure GaussNewton (S : Type) extends Criteria S where
  verbose : Bool
  linear : LinSolver S

/-- `GaussNewtonSolver._step`, jaxfg/solvers/_gauss_newton_solver.py:37-93. -/
def GaussNewton.step (C : Ty → VarClass S) (g : GraphOps S) (s : GaussNewton S) (prev : State S) :
    Py (State S × List (Msg S)) := do
  let log := hcbPrint s.verbose (.iteration prev.iterations (some s.maxIterations) prev.cost none)
  let A ← g.jacobian prev.assignments prev.residual
  let ATr ← A.T.matmul prev.residual
  let ATb := ATr.map fun x => -x
  let delta ← s.linear A ATb (Scal.lit 0) prev.iterations
  let assignments ← prev.assignments.manifoldRetract C ⟨delta, g.localLayout⟩
  let (cost, r) ← g.computeCost assignments
  let conv ← s.converged C prev cost ⟨delta, g.localLayout⟩ ATb
  return ({ iterations := prev.iterations + 1, assignments := assignments, cost := cost, residual := r,
            done := s.exceeded prev || conv }, log)

/-- `LevenbergMarquardtSolver`, jaxfg/solvers/_levenberg_marquardt_solver.py:23-34. -/
structure LevenbergMarquardt (S : Type) extends Criteria S where
  verbose : Bool
  linear : LinSolver S
  stepQualityMin : S
  lambdaInitial : S
  lambdaFactor : S
  lambdaMin : S
  lambdaMax : S

/-- `LevenbergMarquardtSolver._initialize_state`, jaxfg/solvers/_levenberg_marquardt_solver.py:36-51. -/
def LevenbergMarquardt.init (g : GraphOps S) (s : LevenbergMarquardt S) (a : Assign S) : Py (LMState S) := do
  let st ← initState g a
  return { st with lambd := s.lambdaInitial }

/-- The damping update: jaxfg/solvers/_levenberg_marquardt_solver.py:104-117. -/
def LevenbergMarquardt.updateLambda (s : LevenbergMarquardt S) (accept : Bool) (lambd : S) : S :=
  if accept then lambd / s.lambdaFactor
  else Scal.maximum s.lambdaMin (Scal.minimum (lambd * s.lambdaFactor) s.lambdaMax)

/-- `LevenbergMarquardtSolver._step`, jaxfg/solvers/_levenberg_marquardt_solver.py:53-152. -/
def LevenbergMarquardt.step (C : Ty → VarClass S) (g : GraphOps S) (s : LevenbergMarquardt S) (prev : LMState S) :
    Py (LMState S × List (Msg S)) := do
  let log := hcbPrint s.verbose (.iteration prev.iterations (some s.maxIterations) prev.cost (some prev.lambd))
  let A ← g.jacobian prev.assignments prev.residual
  let ATb ← A.T.matmul (prev.residual.map fun x => -x)
  let delta ← s.linear A ATb prev.lambd prev.iterations
  let proposed ← prev.assignments.manifoldRetract C ⟨delta, g.localLayout⟩
  let (proposedCost, r) ← g.computeCost proposed
  let quality ← stepQuality A proposedCost prev.toState delta
  let accept := Scal.le s.stepQualityMin quality
  let conv ← s.converged C prev.toState proposedCost ⟨delta, g.localLayout⟩ ATb
  return ({ iterations := prev.iterations + 1
            assignments := { prev.assignments with storage := if accept then proposed.storage else prev.assignments.storage }
            lambd := s.updateLambda accept prev.lambd
            cost := if accept then proposedCost else prev.cost
            residual := r
            done := s.exceeded prev.toState || (accept && conv) }, log)

/-- `DoglegSolver`, jaxfg/solvers/_dogleg_solver.py:23-31. -/
structure Dogleg (S : Type) extends Criteria S where
  verbose : Bool
  linear : LinSolver S
  stepQualityMin : S
  radiusInitial : S

/-- `DoglegSolver._initialize_state`, jaxfg/solvers/_dogleg_solver.py:33-48. -/
def Dogleg.init (g : GraphOps S) (s : Dogleg S) (a : Assign S) : Py (DoglegState S) := do
  let st ← initState g a
  return { st with radius := s.radiusInitial }

/-- `beta`, jaxfg/solvers/_dogleg_solver.py:93-105, from `a`, `b` and the radius. -/
def doglegBeta (a b : List S) (radius : S) : S :=
  let diff := List.zipWith (· - ·) b a
  let c := Scal.sum (List.zipWith (· * ·) a diff)
  let aNormSq := sumSq a
  let diffNormSq := sumSq diff
  let radiusSq := radius * radius
  let radiusSqMinus := radiusSq - aNormSq
  let root := Scal.sqrt (c * c + diffNormSq * radiusSqMinus)
  if Scal.le c (Scal.lit 0) then (-c + root) / diffNormSq else radiusSqMinus / (c + root)

/-- `compute_dogleg_step()` after the Gauss-Newton step: jaxfg/solvers/_dogleg_solver.py:82-120. Vectors of different sizes
raise. -/
def doglegStep (A : Coo S) (ATb gn : List S) (radius : S) : Py (List S) := do
  let AATb ← A.matmul ATb
  if gn.length ≠ ATb.length then throw .type
  let alpha := sumSq ATb / sumSq AATb
  let a := ATb.map fun x => alpha * x
  let beta := doglegBeta a gn radius
  let normGn := vecNorm gn
  let normSd := vecNorm a
  return if Scal.le normGn radius then gn
    else if Scal.le radius normSd then a.map fun x => radius / normSd * x
    else List.zipWith (· + ·) a ((List.zipWith (· - ·) gn a).map fun x => beta * x)

/-- The trust region update: jaxfg/solvers/_dogleg_solver.py:142-153. -/
def doglegRadius (quality radius : S) (step : List S) : S :=
  if Scal.lt quality (Scal.lit (1 / 4)) then radius / Scal.lit 2
  else if Scal.lt (Scal.lit (3 / 4)) quality then Scal.maximum radius (Scal.lit 3 * vecNorm step)
  else radius

/-- `DoglegSolver._step`, jaxfg/solvers/_dogleg_solver.py:50-188. -/
def Dogleg.step (C : Ty → VarClass S) (g : GraphOps S) (s : Dogleg S) (prev : DoglegState S) :
    Py (DoglegState S × List (Msg S)) := do
  let log := hcbPrint s.verbose (.iteration prev.iterations (some s.maxIterations) prev.cost (some prev.radius))
  let A ← g.jacobian prev.assignments prev.residual
  let ATb ← A.T.matmul (prev.residual.map fun x => -x)
  let gn ← s.linear A ATb (Scal.lit 0) prev.iterations
  let delta ← doglegStep A ATb gn prev.radius
  let proposed ← prev.assignments.manifoldRetract C ⟨delta, g.localLayout⟩
  let (proposedCost, r) ← g.computeCost proposed
  let quality ← stepQuality A proposedCost prev.toState delta
  let accept := Scal.le s.stepQualityMin quality
  let conv ← s.converged C prev.toState proposedCost ⟨delta, g.localLayout⟩ ATb
  return ({ iterations := prev.iterations + 1
            assignments := { prev.assignments with storage := if accept then proposed.storage else prev.assignments.storage }
            radius := doglegRadius quality prev.radius delta
            cost := if accept then proposedCost else prev.cost
            residual := r
            done := s.exceeded prev.toState || (accept && conv) }, log)

/-- `FixedIterationGaussNewtonSolver`, jaxfg/solvers/_fixed_iteration_gauss_newton_solver.py:17-24. -/
structure FixedIteration (S : Type) where
  verbose : Bool
  linear : LinSolver S
  unroll : Bool
  iterations : Int

/-- `FixedIterationGaussNewtonSolver._step`, jaxfg/solvers/_fixed_iteration_gauss_newton_solver.py:42-89. -/
def FixedIteration.step (C : Ty → VarClass S) (g : GraphOps S) (s : FixedIteration S) (prev : State S) :
    Py (State S × List (Msg S)) := do
  let log := hcbPrint s.verbose (.iteration prev.iterations none prev.cost none)
  let A ← g.jacobian prev.assignments prev.residual
  let ATr ← A.T.matmul prev.residual
  let ATb := ATr.map fun x => -x
  let delta ← s.linear A ATb (Scal.lit 0) prev.iterations
  let assignments ← prev.assignments.manifoldRetract C ⟨delta, g.localLayout⟩
  let (cost, r) ← g.computeCost assignments
  return ({ iterations := prev.iterations + 1, assignments := assignments, cost := cost, residual := r,
            done := decide ((prev.iterations : Int) ≥ s.iterations - 1) }, log)

/-! ### Loops -/

/-- `jax.lax.while_loop(cond_fun=not done, body_fun=step, init_val=s)` together with what is printed. A loop that does not
end within `fuel` iterations gives `none`. -/
def whileLoop {σ : Type} (done : σ → Bool) (step : σ → Py (σ × List (Msg S))) : Nat → σ → Py (Option (σ × List (Msg S)))
  | 0, s => .ok (if done s then some (s, []) else none)
  | fuel + 1, s =>
    if done s then .ok (some (s, []))
    else do
      let (s', log) ← step s
      let r ← whileLoop done step fuel s'
      return r.map fun p => (p.1, log ++ p.2)

/-- `for i in range(n): state = self._step(graph, state)`, jaxfg/solvers/_fixed_iteration_gauss_newton_solver.py:106-108. -/
def forLoop {σ : Type} (step : σ → Py (σ × List (Msg S))) : Nat → σ → Py (σ × List (Msg S))
  | 0, s => .ok (s, [])
  | n + 1, s => do
    let (s', log) ← step s
    let (s'', log') ← forLoop step n s'
    return (s'', log ++ log')

/-- `NonlinearSolverBase.solve(graph, initial_assignments)`, jaxfg/solvers/_nonlinear_solver_base.py:75-104, with the printed
lines. `init` and `step` are `_initialize_state` and `_step`; `base` forgets the fields that subclasses add. -/
def baseSolve {σ : Type} (C : Ty → VarClass S) (g : GraphOps S) (verbose : Bool) (base : σ → State S) (init : Assign S → Py σ)
    (step : σ → Py (σ × List (Msg S))) (fuel : Nat) (a : Assign S) : Py (Option (Assign S × List (Msg S))) := do
  let b ← a.updateStorageLayout C g.layout
  let st ← init b
  match ← whileLoop (fun s => (base s).done) step fuel st with
  | none => return none
  | some (st', log) =>
    let out ← (base st').assignments.updateStorageLayout C a.layout
    return some (out, log ++ hcbPrint verbose (.terminated (base st').iterations (base st').cost))

/-- `GaussNewtonSolver(...).solve(graph, initial_assignments)` -/
def GaussNewton.solve (C : Ty → VarClass S) (g : GraphOps S) (s : GaussNewton S) :=
  baseSolve C g s.verbose id (initState g) (s.step C g)

/-- `LevenbergMarquardtSolver(...).solve(graph, initial_assignments)` -/
def LevenbergMarquardt.solve (C : Ty → VarClass S) (g : GraphOps S) (s : LevenbergMarquardt S) :=
  baseSolve C g s.verbose LMState.toState (s.init g) (s.step C g)

/-- `DoglegSolver(...).solve(graph, initial_assignments)` -/
def Dogleg.solve (C : Ty → VarClass S) (g : GraphOps S) (s : Dogleg S) :=
  baseSolve C g s.verbose DoglegState.toState (s.init g) (s.step C g)

/-- `FixedIterationGaussNewtonSolver.solve(graph, initial_assignments)`,
jaxfg/solvers/_fixed_iteration_gauss_newton_solver.py:91-122. -/
def FixedIteration.solve (C : Ty → VarClass S) (g : GraphOps S) (s : FixedIteration S) (fuel : Nat) (a : Assign S) :
    Py (Option (Assign S × List (Msg S))) := do
  let _ ← g.computeCost a
  let st ← initState g a
  match ← (if s.unroll then (forLoop (s.step C g) s.iterations.toNat st).map some
      else whileLoop (fun s => s.done) (s.step C g) fuel st) with
  | none => return none
  | some (st', log) => return some (st'.assignments, log ++ hcbPrint s.verbose (.terminated st'.iterations st'.cost))

end Jaxfg
