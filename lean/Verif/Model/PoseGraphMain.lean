/- The solvers as objects, and the rest of the script that solves a pose graph from a g2o file: scripts/pose_graph_g2o.py. The command
line, timing, compilation (`block_until_ready`) and the drawing itself are not modelled. -/
import Verif.Model.PoseGraphScript
import Verif.Model.Lift

namespace Jaxfg

variable {S : Type} [Scal S]

/-- An object of one of the four solver classes. -/
inductive AnySolver (S : Type) where
  | gaussNewton (s : GaussNewton S)
  | fixedIteration (s : FixedIteration S)
  | levenbergMarquardt (s : LevenbergMarquardt S)
  | dogleg (s : Dogleg S)

/-- `solver.solve(graph, initial_assignments)`. -/
def AnySolver.solve (C : Ty → VarClass S) (g : GraphOps S) : AnySolver S → Nat → Assign S → Py (Option (Assign S × List (Msg S)))
  | .gaussNewton s => s.solve C g
  | .fixedIteration s => s.solve C g
  | .levenbergMarquardt s => s.solve C g
  | .dogleg s => s.solve C g

/-- `StackedFactorGraph.solve(initial_assignments, solver)`, jaxfg/core/_stacked_factor_graph.py:277-284. -/
def graphSolve (C : Ty → VarClass S) (g : GraphOps S) (fuel : Nat) (a : Assign S) (solver : AnySolver S) :
    Py (Option (Assign S × List (Msg S))) :=
  solver.solve C g fuel a

/-- `dataclasses.replace(solver, max_iterations=n)`: raises for the solver class without that field. -/
def AnySolver.withMaxIterations (n : Int) : AnySolver S → Py (AnySolver S)
  | .gaussNewton s => .ok (.gaussNewton { s with maxIterations := n })
  | .fixedIteration _ => .error .type
  | .levenbergMarquardt s => .ok (.levenbergMarquardt { s with maxIterations := n })
  | .dogleg s => .ok (.dogleg { s with maxIterations := n })

/-- `isinstance(solver, FixedIterationGaussNewtonSolver)`. -/
def AnySolver.isFixedIteration : AnySolver S → Bool
  | .fixedIteration _ => true
  | _ => false

/-- A solver whose settings are real numbers. -/
def LiftsAny : AnySolver Ext → AnySolver ℝ → Prop
  | .gaussNewton sE, .gaussNewton s => LiftsGN sE s
  | .fixedIteration sE, .fixedIteration s =>
    sE.verbose = s.verbose ∧ LiftsSolver sE.linear s.linear ∧ sE.unroll = s.unroll ∧ sE.iterations = s.iterations
  | .levenbergMarquardt sE, .levenbergMarquardt s => LiftsLM sE s
  | .dogleg sE, .dogleg s => LiftsDogleg sE s
  | _, _ => False

/-- `SolverType`, scripts/pose_graph_g2o.py:21-25. -/
inductive SolverType where
  | gaussNewton | fixedIteration | levenbergMarquardt | dogleg
deriving DecidableEq

/-- `SolverType.get_solver()`, scripts/pose_graph_g2o.py:27-37; `L` is the linear solver that the call makes. -/
noncomputable def SolverType.getSolver (L : LinSolver ℝ) : SolverType → AnySolver ℝ
  | .gaussNewton => .gaussNewton (.defaults L)
  | .fixedIteration => .fixedIteration { FixedIteration.defaults L with unroll := false }
  | .levenbergMarquardt => .levenbergMarquardt (.defaults L)
  | .dogleg => .dogleg (.defaults L)

/-- `assignments.get_stacked_value(SE2Variable).translation()` or the same with `SE3Variable`, scripts/pose_graph_g2o.py:119-123, 131-135,
149-153, 158-162: one point for each variable of the class. jaxlie stores translations last. -/
def translations (C : Ty → VarClass S) (a : Assign S) (t : Ty) : Py (List (List S)) := do
  let xs ← a.getStackedValue C t
  return xs.map fun x => x.flatten.drop (if t = se3Ty then 4 else 2)

/-- What is drawn: planar or not, the points of the two lines. -/
structure Plot (S : Type) where
  planar : Bool
  initial : List (List S)
  optimized : List (List S)

/-- The two lines: scripts/pose_graph_g2o.py:110-169. Simplification: the `StopIteration` of `next` is an index error. -/
def scriptPlot (C : Ty → VarClass S) (initial solution : Assign S) : Py (Plot S) := do
  let v ← pyGet solution.getVariables 0
  if v.ty = se2Ty then
    return ⟨true, ← translations C initial se2Ty, ← translations C solution se2Ty⟩
  else if v.ty = se3Ty then
    return ⟨false, ← translations C initial se3Ty, ← translations C solution se3Ty⟩
  else throw .assertion

/-- A solve for timing: scripts/pose_graph_g2o.py:86-93, 95-102; the result is overwritten. -/
def timedSolve (C : Ty → VarClass S) (g : GraphOps S) (fuel : Nat) (a : Assign S) (solver : AnySolver S) : Py (Option Unit) := do
  let s ← solver.withMaxIterations 1
  let r ← graphSolve C g fuel a s
  return r.map fun _ => ()

/-- `main()` after the file is read: scripts/pose_graph_g2o.py:60-170, with the final assignments. `solver k` is the object that the
`k`-th call of `get_solver()` returns; `CE` and `gE` are the variable classes and the graph over the extended numbers (see
Verif.Model.Lift). -/
noncomputable def scriptMain (CE : Ty → VarClass Ext) (gE : Graph → GraphOps Ext) (solver : Nat → AnySolver Ext) (fuel : Nat)
    (huber : Option ℝ) (data : G2oData) : Py (Option (Assign Ext × Plot Ext)) := do
  let (g, a) ← scriptProblem huber data
  let initial := a.map Ext.fin
  let fixed := (solver 0).isFixedIteration
  let first ← if fixed then pure (some ()) else timedSolve CE (gE g) fuel initial (solver 1)
  let second ← if fixed then pure (some ()) else timedSolve CE (gE g) fuel initial (solver 2)
  match first, second with
  | some _, some _ =>
    match ← graphSolve CE (gE g) fuel initial (solver (if fixed then 1 else 3)) with
    | none => return none
    | some (solution, _) =>
      let plot ← scriptPlot CE initial solution
      return some (solution, plot)
  | _, _ => return none

end Jaxfg
