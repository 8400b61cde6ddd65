/-
Which CHOLMOD analysis a call of `solve` uses. `solve` is compiled by `jit` (jaxfg/solvers/_nonlinear_solver_base.py:75,
jaxfg/solvers/_fixed_iteration_gauss_newton_solver.py:91): a call whose arguments have the pytree structure and the array shapes of
an earlier call runs the function that was compiled then. The solver object in this function is the one that was rebuilt from its
pytree when the function was traced, and its address is the key of the analysis cache (jaxfg/sparse/_linear_solve.py:70, 78-80).
-/
import Verif.Model.Graph
import Verif.Model.LinSolve
import Verif.Model.Solver

namespace Jaxfg

/-- What `jit` compares of two `FactorStack`s: the static fields `num_factors` and `storage_layout`, the structure of the stacked
factor, the shapes of its arrays and of the index arrays. jaxfg/core/_factor_stack.py:16-27. (Element types are not modelled.) -/
def FactorStack.sameTrace (s s' : FactorStack) : Bool :=
  decide (s.numFactors = s'.numFactors) && decide (s.cls = s'.cls) && decide (s.types = s'.types) &&
    decide (s.noiseDef = s'.noiseDef) && decide (s.leaves.map (·.shape) = s'.leaves.map (·.shape)) &&
    decide (s.valueIndices.map (·.map List.length) = s'.valueIndices.map (·.map List.length)) && s.layout.eq s'.layout

/-- What `jit` compares of two graphs: the stacks, the number of Jacobian coordinates (not the coordinates, which are array leaves),
the static layouts and the static residual dimension. jaxfg/core/_stacked_factor_graph.py:27-31. -/
def Graph.sameTrace (g g' : Graph) : Bool :=
  decide (g.factorStacks.length = g'.factorStacks.length) &&
    (g.factorStacks.zip g'.factorStacks).all (fun p => p.1.sameTrace p.2) &&
    decide (g.jacobianCoords.length = g'.jacobianCoords.length) && g.layout.eq g'.layout && g.localLayout.eq g'.localLayout &&
    decide (g.residualDim = g'.residualDim)

/-- The arguments of a call of `solve`. `solver` is the pytree structure of the solver object: its class, its static fields and the
class of its linear solver, here `CholmodSolver` (which has no fields, so that all instances have the same structure,
jaxfg/sparse/_linear_solve.py:39-40). Of the initial assignments only structure and shape matter:
jaxfg/core/_variable_assignments.py:15-24. -/
structure SolveCall where
  solver : Nat
  graph : Graph
  layout : Layout
  storageLen : Nat

/-- What `jit` compares of two calls of `solve`. -/
def SolveCall.sameTrace (c c' : SolveCall) : Bool :=
  decide (c.solver = c'.solver) && c.graph.sameTrace c'.graph && c.layout.eq c'.layout && decide (c.storageLen = c'.storageLen)

/-- A Python process: the compiled versions of `solve` with the address of the linear solver object in each, the number of addresses
in use, and the analysis cache of jaxfg/sparse/_linear_solve.py:36. Compiled functions are never discarded, so their objects keep
their addresses. -/
structure Process where
  traces : List (SolveCall × Nat)
  next : Nat
  cache : CholmodCache

/-- A new process. -/
def Process.initial : Process := ⟨[], 0, .empty⟩

/-- Looks up or compiles the function for a call, and returns the address of its linear solver object. -/
def Process.compile (p : Process) (c : SolveCall) : Nat × Process :=
  match p.traces.find? (fun t => t.1.sameTrace c) with
  | some t => (t.2, p)
  | none => (p.next, { p with traces := p.traces ++ [(c, p.next)], next := p.next + 1 })

/-- The matrix `A_T_scipy` of a graph, jaxfg/sparse/_linear_solve.py:74-75, without its values. -/
def Graph.transposed (g : Graph) : ScipyCoo ℝ :=
  ⟨[], g.jacobianCoords.map (·.2), g.jacobianCoords.map (·.1), (g.localLayout.dim, g.residualDim)⟩

/-- A call of `solve` that solves at least one linear subproblem: the linear solver that it uses, and the process after it. All
subproblems of the call have the coordinates of the graph, so that the first of them settles the analysis
(`C88_within_a_call` shows that the cache may be taken before the call or after any of its subproblems). -/
noncomputable def Process.solve (stale : Pattern → ScipyCoo ℝ → ℝ → List ℝ → Py (List ℝ)) (p : Process) (c : SolveCall) :
    LinSolver ℝ × Process :=
  let q := p.compile c
  (fun A b l _ => (cholmodSolve stale q.2.cache q.1 A b l).1,
   { q.2 with cache := (cholmodAnalysis q.2.cache q.1 c.graph.transposed).2 })

/-- The process after a list of calls. -/
noncomputable def Process.after (stale : Pattern → ScipyCoo ℝ → ℝ → List ℝ → Py (List ℝ)) (calls : List SolveCall) : Process :=
  calls.foldl (fun p c => (p.solve stale c).2) .initial

end Jaxfg
