/-
jaxfg/core/_stacked_factor_graph.py
-/
import Verif.Model.Factor
import Mathlib.Analysis.SpecialFunctions.Log.Basic
import Mathlib.LinearAlgebra.Matrix.Determinant.Basic

namespace Jaxfg

/-- `StackedFactorGraph`, jaxfg/core/_stacked_factor_graph.py:20-31. -/
structure Graph where
  factorStacks : List FactorStack
  jacobianCoords : List (Nat × Nat)
  layout : Layout
  localLayout : Layout
  residualDim : Nat

namespace Graph

/-- The grouping loop: jaxfg/core/_stacked_factor_graph.py:55, 57, 72. -/
def factorsFromGroup (fs : List Factor) : PyDict Factor.GroupKey (List Factor) :=
  fs.foldl (fun d f => d.set f.groupKey (((d.get? f.groupKey).getD []) ++ [f])) .empty

/-- The ordered set of variables: jaxfg/core/_stacked_factor_graph.py:56-57, 73-75. -/
def variablesOf (fs : List Factor) : List Var :=
  (fs.foldl (fun d f => f.vars.foldl (fun d v => d.set v ()) d) (PyDict.empty : PyDict Var Unit)).keys

/-- Local variables of the loop over the groups. -/
structure Acc where
  factorStacks : List FactorStack
  coords : List (List (Nat × Nat))
  offset : Nat

/-- Loop body: jaxfg/core/_stacked_factor_graph.py:88-109. -/
def addGroup (C : Ty → VarClass ℝ) (layout localLayout : Layout) (acc : Acc) (group : List Factor) : Py Acc := do
  let s ← FactorStack.make C group layout
  let coords ← FactorStack.computeJacobianCoords C group localLayout acc.offset
  let rd ← s.residualDim
  return ⟨acc.factorStacks ++ [s], acc.coords ++ coords, acc.offset + rd⟩

/-- `StackedFactorGraph.make(factors, use_onp)`, jaxfg/core/_stacked_factor_graph.py:47-121. `jax.tree_map` over no trees
raises. -/
def make (C : Ty → VarClass ℝ) (fs : List Factor) : Py Graph := do
  let groups := factorsFromGroup fs
  let vars := variablesOf fs
  let layout := Layout.make C vars false
  let localLayout := Layout.make C vars true
  let acc ← (groups.items.map (·.2)).foldlM (addGroup C layout localLayout) ⟨[], [], 0⟩
  if acc.coords.isEmpty then throw .type
  return { factorStacks := acc.factorStacks, jacobianCoords := acc.coords.flatten, layout := layout, localLayout := localLayout,
           residualDim := acc.offset }

/-- `get_variables()`, jaxfg/core/_stacked_factor_graph.py:44-45. -/
def getVariables (g : Graph) : List Var := g.localLayout.getVariables

/-- Whitened residuals of one stack, flattened: jaxfg/core/_stacked_factor_graph.py:144-149. -/
noncomputable def stackResidual (F : Nat → FactorClass) (C : Ty → VarClass ℝ) (a : Assign ℝ) (s : FactorStack) :
    Py (List ℝ) := do
  let rows ← s.computeResidualVector F C a
  let ws ← ((List.range s.numFactors).zip rows).mapM fun p => do
    let self ← s.selfAt p.1
    self.noise.whiten p.2
  return ws.flatten

/-- `compute_whitened_residual_vector(assignments)`, jaxfg/core/_stacked_factor_graph.py:123-155. -/
noncomputable def computeWhitenedResidualVector (F : Nat → FactorClass) (C : Ty → VarClass ℝ) (g : Graph) (a : Assign ℝ) :
    Py (List ℝ) := do
  let a ← a.updateStorageLayout C g.layout
  let parts ← g.factorStacks.mapM (stackResidual F C a)
  if parts.isEmpty then throw .value
  pyAssert (parts.flatten.length = g.residualDim)
  return parts.flatten

/-- `compute_cost(assignments)`, jaxfg/core/_stacked_factor_graph.py:157-172. -/
noncomputable def computeCost (F : Nat → FactorClass) (C : Ty → VarClass ℝ) (g : Graph) (a : Assign ℝ) :
    Py (ℝ × List ℝ) := do
  let r ← g.computeWhitenedResidualVector F C a
  return ((r.map fun x => x ^ 2).sum, r)

/-- `jnp.linalg.det` of an array: raises unless it is a square matrix. -/
noncomputable def arrDet (W : Arr ℝ) : Py ℝ :=
  match W.shape with
  | [m, n] => if m = n then .ok (W.toMat m m).det else .error .value
  | _ => .error .value

/-- Log-determinant of the covariance of one noise model: jaxfg/core/_stacked_factor_graph.py:200-220. A singular square root
precision matrix gives infinity in the code; theorems assume determinants are not zero. -/
noncomputable def logDetTerm : Noise → Py ℝ
  | .gaussian W => do return -2 * Real.log |← arrDet W|
  | .diagonal d => .ok (-2 * Real.log |d.data.prod|)
  | .huber _ _ => .error .assertion

/-- Log-determinant terms of one stack: jaxfg/core/_stacked_factor_graph.py:198-223. -/
noncomputable def stackLogDet (s : FactorStack) : Py ℝ := do
  let terms ← (List.range s.numFactors).mapM fun n => do
    let self ← s.selfAt n
    logDetTerm self.noise
  return terms.sum

/-- `compute_joint_nll(assignments, include_constants)`, jaxfg/core/_stacked_factor_graph.py:174-225. -/
noncomputable def computeJointNll (F : Nat → FactorClass) (C : Ty → VarClass ℝ) (g : Graph) (a : Assign ℝ)
    (includeConstants : Bool) : Py ℝ := do
  if includeConstants then throw .notImplemented
  let r ← g.computeWhitenedResidualVector F C a
  let logDets ← g.factorStacks.mapM stackLogDet
  return (r.map fun x => x ^ 2).sum + logDets.sum

/-- Loop body of `compute_whitened_residual_jacobian`: jaxfg/core/_stacked_factor_graph.py:245-265. The state is
(`A_values_list` flattened, `residual_start`). -/
noncomputable def linearizeStack (F : Nat → FactorClass) (C : Ty → VarClass ℝ) (a : Assign ℝ) (residual : List ℝ)
    (acc : List (List ℝ) × Nat) (s : FactorStack) : Py (List (List ℝ) × Nat) := do
  let rd ← s.residualDim
  let frd ← s.factorResidualDim
  let stacked ← reshape2 (slice residual acc.2 rd) s.numFactors frd
  let jacs ← s.computeResidualJacobian F C a
  let vals ← jacs.mapM fun col => do
    let ws ← ((List.range s.numFactors).zip (col.zip stacked)).mapM fun p => do
      let self ← s.selfAt p.1
      self.noise.whitenJacobian p.2.1 p.2.2
    return ws.flatMap (·.data)
  return (acc.1 ++ vals, acc.2 + rd)

/-- `compute_whitened_residual_jacobian(assignments, residual_vector)`, jaxfg/core/_stacked_factor_graph.py:227-275. -/
noncomputable def computeWhitenedResidualJacobian (F : Nat → FactorClass) (C : Ty → VarClass ℝ) (g : Graph) (a : Assign ℝ)
    (residual : List ℝ) : Py (Coo ℝ) := do
  let a ← a.updateStorageLayout C g.layout
  let (vals, residualEnd) ← g.factorStacks.foldlM (linearizeStack F C a residual) ([], 0)
  pyAssert (residualEnd ≠ 0)
  pyAssert (residualEnd = g.residualDim)
  if vals.isEmpty then throw .value
  return { values := vals.flatten, rows := g.jacobianCoords.map (·.1), cols := g.jacobianCoords.map (·.2),
           shape := (g.residualDim, g.localLayout.dim) }

end Graph

end Jaxfg
