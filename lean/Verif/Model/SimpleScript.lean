/- The example script with two poses: scripts/pose_graph_simple.py. Its timing and printing are not modelled. -/
import Verif.Model.G2o
import Verif.Model.Graph
import Verif.Model.Defaults

namespace Jaxfg

/-- The two pose variables: scripts/pose_graph_simple.py:23-26; `next` objects exist before. -/
def simpleVariables (next : Nat) : List Var := [⟨se2Ty, next⟩, ⟨se2Ty, next + 1⟩]

/-- `jaxfg.noises.DiagonalGaussian(jnp.ones(3))`. -/
def simpleNoise : Noise := .diagonal ⟨[3], List.replicate 3 1⟩

/-- `jaxlie.SE2.from_xy_theta(x, y, theta)` as a value. -/
noncomputable def se2Value (x y θ : ℝ) : Value ℝ := LieGroup.se2.value (se2FromXyTheta x y θ)

/-- The three factors: scripts/pose_graph_simple.py:30-47. -/
noncomputable def simpleFactors (pose0 pose1 : Var) : Py (List Factor) := do
  let mu0 := se2Value 0 0 0
  let mu1 := se2Value 2 0 0
  let T := se2Value 1 0 0
  let f0 := PriorFactor.make (priorCls mu0.treedef) pose0 mu0 simpleNoise
  let f1 := PriorFactor.make (priorCls mu1.treedef) pose1 mu1 simpleNoise
  let f2 ← BetweenFactor.make (betweenCls T.treedef) (fun t => (g2oGroup t).treedef) pose0 pose1 T simpleNoise
  return [f0, f1, f2]

/-- The variables, the graph and the initial poses: scripts/pose_graph_simple.py:23-64. -/
noncomputable def simpleProblem (next : Nat) : Py (Graph × Assign ℝ) := do
  let vs := simpleVariables next
  let pose0 ← pyGet vs 0
  let pose1 ← pyGet vs 1
  let fs ← simpleFactors pose0 pose1
  let g ← Graph.make g2oClasses fs
  let a ← Assign.makeFromDefaults g2oClasses vs
  return (g, a)

end Jaxfg
