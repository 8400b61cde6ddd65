/- The script that solves a pose graph from a g2o file: scripts/pose_graph_g2o.py. Command line, timing, compilation and plots are not
modelled. -/
import Verif.Model.G2o
import Verif.Model.Graph
import Verif.Model.Defaults

namespace Jaxfg

/-- `wrap_huber(factor)`: scripts/pose_graph_g2o.py:63-70. -/
def wrapHuber (delta : ℝ) (f : Factor) : Factor := { f with noise := .huber f.noise ⟨[], [delta]⟩ }

/-- The factors to solve for: scripts/pose_graph_g2o.py:60-72; `huber` is the argument `huber_delta`. -/
def scriptFactors (huber : Option ℝ) (data : G2oData) : List Factor :=
  match huber with
  | some delta => data.factors.map (wrapHuber delta)
  | none => data.factors

/-- The graph and the initial poses: scripts/pose_graph_g2o.py:74-79. -/
noncomputable def scriptProblem (huber : Option ℝ) (data : G2oData) : Py (Graph × Assign ℝ) := do
  let g ← Graph.make g2oClasses (scriptFactors huber data)
  let a ← Assign.makeFromDict g2oClasses data.initialPoses
  return (g, a)

end Jaxfg
