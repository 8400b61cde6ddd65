/- The tests of the solvers on a pose graph, tests/test_pose_graphs.py. -/
import Verif.Model.SimpleScript

namespace Jaxfg

/-- The factors of the three tests, tests/test_pose_graphs.py:16-39, 81-104, 146-169. The covariance `[1.0, 1.0, 1.0]` of the first
factor of the first test, a list, is converted to the same array by `make_from_covariance`. -/
noncomputable def poseTestFactors (pose0 pose1 : Var) : Py (List Factor) := do
  let noise := Noise.diagonalFromCovariance ⟨[3], List.replicate 3 1⟩
  let mu0 := se2Value 0 0 0
  let mu1 := se2Value 2 0 0
  let T := se2Value 1 0 0
  let f0 := PriorFactor.make (priorCls mu0.treedef) pose0 mu0 noise
  let f1 := PriorFactor.make (priorCls mu1.treedef) pose1 mu1 noise
  let f2 ← BetweenFactor.make (betweenCls T.treedef) (fun t => (g2oGroup t).treedef) pose0 pose1 T noise
  return [f0, f1, f2]

/-- The variables, the graph and the initial poses, tests/test_pose_graphs.py:11-44, 76-109, 141-174; `next` objects exist before. -/
noncomputable def poseTestProblem (next : Nat) : Py (Graph × Assign ℝ) := do
  let vs : List Var := [⟨se2Ty, next⟩, ⟨se2Ty, next + 1⟩]
  let pose0 ← pyGet vs 0
  let pose1 ← pyGet vs 1
  let fs ← poseTestFactors pose0 pose1
  let g ← Graph.make g2oClasses fs
  let a ← Assign.makeFromDefaults g2oClasses vs
  return (g, a)

open Classical in
/-- The assertions on the solution, tests/test_pose_graphs.py:52-72, 117-137, 180-200 (that on `repr` is not modelled). -/
noncomputable def poseTestAsserts (next : Nat) (g : Graph) (initial solution : Assign ℝ) : Py Unit := do
  let x ← g.computeJointNll g2oFactors g2oClasses initial false
  let y ← g.computeJointNll g2oFactors g2oClasses solution false
  pyAssert (x > y)
  let T0 ← solution.getValue g2oClasses ⟨se2Ty, next⟩
  pyAssert (T0.treedef = LieGroup.se2.treedef)
  let stacked ← solution.getStackedValue g2oClasses se2Ty
  pyAssert (stacked.all fun T => T.treedef = LieGroup.se2.treedef)
  let first ← pyGet stacked 0
  pyAssert (T0.flatten = first.flatten)
  let T1 ← solution.getValue g2oClasses ⟨se2Ty, next + 1⟩
  let second ← pyGet stacked 1
  pyAssert (T1.flatten = second.flatten)

end Jaxfg
