/- The problem with an outlier of tests/test_huber.py. -/
import Verif.Model.SimpleScript

namespace Jaxfg

/-- The factors, tests/test_huber.py:15-36: `n` measurements of one pose at the origin (two in the test) and one at `(x, y)`
(`(2000, 200)` in the test), which has the threshold `delta` if it is `some delta` (1 in the test, with `use_huber`). -/
noncomputable def outlierFactors (v : Var) (n : Nat) (x y : ℝ) (delta : Option ℝ) : List Factor :=
  let gaussian := Noise.diagonalFromCovariance ⟨[3], List.replicate 3 1⟩
  let noise := match delta with
    | none => gaussian
    | some d => .huber gaussian ⟨[], [d]⟩
  let mu := se2Value 0 0 0
  let outlier := se2Value x y 0
  List.replicate n (PriorFactor.make (priorCls mu.treedef) v mu gaussian) ++
    [PriorFactor.make (priorCls outlier.treedef) v outlier noise]

/-- The variable, the graph and the initial pose, tests/test_huber.py:11-41; `next` objects exist before. -/
noncomputable def outlierProblem (next n : Nat) (x y : ℝ) (delta : Option ℝ) : Py (Graph × Assign ℝ) := do
  let vs : List Var := [⟨se2Ty, next⟩]
  let v ← pyGet vs 0
  let g ← Graph.make g2oClasses (outlierFactors v n x y delta)
  let a ← Assign.makeFromDefaults g2oClasses vs
  return (g, a)

open Classical in
/-- What the test does with the solution, tests/test_huber.py:50-64: the assertions on the stored and stacked values (that on
`repr` is not modelled), and the norm of the logarithm of the pose. -/
noncomputable def outlierError (next : Nat) (solution : Assign ℝ) : Py ℝ := do
  let T ← solution.getValue g2oClasses ⟨se2Ty, next⟩
  pyAssert (T.treedef = LieGroup.se2.treedef)
  let stacked ← solution.getStackedValue g2oClasses se2Ty
  pyAssert (stacked.all fun T' => T'.treedef = LieGroup.se2.treedef)
  let first ← pyGet stacked 0
  pyAssert (T.flatten = first.flatten)
  return norm2 (LieGroup.se2.log T.flatten)

end Jaxfg
