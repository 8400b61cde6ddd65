/- The tests of covariances, tests/test_marginalization.py. -/
import Verif.Model.SimpleScript
import Verif.Model.Covariance

namespace Jaxfg

open Classical in
/-- `numpy.testing.assert_allclose(actual, desired, atol=1e-8, rtol=1e-5)` (library) for matrices as lists of rows. -/
noncomputable def assertAllclose (actual desired : List (List ℝ)) : Py Unit :=
  pyAssert (List.Forall₂ (List.Forall₂ fun x y => |x - y| ≤ 1e-8 + 1e-5 * |y|) actual desired)

/-- The rows of a matrix. -/
def matRows {m n : Nat} (M : Matrix (Fin m) (Fin n) ℝ) : List (List ℝ) := List.ofFn fun i => List.ofFn fun j => M i j

/-- `test_marginalization` and `test_marginalization_double`, tests/test_marginalization.py:9-65, as one function: `copies` priors (1 or
2) with covariance `S Sᵀ`, where `S` is drawn at random; `next` objects exist before, and Python allows `depth` nested calls. -/
noncomputable def marginalizationTest (lib : CholmodChoice) (depth next copies : Nat) (S : Matrix (Fin 3) (Fin 3) ℝ) : Py Unit := do
  let v : Var := ⟨se2Ty, next⟩
  let pose := LieGroup.se2.value LieGroup.se2.identity
  let cov := S * S.transpose
  let noise ← Noise.gaussianFromCovariance (.ofMat cov)
  let g ← Graph.make g2oClasses (List.replicate copies (PriorFactor.make (priorCls pose.treedef) v pose noise))
  let a ← Assign.makeFromDict g2oClasses (PyDict.empty.set v pose)
  let c ← SparseCovariance.make lib g2oFactors g2oClasses g a
  let computed ← (c.computeMarginal g2oClasses depth [v] .empty).1
  assertAllclose (matRows cov) (computed.map fun row => row.map (· * copies))

/-- The factors of `test_marginalization_as_dense`, tests/test_marginalization.py:74-90, for any measured poses. -/
noncomputable def asDenseFactors (pose0 pose1 : Var) (mu0 mu1 T : List ℝ) : Py (List Factor) := do
  let noise := Noise.gaussian (.ofMat (1 : Matrix (Fin 3) (Fin 3) ℝ))
  let mu0 := LieGroup.se2.value mu0
  let mu1 := LieGroup.se2.value mu1
  let T := LieGroup.se2.value T
  let f0 := PriorFactor.make (priorCls mu0.treedef) pose0 mu0 noise
  let f1 := PriorFactor.make (priorCls mu1.treedef) pose1 mu1 noise
  let f2 ← BetweenFactor.make (betweenCls T.treedef) (fun t => (g2oGroup t).treedef) pose0 pose1 T noise
  return [f0, f1, f2]

open Classical in
/-- `test_marginalization_as_dense`, tests/test_marginalization.py:68-126. The assignments that `graph.solve` found (lines 93-97) are an
argument. `onp.linalg.inv` raises for singular matrices. -/
noncomputable def asDenseTest (lib : CholmodChoice) (depth next : Nat) (mu0 mu1 T : List ℝ) (solution : Assign ℝ) : Py Unit := do
  let fs ← asDenseFactors ⟨se2Ty, next⟩ ⟨se2Ty, next + 1⟩ mu0 mu1 T
  let g ← Graph.make g2oClasses fs
  let c ← SparseCovariance.make lib g2oFactors g2oClasses g solution
  let r ← g.computeWhitenedResidualVector g2oFactors g2oClasses solution
  let A ← g.computeWhitenedResidualJacobian g2oFactors g2oClasses solution r
  let rows ← A.asDense
  let M : Matrix (Fin A.shape.1) (Fin A.shape.2) ℝ := fun i j => (rows.getD i []).getD j 0
  let H := M.transpose * M
  if H.det = 0 then throw .value
  let covariance0 := matRows H⁻¹
  let r1 := c.asDense depth false .empty
  let covariance1 ← r1.1
  let covariance2 ← (c.asDense depth true r1.2).1
  pyAssert (A.shape.2 = 6)
  assertAllclose covariance0 covariance1
  assertAllclose covariance1 covariance2

end Jaxfg
