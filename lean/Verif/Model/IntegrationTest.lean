/- The problem of tests/test_integration.py. -/
import Verif.Model.G2o
import Verif.Model.Graph
import Verif.Model.Defaults

namespace Jaxfg

/-- A `VariableValue`, tests/test_integration.py:12-15: an array `a` of two numbers and a number `b`. -/
def integrationValue (a₀ a₁ b : ℝ) : Value ℝ := ⟨0, [⟨[2], [a₀, a₁]⟩, ⟨[], [b]⟩]⟩

/-- `Variable` (class number 0), tests/test_integration.py:18-22; the rest is inherited from `VariableBase`. -/
noncomputable def integrationClasses : Ty → VarClass ℝ := fun _ => .euclidean (integrationValue 1 2 3)

/-- `variable.a[i]` -/
def integrationA (vs : List (Value ℝ)) (k i : Nat) : ℝ := (((vs.getD k ⟨0, []⟩).leaves.getD 0 ⟨[], []⟩).data).getD i 0

/-- `variable.b` -/
def integrationB (vs : List (Value ℝ)) (k : Nat) : ℝ := (((vs.getD k ⟨0, []⟩).leaves.getD 1 ⟨[], []⟩).data).getD 0 0

/-- `UniFactor` (class number 0) and `BiFactor` (1), tests/test_integration.py:25-73. The annotations of `compute_residual_vector` are
tuples of `VariableValue`. The Jacobians are those that `jax.jacfwd` finds, unless `v2.b` is 7: there the code has NaN, and the model has
0. -/
noncomputable def integrationFactorClasses : Nat → FactorClass
  | 0 => { hint := some (.tuple [fun t => t == 0])
           residual := fun _ vs => [integrationA vs 0 0 - 2, integrationA vs 0 1 - 3, integrationB vs 0 - 2, integrationB vs 0 - 7]
           jacobians := fun _ _ => [⟨[4, 3], [1, 0, 0, 0, 1, 0, 0, 0, 1, 0, 0, 1]⟩] }
  | _ => { hint := some (.tuple [fun t => t == 0, fun t => t == 0])
           residual := fun _ vs => [integrationA vs 0 0 - integrationA vs 1 1, integrationA vs 0 1 - integrationA vs 1 0,
             integrationB vs 0 - integrationB vs 1, Real.sqrt |integrationB vs 1 - 7|]
           jacobians := fun _ vs => [⟨[4, 3], [1, 0, 0, 0, 1, 0, 0, 0, 1, 0, 0, 0]⟩,
             ⟨[4, 3], [0, -1, 0, -1, 0, 0, 0, 0, -1,
               0, 0, SignType.sign (integrationB vs 1 - 7) / (2 * Real.sqrt |integrationB vs 1 - 7|)]⟩] }

/-- `UniFactor.make(variable)`, tests/test_integration.py:31-36. -/
noncomputable def integrationUni (v : Var) : Factor := ⟨0, [v], .diagonalFromCovariance ⟨[4], List.replicate 4 1⟩, []⟩

/-- `BiFactor.make(variable1, variable2)`, tests/test_integration.py:54-59. -/
noncomputable def integrationBi (u v : Var) : Factor := ⟨1, [u, v], .diagonalFromCovariance ⟨[4], List.replicate 4 1⟩, []⟩

/-- The variables, tests/test_integration.py:79; `next` objects exist before. -/
def integrationVariables (next : Nat) : List Var := [⟨0, next⟩, ⟨0, next + 1⟩]

/-- The graph and the initial values, tests/test_integration.py:79-87. -/
noncomputable def integrationProblem (next : Nat) : Py (Graph × Assign ℝ) := do
  let vs := integrationVariables next
  let v0 ← pyGet vs 0
  let v1 ← pyGet vs 1
  let g ← Graph.make integrationClasses [integrationUni v0, integrationBi v0 v1]
  let a ← Assign.makeFromDefaults integrationClasses vs
  return (g, a)

open Classical in
/-- The assertion of the test, tests/test_integration.py:90-92. -/
noncomputable def integrationAssert (g : Graph) (initial solution : Assign ℝ) : Py Unit := do
  let x ← g.computeJointNll integrationFactorClasses integrationClasses initial false
  let y ← g.computeJointNll integrationFactorClasses integrationClasses solution false
  pyAssert (x > y)

end Jaxfg
