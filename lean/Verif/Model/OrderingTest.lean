/- The problem of tests/test_variable_and_factor_ordering.py. -/
import Verif.Model.Compiled
import Verif.Model.Defaults
import Verif.Model.Lift

namespace Jaxfg

/-- Class numbers of `VariableA` (0) and `VariableB` (1), tests/test_variable_and_factor_ordering.py:14-25. Both have the scalar array
`1.0` as default, and inherit the rest from `VariableBase`. -/
noncomputable def orderingClasses : Ty → VarClass ℝ := fun _ => .euclidean ⟨0, [⟨[], [1]⟩]⟩

/-- `PriorFactor` (class number 0) and `PairFactor` (1), tests/test_variable_and_factor_ordering.py:32-69. The annotation of
`compute_residual_vector` is a tuple of arrays; the Jacobians are those that `jax.jacfwd` finds. -/
noncomputable def orderingFactorClasses : Nat → FactorClass
  | 0 => { hint := some (.tuple [fun t => t == 0])
           residual := fun s vs => [(vs.getD 0 ⟨0, []⟩).flatten.getD 0 0 - (s.params.getD 0 ⟨[], []⟩).data.getD 0 0]
           jacobians := fun _ _ => [⟨[1, 1], [1]⟩] }
  | _ => { hint := some (.tuple [fun t => t == 0, fun t => t == 0])
           residual := fun s vs => [(vs.getD 0 ⟨0, []⟩).flatten.getD 0 0 + (vs.getD 1 ⟨0, []⟩).flatten.getD 0 0 -
             (s.params.getD 0 ⟨[], []⟩).data.getD 0 0]
           jacobians := fun _ _ => [⟨[1, 1], [1]⟩, ⟨[1, 1], [1]⟩] }

/-- `PriorFactor.make(variable, prior)`, tests/test_variable_and_factor_ordering.py:37-42. -/
noncomputable def orderingPrior (v : Var) (prior : ℝ) : Factor := ⟨0, [v], .diagonalFromCovariance ⟨[1], [1]⟩, [⟨[], [prior]⟩]⟩

/-- `PairFactor.make(variable1, variable2, pair_value)`, tests/test_variable_and_factor_ordering.py:57-64. -/
noncomputable def orderingPair (u v : Var) (value : ℝ) : Factor := ⟨1, [u, v], .diagonalFromCovariance ⟨[1], [1]⟩, [⟨[], [value]⟩]⟩

/-- The variables, tests/test_variable_and_factor_ordering.py:79; `n` objects exist before. -/
def orderingVariables (n : Nat) : List Var := [⟨0, n⟩, ⟨0, n + 1⟩, ⟨1, n + 2⟩]

/-- The variables in the other order of the test, tests/test_variable_and_factor_ordering.py:91. -/
def orderingVariables' (n : Nat) : List Var := [⟨0, n + 1⟩, ⟨0, n⟩, ⟨1, n + 2⟩]

/-- The factors, tests/test_variable_and_factor_ordering.py:80-85, with values 3, 7, 1 and 2 in the test. -/
noncomputable def orderingFactors (n : Nat) (p₁ p₂ q₁ q₂ : ℝ) : List Factor :=
  [orderingPrior ⟨0, n⟩ p₁, orderingPrior ⟨0, n + 1⟩ p₂, orderingPair ⟨0, n⟩ ⟨1, n + 2⟩ q₁, orderingPair ⟨0, n + 1⟩ ⟨1, n + 2⟩ q₂]

/-- One round of the loop, tests/test_variable_and_factor_ordering.py:93-99: graph, initial values and solution, and the process
afterwards. The loop of the solver runs with `fuel`. `solver` is the number of the pytree structure of
`GaussNewtonSolver(verbose=False)`. -/
noncomputable def orderingRound (stale : Pattern → ScipyCoo ℝ → ℝ → List ℝ → Py (List ℝ)) (solver fuel : Nat)
    (round : List Factor × List Var) (proc : Process) : Py (Option (Assign Ext) × Process) := do
  let g ← Graph.make orderingClasses round.1
  let a ← Assign.makeFromDefaults orderingClasses round.2
  let p := proc.solve stale ⟨solver, g, a.layout, a.storage.length⟩
  let s : GaussNewton Ext := { Criteria.defaults.map Ext.fin with verbose := false, linear := LinSolver.lift p.1 }
  let r ← s.solve (fun t => (orderingClasses t).lift) (g.ops orderingFactorClasses orderingClasses).lift fuel (a.map Ext.fin)
  return (r.map (·.1), p.2)

/-- The loop, tests/test_variable_and_factor_ordering.py:87-100: the solutions of all rounds. A solve that does not end within `fuel`
steps gives `none`. -/
noncomputable def orderingLoop (stale : Pattern → ScipyCoo ℝ → ℝ → List ℝ → Py (List ℝ)) (solver fuel : Nat) :
    List (List Factor × List Var) → Process → Py (List (Option (Assign Ext)))
  | [], _ => .ok []
  | round :: rounds, proc => do
    let r ← orderingRound stale solver fuel round proc
    let rest ← orderingLoop stale solver fuel rounds r.2
    return r.1 :: rest

end Jaxfg
