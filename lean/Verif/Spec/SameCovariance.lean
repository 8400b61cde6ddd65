/- What it means that the covariances of two problems are the same. -/
import Verif.Spec.Covariance
import Verif.Model.Graph

namespace Jaxfg.Spec

/-- The covariance object of the first problem can be made if and only if that of the second one can, and then both answer every question
about the variables `vars` with the same matrix, whatever was asked before, given enough recursion. -/
def SameCovariances (lib : CholmodChoice) (F : Nat → FactorClass) (C : Ty → VarClass ℝ) (g g' : Graph) (a a' : Assign ℝ) (vars : List Var) : Prop :=
  ((∃ c, SparseCovariance.make lib F C g a = .ok c) ↔ ∃ c', SparseCovariance.make lib F C g' a' = .ok c') ∧
  ∀ c c', SparseCovariance.make lib F C g a = .ok c → SparseCovariance.make lib F C g' a' = .ok c' →
    ∀ us : List Var, (∀ v ∈ us, v ∈ vars) → ∀ cache cache', Reachable c cache → Reachable c' cache' → ∀ depth : Nat,
      2 * g.localLayout.dim ≤ depth + 1 → 2 * g'.localLayout.dim ≤ depth + 1 →
      ∃ M, (c.computeMarginal C depth us cache).1 = .ok M ∧ (c'.computeMarginal C depth us cache').1 = .ok M

end Jaxfg.Spec
