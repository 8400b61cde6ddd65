/- Local minima of the cost. -/
import Verif.Spec.Accuracy

namespace Jaxfg.Spec

/-- The values `val` are a local minimum: no values reached from them by retractions with sufficiently small deltas (all entries
smaller than some `ε > 0`) have a smaller cost. -/
def IsLocalMinimum (F : Nat → FactorClass) (C : Ty → VarClass ℝ) (fs : List Factor) (vars : List Var) (val : Var → Value ℝ) : Prop :=
  ∃ c ε : ℝ, HasCost F fs val c ∧ 0 < ε ∧ ∀ (δ : Var → List ℝ) (c' : ℝ),
    (∀ v ∈ vars, (δ v).length = (C v.ty).localDim ∧ ∀ x ∈ δ v, |x| < ε) →
    HasCost F fs (fun v => (C v.ty).retract (val v) (δ v)) c' → c ≤ c'

end Jaxfg.Spec
