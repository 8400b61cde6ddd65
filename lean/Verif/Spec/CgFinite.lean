/- Problems on which conjugate gradients meet no division by zero. -/
import Verif.Spec.ZeroColumn

namespace Jaxfg.Spec

/-- `r` is the residual at some assignment in `P`. -/
def ResidualIn (g : GraphOps ℝ) (P : Assign ℝ → Prop) (r : List ℝ) : Prop := ∃ a c, P a ∧ g.computeCost a = .ok (c, r)

/-- A set `P` of assignments that retractions do not leave, and in which no Jacobian has a column of zeros. The second argument of a
Jacobian is the residual that Huber losses look at. -/
structure NoZeroColumns (C : Ty → VarClass ℝ) (g : GraphOps ℝ) (P : Assign ℝ → Prop) : Prop where
  retract : ∀ a d b, P a → a.manifoldRetract C ⟨d, g.localLayout⟩ = .ok b → P b
  columns : ∀ a r A, P a → ResidualIn g P r → g.jacobian a r = .ok A → CooWF A ∧ ∀ j < A.shape.2, ¬ ZeroAt A j

end Jaxfg.Spec
