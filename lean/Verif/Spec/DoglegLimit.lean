/- Vocabulary for statements about where the damped solvers converge to. -/
import Verif.Spec.Rejections
import Verif.Spec.LocalRate

namespace Jaxfg.Spec

/-- `z` is the gradient `Aᵀ r` of half the cost at the assignments `a`. -/
def GradientAt (g : GraphOps ℝ) (a : Assign ℝ) (z : List ℝ) : Prop :=
  ∃ c r A, g.computeCost a = .ok (c, r) ∧ g.jacobian a r = .ok A ∧ A.T.matmul r = .ok z

/-- Where the cost is at most `c₀`, the Jacobian does not depend on the residual (no Huber loss), stretches no vector by more than `κ`,
and predicts the residual after steps of length at most `δ` up to `M/2` times the squared length. -/
def TameBelow (C : Ty → VarClass ℝ) (g : GraphOps ℝ) (ws : List Var) (c₀ κ δ M : ℝ) : Prop :=
  ∀ a c r, IsAssignmentOf C ws a → a.layout = g.layout → g.computeCost a = .ok (c, r) → c ≤ c₀ →
    ∃ A, JacobianIs C g ws a A ∧ SoftAtMost (κ ^ 2) A ∧ PredictsFrom C g a r A δ M

/-- The states of the dogleg solver when its iteration is not stopped, all of them finite. -/
structure EndlessDogleg (sE : Dogleg Ext) (CE : Ty → VarClass Ext) (gE : GraphOps Ext) (u : Nat → DoglegState ℝ) : Prop where
  start : sE.init gE ((u 0).assignments.map Ext.fin) = .ok ((u 0).map Ext.fin)
  step : ∀ j, ∃ log, sE.step CE gE ((u j).map Ext.fin) = .ok ((u (j + 1)).map Ext.fin, log)

/-- The numbers stored in `a 0, a 1, …` converge to those stored in `e`. -/
def ConvergesTo (a : Nat → Assign ℝ) (e : Assign ℝ) : Prop :=
  ∀ η > 0, ∃ n, ∀ j ≥ n, storageDist (a j) e ≤ η

end Jaxfg.Spec
