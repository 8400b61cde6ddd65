/- Vocabulary for statements about rows of rejected steps. -/
import Verif.Spec.Acceptance
import Verif.Model.Lift

namespace Jaxfg.Spec
open Matrix

/-- Steps `d` of length at most `δ` from the assignments `a` (residual `r`, Jacobian `A`) lead to assignments whose residual the
linearization predicts with an error of at most `M/2 |d|²`. -/
def PredictsFrom (C : Ty → VarClass ℝ) (g : GraphOps ℝ) (a : Assign ℝ) (r : List ℝ) (A : Coo ℝ) (δ M : ℝ) : Prop :=
  ∀ d b c' r', d.length = A.shape.2 → √(sqNorm d) ≤ δ → a.manifoldRetract C ⟨d, g.localLayout⟩ = .ok b → g.computeCost b = .ok (c', r') →
    eucl (Spec.vec r' A.shape.1 - Spec.vec r A.shape.1 - cooMatrix A A.shape.1 A.shape.2 *ᵥ Spec.vec d A.shape.2) ≤ M / 2 * sqNorm d

/-- The Jacobian of the graph at `a` is `A` for every residual that a solver can hand to it. (Whitening with a Huber loss makes the
Jacobian depend on the residual. Without one, the residual does not matter.) -/
def JacobianIs (C : Ty → VarClass ℝ) (g : GraphOps ℝ) (ws : List Var) (a : Assign ℝ) (A : Coo ℝ) : Prop :=
  ∀ b c r, IsAssignmentOf C ws b → b.layout = g.layout → g.computeCost b = .ok (c, r) → g.jacobian a r = .ok A

/-- A noise model without Huber loss. -/
def NoHuber : Noise → Prop
  | .gaussian _ => True
  | .diagonal _ => True
  | .huber _ _ => False

/-- `u 0, …, u k` are states of the solver, each a step after the one before, and no step changes the assignments. -/
def RejectedLM (sE : LevenbergMarquardt Ext) (CE : Ty → VarClass Ext) (gE : GraphOps Ext) (u : Nat → LMState ℝ) (k : Nat) : Prop :=
  ∀ j < k, (∃ log, sE.step CE gE ((u j).map Ext.fin) = .ok ((u (j + 1)).map Ext.fin, log)) ∧
    (u (j + 1)).assignments = (u j).assignments

/-- `u 0, …, u k` are states of the solver, each a step after the one before, and no step changes the assignments. -/
def RejectedDogleg (sE : Dogleg Ext) (CE : Ty → VarClass Ext) (gE : GraphOps Ext) (u : Nat → DoglegState ℝ) (k : Nat) : Prop :=
  ∀ j < k, (∃ log, sE.step CE gE ((u j).map Ext.fin) = .ok ((u (j + 1)).map Ext.fin, log)) ∧
    (u (j + 1)).assignments = (u j).assignments

/-- A bound for the second-order terms of the cost after a step, per squared length, where `κ` bounds the Jacobian, `M` is the constant
of the linearization, the steps are not longer than `δ`, and the cost is `c`. -/
noncomputable def secondOrder (κ M δ c : ℝ) : ℝ := 4 * κ ^ 2 + 13 * κ * M * δ + 5 * M * √c + M ^ 2 * δ ^ 2 / 4

end Jaxfg.Spec
