/- Vocabulary for statements about which steps the damped solvers accept. -/
import Verif.Spec.LocalRate
import Verif.Spec.DampedStep

namespace Jaxfg.Spec
open Matrix

/-- The linear solver solves the normal equations of `A` with a damping of at least `ν lambd`. -/
def DampedAtLeast (ν : ℝ → ℝ) (L : LinSolver ℝ) (A : Coo ℝ) : Prop :=
  ∀ b l i x, b.length = A.shape.2 → 0 ≤ l → L A b l i = .ok x → x.length = A.shape.2 ∧
    ∃ D : Matrix (Fin A.shape.2) (Fin A.shape.2) ℝ, D.PosSemidef ∧ (∀ v, ν l * (v ⬝ᵥ v) ≤ v ⬝ᵥ D *ᵥ v) ∧
      ((cooMatrix A A.shape.1 A.shape.2)ᵀ * cooMatrix A A.shape.1 A.shape.2 + D) *ᵥ Spec.vec x A.shape.2 = Spec.vec b A.shape.2

/-- Wherever the cost is at most `c₀`, a step `d` of length at most `δ` leads to assignments whose residual is at most `M/2 |d|²` longer
than the linearization predicts. -/
def LinearizesWell (C : Ty → VarClass ℝ) (g : GraphOps ℝ) (ws : List Var) (c₀ δ M : ℝ) : Prop :=
  ∀ a c r A d b c' r', IsAssignmentOf C ws a → a.layout = g.layout → g.computeCost a = .ok (c, r) → c ≤ c₀ → g.jacobian a r = .ok A →
    d.length = A.shape.2 → √(sqNorm d) ≤ δ → a.manifoldRetract C ⟨d, g.localLayout⟩ = .ok b → g.computeCost b = .ok (c', r') →
    √c' ≤ √(modelCost (cooMatrix A A.shape.1 A.shape.2) (Spec.vec r A.shape.1) (Spec.vec d A.shape.2)) + M / 2 * sqNorm d

end Jaxfg.Spec
