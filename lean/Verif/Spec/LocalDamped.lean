/- Vocabulary for statements about the convergence of damped solvers near a solution. -/
import Verif.Spec.LocalRate

namespace Jaxfg.Spec
open Matrix

/-- Called with damping `l`, the linear solver solves the normal equations of `A` with `μ` added to the diagonal. -/
def DampedAt (l μ : ℝ) (L : LinSolver ℝ) (A : Coo ℝ) : Prop :=
  ∀ b i x, b.length = A.shape.2 → L A b l i = .ok x → x.length = A.shape.2 ∧
    ((cooMatrix A A.shape.1 A.shape.2)ᵀ * cooMatrix A A.shape.1 A.shape.2 + μ • (1 : Matrix _ _ ℝ)) *ᵥ Spec.vec x A.shape.2 =
      Spec.vec b A.shape.2

/-- Within distance `ρ` of `e` all residuals have the same length, and linearizations predict them with an error of at most `M/2` times the squared distance. -/
def PredictsNear (C : Ty → VarClass ℝ) (g : GraphOps ℝ) (ws : List Var) (e : Assign ℝ) (ρ M : ℝ) : Prop :=
  Near C g ws e ρ fun a r A => ∀ b c' r', IsAssignmentOf C ws b → b.layout = g.layout → storageDist b e ≤ ρ →
    g.computeCost b = .ok (c', r') → r'.length = A.shape.1 ∧
    eucl (Spec.vec r' A.shape.1 - Spec.vec r A.shape.1 -
      cooMatrix A A.shape.1 A.shape.2 *ᵥ Spec.vec (List.zipWith (· - ·) b.storage a.storage) A.shape.2) ≤ M / 2 * storageDist a b ^ 2

/-- The factor by which a step with damping `μ` from distance `δ` reduces the distance to a point with `RegularNear` constants `σ`, `M`
and `τ`. -/
noncomputable def dampedRate (σ M τ μ δ : ℝ) : ℝ := (τ + μ) / (σ + μ) + M / (2 * √σ) * δ

end Jaxfg.Spec
