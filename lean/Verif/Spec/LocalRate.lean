/- Vocabulary for the rate of convergence near a solution of a nonlinear problem. -/
import Verif.Spec.LinearRate
import Mathlib.Analysis.Calculus.Deriv.Basic
import Mathlib.Analysis.Calculus.Deriv.Pi

namespace Jaxfg.Spec
open Matrix
variable {n : Nat}

/-- Euclidean length of a vector. -/
noncomputable def eucl (v : Fin n → ℝ) : ℝ := √(v ⬝ᵥ v)

/-- Euclidean distance between the numbers that two assignments store. -/
noncomputable def storageDist (a b : Assign ℝ) : ℝ := √(sqNorm (List.zipWith (· - ·) a.storage b.storage))

/-- `P a r A` holds for all assignments `a` (in the order of the graph) within distance `ρ` of `e`, with their residual `r` and
Jacobian `A`. -/
def Near (C : Ty → VarClass ℝ) (g : GraphOps ℝ) (ws : List Var) (e : Assign ℝ) (ρ : ℝ) (P : Assign ℝ → List ℝ → Coo ℝ → Prop) : Prop :=
  ∀ a c r A, IsAssignmentOf C ws a → a.layout = g.layout → storageDist a e ≤ ρ → g.computeCost a = .ok (c, r) →
    g.jacobian a r = .ok A → P a r A

/-- `e` is a point with residual `re` near which the problem is regular: within distance `ρ`, no eigenvalue of `AᵀA` is below `σ`, the
linearization predicts the residual of `e` with an error of at most `M/2` times the squared distance, and the gradient that the
Jacobian would give for the residual of `e` is at most `τ` times the distance. (For a solution with residual zero `τ = 0`. For other
stationary points `τ` is the size of the residual times the Lipschitz constant of the Jacobian.) -/
structure RegularNear (C : Ty → VarClass ℝ) (g : GraphOps ℝ) (ws : List Var) (e : Assign ℝ) (re : List ℝ) (ρ σ M τ : ℝ) : Prop where
  assignment : IsAssignmentOf C ws e
  layout : e.layout = g.layout
  cost : ∃ c, g.computeCost e = .ok (c, re)
  stiff : Near C g ws e ρ fun _ _ A => StiffAtLeast σ A
  taylor : Near C g ws e ρ fun a r A =>
    eucl (Spec.vec re A.shape.1 - Spec.vec r A.shape.1 -
      cooMatrix A A.shape.1 A.shape.2 *ᵥ Spec.vec (List.zipWith (· - ·) e.storage a.storage) A.shape.2) ≤ M / 2 * storageDist a e ^ 2
  gradient : Near C g ws e ρ fun a _ A =>
    eucl ((cooMatrix A A.shape.1 A.shape.2)ᵀ *ᵥ Spec.vec re A.shape.1) ≤ τ * storageDist a e

/-- The Jacobian of the graph has `m` rows, and is the derivative of the residual along every retraction path. -/
def DerivativeGraph (C : Ty → VarClass ℝ) (g : GraphOps ℝ) (ws : List Var) (m : Nat) : Prop :=
  ∀ a c r A d (b : ℝ → Assign ℝ) (k : ℝ → ℝ) (ρ : ℝ → List ℝ), IsAssignmentOf C ws a → a.layout = g.layout →
    g.computeCost a = .ok (c, r) → g.jacobian a r = .ok A → d.length = g.localLayout.dim →
    (∀ t, a.manifoldRetract C ⟨d.map (t * ·), g.localLayout⟩ = .ok (b t) ∧ g.computeCost (b t) = .ok (k t, ρ t)) →
    A.shape.1 = m ∧ HasDerivAt (fun t => Spec.vec (ρ t) m) (cooMatrix A m A.shape.2 *ᵥ Spec.vec d A.shape.2) 0

/-- Within distance `ρ` of `e`, the Jacobian is Lipschitz continuous with constant `M`. -/
def LipschitzNear (C : Ty → VarClass ℝ) (g : GraphOps ℝ) (ws : List Var) (e : Assign ℝ) (ρ M : ℝ) : Prop :=
  Near C g ws e ρ fun a _ A => Near C g ws e ρ fun a' _ A' => ∀ v,
    eucl ((cooMatrix A A.shape.1 A.shape.2 - cooMatrix A' A.shape.1 A.shape.2) *ᵥ v) ≤ M * storageDist a a' * eucl v

end Jaxfg.Spec
