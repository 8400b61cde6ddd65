/- Vocabulary for the rate of convergence on linear problems. -/
import Verif.Spec.SolverReal

namespace Jaxfg.Spec
open Matrix

/-- The solution that the linear solver returns for damping `l` solves `(AᵀA + D) x = b` for some non-negative `D` of norm at most
`μ l`. For CHOLMOD `D = (l + 10⁻⁵) I`; for conjugate gradients run to the end, `D = l diag(AᵀA)`. -/
def DampedUpTo (μ : ℝ → ℝ) (L : LinSolver ℝ) (A : Coo ℝ) : Prop :=
  ∀ b l i x, b.length = A.shape.2 → 0 ≤ l → L A b l i = .ok x → x.length = A.shape.2 ∧
    ∃ D : Matrix (Fin A.shape.2) (Fin A.shape.2) ℝ, D.PosSemidef ∧ (∀ v, v ⬝ᵥ D *ᵥ v ≤ μ l * (v ⬝ᵥ v)) ∧
      ((cooMatrix A A.shape.1 A.shape.2)ᵀ * cooMatrix A A.shape.1 A.shape.2 + D) *ᵥ Spec.vec x A.shape.2 = Spec.vec b A.shape.2

/-- No eigenvalue of `AᵀA` is below `σ`. -/
def StiffAtLeast (σ : ℝ) (A : Coo ℝ) : Prop :=
  ∀ v : Fin A.shape.2 → ℝ, σ * (v ⬝ᵥ v) ≤
    (cooMatrix A A.shape.1 A.shape.2 *ᵥ v) ⬝ᵥ (cooMatrix A A.shape.1 A.shape.2 *ᵥ v)

/-- No eigenvalue of `AᵀA` other than zero is below `σ`. -/
def StiffWhereSeen (σ : ℝ) (A : Coo ℝ) : Prop :=
  let M := cooMatrix A A.shape.1 A.shape.2
  ∀ v : Fin A.shape.2 → ℝ, σ * ((M *ᵥ v) ⬝ᵥ (M *ᵥ v)) ≤ ((Mᵀ * M) *ᵥ v) ⬝ᵥ ((Mᵀ * M) *ᵥ v)

end Jaxfg.Spec
