/- Solvers of damped normal equations. -/
import Verif.Model.Solver
import Verif.Model.Graph
import Verif.Spec.Sparse

namespace Jaxfg.Spec
open Matrix

/-- Without further damping, the linear solver returns the solution of `(AᵀA + beta I) x = b` for every matrix and every right hand side
of the right size. -/
def ExactlyDamped (L : LinSolver ℝ) (beta : ℝ) : Prop :=
  ∀ (A : Coo ℝ) (b : List ℝ) (i : Nat), CooWF A → b.length = A.shape.2 → ∃ x, L A b 0 i = .ok x ∧ x.length = A.shape.2 ∧
    (let M := cooMatrix A A.shape.1 A.shape.2
     (Mᵀ * M + beta • (1 : Matrix (Fin A.shape.2) (Fin A.shape.2) ℝ)) *ᵥ vec x A.shape.2 = vec b A.shape.2)

/-- The factors of `fs` selected by `p` share no variable with the others. -/
def Separate (fs : List Factor) (p : Factor → Bool) : Prop :=
  ∀ f ∈ fs, ∀ f' ∈ fs, p f = true → p f' = false → ∀ v ∈ f.vars, v ∉ f'.vars

end Jaxfg.Spec
