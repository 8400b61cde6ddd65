/- Directions of motion that no measurement sees. -/
import Verif.Spec.Linearize
import Verif.Spec.SolverReal

namespace Jaxfg.Spec
open Matrix hiding vec

/-- Moving all variables at once, every variable `v` by a multiple of `u v`, changes no residual. -/
structure Unseen (F : Nat → FactorClass) (C : Ty → VarClass ℝ) (fs : List Factor) (u : Var → List ℝ) : Prop where
  length : ∀ f ∈ fs, ∀ v ∈ f.vars, (u v).length = (C v.ty).localDim
  residual : ∀ f ∈ fs, ∀ vals, ValuesFor C f.vars vals → ∀ t : ℝ,
    (F f.cls).residual f.self (movedValues C f.vars vals (f.vars.map u) t) = (F f.cls).residual f.self vals

/-- The component of values along a direction: the sum of the products of all coordinates. -/
def component (u : Var → List ℝ) (vars : List Var) (val : Var → Value ℝ) : ℝ :=
  (vars.map fun v => (List.zipWith (· * ·) (u v) (val v).flatten).sum).sum

/-- Solutions of a linear solver are orthogonal to the directions that the matrix maps to zero, if right-hand sides are. -/
def OrthogonalSolutions (L : LinSolver ℝ) : Prop :=
  ∀ A b l i x, CooWF A → b.length = A.shape.2 → L A b l i = .ok x → ∀ v, cooMatrix A A.shape.1 A.shape.2 *ᵥ v = 0 →
    v ⬝ᵥ vec b A.shape.2 = 0 → v ⬝ᵥ vec x A.shape.2 = 0

end Jaxfg.Spec
