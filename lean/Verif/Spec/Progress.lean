/- What keeps a solver from raising. -/
import Verif.Model.Lift
import Verif.Spec.SolverReal

namespace Jaxfg.Spec
open Ext (fin)

/-- The linear solver solves every system with the matrix `A`, without raising, and its solutions have the right size. -/
def TotalSolver (L : LinSolver ℝ) (A : Coo ℝ) : Prop :=
  ∀ b l i, b.length = A.shape.2 → 0 ≤ l → ∃ x, L A b l i = .ok x ∧ x.length = A.shape.2

/-- From `a`, `solve` returns finite numbers: no exception and no endless loop. The result has the layout of `a`. Fuel (the number of
iterations that the model of the loop may make) is needed for `max(1, N)` steps only, and more fuel changes nothing. -/
def Returns (C : Ty → VarClass ℝ) (solve : Nat → Assign Ext → Py (Option (Assign Ext × List (Msg Ext)))) (N : Int)
    (vars : List Var) (a : Assign ℝ) : Prop :=
  ∃ (o : Assign ℝ) (log : List (Msg Ext)), IsAssignmentOf C vars o ∧ o.layout = a.layout ∧
    ∀ fuel : Nat, max 1 N ≤ fuel → solve fuel (a.map fin) = .ok (some (o.map fin, log))

end Jaxfg.Spec
