/- Assignments at which the cost does not depend on some coordinate, to first order. -/
import Verif.Model.Lift
import Verif.Spec.Sparse

namespace Jaxfg.Spec
open Ext (fin nan)

/-- All values that the matrix lists for column `j` are zero. -/
def ZeroAt (A : Coo ℝ) (j : Nat) : Prop := ∀ e ∈ entries A, e.2.1 = j → e.2.2 = 0

/-- At `b` the cost is `c`, the residual `r` and its Jacobian `A`, which has a column of zeros although the gradient is not zero.
NaN propagates: the cost and the residual at `b` moved by NaN are NaN, and the Jacobian at `b` does not depend on the residual (no Huber
loss), also if that is NaN. -/
structure ZeroColumn (CE : Ty → VarClass Ext) (gE : GraphOps Ext) (g : GraphOps ℝ) (b : Assign ℝ) (c : ℝ) (r : List ℝ) (A : Coo ℝ) :
    Prop where
  cost : g.computeCost b = .ok (c, r)
  jac : g.jacobian b r = .ok A
  gradient : ∃ z, A.T.matmul (r.map fun x => -x) = .ok z ∧ ∃ x ∈ z, x ≠ 0
  column : ∃ j < A.shape.2, ZeroAt A j
  nan_cost : ∀ b', (b.map fin).manifoldRetract CE ⟨List.replicate A.shape.2 nan, gE.localLayout⟩ = .ok b' →
    gE.computeCost b' = .ok (nan, List.replicate r.length nan)
  nan_jac : gE.jacobian (b.map fin) (List.replicate r.length nan) = .ok (A.map fin)

end Jaxfg.Spec
