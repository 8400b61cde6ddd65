/- Independent vocabulary for statements about storage layouts. -/
import Verif.Model.Layout

namespace Jaxfg.Spec

/-- Storage index `k` lies in the block that the layout gives to variable `v`: the block starts at
`index_from_variable[v]` and has the size `dim` of the variable. -/
def InBlock (l : Layout) (dim : Var → Nat) (v : Var) (k : Nat) : Prop :=
  ∃ i, l.indexFromVar.get? v = some i ∧ i ≤ k ∧ k < i + dim v

/-- The types of the variables, each once, in order of first appearance. -/
def firstTypes : List Var → List Ty
  | [] => []
  | v :: vs => v.ty :: (firstTypes vs).filter (· ≠ v.ty)

/-- The variables grouped by type: types in order of first appearance, input order inside each type. -/
def grouped (vars : List Var) : List Var :=
  (firstTypes vars).flatMap fun t => vars.filter (·.ty = t)

end Jaxfg.Spec
