/- Independent vocabulary for statements about values and assignments. -/
import Verif.Model.Assign
import Verif.Spec.Layout

namespace Jaxfg.Spec
variable {α : Type _}

/-- Every leaf has as many entries as its shape says. -/
def WellShaped (v : Value α) : Prop := ∀ a ∈ v.leaves, a.data.length = a.shape.prod

/-- `v` is a value of the variable class `c`: the pytree structure and leaf shapes of the class's default value. -/
def IsValueOf (c : VarClass α) (v : Value α) : Prop :=
  v.treedef = c.default.treedef ∧ v.leaves.map (·.shape) = c.default.leaves.map (·.shape) ∧ WellShaped v

/-- The class table is sane: default values are well shaped, and retractions return values of the class. -/
def GoodClasses (C : Ty → VarClass α) : Prop :=
  ∀ t, WellShaped (C t).default ∧
    ∀ x d, IsValueOf (C t) x → d.length = (C t).localDim → IsValueOf (C t) ((C t).retract x d)

/-- An assignments object over the distinct variables `vars`, as the library's constructors build them: its layout is the
one `StorageLayout.make` computes for some ordering of the variables and the storage has the layout's dimension. -/
def IsAssignmentOf (C : Ty → VarClass α) (vars : List Var) (a : Assign α) : Prop :=
  vars.Nodup ∧ a.layout = Layout.make C vars a.layout.localFlag ∧ a.storage.length = a.layout.dim

/-- The part of the storage vector that belongs to variable `v` (empty if `v` is not stored). -/
def block (C : Ty → VarClass α) (a : Assign α) (v : Var) : List α :=
  match a.layout.indexFromVar.get? v with
  | some i => (a.storage.drop i).take (if a.layout.localFlag then (C v.ty).localDim else (C v.ty).paramDim)
  | none => []

end Jaxfg.Spec
